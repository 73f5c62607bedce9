{"id": "C01", "title": "Rx grammar at the protected observer", "statement": "An observer protected by the library (the observer given to any operator built on a safe observer: from_iterable, single, fail, skip, skip_last, take, take_last, distinct_until_changed, zip_seq, merge, ...) is only ever called in the pattern asend* (athrow | aclose)?, whatever the producer calls, in whatever order, and whether or not the observer raises.", "quantifier": "all sequences of producer calls (well-formed or not), all schedules of the mailbox worker, all choices of which observer calls raise", "why_tests_cant": "A test runs one interleaving of the event loop; the claim is about every interleaving. A test fixes one finite input; the claim is about every input sequence (including ill-formed ones).", "anchors": ["aioreactive/observers.py:safe_observer"]}
{"id": "C02", "title": "Observer calls are serialised", "statement": "Calls to a protected observer never overlap: a new asend/athrow/aclose is only started after the previous call on that observer has returned or raised, even if producers call concurrently while the observer is suspended.", "quantifier": "all schedules, all suspension lengths of the observer, all concurrent producers", "why_tests_cant": "A test runs one interleaving of the event loop; the claim is about every interleaving.", "anchors": ["aioreactive/observers.py:safe_observer"]}
{"id": "C03", "title": "FIFO, exactly-once delivery up to the first terminal event", "statement": "A protected observer that does not raise receives exactly the producer's notifications in posting order, each once, up to and including the first terminal one: at every moment the received sequence is a prefix of that, and once the mailbox is drained it is all of it.", "quantifier": "all posted sequences, all schedules", "why_tests_cant": "A test runs one interleaving of the event loop; the claim is about every interleaving. A test fixes one finite input; the claim is about every input sequence (including ill-formed ones).", "anchors": ["aioreactive/observers.py:safe_observer"]}
{"id": "C04", "title": "Subscription is disposed before the terminal notification is delivered", "statement": "When the terminal notification is caused by the producer, the disposable given to the safe observer is disposed exactly once, and that dispose has finished before athrow/aclose is called on the observer; while no terminal has been taken up nothing is disposed.", "quantifier": "all posted sequences and schedules", "why_tests_cant": "A test runs one interleaving of the event loop; the claim is about every interleaving.", "anchors": ["aioreactive/observers.py:safe_observer"]}
{"id": "C05", "title": "An exception raised by the observer comes back to it as its last call", "statement": "If the observer raises ex, an Exception, from asend, the very next and last call it receives is athrow(ex); no later value, error or completion reaches it.", "quantifier": "all posted sequences, all positions at which asend raises, all exceptions, all schedules", "why_tests_cant": "A test fixes one finite input; the claim is about every input sequence (including ill-formed ones).", "anchors": ["aioreactive/observers.py:safe_observer"]}
{"id": "C06", "title": "Auto-detach: terminal notification disposes the source subscription", "statement": "When a stream built by auto_detach terminates with error or completion, every upstream subscription it registered is disposed.", "quantifier": "all orders of (subscribe returns, terminal notification processed, worker steps), both behaviours of a cancelled mailbox", "why_tests_cant": "A test runs one interleaving of the event loop; the claim is about every interleaving.", "anchors": ["aioreactive/observers.py:auto_detach_observer"]}
{"id": "C07", "title": "Pipelines of single-source operators are schedule-independent", "statement": "For any chain of mailbox stages (operators) fed with a notification sequence, the final observer receives, under every schedule, a prefix of one sequence that depends only on the input; every schedule can be completed, cannot run forever, and when nothing is left to do the whole sequence has been delivered.", "quantifier": "all chain lengths, all stage programs, all inputs, all schedules", "why_tests_cant": "A test runs one interleaving of the event loop; the claim is about every interleaving.", "anchors": ["aioreactive/observers.py:safe_observer", "aioreactive/transform.py:transform", "aioreactive/filtering.py"]}
{"id": "C08", "title": "AsyncSubject broadcasts to exactly the current subscribers, in subscription order", "statement": "asend(v) on a non-stopped AsyncSubject delivers v exactly once to each observer subscribed when the call is made (observer objects that are subscribed once), in subscription order (up to an observer that raises, whose exception goes to the sender); observers subscribed later do not get it and with no observers the value is dropped.", "quantifier": "all histories of subscribe/unsubscribe/send/close, all interleavings of overlapping sends", "why_tests_cant": "A test runs one interleaving of the event loop; the claim is about every interleaving.", "anchors": ["aioreactive/subject.py:AsyncMultiSubject"]}
{"id": "C09", "title": "AsyncSubject: nothing after a terminal event", "statement": "After athrow or aclose has been called on an AsyncSubject, later asend/athrow/aclose calls deliver nothing to anybody, so each subscriber gets at most one terminal notification from it.", "quantifier": "all call histories and interleavings", "why_tests_cant": "A test runs one interleaving of the event loop; the claim is about every interleaving.", "anchors": ["aioreactive/subject.py:AsyncMultiSubject"]}
{"id": "C10", "title": "AsyncSubject: use after dispose raises", "statement": "After dispose_async() on an AsyncSubject, asend, athrow, aclose and subscribe_async raise ObjectDisposedException and deliver nothing.", "quantifier": "all histories before and after the dispose", "why_tests_cant": "A test fixes one finite input; the claim is about every input sequence (including ill-formed ones).", "anchors": ["aioreactive/subject.py:AsyncMultiSubject"]}
{"id": "C11", "title": "AsyncSubject: disposing a subscription removes only that subscription", "statement": "Disposing a subscription stops later sends from reaching it, leaves all other subscriptions and their order untouched, and disposing it again changes nothing.", "quantifier": "all subscriber lists and histories", "why_tests_cant": "A test fixes one finite input; the claim is about every input sequence (including ill-formed ones).", "anchors": ["aioreactive/subject.py:AsyncMultiSubject.subscribe_async"]}
{"id": "C12", "title": "AsyncSingleSubject is cold: early events wait for the observer", "statement": "Events sent to an AsyncSingleSubject before it has an observer are held back (the senders wait) and, once an observer subscribes, are delivered in the order they were sent, each once, as long as the stream does not end, the subject is not disposed and no waiting sender is cancelled.", "quantifier": "all numbers of waiting senders, all kinds of events, all schedules", "why_tests_cant": "A test runs one interleaving of the event loop; the claim is about every interleaving.", "anchors": ["aioreactive/subject.py:AsyncSingleSubject"]}
{"id": "C13", "title": "AsyncSingleSubject: nothing after a terminal event", "statement": "Once athrow or aclose has delivered its terminal notification, no further notification reaches the observer of an AsyncSingleSubject.", "quantifier": "all histories, all interleavings of concurrent callers", "why_tests_cant": "A test runs one interleaving of the event loop; the claim is about every interleaving.", "anchors": ["aioreactive/subject.py:AsyncSingleSubject"]}
{"id": "C14", "title": "AsyncSingleSubject: use after dispose raises", "statement": "After dispose_async() on an AsyncSingleSubject every later asend/athrow/aclose/subscribe_async raises ObjectDisposedException.", "quantifier": "all histories before the dispose", "why_tests_cant": "A test fixes one finite input; the claim is about every input sequence (including ill-formed ones).", "anchors": ["aioreactive/subject.py:AsyncSingleSubject"]}
{"id": "C15", "title": "Awaiting an AsyncAwaitableObserver yields the last value before close", "statement": "The future resolves with the last value sent before aclose; it is cancelled if there was none; it fails with the error of the first athrow; nothing after the first terminal call (or dispose) changes the outcome.", "quantifier": "all call sequences", "why_tests_cant": "A test fixes one finite input; the claim is about every input sequence (including ill-formed ones).", "anchors": ["aioreactive/observers.py:AsyncAwaitableObserver"]}
{"id": "C16", "title": "run() returns the final value of the stream", "statement": "run(source) returns the last value the source sent before completing, raises the source's error if it failed, and always disposes the subscription, including on timeout.", "quantifier": "all sources, timeouts and schedules", "why_tests_cant": "A test runs one interleaving of the event loop; the claim is about every interleaving.", "anchors": ["aioreactive/subscription.py:run"]}
{"id": "C17", "title": "Async iteration returns the sent values in order, once each", "statement": "Iterating an AsyncIteratorObserver yields exactly the values its producers handed over, in hand-over order, without loss or duplication.", "quantifier": "all numbers of producers, all schedules of producers and consumer", "why_tests_cant": "A test runs one interleaving of the event loop; the claim is about every interleaving.", "anchors": ["aioreactive/observers.py:AsyncIteratorObserver"]}
{"id": "C18", "title": "Async iteration applies back-pressure", "statement": "At most one sent value is waiting to be picked up at any time, and a producer's asend() only returns after the consumer has taken that value.", "quantifier": "all schedules", "why_tests_cant": "A test runs one interleaving of the event loop; the claim is about every interleaving.", "anchors": ["aioreactive/observers.py:AsyncIteratorObserver"]}
{"id": "C19", "title": "Async iteration cannot deadlock and ends with the stream", "statement": "Whenever the consumer is waiting and some producer has not handed over its event, some task can run; when the stream closes (fails), iteration ends (raises the error) and the closing call returns to the producer.", "quantifier": "all schedules", "why_tests_cant": "A test runs one interleaving of the event loop; the claim is about every interleaving.", "anchors": ["aioreactive/observers.py:AsyncIteratorObserver"]}
{"id": "C20", "title": "from_iterable delivers the elements in order and completes", "statement": "Subscribing to from_iterable(xs) delivers every element of xs once, in order, and then completion; if iterating xs raises, the error is delivered.", "quantifier": "all finite iterables (including ones that raise midway), all schedules", "why_tests_cant": "A test fixes one finite input; the claim is about every input sequence (including ill-formed ones).", "anchors": ["aioreactive/create.py:of_seq", "aioreactive/create.py:of_async_worker"]}
{"id": "C21", "title": "single, empty, never and fail", "statement": "single(v) delivers exactly v and then completion, empty() exactly completion, never() nothing, fail(e) exactly the error e.", "quantifier": "all values, errors and schedules", "why_tests_cant": "A test fixes one finite input; the claim is about every input sequence (including ill-formed ones).", "anchors": ["aioreactive/create.py:single", "aioreactive/create.py:empty", "aioreactive/create.py:never", "aioreactive/create.py:fail"]}
{"id": "C22", "title": "of_async delivers the workflow's result or its exception", "statement": "of_async(w) delivers w's result then completion, or exactly the exception w raised, never both; after the subscription is disposed nothing is delivered.", "quantifier": "all workflow outcomes (value, exception, cancellation before or during it), all schedules", "why_tests_cant": "A test runs one interleaving of the event loop; the claim is about every interleaving.", "anchors": ["aioreactive/create.py:of_async", "aioreactive/create.py:of_async_worker"]}
{"id": "C23", "title": "from_async_iterable delivers the elements in order and completes", "statement": "from_async_iterable(it) delivers the elements of it in order, then completion; if it raises, the error is delivered; if the observer raises, the observer gets that error and iteration stops.", "quantifier": "all async iterables including failing ones, all observers", "why_tests_cant": "A test fixes one finite input; the claim is about every input sequence (including ill-formed ones).", "anchors": ["aioreactive/create.py:of_async_iterable"]}
{"id": "C24", "title": "defer calls the factory once per subscription", "statement": "Each subscription to defer(f) calls f exactly once and subscribes to its result; if f raises an Exception ex, that subscriber gets exactly the error ex.", "quantifier": "all factories and numbers of subscriptions", "why_tests_cant": "A test fixes one finite input; the claim is about every input sequence (including ill-formed ones).", "anchors": ["aioreactive/create.py:defer"]}
{"id": "C25", "title": "interval counts 0,1,2,... on schedule", "statement": "interval(s, p) sends k at subscription time + s + k*p for a prompt observer and never earlier; with p = 0 (timer) it sends only 0 and completes; values are consecutive from 0; after dispose no further value is sent (unless the observer itself swallows the CancelledError thrown into it).", "quantifier": "all s, p, all k, all observer delays", "why_tests_cant": "Unbounded number of ticks; a test sees a few.", "anchors": ["aioreactive/create.py:interval", "aioreactive/create.py:timer"]}
{"id": "C26", "title": "Disposing a from_iterable subscription stops delivery", "statement": "After dispose_async() on a from_iterable subscription returns, no further element is delivered.", "quantifier": "all iterables and all moments of disposal", "why_tests_cant": "A test runs one interleaving of the event loop; the claim is about every interleaving.", "anchors": ["aioreactive/create.py:of_seq", "aioreactive/create.py:of_async_worker"]}
{"id": "C27", "title": "map, starmap and their async versions apply the function to every element", "statement": "The output is the source's sequence with the mapper applied to each element, in order, with terminal events unchanged.", "quantifier": "all mappers that do not raise, all source sequences and schedules", "why_tests_cant": "A test fixes one finite input; the claim is about every input sequence (including ill-formed ones).", "anchors": ["aioreactive/transform.py:map", "aioreactive/transform.py:map_async", "aioreactive/transform.py:starmap", "aioreactive/transform.py:transform"]}
{"id": "C28", "title": "An exception in a mapper or predicate becomes the stream's error", "statement": "If the user function given to map/filter/choose raises ex on some element, the observer gets the results for the earlier elements, then athrow(ex), and nothing else.", "quantifier": "all source sequences, all functions, all positions of the first raise", "why_tests_cant": "A test fixes one finite input; the claim is about every input sequence (including ill-formed ones).", "anchors": ["aioreactive/transform.py:transform", "aioreactive/filtering.py:filter", "aioreactive/observers.py:safe_observer"]}
{"id": "C29", "title": "mapi and filteri number the elements 0,1,2,...", "statement": "mapi (mapi_async, flat_mapi) and filteri pass the element's zero-based position as index, independently for each subscription.", "quantifier": "all source sequences, all subscriptions", "why_tests_cant": "A test fixes one finite input; the claim is about every input sequence (including ill-formed ones).", "anchors": ["aioreactive/transform.py:mapi", "aioreactive/filtering.py:filteri", "aioreactive/combine.py:zip_seq"]}
{"id": "C30", "title": "filter and choose keep exactly the matching elements", "statement": "filter(p) delivers exactly the elements with p true, in order; choose(c) delivers exactly the values v for which c returned Some(v), in order; terminal events pass unchanged.", "quantifier": "all predicates/choosers and source sequences", "why_tests_cant": "A test fixes one finite input; the claim is about every input sequence (including ill-formed ones).", "anchors": ["aioreactive/filtering.py:filter", "aioreactive/filtering.py:choose", "aioreactive/filtering.py:starfilter"]}
{"id": "C31", "title": "scan emits every running accumulation", "statement": "For source values x1..xn, scan(f, s) emits f(s,x1), f(f(s,x1),x2), ..., one per source value, then the source's terminal event.", "quantifier": "all accumulators, initial values and source sequences delivered one at a time", "why_tests_cant": "A test fixes one finite input; the claim is about every input sequence (including ill-formed ones).", "anchors": ["aioreactive/transform.py:_scan"]}
{"id": "C32", "title": "scan: an accumulator error terminates the stream", "statement": "If the accumulator raises ex, the observer gets athrow(ex) and nothing afterwards.", "quantifier": "all accumulators and source sequences", "why_tests_cant": "A test fixes one finite input; the claim is about every input sequence (including ill-formed ones).", "anchors": ["aioreactive/transform.py:_scan"]}
{"id": "C33", "title": "scan does not lose updates under overlapping sends", "statement": "If several producers send into scan concurrently, the final state accounts for every value sent.", "quantifier": "all interleavings of overlapping asend calls with an async accumulator", "why_tests_cant": "A test runs one interleaving of the event loop; the claim is about every interleaving.", "anchors": ["aioreactive/transform.py:_scan"]}
{"id": "C34", "title": "reduce emits exactly the final accumulation", "statement": "reduce(f, s) emits, when the source completes, one value: the fold of f over all source values, then completes; on error it emits only the error.", "quantifier": "all accumulators, initial values and finite source sequences (including empty)", "why_tests_cant": "A test fixes one finite input; the claim is about every input sequence (including ill-formed ones).", "anchors": ["aioreactive/transform.py:reduce", "aioreactive/transform.py:reduce_async"]}
{"id": "C35", "title": "merge_inner forwards every inner value once, in arrival order", "statement": "The output of merge_inner/flat_map/merge is exactly the inner observables' values in the order they were sent, each once, until the first error.", "quantifier": "all outer/inner histories and schedules", "why_tests_cant": "A test runs one interleaving of the event loop; the claim is about every interleaving.", "anchors": ["aioreactive/combine.py:merge_inner", "aioreactive/transform.py:flat_map"]}
{"id": "C36", "title": "merge_inner never exceeds max_concurrent", "statement": "With max_concurrent = m >= 1, at any time at most m inner observables are subscribed and not yet finished.", "quantifier": "all m >= 1, all outer/inner histories and schedules", "why_tests_cant": "A test runs one interleaving of the event loop; the claim is about every interleaving.", "anchors": ["aioreactive/combine.py:merge_inner"]}
{"id": "C37", "title": "merge_inner subscribes to every inner exactly once, in arrival order", "statement": "Inner observables are subscribed in the order the source sent them, none is skipped or subscribed twice, and a waiting one is subscribed as soon as a slot becomes free.", "quantifier": "all histories and schedules without error or disposal", "why_tests_cant": "A test runs one interleaving of the event loop; the claim is about every interleaving.", "anchors": ["aioreactive/combine.py:merge_inner"]}
{"id": "C38", "title": "merge_inner completes exactly when the source and all inners have completed", "statement": "Completion is emitted only after the source completed and every received inner completed, and it is emitted (once) when that is the case and the mailbox is drained.", "quantifier": "all histories and schedules", "why_tests_cant": "A test runs one interleaving of the event loop; the claim is about every interleaving.", "anchors": ["aioreactive/combine.py:merge_inner"]}
{"id": "C39", "title": "merge_inner: an error ends the merged stream and releases the inners", "statement": "An error of the source or of any inner ends the output with that error, and all inner subscriptions are disposed.", "quantifier": "all histories and schedules", "why_tests_cant": "A test runs one interleaving of the event loop; the claim is about every interleaving.", "anchors": ["aioreactive/combine.py:merge_inner"]}
{"id": "C40", "title": "concat delivers the sources strictly one after the other", "statement": "concat_seq([o1,..,on]) (merge_inner(1), concat_map) delivers all of o1, then all of o2, ..., then completes: the output is the concatenation of the sources' values.", "quantifier": "all lists of sources and their value sequences, all schedules", "why_tests_cant": "A test runs one interleaving of the event loop; the claim is about every interleaving.", "anchors": ["aioreactive/combine.py:concat_seq", "aioreactive/transform.py:concat_map"]}
{"id": "C41", "title": "switch_latest only forwards the latest inner", "statement": "After switch_latest has subscribed to a newer inner, nothing from an older inner (that honours disposal) is forwarded, and every older inner has been disposed first.", "quantifier": "all histories and schedules", "why_tests_cant": "A test runs one interleaving of the event loop; the claim is about every interleaving.", "anchors": ["aioreactive/transform.py:switch_latest"]}
{"id": "C42", "title": "switch_latest completes after source and latest inner completed", "statement": "When the source has completed and the latest inner has completed, the output completes (and not before).", "quantifier": "all histories and schedules", "why_tests_cant": "A test runs one interleaving of the event loop; the claim is about every interleaving.", "anchors": ["aioreactive/transform.py:switch_latest"]}
{"id": "C43", "title": "catch continues with the handler's observable", "statement": "catch(h): the values of the source are forwarded; on error e the stream continues with h(e) (repeatedly), no error of the source itself reaches the observer, and completion ends the stream. The failed source is disposed before the handler's observable is subscribed.", "quantifier": "all scripts of sources and handlers", "why_tests_cant": "A test fixes one finite input; the claim is about every input sequence (including ill-formed ones).", "anchors": ["aioreactive/transform.py:catch"]}
{"id": "C44", "title": "retry(n) resubscribes n times before giving up", "statement": "retry(n) subscribes to a source that always fails n more times after the first failure, then delivers the last error; each subscription of the retried observable has its own count.", "quantifier": "all n and failing sources", "why_tests_cant": "A test fixes one finite input; the claim is about every input sequence (including ill-formed ones).", "anchors": ["aioreactive/transform.py:retry"]}
{"id": "C45", "title": "skip(n) drops exactly the first n elements", "statement": "skip(n) delivers the source without its first n elements, terminal events unchanged.", "quantifier": "all integers n, all source sequences and schedules", "why_tests_cant": "A test fixes one finite input; the claim is about every input sequence (including ill-formed ones).", "anchors": ["aioreactive/filtering.py:skip"]}
{"id": "C46", "title": "skip_last(n) drops exactly the last n elements", "statement": "skip_last(n) delivers the source without its last n elements; for a still running source it holds back exactly the last n seen.", "quantifier": "all n, all source sequences (any values, None included)", "why_tests_cant": "A test fixes one finite input; the claim is about every input sequence (including ill-formed ones).", "anchors": ["aioreactive/filtering.py:skip_last"]}
{"id": "C47", "title": "take(n) delivers exactly the first n elements and completes right after the nth", "statement": "take(n) delivers the first n elements; it completes directly after the nth, without waiting for the source; a shorter source's terminal event is forwarded; negative n is rejected.", "quantifier": "all integers n, all source sequences and schedules", "why_tests_cant": "A test fixes one finite input; the claim is about every input sequence (including ill-formed ones).", "anchors": ["aioreactive/filtering.py:take"]}
{"id": "C48", "title": "take_last(n) delivers exactly the last n elements on completion", "statement": "take_last(n) delivers nothing until the source completes, then the last n elements in order and completion; on error only the error.", "quantifier": "all integers n, all source sequences and schedules", "why_tests_cant": "A test fixes one finite input; the claim is about every input sequence (including ill-formed ones).", "anchors": ["aioreactive/filtering.py:take_last"]}
{"id": "C49", "title": "take_until stops at the first event of the other observable", "statement": "take_until(other) forwards the source until other produces a value (then completes) or fails (then fails); completion of other alone does not end the stream; nothing is forwarded afterwards.", "quantifier": "all interleavings of the two observables, all schedules", "why_tests_cant": "A test runs one interleaving of the event loop; the claim is about every interleaving.", "anchors": ["aioreactive/filtering.py:take_until"]}
{"id": "C50", "title": "distinct_until_changed drops exactly the consecutive repetitions", "statement": "An element is delivered iff it is the first or differs (!=) from the element immediately before it in the source.", "quantifier": "all source sequences, any (even non-transitive) __eq__, all schedules", "why_tests_cant": "A test fixes one finite input; the claim is about every input sequence (including ill-formed ones).", "anchors": ["aioreactive/filtering.py:distinct_until_changed"]}
{"id": "C51", "title": "slice agrees with Python list slicing", "statement": "For a completing source with elements xs, source[start:stop:step] delivers exactly the list xs[start:stop:step] and completes.", "quantifier": "all start, stop (None, positive, negative, zero), all step >= 1, all lists", "why_tests_cant": "A test fixes one finite input; the claim is about every input sequence (including ill-formed ones).", "anchors": ["aioreactive/filtering.py:slice", "aioreactive/__init__.py:AsyncRx.__getitem__"]}
{"id": "C52", "title": "Integer indexing picks the element", "statement": "For a completing source, source[i] delivers exactly [xs[i]] when -len <= i < len, and nothing otherwise.", "quantifier": "all integers i, all lists", "why_tests_cant": "A test fixes one finite input; the claim is about every input sequence (including ill-formed ones).", "anchors": ["aioreactive/__init__.py:AsyncRx.__getitem__"]}
{"id": "C53", "title": "combine_latest pairs the newest values", "statement": "Each event of either source, once both have produced a value, delivers the pair of the most recent values; the first terminal event of either source ends the stream.", "quantifier": "all interleavings of the two sources, all schedules", "why_tests_cant": "A test runs one interleaving of the event loop; the claim is about every interleaving.", "anchors": ["aioreactive/combine.py:combine_latest"]}
{"id": "C54", "title": "with_latest_from emits per source value with the newest other value", "statement": "Each source value is paired with the most recent other value; source values before the first other value are dropped; other values alone emit nothing; the first terminal event of either ends the stream.", "quantifier": "all interleavings of the two sources, all schedules", "why_tests_cant": "A test runs one interleaving of the event loop; the claim is about every interleaving.", "anchors": ["aioreactive/combine.py:with_latest_from"]}
{"id": "C55", "title": "zip_seq pairs elements with the sequence position by position", "statement": "zip_seq(ys) delivers (x1,y1),(x2,y2),...; it completes at the first source element for which ys is exhausted, or with the source; if ys raises an Exception, that error ends the stream.", "quantifier": "all source sequences and all sequences ys (finite, infinite, failing)", "why_tests_cant": "A test fixes one finite input; the claim is about every input sequence (including ill-formed ones).", "anchors": ["aioreactive/combine.py:zip_seq"]}
{"id": "C56", "title": "sample emits the latest source value per tick", "statement": "sample(s) emits, per sampling period, the most recent source value.", "quantifier": "all arrival patterns", "why_tests_cant": "A test runs one interleaving of the event loop; the claim is about every interleaving.", "anchors": ["aioreactive/timeshift.py:sample"]}
{"id": "C57", "title": "delay preserves order and never delivers early", "statement": "delay(s) delivers the notifications (errors and completion included) in source order, each exactly once and never before its arrival time + s.", "quantifier": "all arrival times, all schedules, all observer delays", "why_tests_cant": "A test runs one interleaving of the event loop; the claim is about every interleaving.", "anchors": ["aioreactive/timeshift.py:delay"]}
{"id": "C58", "title": "delay shifts every event by exactly the delay", "statement": "With an observer that returns at once and a loop that runs ready tasks before time advances, every notification is delivered exactly s after it arrived, so relative intervals are preserved.", "quantifier": "all arrival times and all event counts", "why_tests_cant": "A test fixes one finite input; the claim is about every input sequence (including ill-formed ones).", "anchors": ["aioreactive/timeshift.py:delay"]}
{"id": "C59", "title": "delay: disposing one subscription does not affect another", "statement": "Disposing a subscription of a delayed observable stops that subscription only; other and later subscriptions still deliver.", "quantifier": "all numbers of subscriptions and histories", "why_tests_cant": "A test runs one interleaving of the event loop; the claim is about every interleaving.", "anchors": ["aioreactive/timeshift.py:delay"]}
{"id": "C60", "title": "debounce emits a value iff the source then stays quiet", "statement": "With debounce(s), a value is emitted iff no other value (and no terminal event) arrives within s after it, exactly s after its arrival; at most once, in order.", "quantifier": "all arrival patterns and schedules", "why_tests_cant": "A test runs one interleaving of the event loop; the claim is about every interleaving.", "anchors": ["aioreactive/timeshift.py:debounce"]}
{"id": "C61", "title": "debounce: disposal is silent", "statement": "After disposing a debounce subscription the observer receives nothing more.", "quantifier": "all histories and schedules", "why_tests_cant": "A test runs one interleaving of the event loop; the claim is about every interleaving.", "anchors": ["aioreactive/timeshift.py:debounce"]}
{"id": "C62", "title": "After dispose no newly sent value is delivered", "statement": "For a chain of single-source operators (map, filter, scan, skip, take, take_last, distinct_until_changed, zip_seq, ...: those that hand on their source's disposable) over an AsyncSubject, nothing that is sent after dispose_async() of the subscription was called reaches the final observer, whatever the other subscribers do; notifications sent before may still arrive, and if the calls do not overlap all of them do.", "quantifier": "all histories and schedules", "why_tests_cant": "A test runs one interleaving of the event loop; the claim is about every interleaving.", "anchors": ["aioreactive/subject.py:AsyncMultiSubject.subscribe_async", "aioreactive/observers.py:auto_detach_observer"]}
{"id": "C63", "title": "VirtualTimeEventLoop runs callbacks in time order with a monotone clock", "statement": "The virtual clock never goes backwards, no timer callback runs before its due time, timers run in order of due time, ready callbacks run before time advances and cancelled callbacks never run.", "quantifier": "all sets of timers/callbacks, cancellations and callbacks that schedule further callbacks", "why_tests_cant": "A test fixes one finite input; the claim is about every input sequence (including ill-formed ones).", "anchors": ["aioreactive/testing/virtual_events.py:VirtualTimeEventLoop._run_once"]}
{"id": "C64", "title": "AsyncTestObserver records every event once with its time", "statement": "AsyncTestObserver.values lists every notification with the loop time of its arrival, in order, and each user callback runs once per notification.", "quantifier": "all call sequences", "why_tests_cant": "A test fixes one finite input; the claim is about every input sequence (including ill-formed ones).", "anchors": ["aioreactive/testing/observer.py:AsyncTestObserver"]}
{"id": "C65", "title": "to_observable forwards events and disposes its subscription", "statement": "to_observable(source) forwards every event to the RxPY observer in order, and disposing the returned disposable disposes the source subscription, whenever it is called.", "quantifier": "all event sequences and all moments of disposal", "why_tests_cant": "A test runs one interleaving of the event loop; the claim is about every interleaving.", "anchors": ["aioreactive/leave.py:to_observable"]}
{"id": "C66", "title": "Notification equality", "statement": "Two notifications are equal iff they are of the same kind and their payloads are equal; the relation is an equivalence whenever payload equality is.", "quantifier": "all notifications", "why_tests_cant": "A test fixes one finite input; the claim is about every input sequence (including ill-formed ones).", "anchors": ["aioreactive/notification.py:OnNext.__eq__", "aioreactive/notification.py:OnError.__eq__", "aioreactive/notification.py:OnCompleted.__eq__"]}
{"id": "C67", "title": "Independent subscriptions do not share operator state", "statement": "Any number of subscriptions to the same chain of single-source operators (skip, take, take_last, skip_last, scan, mapi, distinct_until_changed, ...) over an AsyncSubject each behave as if the others did not exist (retry, delay and zip_seq over an iterator object are different: see the properties about them).", "quantifier": "all operator chains, all interleavings of the two subscriptions' events", "why_tests_cant": "A test runs one interleaving of the event loop; the claim is about every interleaving.", "anchors": ["aioreactive/filtering.py", "aioreactive/transform.py"]}
{"id": "C68", "title": "Disposing a merged subscription releases all inner subscriptions", "statement": "After dispose_async() of a merge_inner/flat_map/concat subscription, every inner observable that was subscribed and has not completed is disposed exactly once, and no further inner observable is subscribed.", "quantifier": "all histories, all moments of disposal (also while an inner subscription is being made), all schedules", "why_tests_cant": "A test runs one interleaving of the event loop; the claim is about every interleaving.", "anchors": ["aioreactive/combine.py:merge_inner"]}
{"id": "C69", "title": "Ending a switch_latest subscription releases the current inner subscription", "statement": "After dispose_async() of a switch_latest/flat_map_latest subscription, and after the output has ended with an error, no inner observable stays subscribed: each was disposed or has completed.", "quantifier": "all histories, all moments of disposal or failure, all schedules", "why_tests_cant": "A test runs one interleaving of the event loop; the claim is about every interleaving.", "anchors": ["aioreactive/transform.py:switch_latest"]}
{"id": "C70", "title": "Disposing a catch subscription disposes the source that is currently subscribed", "statement": "dispose_async() of a catch/retry subscription disposes the source that is subscribed at that moment, be it the original one or one returned by the handler; afterwards that source is not heard any more.", "quantifier": "all histories of failures, all moments of disposal", "why_tests_cant": "A test runs one interleaving of the event loop; the claim is about every interleaving.", "anchors": ["aioreactive/transform.py:catch"]}
{"id": "C71", "title": "AsyncSingleSubject: a cancelled sender loses only its own event", "statement": "If the task of a sender that waits for an observer of an AsyncSingleSubject is cancelled (for example by a timeout), the events of the other waiting senders are still delivered once an observer subscribes.", "quantifier": "all sets of waiting senders, whichever of them is cancelled, at any time", "why_tests_cant": "A test runs one interleaving of the event loop; the claim is about every interleaving.", "anchors": ["aioreactive/subject.py:AsyncSingleSubject.asend", "aioreactive/subject.py:AsyncSingleSubject.athrow", "aioreactive/subject.py:AsyncSingleSubject.aclose"]}
{"id": "C72", "title": "run() on an empty stream raises StopAsyncIteration, as documented", "statement": "If the source completes without having sent a value, run(source) raises StopAsyncIteration (docstring of run).", "quantifier": "all sources, all schedules", "why_tests_cant": "A test runs one interleaving of the event loop; the claim is about every interleaving.", "anchors": ["aioreactive/subscription.py:run"]}
{"id": "C73", "title": "to_observable raises nothing in the event loop", "statement": "Subscribing to to_observable(source) does not make a callback of the event loop raise; the task that subscribes is kept alive while it runs.", "quantifier": "all histories and schedules", "why_tests_cant": "A test runs one interleaving of the event loop; the claim is about every interleaving.", "anchors": ["aioreactive/leave.py:to_observable"]}
{"id": "C74", "title": "Notifications dispatch to the matching callback and survive a round trip", "statement": "accept/accept_observer of a notification makes exactly the call of its kind with its payload, and feeding the calls to an AsyncNotificationObserver gives the same notifications back.", "quantifier": "all sequences of notifications and of calls", "why_tests_cant": "A test fixes one finite input; the claim is about every input sequence (including ill-formed ones).", "anchors": ["aioreactive/notification.py:OnNext.accept_observer", "aioreactive/observers.py:AsyncNotificationObserver"]}
{"id": "C75", "title": "AsyncTestSubject sends at the time asked for and keeps no finished tasks", "statement": "asend_at/athrow_at/aclose_at(when) send their event exactly at loop time when, and once an event has been delivered the subject holds no reference to the task that sent it.", "quantifier": "all sets of scheduled events, all schedules", "why_tests_cant": "A test runs one interleaving of the event loop; the claim is about every interleaving.", "anchors": ["aioreactive/testing/subject.py:AsyncSubjectBase"]}
{"id": "C76", "title": "VirtualTimeEventLoop runs timers with the same due time in the order they were made", "statement": "Of two timers with the same due time the one that was made first runs first, as on a normal event loop, where the second one is due later.", "quantifier": "all sets of timers", "why_tests_cant": "A test fixes one finite input; the claim is about every input sequence (including ill-formed ones).", "anchors": ["aioreactive/testing/virtual_events.py:VirtualTimeEventLoop._run_once"]}
{"id": "C77", "title": "delay works on the virtual time loop", "statement": "Under VirtualTimeEventLoop delay(s) shifts every notification by exactly s of loop time, as it does under a normal event loop.", "quantifier": "all arrival times and schedules", "why_tests_cant": "A test runs one interleaving of the event loop; the claim is about every interleaving.", "anchors": ["aioreactive/timeshift.py:delay", "aioreactive/testing/virtual_events.py:VirtualTimeEventLoop"]}
{"id": "C78", "title": "debounce ignores only values that are followed by another value", "statement": "A value is ignored by debounce(s) only if another value follows before s has elapsed (docstring of debounce); in particular the last value before the end of the stream is delivered.", "quantifier": "all arrival patterns and schedules", "why_tests_cant": "A test runs one interleaving of the event loop; the claim is about every interleaving.", "anchors": ["aioreactive/timeshift.py:debounce", "aioreactive/__init__.py:debounce"]}
{"id": "C79", "title": "zip_seq starts at the beginning of the sequence for every subscription", "statement": "Every subscription to zip_seq(source, sequence) pairs its own first value with the first item of the sequence, its second value with the second item, and so on, and completes at its first value without an item.", "quantifier": "all sequences (containers and iterators), all numbers of subscriptions, all interleavings of their values", "why_tests_cant": "A test runs one interleaving of the event loop; the claim is about every interleaving.", "anchors": ["aioreactive/combine.py:zip_seq"]}
{"id": "C80", "title": "async for works over sources that send while they are being subscribed to", "statement": "`async for x in source` yields every value of the source and ends with it, also when the source calls the observer from within subscribe_async (as empty() does).", "quantifier": "all sources, all schedules", "why_tests_cant": "A test runs one interleaving of the event loop; the claim is about every interleaving.", "anchors": ["aioreactive/observers.py:AsyncIteratorObserver", "aioreactive/observables.py:AsyncIterableObservable", "aioreactive/create.py:empty"]}
{"id": "C81", "title": "Leaving an async for loop does not block the source", "statement": "When the consumer leaves `async for x in source` early (break, return or an exception), later calls of the source to the iterator's observer return, so that the source and its other observers go on.", "quantifier": "all histories, all schedules, all moments at which the loop is left", "why_tests_cant": "A test runs one interleaving of the event loop; the claim is about every interleaving.", "anchors": ["aioreactive/observers.py:AsyncIteratorObserver"]}
{"id": "C82", "title": "Every subscriber of an of_async observable gets the result", "statement": "Every subscription to of_async(workflow) gets the value of the workflow followed by the completion, or its error, however many subscriptions there are and whichever of them are disposed.", "quantifier": "all kinds of awaitables, all numbers of subscriptions, all schedules", "why_tests_cant": "A test runs one interleaving of the event loop; the claim is about every interleaving.", "anchors": ["aioreactive/create.py:of_async", "aioreactive/create.py:of_async_worker"]}
{"id": "C83", "title": "Back-pressure: asend returns when the observer has handled the value", "statement": "`await asend(x)` on the head of a pipeline returns only after the observer at its end has handled what the pipeline makes of x, so a producer that awaits its calls cannot run ahead of its consumer.", "quantifier": "all pipelines of single-source operators, all inputs, all schedules", "why_tests_cant": "A test runs one interleaving of the event loop; the claim is about every interleaving.", "anchors": ["aioreactive/observers.py:safe_observer", "aioreactive/transform.py:transform", "aioreactive/filtering.py"]}
{"id": "C84", "title": "Disposing a subscription ends the tasks it started", "statement": "After dispose_async() of a subscription the tasks and mailboxes that were started for it end; nothing waits for ever for a message that can no longer come.", "quantifier": "all histories, all moments of disposal, all schedules", "why_tests_cant": "A test runs one interleaving of the event loop; the claim is about every interleaving.", "anchors": ["aioreactive/observers.py:safe_observer", "aioreactive/observers.py:auto_detach_observer", "aioreactive/create.py:of_seq"]}
{"id": "C85", "title": "flat_map and merge deliver everything of all inner observables", "statement": "flat_map(f), flat_mapi(f) and their async variants subscribe to f(x) for the values x of the source, in order, deliver every value of each of these observables in its order and nothing else, and complete when the source and all of them have; merge(other) does so for the two sources.", "quantifier": "all mappers, all sources, all inner streams and their interleavings, all schedules", "why_tests_cant": "A test runs one interleaving of the event loop; the claim is about every interleaving.", "anchors": ["aioreactive/transform.py:flat_map", "aioreactive/transform.py:flat_mapi", "aioreactive/transform.py:flat_map_async", "aioreactive/transform.py:flat_mapi_async", "aioreactive/combine.py:merge_inner", "aioreactive/__init__.py:merge"]}
{"id": "C86", "title": "concat_map and concat deliver one observable after the other", "statement": "concat_map(f) delivers the stream of f(x1), then that of f(x2), and so on; concat(other) and concat_seq the streams of the given observables, in this order, without overlap, and complete after the last one.", "quantifier": "all mappers, all lists of sources, all inner streams, all schedules", "why_tests_cant": "A test runs one interleaving of the event loop; the claim is about every interleaving.", "anchors": ["aioreactive/transform.py:concat_map", "aioreactive/combine.py:concat_seq", "aioreactive/__init__.py:concat"]}
{"id": "C87", "title": "flat_map_latest mirrors the observable of the most recent value", "statement": "flat_map_latest(f) and flat_map_latest_async(f) subscribe to f(x) for each value x of the source in order, disposing the one before; provided that disposed observables make no calls, values come only from the observable that was subscribed last.", "quantifier": "all mappers, all sources, all inner streams, all schedules", "why_tests_cant": "A test runs one interleaving of the event loop; the claim is about every interleaving.", "anchors": ["aioreactive/transform.py:flat_map_latest", "aioreactive/transform.py:flat_map_latest_async", "aioreactive/transform.py:switch_latest"]}
{"id": "C88", "title": "An exception of catch's handler is delivered", "statement": "If the handler given to catch raises while it handles the error of a source, the subscriber gets that exception as the error of the stream, so that the stream ends.", "quantifier": "all handlers, all histories of failures, all schedules", "why_tests_cant": "A test runs one interleaving of the event loop; the claim is about every interleaving.", "anchors": ["aioreactive/transform.py:catch"]}
{"id": "C89", "title": "An observer made of functions gets the events it has a function for", "statement": "AsyncAnonymousObserver(asend, athrow, aclose) at the end of a pipeline calls each function it was given for exactly the events of its kind, in the order of the stream; events without a function are dropped and do not affect the others.", "quantifier": "all subsets of the three functions, all pipelines of single-source operators, all inputs, all schedules", "why_tests_cant": "A test runs one interleaving of the event loop; the claim is about every interleaving.", "anchors": ["aioreactive/observers.py:AsyncAnonymousObserver", "aioreactive/utils.py:anoop"]}
{"id": "C90", "title": "An exception of == in distinct_until_changed is delivered", "statement": "If comparing two consecutive elements raises (as == of numpy arrays does in a condition), the subscriber of distinct_until_changed gets that exception as the error of the stream.", "quantifier": "all element comparisons, all inputs, all schedules", "why_tests_cant": "A test runs one interleaving of the event loop; the claim is about every interleaving.", "anchors": ["aioreactive/filtering.py:distinct_until_changed", "aioreactive/notification.py:OnNext.__eq__"]}
{"id": "C91", "title": "A CancelledError inside a user function does not go unnoticed", "statement": "If the function given to map, filter, choose or scan raises asyncio.CancelledError (an async function that awaits a task which somebody cancels does), the subscriber is told: it gets an error or a completion.", "quantifier": "all user functions, all positions of the exception, all inputs, all schedules", "why_tests_cant": "A test runs one interleaving of the event loop; the claim is about every interleaving.", "anchors": ["aioreactive/transform.py:transform", "aioreactive/transform.py:_scan", "aioreactive/filtering.py:filter", "aioreactive/observers.py:safe_observer"]}
{"id": "C92", "title": "A stream that has ended lets go of its source", "statement": "When an operator such as take(n) or zip_seq over a subject has delivered the end of its stream, the subject no longer calls the operator's observer: the subscription to the source is disposed.", "quantifier": "all operators built on auto_detach_observer, all calls of the subject, all other subscribers, all schedules", "why_tests_cant": "A test runs one interleaving of the event loop; the claim is about every interleaving.", "anchors": ["aioreactive/observers.py:auto_detach_observer", "aioreactive/filtering.py:take", "aioreactive/subject.py:AsyncMultiSubject"]}
{"id": "C93", "title": "An operator with two sources lets go of both when its stream has ended", "statement": "When take_until(other), combine_latest(other) or with_latest_from(other) over two subjects has delivered the end of its stream, neither subject calls the operator's observers any more.", "quantifier": "all calls of the two subjects, everything the operator may post, all other subscribers, all schedules", "why_tests_cant": "A test runs one interleaving of the event loop; the claim is about every interleaving.", "anchors": ["aioreactive/filtering.py:take_until", "aioreactive/combine.py:combine_latest", "aioreactive/combine.py:with_latest_from", "aioreactive/observers.py:auto_detach_observer"]}
{"id": "C94", "title": "Every subscription of an iterable source gets the whole sequence", "statement": "Every subscription to from_iterable(xs) or from_async_iterable(xs) gets all items of xs in order and then the completion, whatever the other subscriptions do.", "quantifier": "all iterables that end (containers, iterators, async generators), all numbers of subscriptions, all disposals, all schedules", "why_tests_cant": "A test runs one interleaving of the event loop; the claim is about every interleaving.", "anchors": ["aioreactive/create.py:of_seq", "aioreactive/create.py:of_async_iterable"]}
{"id": "C95", "title": "An endless iterable can be cut off", "statement": "from_iterable(xs) with an endless xs, e.g. followed by take(n), delivers its items while it goes on, and other tasks go on as well.", "quantifier": "all iterables, all numbers of subscriptions, all schedules", "why_tests_cant": "A test runs one interleaving of the event loop; the claim is about every interleaving.", "anchors": ["aioreactive/create.py:of_seq", "aioreactive/observers.py:safe_observer"]}
{"id": "C96", "title": "run over a pipeline over a list returns the last result", "statement": "`await run(pipe(from_iterable(xs), op1, ..., opn))` returns the last value of what the operators make of the list xs, or raises the error that they end it with (from a function passed to them, for example), whatever the schedule; it always gets there if the operators' stream ends, and nothing of it goes on for ever.", "quantifier": "all finite iterables, all pipelines of single-source operators, all schedules without timeout or cancellation of the caller", "why_tests_cant": "A test runs one interleaving of the event loop; the claim is about every interleaving.", "anchors": ["aioreactive/subscription.py:run", "aioreactive/create.py:of_seq", "aioreactive/observers.py:AsyncAwaitableObserver", "aioreactive/observers.py:safe_observer"]}
{"id": "C97", "title": "async for over a pipeline yields what the pipeline makes of the source", "statement": "`async for y in to_async_iterable(pipe(source, op1, ..., opn))` yields exactly the values that the operators make of what the source posts, in order, and then ends as that stream ends (normally, or with its error); every `__anext__` comes to its end as long as the stream has something to give, however slow the loop body is; for from_iterable(xs) the loop sees the whole result.", "quantifier": "all pipelines of single-source operators, all sources that do not wait for their observer within subscribe_async, all schedules, all moments at which the loop asks for more", "why_tests_cant": "A test runs one interleaving of the event loop; the claim is about every interleaving.", "anchors": ["aioreactive/leave.py:to_async_iterable", "aioreactive/observers.py:AsyncIteratorObserver", "aioreactive/observables.py:AsyncIterableObservable", "aioreactive/observers.py:safe_observer"]}
{"id": "C98", "title": "All subscribers of an AsyncSubject see the events in the same order", "statement": "If one subscriber of an AsyncSubject gets two events in some order, no other subscriber gets them in the opposite order.", "quantifier": "all subscribers, however slow, all calls of the subject by all tasks, all schedules", "why_tests_cant": "A test runs one interleaving of the event loop; the claim is about every interleaving.", "anchors": ["aioreactive/subject.py:AsyncMultiSubject"]}
{"id": "C99", "title": "An AsyncSubject keeps the Rx grammar for each subscriber", "statement": "Each subscriber of an AsyncSubject gets values, then at most one terminal event, then nothing; and it is not called while one of its methods still runs.", "quantifier": "all subscribers, however slow, all calls of the subject by all tasks, all schedules", "why_tests_cant": "A test runs one interleaving of the event loop; the claim is about every interleaving.", "anchors": ["aioreactive/subject.py:AsyncMultiSubject"]}
{"id": "C100", "title": "A subscriber that raises does not keep the event from the others", "statement": "When a subscriber of an AsyncSubject raises in asend, athrow or aclose, the other subscribers get the event all the same.", "quantifier": "all subscribers, all positions of the one that raises, all events, all schedules", "why_tests_cant": "A test runs one interleaving of the event loop; the claim is about every interleaving.", "anchors": ["aioreactive/subject.py:AsyncMultiSubject"]}
{"id": "C101", "title": "Operators work the same behind any source", "statement": "In `pipe(source, op1, ..., opn)` it does not matter what the source is: merge, concat, switch_latest, flat_map behind a pipeline, an interval, or another such pipeline. At any time the final observer has got an initial part of what the operators make of the calls that the source has made, always in the Rx grammar, and all of it when the workers are at rest, which they always reach; so if the source sends the stream T and the operators compute G, the whole sends G(T), and it can be the source of the next pipeline.", "quantifier": "all sources, all chains of single-source operators, all schedules of the source's tasks and the workers, all disposals", "why_tests_cant": "A test runs one interleaving of the event loop; the claim is about every interleaving.", "anchors": ["aioreactive/observers.py:safe_observer", "aioreactive/combine.py:merge_inner", "aioreactive/transform.py:switch_latest", "aioreactive/transform.py:flat_map", "aioreactive/create.py:interval"]}
{"id": "C102", "title": "run over any source or pipeline returns its last value", "statement": "`await run(source)` is over only when the stream has ended, and then it has returned the stream's last value, raised its error, or raised CancelledError if it completed without a value; calls that a source makes after the end change nothing. Once the stream has ended, run comes to its end by itself.", "quantifier": "all sources and pipelines, also ones that break the Rx grammar, all schedules without timeout or cancellation of the caller", "why_tests_cant": "A test runs one interleaving of the event loop; the claim is about every interleaving.", "anchors": ["aioreactive/subscription.py:run", "aioreactive/observers.py:AsyncAwaitableObserver"]}
{"id": "C103", "title": "interval followed by take(n)", "statement": "`pipe(interval(s, p), take(n))` sends 0, ..., n-1 and completes; `await run(...)` of it returns n-1, never before s + (n-1)p, and on a loop that is not overloaded everything has been sent at that time. Other operators behind an interval get 0, 1, 2, ..., and behind timer(s) they get 0 and the completion.", "quantifier": "all n > 0, all s, all p other than 0, all schedules, all times", "why_tests_cant": "A test runs one interleaving of the event loop; the claim is about every interleaving.", "anchors": ["aioreactive/create.py:interval", "aioreactive/create.py:timer", "aioreactive/filtering.py:take", "aioreactive/subscription.py:run"]}
{"id": "C104", "title": "A subscribe_async that raises leaves nothing subscribed", "statement": "If subscribe_async of combine_latest, with_latest_from or take_until raises because one of the sources has been disposed, the other source does not hold an observer of the operator: it never calls the operator.", "quantifier": "all histories of both sources, all schedules, either source being the one that refuses", "why_tests_cant": "A test runs one interleaving of the event loop; the claim is about every interleaving.", "anchors": ["aioreactive/combine.py:combine_latest", "aioreactive/combine.py:with_latest_from", "aioreactive/filtering.py:take_until", "aioreactive/subject.py:AsyncMultiSubject"]}
{"id": "C105", "title": "Pipelines can be rewritten by the usual laws", "statement": "In any pipeline the following can replace each other and no subscriber can tell: map(f)|map(g) and map(g after f); map(identity) and nothing; filter(p)|filter(q) and filter(p and q); map(f)|filter(p) and filter(p after f)|map(f); filter(p)|map(f) and the corresponding choose; choose|choose and the composed choose; map(f) before scan or mapi and the function composed into it; map(f) before or after skip, take, take_last; skip(m)|skip(n) and skip(m+n); skip(0) and nothing; take(m)|take(n) and take(min(m,n)) for m, n > 0; skip(m)|take(n) and take(m+n)|skip(m) for n > 0; take_last(m)|take_last(n) and take_last(min(m,n)); skip_last(m)|skip_last(n) and skip_last(m+n) for elements that are not None; distinct_until_changed once or twice, if == is an equivalence.", "quantifier": "all functions, all counts, all operators before and after, all sources (that keep the Rx grammar or deliver through a safe observer), all schedules of either pipeline", "why_tests_cant": "A test runs one interleaving of the event loop; the claim is about every interleaving.", "anchors": ["aioreactive/transform.py:map", "aioreactive/transform.py:scan", "aioreactive/transform.py:mapi", "aioreactive/filtering.py:filter", "aioreactive/filtering.py:choose", "aioreactive/filtering.py:skip", "aioreactive/filtering.py:take", "aioreactive/filtering.py:take_last", "aioreactive/filtering.py:skip_last", "aioreactive/filtering.py:distinct_until_changed"]}
{"id": "C106", "title": "combine_latest, with_latest_from and take_until work the same for any two sources", "statement": "In `pipe(source, combine_latest(other), op1, ..., opn)`, and the same with with_latest_from and take_until, source and other can be anything: intervals, merges, pipelines, other two-source operators. At any time the subscriber has got an initial part of what the operators make of the calls of both in the order in which they came, in the Rx grammar, and all of it once the workers are at rest, which they always reach. Whatever that order: while neither source has ended, the last pair of combine_latest at rest is that of the last values of both; with_latest_from delivers consecutive elements of the source, each once, up to its last one; take_until delivers an initial part of the source's elements, the source's stream itself as long as other has neither sent anything nor failed, and a stream that has ended otherwise.", "quantifier": "all pairs of sources, all chains of operators behind, all schedules of the tasks of both sources and the workers, all interleavings of their calls", "why_tests_cant": "A test runs one interleaving of the event loop; the claim is about every interleaving.", "anchors": ["aioreactive/combine.py:combine_latest", "aioreactive/combine.py:with_latest_from", "aioreactive/filtering.py:take_until", "aioreactive/observers.py:safe_observer"]}
{"id": "C107", "title": "delay shifts whatever source it stands behind", "statement": "In `pipe(source, delay(d))` the observer gets the source's events in order, none less than d after the source sent it; on a loop that is not overloaded each exactly d later, and all that were sent more than d ago have arrived. So `pipe(interval(s, p), delay(d))` sends the value k exactly at s + kp + d and never before, and `pipe(source, delay(a), delay(b))` sends what `pipe(source, delay(a + b))` sends, at the same times.", "quantifier": "all sources on the same clock, all delays, all intervals with p other than 0, all schedules and times; exact times for all prompt schedules", "why_tests_cant": "A test runs one interleaving of the event loop; the claim is about every interleaving.", "anchors": ["aioreactive/timeshift.py:delay", "aioreactive/create.py:interval"]}
{"id": "C108", "title": "debounce behind an interval lets all values through or none", "statement": "In `pipe(source, debounce(d))` the values that come through are the source's, in order, each at most once, not earlier than d after the source sent them, and none that another value or the end followed within d; on a loop that is not overloaded exactly d later, and every value that nothing follows within d comes through. So `pipe(interval(s, p), debounce(d))` with d < p sends every value k at s + kp + d, and with p < d it sends nothing as long as the interval goes on.", "quantifier": "all sources on the same clock, all d, all intervals with p > 0 other than d, all schedules and times; exact times for all prompt schedules", "why_tests_cant": "A test runs one interleaving of the event loop; the claim is about every interleaving.", "anchors": ["aioreactive/timeshift.py:debounce", "aioreactive/create.py:interval"]}
{"id": "C109", "title": "Operators without timers take no time", "statement": "On a loop that is not overloaded (time passes only when no worker has anything to do) an operator without a timer sends its results at the time at which the source made the calls that they come from: at every time t the observer has got exactly what the operator makes of the calls made up to t, for two-source operators of the calls of both. So `pipe(source, map(f))` sends f(x) exactly when the source sends x, and `pipe(interval(s, p), take(n))` sends k at s + kp and completes at s + (n-1)p.", "quantifier": "all sources on one clock, all chains of operators (also with suspending workers), all pairs of sources for two-source operators, all prompt schedules, all times", "why_tests_cant": "A test runs one interleaving of the event loop; the claim is about every interleaving.", "anchors": ["aioreactive/observers.py:safe_observer", "aioreactive/transform.py:map", "aioreactive/filtering.py:take", "aioreactive/create.py:interval"]}
{"id": "C110", "title": "take_until(timer(t)) cuts a stream off at time t", "statement": "`pipe(source, take_until(timer(t)))` on a loop that is not overloaded: before t has passed the observer has got exactly the source's stream, each event when the source sent it; afterwards it has got the source's events from before t (of those at exactly t an initial part) and a completion at t, or the source's own end if that came earlier. So `pipe(interval(s, p), take_until(timer(t)))` sends k at s + kp for each k with s + kp < t, and completes at t.", "quantifier": "all sources on one clock, all t, all intervals with p > 0, all prompt schedules in which the timer is not disposed before it fires", "why_tests_cant": "A test runs one interleaving of the event loop; the claim is about every interleaving.", "anchors": ["aioreactive/filtering.py:take_until", "aioreactive/create.py:timer", "aioreactive/create.py:interval"]}
{"id": "C111", "title": "with_latest_from and combine_latest never pair outdated values", "statement": "On a loop that is not overloaded every pair of `pipe(source, with_latest_from(other))` is sent at the moment at which the source sends its first component, and the second component is the newest that other has sent (nothing that other sent before that moment is newer); as long as neither has ended every element of the source that comes after a value of other gives a pair at once. For `combine_latest` every pair is sent at the moment at which one of the sources sends its component, neither component is outdated, and every value of either gives a pair at once if the other one has sent something before.", "quantifier": "all pairs of sources on one clock, all prompt schedules, all times", "why_tests_cant": "A test runs one interleaving of the event loop; the claim is about every interleaving.", "anchors": ["aioreactive/combine.py:with_latest_from", "aioreactive/combine.py:combine_latest"]}
{"id": "C112", "title": "merge subscribes and forwards at once", "statement": "On a loop that is not overloaded `merge_inner()` (also `flat_map`, `merge`) subscribes each inner observable at the moment at which the source sends it. In any schedule, for any max_concurrent, the values and errors are sent at the times at which the inner observables send them, each inner observable's in its order, none lost, none twice; completion is the last event, and comes exactly when the source and all subscribed inner observables have completed. So merging intervals sends each interval's k at u + a + kp, where u is when the source sent the interval (a, p).", "quantifier": "all sources and inner observables on one clock, all max_concurrent, all prompt schedules without failing subscriptions, all times", "why_tests_cant": "A test runs one interleaving of the event loop; the claim is about every interleaving.", "anchors": ["aioreactive/combine.py:merge_inner", "aioreactive/transform.py:flat_map", "aioreactive/create.py:interval"]}
{"id": "C113", "title": "concat starts the next observable when the one before has completed, and not later", "statement": "On a loop that is not overloaded `concat` (merge_inner(1), concat_seq, concat_map) subscribes the first observable when the source sends it, and each further one exactly at the later of two moments: when the source sends it, and when the one before completes. In any schedule what is sent is the concatenation of what the inner observables send, with their times. So `concat` of timer(a1), ..., timer(an) subscribed at t0 sends 0 at t0+a1, t0+a1+a2, ..., and completes together with the last.", "quantifier": "all sources and inner observables on one clock, all prompt schedules without failing subscriptions; all lists of timers", "why_tests_cant": "A test runs one interleaving of the event loop; the claim is about every interleaving.", "anchors": ["aioreactive/combine.py:merge_inner", "aioreactive/combine.py:concat_seq", "aioreactive/transform.py:concat_map", "aioreactive/create.py:timer"]}
{"id": "C114", "title": "switch_latest forwards each inner observable exactly until the next one arrives", "statement": "On a loop that is not overloaded `switch_latest` (also `flat_map_latest`) subscribes each inner observable at the moment at which the source sends it. If inner observables make no calls once their dispose_async has returned, then in any schedule what is sent is the concatenation of what they send, each between its own subscription and the next one. So with intervals, each interval's k is sent at u + a + kp if that is before the source sends the next interval, and not if it is after.", "quantifier": "all sources and inner observables on one clock, all prompt schedules without failing subscriptions; all intervals with p > 0", "why_tests_cant": "A test runs one interleaving of the event loop; the claim is about every interleaving.", "anchors": ["aioreactive/transform.py:switch_latest", "aioreactive/transform.py:flat_map_latest", "aioreactive/create.py:interval"]}
{"id": "C115", "title": "catch takes over at the moment of the failure", "statement": "`pipe(source, catch(handler))` sends what the source sends, then what the handler's observable sends, and so on, one after the other, at the times at which they send it, without the errors. Each further observable is what the handler returned for the error of the one before; it is subscribed after that error, and on a loop that is not overloaded at that very moment. So `pipe(source, catch(lambda _: interval(s, p)))` sends, after a failure at time t, the value k exactly at t + s + kp.", "quantifier": "all families of observables on one clock, all handlers, all schedules; exact times for all prompt schedules; all intervals with p other than 0", "why_tests_cant": "A test runs one interleaving of the event loop; the claim is about every interleaving.", "anchors": ["aioreactive/transform.py:catch", "aioreactive/create.py:interval"]}
{"id": "C116", "title": "sample drops what is sent before its first tick, and nothing else", "statement": "On a loop that is not overloaded `pipe(source, sample(s))` with s > 0 drops the values that the source sends in the first s seconds after the subscription, and sends everything that the source sends later, values and the end, unchanged, in the same order and at the same times. (It does not take samples, C56.)", "quantifier": "all sources on one clock that keep the grammar, all s > 0, all prompt schedules in which the timer is not disposed, all times", "why_tests_cant": "A test runs one interleaving of the event loop; the claim is about every interleaving.", "anchors": ["aioreactive/timeshift.py:sample", "aioreactive/combine.py:with_latest_from", "aioreactive/create.py:interval"]}
{"id": "C117", "title": "On the virtual event loop everything happens exactly on time", "statement": "On the VirtualTimeEventLoop, whatever else runs on it and however many callbacks a message needs to reach a waiting task, the clock advances only when no task of the pipeline can go on, and never beyond the end of a sleep of one of them. So `interval(s, p)` subscribed at t0 sends k exactly at t0 + s + kp, `timer(s)` sends and completes exactly at t0 + s, `debounce(d)` behind any source sends a value exactly d after the source if nothing follows it within d, and operators without timers take no time; and what is due before the present time of the loop has been sent. The pipeline never holds up the loop.", "quantifier": "all pipelines of interval, timer, debounce, operators without timers with one or two sources, and calls by other code; all programs that run on the same loop and do not cancel the handles of these tasks; all numbers of callbacks per message, all executions", "why_tests_cant": "A test runs one interleaving of the event loop; the claim is about every interleaving.", "anchors": ["aioreactive/testing/virtual_events.py:VirtualTimeEventLoop", "aioreactive/create.py:interval", "aioreactive/timeshift.py:debounce"]}
{"id": "C118", "title": "run with a timeout returns when the stream ends, or raises TimeoutError at the deadline", "statement": "`run(source, timeout=T)`, started at t0 and not disturbed, ends with the last value, the error or the cancellation that the stream ends with, never before the stream ends, or with TimeoutError, never before t0 + T. On a loop that is not overloaded it ends at the very time at which the stream ends if that is before t0 + T, and otherwise raises TimeoutError exactly at t0 + T; only if both times are the same may either happen. So `run(timer(s), timeout=T)` returns 0 after s if s < T, `run(interval(s, p), timeout=T)` always raises TimeoutError after T, and `run(pipe(interval(s, p), take(n)), timeout=T)` returns n - 1 after s + (n - 1)p if that is less than T, and raises TimeoutError after T if it is more.", "quantifier": "all sources on the clock (interval, timer, delay, debounce and operators in any pipeline), all timeouts, also zero and negative ones, all starting times, all executions", "why_tests_cant": "A test runs one interleaving of the event loop; the claim is about every interleaving.", "anchors": ["aioreactive/subscription.py:run", "aioreactive/observers.py:AsyncAwaitableObserver", "aioreactive/create.py:interval"]}
{"id": "C119", "title": "The search box of the README searches when the user pauses, never twice in a row for the same term, and shows only the results of the last search", "statement": "In `pipe(subject, map(clean), filter(long), debounce(d), distinct_until_changed, map(search), switch_latest)` on a loop that is not overloaded, the searches that are made (the observables that are subscribed) are exactly these, at exactly these times: of the cleaned terms that are long enough, those that no other such term follows within d, each d after it was typed, except one that equals the term of the search before. A value or error is sent on at time t only if the search that was last made before or at t sent it at t, and everything that a search sends before the next one is made is sent on, in that order (if an observable makes no calls once its subscription is disposed). The only assumption on the times is that no two terms are typed exactly d apart. Behind any source that sends only values, in any schedule, debounce(d) sends exactly the values that nothing follows within d, exactly d later.", "quantifier": "all sources that send only values, all sequences of terms and times, all d, all clean, long, ==, search that do not raise, all observables that search returns, all executions", "why_tests_cant": "A test runs one interleaving of the event loop; the claim is about every interleaving.", "anchors": ["README.md", "aioreactive/timeshift.py:debounce", "aioreactive/transform.py:switch_latest", "aioreactive/filtering.py:distinct_until_changed", "examples/autocomplete/autocomplete.py"]}
{"id": "C120", "title": "Pipelines behind one subject, merged: each follows the subject on its own, exactly its delay behind", "statement": "In the timeflies example, `pipe(labels, flat_mapi(lambda x, i: pipe(subject, delay(d), starmap(f))))` with one shared AsyncSubject: in any schedule every label's pipeline gets from the subject exactly the values that are sent after its subscription, in that order, none lost or doubled because of the others. On a loop that is not overloaded the pipeline of a label is subscribed at the time at which the label is sent, and what is sent on for that label is exactly f of those values, in that order, each exactly d after it was sent to the subject; everything that is due before the present time has been sent on. Nothing else is sent: no errors, no values for other labels, and no completion once there is a label.", "quantifier": "all sources of labels (without repetitions), all delays and mappings per label, all sequences of asend calls and their times, all prompt schedules in which nothing is disposed or raised; the first part for all schedules", "why_tests_cant": "A test runs one interleaving of the event loop; the claim is about every interleaving.", "anchors": ["examples/timeflies/timeflies.py", "aioreactive/subject.py:AsyncMultiSubject", "aioreactive/timeshift.py:delay", "aioreactive/transform.py:flat_mapi", "aioreactive/combine.py:merge_inner"]}
{"id": "C121", "title": "merge_inner(k) is a pool of k slots: an inner observable begins at the earliest time at which it may", "statement": "With k > 0 and a loop that is not overloaded, `merge_inner(k)` subscribes the inner observables in the order in which they were sent, and at any time t the number of those subscribed by then is exactly the minimum of the number sent by t and of k plus the number of inner observables that have completed by t. So the inner observable number i is subscribed at the first time at which it has been sent and fewer than k of those before it have not completed: none is late, none is early, and one that fails keeps its slot for ever.", "quantifier": "all k > 0, all sources and all families of inner observables that act in time order and keep the grammar, all prompt schedules in which nothing raises or is disposed and the source does not fail", "why_tests_cant": "A test runs one interleaving of the event loop; the claim is about every interleaving.", "anchors": ["aioreactive/combine.py:merge_inner", "aioreactive/combine.py:concat_seq", "aioreactive/__init__.py:merge_inner", "aioreactive/transform.py:concat_map"]}
{"id": "C122", "title": "Jobs through merge_inner(k): results when the jobs are over, never more than k at once, no idle slot, and a bound for the time of all", "statement": "`flat_map(lambda x: of_async(work(x)))` as in the parallel example, and the same with `merge_inner(k)`, where work(x) takes dur(x) from when it is awaited and returns or raises. For each job that has been begun exactly one event is sent on, its result or its exception, at exactly the time at which the job is over, and nothing else; with flat_map each job begins when its value is sent, so all of them go on at the same time. With k slots, for jobs that return: at most k are in progress at any time; while a job waits, exactly k of those before it are in progress; the result completes at the first time at which the source has completed and all jobs have returned. For a batch sent at time t0, a job waits at most a k-th of what all those before it take; the whole is not done before t0 + (sum of dur) / k and is done at t0 + ((sum of dur) + (k - 1) * (the longest)) / k.", "quantifier": "all sources that act in time order and keep the grammar, all durations and outcomes (except a cancellation), all k, all prompt schedules in which nothing raises or is disposed and the source does not fail", "why_tests_cant": "A test runs one interleaving of the event loop; the claim is about every interleaving.", "anchors": ["examples/parallel/parallel.py", "aioreactive/create.py:of_async", "aioreactive/combine.py:merge_inner", "aioreactive/transform.py:flat_map_async"]}
{"id": "C123", "title": "A slow observer is told of the events one at a time, each as soon as possible; it falls behind a source that does not wait for it, and slows down one that does", "statement": "An observer whose asend takes time, behind `safe_observer` (from_iterable, single, merge_inner, take, ... as last stage): on a loop that is not overloaded the call for each event begins exactly at the later of the time at which the event was sent and the time at which the call before it has ended, so no two calls overlap and the observer is never idle while an event waits; a terminal event comes after the time that the disposal takes; if a call raises at its end, athrow is called at that very time and nothing follows. So an observer that is done before the next event is told of every event at the time it is sent; of a batch sent at t0 it is told of each value at t0 + what those before it take; and behind a source with period p, taking d >= p for each value, it is told of value i exactly i * (d - p) late: the lag grows without bound, nothing is lost and the source is not slowed down. `interval` calls its observer directly and awaits it: value k is sent exactly at t0 + s + k * p + the time taken by the observer for all values before it.", "quantifier": "all sources that act in time order, all durations and exceptions per call (depending on the value and on the number of the call), all prompt schedules; for interval all s, all p except 0, all durations per value", "why_tests_cant": "A test runs one interleaving of the event loop; the claim is about every interleaving.", "anchors": ["aioreactive/observers.py:safe_observer", "aioreactive/create.py:interval", "aioreactive/create.py:of_seq"]}
{"id": "C124", "title": "Async functions in a chain work on one value at a time: results come in order, after the sum of the times taken, however the chain is split", "statement": "`pipe(source, map_async(f), filter_async(p), choose_async(g), ...)` behind `safe_observer`, with functions that take time: on a loop that is not overloaded the first function is called for a value exactly at the later of the time it was sent and the time at which all functions and the observer are done with the value before; each function is called with what the one before it returned, at once when it returns; the observer is told of the result after the sum of the times they take; a value that is dropped costs only the time up to the function that drops it; if a function raises, athrow is called at that very time and nothing follows (and nothing at all if it raises CancelledError). So results come in the order of the source however long each takes; splitting the work over several operators makes no difference (`map_async(f), map_async(g)` is map_async of the composition, in time too - there is no pipelining); of a batch sent at t0 the result of each value comes at t0 + the time for it and all before it; and functions that always take d in all act on values that come no faster as `delay(d)` does.", "quantifier": "all sources that act in time order, all chains of these operators of any length, all durations, results and exceptions per value, all durations and exceptions per call of the observer, all prompt schedules", "why_tests_cant": "A test runs one interleaving of the event loop; the claim is about every interleaving.", "anchors": ["aioreactive/transform.py:map_async", "aioreactive/filtering.py:filter_async", "aioreactive/filtering.py:choose_async", "aioreactive/transform.py:transform", "aioreactive/observers.py:safe_observer"]}
{"id": "C125", "title": "`async for` overlaps its body with the work upstream by exactly one value; an observer that subscribes does not", "statement": "`async for y in pipe(source, map_async(f), ...): body` (behind safe_observer), with functions and a body that take time, on a loop that is not overloaded: the loop gets each result exactly at the later of the time at which it is made and the time at which the body for the one before is over; the functions are called for the next value as soon as the loop has got the one before, so exactly one result is made ahead while the body runs, and the worker waits when the body is slower. Results come in the order of the source, none is lost or skipped, the body never runs twice at a time, and after `break` nothing is got. If functions take a and the body takes d for each value, a batch is gone through at one value per max(a, d), and values that come every p >= max(a, d) are all got exactly a after they were sent, even if a + d > p; the loop ends max(gone, d) after its last value, where gone is the time of the disposal, which the worker awaits before the end is told. The same body as the asend of an observer takes a + d per value. An exception of a function is raised in the loop when the body is over.", "quantifier": "all sources that act in time order, all chains of map_async, filter_async and choose_async, all durations, results and exceptions per value, all durations of the body (depending on the value and its number) and all points of a break, all prompt schedules", "why_tests_cant": "A test runs one interleaving of the event loop; the claim is about every interleaving.", "anchors": ["aioreactive/observers.py:AsyncIteratorObserver", "aioreactive/observers.py:safe_observer", "aioreactive/leave.py:to_async_iterable", "aioreactive/transform.py:map_async"]}
{"id": "C126", "title": "What sample really does to a stream with times: it skips the first period", "statement": "`pipe(source, sample(s))` with s > 0, on a loop that is not overloaded, for any source: of what the source sends before the time s after the subscription the observer gets no value, but an end at once; every event that the source sends later it gets, when the source sends it (at exactly that time there is a point between the two). So sample never reduces the rate of a source: of an interval it forwards every value due after the first s, however many there are between two ticks.", "quantifier": "all sources that act in time order, all s > 0, all prompt schedules of the source, the ticks and the workers", "why_tests_cant": "A test runs one interleaving of the event loop; the claim is about every interleaving.", "anchors": ["aioreactive/timeshift.py:sample", "aioreactive/combine.py:with_latest_from", "aioreactive/create.py:interval"]}
{"id": "C127", "title": "scan_async with an accumulator that takes time loses no update: the totals come in order, one call of the accumulator after the other", "statement": "`pipe(source, ..., scan_async(f, s0), ...)` behind `safe_observer`, with an accumulator (and functions before and after it) that takes time: on a loop that is not overloaded the accumulator is never called for a value before it has returned for the one before, is always called with what it returned last (s0 at first; an exception changes nothing), and is called exactly when the value has come and everything is done with the value before; the observer is told of the result, or of the exception, at once when it is there, and after an exception all goes on (so values may follow an athrow). So however fast values come and however long f takes, the values told are the running totals of all values for which f does not raise, in the order of the source; of a batch sent at t0 the total of the first k values comes at t0 + the time for them and the completion after the time for all; and if f takes at most D and the source leaves at least D between its events, nothing is told later than D after an event of the source.", "quantifier": "all sources that act in time order, all chains of map_async/filter_async/choose_async of any length before and after scan_async, all durations, results and exceptions per accumulated state and value, all durations and exceptions per call of the observer, all prompt schedules", "why_tests_cant": "A test runs one interleaving of the event loop; the claim is about every interleaving.", "anchors": ["aioreactive/transform.py:_scan", "aioreactive/transform.py:scan_async", "aioreactive/observers.py:safe_observer"]}
{"id": "C128", "title": "reduce_async tells the total exactly when the accumulator has worked on all values; operators behind async functions see the results in time", "statement": "Behind async functions that take time (which are themselves behind `safe_observer`), an operator that takes no time itself (take, skip, take_last, slice, distinct_until_changed, ...) has, at any time in the past, told its observer exactly what it makes of the results that were there by then. In particular `reduce_async(f, s0)` (scan_async, then take_last(1)) with an accumulator that takes time and does not raise: nothing is told while the source has not ended; when it has completed, the total of all values, folded in their order from s0, and then the completion are told exactly at the time at which f has worked on all of them one after the other (each beginning when it has come and the one before is done) and the disposable of safe_observer has been disposed of, however fast the values came; with no values, the completion alone; and if the source fails, its error alone, after f has worked on all values before it.", "quantifier": "all sources that act in time order, all chains of async functions of any length, all operators that compute a function of the stream, all accumulators and durations per total and value, all prompt schedules", "why_tests_cant": "A test runs one interleaving of the event loop; the claim is about every interleaving.", "anchors": ["aioreactive/transform.py:reduce_async", "aioreactive/transform.py:_scan", "aioreactive/filtering.py:take_last", "aioreactive/observers.py:safe_observer"]}
{"id": "C129", "title": "flat_map_async calls its mapper for one value at a time; only the observables that it returns overlap", "statement": "With a mapper that takes time, `flat_map_async(f)` behind `safe_observer` (that is, after from_iterable or an operator with a safe observer) subscribes to the observable returned for a value exactly when the mapper has been called for all values up to this one, one after the other (each call beginning when its value has come and the call before is done), not when the value is sent; `flat_map_latest_async(f)` likewise leaves the inner observable before only then. So for values sent together at t0, a mapper that takes m(x) and jobs (of_async) that take d(x), the result of value i comes exactly at t0 + m(x0) + ... + m(xi) + d(xi), and nothing else comes.", "quantifier": "all sources that act in time order, all mappers and durations per value, all inner observables, all prompt schedules", "why_tests_cant": "A test runs one interleaving of the event loop; the claim is about every interleaving.", "anchors": ["aioreactive/transform.py:flat_map_async", "aioreactive/transform.py:flat_map_latest_async", "aioreactive/transform.py:map_async", "aioreactive/combine.py:merge_inner", "aioreactive/transform.py:switch_latest"]}
{"id": "C130", "title": "In tests with VirtualTimeEventLoop, async functions that sleep give their results at exactly computable times", "statement": "On the VirtualTimeEventLoop, whatever else runs on the loop and however many callbacks it takes to resume a task, a chain of map_async, filter_async, choose_async, scan_async (also reduce_async, or further operators without timers behind it) behind `safe_observer` whose functions await asyncio.sleep has told its observer, of everything before the loop's present time, exactly what follows from the times of the source and the durations of the functions: one value at a time, each result after the sum of the durations. So `pipe(interval(s, p), skip(0), map_async(f), ...)` (skip, take, ... have a safe observer; without one, interval waits for the functions, see C123) with functions that take d <= p in all gives the result for k exactly at s + kp + d; if they take d >= p, there is a result every d, at s + (k+1)d, no value is lost, and the lag grows without bound; and reduce_async gives the total and completes exactly when the accumulator has worked on all values.", "quantifier": "all sources that can be put on the loop (subjects driven by other code, intervals, timers, and what is built on them), all chains, durations, results and exceptions, all observers that take time, all other code on the loop, all numbers of callbacks per resumption, all executions", "why_tests_cant": "A test runs one interleaving of the event loop; the claim is about every interleaving.", "anchors": ["aioreactive/testing/virtual_events.py:VirtualTimeEventLoop", "aioreactive/observers.py:safe_observer", "aioreactive/transform.py:map_async", "aioreactive/filtering.py:filter_async", "aioreactive/transform.py:_scan", "aioreactive/transform.py:reduce_async"]}
{"id": "C131", "title": "In tests with VirtualTimeEventLoop, merge, concat, flat_map and merge_inner(k) subscribe and tell at exactly computable times", "statement": "On the VirtualTimeEventLoop, whatever else runs on the loop and however many callbacks it takes to resume a task: with merge or flat_map an inner observable is subscribed exactly when the source sends it; with concat or concat_map exactly when the source sends it or when the one before completes, whichever is later; with any number of slots the completion is told exactly when the source and all inner observables have completed; and operators behind them take no time. So for flat_map of intervals the observer gets of each interval all that is due before the present time, each value once and at its time; concat_map(timer) of as tells the k-th value after the sum of the first k delays; flat_map of of_async(work(x)) tells the result of x exactly when work(x) has taken its time since x was sent; and merge_inner(k) of such jobs never runs more than k at once, and completes no sooner than a k-th of the total work and no later than that and (k-1)/k of the longest job.", "quantifier": "all sources that can be put on the loop and keep the grammar (of_seq, intervals, timers, what is built on them) and do not fail, all families of inner observables that begin with tasks that are not asleep (intervals, timers, of_async), all other code on the loop, all numbers of callbacks per resumption, all executions, observed when no callback is due", "why_tests_cant": "A test runs one interleaving of the event loop; the claim is about every interleaving.", "anchors": ["aioreactive/testing/virtual_events.py:VirtualTimeEventLoop", "aioreactive/combine.py:merge_inner", "aioreactive/create.py:of_async", "aioreactive/create.py:interval", "aioreactive/transform.py:flat_map", "aioreactive/transform.py:concat_map"]}
{"id": "C132", "title": "In tests with VirtualTimeEventLoop, switch_latest disposes the replaced observable in its sleep, and each value of the latest comes exactly when it is due", "statement": "On the VirtualTimeEventLoop, whatever else runs on the loop and however many callbacks it takes to resume a task: switch_latest subscribes each inner observable exactly when the source sends it, and disposes it only when the source has sent another one; the task of the disposed observable is woken from its sleep with the cancellation and sends nothing any more; operators behind take no time. If nothing fails the observer gets what the inner observables send, one observable after the other, each value at the time it was sent, and all of it no later than the next observable was sent. So with flat_map_latest(lambda x: interval(*f(x))) the observer gets of each interval the first values, each exactly when it is due: none that is due after the next value of the source or after the present time, and all that were due before both.", "quantifier": "all sources that can be put on the loop and keep the grammar, all families of inner observables that begin with tasks that are not asleep and, for the order, send no values or errors after their disposal (intervals are shown to), all other code on the loop, all numbers of callbacks per resumption, all executions, observed when no callback is due", "why_tests_cant": "A test runs one interleaving of the event loop; the claim is about every interleaving.", "anchors": ["aioreactive/testing/virtual_events.py:VirtualTimeEventLoop", "aioreactive/transform.py:switch_latest", "aioreactive/transform.py:flat_map_latest", "aioreactive/create.py:interval"]}
{"id": "C133", "title": "In tests with VirtualTimeEventLoop, flat_map_latest cancels the async function of the value before in its sleep; only results due before the next value come, each exactly when it is due", "statement": "On the VirtualTimeEventLoop, whatever else runs on the loop and however many callbacks it takes to resume a task: with flat_map_latest(lambda x: of_async(work(x))) the task that awaits work(x) is cancelled exactly when the source sends the next value, and not if there is none; by the time that no callback is due it has ended. If work(x) sleeps for dur(x) and returns g(x), the observer gets of each value either exactly g(x), exactly dur(x) after the value was sent, or nothing: nothing if that is later than the next value of the source or than the present time, and the result if it is earlier than both. This is so although a cancelled of_async still completes and a result in the mailbox of its safe observer is still forwarded.", "quantifier": "all sources that can be put on the loop and keep the grammar, all durations and results, all other code on the loop, all numbers of callbacks per resumption, all executions, observed when no callback is due", "why_tests_cant": "A test runs one interleaving of the event loop; the claim is about every interleaving.", "anchors": ["aioreactive/testing/virtual_events.py:VirtualTimeEventLoop", "aioreactive/transform.py:switch_latest", "aioreactive/transform.py:flat_map_latest", "aioreactive/create.py:of_async", "aioreactive/create.py:canceller"]}
{"id": "C134", "title": "The README's search box shows exactly the results it should, when it should (virtual loop)", "statement": "In tests with VirtualTimeEventLoop, in pipe(subject, map(clean), filter(long), debounce(d), distinct_until_changed, map(lambda x: of_async(search(x))), switch_latest), where search(x) takes dur(x) seconds and returns g(x): whatever else runs on the loop, a search is started exactly d after each wanted term that no other wanted term follows within d, unless it is the same term as in the search before; each search is cancelled exactly when the next one is started; and the observer gets exactly the results of the searches that are done before the next one is started, in this order and each exactly when it is done. (For times at which two of these things do not coincide.)", "quantifier": "all terms typed at any times, all functions clean, long, dur, g and comparisons, all d, all other code on the loop, all numbers of callbacks per resumption, all executions, observed when no callback is due; C134_asked and C134_results for any source on the loop and any operators of this kind", "why_tests_cant": "A test runs one interleaving of the event loop; the claim is about every interleaving.", "anchors": ["README.md:255-270", "aioreactive/timeshift.py:debounce", "aioreactive/transform.py:switch_latest", "aioreactive/create.py:of_async", "aioreactive/filtering.py:distinct_until_changed", "aioreactive/testing/virtual_events.py:VirtualTimeEventLoop"]}
{"id": "C135", "title": "flat_map_async with a search: searches are made one after the other and all results come, in order (virtual loop)", "statement": "In tests with VirtualTimeEventLoop, flat_map_async(search) behind `safe_observer` (as after distinct_until_changed), where search(x) awaits for dur(x) > 0 seconds and returns single(g(x)), calls search for one value after the other: the search for a value begins when the value is sent or, if it is later, when the search before ends; the observer gets the results of all values, in the order of the values, each exactly when its search ends. So in the search box of examples/autocomplete, pipe(subject, map(clean), filter(long), debounce(d), distinct_until_changed, flat_map_async(search)), whatever else runs on the loop, no search that was asked for is given up: results of outdated searches are still delivered, and the next search waits for them (unlike with switch_latest, C134).", "quantifier": "all sources on the loop that obey the grammar and do not fail, all functions dur, g; for the search box all terms typed at any times, all clean, long, comparisons, d; all other code on the loop, all numbers of callbacks per resumption, all executions, observed when no callback is due; results due before the time of observation", "why_tests_cant": "A test runs one interleaving of the event loop; the claim is about every interleaving.", "anchors": ["examples/autocomplete/autocomplete.py:47-54", "aioreactive/transform.py:flat_map_async", "aioreactive/transform.py:map_async", "aioreactive/create.py:single", "aioreactive/combine.py:merge_inner", "aioreactive/filtering.py:distinct_until_changed", "aioreactive/testing/virtual_events.py:VirtualTimeEventLoop"]}
{"id": "C136", "title": "run with a timeout on the virtual loop: it returns or raises at the exact time and leaves nothing behind", "statement": "In tests with VirtualTimeEventLoop, `await run(source, timeout=T)` is over exactly when the source has ended or when T has passed, whichever is first: with the last value, the error or the cancellation that the source's notifications stand for, or with TimeoutError; if both are at the same time, either. It disposes the source, and if the tasks of the source end when they are cancelled, then once run is over and no callback is due no task or timer of the pipeline is left on the loop. So run(timer(s), timeout=T) returns 0 after exactly s or raises TimeoutError after exactly T; run(interval(s, p), timeout=T) raises TimeoutError after exactly T; run(pipe(interval(s, p), take(n)), timeout=T) returns n - 1 exactly when the interval sends it, or raises TimeoutError after exactly T; whatever else runs on the loop.", "quantifier": "all sources hosted on the loop, with or without operators that have no timers; all s, p, n, T; all other code on the loop, all numbers of callbacks per resumption, all executions, at every moment", "why_tests_cant": "A test runs one interleaving of the event loop; the claim is about every interleaving.", "anchors": ["aioreactive/subscription.py:run", "aioreactive/observers.py:AsyncAwaitableObserver", "aioreactive/create.py:interval", "aioreactive/testing/virtual_events.py:VirtualTimeEventLoop"]}
{"id": "C137", "title": "A program gives the same output on VirtualTimeEventLoop as on a normal event loop", "statement": "As documented (\"works the same way as a normal event loop except that time is virtual\", \"a test using virtual time still gives the same result as it would have done if it had been run in real-time\"): every program that uses call_soon, call_later, call_at and cancel runs the same callbacks in the same order and at the same times on VirtualTimeEventLoop as on asyncio's normal loop, if callbacks take no time and select returns exactly when the next timer is due.", "quantifier": "all programs (deterministic code whose callbacks may do anything, depending on what has run before, and when), all numbers of iterations of the loop, all heaps that obey the laws of heapq", "why_tests_cant": "the claim compares two event loops on all programs; a test runs one program on one loop, and programs with tied or zero timers are where they differ", "anchors": ["aioreactive/testing/virtual_events.py:VirtualTimeEventLoop", "aioreactive/testing/virtual_events.py:VirtualTimeEventLoop._run_once", "README.md:335-365"]}
{"id": "C138", "title": "In tests with VirtualTimeEventLoop, `async for` gets its values at exactly computable times", "statement": "On the VirtualTimeEventLoop, whatever else runs on the loop and however many callbacks it takes to resume a task: `async for y in pipe(source, map_async(f), ...): body` behind `safe_observer`, where the functions and the body await asyncio.sleep, has got, of everything before the loop's present time, exactly what follows from the times of the source and the durations: each result at the later of the time at which it is made and the time at which the body for the one before is over, while one result is made ahead. So over `pipe(interval(s, p), skip(0), map_async(f), ...)` with functions that take a <= p and a body that takes d <= p the body for k begins exactly at s + kp + a, even if a + d > p; if a or d is at least p, the body for k begins exactly at s + a + k * max(a, d), nothing is lost, and the lag grows. No task is resumed without something to do.", "quantifier": "all sources that can be put on the loop, all chains of map_async, filter_async and choose_async, all durations, results and exceptions per value, all durations of the body and points of a break, all other code on the loop, all numbers of callbacks per resumption, all executions", "why_tests_cant": "A test runs one interleaving of the event loop; the claim is about every interleaving.", "anchors": ["aioreactive/observers.py:AsyncIteratorObserver", "aioreactive/observers.py:safe_observer", "aioreactive/subscription.py:subscribe_async", "aioreactive/testing/virtual_events.py:VirtualTimeEventLoop"]}
{"id": "C139", "title": "When an `async for` over an observable is over, nothing of it is left behind", "statement": "When `async for x in to_async_iterable(source)` has ended, with its source, with an error or by break, the tasks that the library started for it end, too, and the source is no longer listened to: later values are not stored.", "quantifier": "all sources behind safe_observer that can be put on the virtual loop, all chains of async functions, all bodies and points of a break, all other code on the loop, all executions", "why_tests_cant": "A test runs one interleaving of the event loop; the claim is about every interleaving.", "anchors": ["aioreactive/observers.py:AsyncIteratorObserver.wait_for_push", "aioreactive/observers.py:AsyncIteratorObserver.dispose_async", "aioreactive/observers.py:safe_observer"]}
{"id": "C140", "title": "A source that awaits its observer is slowed down by async functions, by an exactly computable time", "statement": "On the VirtualTimeEventLoop, whatever else runs on the loop: `pipe(from_async_iterable(gen), map_async(f), ...)` and `pipe(interval(s, p), map_async(f), ...)` have no mailbox between the source and the observer, so the source goes on to its next value only when the functions and the observer are done with the one before. What the observer is told before the loop's present time is exactly what follows from the durations: the k-th result of an interval whose functions take d(k) and whose observer takes e(k) comes at s + k * p + the sum of d + e for all values before + d(k); the results of a generator that sleeps and yields come after the sum of all sleeps and all durations up to them, and then the completion. If a function or the observer raises, the observer of from_async_iterable is told so at that time and nothing follows; the observer of an interval is never told: it gets nothing any more. Disposal cancels the task also in the middle of a function: nothing is told later than that, everything before it was told, and the task is gone when the clock moves on. Operators behind it see the results at these times.", "quantifier": "all chains of map_async, filter_async and choose_async, all durations, results and exceptions per value, all observers (duration and exception per call), all generators that end, fail or go on forever, all s and p, all times of disposal, all other code on the loop, all numbers of callbacks per resumption, all executions", "why_tests_cant": "A test runs one interleaving of the event loop; the claim is about every interleaving.", "anchors": ["aioreactive/create.py:of_async_iterable", "aioreactive/create.py:interval", "aioreactive/transform.py:transform", "aioreactive/transform.py:map_async", "aioreactive/testing/virtual_events.py:VirtualTimeEventLoop"]}
{"id": "C141", "title": "An observer may dispose its subscription from within asend", "statement": "If an observer of `interval` or `from_async_iterable` disposes its own subscription while it handles a value, the rest of this asend is executed as usual, and it gets nothing more.", "quantifier": "all observers (what each call does, where it awaits and disposes, what it raises), all iterables and periods, all values at which it disposes, all points at which others dispose the subscription as well", "why_tests_cant": "A test runs one interleaving of the event loop; the claim is about every interleaving.", "anchors": ["aioreactive/create.py:interval", "aioreactive/create.py:of_async_iterable", "aioreactive/create.py:canceller", "aioreactive/observers.py:safe_observer"]}
{"id": "C142", "title": "catch subscribes to the handler's observable undisturbed", "statement": "When the source of `catch` fails, the observable that the handler returns is subscribed to as by anybody else: its subscribe_async runs to its end, also if it has to await something.", "quantifier": "all sources given as async iterables, all async functions in between, all values at which they fail, all handlers and fallback observables (what their subscribe_async does and where it awaits), all points at which others dispose the subscription", "why_tests_cant": "A test runs one interleaving of the event loop; the claim is about every interleaving.", "anchors": ["aioreactive/transform.py:catch", "aioreactive/create.py:of_async_iterable", "aioreactive/transform.py:map_async", "aioreactive/observers.py:safe_observer"]}
{"id": "C143", "title": "Functions with side effects are called as in a plain loop", "statement": "`pipe(source, map(f), filter(p), choose(c), ...)` behind a source that delivers through a safe observer (from_iterable, a subject followed by skip, merge, ...) does exactly what the plain loop `for x in source: try: y = c(f(x)) if p(f(x)) ...; observer.asend(y) except Exception as ex: observer.athrow(ex); break` does, also if the functions and the observer have side effects or share variables: each function is called once for each value that reaches it, everything is done for one value before anything is done for the next, the first exception goes to the observer and nothing is called after it. At any moment exactly what the loop does for the notifications taken up so far has been done.", "quantifier": "all chains of map, filter and choose of any length, all functions and observers (any effect on shared variables, any visible effect, any exception), all notification sequences, all schedules", "why_tests_cant": "A test runs one interleaving of the event loop; the claim is about every interleaving.", "anchors": ["aioreactive/transform.py:transform", "aioreactive/transform.py:map", "aioreactive/filtering.py:filter", "aioreactive/filtering.py:choose", "aioreactive/observers.py:safe_observer"]}
{"id": "C144", "title": "take(n) does not save the work before it", "statement": "In `pipe(source, map(f), ..., take(n))` behind a source that delivers through a safe observer, f and the other functions before take are called for every value the source has sent, also after take has its n values and the stream has ended: whatever they do, they do as if there were no take(n); only the observer gets the first n results and no more. In `pipe(source, take(n), map(f), ...)` they are called for the first n values only.", "quantifier": "all chains of map, filter and choose, all functions (any effect on shared variables, any visible effect, any exception), all n, all notification sequences, all schedules", "why_tests_cant": "A test runs one interleaving of the event loop; the claim is about every interleaving.", "anchors": ["aioreactive/filtering.py:take", "aioreactive/transform.py:transform", "aioreactive/observers.py:safe_observer"]}
{"id": "C145", "title": "A subscriber may send to the AsyncSubject from within its asend", "statement": "If a subscriber of an AsyncSubject sends further values to the subject from within its own asend (a feedback loop), all subscribers are told all the values in the same order, each value before the values that were made from it, and nothing after a terminal event.", "quantifier": "all subscribers, all positions of the one that sends, all ways to make values from a value, all states of the subject; behind a mailbox: all schedules of its worker and of other senders", "why_tests_cant": "A test runs one interleaving of the event loop; the claim is about every interleaving.", "anchors": ["aioreactive/subject.py:AsyncMultiSubject", "aioreactive/observers.py:safe_observer"]}
{"id": "C146", "title": "debounce and delay hold on to the events of the last `seconds`, and to nothing else", "statement": "A subscription of debounce(seconds) keeps one timer task per event for `seconds` and then lets go of it; one of delay(seconds) keeps exactly the events that came less than `seconds` ago. What they hold on to is thus bounded by the rate of the source, not by how long the subscription has lasted.", "quantifier": "all inputs and durations, all times of disposal (debounce); for the exact number all runs in which every task runs as soon as it can, for the bound from below all schedules", "why_tests_cant": "A test runs one interleaving of the event loop; the claim is about every interleaving.", "anchors": ["aioreactive/timeshift.py:debounce", "aioreactive/timeshift.py:delay"]}
{"id": "C147", "title": "from_async_iterable(to_async_iterable(xs)) is xs", "statement": "Turning an observable into an async iterable and that into an observable again changes nothing: the observer is told the values of the observable in order, each once, and then how it ended.", "quantifier": "all chains of the modelled operators behind a safe source, all inputs, all schedules, all times at which the observer's calls return", "why_tests_cant": "A test runs one interleaving of the event loop; the claim is about every interleaving.", "anchors": ["aioreactive/create.py:of_async_iterable", "aioreactive/observables.py:AsyncIterableObservable", "aioreactive/observers.py:AsyncIteratorObserver"]}
{"id": "C148", "title": "Subscribing an AsyncIteratorObserver and iterating over it yields every value once", "statement": "With obv = AsyncIteratorObserver(xs), the loop `async with await xs.subscribe_async(obv): async for x in obv` (the README's way to control the lifetime of the subscription) yields the values of xs in order, each once, and ends when xs completes.", "quantifier": "all lists of values, all schedules of the workers of the subscriptions and of the loop", "why_tests_cant": "A test runs one interleaving of the event loop; the claim is about every interleaving.", "anchors": ["aioreactive/observers.py:AsyncIteratorObserver", "README.md:148-163"]}
{"id": "C149", "title": "combine_latest of a subject with something derived from it shows only pairs that belong together", "statement": "For pipe(xs, f, combine_latest(pipe(xs, g))) over one AsyncSubject xs, every pair that the subscriber gets consists of what f and g make of the same values sent to xs. (False of the code: with every value but the first, a pair of the new value of f and the old one of g comes first. What does hold: when nothing is left to do the last pair belongs together, whatever operators f and g are; and with element-wise operators exactly one such extra pair comes with each value, before the right one, and nothing else.)", "quantifier": "for all sequences of calls on the subject, all operators f and g (for the exact law: all element-wise ones without a mailbox), all operators behind, all schedules of the workers", "why_tests_cant": "A test sees some pairs of some run. Which pairs come depends on the order of the two subscriptions, on the mailboxes in between and on when the workers run; the claim is about all values and all schedules.", "anchors": ["aioreactive/combine.py:combine_latest", "aioreactive/subject.py:AsyncMultiSubject.asend", "aioreactive/subject.py:AsyncMultiSubject.subscribe_async"]}
{"id": "C150", "title": "with_latest_from pairs a value with what the other branch made of the same value", "statement": "For pipe(xs, f, with_latest_from(pipe(xs, g))) over one AsyncSubject xs, each value of f comes with what g made of the newest value sent to xs, that is, of the same one. (False of the code for branches without a mailbox: the value always comes with what g made of the value before, and the first one is lost. With a mailbox in the source and none in the other branch: every value comes, with what g made of it or of a later value, never with an older one; and exactly with its own if the source gets its turn between the calls.)", "quantifier": "for all sequences of calls on the subject, all element-wise branches, all schedules of the workers", "why_tests_cant": "A test runs one interleaving of the event loop; the claim is about every interleaving.", "anchors": ["aioreactive/combine.py:with_latest_from", "aioreactive/subject.py:AsyncMultiSubject.asend", "aioreactive/subject.py:AsyncMultiSubject.subscribe_async"]}
{"id": "C151", "title": "take_until a condition on the values themselves ends before the value that meets it", "statement": "For pipe(xs, f, take_until(pipe(xs, g))) over one AsyncSubject xs with element-wise f and g: the subscriber gets what f makes of the values before the first one for which g sends something, then the completion; that value itself is not delivered. In particular pipe(xs, take_until(pipe(xs, filter(p)))) is takeWhile(not p).", "quantifier": "for all sequences of calls on the subject, all element-wise branches, all operators behind, all schedules of the workers", "why_tests_cant": "A test runs one interleaving of the event loop; the claim is about every interleaving.", "anchors": ["aioreactive/filtering.py:take_until", "aioreactive/subject.py:AsyncMultiSubject.asend", "aioreactive/subject.py:AsyncMultiSubject.subscribe_async"]}
{"id": "C152", "title": "merge and flat_map over subjects deliver everything that is sent to them after subscribing", "statement": "The inner observables of merge or flat_map are AsyncSubjects. Once the subscription to the whole has returned and the source has sent a subject, everything sent to that subject comes, in the order of the calls over all subjects, and the completion comes when the source and all subjects have completed. (False of the code: the worker subscribes to the subjects later, and an AsyncSubject drops what it is sent before. What does hold: exactly what is sent to each subject from the moment on at which the worker has subscribed to it comes; nothing is unsubscribed before the end; and everything comes if the worker is at rest whenever a subject is called.)", "quantifier": "for all numbers of subjects (the same one may be sent several times), all sequences of calls on them, all operators behind, all schedules of the workers", "why_tests_cant": "A test runs one interleaving of the event loop; the claim is about every interleaving.", "anchors": ["aioreactive/combine.py:merge_inner", "aioreactive/transform.py:flat_map", "aioreactive/subject.py:AsyncMultiSubject.asend", "aioreactive/subject.py:AsyncMultiSubject.subscribe_async"]}
{"id": "C153", "title": "concat over subjects plays them one after the other and completes when all have completed", "statement": "concat(xs, ys, ...) over AsyncSubjects delivers what xs is sent until it completes, then what ys is sent from then on, and so on; the completion comes when all have completed. (False of the code in two ways: a subject that has completed before its turn never completes for concat, so the whole never completes, under no schedule; and what is sent to ys after xs.aclose() has returned but before the worker has run is lost. What does hold: no subject is subscribed before the one before it has completed; and the claim, with each subject heard until its completion in its turn, if the worker is at rest whenever a subject is called.)", "quantifier": "for all numbers of subjects, all sequences of calls on them, all operators behind, all schedules of the workers; the never-completes part for every max_concurrent", "why_tests_cant": "A test runs one interleaving of the event loop; the claim is about every interleaving.", "anchors": ["aioreactive/combine.py:merge_inner", "aioreactive/combine.py:concat_seq", "aioreactive/subject.py:AsyncMultiSubject.asend", "aioreactive/subject.py:AsyncMultiSubject.subscribe_async"]}
{"id": "C154", "title": "switch_latest over subjects delivers the latest subject's values and no others", "statement": "The source of switch_latest (or flat_map_latest) sends AsyncSubjects. After the call that sends a new one has returned, what is sent to the new one comes and what is sent to the old one does not. (False of the code: the call only posts to the mailbox, and until the worker has run the old subject is heard and the new one is not. What does hold: the subjects are subscribed one by one in the order in which they are sent, each subscription ends exactly when the next begins, and exactly what is sent during them comes; and the full claim if the worker is at rest whenever a subject is called.)", "quantifier": "for all numbers of subjects (the same one may be sent again), all sequences of calls on them, all operators behind, all schedules of the workers", "why_tests_cant": "A test runs one interleaving of the event loop; the claim is about every interleaving.", "anchors": ["aioreactive/transform.py:switch_latest", "aioreactive/subject.py:AsyncMultiSubject.asend", "aioreactive/subject.py:AsyncMultiSubject.subscribe_async"]}
{"id": "C155", "title": "When the stream merged or switched from subjects is over, the subjects let go of it", "statement": "merge, concat or switch_latest over AsyncSubjects: once the stream has ended or its subscription has been disposed, and the worker has caught up, no subject that is still in use has an observer of it any more, and what is sent to the subjects from then on no longer reaches it. (False of the code if one of the merged subjects fails, or the source of switch_latest does: the other subjects keep their observers, and every value sent to them later is still put into a mailbox that nobody reads. What does hold: the claim for merge, concat and merge_inner(n) after a disposal or an error of the source, and for switch_latest after a disposal.)", "quantifier": "for all numbers of subjects, all sequences of calls on them before and after, all points at which the end or the disposal comes, all schedules of the worker; the violations for any number of values sent afterwards", "why_tests_cant": "A test runs one interleaving of the event loop; the claim is about every interleaving.", "anchors": ["aioreactive/combine.py:merge_inner", "aioreactive/transform.py:switch_latest", "aioreactive/subject.py:AsyncMultiSubject.asend", "aioreactive/subject.py:AsyncMultiSubject.subscribe_async"]}
{"id": "C156", "title": "catch over subjects changes over to the handler's subject inside the failing call, without a gap", "statement": "The source of catch and the observables its handler returns are AsyncSubjects. The observer gets what is sent to the source until it fails; from the moment on at which the call of athrow returns, what is sent to the subject that the handler returned for that error; and so on for its errors. Nothing is lost in between and nothing of the other subjects is heard, before or after. If the handler raises, or returns a subject that has already ended, nothing more comes.", "quantifier": "for all handlers (with or without state), all numbers of subjects, all sequences of calls on them, all operators with mailboxes behind", "why_tests_cant": "A test fixes one finite input; the claim is about every input sequence (including ill-formed ones).", "anchors": ["aioreactive/transform.py:catch", "aioreactive/subject.py:AsyncMultiSubject.asend", "aioreactive/subject.py:AsyncMultiSubject.subscribe_async"]}
{"id": "C157", "title": "retry over a subject lets the observer know when the subject has failed", "statement": "pipe(subject, retry(count)): when the subject fails, the observer learns of it: it gets further values, or the error once the attempts are used up. (False of the code for every count: the subject that is subscribed to again has ended and says nothing to new observers, so nothing at all comes any more. What does hold: as long as the subject does not fail, what is sent to it comes.)", "quantifier": "for all counts, all sequences of calls on the subject before and after the error", "why_tests_cant": "A test fixes one finite input; the claim is about every input sequence (including ill-formed ones).", "anchors": ["aioreactive/transform.py:retry", "aioreactive/transform.py:catch", "aioreactive/subject.py:AsyncMultiSubject.asend", "aioreactive/subject.py:AsyncMultiSubject.subscribe_async"]}
{"id": "C158", "title": "Nothing that is sent to merged AsyncSingleSubjects is lost, no matter when it is sent", "statement": "An observable of AsyncSingleSubjects is merged (merge, flat_map or merge_inner with a limit). What is sent to a subject before merge has subscribed to it waits and is delivered as soon as it has; what is sent later is delivered at once. So the observer gets exactly what has been sent to the subjects, each subject in its own order, once, until the first error, and completion when the source and all subjects have completed. Nobody who sends gets an exception, the event loop does not hang, and everything comes to rest after finitely many steps.", "quantifier": "for all numbers of subjects (each sent once by the source), all max_concurrent >= 0, all sequences of calls, all schedules of the worker and of those who wait in which nobody calls a subject between callers that have been woken", "why_tests_cant": "A test runs one interleaving of the event loop; the claim is about every interleaving.", "anchors": ["aioreactive/combine.py:merge_inner", "aioreactive/subject.py:AsyncSingleSubject.asend", "aioreactive/subject.py:AsyncSingleSubject.subscribe_async"]}
{"id": "C159", "title": "concat of AsyncSingleSubjects delivers one after the other, whatever the order of the calls", "statement": "concat over AsyncSingleSubjects delivers everything that has been sent to the first, then everything that has been sent to the second, and so on, even if the second has been sent to, or has completed, before the first. The order in which calls on different subjects are made makes no difference to what is delivered. Also behind further operators.", "quantifier": "for all numbers of subjects (each once), all sequences of calls, all schedules as in C158, all operators with mailboxes behind", "why_tests_cant": "A test runs one interleaving of the event loop; the claim is about every interleaving.", "anchors": ["aioreactive/combine.py:concat_seq", "aioreactive/combine.py:merge_inner", "aioreactive/subject.py:AsyncSingleSubject.asend", "aioreactive/subject.py:AsyncSingleSubject.subscribe_async"]}
{"id": "C160", "title": "Whoever sends to an AsyncSingleSubject that switch_latest has left, or whose merged stream is disposed, does not bring the event loop to a stop", "statement": "The inner observables of merge or switch_latest are AsyncSingleSubjects. When the operator has disposed its subscription of one of them (switch_latest: because the next one came), whoever still calls asend, athrow or aclose of it gets an exception or returns, and the event loop goes on. (False of the code: aclose and athrow, and a call that was waiting for the observer and has been woken, then run in an endless loop without suspending, so that nothing else happens in the program for ever. What does hold: asend raises, this is the only way to hang, and only subjects that the worker has unsubscribed from are affected.)", "quantifier": "for all reachable states of merge_inner (any limit) and switch_latest over any number of subjects, all calls", "why_tests_cant": "A test runs one interleaving of the event loop; the claim is about every interleaving.", "anchors": ["aioreactive/subject.py:AsyncSingleSubject.aclose", "aioreactive/subject.py:AsyncSingleSubject.athrow", "aioreactive/subject.py:AsyncSingleSubject.dispose_async", "aioreactive/transform.py:switch_latest", "aioreactive/combine.py:merge_inner", "aioreactive/subject.py:AsyncSingleSubject.asend", "aioreactive/subject.py:AsyncSingleSubject.subscribe_async"]}
{"id": "C161", "title": "Silence after disposal: once dispose_async has returned, the observer is not called any more", "statement": "A pipe of operators is subscribed to an AsyncSubject. When `await subscription.dispose_async()` has returned, the observer of that subscription is not called again. (False of the code. Behind an operator with a mailbox - take, skip, debounce, merge, combine_latest, zip_seq, ... - everything that has been posted and not yet taken up is still delivered after the disposal, however much it is. Without such an operator, a subscription that is disposed while the subject is still telling another observer the same value is told nevertheless. What does hold: without a mailbox, and if no call of the subject has yet to tell this observer something, it is never called again.)", "quantifier": "for all operators that compute a function of streams, all sequences of values, all numbers of subscriptions, all schedules after the disposal", "why_tests_cant": "A test runs one interleaving of the event loop; the claim is about every interleaving.", "anchors": ["aioreactive/subject.py:AsyncMultiSubject.asend", "aioreactive/subject.py:AsyncMultiSubject.subscribe_async", "aioreactive/observers.py:safe_observer", "aioreactive/observers.py:auto_detach_observer"]}
{"id": "C162", "title": "A producer can close its AsyncSingleSubject although the consumer has had enough", "statement": "A producer sends to an AsyncSingleSubject and closes it at the end. The consumer has subscribed to pipe(subject, take(n)), or to another operator that detaches itself from its source. When the consumer's stream has ended, or the consumer has disposed the subscription, the producer's further calls of asend, athrow and aclose return or raise, and the event loop goes on. (False of the code: disposing the subscription disposes the subject; then asend raises ObjectDisposedException, and aclose, athrow, and every call that had been waiting for the subscription and has not yet gone on, run in an endless loop without suspending, so nothing else happens in the program. It suffices that take(n) has had its n values. What does hold: as long as nobody has disposed anything and the consumer's stream has not ended, or if cancelling a token kills the agent of auto_detach_observer, no call is refused and none hangs.)", "quantifier": "for all operators built on auto_detach_observer, all calls of the subject before and after the subscription, all schedules of the callers, the worker of the safe observer and the agent, both behaviours of a cancelled mailbox", "why_tests_cant": "A test runs one interleaving of the event loop; the claim is about every interleaving.", "anchors": ["aioreactive/subject.py:AsyncSingleSubject.aclose", "aioreactive/subject.py:AsyncSingleSubject.dispose_async", "aioreactive/subject.py:AsyncSingleSubject.subscribe_async", "aioreactive/observers.py:auto_detach_observer", "aioreactive/filtering.py:take"]}
{"id": "C163", "title": "A pipeline over an AsyncSingleSubject loses nothing, no matter when it is subscribed", "statement": "A producer sends to an AsyncSingleSubject; somebody subscribes to pipe(subject, op1, ..., opn), or calls run on it, at any time, before, after or while the values are sent. At any time the final observer has got an initial part of what the operators make of everything that has been sent, before or after the subscription, in the order in which it was sent; and all of it once those who waited for the subscription have gone on and the workers are at rest, which is always reached. run returns the last value of that stream or raises its error.", "quantifier": "for all single-source operators and pipelines of them, all streams, all points at which the subscription is made, all numbers of callers that wait for it, all schedules of callers and workers in which nobody calls the subject between callers that have been woken (so it is if the producer awaits its calls)", "why_tests_cant": "A test runs one interleaving of the event loop; the claim is about every interleaving.", "anchors": ["aioreactive/subject.py:AsyncSingleSubject.asend", "aioreactive/subject.py:AsyncSingleSubject.subscribe_async", "aioreactive/subscription.py:run"]}
{"id": "C164", "title": "A slow subscriber of an AsyncSubject does not hold up the others", "statement": "When an event is sent to an AsyncSubject, every subscriber is told at the moment of the call, however long the other subscribers take over the event.", "quantifier": "for all subscribers, all times they take over each event, all events, all numbers of producers whose calls may overlap, all schedules in which the clock waits for what can run", "why_tests_cant": "A test runs one interleaving of the event loop; the claim is about every interleaving.", "anchors": ["aioreactive/subject.py:AsyncMultiSubject.asend", "aioreactive/subject.py:AsyncMultiSubject.athrow", "aioreactive/subject.py:AsyncMultiSubject.aclose"]}
{"id": "C165", "title": "take_last and skip_last remember only the last n values", "statement": "At any time the memory of take_last(n) and skip_last(n) is exactly the last n values they were sent (all of them, if they were fewer), so that it does not grow with the length of the stream. This holds whatever the observer behind them does, also if it raises, and also after the end of the stream.", "quantifier": "for all counts (also negative ones), all sequences of calls, all observers behind the operator", "why_tests_cant": "A test fixes one finite input; the claim is about every input sequence (including ill-formed ones).", "anchors": ["aioreactive/filtering.py:take_last", "aioreactive/filtering.py:skip_last"]}
{"id": "C166", "title": "Disposing a subscription of combine_latest, with_latest_from or take_until releases both sources", "statement": "When the disposable of a combine_latest, with_latest_from or take_until subscription over two subjects has been disposed, neither subject has the operator's observers in its list, and no call made from then on reaches them; the other subscribers of both subjects keep their places and miss nothing.", "quantifier": "for all calls of the two subjects, all other subscribers, everything the operator may post, all behaviours of the auto-detach agent, all orders in which the two are disposed, all schedules before, between and after", "why_tests_cant": "A test runs one interleaving of the event loop; the claim is about every interleaving.", "anchors": ["aioreactive/combine.py:combine_latest", "aioreactive/combine.py:with_latest_from", "aioreactive/filtering.py:take_until", "aioreactive/subject.py:AsyncMultiSubject.subscribe_async"]}
{"id": "C167", "title": "flat_map obeys the monad laws, with all times", "statement": "single(x) | flat_map(f) sends what f(x) sends, at the same times, and completes when it does; m | flat_map(single) is like m; m | flat_map(f) | flat_map(g) is like m | flat_map(lambda x: f(x) | flat_map(g)). So nested asynchronous queries may be regrouped and unwrapped without the subscriber noticing: only values that are sent at the same time may come in another order. Replacing a source or a function by one that looks the same changes nothing either.", "quantifier": "for all sources and all functions whose observables keep the grammar, do not fail, and whose values depend on the time only (proved of single, interval, timer and everything built from such by flat_map); all values, all numbers of inner observables, all schedules of both programs on a loop that is not overloaded, all times in the past", "why_tests_cant": "The project's tests check the laws for single values only. The general law compares all schedules of two programs with different tasks, for all sources and functions.", "anchors": ["aioreactive/transform.py:flat_map", "aioreactive/combine.py:merge_inner", "aioreactive/create.py:single", "tests/test_flat_map.py"]}
{"id": "C168", "title": "Regrouping flat_map sends the same values on any loop; concatenation in the same order", "statement": "If m | flat_map(f) | flat_map(g) and m | flat_map(lambda x: f(x) | flat_map(g)) both complete, the subscriber has got the same values, each as many times, whatever the loop did, however many observables max_concurrent lets run at a time at each of the levels, and whatever took how long. If inner observables are subscribed one after the other (max_concurrent=1), the values also come in the same order. The same holds of single(x) | flat_map(f) and f(x), and of m | flat_map(single) and m.", "quantifier": "for all sources and functions whose observables keep the grammar and send the same values whenever they complete (in the same order, for the laws of concatenation); all max_concurrent >= 0 at each level independently; all schedules of both programs, with any delays, failures of subscribe_async and dispose_async, and disposal at any time", "why_tests_cant": "A test runs one interleaving of the event loop; the claim is about every interleaving.", "anchors": ["aioreactive/transform.py:flat_map", "aioreactive/combine.py:merge_inner", "aioreactive/combine.py:concat_seq", "tests/test_flat_map.py"]}
{"id": "C169", "title": "Disposing an AsyncIteratorObserver releases its subscriptions", "statement": "When `await obv.dispose_async()` of an AsyncIteratorObserver (or the end of `async with obv`) has returned and nobody iterates on, every subscription that iterating over obv has made has been disposed, exactly once. Iterating again subscribes anew, and over all loops no value is lost or yielded twice.", "quantifier": "all sources, all numbers of loops and of calls of dispose_async, all moments at which they are made, all schedules of producers, consumer and disposals", "why_tests_cant": "A test runs one interleaving of the event loop; the claim is about every interleaving.", "anchors": ["aioreactive/observers.py:AsyncIteratorObserver.dispose_async", "aioreactive/observers.py:AsyncIteratorObserver.wait_for_push"]}
{"id": "C170", "title": "Disposing an AsyncIteratorObserver lets its producers go on", "statement": "When the consumer has left its loop over an AsyncIteratorObserver and `dispose_async()` has returned, calls of asend, athrow and aclose that were waiting in the observer return, so that the source and its other observers go on.", "quantifier": "all sources and producers, all moments of leaving the loop and of disposing, all schedules", "why_tests_cant": "A test runs one interleaving of the event loop; the claim is about every interleaving.", "anchors": ["aioreactive/observers.py:AsyncIteratorObserver.dispose_async", "aioreactive/observers.py:AsyncIteratorObserver._wait_for_pull", "aioreactive/observers.py:AsyncIteratorObserver._serialize_access"]}
{"id": "C171", "title": "flat_map_latest sends a subsequence of what concat_map sends, and all of the last", "statement": "If each f(x) sends fixed values, then at any moment what pipe(source, flat_map_latest(f)) has sent is a subsequence of what concatenating f(x) for the values x of the source sends: nothing is invented, repeated or reordered. pipe(single(x), flat_map_latest(f)) sends only the first values of f(x), pipe(m, flat_map_latest(single)) some of the values of m in their order. Values of earlier observables may be lost, those of the last are not: when the workers have nothing left to do, what has been sent ends with all that f(x) for the last value x has sent.", "quantifier": "all sources and functions f, all loops (also overloaded ones), all values and times, all moments; for the subsequence also with subscribe_async or dispose_async of inner observables failing and with disposal at any time. Assumed: the source has not failed, and a disposed inner observable sends nothing more", "why_tests_cant": "A test runs one interleaving of the event loop; the claim is about every interleaving.", "anchors": ["aioreactive/transform.py:flat_map_latest", "aioreactive/transform.py:switch_latest", "aioreactive/combine.py:merge_inner"]}
{"id": "C172", "title": "map, filter and choose can be moved in and out of flat_map, merge and concat", "statement": "If op treats every value by itself (map, filter, choose with functions that do not raise), then pipe(source, flat_map(f), op) and pipe(source, flat_map(lambda x: pipe(f(x), op))) send the same values when they complete; in the same order when the observables are concatenated; the bound on how many observables are subscribed at a time makes no difference. pipe(source, map(h), flat_map(f)) sends what pipe(source, flat_map(lambda x: f(h(x)))) sends.", "quantifier": "all sources, functions f and operators of this kind, all values and times, all loops (also overloaded ones), all schedules, all bounds max_concurrent >= 0; sources and f(x) send the same values whenever they complete", "why_tests_cant": "A test runs one interleaving of the event loop; the claim is about every interleaving.", "anchors": ["aioreactive/transform.py:flat_map", "aioreactive/combine.py:merge_inner", "aioreactive/transform.py:transform", "aioreactive/filtering.py:filter"]}
{"id": "C173", "title": "flat_map_latest sends no result for a value that has been replaced, also if the result comes from an async function in the inner pipeline", "statement": "On a loop that is not overloaded, pipe(source, flat_map_latest(f)) sends nothing for a value x once the source has sent the next value, also if f(x) is pipe(single(x), map_async(search)). Violated: disposing a subscription to single does nothing, and the worker of its safe observer, which awaits search(x), has no token; so the result is sent when search(x) is over, whatever has been sent since, and may come last. With such an f, flat_map_latest sends exactly what flat_map sends, each result exactly dur(x) after the value. It holds if f(x) sends nothing after its disposal (of_async, timers).", "quantifier": "all sources, all durations and results of search, all schedules on a loop that is not overloaded without failing subscriptions", "why_tests_cant": "A test runs one interleaving of the event loop; the claim is about every interleaving.", "anchors": ["aioreactive/transform.py:switch_latest", "aioreactive/transform.py:flat_map_latest", "aioreactive/create.py:single", "aioreactive/observers.py:safe_observer"]}
{"id": "C174", "title": "In tests with VirtualTimeEventLoop, catch changes over at the exact time of the failure", "statement": "On the VirtualTimeEventLoop, whatever else runs on it: pipe(source, catch(h)) sends what the sources send, one after the other, at the same times, without their errors; the observable that h returns for an error is subscribed exactly at the time of that error, and has been subscribed whenever no callback is due. With h = lambda _: interval(s, p), after a failure at time te the value k comes exactly at te + s + kp, and all that were due before the present time have come. Operators behind catch send what they make of this, at the same times.", "quantifier": "all sources that keep the grammar and whose tasks are known to the loop, all handlers, all interleavings of other code on the loop, any number of callbacks between a post and its receipt", "why_tests_cant": "A test runs one interleaving of the event loop; the claim is about every interleaving.", "anchors": ["aioreactive/transform.py:catch", "aioreactive/testing/virtual_events.py:VirtualTimeEventLoop", "aioreactive/create.py:interval"]}
{"id": "C175", "title": "A program with retry goes on when the last attempt has failed, also on the VirtualTimeEventLoop", "statement": "When the source of pipe(source, retry(n)) has failed for the last time, the observer gets the error and the rest of the program goes on; in tests with VirtualTimeEventLoop timers that are due later still come. Violated: fail(error), which retry subscribes then, is caught by retry itself and subscribed again without end; from the time te of the last failure on (the second, or for n = 0 the first), a callback is always due and the virtual time remains te, whatever else runs on the loop. As long as the last attempt has not failed, the observer gets the values of the attempts at their times, and the next attempt begins exactly when the one before has failed.", "quantifier": "all n, all sources that keep the grammar and whose tasks are known to the loop, all interleavings of other code on the loop", "why_tests_cant": "A test runs one interleaving of the event loop; the claim is about every interleaving.", "anchors": ["aioreactive/transform.py:retry", "aioreactive/transform.py:catch", "aioreactive/testing/virtual_events.py:VirtualTimeEventLoop"]}
{"id": "C176", "title": "catch can replace one error by another: catch(lambda e: fail(g(e))) fails with g(e)", "statement": "pipe(source, catch(lambda error: fail(g(error)))) sends the values of the source; when the source fails with e, the observer gets the error g(e), once, at that time, and the program goes on. Violated: the error of the observable that the handler has returned goes to the same handler again. On every loop, the source after the failed one is fail(g(e)), the next fail(g(g(e))), and so on; on the VirtualTimeEventLoop, from the time te of the failure on, a callback is always due and it remains te, whatever else runs on the loop, and the observer has got the values and never an error. As long as the source has not failed, the observer gets exactly what the source sends, at the same times, and nothing else is subscribed.", "quantifier": "all functions g, all sources that keep the grammar and whose tasks are known to the loop, all interleavings of other code on the loop", "why_tests_cant": "A test runs one interleaving of the event loop; the claim is about every interleaving.", "anchors": ["aioreactive/transform.py:catch", "aioreactive/create.py:fail", "aioreactive/testing/virtual_events.py:VirtualTimeEventLoop"]}
{"id": "C177", "title": "In tests with VirtualTimeEventLoop, flat_map_latest with single and map_async sends no outdated result", "statement": "On the VirtualTimeEventLoop, pipe(source, flat_map_latest(lambda x: pipe(single(x), map_async(search)))) sends the result of a search only if it is over before the source sends the next value. Violated: whatever else runs on the loop, the observer gets the result of every value exactly when its search is over, whether or not the value has been replaced: of everything before the present time neither more nor less. Only if every search is over before the next value does the observer get what one expects: the results in the order of the values, each exactly when its search is over.", "quantifier": "all sources that keep the grammar and whose tasks are known to the loop, all durations and results of searches, all interleavings of other code on the loop", "why_tests_cant": "A test runs one interleaving of the event loop; the claim is about every interleaving.", "anchors": ["aioreactive/transform.py:flat_map_latest", "aioreactive/transform.py:switch_latest", "aioreactive/create.py:single", "aioreactive/observers.py:safe_observer", "aioreactive/testing/virtual_events.py:VirtualTimeEventLoop"]}
{"id": "C178", "title": "In tests with VirtualTimeEventLoop, sample(s) sends at most one value per s, at multiples of s", "statement": "On the VirtualTimeEventLoop, pipe(source, sample(s)) sends at most one value per s, the latest one, at the times s, 2s, ... after the subscription. Violated: whatever else runs on the loop, for every source, there is a point in what the source sends, at the time s after the subscription, from which on the observer gets every event when the source sends it. What holds: no value is sent in the first s, and every value that is sent is one of the source, at the same time.", "quantifier": "all sources whose tasks are known to the loop, all s > 0, all interleavings of other code on the loop", "why_tests_cant": "A test runs one interleaving of the event loop; the claim is about every interleaving.", "anchors": ["aioreactive/timeshift.py:sample", "aioreactive/combine.py:with_latest_from", "aioreactive/create.py:interval", "aioreactive/testing/virtual_events.py:VirtualTimeEventLoop"]}
{"id": "C179", "title": "Chained fallbacks: pipe(a, catch(lambda _: b), catch(lambda _: c)) goes on with c when b has failed", "statement": "With pipe(a, catch(lambda _: b), catch(lambda _: c)), when a fails b is subscribed, and when b fails c is subscribed; the observer gets the values of a, then of b, then of c. Violated: the error of b goes to the first handler again, so b is subscribed again each time it fails, and the second handler is never called, whatever the observables and handlers are. What holds: as long as b has not failed, the observer gets the values of a and, if a has failed, then what b sends.", "quantifier": "all observables a, b and c that keep the grammar, all second handlers, all interleavings of their calls, of the subscriptions and disposals and of the time", "why_tests_cant": "A test runs one interleaving of the event loop; the claim is about every interleaving.", "anchors": ["aioreactive/transform.py:catch"]}
{"id": "C180", "title": "catch sends the values of the source and, after each error, those of the handler's observable; map, filter and choose can be moved in and out of it", "statement": "When pipe(x, catch(g)) completes, the observer has got the values of x and, after each error e, those of g(e), until one of these observables has completed; so if x completes it gets exactly what x sends, and if x fails with e it gets the values of x and then what pipe(g(e), catch(g)) sends. If op treats every value by itself (map, filter, choose with functions that do not raise), then pipe(x, catch(g), op) and pipe(x, op, catch(lambda e: pipe(g(e), op))) send the same values in the same order, whenever and however they are scheduled.", "quantifier": "all observables that keep the grammar and send the same whenever they come to an end, all handlers without state, all operators of this kind, all times and schedules, also when disposed sources go on sending", "why_tests_cant": "A test runs one interleaving of the event loop; the claim is about every interleaving.", "anchors": ["aioreactive/transform.py:catch", "aioreactive/transform.py:map", "aioreactive/filtering.py:filter", "aioreactive/filtering.py:choose"]}
{"id": "C181", "title": "delay can be moved past operators without timers, with all times", "statement": "On a loop that is not overloaded, pipe(source, delay(d), op) and pipe(source, op, delay(d)) send the same events at the same times, for every operator op without timers (map, filter, take, skip, scan, distinct_until_changed, ... and compositions): up to any time in the past, both have sent what op makes of what the source had sent d before.", "quantifier": "all sources that keep the grammar, all delays d, all operators without timers, all schedules of a loop that is not overloaded, all times; the subscription is not disposed and the observer does not raise", "why_tests_cant": "A test runs one interleaving of the event loop; the claim is about every interleaving.", "anchors": ["aioreactive/timeshift.py:delay", "aioreactive/transform.py:transform", "aioreactive/filtering.py:take"]}
{"id": "C182", "title": "from_async_iterable holds on to its tasks until they are over, and no longer", "statement": "An observable made by from_async_iterable refers to the task of every subscription that still runs, so that the task cannot be collected before it ends, and refers to no task that is over.", "quantifier": "all schedules, any number of subscriptions to the same observable, all iterables, observers that return or raise, disposals at any time", "why_tests_cant": "A test runs one interleaving of the event loop; the claim is about every interleaving.", "anchors": ["aioreactive/create.py:of_async_iterable"]}
{"id": "C183", "title": "Two debounces in a row: the longer one first is one debounce and a delay; the order matters", "statement": "In pipe(source, debounce(a), debounce(b)) every value that nothing follows within max(a, b) is sent, exactly a + b after the source sent it; no value that something follows within a is sent, and nothing is sent at another time. So with b <= a the second debounce drops nothing, it only sends everything b later. With b > a the pipeline may send values that others follow within b, which it does not with the two debounces exchanged.", "quantifier": "all sources that send only values, all a and b, all schedules in which time passes only when the tasks of both debounces wait; no two values are exactly a or b apart, and no value was sent exactly a or a + b before the present (there it is not determined what happens); the subscription is not disposed", "why_tests_cant": "A test runs one interleaving of the event loop; the claim is about every interleaving.", "anchors": ["aioreactive/timeshift.py:debounce"]}
{"id": "C184", "title": "map can be moved past debounce; filter sends more if it is moved before it", "statement": "On a loop that is not overloaded, pipe(source, map(f), debounce(d)) and pipe(source, debounce(d), map(f)) send the same values at the same times. Every value that pipe(source, debounce(d), filter(p)) sends, pipe(source, filter(p), debounce(d)) sends at the same time; the latter can send more: of the values that p keeps, those that no other kept value follows within d.", "quantifier": "all sources that send only values, all d, all mappers and predicates that do not raise (and compositions of such operators that drop or rewrite values one by one), all schedules of a loop that is not overloaded, at moments when no worker has anything to do; no two values are exactly d apart, and no value was sent exactly d before the present; the subscription is not disposed", "why_tests_cant": "A test runs one interleaving of the event loop; the claim is about every interleaving.", "anchors": ["aioreactive/timeshift.py:debounce", "aioreactive/transform.py:map", "aioreactive/filtering.py:filter"]}
{"id": "C185", "title": "delay can be moved past debounce", "statement": "On a loop that is not overloaded, pipe(source, delay(e), debounce(d)) and pipe(source, debounce(d), delay(e)) send the same values at the same times: the values that nothing follows within d, exactly d + e after the source sent them.", "quantifier": "all sources that send only values, all d and e, all schedules of a loop that is not overloaded whose clock agrees with the wall clock; no two values are exactly d apart, and no value was sent exactly d or d + e before the present; the subscription is not disposed and the observer does not raise", "why_tests_cant": "A test runs one interleaving of the event loop; the claim is about every interleaving.", "anchors": ["aioreactive/timeshift.py:delay", "aioreactive/timeshift.py:debounce"]}
{"id": "C186", "title": "The laws of debounce hold in tests on VirtualTimeEventLoop", "statement": "On VirtualTimeEventLoop, whatever other code runs on the loop: (a) pipe(source, debounce(a), debounce(b)) sends every value that nothing follows within the longer of the two times and none that something follows within a, all exactly a + b after the source sent them, and with b <= a exactly the values that nothing follows within a; (b) when no callback is due, pipe(source, debounce(d), op) has sent what op makes of the values that nothing followed within d, and pipe(source, op, debounce(d)) the results of op that no other result followed within d, each exactly d after the source sent the value; (c) so a test cannot tell on which side of debounce a map stands, and sees with a filter before debounce everything it sees with the filter behind it, and sometimes more.", "quantifier": "all hosted sources that send only values, all times a, b and d, all operators that map or drop values, all runs of the virtual loop with any other code on it; no two values exactly a (b, d) apart and none sent exactly a, a + b or d before the present", "why_tests_cant": "A test runs one interleaving of the event loop; the claim is about every interleaving.", "anchors": ["aioreactive/timeshift.py:debounce", "aioreactive/testing/virtual_events.py:VirtualTimeEventLoop", "aioreactive/filtering.py:filter", "aioreactive/transform.py:map"]}
{"id": "C187", "title": "delay can be moved in and out of merge and flat_map, but not for the completion", "statement": "On a loop that is not overloaded, pipe(source, merge_inner(k), delay(e)) and pipe(source, map(lambda xs: pipe(xs, delay(e))), merge_inner(k)) send the same values and errors of the inner observables at the same times, each e after the inner observable sent it, provided the inner observables send the same by the same times (with a limit k they may begin later, if the delay is inside); in the same order unless two are sent at the same time. An error of the source is delayed only if delay stands behind. The completion differs: with delay behind, it comes e after the source and all inner observables have completed; with delay inside, when the source has completed and the last inner observable has completed e ago, so that merge() of nothing completes at once.", "quantifier": "all sources and inner observables that keep the Rx grammar, all max_concurrent (completion: >= 0), all e, all schedules of a loop that is not overloaded whose clock agrees with the wall clock, all times before the present; delay's subscriptions are not disposed and its observers do not raise; completion: no subscription fails and the source sends no error", "why_tests_cant": "A test runs one interleaving of the event loop; the claim is about every interleaving.", "anchors": ["aioreactive/timeshift.py:delay", "aioreactive/combine.py:merge_inner", "aioreactive/transform.py:flat_map"]}
{"id": "C188", "title": "debounce may not be moved into merge: behind it every inner observable can supersede a value, inside only its own", "statement": "On a loop that is not overloaded, pipe(source, merge_inner(k), debounce(d)) sends a value d after an inner observable sent it if and only if no inner observable sends anything in these d seconds; pipe(source, map(lambda xs: pipe(xs, debounce(d))), merge_inner(k)) if and only if that inner observable sends nothing in them. So, if the inner observables send the same by the same times, everything that is sent with debounce behind is also sent, at the same time, with debounce inside. The converse is false: of two timers that fire 1 second apart, debounce(3) behind the merge lets only the second through, inside both.", "quantifier": "all sources, all inner observables, all max_concurrent, all d, all schedules of a loop that is not overloaded whose clock agrees with the wall clock; so far only values have been sent, no two at the same time and none exactly when the time of another is over (or the present is), and the subscriptions of debounce are not disposed", "why_tests_cant": "A test runs one interleaving of the event loop; the claim is about every interleaving.", "anchors": ["aioreactive/timeshift.py:debounce", "aioreactive/combine.py:merge_inner"]}
{"id": "C189", "title": "delay may not be moved into switch_latest: inside it, values that are still waiting are lost when the next observable comes", "statement": "On a loop that is not overloaded, pipe(source, switch_latest, delay(e)) sends everything that the inner observables send while they are the latest, each e later and in this order, also if the next observable has come in the meantime. With delay inside, pipe(source, flat_map_latest(lambda xs: pipe(xs, delay(e)))), a value is sent e after the inner observable sent it if the source sends no other observable by then, and is not sent if it does before. So with delay inside nothing is sent that is not sent with delay behind, and the converse is false. This assumes that a replaced observable sends no values once its dispose_async has returned, for which the worker of delay has to be cancelled in its sleep by the expression package: delay itself looks at its token only before it takes the next message, and switch_latest does not look at who sends, so otherwise a value of the replaced observable comes after the next one has been subscribed.", "quantifier": "all sources that have not failed and all inner observables that keep the Rx grammar, all e, all schedules of a loop that is not overloaded whose clock agrees with the wall clock, all times before the present; delay's observers do not raise, the delay behind is not disposed, one inside not before the source has sent the next observable", "why_tests_cant": "A test runs one interleaving of the event loop; the claim is about every interleaving.", "anchors": ["aioreactive/timeshift.py:delay", "aioreactive/transform.py:switch_latest", "aioreactive/transform.py:flat_map_latest"]}
{"id": "C190", "title": "distinct_until_changed belongs behind debounce: before it, the same value can be sent twice in a row", "statement": "On a loop that is not overloaded, pipe(source, debounce(d), distinct_until_changed) sends those values that nothing follows within d and that differ from the last value sent, so it never sends the same value twice in a row. pipe(source, distinct_until_changed, debounce(d)) sends those values that differ from the one before in the source and that no other such value follows within d. It sends every value that the first order sends, at the same time or earlier, as a repeated value does not start the time anew; but it can send the same value twice in a row, when the value in between did not last.", "quantifier": "all sources that keep the Rx grammar and have not ended, all values and times of sending, all d, all schedules of a loop that is not overloaded whose clock agrees with the wall clock, all times before the present; no two values, and no value and the present, are exactly d apart; the subscription is not disposed", "why_tests_cant": "A test runs one interleaving of the event loop; the claim is about every interleaving.", "anchors": ["aioreactive/timeshift.py:debounce", "aioreactive/filtering.py:distinct_until_changed"]}
{"id": "C191", "title": "A debounced total counts every value if scan stands before debounce, and loses values if it stands behind", "statement": "On a loop that is not overloaded, pipe(source, scan(f, s0), debounce(d)) sends, each time that d have passed since the last value, the total (fold) of all values that the source has sent so far. pipe(source, debounce(d), scan(f, s0)) sends at the same times, but the totals of those values only that nothing followed within d.", "quantifier": "all sources that keep the Rx grammar and have not ended, all accumulators that do not raise, all initial totals, all values and times of sending, all d, all schedules of a loop that is not overloaded whose clock agrees with the wall clock, all times before the present; no two values, and no value and the present, are exactly d apart; the subscription is not disposed", "why_tests_cant": "A test runs one interleaving of the event loop; the claim is about every interleaving.", "anchors": ["aioreactive/timeshift.py:debounce", "aioreactive/transform.py:scan"]}
{"id": "C192", "title": "take(n) belongs behind debounce: before it, the n-th value is never sent", "statement": "On a loop that is not overloaded, pipe(source, debounce(d), take(n)) with n > 0 sends the first n of the values that nothing follows within d, and completes together with the n-th of them. pipe(source, take(n), debounce(d)) with d > 0 never sends the n-th value of the source, as the completion comes with it and is not held back; it sends values only from among the n - 1 before, each d after the source sent it, and none later than the source's n-th value.", "quantifier": "all sources that keep the Rx grammar and have not ended, all n > 0, all values and times of sending, all d (d > 0 for the second part), all schedules of a loop that is not overloaded whose clock agrees with the wall clock; in the first part no two values, and no value and the present, are exactly d apart, and the subscription is not disposed", "why_tests_cant": "A test runs one interleaving of the event loop; the claim is about every interleaving.", "anchors": ["aioreactive/timeshift.py:debounce", "aioreactive/filtering.py:take"]}
{"id": "C193", "title": "skip(n) before debounce counts values, behind it counts pauses: behind, it drops at least as much", "statement": "On a loop that is not overloaded, pipe(source, debounce(d), skip(n)) sends, of the values that nothing follows within d, all but the first n. pipe(source, skip(n), debounce(d)) sends, of the source's values after the first n, those that nothing follows within d. What the first order sends is always the last part of what the second sends, with the same times; the two can differ.", "quantifier": "all sources that keep the Rx grammar and have not ended, all n, all values and times of sending, all d, all schedules of a loop that is not overloaded whose clock agrees with the wall clock, all times before the present; no two values, and no value and the present, are exactly d apart; the subscription is not disposed", "why_tests_cant": "A test runs one interleaving of the event loop; the claim is about every interleaving.", "anchors": ["aioreactive/timeshift.py:debounce", "aioreactive/filtering.py:skip"]}
