# Formal model of aioreactive in Lean 4

Properties in words: `properties.jsonl`. Status and theorem names: `MANIFEST.json`. Axioms of every property theorem:
`AXIOMS.md`. Experiments with wrong programs: `seeded/LOG.jsonl`.

The source was read as text and never run.

## 1. Trusted base

* **Lean 4.33.0's kernel.** No axioms of our own, no `sorry`, no `native_decide`, no `bv_decide`. Only core Lean is imported,
  no Mathlib.
* **Axioms.** Every property theorem depends on a subset of `propext`, `Classical.choice`, `Quot.sound`; `AXIOMS.md` lists
  them theorem by theorem, as printed by `#print axioms`.
* **Our reading of the Python source.** Every definition of the model cites the file and the lines that it models and says
  where it simplifies.
* **Assumptions about code that is not in the repository** (asyncio, the package `expression`, CPython). Each of them is
  visible in the model as a definition or as a parameter:
  - *A1 cooperative atomicity.* Code between two suspension points runs atomically; awaiting a coroutine that never
    suspends does not suspend.
  - *A2 mailbox.* `MailboxProcessor` is an unbounded FIFO queue. `post` neither blocks nor raises. Each message is received
    once, by the single worker, in order. When the worker runs relative to everybody else is left open: the theorems
    quantify over all schedules, and the ready queue of asyncio produces one of them.
  - *A3 cancellation tokens.* What a cancelled token does to an agent that was started with it is a parameter (`kill`,
    `killOnCancel`) wherever it matters; the theorems say for which values they hold. The repository's own test
    `tests/test_delay.py::test_delay_cancel_before_done` suggests that the agent's task is cancelled.
  - *A4 data structures.* `Map`, `Block`, `Option`, `pipe`, `compose`, `curry_flip` of `expression` behave as finite map,
    list, option, application, composition. `seq.infinite` counts 0, 1, 2, ... for every iterator over it.
  - *A5 disposables.* Whether `AsyncDisposable.create(f)` calls `f` once only is a parameter (`guard`) in the model of the
    subjects; both values are covered. RxPY's `Disposable` runs its action once (`to_observable`).
  - *A6 futures.* The first `set_result`, `set_exception` or `cancel` wins, a second `set_*` raises `InvalidStateError`;
    callbacks of futures resolved in one step run in the order of resolution (`AsyncIteratorObserver`). Awaiting a
    coroutine object for the second time raises `RuntimeError`; cancelling a task cancels the future it awaits
    (`of_async` shared by several subscriptions).
  - *A7 exceptions.* `CancelledError` is not an `Exception` (Python 3.8 and later).
  - *A8 heapq.* Modelled from CPython 3.12's `heapq.py` and proved to be a heap; the C implementation is assumed to do
    the same.
  - *A9 clocks.* Time is exact (natural numbers of arbitrarily small ticks). `delay` reads two clocks, `datetime.now` and
    the loop's; both are in the model, and the theorem that needs them to run alike says so.
* **User code** (mappers, predicates, accumulators, comparisons, observers, inner observables, iterables) is a parameter of the
  theorems: functions that return or raise; observers and inner observables may suspend for arbitrarily long.

## 2. Shape of the model

* `Verif/Base/`   exceptions and notifications; `Py`, a shallow embedding of straight-line coroutine code (state, exception,
  output); mailbox agents, asynchronous processes and their composition; labelled transition systems.
* `Verif/Spec/`   the vocabulary of the properties: list functions and predicates on histories. Nothing there mentions the
  implementation, except that predicates on histories mention the labels of the transition system.
* `Verif/Model/`  the code, one file per class, operator or source file.
* `Verif/Lemmas/` invariants and helper lemmas.
* `Verif/Props/`  the property theorems, named `Cnn_...`, each with a concrete `example` that meets its hypotheses.

Two styles:

1. *Code without interesting suspension points* (operator observers, message handlers) is written in `Py`, branch by branch,
   exceptions being values. Handlers are put behind mailboxes (`Agent`, `Proc`); every interleaving of calls from the
   environment and worker steps is an execution. A Kahn-style theorem (`Lemmas/Proc.lean`) shows that the composition of such
   processes computes the composition of their stream functions: every schedule delivers a prefix, a schedule at rest
   everything, and no schedule runs for ever.
2. *Code whose suspension points matter* is a labelled transition system `step : State → Label → Option State`, one label per
   atomic segment, with program counters at the awaits. A theorem about all executions quantifies over all lists of labels.

A property that is false of the code is kept in `properties.jsonl` as a user would expect it. Its negation is proved with a
witness, or for all histories where possible (`Cnn_violated...`), and the part that does hold is a theorem with suffix
`_partial` (status `partial`).

## 3. What is modelled and what is not

Modelled, function by function:

| source | modelled in |
|---|---|
| `observers.py` | `Iterator`, `Iterate`, `IterDispose` (AsyncIteratorObserver), `Listener` (AsyncAnonymousObserver), `Notification` (AsyncNotificationObserver), `Safe` (safe_observer), `AutoDetach` (auto_detach_observer), `Detach`, `DetachTwo`, `DetachSingle` (auto_detach_observer between an operator and its subjects), `Subscribing` (the same with subjects that refuse the subscription), `Awaitable` (AsyncAwaitableObserver) |
| `subject.py` | `Single` (AsyncSingleSubject), `Subject`, `Feedback`, `SlowSubject` (AsyncMultiSubject = AsyncSubject) |
| `subscription.py` | `Awaitable` (run) |
| `notification.py`, `msg.py` | `Notification`; messages are the constructors of the workers' inboxes |
| `create.py` | `Create` (of_async, of_async_iterable, single, empty, never, fail, of_seq, defer), `SharedAwait` (of_async shared), `SeqSource`, `AsyncSource` (of_seq and of_async_iterable with several subscriptions), `IterTasks` (the set `tasks` of of_async_iterable), `Interval` (interval, timer) |
| `transform.py` | `Transform` (transform, map*, mapi*, starmap, scan, reduce), `ScanRace` (scan with a suspending accumulator), `Behind` (flat_map*, concat_map, flat_map_latest*), `Switch` (switch_latest), `Catch` (catch, retry) |
| `filtering.py` | `Filtering` (choose*, filter*, starfilter, filteri, distinct_until_changed, skip*, take*, slice) |
| `combine.py` | `Combine` (combine_latest, with_latest_from, sample, take_until), `Merge` (merge_inner, concat_seq), `Transform`, `SeqIter` (zip_seq) |
| `timeshift.py` | `Delay`, `Debounce`, `Combine` (sample) |
| `leave.py` | `Iterator` (to_async_iterable), `ToObservable` |
| `testing/` | `TestObserver`, `TestSubject`, `VirtualTime`, `Heapq`, `NormalLoop` |
| `__init__.py` | `Filtering` (`__getitem__`), `Behind` (merge, concat); the other functions and the methods of `AsyncRx` only pass their arguments on and are not modelled |
| pipelines | `Pipeline` (chains of operators), `Slow` (with suspending workers), `Raising` (observer that raises), `Hub` (several subscriptions to one subject), `EndToEnd` (source, pipeline and `run` together), `AsyncFor`, `RoundTrip`, `Twice` (pipeline and `async for` together), `Piped`, `ColdHead` (operators and `run` behind any source), `TwoSources` (two-source operators behind any two sources), `Clocked` (interval, delay and debounce on one clock), `Timed` (operators without timers on that clock), `Nested` (merge_inner and switch_latest on that clock), `Linger` (inner observables that go on after disposal), `Bind` (flat_map and flat_map_latest there, as a source again), `Caught`, `Fallbacks` (catch, and a chain of them, on that clock), `Hosted`, `HostedWork`, `HostedNested`, `HostedSwitch`, `HostedCaught`, `HostedLinger`, `HostedRun`, `Effects`, `Query`, `HostedBox`, `Autocomplete`, `HostedLoop`, `Direct`, `SelfCancel` (such pipelines on the virtual event loop), `Deadline` (`run` with a timeout on that clock), `SearchBox` (the README's search box, put together from these), `Shared` (pipelines behind one subject, merged), `Diamond` (pipelines behind one subject, combined), `Hot` (`merge_inner` and `switch_latest` over subjects), `HotCatch` (`catch` and `retry` over subjects), `Cold` (`merge_inner` and `switch_latest` over AsyncSingleSubjects), `Jobs` (`of_async` with workflows that take time, behind `merge_inner`), `Busy` (observers that take time), `Work`, `WorkScan` (async functions and accumulators that take time), `Loop` (`async for` with a body that takes time) |

`types.py` (abstract classes), `iterable/to_async_observable.py` (another name for `from_async_iterable`), `utils.py` (observers that do
nothing) and `testing/utils.py` (`pytest.approx`) have no behaviour of their own.

Not modelled: logging; type annotations and `__repr__`; RxPY itself; rounding of floating point times; threads
(`call_soon_threadsafe`, `to_observable` used from another thread); garbage collection of tasks; recursion limits; performance
and memory, except where a claim is about tasks that never end (C84); Python's arbitrary attribute access (a user can overwrite
anything).

## 4. Property by property

| id | claim | status | modelled in (`lean/Verif/Model/`) | proved by | remarks: what is false, what is missing |
|---|---|---|---|---|---|
| C01 | Rx grammar at the protected observer | proved | Safe | invariant over all runs of the worker (shape of the log), refinement to `cut` | every schedule of producers and worker, arbitrary suspension and raising of observer and disposable |
| C02 | Observer calls are serialised | proved | Safe | invariant over all runs of the worker (shape of the log), refinement to `cut` | same transition system as C01 |
| C03 | FIFO, exactly-once delivery up to the first terminal event | proved | Safe | invariant over all runs of the worker (shape of the log), refinement to `cut` | for schedules in which no call raises; raising is C05 |
| C04 | Subscription is disposed before the terminal notification is delivered | proved | Safe | invariant over all runs of the worker (shape of the log), refinement to `cut` | order, at most once, and exactly when a terminal was posted |
| C05 | An exception raised by the observer comes back to it as its last call | proved | Safe, Raising | invariant over runs; for pipelines induction over the chain | also shows that the disposable is then never disposed (finding); C05_pipeline extends it to a raising observer at the end of any pipeline; CancelledError: the observer is told nothing and never called again (C05_cancelled) |
| C06 | Auto-detach: terminal notification disposes the source subscription | partial | AutoDetach | invariant; witness and negation for all runs with a killed agent | false: if cancelling the token cancels the waiting agent nothing is ever disposed (C06_killed_agent_disposes_nothing, C06_violated_if_agent_killed); if the agent survives, a registration still in its mailbox when the stream ends means that nothing is disposed (C06_pending_disposes_nothing, C06_violated_if_agent_survives); a dispose_async that raises stops the rest (C06_raise_stops, C06_violated_raise). Partial: the agent survives and had taken all registrations |
| C07 | Pipelines of single-source operators are schedule-independent | proved | Pipeline, Slow | induction over chains with the Kahn-style theorem; termination by well-foundedness | all chains built from the modelled single-source operators, arbitrary schedules of all their workers; C07_suspending: also when every post and every call may suspend |
| C08 | AsyncSubject broadcasts to exactly the current subscribers, in subscription order | proved | Subject | invariants over runs with overlapping calls | AsyncMultiSubject as a transition system: any number of overlapping calls, subscriptions and disposals in the middle of a broadcast, observers that suspend or raise. Deliveries of each call = the subscriptions at the moment of the call, in order, up to one that raises; all if the call returned. |
| C09 | AsyncSubject: nothing after a terminal event | proved | Subject | invariants over runs with overlapping calls | Calls made after a terminal call (even while it is in progress) deliver nothing; all terminals that observers get are from one call; an observer subscribed once gets at most one. A broadcast of a value that began earlier does go on (example `overlapping`). |
| C10 | AsyncSubject: use after dispose raises | proved | Subject | invariants over runs with overlapping calls | All calls and subscribe_async, for all histories. |
| C11 | AsyncSubject: disposing a subscription removes only that subscription | partial | Subject | invariants over runs with overlapping calls | False when one observer object is subscribed twice: list.remove removes the first equal observer (C11_violated, order of the remaining deliveries changes). Proved for observer objects subscribed once; for all histories the right observers remain up to order (C11_remaining_partial, assuming that a disposable runs its action once). |
| C12 | AsyncSingleSubject is cold: early events wait for the observer | proved | Single | invariants over runs with waiting senders; divergence as invariant | For all schedules: nothing before an observer, early events in order and each at most once, all of them once every woken sender has run. A sender that comes right after the subscription can overtake the early ones (example `cold`). |
| C13 | AsyncSingleSubject: nothing after a terminal event | partial | Single | invariants over runs with waiting senders; divergence as invariant | False: is_stopped is set only after the observer's terminal method has returned (C13_violated), and never if it raises (C13_violated_raise). Proved: after that call has returned, nothing reaches any observer. |
| C14 | AsyncSingleSubject: use after dispose raises | partial | Single | invariants over runs with waiting senders; divergence as invariant | False for athrow and aclose: they spin for ever in `while self._observer is None: await self._wait` if there was an observer (C14_violated, the whole event loop hangs) and wait for ever if there was none (C14_violated_stuck). Proved for asend and subscribe_async, and that nothing is delivered. |
| C15 | Awaiting an AsyncAwaitableObserver yields the last value before close | proved | Awaitable | induction over the calls, case analysis of histories | Five theorems, one per form of history, and a theorem that the forms are exhaustive (histories in which nobody cancels the future). A disposed observer's future never resolves, so awaiting it hangs. |
| C16 | run() returns the final value of the stream | proved | Awaitable | invariant over runs | run() as a transition system over the observer's model: returns/raises exactly the outcome of the source, disposes exactly once on every way out (value, error, timeout, cancellation). When it is over after a timeout the observer's future is cancelled; a source that then still calls aclose gets an InvalidStateError (example). |
| C17 | Async iteration returns the sent values in order, once each | proved | Iterator | invariant over runs with any number of producers | every schedule of any number of producers and one consumer; also: calls that do not overlap are handed over in the order of the calls |
| C18 | Async iteration applies back-pressure | proved | Iterator | invariant over runs with any number of producers | same transition system |
| C19 | Async iteration cannot deadlock and ends with the stream | partial | Iterator | invariant over runs with any number of producers | false twice: a lost wake-up leaves consumer and producer waiting for each other (C19_violated_lost_wakeup), and aclose/athrow never return (C19_violated_close, for all runs). Partial: iteration ends with the stream; no deadlock for producers whose calls do not overlap; after a lost wake-up the next call of any producer wakes the consumer |
| C20 | from_iterable delivers the elements in order and completes | partial | Create | invariant over runs, composed with Safe; witness | false for an iterable that raises (C20_violated_raising). Partial: iterables that end; C20_raising_exact gives the behaviour for raising ones |
| C21 | single, empty, never and fail | proved | Create | invariant over runs | all schedules; empty() calls the observer directly |
| C22 | of_async delivers the workflow's result or its exception | partial | Create | invariant over runs; witness | false after disposal: the subscriber of a cancelled workflow gets completion (C22_violated_dispose). Partial: value then completion, or exactly the exception |
| C23 | from_async_iterable delivers the elements in order and completes | partial | Create | invariant (shape of the log); witness | false when the async iterable raises (C23_violated_raising). Partial: everything else |
| C24 | defer calls the factory once per subscription | proved | Create | induction over subscriptions | any number of subscriptions, any factory |
| C25 | interval counts 0,1,2,... on schedule | proved | Interval | invariant over runs, prompt schedules | discrete time in arbitrarily small ticks; all schedules, prompt schedules for the exact times |
| C26 | Disposing a from_iterable subscription stops delivery | partial | Create | invariant; witness | false once the worker ran (C26_violated). Partial: disposal before the worker task first runs |
| C27 | map, starmap and their async versions apply the function to every element | proved | Transform, Pipeline | induction over the input, Kahn-style theorem | behind a safe_observer and behind a direct source; all schedules |
| C28 | An exception in a mapper or predicate becomes the stream's error | partial | Transform, Filtering | induction over the input; witness | false for a source that calls the operator directly (C28_violated_direct_source; C28_direct_exact: for every input the observer never hears of the exception, the element just vanishes). Partial: behind a safe_observer, exceptions other than CancelledError (see C91) |
| C29 | mapi and filteri number the elements 0,1,2,... | proved | Transform, Filtering | induction; composition with zip_seq | flat_mapi is covered by the mapi theorems plus merge_inner |
| C30 | filter and choose keep exactly the matching elements | proved | Filtering | induction | all variants |
| C31 | scan emits every running accumulation | proved | Transform | induction | accumulators that do not raise |
| C32 | scan: an accumulator error terminates the stream | partial | Transform | induction; witness | false: scan tells the observer but does not stop (C32_violated). Partial: up to the error, and in front of an operator with a safe_observer of its own |
| C33 | scan does not lose updates under overlapping sends | partial | ScanRace | invariant; witness | false for overlapping asend calls with an async accumulator (C33_violated). Partial: calls that do not overlap, also with an accumulator that raises; what is true of every schedule is C33_every_schedule |
| C34 | reduce emits exactly the final accumulation | partial | Transform, Filtering | composition of scan and take_last; witness | false for an empty source (nothing but completion is delivered, no seed). Partial: non-empty sources; C34_reduce_exact gives the behaviour for all |
| C35 | merge_inner forwards every inner value once, in arrival order | proved | Merge | invariants over runs of source, inner observables, worker | all schedules of source, inner observables, worker and safe observer; source and inners follow the Rx grammar; max_concurrent >= 0 |
| C36 | merge_inner never exceeds max_concurrent | proved | Merge | invariants over runs of source, inner observables, worker | inners follow the Rx grammar |
| C37 | merge_inner subscribes to every inner exactly once, in arrival order | proved | Merge | invariants over runs of source, inner observables, worker | order for every execution; promptness when no subscribe/dispose raises; the worker always catches up |
| C38 | merge_inner completes exactly when the source and all inners have completed | proved | Merge | invariants over runs of source, inner observables, worker | max_concurrent >= 0; C38_negative shows the failure for -1 |
| C39 | merge_inner: an error ends the merged stream and releases the inners | partial | Merge | invariants over runs of source, inner observables, worker | false for an error of an inner observable: its siblings stay subscribed (C39_violated). Partial: error of the source; the error always ends the output (C39_error_ends) |
| C40 | concat delivers the sources strictly one after the other | proved | Merge | invariants over runs of source, inner observables, worker | also for inner streams that fail or never end |
| C41 | switch_latest only forwards the latest inner | proved | Switch | invariants over runs | inner observables that honour disposal (C41_stale shows what happens otherwise: no id check); source and inners follow the Rx grammar |
| C42 | switch_latest completes after source and latest inner completed | partial | Switch | invariants over runs | false: the output never completes once the source has sent an inner observable (C42_violated, C42_never). Partial: never prematurely; an empty source completes |
| C43 | catch continues with the handler's observable | partial | Catch | invariants over runs | the stream, the sources and the absence of errors for all executions; disposal first is false if a source fails before its subscribe_async has returned (C43_violated), partial otherwise |
| C44 | retry(n) resubscribes n times before giving up | partial | Catch | invariants over runs | false: at most one retry for any n (C44_violated_count), the error is never delivered, fail() is resubscribed without end (C44_violated_error, C44_spins), the count is shared (C44_violated_shared). Partial: the first retry |
| C45 | skip(n) drops exactly the first n elements | proved | Filtering | induction over the input (front), Kahn-style theorem (behind the mailbox) | all call sequences, all schedules, all n (n <= 0 skips nothing) |
| C46 | skip_last(n) drops exactly the last n elements | partial | Filtering | induction over the input (front), Kahn-style theorem (behind the mailbox) | false when the source emits None (C46_violated_none). Partial: sources without None; exact law for all sources also proved |
| C47 | take(n) delivers exactly the first n elements and completes right after the nth | proved | Filtering | induction over the input (front), Kahn-style theorem (behind the mailbox) | all n, including rejection of negative n; take(0) completes with the source |
| C48 | take_last(n) delivers exactly the last n elements on completion | proved | Filtering | induction over the input (front), Kahn-style theorem (behind the mailbox) | all n |
| C49 | take_until stops at the first event of the other observable | proved | Combine | induction over the interleaved inputs | in front of an arbitrary downstream operator; the completion of other is ignored |
| C50 | distinct_until_changed drops exactly the consecutive repetitions | proved | Filtering | induction over the input (front), Kahn-style theorem (behind the mailbox) | arbitrary equality function |
| C51 | slice agrees with Python list slicing | partial | Filtering | induction over the input (front), Kahn-style theorem (behind the mailbox) | false for stop=0, 0<stop<start, negative start with positive stop, None values; witnesses for each. Partial: all other slices, all step sizes |
| C52 | Integer indexing picks the element | partial | Filtering | induction over the input (front), Kahn-style theorem (behind the mailbox) | false for negative indices on sources with None. Partial: everything else |
| C53 | combine_latest pairs the newest values | proved | Combine | induction over the interleaved inputs | in front of an arbitrary downstream operator |
| C54 | with_latest_from emits per source value with the newest other value | proved | Combine | induction over the interleaved inputs | in front of an arbitrary downstream operator |
| C55 | zip_seq pairs elements with the sequence position by position | proved | Transform | induction over the input | finite, infinite and raising sequences |
| C56 | sample emits the latest source value per tick | partial | Combine | induction over the interleaved inputs | false: sample forwards every source value after the first tick (C56_exact, C56_violated_twice, C56_violated_lost). Partial: what is emitted is an ordered subsequence of the source |
| C57 | delay preserves order and never delivers early | proved | Delay | invariants over runs of timed transition system | two clocks are modelled (datetime.now for the due times, loop time for the sleeps); never-early assumes that they run alike; order and each-once for every schedule, the latter as: from every state the worker can deliver everything that has arrived (no disposal, observer does not raise) |
| C58 | delay shifts every event by exactly the delay | proved | Delay | invariants over runs of timed transition system | a prompt loop: time passes only when every task waits and the observer calls have returned |
| C59 | delay: disposing one subscription does not affect another | partial | Delay | invariants over runs of timed transition system | false: the token is made per operator application (C59_violated, and for all histories C59_violated_others, C59_violated_later). Partial: isolation without disposals |
| C60 | debounce emits a value iff the source then stays quiet | proved | Debounce | invariants over runs of timed transition system | all schedules: only values with a quiet period, never early, in order, at most once; prompt loop: exactly then, exactly s later. An event exactly s after the value may come before or after its timer, so the two directions differ in that one instant |
| C61 | debounce: disposal is silent | partial | Debounce | invariants over runs of timed transition system | false: the disposal itself sends a completion to the observer (C61_violated_always, for all histories). Partial: nothing but what was in the mailbox and that completion |
| C62 | After dispose no newly sent value is delivered | proved | Hub | invariant over runs of subject and chains | Full for chains of the modelled single-source operators (Pipeline.Chain): C62_nothing_new for all schedules, overlapping calls and raising observers, C62_exactly for non-overlapping calls. A chain with catch is refuted under C70 (its disposable goes stale), delay and debounce are C59 and C61. |
| C63 | VirtualTimeEventLoop runs callbacks in time order with a monotone clock | proved | VirtualTime, Heapq | invariant over iterations of the loop | for any heap obeying the laws of heapq, and CPython heapq itself is modelled and proved to obey them; all schedules of call_soon/call_at/cancel from callbacks |
| C64 | AsyncTestObserver records every event once with its time | partial | TestObserver | invariant; witness | the callback part is false: every callback runs twice (C64_violated_twice). Partial: values lists every call with its time, for all schedules; one or two callbacks per call; exactly one once the observer is stopped |
| C65 | to_observable forwards events and disposes its subscription | partial | ToObservable | invariant | the disposal part is false before the subscription has been made (C65_violated_early_dispose, all continuations). Partial: forwarding; disposal iff the first dispose() came after the subscription |
| C66 | Notification equality | proved | Notification | case analysis, induction | payload equality is a parameter |
| C67 | Independent subscriptions do not share operator state | proved | Hub | invariant over runs of subject and chains | Full for chains of the modelled single-source operators. The operators that do share state between subscriptions are refuted elsewhere: retry (C44_violated_shared), delay (C59_violated), zip_seq over an iterator object (C79_violated). |
| C68 | Disposing a merged subscription releases all inner subscriptions | proved | Merge | invariants over runs of source, inner observables, worker | inners follow the Rx grammar, no subscribe/dispose of an inner raises |
| C69 | Ending a switch_latest subscription releases the current inner subscription | partial | Switch | invariants over runs | false when the source fails: the current inner stays subscribed (C69_violated). Partial: disposal; and for sources that go on sending after their disposal (C69_violated_late) |
| C70 | Disposing a catch subscription disposes the source that is currently subscribed | partial | Catch | invariants over runs | false after the first failure: the returned disposable is bound to the first subscription (C70_violated). Partial: before any failure. Over subjects, for all call sequences: C70_subjects_partial, C70_subjects_violated |
| C71 | AsyncSingleSubject: a cancelled sender loses only its own event | partial | Single | invariants over runs with waiting senders; divergence as invariant | False: awaiting the shared future directly means that cancelling one waiting sender cancels it for all (C71_violated, C71_all_lost). True for senders that were woken already. |
| C72 | run() on an empty stream raises StopAsyncIteration, as documented | partial | Awaitable | invariant over runs | False: AsyncAwaitableObserver.aclose cancels the future, so run raises CancelledError, in every schedule (C72_violated). |
| C73 | to_observable raises nothing in the event loop | partial | ToObservable | invariant | false: every successful subscription makes the done callback raise KeyError (C73_violated). Partial: at most one, none if subscribing fails; the task is kept while it runs |
| C74 | Notifications dispatch to the matching callback and survive a round trip | proved | Notification | case analysis | all notifications |
| C75 | AsyncTestSubject sends at the time asked for and keeps no finished tasks | partial | TestSubject, VirtualTime | invariant over runs on the virtual loop | the times are exact for every schedule on the virtual time loop (any heap obeying the laws of heapq); keeping no finished tasks is false: aclose_at lacks nonlocal task (C75_violated), and a task that raised is kept by every method (C75_violated_raise) |
| C76 | VirtualTimeEventLoop runs timers with the same due time in the order they were made | partial | VirtualTime, Heapq | witness; invariant | false with CPython heapq (C76_violated: four timers). Partial: they run at the same time; call_soon callbacks do keep their order (C63_fifo) |
| C77 | delay works on the virtual time loop | partial | Delay | invariants over runs of timed transition system | false: due times come from the wall clock, so under virtual time the delays add up (C77_violated_all). Partial: order, first notification |
| C78 | debounce ignores only values that are followed by another value | partial | Debounce | invariants over runs of timed transition system | false: a value followed by the completion is lost (C78_violated, all schedules). Partial: lost values were followed by some event |
| C79 | zip_seq starts at the beginning of the sequence for every subscription | partial | SeqIter | invariant over runs; witness | Holds for containers (C79_container_partial). False for iterator objects (C79_violated, C79_violated_empty): iter(it) is it, so the subscriptions share the position. |
| C80 | async for works over sources that send while they are being subscribed to | partial | Iterate, Iterator | invariant over runs | false: for every source that makes at least one call within subscribe_async the first __anext__ never returns, in every schedule (C80_violated); async for over empty() deadlocks (C80_violated_empty). Partial: a source that calls nobody within subscribe_async can be iterated as under C17-C19 |
| C81 | Leaving an async for loop does not block the source | partial | Iterator | invariant over runs | false: once the consumer is outside __anext__ and does not come back, no later call returns, in every schedule (C81_violated). Partial: the call whose event was the last one taken does return |
| C82 | Every subscriber of an of_async observable gets the result | partial | SharedAwait | invariant over runs | false for a coroutine object: of any two subscriptions that delivered something one delivered RuntimeError (C82_violated); and disposing one waiting subscription cancels the workflow for the others, which complete without a value (C82_violated_dispose, assuming that the token cancels the task). Partial: futures and tasks without disposals |
| C83 | Back-pressure: asend returns when the observer has handled the value | partial | Pipeline | case analysis of chains | false for every chain with a mailbox, i.e. with at least one filtering operator (C83_violated). Partial: chains of transform-style operators call straight through |
| C84 | Disposing a subscription ends the tasks it started | partial | Safe, Create | invariant over continuations | false: the worker of a disposed safe_observer waits for ever unless a terminal event was posted (C84_violated, all continuations); same for every source of create.py and in particular of_seq (C84_violated_source, C84_violated_of_seq). Partial: a worker that has handled a terminal event has ended. Garbage collection of a task that nobody refers to is not modelled |
| C85 | flat_map and merge deliver everything of all inner observables | proved | Behind, Merge, Transform | runs of the composition split into runs of the parts | the front of the pipeline (map, or of_seq for merge) and merge_inner run side by side in one system, the hand-over being one call; the composed theorems follow from C27-C29, C20 and C35-C39. Raising mappers: behind sources protected by safe_observer (otherwise see C28). For merge: of_seq is not disposed and the observer does not raise |
| C86 | concat_map and concat deliver one observable after the other | proved | Behind, Merge, Transform | same as C85 | a mapper that raises or a source that fails: C86_concat_map_raising (the same as for merge_inner(1), see C38, C40); in the other theorems they do not |
| C87 | flat_map_latest mirrors the observable of the most recent value | proved | Behind, Switch, Transform | same as C85 | a mapper that raises: C87_flat_map_latest_raising. completion of switch_latest is refuted under C42; with the switch honouring disposal (a disposed inner observable makes no call) values come from the latest one only, without it the stale ones are possible (C41_violated_stale) |
| C88 | An exception of catch's handler is delivered | partial | Catch | invariants over runs | false: the exception goes to the caller of athrow, the subscriber is left without an end, for every history (C88_violated). Partial: as long as the handler does not raise every failed source has a successor |
| C89 | An observer made of functions gets the events it has a function for | proved | Listener, Pipeline | induction over the input | functions that do not raise (for raising ones see C05); pipelines behind a source protected by safe_observer |
| C90 | An exception of == in distinct_until_changed is delivered | partial | Filtering | induction over the input (front), Kahn-style theorem (behind the mailbox) | false: the comparison is outside of the try, the exception ends the agent; the subscriber gets the elements up to there and never an end (C90_violated, all schedules; C90_law for every comparison). Partial: comparisons that do not raise |
| C91 | A CancelledError inside a user function does not go unnoticed | partial | Transform, Filtering, Safe | induction over the input, Kahn-style theorem | false: except Exception does not see CancelledError, the worker task ends and the subscriber gets the earlier results and then nothing, for map, filter, choose and scan, every input and schedule (C91_violated_*). Partial: every other exception is reported (C91_partial is an equivalence) |
| C92 | A stream that has ended lets go of its source | partial | Detach, AutoDetach, Safe, Subject, Pipeline | invariant over runs of subject, operator, safe worker and agent | false if cancelling a token cancels the agent task started with it: the subject holds the observer for ever and goes on calling it (C92_violated, every run); and false if the agent survives but the stream ends before the agent has taken the registration out of its mailbox (C92_violated_pending). Partial: the agent survives and was quick enough. Which of the two the package expression does is not in /repo; both are modelled (parameter kill) |
| C93 | An operator with two sources lets go of both when its stream has ended | partial | DetachTwo, AutoDetach, Safe, Subject | invariant over runs of two subjects, safe worker and agent | false for take_until: the subscription to other does not pass through auto_detach, so other holds it until the user disposes (C93_take_until_violated, every run, whatever the agent does); false for all three if the agent is killed or the stream ends before it has taken both registrations. Partial: the registered sides when the agent survives and was quick |
| C94 | Every subscription of an iterable source gets the whole sequence | partial | SeqSource, AsyncSource | invariants over all runs of any number of subscriptions; the law of the generator by induction on the answers | exact law for from_iterable (C94_from_iterable_law): with an iterator the first worker gets everything, the others an empty stream (C94_from_iterable_violated). With an async generator the items are dealt out (C94_generator_law, C94_generator_violated), a subscription that asks while another waits never hears anything again (C94_generator_violated_silent), and disposing one that waits completes the others (C94_generator_violated_dispose). Partial: containers, with progress |
| C95 | An endless iterable can be cut off | partial | SeqSource | induction on the items that are left; invariant over the continuations of an endless one | false: the worker of of_seq never gives control back to the event loop, because posting does not wait (C95_violated: for every endless sequence, all continuations). Partial: finite sequences give control back after at most one turn per item and one more |
| C96 | run over a pipeline over a list returns the last result | proved | EndToEnd, Create, Pipeline, Awaitable | invariant over runs of source, pipeline and run together, on top of C07, C15 and the law of the pipeline; well-founded measure | C96_result, C96_can_finish, C96_terminates for every one-segment source, C96_list for from_iterable, C96_fail, C96_raising_function. If the result has no value, run raises CancelledError (C72). An iterable that raises leaves run waiting unless the pipeline ends by itself (C96_raising_iterable) |
| C97 | async for over a pipeline yields what the pipeline makes of the source | proved | AsyncFor, Iterator, Slow, Pipeline | invariant that ties a run of pipeline and iterator to an execution of the pipeline and a sequential run of the iterator; then C07 (suspending workers), C17-C19; well-founded measure for termination | C97_yields (safety, any chain, any posts), C97_no_deadlock and C97_terminates (liveness), C97_answers (the k-th __anext__ gets the k-th result), C97_list, C97_raising_function. Sources that wait for their observer within subscribe_async are C80, releasing the source afterwards is C81 and C92 |
| C98 | All subscribers of an AsyncSubject see the events in the same order | partial | Subject | invariant: only the last call can be under way, so the log is sorted by call; witness | false when calls overlap (C98_violated: two tasks, a slow first subscriber; the second one gets the events in the opposite order). Partial: calls that do not overlap, all histories |
| C99 | An AsyncSubject keeps the Rx grammar for each subscriber | partial | Subject | the sorted log of C98 with C09; witness | false when calls overlap (C99_violated: the completion and then a value; two methods of one subscriber at once). Partial: calls that do not overlap and an observer subscribed once, all histories |
| C100 | A subscriber that raises does not keep the event from the others | partial | Subject | C08 and the invariant that a call that is over delivers nothing; witness | false: C100_violated shows for all histories that the subscribers after the one that raises never get the event; C100_violated_witness. Partial: exactly the subscribers up to the one that raises get it, and all of them if nobody raises in this call |
| C101 | Operators work the same behind any source | proved | Piped, Slow, Pipeline, Merge, Switch, Behind | a run of source and pipeline splits into a run of the source and an execution of the pipeline; then the Kahn-style theorem of the pipeline and the laws C35-C43, C85-C87 of the sources | C101_delivers for any source; C101_pipe composes streams; C101_merge, C101_concat, C101_switch, C101_flat_map are the instances, C101_front allows nesting. That the source is disposed when an operator ends early is C06 and C92, not this one |
| C102 | run over any source or pipeline returns its last value | proved | Piped, Awaitable | invariant over runs of any source and run; only the first end of a stream settles the future | C102_result and C102_can_finish for any source that does not take calls back; C102_run composes it with C101. Timeouts and cancellations are C15 and C16 |
| C103 | interval followed by take(n) | proved | Piped, Interval, Filtering, Awaitable | C25 with C101 and C102 | C103_take, C103_run, C103_in_time; C103_operators and C103_timer for other operators. take(0) never completes (C47) |
| C104 | A subscribe_async that raises leaves nothing subscribed | partial | Subscribing, DetachTwo, AutoDetach, Safe, Subject | a run of Subscribing contains a run of DetachTwo, to which the invariant of C93 applies; invariant that without a subscription neither subject knows the observer | false: when the second subscription raises, the first one stays and nobody has its disposable (C104_combine_violated while the stream has not ended, C104_take_until_violated for ever, C104_no_disposable). Partial: the first subscription raises |
| C105 | Pipelines can be rewritten by the usual laws | proved | Transform, Filtering, Pipeline | both sides act as the same function on streams; such operators are interchangeable in any pipeline | one theorem per law; C105_map_map_raising for functions that raise (behind a safe observer). Operator.Same.functions shows that the notion is strict; C105_take_zero_differs: the law of take fails for take(0), C105_skip_filter_differs |
| C106 | combine_latest, with_latest_from and take_until work the same for any two sources | proved | TwoSources, Combine, Slow, Piped | a run splits into runs of both sources and an execution of the operator on the merged calls; then the Kahn-style theorem; the rest by induction on the arrivals | C106_delivers for any two sources, C106_sends (the whole is a source again, so C101 and C102 apply), C106_combine_latest, C106_with_latest_from, C106_take_until with suspensions at every post; C106_last_pair, C106_pairs_of_values, C106_from_then_on, C106_until for any order of arrival; the ..._at_rest theorems put them together. Who is disposed when is C92 and C93 |
| C107 | delay shifts whatever source it stands behind | proved | Clocked, Interval, Delay | a run of source and stage splits into a run of the source and a run of the stage that gets the calls at their times; then C25, C57, C58 | C107_delay and C107_exact for any source (any number of stages, through Clocked.through_lawful), C107_twice, C107_interval, C107_interval_exact |
| C108 | debounce behind an interval lets all values through or none | proved | Clocked, Interval, Debounce | the same with C60; the numbers of the values that come through are a sorted list without gaps | C108_debounce and C108_exact for any source, C108_interval_fast, C108_interval_slow. For p = d the outcome depends on which of two tasks that are due at the same time runs first |
| C109 | Operators without timers take no time | proved | Timed, Clocked, Slow, TwoSources | invariant: at rest everything sent is what the operator makes of what it got, so by Delivers the calls with times up to t are settled when time goes on | C109_operator for any chain with Delivers (any Computes, C27 and so on) behind any lawful clocked source, C109_two for two sources, C109_map and C109_interval_take as instances |
| C110 | take_until(timer(t)) cuts a stream off at time t | proved | Timed, TwoSources, Interval | C109 for two sources with C106_take_until; the timer sends exactly one value, at t (C25) | C110_before, C110_after for any source, C110_interval. Events at exactly t may come before or after the timer, which the loop decides |
| C111 | with_latest_from and combine_latest never pair outdated values | proved | Timed, TwoSources | C109 for two sources with C106; what is sent at t are the pairs whose last value came at t, and the newest value is the last one in the order of arrival, which agrees with time | C111_with_latest_from and _all, C111_combine_latest and _all, any two lawful clocked sources. Of values sent at the same time as the pair nothing is said about which is newer |
| C112 | merge subscribes and forwards at once | proved | Nested, Merge, Clocked, Interval | the run with times projects to a run of the worker with stamps (Past); a snapshot at time t is a state at rest, where C36 says what has been started and completed; arrivals are a permutation of the calls | C112_subscribed (max_concurrent=0), C112_arrive, C112_last and C112_completed (any max_concurrent), C112_observed carries them to the final observer behind any operators, C112_intervals as an instance |
| C113 | concat starts the next observable when the one before has completed, and not later | proved | Nested, Merge, Clocked, Interval | as C112; at rest at most one inner observable is running, so at each t the number started is one more than the number completed, or all sent; induction over the list for timers | C113_subscribed, C113_in_order, C113_timers as an instance, C113_timers_observed for its final observer |
| C114 | switch_latest forwards each inner observable exactly until the next one arrives | proved | Nested, Switch, Clocked, Interval | as C112 with the invariants of C41; an inner observable that is not the latest makes no calls, so the arrivals are in the order of the subscriptions | C114_subscribed, C114_in_order, C114_intervals as an instance (of values at exactly the time of the next subscription nothing is said, the loop decides). That a disposed inner observable makes no calls is a hypothesis, see C06 |
| C115 | catch takes over at the moment of the failure | proved | Caught, Catch, Clocked, Interval | the run with times projects to a run of the subscription with stamps (Past); invariant Chain: a subscription that is about to be made was caused by an error, at the present time if the schedule is prompt | C115_in_order and C115_handled for any sources and schedules (exact moment for prompt ones), C115_continues: no failed source is left without a successor, C115_fallback as an instance, C115_delayed: other stages can stand behind it |
| C116 | sample drops what is sent before its first tick, and nothing else | proved | Timed, TwoSources, Clocked, Interval | C109 for two sources with the law of C56; the timed list is determined by its prefixes up to each time; induction over the order of arrival | C116_sample. Of a value sent exactly s after the subscription nothing is said, the loop decides whether the tick comes first |
| C117 | On the virtual event loop everything happens exactly on time | proved | Hosted, VirtualTime, Heapq, Clocked, Timed, Interval, Debounce | invariant: every task that can go on has a live handle in the ready queue, every sleeping one a live timer at the end of its sleep; with the invariant of C63 the clock cannot pass them; the run projects to a prompt run of the pipeline, to which C25, C60, C107-C110 apply | C117_calm, C117_schedule (a run on the loop contains a prompt schedule of the pipeline alone), C117_progress, C117_rest; then C117_interval, C117_timer, C117_debounce, C117_interval_debounce, C117_operator, C117_two, C117_interval_take, C117_take_until with the theorems of C25, C60 and C107 to C110, whose assumption of a loop that is not overloaded is here proved. Not for delay, which reads the wall clock (C77); tasks that are cancelled in their sleep are woken at once |
| C118 | run with a timeout returns when the stream ends, or raises TimeoutError at the deadline | proved | Deadline, Awaitable, Clocked, Interval, Timed | invariant over the schedules of run as the last stage of a pipeline: the future holds what the stream has said so far, the timer is due at the deadline; composed with the source by the splitting lemma of C107; for take the time before the n-th value is cut out and C109 applied to it | C118_never_early (any loop), C118_exact, C118_in_time, C118_timeout (prompt loop) for any lawful source; outcome_verdict ties the spec to that of C96; C118_timer, C118_interval, C118_interval_take. The source does not learn in this model that it has been disposed, so what it does after the end of run is not covered here (C16) |
| C119 | The search box of the README searches when the user pauses, never twice in a row for the same term, and shows only the results of the last search | proved | SearchBox, Debounce, Nested, Timed, Clocked, Switch | the run is split into those of the subject, the operators before debounce, debounce, the operators behind it and switch_latest; C108 is turned into an equation for all that debounce sends, C109 into one for operators that drop or replace values, C114 gives the subscriptions and the order of the results | C119_debounce (any schedule), C119_asked, C119_searches, C119_results, C119_shown for any operators that clean and ask, C119_readme for the pipeline in the README over a subject. Sources that end are not covered: debounce loses a value that is pending when the source completes (C61) |
| C120 | Pipelines behind one subject, merged: each follows the subject on its own, exactly its delay behind | proved | Shared, SearchBox, Delay, Nested, Merge, Subject | asend to all observers is unfolded into segments of merge_inner, so a run contains a prompt run of merge_inner; invariant: each pipeline has got the part of what was sent that begins with its subscription; C107 for delay, C112 for the subscriptions and the interleaving, of which the part for one label is determined by permutation and order | C120_heard (any schedule), C120_subscribed, C120_follows, C120_nothing_else; C120_since spells out what is sent after a subscription if nothing is sent at its very time. The mapping does not raise; the wall clock goes with the clock of the loop (see C77) |
| C121 | merge_inner(k) is a pool of k slots: an inner observable begins at the earliest time at which it may | proved | Nested, Merge | the state at each earlier time is a settled state of the same run (snapshot); in a settled state nothing waits unless all slots are taken (C30); an invariant of merge_inner that each one was started while fewer than k of those before it had not completed | C121_order (any schedule), C121_count, C121_begun. C113 is the case k = 1, C112 the case without a limit |
| C122 | Jobs through merge_inner(k): results when the jobs are over, never more than k at once, no idle slot, and a bound for the time of all | proved | Jobs, Create, Nested, Merge | the model of of_async of C22 on a clock, with an invariant that gives the exact times of its calls; C112 for what is sent on and for the completion, C121 for the beginning of jobs; the work done by time t grows by the number of jobs in progress, which is between bounds (a list scheduling argument) | C122_results, C122_parallel, C122_begun, C122_at_most, C122_no_idle_slot, C122_completed, C122_wait, C122_soonest, C122_latest. A job is a coroutine whose work begins when it is awaited; in parallel.py the work begins already when the mapper is called, which with flat_map_async is the same time |
| C123 | A slow observer is told of the events one at a time, each as soon as possible; it falls behind a source that does not wait for it, and slows down one that does | proved | Busy, Safe, Interval, Clocked | the LTS of safe_observer (C01-C05) with a clock and the end of the await in hand; invariant: the calls made and what serve gives for the mailbox from the time at which the observer is free make up what serve gives for all that was sent | C123_exact, C123_one_at_a_time, C123_keeps_up, C123_batch, C123_falls_behind, C123_interval_waits. In C25_exact the observer returns at once; C123_interval_waits is the general case. Whatever the last call takes has no effect |
| C124 | Async functions in a chain work on one value at a time: results come in order, after the sum of the times taken, however the chain is split | proved | Work, Clocked | coroutines as a free monad with sleeps and calls, the worker of safe_observer runs them on the clock; invariant: the calls made, what the coroutine at hand does from its wake-up on and what the mailbox gives from there make up what is told for all that was sent; chains by induction on their length | C124_exact, C124_same_work, C124_map_map, C124_order, C124_batch, C124_keeps_up. Ops.work is the work of a chain as a function, by sequential composition (Spec.Queue.andThen). athrow and aclose of the observer at the end take no time; nothing follows them |
| C125 | `async for` overlaps its body with the work upstream by exactly one value; an observer that subscribes does not | proved | Loop, Iterator, Work, Clocked | the LTS of the iterator (C17-C19) driven by the worker of C124 on the clock; invariant: three shapes of the iterator with one producer, and the calls made, what the coroutine at hand meets and what the mailbox gives from there make up what the loop gets for all that was sent | C125_exact, C125_order, C125_one_at_a_time, C125_overlap, C125_subscribed_instead, C125_keeps_up. subscribe_async is taken to return at once; a body that raises is a break |
| C126 | What sample really does to a stream with times: it skips the first period | proved | Combine, Clocked, Timed, Interval | C109_two for with_latest_from behind the source and an interval (C25: first tick exactly at s), then the events before and after the first tick; lists with times are equal if they agree up to every time | C126_exact for any source, C126_interval; the law that holds instead of C56, with times |
| C127 | scan_async with an accumulator that takes time loses no update: the totals come in order, one call of the accumulator after the other | proved | WorkScan, Work, Clocked | _scan's observer as a coroutine with `current` as state, run by the worker of safe_observer (C124); induction over the messages against Spec.Queue.fold, which threads the total; consequences by induction from there | C127_exact, C127_totals, C127_batch, C127_keeps_up. The contrast to C33, where overlapping calls without safe_observer lose updates. C127_totals takes the accumulator to raise depending on the value only; C127_exact has no such hypothesis |
| C128 | reduce_async tells the total exactly when the accumulator has worked on all values; operators behind async functions see the results in time | proved | WorkScan, Work, Clocked, Timed | C124/C127 give the calls of the worker, which follow the grammar; C109 puts the operator behind them; the last total by induction over the values | C128_behind, C128_reduce_running, C128_reduce, C128_reduce_failed. The accumulator does not raise (if it does, scan goes on after athrow and the calls no longer follow the grammar, see C127 and C32) |
| C129 | flat_map_async calls its mapper for one value at a time; only the observables that it returns overlap | proved | Work, Nested, Jobs, Clocked | the calls of map_async behind safe_observer follow the grammar (C124, C128), so C112, C114 and C122 apply to them as a source | C129_subscribed, C129_switched, C129_jobs (with finished_index for the closed form). On a loop that is not overloaded; behind a source that is protected by safe_observer |
| C130 | In tests with VirtualTimeEventLoop, async functions that sleep give their results at exactly computable times | proved | HostedWork, Hosted, VirtualTime, Work | the worker of safe_observer is shown to be a lawful task of C117, so every execution on the virtual loop is a prompt schedule, to which C124, C127, C128 apply | C130_chain, C130_scan, C130_behind, C130_reduce, C130_interval, C130_interval_slow (with C124_falls_behind for any loop that is not overloaded). What the functions await is a sleep; tasks are not cancelled |
| C131 | In tests with VirtualTimeEventLoop, merge, concat, flat_map and merge_inner(k) subscribe and tell at exactly computable times | proved | HostedNested, Hosted, VirtualTime, Nested, Jobs | the worker of merge_inner and the tasks of the inner observables, as they are subscribed, are shown to be lawful tasks of C117, so every execution on the virtual loop is a prompt schedule, to which C112, C113 and C122 apply | C131_schedule, C131_merge, C131_concat, C131_completed, C131_observed, C131_intervals, C131_timers, C131_parallel, C131_slots. The subscription is not disposed; what of_async awaits is a sleep; subscribing and disposing wait for nothing |
| C132 | In tests with VirtualTimeEventLoop, switch_latest disposes the replaced observable in its sleep, and each value of the latest comes exactly when it is due | proved | HostedSwitch, Hosted, VirtualTime, Nested, Switch, Interval | the worker of switch_latest together with the disposal it awaits, and the tasks of the inner observables, which may be cancelled, are shown to be lawful tasks of C117; a run is simulated by one of switch_latest as in C114, which applies | C132_schedule, C132_subscribed, C132_told, C132_observed, C132_intervals. The subscription to switch_latest itself is not disposed; subscribing waits for nothing; of a tie, where a value is due exactly when the next observable is sent, both outcomes are allowed |
| C133 | In tests with VirtualTimeEventLoop, flat_map_latest cancels the async function of the value before in its sleep; only results due before the next value come, each exactly when it is due | proved | Query, Jobs, HostedSwitch, Hosted, VirtualTime, Nested, Switch | of_async with a task that may be cancelled is shown to be a lawful family of tasks of C117; an invariant over the runs of switch_latest says when each inner observable was disposed first; an invariant over the life of one subscription says what it sends depending on this | C133_cancelled (also if workflows raise, with operators behind), C133_results (workflows that return). Workflows do not catch CancelledError; the subscription to switch_latest itself is not disposed. If a result is due exactly when the next value is sent, both outcomes are possible (examples) |
| C134 | The README's search box shows exactly the results it should, when it should (virtual loop) | proved | HostedBox, SearchBox, Query, HostedSwitch, Hosted, VirtualTime | host of the pipeline in front of `switch_latest` put together from lawful parts; its schedule is prompt, so C119's law gives the searches; then C133 | C134_asked, C134_results, C134_readme: C119's laws without the assumption on the loop, composed with C133 (whose new C133_answers determines the results). Ties (a term typed exactly d after another, a result due exactly when the next search starts or exactly now) are excluded: there the behaviour depends on the order of callbacks. The subscription is not disposed, the subject only sends values |
| C135 | flat_map_async with a search: searches are made one after the other and all results come, in order (virtual loop) | proved | Autocomplete, HostedWork, HostedNested, HostedBox, SearchBox, Hosted, VirtualTime | hosts composed from lawful parts; what is in front of `merge_inner` runs promptly (C117), C124's law gives when the mapper returns, C112's when the results come; an invariant by cases for `single`; sortedness makes the multiset an exact list | C135_flat_map_async (any source; without dur > 0 the results as a multiset), C135_search_box, C135_autocomplete. single is modelled with its safe observer and that one's worker; distinct_until_changed up to its safe observer, whose worker awaits the search. Searches that raise are not covered here (C129). Ties of typed terms are excluded as in C134 |
| C136 | run with a timeout on the virtual loop: it returns or raises at the exact time and leaves nothing behind | proved | HostedRun, Deadline, Hosted, HostedSwitch, VirtualTime | the task of `run` is a hosted stage whose last segment disposes the source; up to there the run is one of C118 with C117's schedule, and worker steps can be added at the same instant until C109's law is exact; after it an invariant says that the source is gone | C136_run, C136_verdict, C136_timeout (any hosted source), C136_operator (behind operators without timers), C136_released; C136_timer, C136_interval, C136_interval_take and their _released. subscribe_async and dispose_async of the source may give way to other tasks but wait for nothing. When source and deadline coincide, the theorems allow both outcomes |
| C137 | A program gives the same output on VirtualTimeEventLoop as on a normal event loop | partial | NormalLoop, VirtualTime | both loops as transition systems that differ in one step; an invariant says that all timers in the heap are due later; simulation up to permutation for the heaps; an explicit invariant for the program that never ends | false: of two timers due at the same time the second runs only when all that the first one started is over (C137_violated_tied); call_later(0) waits until no callback is ready (C137_violated_zero), so that a task that waits with `while not stopped: await asyncio.sleep(0)` for a call_later(0) never ends on the virtual loop (C137_violated_busy, for all numbers of iterations; on the normal loop it ends, C137_busy_normal); in general time stands still and no timer runs as long as callbacks are ready (C137_starves), while the normal loop takes up every due timer at once (C137_normal_takes_due). Partial: if no two timers are due at the same time and none is made that is due already, the loops do the same step by step (C137_same_partial for any code, C137_program_partial), and nothing depends on how heapq arranges the timers (C137_heap_partial). The normal loop is modelled from asyncio.BaseEventLoop._run_once, ideal: callbacks take no time |
| C138 | In tests with VirtualTimeEventLoop, `async for` gets its values at exactly computable times | proved | HostedLoop, Loop, Iterator, Hosted, VirtualTime | the two tasks are shown to obey the laws of a host (what one does never puts the other to sleep), so every run of the event loop is a prompt schedule of C125 (C117_schedule); induction over the source's calls for the two rates | the worker and the task of the loop are tasks of the virtual event loop; C138_exact for all sources and chains, C138_interval and C138_interval_slow for intervals; C138_no_spin: the host never resumes a task whose turn is empty, so the default in the definition of its turns is never used |
| C139 | When an `async for` over an observable is over, nothing of it is left behind | partial | HostedLoop, Loop, Iterator, Hosted, VirtualTime | once the consumer has left and a call is offered, no step of worker or consumer is possible (invariant on the iterator's futures); a counting invariant: calls = mailbox + what the loop has got + at most one | false in every run: when the loop has got StopAsyncIteration or an error, the worker of safe_observer waits forever in the aclose or athrow that has brought it, as the exception from `await self._push` leaves wait_for_push before _pull is set (C139_violated_worker_left); after a break in the body for value n at the latest, all calls of the source but n + 2 are in the mailbox and stay there (C139_violated_mailbox), so behind an interval the mailbox grows by one value per period forever (C139_violated_interval). Partial: the task of the loop is done, and neither task has a timer or a callback, so the event loop is not kept busy (C139_consumer_partial) |
| C140 | A source that awaits its observer is slowed down by async functions, by an exactly computable time | proved | Direct, Work, Hosted, VirtualTime | one task; invariant: what was told, followed by what the rest of the round and n more rounds do, is the plan from the start; that plan is computed to be the specification by induction over the rounds; the task obeys the laws of a host, so every run of the event loop is a prompt schedule (C117_schedule) | one task that runs the source's loop, the operators and the observer; C140_iterable and C140_interval in general (the first n rounds, for all large n, since a source may go on forever), C140_interval_times, C140_generator and C140_interval_raises for the cases in the text, C140_released and C140_iterable_behind |
| C141 | An observer may dispose its subscription from within asend | partial | SelfCancel | induction over the operations that the task executes; a cancelled task goes on up to its next await | refuted both ways, with an exact law. The sources await the observer in the task that the disposal cancels: what the observer does after its next await is lost (C141_violated_interval, C141_violated_iterable); if nothing ever suspends, all values and the completion are still delivered (C141_violated_goes_on). Proved: an asend without await after the disposal is executed and interval sends nothing more (C141_interval_partial); behind safe_observer nothing is lost (C141_mailbox_partial). Not covered: observers that catch CancelledError or have finally blocks |
| C142 | catch subscribes to the handler's observable undisturbed | partial | SelfCancel | as C141; the failing round of the source is computed, up to the point where catch has cancelled its own task | refuted with an exact law: catch disposes the failed source first, and behind from_async_iterable this cancels the very task that runs catch; a subscribe_async that awaits is interrupted at its first await, in every run (C142_violated). Proved: a subscribe_async that does not suspend runs to its end (C142_partial), and so does every one if there is a mailbox in between (C142_mailbox_partial) |
| C143 | Functions with side effects are called as in a plain loop | proved | Effects | the nested observers are equal to the sequential code by associativity; induction over the messages the worker takes | functions are arbitrary code over shared variables (C143_loop); C143_once is the order of the calls spelled out for map and filter. Simplified: a function does not suspend in the middle of its effects |
| C144 | take(n) does not save the work before it | proved | Effects, Filtering | both pipelines are reduced to loops by C143_loop, which are compared by induction over the values; C144_after composes two mailboxes | C144_all_called compares the pipelines with and without take(n): same variables, same visible effects, the first n results; C144_after is the other order. Only the part of the disposal that take causes is left out: it does not reach the messages that are already in the mailbox (C26), which is what makes the claim surprising |
| C145 | A subscriber may send to the AsyncSubject from within its asend | partial | Feedback, Subject | the stack of nested calls is unwound by mutual induction over the tree of values; with the mailbox: invariant over the messages, comparison with the concatenation of the generations | false for a direct subscriber: those who subscribed after it get every value after all that was made from it (C145_violated; C145_exact: they get the post-order of the tree of values, the others the pre-order), and get a value after the completion if the subscriber closes the subject (C145_violated_close). Partial: a subscriber behind an operator with a mailbox; then all get the same, within the grammar (C145_same_partial), and one generation after the other (C145_level_order_partial), provided that the other subscribers do not suspend |
| C146 | debounce and delay hold on to the events of the last `seconds`, and to nothing else | proved | Debounce, Delay | invariants of C58 and C60: the timers that are still asleep are those of the events of the last `seconds` | the tasks of debounce are not cancelled: they live on for `seconds` after the subscription has been disposed, too (C146_debounce says so). delay: not disposed, and the observer does not raise |
| C147 | from_async_iterable(to_async_iterable(xs)) is xs | partial | RoundTrip (AsyncFor, Create) | invariant that ties what `__anext__` has returned to what the worker has told the observer, on top of C97 | false for observables that fail: `async for` raises in the worker of of_async_iterable outside of its try, the task ends, and the observer is told nothing, in every run (C147_violated). Partial: values and completion; the subscription is not disposed and the observer does not raise |
| C148 | Subscribing an AsyncIteratorObserver and iterating over it yields every value once | partial | Twice (Iterator) | invariant: which calls belong to which subscription, and which of them have been handed over, on top of C17's | false: the first __anext__ subscribes obv once more, so xs tells everything to obv twice, and values come twice (C148_violated). Partial: the loop gets an interleaving of two initial parts of the values, at the end one of them is complete, and it never raises. Whether it happens with from_iterable depends on whether receive of the mailbox suspends although a message is there, which is left open (the package expression decides); it does with sources that wait between values |
| C149 | combine_latest of a subject with something derived from it shows only pairs that belong together | partial | Model/Diamond.lean, Model/TwoSources.lean | The two branches are executions of their own with the same inputs; what comes in at the operator is determined for branches without a mailbox; closed form by induction on the values | False of the code (C149_violated: a mixed pair comes whenever two values have been sent). C149_partial: at rest the last pair belongs together, for any operators. C149_exact_partial: exactly which pairs come. |
| C150 | with_latest_from pairs a value with what the other branch made of the same value | partial | Model/Diamond.lean, Model/TwoSources.lean | As C149; with a mailbox in the source: an invariant on every prefix of what has come in (never more from the source than from the other branch), then induction on that list | False of the code (C150_violated: never the own one, under no schedule; C150_exact_partial: always the one before). C150_mailbox_partial and C150_paced_partial: what holds when the source has a mailbox. |
| C151 | take_until a condition on the values themselves ends before the value that meets it | proved | Model/Diamond.lean, Model/TwoSources.lean | As C149: what comes in is determined, the other branch first; closed form by induction on the values | Relies on take_until subscribing to the other observable first. |
| C152 | merge and flat_map over subjects deliver everything that is sent to them after subscribing | partial | Model/Hot.lean, Model/Merge.lean | Invariant: the subjects' lists of observers are the subscriptions that the worker has made and not disposed, and the calls of the worker's observers are what those subscriptions hear; the worker itself is the one of C12 and C26 | False of the code (C152_violated: values sent right after subscribe_async are lost). C152_exact_partial: what comes, for every schedule. C152_paced_partial and C152_observed_partial: the full claim if the worker is at rest at each call. |
| C153 | concat over subjects plays them one after the other and completes when all have completed | partial | Model/Hot.lean, Model/Merge.lean | As C152; at rest the only observer is that of the subscription whose number is the number of completions heard; C153_never: who subscribes after the end hears nothing | False of the code (C153_violated, C153_violated_gap; C153_never for all schedules). C153_order_partial: one after the other, always. C153_paced_partial and C153_observed_partial: what comes if the worker is at rest at each call. |
| C154 | switch_latest over subjects delivers the latest subject's values and no others | partial | Model/Hot.lean, Model/Switch.lean | As C152; the worker without a disposal subscribes to the first or replaces the latest, so the subscriptions follow each other without gap or overlap | False of the code (C154_violated: the old subject's value comes, the new one's is lost). C154_exact_partial: what comes, for every schedule. C154_paced_partial and C154_observed_partial: the full claim if the worker is at rest at each call. |
| C155 | When the stream merged or switched from subjects is over, the subjects let go of it | partial | Model/Hot.lean, Model/Merge.lean, Model/Switch.lean | Invariant: every subscription that the worker has disposed is marked as ended; with the release theorems of C39 and C69, whoever is not disposed has heard a completion, so its subject has ended | False of the code when an inner subject fails (C155_violated) and when the source of switch_latest fails (C155_violated_switch). C155_merge_partial: after a disposal or a source error. C155_switch_partial: after a disposal. |
| C156 | catch over subjects changes over to the handler's subject inside the failing call, without a gap | proved | Model/HotCatch.lean, Model/Catch.lean | Invariant: exactly one subject has an observer, the one that the spec listens to | C156_exact: what comes, call by call. C156_observed: the same for the final observer behind operators. Disposing: see C70 (C70_subjects_partial, C70_subjects_violated). |
| C157 | retry over a subject lets the observer know when the subject has failed | partial | Model/HotCatch.lean, Model/Catch.lean | Invariant with two phases: until the subject has ended it has the one observer; afterwards nothing that can be called reaches the observer | False of the code (C157_violated, for every count and every sequence of calls: after an error nothing comes, and never an error). C157_partial: what comes as long as the subject does not fail. |
| C158 | Nothing that is sent to merged AsyncSingleSubjects is lost, no matter when it is sent | proved | Model/Cold.lean, Model/Merge.lean | Invariant: what was called on a subject is what its subscription has heard followed by what waits; decreasing measure for coming to rest | C158_exact: any limit, any moment. C158_merge: when everything is at rest. C158_rests: it comes to rest in any order of the remaining steps. Examples show that the hypotheses are needed (overtaking, a subject that is sent twice). |
| C159 | concat of AsyncSingleSubjects delivers one after the other, whatever the order of the calls | proved | Model/Cold.lean, Model/Merge.lean, Model/Piped.lean | Same invariant as C158; refinement to the scripted inner observables of C33 | C159_concat: the posts, at any moment a prefix and at rest all of it. C159_observed: the same for the final observer behind any operators. |
| C160 | Whoever sends to an AsyncSingleSubject that switch_latest has left, or whose merged stream is disposed, does not bring the event loop to a stop | partial | Model/Cold.lean, Model/Merge.lean, Model/Switch.lean | Invariant: a subject that has had an observer and has none has been disposed by the worker | False of the code (C160_violated_merge, C160_violated_switch: from every state in which a subject is disposed; concrete runs beside them). C160_partial and C160_switch_partial: asend raises, and nothing else hangs. |
| C161 | Silence after disposal: once dispose_async has returned, the observer is not called any more | partial | Model/Hub.lean, Model/Pipeline.lean | Invariant that no running call knows the observer; for the violations, runs constructed for every operator and every sequence of values | False of the code. C161_violated: for every operator with a mailbox, any values: all asend calls have returned, the subscription is disposed, the observer has not been called once, and then it is called with everything. C161_violated_underway: for every operator without one. C161_direct_partial: what holds, over all later steps. C62 is the weaker claim that holds for all operators (nothing that is sent after the disposal). |
| C162 | A producer can close its AsyncSingleSubject although the consumer has had enough | partial | Model/DetachSingle.lean, Model/Single.lean, Model/AutoDetach.lean | Invariant over the whole system, with the subject's part a run of the model of AsyncSingleSubject, so that C14 and its lemmas apply | False of the code. C162_violated (the stream has ended by itself, the agent survives and was quick), C162_violated_take (take(n) after n values), C162_violated_disposed (the consumer disposes). C162_partial: what holds. Callers cancelled while they waited for the subscription are left out of the violations (then aclose raises CancelledError). |
| C163 | A pipeline over an AsyncSingleSubject loses nothing, no matter when it is subscribed | proved | Model/ColdHead.lean, Model/Single.lean, Model/Piped.lean | Invariant: the numbers of the calls that were passed on, followed by those of the woken ones, are 0, 1, 2, ...; then C101 and C102 with the subject as the source | C163_pipe, C163_gets_there, C163_run. The subscription is not disposed, and nobody who waits is cancelled (C160, C162, C71 are about that). An example shows that 'in turn' is needed: a call that comes between woken callers overtakes them. |
| C164 | A slow subscriber of an AsyncSubject does not hold up the others | partial | Model/SlowSubject.lean, Model/Subject.lean | Invariant of one call: it is at some subscriber, what it has told is the computed schedule up to there, and the clock is between two computed times; the subject itself is a run of Subject.step | False: the subscribers are told one after the other, each when the ones before it are through (C164_exact gives the times of all and of the return of the call, C164_violated the delay). C164_partial: a subscriber whose predecessors take no time (they only post to a mailbox) is told at once. C164_goes_on: the clock is never stopped. An example shows that a second producer that does not wait overtakes the first one behind a slow subscriber. |
| C165 | take_last and skip_last remember only the last n values | proved | Model/Filtering.lean | Induction over the calls; the operator's observer is run in front of an arbitrary observer | C165_take_last, C165_skip_last (what is remembered), C165_bound (how much). The mailbox of the safe observer behind the operator is a separate matter (C83, C123). |
| C166 | Disposing a subscription of combine_latest, with_latest_from or take_until releases both sources | proved | Model/DetachTwo.lean | Invariant of C93 (the operator's subscription and whether it is gone), and the invariant that a released observer is in no list and in no call made later | C166_side, C166_both, C166_others. Unlike the release at the end of the stream (C93) this does not depend on the agent. A call under way is not stopped (second example). |
| C167 | flat_map obeys the monad laws, with all times | proved | Model/Bind.lean (over Model/Nested.lean, Timed.lean) | `flat_map` is a clocked observable again, so it nests; what each sends up to a time in the past is a plan, and the plan of `flat_map` is the list monad's bind (C112 at times in the past, by snapshots) | C167_left, C167_right, C167_associative, C167_congruence, C167_determinate, C167_interval. Nobody disposes and nothing fails; with errors the laws do not hold as they stand (an inner error leaves the other inner observables subscribed, C39). |
| C168 | Regrouping flat_map sends the same values on any loop; concatenation in the same order | proved | Model/Bind.lean (over Model/Nested.lean) | if `merge_inner` has completed, so has its source and the observable of each of its values, and all their values have been sent (C112; in order if one at a time, C113); the rest is the list monad | C168_left, C168_right, C168_associative; C168_concat_left, C168_concat_right, C168_concat_associative. Says nothing of runs that do not complete; the examples show that with max_concurrent=0 the order does depend on the schedule. |
| C169 | Disposing an AsyncIteratorObserver releases its subscriptions | partial | Model/IterDispose.lean (over Model/Iterator.lean) | every run simulates a run of the iterator with one subscription, so C17 applies; the subscriptions have a closed form (all but the current one disposed once), by invariants; witnesses for the refutations | False twice: a disposal while the first __anext__ is subscribing disposes nothing (C169_violated_subscribing), and of two overlapping disposals the later one forgets a subscription made in between (C169_violated_overlap). Holds for disposals that avoid both (C169_released_partial, C169_one_at_a_time_partial), and without any restriction for sources that subscribe and dispose without suspending, such as subjects (C169_released_plain). C169_yields (no loss, no duplicates over all loops) holds in full. |
| C170 | Disposing an AsyncIteratorObserver lets its producers go on | partial | Model/IterDispose.lean (over Model/Iterator.lean) | simulation by the iterator; a call returns only when its value was taken (C18), and without __anext__ nothing is taken | False in every run: a call that waits when the loop is left never returns, whether or not the observer is disposed (C170_violated, C170_violated_example). Partial: if no call waits at that moment, all calls made so far return as soon as the scheduled task goes on (C170_partial). |
| C171 | flat_map_latest sends a subsequence of what concat_map sends, and all of the last | proved | Model/Bind.lean (over Model/Nested.lean and Model/Switch.lean) | the posts are the calls of the inner observables one after another (C114), the inner observables those of the source's values in order (C41), the safe observer passes a prefix on (C101); list lemmas | C171_sublist, C171_concat (against merge_inner(1)), C171_left, C171_right, C171_last; C171_loses shows that flat_map_latest(single) is not the identity. C171_fair: the result can be source or inner observable of further operators. |
| C172 | map, filter and choose can be moved in and out of flat_map, merge and concat | proved | Model/Bind.lean (over Model/Nested.lean and Model/Timed.lean) | what the operator makes of the completed posts (C101) and C168's account of a completed merge on both sides; permutations of lists | C172_flat_map, C172_concat, C172_before, C172_map; C172_each_map, C172_each_filter and C172_each_choose show which operators qualify. |
| C173 | flat_map_latest sends no result for a value that has been replaced, also if the result comes from an async function in the inner pipeline | partial | Model/Linger.lean, Model/Nested.lean, Model/Work.lean | a run of the inner pipeline is one of from_iterable([x]) with the same operators (refinement), so C124 gives its calls; Nested.arrive and C114_subscribed for switch_latest | The code violates it: C173_answered_violated and C173_all_violated for all sources and durations, C173_violated with a stale result that comes last. C173_latest_partial: what holds when f(x) honours its disposal. |
| C174 | In tests with VirtualTimeEventLoop, catch changes over at the exact time of the failure | proved | Model/HostedCaught.lean, Model/Caught.lean, Model/Hosted.lean | the tasks of catch and its sources are lawful tasks of the virtual loop (Host.caught_lawful), so that time passes only when no activation of action is suspended (C117_schedule); then the theorems of C115 | Sources whose subscribe_async raises, and disposal of the subscription, are not part of these theorems (C43, C70). |
| C175 | A program with retry goes on when the last attempt has failed, also on the VirtualTimeEventLoop | partial | Model/HostedCaught.lean, Model/Catch.lean, Model/Hosted.lean | when no task can go on, every failed attempt has a successor and every fail has failed, so the latest attempt is a source that has not failed; there are at most two of these (C44); time passes only in such states (C117_schedule) | The code violates it: C175_violated (for every n and every source). C175_partial: before the last attempt has failed. |
| C176 | catch can replace one error by another: catch(lambda e: fail(g(e))) fails with g(e) | partial | Model/HostedCaught.lean, Model/Caught.lean, Model/Hosted.lean | induction over the sources: each is the handler's answer to the only error of the one before (C115_handled); when no task can go on, the latest source would be a fail that has failed and has no successor | The code violates it: C176_violated (for every g and every source that fails), C176_again. C176_partial: before the source has failed. |
| C177 | In tests with VirtualTimeEventLoop, flat_map_latest with single and map_async sends no outdated result | partial | Model/HostedLinger.lean, Model/HostedSwitch.lean, Model/Linger.lean, Model/Work.lean | the worker of the safe observer of single is a lawful task of the loop whose disposal does nothing; then C132 and the exact times of C124 | The code violates it: C177_violated (a run), C177_answered_violated (in general). C177_partial: searches that are over before the next value. With of_async in place of single it holds (C133). |
| C178 | In tests with VirtualTimeEventLoop, sample(s) sends at most one value per s, at multiples of s | partial | Model/Hosted.lean, Model/Clocked.lean, Model/Interval.lean | the tasks of both sources and of the workers are lawful tasks of the loop (Host.two_lawful), so C117_schedule gives a run that meets the hypotheses of C126_exact | The code violates it: C178_violated (a run), C178_all_violated (in general). C178_partial: no value in the first s, only values of the source at their times. |
| C179 | Chained fallbacks: pipe(a, catch(lambda _: b), catch(lambda _: c)) goes on with c when b has failed | partial | Model/Fallbacks.lean, Model/Caught.lean | the first catch is itself a source of the clock that never sends an error (C43), so the second catch has one source only (C115) | The code violates it: C179_violated (a run), C179_second_violated (the second handler is never called), C179_again_violated (b is subscribed again after each failure). C179_partial: as long as b has not failed. |
| C180 | catch sends the values of the source and, after each error, those of the handler's observable; map, filter and choose can be moved in and out of it | proved | Model/Caught.lean, Model/Catch.lean, Spec/Recover.lean | induction over the list of subscribed sources, linked by C115_handled; the relation Recovers is shown to be a function, and to commute with operators of this kind | Proved for sources that come to an end with the same values whenever they are subscribed (Steady); what has been sent before the end is C115. |
| C181 | delay can be moved past operators without timers, with all times | proved | Model/Delay.lean, Model/Clocked.lean, Model/Timed.lean | what delay(d) has delivered up to a past time is what the source had sent d before (from C107_exact); with C109_operator both pipelines compute the same function of the source's calls | Proved. |
| C182 | from_async_iterable holds on to its tasks until they are over, and no longer | partial | Model/IterTasks.lean, Model/Create.lean | invariant: the set is exactly the tasks whose observer was not completed, and a completed one is over; that an ended worker makes no step is an invariant from any later state; induction on the number of visits for the leak | First half proved, with what the set holds at every moment (C182_held) and that tasks.remove never raises KeyError. The second half is false: a task is only removed after aclose() of its observer returned, so the tasks of disposed subscriptions, of observers that raised and of iterables that raised stay for ever (C182_forever_violated); n subscriptions that come and go leave n ended tasks, for every n (C182_clean_violated). |
| C183 | Two debounces in a row: the longer one first is one debounce and a delay; the order matters | proved | Model/Debounce.lean, Model/Clocked.lean, Model/SearchBox.lean | C119_debounce twice: the output is the filter for b of the filter for a; induction on the source's values puts it between the values before a pause of max(a, b) and those before a pause of a | Proved. That the order matters is shown by a run of both pipelines over the same values (C183_order_matters). |
| C184 | map can be moved past debounce; filter sends more if it is moved before it | proved | Model/Debounce.lean, Model/Clocked.lean, Model/Timed.lean, Model/SearchBox.lean | C119_debounce and the law of operators without timers give what both pipelines send as functions of the source's values; induction on these for the equality and the inclusion | Proved. That filter before debounce can send more is shown by a run of both pipelines over the same values (C184_filter_order). |
| C185 | delay can be moved past debounce | proved | Model/Delay.lean, Model/Debounce.lean, Model/Clocked.lean | C107_exact (what delay has delivered, and that nothing overdue is missing) and C119_debounce; induction on the source's values | Proved. |
| C186 | The laws of debounce hold in tests on VirtualTimeEventLoop | proved | Model/Hosted.lean, Model/Debounce.lean, Model/Clocked.lean | a run of the virtual loop is a schedule of a loop that is not overloaded (C117_schedule, C117_rest), never disposes the debounce, and so meets the hypotheses of C183 and C184; a run of each order for (c) | Proved. C186_filter_order shows two runs of the loop in which the order of filter and debounce makes a difference. |
| C187 | delay can be moved in and out of merge and flat_map, but not for the completion | proved | Model/Nested.lean, Model/Delay.lean, Model/Clocked.lean | C112_arrive and C112_completed with inner observables that have delay behind them (the invariant Past gives a schedule of each of them), and C107_exact; lists that are permutations of each other and in the order of time are equal if no time occurs twice | Proved. C187_completed_order shows that moving delay inside can make the completion come earlier. |
| C188 | debounce may not be moved into merge: behind it every inner observable can supersede a value, inside only its own | proved | Model/Nested.lean, Model/Debounce.lean, Model/Clocked.lean | C119_debounce on the merged stream and, through the invariant Past, on each inner observable; what quiet keeps of a list in the order of time without a repeated time is said by membership alone, so that it does not matter that the merged stream is only a permutation of the inner ones | Proved. C188_order is the witness against the converse. The safe observer between an inner debounce and merge_inner is left out of the model of the second pipeline; it hands on values at once. |
| C189 | delay may not be moved into switch_latest: inside it, values that are still waiting are lost when the next observable comes | proved | Model/Nested.lean, Model/Switch.lean, Model/Delay.lean, Model/Clocked.lean | C114_in_order and C107_exact, once for the whole stream and once for each inner observable; for what is sent in time, each inner observable is followed from the moment of its disposal to the end (follows, later) | Proved, under the assumption named in the statement. C189_order is the witness against the converse, C189_late a run without the assumption in which a replaced observable's value is sent after the switch. |
| C190 | distinct_until_changed belongs behind debounce: before it, the same value can be sent twice in a row | proved | Model/Debounce.lean, Model/Filtering.lean, Model/Clocked.lean | C119_debounce and the law of distinct_until_changed (C50) composed in both orders; the comparison of the two lists by induction over the source's values, with the last value as a parameter (held) | Proved. C190_order is the witness that the second order sends the same value twice in a row, and sooner. |
| C191 | A debounced total counts every value if scan stands before debounce, and loses values if it stands behind | proved | Model/Debounce.lean, Model/Transform.lean, Model/Clocked.lean | C119_debounce and the law of scan (C31) composed in both orders; that the total at the time of sending is the fold of everything sent by then is an induction over the source's values, generalized over the initial total (quiet_totals) | Proved. C191_order is the witness that the totals differ. |
| C192 | take(n) belongs behind debounce: before it, the n-th value is never sent | proved | Model/Debounce.lean, Model/Filtering.lean, Model/Clocked.lean | the exact law of take with times (taken, from C109_operator and C47) composed with C119_debounce in one order and with C108_exact in the other, where the completion at the time of the n-th value excludes it | Proved. C192_order is a run in which the two orders differ. That debounce does not send the last value when its source completes is C78. |
| C193 | skip(n) before debounce counts values, behind it counts pauses: behind, it drops at least as much | proved | Model/Debounce.lean, Model/Filtering.lean, Model/Clocked.lean | C119_debounce and the law of skip (C45) composed in both orders; that debouncing the rest is debouncing all, less at most n values, is an induction over n and the source's values (quiet_drop) | Proved. C193_order is the witness that the two differ. |

## 5. Findings

Claims that a reader of the API would make and that are false, each with a proof of the negation (theorems `Cnn_violated*`):
the remarks column of the table says what goes wrong, `MANIFEST.json` has the names. The ones with the widest consequences:

* `auto_detach_observer` cancels the token of the agent that should dispose the source, so the source is not disposed (C06).
* `retry(n)` retries at most once for any n, shares its count among subscriptions and never delivers the error (C44).
* `switch_latest` never completes once it has had an inner observable (C42).
* `debounce` sends a completion when it is disposed, and loses the value before the completion (C61, C78).
* `delay` shares its cancellation token among subscriptions, and adds up delays under virtual time (C59, C77).
* `sample` forwards every value after the first tick (C56).
* `async for` over a source that sends during `subscribe_async`, such as `empty()`, deadlocks (C80); leaving an iteration early
  blocks the producer for ever (C81).
* `AsyncSingleSubject.athrow` and `aclose` after disposal spin for ever and block the event loop (C14).
* `scan` goes on after its accumulator has raised (C32), and loses updates if the accumulator suspends (C33).
* `catch`'s disposable stays bound to the first source (C70); a handler that raises leaves the subscriber without an end (C88).
* slices with stop 0, and several other combinations, differ from Python's (C51, C52).

## 6. How the theorems were tested

`seeded/LOG.jsonl` has one line per wrong program: the definition edited, the edit, the claim it should break, the theorems
that failed to build, and what was tightened where nothing failed. Wrong programs were made in a scratch copy by hand (realistic
bugs, and repaired versions of the code, for which the `violated` theorems must fail) and automatically (dropped updates,
swapped branches, changed boundaries and constants, disabled steps).

## 7. Files

- `Base/LTS.lean`: Labelled transition systems
- `Base/Notif.lean`: Exceptions and notifications
- `Base/Proc.lean`: Mailbox agents and asynchronous processes
- `Base/Py.lean`: Straight-line coroutine code
- `Model/AsyncFor.lean`: `async for x in to_async_iterable(pipe(source, op1, ..., opn))`
- `Model/AsyncSource.lean`: `of_async_iterable`: several subscriptions of one async iterable (`aioreactive/create.py` 79-110)
- `Model/AutoDetach.lean`: `auto_detach_observer`
- `Model/Autocomplete.lean`: `flat_map_async` with a mapper that returns `single`, and the search box of examples/autocomplete
- `Model/Awaitable.lean`: `AsyncAwaitableObserver` and `run`
- `Model/Behind.lean`: `merge_inner` and `switch_latest` behind another operator or source
- `Model/Bind.lean`: `flat_map` of observables that are themselves made with `flat_map`
- `Model/Busy.lean`: An observer that takes its time
- `Model/Catch.lean`: `catch`, `retry`
- `Model/Caught.lean`: `catch` and `retry` on a clock
- `Model/Clocked.lean`: Pipelines in which time passes
- `Model/Cold.lean`: `merge`, `concat`, `flat_map` and `switch_latest` over `AsyncSingleSubject`s
- `Model/ColdHead.lean`: An `AsyncSingleSubject` at the head of a pipeline
- `Model/Combine.lean`: Operators with two sources
- `Model/Create.lean`: `create.py`: sources that deliver through a `safe_observer`
- `Model/Deadline.lean`: `run(source, timeout=...)` on the clock
- `Model/Debounce.lean`: `debounce`
- `Model/Delay.lean`: `delay`
- `Model/Detach.lean`: An operator with `auto_detach` over an `AsyncSubject`
- `Model/DetachSingle.lean`: An operator with `auto_detach` over an `AsyncSingleSubject`
- `Model/DetachTwo.lean`: An operator with two sources and `auto_detach`, over two `AsyncSubject`s
- `Model/Diamond.lean`: A subject and something derived from it, combined with each other
- `Model/Direct.lean`: Sources that wait for their observer
- `Model/Effects.lean`: Operators with functions that have side effects
- `Model/EndToEnd.lean`: `run(pipe(source, op1, ..., opn))`: a source of create.py, a pipeline and `run` together
- `Model/Fallbacks.lean`: `pipe(source, catch(h1), catch(h2))`
- `Model/Feedback.lean`: Observers that send to the subject that they are subscribed to
- `Model/Filtering.lean`: `aioreactive/filtering.py`
- `Model/Heapq.lean`: `heapq`
- `Model/Hosted.lean`: Pipelines on the `VirtualTimeEventLoop`
- `Model/HostedBox.lean`: The search box on the `VirtualTimeEventLoop`
- `Model/HostedCaught.lean`: `catch` on the `VirtualTimeEventLoop`
- `Model/HostedLinger.lean`: `pipe(single(x), map_async(f))` as an inner observable on the `VirtualTimeEventLoop`
- `Model/HostedLoop.lean`: `async for` on the `VirtualTimeEventLoop`
- `Model/HostedNested.lean`: `merge_inner` on the `VirtualTimeEventLoop`
- `Model/HostedRun.lean`: `run(source, timeout=...)` on the `VirtualTimeEventLoop`
- `Model/HostedSwitch.lean`: `switch_latest` on the `VirtualTimeEventLoop`
- `Model/HostedWork.lean`: Async functions that take time on the `VirtualTimeEventLoop`
- `Model/Hot.lean`: `merge`, `concat`, `flat_map` and `switch_latest` over subjects
- `Model/HotCatch.lean`: `catch` and `retry` over subjects
- `Model/Hub.lean`: Subscriptions of an operator chain to an `AsyncSubject`
- `Model/Interval.lean`: `interval` and `timer`
- `Model/IterDispose.lean`: `AsyncIteratorObserver.dispose_async`, and iterating again after it
- `Model/IterTasks.lean`: The set `tasks` of `of_async_iterable`
- `Model/Iterate.lean`: `async for` over a source that sends from within its `subscribe_async`
- `Model/Iterator.lean`: `AsyncIteratorObserver`
- `Model/Jobs.lean`: `of_async` on a clock
- `Model/Linger.lean`: `pipe(single(x), map_async(f), ...)` as an inner observable
- `Model/Listener.lean`: Subscribing with functions
- `Model/Loop.lean`: `async for` with a body that takes time
- `Model/Merge.lean`: `merge_inner` (and `concat_seq`, `merge`, `chain`, `flat_map`, `concat_map`)
- `Model/Nested.lean`: `merge_inner` and `switch_latest` on a clock
- `Model/NormalLoop.lean`: A normal event loop
- `Model/Notification.lean`: `Notification.accept`, `accept_observer` and `AsyncNotificationObserver`
- `Model/Piped.lean`: Operators behind any source, and `run` at the end
- `Model/Pipeline.lean`: How operators are put together
- `Model/Query.lean`: `of_async` behind `switch_latest`
- `Model/Raising.lean`: A final observer that raises
- `Model/RoundTrip.lean`: `from_async_iterable(to_async_iterable(pipe(source, op1, ..., opn)))`
- `Model/Safe.lean`: `safe_observer`
- `Model/ScanRace.lean`: `_scan` called by overlapping producers
- `Model/SearchBox.lean`: The search box
- `Model/SelfCancel.lean`: Code that disposes the subscription in whose task it runs
- `Model/SeqIter.lean`: `zip_seq`: several subscriptions and the sequence's iterators (`aioreactive/combine.py` 336-367)
- `Model/SeqSource.lean`: `of_seq`: several subscriptions, the iterators of the sequence and the event loop (`aioreactive/create.py` 161-181)
- `Model/Shared.lean`: One subject, many pipelines
- `Model/SharedAwait.lean`: Several subscriptions of one `of_async`
- `Model/Single.lean`: `AsyncSingleSubject`
- `Model/Slow.lean`: Pipelines whose observers suspend
- `Model/SlowSubject.lean`: `AsyncSubject` whose subscribers take time
- `Model/Subject.lean`: `AsyncSubject` (`AsyncMultiSubject`)
- `Model/Subscribing.lean`: `subscribe_async` of an operator with two sources, with sources that refuse the subscription
- `Model/Switch.lean`: `switch_latest` (and `flat_map_latest*`)
- `Model/TestObserver.lean`: `AsyncTestObserver`
- `Model/TestSubject.lean`: The test subjects' timed methods
- `Model/Timed.lean`: Operators without timers, on a clock
- `Model/ToObservable.lean`: `to_observable`
- `Model/Transform.lean`: Single-source operators of `aioreactive/transform.py`, and `zip_seq` of `combine.py`
- `Model/Twice.lean`: An iterator that has been subscribed, too
- `Model/TwoSources.lean`: Operators with two sources, behind any two sources
- `Model/VirtualTime.lean`: `VirtualTimeEventLoop`
- `Model/Work.lean`: Async functions that take time
- `Model/WorkScan.lean`: `scan_async` with an accumulator that takes time
- `Spec/Behind.lean`: What flat_map, merge, concat_map, concat and flat_map_latest are supposed to do
- `Spec/Bind.lean`: When two observables look the same
- `Spec/Catch.lean`: Vocabulary for the claims about catch and retry
- `Spec/Cold.lean`: What should be heard of `AsyncSingleSubject`s
- `Spec/Combine.lean`: Specifications of the operators with two sources
- `Spec/Deadline.lean`: What `run` with a timeout is supposed to do
- `Spec/Debounce.lean`: What `debounce` should do
- `Spec/Delay.lean`: What `delay` should do
- `Spec/Delivery.lean`: What it means for an operator to turn one stream into another
- `Spec/Held.lean`: What an object that starts tasks holds on to
- `Spec/Hot.lean`: What should be heard of subjects
- `Spec/HotCatch.lean`: What should be heard of `catch` over subjects
- `Spec/Hub.lean`: What a subscription should hear
- `Spec/IterDispose.lean`: Vocabulary for the claims about disposing an iterator
- `Spec/Iterator.lean`: Vocabulary for the claims about async iteration
- `Spec/Jobs.lean`: Jobs: what takes how long
- `Spec/Merge.lean`: Vocabulary for the claims about merge_inner and concat
- `Spec/Operators.lean`: What the single-source operators are supposed to do, as functions on streams
- `Spec/Pauses.lean`: Values before a pause
- `Spec/Piped.lean`: What a source sends, and what `merge_inner` is supposed to send
- `Spec/Pool.lean`: A pool of slots
- `Spec/Query.lean`: Which results of questions are supposed to come, if a question that takes too long is given up for the next one
- `Spec/Queue.lean`: One event at a time
- `Spec/Recover.lean`: What `catch` should send
- `Spec/Ripe.lean`: What is due after a delay
- `Spec/SearchBox.lean`: What a search box is supposed to do
- `Spec/Shared.lean`: What the observers of a shared subject get
- `Spec/Single.lean`: Vocabulary for the claims about AsyncSingleSubject
- `Spec/Sources.lean`: What it means for a source to deliver a notification sequence
- `Spec/Stream.lean`: Specification vocabulary for streams
- `Spec/Subject.lean`: Vocabulary for the claims about AsyncSubject
- `Spec/Switch.lean`: Vocabulary for the claims about switch_latest
- `Spec/TestSubject.lean`: When the timed methods of the test subjects should send
- `Spec/Timed.lean`: Streams with times
- `Lemmas/AsyncFor.lean`: Lemmas about async iteration over pipelines
- `Lemmas/Autocomplete.lean`: helper lemmas
- `Lemmas/Behind.lean`: Runs of a composition, split into a run of the front and a run of the back
- `Lemmas/Bind.lean`: helper lemmas
- `Lemmas/Busy.lean`: Lemmas about `Model/Busy.lean`
- `Lemmas/Catch.lean`: Invariants of catch
- `Lemmas/Caught.lean`: `catch` on a clock: the schedule of the subscription, with times
- `Lemmas/CaughtChain.lean`: `catch` on a clock: which source is subscribed when
- `Lemmas/Chains.lean`: Whole chains: schedule independence, and direct (unguarded) sources
- `Lemmas/Clocked.lean`: Runs of pipelines in which time passes
- `Lemmas/Cold.lean`: Lemmas about `AsyncSingleSubject`s behind merge_inner and switch_latest
- `Lemmas/Create.lean`: helper lemmas
- `Lemmas/Deadline.lean`: `run` with a timeout
- `Lemmas/Debounce.lean`: Invariants of `debounce`
- `Lemmas/DebouncePrompt.lean`: The invariant of `debounce` holds
- `Lemmas/Delay.lean`: Invariants of `delay`
- `Lemmas/DelayPrompt.lean`: `delay` on a prompt loop, after a cancellation, and without one
- `Lemmas/Detach.lean`: Lemmas about one subscription with `auto_detach` over a subject
- `Lemmas/DetachSingle.lean`: Lemmas about an operator with `auto_detach` over an `AsyncSingleSubject`
- `Lemmas/DetachTwo.lean`: Lemmas about a subscription with two sources and `auto_detach`
- `Lemmas/Direct.lean`: Lemmas about `Model/Direct.lean`
- `Lemmas/Fronts.lean`: Operators that post to a safe observer
- `Lemmas/Heapq.lean`: `heapq` obeys the laws of a heap
- `Lemmas/Hosted.lean`: Pipelines on the `VirtualTimeEventLoop`: time passes only when no task can go on
- `Lemmas/HostedCaught.lean`: `catch` on the `VirtualTimeEventLoop`
- `Lemmas/HostedLoop.lean`: `async for` on the `VirtualTimeEventLoop`
- `Lemmas/HostedNested.lean`: `merge_inner` on the `VirtualTimeEventLoop`
- `Lemmas/HostedParts.lean`: The parts of hosted pipelines
- `Lemmas/HostedRun.lean`: `run` on the `VirtualTimeEventLoop`
- `Lemmas/HostedSwitch.lean`: `switch_latest` on the `VirtualTimeEventLoop`
- `Lemmas/HostedWork.lean`: Async functions that take time on the `VirtualTimeEventLoop`
- `Lemmas/Hot.lean`: Lemmas about subjects behind merge_inner and switch_latest
- `Lemmas/Hub.lean`: Subscriptions of a chain to a subject: invariants
- `Lemmas/IterDispose.lean`: Lemmas about disposing an iterator
- `Lemmas/Iterator.lean`: The invariant of AsyncIteratorObserver
- `Lemmas/Jobs.lean`: helper lemmas
- `Lemmas/Lists.lean`: Facts about lists
- `Lemmas/Loop.lean`: Lemmas about `Model/Loop.lean`
- `Lemmas/Merge.lean`: helper lemmas
- `Lemmas/Nested.lean`: `merge_inner` and `switch_latest` on a clock: the schedule of the worker, with times
- `Lemmas/NestedArrive.lean`: `merge_inner` and `switch_latest` on a clock: what arrives, and when
- `Lemmas/Operators.lean`: Operators as functions on streams
- `Lemmas/Piped.lean`: Lemmas about pipelines behind any source
- `Lemmas/Pipeline.lean`: Composition of operators
- `Lemmas/Proc.lean`: Kahn-style theory of mailbox processes
- `Lemmas/Query.lean`: helper lemmas
- `Lemmas/Safe.lean`: helper lemmas
- `Lemmas/SearchBox.lean`: Lemmas for the search box
- `Lemmas/Shared.lean`: One subject, many pipelines: what each of them gets from the subject
- `Lemmas/Single.lean`: Invariants of AsyncSingleSubject
- `Lemmas/Slices.lean`: zip_seq with lists, scan with raising accumulators, reduce, slices
- `Lemmas/Slow.lean`: Suspending workers compute the same functions
- `Lemmas/Stream.lean`: helper lemmas
- `Lemmas/Subject.lean`: Invariants of AsyncSubject
- `Lemmas/Switch.lean`: Invariants of switch_latest
- `Lemmas/TestSubject.lean`: The test subjects' timed methods: invariants
- `Lemmas/Timed.lean`: Operators without timers, on a clock
- `Lemmas/VirtualTime.lean`: The invariant of VirtualTimeEventLoop
- `Lemmas/Work.lean`: Lemmas about `Model/Work.lean`
- `Props/C01_05_Safe.lean`: C01-C05: what an observer behind `safe_observer` experiences
- `Props/C05_Raising.lean`: C05 at the end of a pipeline
- `Props/C06_AutoDetach.lean`: C06: auto-detach
- `Props/C07_Pipelines.lean`: C07: pipelines of single-source operators are schedule-independent
- `Props/C08_11_Subject.lean`: C08–C11: AsyncSubject
- `Props/C101_103_Piped.lean`: C101, C102, C103: pipelines behind any source
- `Props/C104_Subscribing.lean`: C104: a `subscribe_async` that raises leaves nothing subscribed
- `Props/C105_Laws.lean`: C105: pipelines can be rewritten by the usual laws
- `Props/C106_TwoSources.lean`: C106: operators with two sources, behind any two sources
- `Props/C107_108_Clocked.lean`: C107, C108: delay and debounce behind any source, on one clock
- `Props/C109_111_Timed.lean`: C109, C110, C111: operators without timers behind sources that send at certain times
- `Props/C112_114_Nested.lean`: C112, C113, C114: `merge`, `concat` and `switch_latest` of observables that send at certain times
- `Props/C112_114_Timers.lean`: C112, C113, C114 for intervals and timers
- `Props/C115_Caught.lean`: C115: `catch` on a clock
- `Props/C116_Sample.lean`: C116: `sample` on a clock
- `Props/C117_Hosted.lean`: C117: on the `VirtualTimeEventLoop` everything happens exactly on time
- `Props/C118_Deadline.lean`: C118: `run` with a timeout
- `Props/C119_SearchBox.lean`: C119: a search box searches for what is typed once the user pauses, not for the same thing twice, and shows only the results of the last search
- `Props/C120_Shared.lean`: C120: pipelines behind one subject, merged: each of them follows the subject on its own, exactly its delay behind
- `Props/C121_Pool.lean`: C121: `merge_inner(k)` is a pool of `k` slots
- `Props/C122_Jobs.lean`: C122: jobs behind `merge_inner(k)`
- `Props/C123_Busy.lean`: C123: an observer that takes its time
- `Props/C124_Work.lean`: C124: async functions that take their time
- `Props/C125_Loop.lean`: C125: `async for` with a body that takes its time
- `Props/C126_Sample.lean`: C126: what `sample` does to streams with times
- `Props/C127_WorkScan.lean`: C127: an accumulator that takes its time
- `Props/C128_Reduce.lean`: C128: operators behind async functions that take their time, and `reduce_async`
- `Props/C129_WorkInner.lean`: C129: `flat_map_async`, `flat_map_latest_async` with a mapper that takes its time
- `Props/C12_14_Single.lean`: C12–C14, C71: AsyncSingleSubject
- `Props/C130_HostedWork.lean`: C130: async functions that sleep, on the `VirtualTimeEventLoop`
- `Props/C131_HostedNested.lean`: C131: `merge_inner` on the `VirtualTimeEventLoop`
- `Props/C132_HostedSwitch.lean`: C132: `switch_latest` on the `VirtualTimeEventLoop`
- `Props/C133_Query.lean`: C133: `flat_map_latest(lambda x: of_async(work(x)))` on the `VirtualTimeEventLoop`
- `Props/C134_HostedBox.lean`: C134: the search box on the `VirtualTimeEventLoop`
- `Props/C135_Autocomplete.lean`: C135: `flat_map_async` with a search that takes time, on the `VirtualTimeEventLoop`
- `Props/C136_HostedRun.lean`: C136: `run(source, timeout=...)` on the `VirtualTimeEventLoop`
- `Props/C137_NormalLoop.lean`: C137: the same output as on a normal event loop
- `Props/C138_HostedLoop.lean`: C138: `async for` on the `VirtualTimeEventLoop`
- `Props/C139_LoopEnd.lean`: C139: what is left when an `async for` has ended
- `Props/C140_Direct.lean`: C140: sources that wait for their observer, on the `VirtualTimeEventLoop`
- `Props/C141_142_SelfCancel.lean`: C141, C142: disposing a subscription in its own task
- `Props/C143_144_Effects.lean`: C143, C144: functions with side effects
- `Props/C145_Feedback.lean`: C145: a subscriber that sends to the subject from within its `asend`
- `Props/C146_Held.lean`: C146: what `debounce` and `delay` hold on to
- `Props/C147_RoundTrip.lean`: C147: from observable to async iterable and back
- `Props/C148_Twice.lean`: C148: `async with await xs.subscribe_async(obv)` around `async for x in obv`
- `Props/C149_151_Diamond.lean`: C149-C151: a subject combined with something derived from it
- `Props/C152_153_Hot.lean`: C152, C153: `merge` and `concat` over subjects
- `Props/C154_HotSwitch.lean`: C154: `switch_latest` over subjects
- `Props/C155_HotRelease.lean`: C155: the subjects let go
- `Props/C156_157_HotCatch.lean`: C156, C157: `catch` and `retry` over subjects
- `Props/C158_160_Cold.lean`: C158–C160: `merge`, `concat` and `switch_latest` over `AsyncSingleSubject`s
- `Props/C15_16_Run.lean`: C15, C16, C72: AsyncAwaitableObserver and run()
- `Props/C161_Silence.lean`: C161: silence after disposal
- `Props/C162_DetachSingle.lean`: C162: closing an `AsyncSingleSubject` whose consumer has had enough
- `Props/C163_ColdHead.lean`: C163: a pipeline over an `AsyncSingleSubject` loses nothing
- `Props/C164_SlowSubject.lean`: C164: a slow subscriber of an AsyncSubject, and the others
- `Props/C165_Memory.lean`: C165: what `take_last` and `skip_last` remember
- `Props/C166_DisposeTwo.lean`: C166: disposing the subscription of an operator with two sources
- `Props/C167_Bind.lean`: C167: `flat_map` obeys the monad laws, with all times
- `Props/C168_Regroup.lean`: C168: regrouping `flat_map` does not change what is sent, on any loop
- `Props/C169_IterDispose.lean`: C169, C170: disposing an AsyncIteratorObserver
- `Props/C171_Latest.lean`: C171: `flat_map_latest` sends some of what `concat_map` sends, and all of the last
- `Props/C172_MoveIn.lean`: C172: `map`, `filter` and the like can be moved in and out of `flat_map`, `merge` and `concat`
- `Props/C173_Linger.lean`: C173: `flat_map_latest` with `pipe(single(x), map_async(f))`: a value that has been replaced is answered all the same
- `Props/C174_HostedCatch.lean`: C174: `catch` on the `VirtualTimeEventLoop`
- `Props/C175_HostedRetry.lean`: C175: `retry` on the `VirtualTimeEventLoop`
- `Props/C176_Translate.lean`: C176: one error for another with `catch`
- `Props/C177_HostedLinger.lean`: C177: outdated results on the `VirtualTimeEventLoop`
- `Props/C178_HostedSample.lean`: C178: `sample` on the `VirtualTimeEventLoop`
- `Props/C179_Fallbacks.lean`: C179: a chain of fallbacks
- `Props/C17_19_Iterator.lean`: C17 - C19: AsyncIteratorObserver
- `Props/C180_Recover.lean`: C180: what `catch` sends, and moving `map`, `filter` and the like in and out of it
- `Props/C181_DelayMoves.lean`: C181: `delay` can be moved past operators without timers
- `Props/C182_IterTasks.lean`: C182: from_async_iterable holds on to its tasks until they are over, and no longer
- `Props/C183_Debounces.lean`: C183: two `debounce`s in a row
- `Props/C184_DebounceMoves.lean`: C184: `map` can be moved past `debounce`; `filter` only sends more if it is moved before it
- `Props/C185_DelayDebounce.lean`: C185: `delay` can be moved past `debounce`
- `Props/C186_HostedDebounce.lean`: C186: the laws of `debounce` on the virtual loop
- `Props/C187_DelayMerge.lean`: C187: `delay` and `merge`
- `Props/C188_DebounceMerge.lean`: C188: `debounce` and `merge`
- `Props/C189_DelaySwitch.lean`: C189: `delay` and `switch_latest`
- `Props/C190_DebounceDistinct.lean`: C190: `distinct_until_changed` behind `debounce` and before it
- `Props/C191_DebounceScan.lean`: C191: `scan` before `debounce` and behind it
- `Props/C192_DebounceTake.lean`: C192: `take` behind `debounce` and before it
- `Props/C193_DebounceSkip.lean`: C193: `skip` before `debounce` and behind it
- `Props/C20_26_Create.lean`: C20-C22, C24, C26: from_iterable, single, empty, never, fail, of_async, defer
- `Props/C23_24_Create.lean`: C23, C24: from_async_iterable and defer
- `Props/C25_Interval.lean`: C25: interval and timer
- `Props/C27_30_Map.lean`: C27-C30: map, starmap, mapi, filter, starfilter, filteri, choose
- `Props/C31_34_Scan.lean`: C31-C34: scan and reduce
- `Props/C35_40_Merge.lean`: C35 - C40: merge_inner, concat
- `Props/C41_42_Switch.lean`: C41, C42, C69: switch_latest
- `Props/C43_44_Catch.lean`: C43, C44, C70, C88: catch, retry
- `Props/C45_52_Filtering.lean`: C45-C48, C50-C52, C90: skip, skip_last, take, take_last, distinct_until_changed, slices, indexing;
- `Props/C49_54_Combine.lean`: C49, C53, C54, C56: take_until, combine_latest, with_latest_from, sample
- `Props/C57_59_Delay.lean`: C57, C58, C59, C77: delay
- `Props/C60_61_Debounce.lean`: C60, C61, C78: debounce
- `Props/C62_67_Hub.lean`: C62, C67: subscriptions of an operator chain to an `AsyncSubject`
- `Props/C63_VirtualTime.lean`: C63, C76: VirtualTimeEventLoop
- `Props/C64_TestObserver.lean`: C64: AsyncTestObserver
- `Props/C65_ToObservable.lean`: C65, C73: to_observable
- `Props/C66_Notification.lean`: C66, C74: notifications
- `Props/C75_TestSubject.lean`: C75: the timed methods of the test subjects
- `Props/C79_SeqIter.lean`: C79: `zip_seq` starts at the beginning of the sequence for every subscription
- `Props/C80_81_Iterate.lean`: C80, C81: iterating a source that sends while it is subscribed to; leaving an iteration early
- `Props/C82_SharedAwait.lean`: C82: every subscriber of an of_async gets the result
- `Props/C83_BackPressure.lean`: C83: back-pressure through operators
- `Props/C84_Workers.lean`: C84: disposing a subscription ends the tasks it started
- `Props/C85_87_FlatMap.lean`: C85 flat_map and merge, C86 concat_map and concat, C87 flat_map_latest
- `Props/C89_Listener.lean`: C89: an observer made of functions
- `Props/C92_Detach.lean`: C92: when a stream has ended, its source no longer holds the subscription
- `Props/C93_DetachTwo.lean`: C93: when the stream of an operator with two sources has ended, neither source holds the subscription
- `Props/C94_95_SharedSource.lean`: C94: every subscription gets the whole sequence; C95: an endless iterable can be cut off
- `Props/C96_EndToEnd.lean`: C96: `run` over a pipeline over a list
- `Props/C97_AsyncFor.lean`: C97: `async for` over a pipeline
- `Props/C98_100_SubjectOrder.lean`: C98–C100: what the subscribers of an AsyncSubject see together
