{
 "claims": [
  {
   "property": "C01",
   "status": "proved",
   "theorems": [
    "Aio.Safe.C01_grammar"
   ],
   "note": "every schedule of producers and worker, arbitrary suspension and raising of observer and disposable"
  },
  {
   "property": "C02",
   "status": "proved",
   "theorems": [
    "Aio.Safe.C02_serialised"
   ],
   "note": "same transition system as C01"
  },
  {
   "property": "C03",
   "status": "proved",
   "theorems": [
    "Aio.Safe.C03_fifo"
   ],
   "note": "for schedules in which no call raises; raising is C05"
  },
  {
   "property": "C04",
   "status": "proved",
   "theorems": [
    "Aio.Safe.C04_dispose_before_terminal",
    "Aio.Safe.C04_dispose_once",
    "Aio.Safe.C04_disposed_iff_terminal"
   ],
   "note": "order, at most once, and exactly when a terminal was posted"
  },
  {
   "property": "C05",
   "status": "proved",
   "theorems": [
    "Aio.Safe.C05_exception_returned",
    "Aio.Safe.C05_cancelled",
    "Aio.Safe.C05_no_dispose_after_raise",
    "Aio.C05_pipeline",
    "Aio.C05_pipeline_after"
   ],
   "note": "also shows that the disposable is then never disposed (finding); C05_pipeline extends it to a raising observer at the end of any pipeline; CancelledError: the observer is told nothing and never called again (C05_cancelled)"
  },
  {
   "property": "C06",
   "status": "partial",
   "theorems": [
    "Aio.AutoDetach.C06_killed_agent_disposes_nothing",
    "Aio.AutoDetach.C06_violated_if_agent_killed",
    "Aio.AutoDetach.C06_violated_if_agent_survives",
    "Aio.AutoDetach.C06_detach_partial",
    "Aio.AutoDetach.C06_pending_disposes_nothing",
    "Aio.AutoDetach.C06_raise_stops",
    "Aio.AutoDetach.C06_violated_raise"
   ],
   "note": "false: if cancelling the token cancels the waiting agent nothing is ever disposed (C06_killed_agent_disposes_nothing, C06_violated_if_agent_killed); if the agent survives, a registration still in its mailbox when the stream ends means that nothing is disposed (C06_pending_disposes_nothing, C06_violated_if_agent_survives); a dispose_async that raises stops the rest (C06_raise_stops, C06_violated_raise). Partial: the agent survives and had taken all registrations"
  },
  {
   "property": "C07",
   "status": "proved",
   "theorems": [
    "Aio.C07_schedule_independent",
    "Aio.C07_same_result",
    "Aio.C07_terminates",
    "Aio.C07_can_finish",
    "Aio.C07_compose",
    "Aio.C07_suspending"
   ],
   "note": "all chains built from the modelled single-source operators, arbitrary schedules of all their workers; C07_suspending: also when every post and every call may suspend"
  },
  {
   "property": "C08",
   "status": "proved",
   "theorems": [
    "Aio.Subject.C08_broadcast",
    "Aio.Subject.C08_progress",
    "Aio.Subject.C08_dropped"
   ],
   "note": "AsyncMultiSubject as a transition system: any number of overlapping calls, subscriptions and disposals in the middle of a broadcast, observers that suspend or raise. Deliveries of each call = the subscriptions at the moment of the call, in order, up to one that raises; all if the call returned."
  },
  {
   "property": "C09",
   "status": "proved",
   "theorems": [
    "Aio.Subject.C09_nothing_later",
    "Aio.Subject.C09_one_call",
    "Aio.Subject.C09_one_terminal"
   ],
   "note": "Calls made after a terminal call (even while it is in progress) deliver nothing; all terminals that observers get are from one call; an observer subscribed once gets at most one. A broadcast of a value that began earlier does go on (example `overlapping`)."
  },
  {
   "property": "C10",
   "status": "proved",
   "theorems": [
    "Aio.Subject.C10_call",
    "Aio.Subject.C10_subscribe"
   ],
   "note": "All calls and subscribe_async, for all histories."
  },
  {
   "property": "C11",
   "status": "partial",
   "theorems": [
    "Aio.Subject.C11_removes_partial",
    "Aio.Subject.C11_never_again_partial",
    "Aio.Subject.C11_remaining_partial",
    "Aio.Subject.C11_violated",
    "Aio.Subject.C11_violated_unguarded"
   ],
   "note": "False when one observer object is subscribed twice: list.remove removes the first equal observer (C11_violated, order of the remaining deliveries changes). Proved for observer objects subscribed once; for all histories the right observers remain up to order (C11_remaining_partial, assuming that a disposable runs its action once)."
  },
  {
   "property": "C12",
   "status": "proved",
   "theorems": [
    "Aio.Single.C12_held",
    "Aio.Single.C12_in_order",
    "Aio.Single.C12_progress",
    "Aio.Single.C12_all"
   ],
   "note": "For all schedules: nothing before an observer, early events in order and each at most once, all of them once every woken sender has run. A sender that comes right after the subscription can overtake the early ones (example `cold`)."
  },
  {
   "property": "C13",
   "status": "partial",
   "theorems": [
    "Aio.Single.C13_violated",
    "Aio.Single.C13_violated_raise",
    "Aio.Single.C13_after_return_partial"
   ],
   "note": "False: is_stopped is set only after the observer's terminal method has returned (C13_violated), and never if it raises (C13_violated_raise). Proved: after that call has returned, nothing reaches any observer."
  },
  {
   "property": "C14",
   "status": "partial",
   "theorems": [
    "Aio.Single.C14_asend_partial",
    "Aio.Single.C14_subscribe_partial",
    "Aio.Single.C14_silent_partial",
    "Aio.Single.C14_violated",
    "Aio.Single.C14_violated_stuck"
   ],
   "note": "False for athrow and aclose: they spin for ever in `while self._observer is None: await self._wait` if there was an observer (C14_violated, the whole event loop hangs) and wait for ever if there was none (C14_violated_stuck). Proved for asend and subscribe_async, and that nothing is delivered."
  },
  {
   "property": "C15",
   "status": "proved",
   "theorems": [
    "Aio.Awaitable.C15_last_value",
    "Aio.Awaitable.C15_no_value",
    "Aio.Awaitable.C15_error",
    "Aio.Awaitable.C15_disposed",
    "Aio.Awaitable.C15_open",
    "Aio.Awaitable.C15_exhaustive",
    "Aio.Awaitable.C15_ignored",
    "Aio.Awaitable.C15_callback"
   ],
   "note": "Five theorems, one per form of history, and a theorem that the forms are exhaustive (histories in which nobody cancels the future). A disposed observer's future never resolves, so awaiting it hangs."
  },
  {
   "property": "C16",
   "status": "proved",
   "theorems": [
    "Aio.RunUntil.C16_disposes",
    "Aio.RunUntil.C16_returns",
    "Aio.RunUntil.C16_raises",
    "Aio.RunUntil.C16_goes_on",
    "Aio.RunUntil.C16_can_go_on",
    "Aio.RunUntil.C16_gives_up"
   ],
   "note": "run() as a transition system over the observer's model: returns/raises exactly the outcome of the source, disposes exactly once on every way out (value, error, timeout, cancellation). When it is over after a timeout the observer's future is cancelled; a source that then still calls aclose gets an InvalidStateError (example)."
  },
  {
   "property": "C17",
   "status": "proved",
   "theorems": [
    "Aio.Iterator.C17_yields_what_was_handed_over",
    "Aio.Iterator.C17_nth",
    "Aio.Iterator.C17_no_invalid_state",
    "Aio.Iterator.C17_real_time_order",
    "Aio.Iterator.C17_sequential"
   ],
   "note": "every schedule of any number of producers and one consumer; also: calls that do not overlap are handed over in the order of the calls"
  },
  {
   "property": "C18",
   "status": "proved",
   "theorems": [
    "Aio.Iterator.C18_at_most_one_waiting",
    "Aio.Iterator.C18_returns_after_taken"
   ],
   "note": "same transition system"
  },
  {
   "property": "C19",
   "status": "partial",
   "theorems": [
    "Aio.Iterator.C19_violated_lost_wakeup",
    "Aio.Iterator.C19_violated_close",
    "Aio.Iterator.C19_ends_partial",
    "Aio.Iterator.C19_sequential_partial",
    "Aio.Iterator.C19_next_call_wakes_partial"
   ],
   "note": "false twice: a lost wake-up leaves consumer and producer waiting for each other (C19_violated_lost_wakeup), and aclose/athrow never return (C19_violated_close, for all runs). Partial: iteration ends with the stream; no deadlock for producers whose calls do not overlap; after a lost wake-up the next call of any producer wakes the consumer"
  },
  {
   "property": "C20",
   "status": "partial",
   "theorems": [
    "Aio.C20_violated_raising",
    "Aio.C20_from_iterable_partial",
    "Aio.C20_raising_exact"
   ],
   "note": "false for an iterable that raises (C20_violated_raising). Partial: iterables that end; C20_raising_exact gives the behaviour for raising ones"
  },
  {
   "property": "C21",
   "status": "proved",
   "theorems": [
    "Aio.C21_fail",
    "Aio.C21_single",
    "Aio.C21_never",
    "Aio.C21_empty",
    "Aio.C21_empty_recorded"
   ],
   "note": "all schedules; empty() calls the observer directly"
  },
  {
   "property": "C22",
   "status": "partial",
   "theorems": [
    "Aio.C22_violated_dispose",
    "Aio.C22_of_async_partial",
    "Aio.C22_not_before",
    "Aio.C22_dispose_early",
    "Aio.C22_ends"
   ],
   "note": "false after disposal: the subscriber of a cancelled workflow gets completion (C22_violated_dispose). Partial: value then completion, or exactly the exception"
  },
  {
   "property": "C23",
   "status": "partial",
   "theorems": [
    "Aio.OfAsyncIterable.C23_violated_raising",
    "Aio.OfAsyncIterable.C23_in_order_partial",
    "Aio.OfAsyncIterable.C23_completes",
    "Aio.OfAsyncIterable.C23_observer_raises",
    "Aio.OfAsyncIterable.C23_nothing_after_dead",
    "Aio.OfAsyncIterable.C23_dispose_early",
    "Aio.OfAsyncIterable.C23_dispose_stops"
   ],
   "note": "false when the async iterable raises (C23_violated_raising). Partial: everything else"
  },
  {
   "property": "C24",
   "status": "proved",
   "theorems": [
    "Aio.Defer.C24_defer"
   ],
   "note": "any number of subscriptions, any factory"
  },
  {
   "property": "C25",
   "status": "proved",
   "theorems": [
    "Aio.Interval.C25_consecutive",
    "Aio.Interval.C25_never_early",
    "Aio.Interval.C25_timer",
    "Aio.Interval.C25_no_terminal",
    "Aio.Interval.C25_dispose",
    "Aio.Interval.C25_exact",
    "Aio.Interval.C25_on_schedule",
    "Aio.Interval.C25_raise_stops",
    "Aio.Interval.C25_dispose_ends",
    "Aio.Interval.C25_goes_on"
   ],
   "note": "discrete time in arbitrarily small ticks; all schedules, prompt schedules for the exact times"
  },
  {
   "property": "C26",
   "status": "partial",
   "theorems": [
    "Aio.C26_violated",
    "Aio.C26_dispose_early_partial"
   ],
   "note": "false once the worker ran (C26_violated). Partial: disposal before the worker task first runs"
  },
  {
   "property": "C27",
   "status": "proved",
   "theorems": [
    "Aio.C27_map",
    "Aio.C27_map_async",
    "Aio.C27_starmap",
    "Aio.C27_starmap_async"
   ],
   "note": "behind a safe_observer and behind a direct source; all schedules"
  },
  {
   "property": "C28",
   "status": "partial",
   "theorems": [
    "Aio.C28_violated_direct_source",
    "Aio.C28_direct_exact",
    "Aio.C28_map_partial",
    "Aio.C28_choose_partial",
    "Aio.C28_filter_partial"
   ],
   "note": "false for a source that calls the operator directly (C28_violated_direct_source; C28_direct_exact: for every input the observer never hears of the exception, the element just vanishes). Partial: behind a safe_observer, exceptions other than CancelledError (see C91)"
  },
  {
   "property": "C29",
   "status": "proved",
   "theorems": [
    "Aio.C29_mapi",
    "Aio.C29_mapi_async",
    "Aio.C29_filteri",
    "Aio.C85_flat_mapi",
    "Aio.C85_flat_mapi_async"
   ],
   "note": "flat_mapi is covered by the mapi theorems plus merge_inner"
  },
  {
   "property": "C30",
   "status": "proved",
   "theorems": [
    "Aio.C30_filter",
    "Aio.C30_filter_async",
    "Aio.C30_starfilter",
    "Aio.C30_choose",
    "Aio.C30_choose_async"
   ],
   "note": "all variants"
  },
  {
   "property": "C31",
   "status": "proved",
   "theorems": [
    "Aio.C31_scan"
   ],
   "note": "accumulators that do not raise"
  },
  {
   "property": "C32",
   "status": "partial",
   "theorems": [
    "Aio.C32_violated",
    "Aio.C32_until_error_partial",
    "Aio.C32_guarded_partial",
    "Aio.C32_take_partial"
   ],
   "note": "false: scan tells the observer but does not stop (C32_violated). Partial: up to the error, and in front of an operator with a safe_observer of its own"
  },
  {
   "property": "C33",
   "status": "partial",
   "theorems": [
    "Aio.ScanRace.C33_violated",
    "Aio.ScanRace.C33_sync_partial",
    "Aio.ScanRace.C33_overwritten",
    "Aio.ScanRace.C33_serial_partial",
    "Aio.ScanRace.C33_every_schedule"
   ],
   "note": "false for overlapping asend calls with an async accumulator (C33_violated). Partial: calls that do not overlap, also with an accumulator that raises; what is true of every schedule is C33_every_schedule"
  },
  {
   "property": "C34",
   "status": "partial",
   "theorems": [
    "Aio.C34_violated_empty",
    "Aio.C34_reduce_partial",
    "Aio.C34_reduce_exact"
   ],
   "note": "false for an empty source (nothing but completion is delivered, no seed). Partial: non-empty sources; C34_reduce_exact gives the behaviour for all"
  },
  {
   "property": "C35",
   "status": "proved",
   "theorems": [
    "Aio.Merge.C35_forwards"
   ],
   "note": "all schedules of source, inner observables, worker and safe observer; source and inners follow the Rx grammar; max_concurrent >= 0"
  },
  {
   "property": "C36",
   "status": "proved",
   "theorems": [
    "Aio.Merge.C36_bound"
   ],
   "note": "inners follow the Rx grammar"
  },
  {
   "property": "C37",
   "status": "proved",
   "theorems": [
    "Aio.Merge.C37_order",
    "Aio.Merge.C37_prompt",
    "Aio.Merge.C37_worker_terminates",
    "Aio.Merge.C37_worker_progress"
   ],
   "note": "order for every execution; promptness when no subscribe/dispose raises; the worker always catches up"
  },
  {
   "property": "C38",
   "status": "proved",
   "theorems": [
    "Aio.Merge.C38_only_when_done",
    "Aio.Merge.C38_when_done",
    "Aio.Merge.C38_negative"
   ],
   "note": "max_concurrent >= 0; C38_negative shows the failure for -1"
  },
  {
   "property": "C39",
   "status": "partial",
   "theorems": [
    "Aio.Merge.C39_error_ends",
    "Aio.Merge.C39_source_error_partial",
    "Aio.Merge.C39_violated"
   ],
   "note": "false for an error of an inner observable: its siblings stay subscribed (C39_violated). Partial: error of the source; the error always ends the output (C39_error_ends)"
  },
  {
   "property": "C40",
   "status": "proved",
   "theorems": [
    "Aio.Merge.C40_concat"
   ],
   "note": "also for inner streams that fail or never end"
  },
  {
   "property": "C41",
   "status": "proved",
   "theorems": [
    "Aio.Switch.C41_latest",
    "Aio.Switch.C41_older_disposed",
    "Aio.Switch.C41_older_gone",
    "Aio.Switch.C41_order",
    "Aio.Switch.C41_forwards",
    "Aio.Switch.C41_stale"
   ],
   "note": "inner observables that honour disposal (C41_stale shows what happens otherwise: no id check); source and inners follow the Rx grammar"
  },
  {
   "property": "C42",
   "status": "partial",
   "theorems": [
    "Aio.Switch.C42_violated",
    "Aio.Switch.C42_never",
    "Aio.Switch.C42_not_before_partial",
    "Aio.Switch.C42_empty_partial"
   ],
   "note": "false: the output never completes once the source has sent an inner observable (C42_violated, C42_never). Partial: never prematurely; an empty source completes"
  },
  {
   "property": "C43",
   "status": "partial",
   "theorems": [
    "Aio.Catch.C43_stream",
    "Aio.Catch.C43_no_error",
    "Aio.Catch.C43_sources",
    "Aio.Catch.C43_continues",
    "Aio.Catch.C43_disposed_first_partial",
    "Aio.Catch.C43_violated"
   ],
   "note": "the stream, the sources and the absence of errors for all executions; disposal first is false if a source fails before its subscribe_async has returned (C43_violated), partial otherwise"
  },
  {
   "property": "C44",
   "status": "partial",
   "theorems": [
    "Aio.Catch.C44_violated_count",
    "Aio.Catch.C44_violated_error",
    "Aio.Catch.C44_spins",
    "Aio.Catch.C44_violated_shared",
    "Aio.Catch.C44_once_partial"
   ],
   "note": "false: at most one retry for any n (C44_violated_count), the error is never delivered, fail() is resubscribed without end (C44_violated_error, C44_spins), the count is shared (C44_violated_shared). Partial: the first retry"
  },
  {
   "property": "C45",
   "status": "proved",
   "theorems": [
    "Aio.C45_skip",
    "Aio.C45_skip_any_source"
   ],
   "note": "all call sequences, all schedules, all n (n <= 0 skips nothing)"
  },
  {
   "property": "C46",
   "status": "partial",
   "theorems": [
    "Aio.C46_violated_none",
    "Aio.C46_skip_last_partial",
    "Aio.C46_skip_last_exact"
   ],
   "note": "false when the source emits None (C46_violated_none). Partial: sources without None; exact law for all sources also proved"
  },
  {
   "property": "C47",
   "status": "proved",
   "theorems": [
    "Aio.C47_take",
    "Aio.C47_take_negative",
    "Aio.C47_take_completes"
   ],
   "note": "all n, including rejection of negative n; take(0) completes with the source"
  },
  {
   "property": "C48",
   "status": "proved",
   "theorems": [
    "Aio.C48_take_last"
   ],
   "note": "all n"
  },
  {
   "property": "C49",
   "status": "proved",
   "theorems": [
    "Aio.C49_take_until"
   ],
   "note": "in front of an arbitrary downstream operator; the completion of other is ignored"
  },
  {
   "property": "C50",
   "status": "proved",
   "theorems": [
    "Aio.C50_distinct"
   ],
   "note": "arbitrary equality function"
  },
  {
   "property": "C51",
   "status": "partial",
   "theorems": [
    "Aio.C51_violated_stop_zero",
    "Aio.C51_violated_reversed",
    "Aio.C51_violated_mixed_signs",
    "Aio.C51_violated_none",
    "Aio.C51_slice_partial",
    "Aio.C51_slice_no_neg_stop_partial",
    "Aio.C51_rejected"
   ],
   "note": "false for stop=0, 0<stop<start, negative start with positive stop, None values; witnesses for each. Partial: all other slices, all step sizes"
  },
  {
   "property": "C52",
   "status": "partial",
   "theorems": [
    "Aio.C52_violated_none",
    "Aio.C52_index_partial"
   ],
   "note": "false for negative indices on sources with None. Partial: everything else"
  },
  {
   "property": "C53",
   "status": "proved",
   "theorems": [
    "Aio.C53_combine_latest"
   ],
   "note": "in front of an arbitrary downstream operator"
  },
  {
   "property": "C54",
   "status": "proved",
   "theorems": [
    "Aio.C54_with_latest_from"
   ],
   "note": "in front of an arbitrary downstream operator"
  },
  {
   "property": "C55",
   "status": "proved",
   "theorems": [
    "Aio.C55_zip_finite",
    "Aio.C55_zip_infinite",
    "Aio.C55_zip_raising"
   ],
   "note": "finite, infinite and raising sequences"
  },
  {
   "property": "C56",
   "status": "partial",
   "theorems": [
    "Aio.C56_exact",
    "Aio.C56_violated_twice",
    "Aio.C56_violated_lost",
    "Aio.C56_sublist_partial"
   ],
   "note": "false: sample forwards every source value after the first tick (C56_exact, C56_violated_twice, C56_violated_lost). Partial: what is emitted is an ordered subsequence of the source"
  },
  {
   "property": "C57",
   "status": "proved",
   "theorems": [
    "Aio.Delay.C57_order",
    "Aio.Delay.C57_never_early",
    "Aio.Delay.C57_each_once",
    "Aio.Delay.C57_quiescent"
   ],
   "note": "two clocks are modelled (datetime.now for the due times, loop time for the sleeps); never-early assumes that they run alike; order and each-once for every schedule, the latter as: from every state the worker can deliver everything that has arrived (no disposal, observer does not raise)"
  },
  {
   "property": "C58",
   "status": "proved",
   "theorems": [
    "Aio.Delay.C58_exact",
    "Aio.Delay.C58_none_overdue"
   ],
   "note": "a prompt loop: time passes only when every task waits and the observer calls have returned"
  },
  {
   "property": "C59",
   "status": "partial",
   "theorems": [
    "Aio.Delay.C59_isolated_partial",
    "Aio.Delay.C59_violated_others",
    "Aio.Delay.C59_violated_later",
    "Aio.Delay.C59_violated"
   ],
   "note": "false: the token is made per operator application (C59_violated, and for all histories C59_violated_others, C59_violated_later). Partial: isolation without disposals"
  },
  {
   "property": "C60",
   "status": "proved",
   "theorems": [
    "Aio.Debounce.C60_quiet",
    "Aio.Debounce.C60_exact"
   ],
   "note": "all schedules: only values with a quiet period, never early, in order, at most once; prompt loop: exactly then, exactly s later. An event exactly s after the value may come before or after its timer, so the two directions differ in that one instant"
  },
  {
   "property": "C61",
   "status": "partial",
   "theorems": [
    "Aio.Debounce.C61_violated_always",
    "Aio.Debounce.C61_violated",
    "Aio.Debounce.C61_bounded_partial"
   ],
   "note": "false: the disposal itself sends a completion to the observer (C61_violated_always, for all histories). Partial: nothing but what was in the mailbox and that completion"
  },
  {
   "property": "C62",
   "status": "proved",
   "theorems": [
    "Aio.Hub.C62_nothing_new",
    "Aio.Hub.C62_exactly"
   ],
   "note": "Full for chains of the modelled single-source operators (Pipeline.Chain): C62_nothing_new for all schedules, overlapping calls and raising observers, C62_exactly for non-overlapping calls. A chain with catch is refuted under C70 (its disposable goes stale), delay and debounce are C59 and C61."
  },
  {
   "property": "C63",
   "status": "proved",
   "theorems": [
    "Aio.VirtualTime.C63_clock_monotone",
    "Aio.VirtualTime.C63_advances_to_next_timer",
    "Aio.VirtualTime.C63_exact_time",
    "Aio.VirtualTime.C63_due_order",
    "Aio.VirtualTime.C63_fifo",
    "Aio.VirtualTime.C63_at_most_once",
    "Aio.VirtualTime.C63_cancelled_never_run",
    "Aio.VirtualTime.C63_nothing_lost",
    "Aio.VirtualTime.C63_progress"
   ],
   "note": "for any heap obeying the laws of heapq, and CPython heapq itself is modelled and proved to obey them; all schedules of call_soon/call_at/cancel from callbacks"
  },
  {
   "property": "C64",
   "status": "partial",
   "theorems": [
    "Aio.TestObserver.C64_values_partial",
    "Aio.TestObserver.C64_times_in_order_partial",
    "Aio.TestObserver.C64_violated_twice",
    "Aio.TestObserver.C64_callbacks_partial",
    "Aio.TestObserver.C64_stopped_partial"
   ],
   "note": "the callback part is false: every callback runs twice (C64_violated_twice). Partial: values lists every call with its time, for all schedules; one or two callbacks per call; exactly one once the observer is stopped"
  },
  {
   "property": "C65",
   "status": "partial",
   "theorems": [
    "Aio.ToObservable.C65_forwards_partial",
    "Aio.ToObservable.C65_disposes_partial",
    "Aio.ToObservable.C65_violated_early_dispose"
   ],
   "note": "the disposal part is false before the subscription has been made (C65_violated_early_dispose, all continuations). Partial: forwarding; disposal iff the first dispose() came after the subscription"
  },
  {
   "property": "C66",
   "status": "proved",
   "theorems": [
    "Aio.C66_equality",
    "Aio.C66_equivalence",
    "Aio.C66_equivalence_only_if"
   ],
   "note": "payload equality is a parameter"
  },
  {
   "property": "C67",
   "status": "proved",
   "theorems": [
    "Aio.Hub.C67_own_run",
    "Aio.Hub.C67_hears",
    "Aio.Hub.C67_as_if_alone"
   ],
   "note": "Full for chains of the modelled single-source operators. The operators that do share state between subscriptions are refuted elsewhere: retry (C44_violated_shared), delay (C59_violated), zip_seq over an iterator object (C79_violated)."
  },
  {
   "property": "C68",
   "status": "proved",
   "theorems": [
    "Aio.Merge.C68_dispose_releases"
   ],
   "note": "inners follow the Rx grammar, no subscribe/dispose of an inner raises"
  },
  {
   "property": "C69",
   "status": "partial",
   "theorems": [
    "Aio.Switch.C69_dispose_partial",
    "Aio.Switch.C69_violated",
    "Aio.Switch.C69_completes_after_dispose",
    "Aio.Switch.C69_violated_late"
   ],
   "note": "false when the source fails: the current inner stays subscribed (C69_violated). Partial: disposal; and for sources that go on sending after their disposal (C69_violated_late)"
  },
  {
   "property": "C70",
   "status": "partial",
   "theorems": [
    "Aio.C70_subjects_partial",
    "Aio.C70_subjects_violated",
    "Aio.Catch.C70_violated",
    "Aio.Catch.C70_partial"
   ],
   "note": "false after the first failure: the returned disposable is bound to the first subscription (C70_violated). Partial: before any failure. Over subjects, for all call sequences: C70_subjects_partial, C70_subjects_violated"
  },
  {
   "property": "C71",
   "status": "partial",
   "theorems": [
    "Aio.Single.C71_violated",
    "Aio.Single.C71_all_lost",
    "Aio.Single.C71_woken_partial"
   ],
   "note": "False: awaiting the shared future directly means that cancelling one waiting sender cancels it for all (C71_violated, C71_all_lost). True for senders that were woken already."
  },
  {
   "property": "C72",
   "status": "partial",
   "theorems": [
    "Aio.RunUntil.C72_violated",
    "Aio.RunUntil.C72_no_value_partial"
   ],
   "note": "False: AsyncAwaitableObserver.aclose cancels the future, so run raises CancelledError, in every schedule (C72_violated)."
  },
  {
   "property": "C73",
   "status": "partial",
   "theorems": [
    "Aio.ToObservable.C73_violated",
    "Aio.ToObservable.C73_partial",
    "Aio.ToObservable.C73_task_kept_partial"
   ],
   "note": "false: every successful subscription makes the done callback raise KeyError (C73_violated). Partial: at most one, none if subscribing fails; the task is kept while it runs"
  },
  {
   "property": "C74",
   "status": "proved",
   "theorems": [
    "Aio.C74_round_trip",
    "Aio.C74_dispatch"
   ],
   "note": "all notifications"
  },
  {
   "property": "C75",
   "status": "partial",
   "theorems": [
    "Aio.TestSubject.C75_at_partial",
    "Aio.TestSubject.C75_exactly_when_partial",
    "Aio.TestSubject.C75_later_partial",
    "Aio.TestSubject.C75_nothing_lost_partial",
    "Aio.TestSubject.C75_order_partial",
    "Aio.TestSubject.C75_held_partial",
    "Aio.TestSubject.C75_released_partial",
    "Aio.TestSubject.C75_violated",
    "Aio.TestSubject.C75_violated_raise"
   ],
   "note": "the times are exact for every schedule on the virtual time loop (any heap obeying the laws of heapq); keeping no finished tasks is false: aclose_at lacks nonlocal task (C75_violated), and a task that raised is kept by every method (C75_violated_raise)"
  },
  {
   "property": "C76",
   "status": "partial",
   "theorems": [
    "Aio.VirtualTime.C76_violated",
    "Aio.VirtualTime.C76_same_time_partial"
   ],
   "note": "false with CPython heapq (C76_violated: four timers). Partial: they run at the same time; call_soon callbacks do keep their order (C63_fifo)"
  },
  {
   "property": "C77",
   "status": "partial",
   "theorems": [
    "Aio.Delay.C77_violated_all",
    "Aio.Delay.C77_violated",
    "Aio.Delay.C77_first_not_early_partial"
   ],
   "note": "false: due times come from the wall clock, so under virtual time the delays add up (C77_violated_all). Partial: order, first notification"
  },
  {
   "property": "C78",
   "status": "partial",
   "theorems": [
    "Aio.Debounce.C78_violated",
    "Aio.Debounce.C78_followed_partial"
   ],
   "note": "false: a value followed by the completion is lost (C78_violated, all schedules). Partial: lost values were followed by some event"
  },
  {
   "property": "C79",
   "status": "partial",
   "theorems": [
    "Aio.SeqIter.C79_container_partial",
    "Aio.SeqIter.C79_violated",
    "Aio.SeqIter.C79_violated_empty"
   ],
   "note": "Holds for containers (C79_container_partial). False for iterator objects (C79_violated, C79_violated_empty): iter(it) is it, so the subscriptions share the position."
  },
  {
   "property": "C80",
   "status": "partial",
   "theorems": [
    "Aio.Iterate.C80_violated",
    "Aio.Iterate.C80_violated_empty",
    "Aio.Iterate.C80_partial"
   ],
   "note": "false: for every source that makes at least one call within subscribe_async the first __anext__ never returns, in every schedule (C80_violated); async for over empty() deadlocks (C80_violated_empty). Partial: a source that calls nobody within subscribe_async can be iterated as under C17-C19"
  },
  {
   "property": "C81",
   "status": "partial",
   "theorems": [
    "Aio.Iterator.C81_violated",
    "Aio.Iterator.C81_last_taken_partial"
   ],
   "note": "false: once the consumer is outside __anext__ and does not come back, no later call returns, in every schedule (C81_violated). Partial: the call whose event was the last one taken does return"
  },
  {
   "property": "C82",
   "status": "partial",
   "theorems": [
    "Aio.SharedAwait.C82_future_partial",
    "Aio.SharedAwait.C82_future_progress",
    "Aio.SharedAwait.C82_violated",
    "Aio.SharedAwait.C82_violated_dispose"
   ],
   "note": "false for a coroutine object: of any two subscriptions that delivered something one delivered RuntimeError (C82_violated); and disposing one waiting subscription cancels the workflow for the others, which complete without a value (C82_violated_dispose, assuming that the token cancels the task). Partial: futures and tasks without disposals"
  },
  {
   "property": "C83",
   "status": "partial",
   "theorems": [
    "Aio.C83_direct_partial",
    "Aio.C83_violated"
   ],
   "note": "false for every chain with a mailbox, i.e. with at least one filtering operator (C83_violated). Partial: chains of transform-style operators call straight through"
  },
  {
   "property": "C84",
   "status": "partial",
   "theorems": [
    "Aio.Safe.C84_violated",
    "Aio.Safe.C84_ended_partial",
    "Aio.C84_violated_source",
    "Aio.C84_violated_of_seq"
   ],
   "note": "false: the worker of a disposed safe_observer waits for ever unless a terminal event was posted (C84_violated, all continuations); same for every source of create.py and in particular of_seq (C84_violated_source, C84_violated_of_seq). Partial: a worker that has handled a terminal event has ended. Garbage collection of a task that nobody refers to is not modelled"
  },
  {
   "property": "C85",
   "status": "proved",
   "theorems": [
    "Aio.C85_flat_map",
    "Aio.C85_flat_map_async",
    "Aio.C85_flat_mapi",
    "Aio.C85_flat_mapi_async",
    "Aio.C85_flat_map_raising",
    "Aio.C85_flat_map_async_raising",
    "Aio.C85_flat_mapi_raising",
    "Aio.C85_merge"
   ],
   "note": "the front of the pipeline (map, or of_seq for merge) and merge_inner run side by side in one system, the hand-over being one call; the composed theorems follow from C27-C29, C20 and C35-C39. Raising mappers: behind sources protected by safe_observer (otherwise see C28). For merge: of_seq is not disposed and the observer does not raise"
  },
  {
   "property": "C86",
   "status": "proved",
   "theorems": [
    "Aio.C86_concat_map",
    "Aio.C86_concat_map_raising",
    "Aio.C86_concat_seq"
   ],
   "note": "a mapper that raises or a source that fails: C86_concat_map_raising (the same as for merge_inner(1), see C38, C40); in the other theorems they do not"
  },
  {
   "property": "C87",
   "status": "proved",
   "theorems": [
    "Aio.C87_flat_map_latest",
    "Aio.C87_flat_map_latest_async",
    "Aio.C87_flat_map_latest_raising"
   ],
   "note": "a mapper that raises: C87_flat_map_latest_raising. completion of switch_latest is refuted under C42; with the switch honouring disposal (a disposed inner observable makes no call) values come from the latest one only, without it the stale ones are possible (C41_violated_stale)"
  },
  {
   "property": "C88",
   "status": "partial",
   "theorems": [
    "Aio.Catch.C88_violated",
    "Aio.Catch.C88_partial"
   ],
   "note": "false: the exception goes to the caller of athrow, the subscriber is left without an end, for every history (C88_violated). Partial: as long as the handler does not raise every failed source has a successor"
  },
  {
   "property": "C89",
   "status": "proved",
   "theorems": [
    "Aio.C89_functions"
   ],
   "note": "functions that do not raise (for raising ones see C05); pipelines behind a source protected by safe_observer"
  },
  {
   "property": "C90",
   "status": "partial",
   "theorems": [
    "Aio.C90_law",
    "Aio.C90_violated",
    "Aio.C90_partial"
   ],
   "note": "false: the comparison is outside of the try, the exception ends the agent; the subscriber gets the elements up to there and never an end (C90_violated, all schedules; C90_law for every comparison). Partial: comparisons that do not raise"
  },
  {
   "property": "C91",
   "status": "partial",
   "theorems": [
    "Aio.C91_violated_map",
    "Aio.C91_violated_choose",
    "Aio.C91_violated_filter",
    "Aio.C91_partial",
    "Aio.C91_violated_scan"
   ],
   "note": "false: except Exception does not see CancelledError, the worker task ends and the subscriber gets the earlier results and then nothing, for map, filter, choose and scan, every input and schedule (C91_violated_*). Partial: every other exception is reported (C91_partial is an equivalence)"
  },
  {
   "property": "C92",
   "status": "partial",
   "theorems": [
    "Aio.Detach.C92_violated",
    "Aio.Detach.C92_violated_pending",
    "Aio.Detach.C92_partial",
    "Aio.Detach.C92_take_partial"
   ],
   "note": "false if cancelling a token cancels the agent task started with it: the subject holds the observer for ever and goes on calling it (C92_violated, every run); and false if the agent survives but the stream ends before the agent has taken the registration out of its mailbox (C92_violated_pending). Partial: the agent survives and was quick enough. Which of the two the package expression does is not in /repo; both are modelled (parameter kill)"
  },
  {
   "property": "C93",
   "status": "partial",
   "theorems": [
    "Aio.DetachTwo.C93_take_until_violated",
    "Aio.DetachTwo.C93_violated_killed",
    "Aio.DetachTwo.C93_violated_pending",
    "Aio.DetachTwo.C93_partial"
   ],
   "note": "false for take_until: the subscription to other does not pass through auto_detach, so other holds it until the user disposes (C93_take_until_violated, every run, whatever the agent does); false for all three if the agent is killed or the stream ends before it has taken both registrations. Partial: the registered sides when the agent survives and was quick"
  },
  {
   "property": "C94",
   "status": "partial",
   "theorems": [
    "Aio.SeqSource.C94_from_iterable_law",
    "Aio.SeqSource.C94_from_iterable_partial",
    "Aio.SeqSource.C94_from_iterable_violated",
    "Aio.SeqSource.C94_from_iterable_progress",
    "Aio.AsyncSource.C94_async_partial",
    "Aio.AsyncSource.C94_generator_law",
    "Aio.AsyncSource.C94_generator_violated",
    "Aio.AsyncSource.C94_generator_violated_silent",
    "Aio.AsyncSource.C94_generator_violated_dispose"
   ],
   "note": "exact law for from_iterable (C94_from_iterable_law): with an iterator the first worker gets everything, the others an empty stream (C94_from_iterable_violated). With an async generator the items are dealt out (C94_generator_law, C94_generator_violated), a subscription that asks while another waits never hears anything again (C94_generator_violated_silent), and disposing one that waits completes the others (C94_generator_violated_dispose). Partial: containers, with progress"
  },
  {
   "property": "C95",
   "status": "partial",
   "theorems": [
    "Aio.SeqSource.C95_partial",
    "Aio.SeqSource.C95_violated"
   ],
   "note": "false: the worker of of_seq never gives control back to the event loop, because posting does not wait (C95_violated: for every endless sequence, all continuations). Partial: finite sequences give control back after at most one turn per item and one more"
  },
  {
   "property": "C96",
   "status": "proved",
   "theorems": [
    "Aio.EndToEnd.C96_result",
    "Aio.EndToEnd.C96_can_finish",
    "Aio.EndToEnd.C96_terminates",
    "Aio.EndToEnd.C96_list",
    "Aio.EndToEnd.C96_fail",
    "Aio.EndToEnd.C96_raising_iterable",
    "Aio.EndToEnd.C96_raising_function"
   ],
   "note": "C96_result, C96_can_finish, C96_terminates for every one-segment source, C96_list for from_iterable, C96_fail, C96_raising_function. If the result has no value, run raises CancelledError (C72). An iterable that raises leaves run waiting unless the pipeline ends by itself (C96_raising_iterable)"
  },
  {
   "property": "C97",
   "status": "proved",
   "theorems": [
    "Aio.AsyncFor.C97_yields",
    "Aio.AsyncFor.C97_no_deadlock",
    "Aio.AsyncFor.C97_terminates",
    "Aio.AsyncFor.C97_answers",
    "Aio.AsyncFor.C97_list",
    "Aio.AsyncFor.C97_raising_function"
   ],
   "note": "C97_yields (safety, any chain, any posts), C97_no_deadlock and C97_terminates (liveness), C97_answers (the k-th __anext__ gets the k-th result), C97_list, C97_raising_function. Sources that wait for their observer within subscribe_async are C80, releasing the source afterwards is C81 and C92"
  },
  {
   "property": "C98",
   "status": "partial",
   "theorems": [
    "Aio.Subject.C98_partial",
    "Aio.Subject.C98_violated"
   ],
   "note": "false when calls overlap (C98_violated: two tasks, a slow first subscriber; the second one gets the events in the opposite order). Partial: calls that do not overlap, all histories"
  },
  {
   "property": "C99",
   "status": "partial",
   "theorems": [
    "Aio.Subject.C99_partial",
    "Aio.Subject.C99_violated"
   ],
   "note": "false when calls overlap (C99_violated: the completion and then a value; two methods of one subscriber at once). Partial: calls that do not overlap and an observer subscribed once, all histories"
  },
  {
   "property": "C100",
   "status": "partial",
   "theorems": [
    "Aio.Subject.C100_violated",
    "Aio.Subject.C100_violated_witness",
    "Aio.Subject.C100_partial"
   ],
   "note": "false: C100_violated shows for all histories that the subscribers after the one that raises never get the event; C100_violated_witness. Partial: exactly the subscribers up to the one that raises get it, and all of them if nobody raises in this call"
  },
  {
   "property": "C101",
   "status": "proved",
   "theorems": [
    "Aio.C101_delivers",
    "Aio.C101_pipe",
    "Aio.C101_merge",
    "Aio.C101_concat",
    "Aio.C101_switch",
    "Aio.C101_flat_map",
    "Aio.C101_front"
   ],
   "note": "C101_delivers for any source; C101_pipe composes streams; C101_merge, C101_concat, C101_switch, C101_flat_map are the instances, C101_front allows nesting. That the source is disposed when an operator ends early is C06 and C92, not this one"
  },
  {
   "property": "C102",
   "status": "proved",
   "theorems": [
    "Aio.Running.C102_result",
    "Aio.Running.C102_can_finish",
    "Aio.Running.C102_run"
   ],
   "note": "C102_result and C102_can_finish for any source that does not take calls back; C102_run composes it with C101. Timeouts and cancellations are C15 and C16"
  },
  {
   "property": "C103",
   "status": "proved",
   "theorems": [
    "Aio.C103_operators",
    "Aio.C103_timer",
    "Aio.Interval.C103_take",
    "Aio.Interval.C103_run",
    "Aio.Interval.C103_in_time"
   ],
   "note": "C103_take, C103_run, C103_in_time; C103_operators and C103_timer for other operators. take(0) never completes (C47)"
  },
  {
   "property": "C104",
   "status": "partial",
   "theorems": [
    "Aio.Subscribing.C104_combine_violated",
    "Aio.Subscribing.C104_take_until_violated",
    "Aio.Subscribing.C104_no_disposable",
    "Aio.Subscribing.C104_partial"
   ],
   "note": "false: when the second subscription raises, the first one stays and nobody has its disposable (C104_combine_violated while the stream has not ended, C104_take_until_violated for ever, C104_no_disposable). Partial: the first subscription raises"
  },
  {
   "property": "C105",
   "status": "proved",
   "theorems": [
    "Aio.C105_map_map",
    "Aio.C105_map_map_raising",
    "Aio.C105_map_id",
    "Aio.C105_filter_filter",
    "Aio.C105_map_filter",
    "Aio.C105_filter_map",
    "Aio.C105_choose_choose",
    "Aio.C105_map_scan",
    "Aio.C105_map_mapi",
    "Aio.C105_map_skip",
    "Aio.C105_map_take",
    "Aio.C105_map_take_last",
    "Aio.C105_skip_skip",
    "Aio.C105_skip_none",
    "Aio.C105_take_take",
    "Aio.C105_skip_take",
    "Aio.C105_take_last_take_last",
    "Aio.C105_skip_last_skip_last",
    "Aio.C105_distinct_twice",
    "Aio.C105_take_zero_differs",
    "Aio.C105_skip_filter_differs"
   ],
   "note": "one theorem per law; C105_map_map_raising for functions that raise (behind a safe observer). Operator.Same.functions shows that the notion is strict; C105_take_zero_differs: the law of take fails for take(0), C105_skip_filter_differs"
  },
  {
   "property": "C106",
   "status": "proved",
   "theorems": [
    "Aio.C106_combine_latest",
    "Aio.C106_with_latest_from",
    "Aio.C106_take_until",
    "Aio.C106_delivers",
    "Aio.C106_sends",
    "Aio.C106_last_pair",
    "Aio.C106_pairs_of_values",
    "Aio.C106_from_then_on",
    "Aio.C106_until",
    "Aio.C106_combine_latest_at_rest",
    "Aio.C106_with_latest_from_at_rest",
    "Aio.C106_take_until_at_rest"
   ],
   "note": "C106_delivers for any two sources, C106_sends (the whole is a source again, so C101 and C102 apply), C106_combine_latest, C106_with_latest_from, C106_take_until with suspensions at every post; C106_last_pair, C106_pairs_of_values, C106_from_then_on, C106_until for any order of arrival; the ..._at_rest theorems put them together. Who is disposed when is C92 and C93"
  },
  {
   "property": "C107",
   "status": "proved",
   "theorems": [
    "Aio.Delay.C107_delay",
    "Aio.Delay.C107_exact",
    "Aio.Delay.C107_twice",
    "Aio.Interval.C107_interval",
    "Aio.Interval.C107_interval_exact"
   ],
   "note": "C107_delay and C107_exact for any source (any number of stages, through Clocked.through_lawful), C107_twice, C107_interval, C107_interval_exact"
  },
  {
   "property": "C108",
   "status": "proved",
   "theorems": [
    "Aio.Debounce.C108_debounce",
    "Aio.Debounce.C108_exact",
    "Aio.Interval.C108_interval_fast",
    "Aio.Interval.C108_interval_slow"
   ],
   "note": "C108_debounce and C108_exact for any source, C108_interval_fast, C108_interval_slow. For p = d the outcome depends on which of two tasks that are due at the same time runs first"
  },
  {
   "property": "C109",
   "status": "proved",
   "theorems": [
    "Aio.C109_operator",
    "Aio.C109_two",
    "Aio.C109_map",
    "Aio.Interval.C109_interval_take"
   ],
   "note": "C109_operator for any chain with Delivers (any Computes, C27 and so on) behind any lawful clocked source, C109_two for two sources, C109_map and C109_interval_take as instances"
  },
  {
   "property": "C110",
   "status": "proved",
   "theorems": [
    "Aio.C110_before",
    "Aio.C110_after",
    "Aio.Interval.C110_interval"
   ],
   "note": "C110_before, C110_after for any source, C110_interval. Events at exactly t may come before or after the timer, which the loop decides"
  },
  {
   "property": "C111",
   "status": "proved",
   "theorems": [
    "Aio.C111_with_latest_from",
    "Aio.C111_with_latest_from_all",
    "Aio.C111_combine_latest",
    "Aio.C111_combine_latest_all"
   ],
   "note": "C111_with_latest_from and _all, C111_combine_latest and _all, any two lawful clocked sources. Of values sent at the same time as the pair nothing is said about which is newer"
  },
  {
   "property": "C112",
   "status": "proved",
   "theorems": [
    "Aio.Nested.C112_subscribed",
    "Aio.Nested.C112_completed",
    "Aio.Nested.C112_arrive",
    "Aio.Nested.C112_last",
    "Aio.Nested.C112_observed",
    "Aio.Nested.C112_intervals",
    "Aio.Nested.C112_intervals_exact"
   ],
   "note": "C112_subscribed (max_concurrent=0), C112_arrive, C112_last and C112_completed (any max_concurrent), C112_observed carries them to the final observer behind any operators, C112_intervals as an instance"
  },
  {
   "property": "C113",
   "status": "proved",
   "theorems": [
    "Aio.Nested.C113_subscribed",
    "Aio.Nested.C113_in_order",
    "Aio.Nested.C113_timers",
    "Aio.Nested.C113_timers_observed"
   ],
   "note": "C113_subscribed, C113_in_order, C113_timers as an instance, C113_timers_observed for its final observer"
  },
  {
   "property": "C114",
   "status": "proved",
   "theorems": [
    "Aio.Nested.C114_in_order",
    "Aio.Nested.C114_subscribed",
    "Aio.Nested.C114_intervals",
    "Aio.Nested.C114_intervals_exact"
   ],
   "note": "C114_subscribed, C114_in_order, C114_intervals as an instance (of values at exactly the time of the next subscription nothing is said, the loop decides). That a disposed inner observable makes no calls is a hypothesis, see C06"
  },
  {
   "property": "C115",
   "status": "proved",
   "theorems": [
    "Aio.Caught.C115_in_order",
    "Aio.Caught.C115_handled",
    "Aio.Caught.C115_continues",
    "Aio.Caught.C115_delayed",
    "Aio.Caught.C115_fallback"
   ],
   "note": "C115_in_order and C115_handled for any sources and schedules (exact moment for prompt ones), C115_continues: no failed source is left without a successor, C115_fallback as an instance, C115_delayed: other stages can stand behind it"
  },
  {
   "property": "C116",
   "status": "proved",
   "theorems": [
    "Aio.Sampled.C116_sample"
   ],
   "note": "C116_sample. Of a value sent exactly s after the subscription nothing is said, the loop decides whether the tick comes first"
  },
  {
   "property": "C117",
   "status": "proved",
   "theorems": [
    "Aio.Hosted.C117_calm",
    "Aio.Hosted.C117_schedule",
    "Aio.Hosted.C117_progress",
    "Aio.Hosted.C117_rest",
    "Aio.Interval.C117_interval",
    "Aio.Interval.C117_timer",
    "Aio.Interval.C117_timer_ends",
    "Aio.Debounce.C117_debounce",
    "Aio.Interval.C117_interval_debounce",
    "Aio.C117_operator",
    "Aio.C117_two",
    "Aio.Interval.C117_interval_take",
    "Aio.Interval.C117_take_until"
   ],
   "note": "C117_calm, C117_schedule (a run on the loop contains a prompt schedule of the pipeline alone), C117_progress, C117_rest; then C117_interval, C117_timer, C117_debounce, C117_interval_debounce, C117_operator, C117_two, C117_interval_take, C117_take_until with the theorems of C25, C60 and C107 to C110, whose assumption of a loop that is not overloaded is here proved. Not for delay, which reads the wall clock (C77); tasks that are cancelled in their sleep are woken at once"
  },
  {
   "property": "C118",
   "status": "proved",
   "theorems": [
    "Aio.Deadline.C118_never_early",
    "Aio.Deadline.C118_exact",
    "Aio.Deadline.C118_in_time",
    "Aio.Deadline.C118_timeout",
    "Aio.Interval.C118_timer",
    "Aio.Interval.C118_interval",
    "Aio.Interval.C118_interval_take"
   ],
   "note": "C118_never_early (any loop), C118_exact, C118_in_time, C118_timeout (prompt loop) for any lawful source; outcome_verdict ties the spec to that of C96; C118_timer, C118_interval, C118_interval_take. The source does not learn in this model that it has been disposed, so what it does after the end of run is not covered here (C16)"
  },
  {
   "property": "C119",
   "status": "proved",
   "theorems": [
    "Aio.C119_debounce",
    "Aio.C119_asked",
    "Aio.C119_searches",
    "Aio.C119_results",
    "Aio.C119_shown",
    "Aio.C119_readme"
   ],
   "note": "C119_debounce (any schedule), C119_asked, C119_searches, C119_results, C119_shown for any operators that clean and ask, C119_readme for the pipeline in the README over a subject. Sources that end are not covered: debounce loses a value that is pending when the source completes (C61)"
  },
  {
   "property": "C120",
   "status": "proved",
   "theorems": [
    "Aio.Shared.C120_heard",
    "Aio.Shared.C120_subscribed",
    "Aio.Shared.C120_follows",
    "Aio.Shared.C120_nothing_else",
    "Aio.Shared.C120_since"
   ],
   "note": "C120_heard (any schedule), C120_subscribed, C120_follows, C120_nothing_else; C120_since spells out what is sent after a subscription if nothing is sent at its very time. The mapping does not raise; the wall clock goes with the clock of the loop (see C77)"
  },
  {
   "property": "C121",
   "status": "proved",
   "theorems": [
    "Aio.Nested.C121_order",
    "Aio.Nested.C121_count",
    "Aio.Nested.C121_begun"
   ],
   "note": "C121_order (any schedule), C121_count, C121_begun. C113 is the case k = 1, C112 the case without a limit"
  },
  {
   "property": "C122",
   "status": "proved",
   "theorems": [
    "Aio.Jobs.C122_results",
    "Aio.Jobs.C122_parallel",
    "Aio.Jobs.C122_begun",
    "Aio.Jobs.C122_at_most",
    "Aio.Jobs.C122_no_idle_slot",
    "Aio.Jobs.C122_wait",
    "Aio.Jobs.C122_completed",
    "Aio.Jobs.C122_soonest",
    "Aio.Jobs.C122_latest"
   ],
   "note": "C122_results, C122_parallel, C122_begun, C122_at_most, C122_no_idle_slot, C122_completed, C122_wait, C122_soonest, C122_latest. A job is a coroutine whose work begins when it is awaited; in parallel.py the work begins already when the mapper is called, which with flat_map_async is the same time"
  },
  {
   "property": "C123",
   "status": "proved",
   "theorems": [
    "Aio.Busy.C123_exact",
    "Aio.Busy.C123_one_at_a_time",
    "Aio.Busy.C123_keeps_up",
    "Aio.Busy.C123_batch",
    "Aio.Busy.C123_falls_behind",
    "Aio.Interval.C123_interval_waits"
   ],
   "note": "C123_exact, C123_one_at_a_time, C123_keeps_up, C123_batch, C123_falls_behind, C123_interval_waits. In C25_exact the observer returns at once; C123_interval_waits is the general case. Whatever the last call takes has no effect"
  },
  {
   "property": "C124",
   "status": "proved",
   "theorems": [
    "Aio.Work.C124_exact",
    "Aio.Work.C124_same_work",
    "Aio.Work.C124_map_map",
    "Aio.Work.C124_order",
    "Aio.Work.C124_batch",
    "Aio.Work.C124_keeps_up",
    "Aio.Work.C124_falls_behind"
   ],
   "note": "C124_exact, C124_same_work, C124_map_map, C124_order, C124_batch, C124_keeps_up. Ops.work is the work of a chain as a function, by sequential composition (Spec.Queue.andThen). athrow and aclose of the observer at the end take no time; nothing follows them"
  },
  {
   "property": "C125",
   "status": "proved",
   "theorems": [
    "Aio.Loop.C125_exact",
    "Aio.Loop.C125_order",
    "Aio.Loop.C125_one_at_a_time",
    "Aio.Loop.C125_overlap",
    "Aio.Loop.C125_subscribed_instead",
    "Aio.Loop.C125_keeps_up"
   ],
   "note": "C125_exact, C125_order, C125_one_at_a_time, C125_overlap, C125_subscribed_instead, C125_keeps_up. subscribe_async is taken to return at once; a body that raises is a break"
  },
  {
   "property": "C126",
   "status": "proved",
   "theorems": [
    "Aio.C126_exact",
    "Aio.C126_interval"
   ],
   "note": "C126_exact for any source, C126_interval; the law that holds instead of C56, with times"
  },
  {
   "property": "C127",
   "status": "proved",
   "theorems": [
    "Aio.Work.C127_exact",
    "Aio.Work.C127_totals",
    "Aio.Work.C127_batch",
    "Aio.Work.C127_keeps_up"
   ],
   "note": "C127_exact, C127_totals, C127_batch, C127_keeps_up. The contrast to C33, where overlapping calls without safe_observer lose updates. C127_totals takes the accumulator to raise depending on the value only; C127_exact has no such hypothesis"
  },
  {
   "property": "C128",
   "status": "proved",
   "theorems": [
    "Aio.Work.C128_behind",
    "Aio.Work.C128_reduce_running",
    "Aio.Work.C128_reduce",
    "Aio.Work.C128_reduce_failed"
   ],
   "note": "C128_behind, C128_reduce_running, C128_reduce, C128_reduce_failed. The accumulator does not raise (if it does, scan goes on after athrow and the calls no longer follow the grammar, see C127 and C32)"
  },
  {
   "property": "C129",
   "status": "proved",
   "theorems": [
    "Aio.WorkInner.C129_subscribed",
    "Aio.WorkInner.C129_switched",
    "Aio.WorkInner.C129_jobs"
   ],
   "note": "C129_subscribed, C129_switched, C129_jobs (with finished_index for the closed form). On a loop that is not overloaded; behind a source that is protected by safe_observer"
  },
  {
   "property": "C130",
   "status": "proved",
   "theorems": [
    "Aio.Work.C130_chain",
    "Aio.Work.C130_scan",
    "Aio.Work.C130_behind",
    "Aio.Work.C130_reduce",
    "Aio.Interval.C130_interval",
    "Aio.Interval.C130_interval_slow"
   ],
   "note": "C130_chain, C130_scan, C130_behind, C130_reduce, C130_interval, C130_interval_slow (with C124_falls_behind for any loop that is not overloaded). What the functions await is a sleep; tasks are not cancelled"
  },
  {
   "property": "C131",
   "status": "proved",
   "theorems": [
    "Aio.Nested.C131_schedule",
    "Aio.Nested.C131_merge",
    "Aio.Nested.C131_concat",
    "Aio.Nested.C131_completed",
    "Aio.Nested.C131_observed",
    "Aio.Nested.C131_intervals",
    "Aio.Nested.C131_timers",
    "Aio.Nested.C131_parallel",
    "Aio.Nested.C131_slots"
   ],
   "note": "C131_schedule, C131_merge, C131_concat, C131_completed, C131_observed, C131_intervals, C131_timers, C131_parallel, C131_slots. The subscription is not disposed; what of_async awaits is a sleep; subscribing and disposing wait for nothing"
  },
  {
   "property": "C132",
   "status": "proved",
   "theorems": [
    "Aio.Nested.C132_schedule",
    "Aio.Nested.C132_subscribed",
    "Aio.Nested.C132_told",
    "Aio.Nested.C132_observed",
    "Aio.Nested.C132_intervals"
   ],
   "note": "C132_schedule, C132_subscribed, C132_told, C132_observed, C132_intervals. The subscription to switch_latest itself is not disposed; subscribing waits for nothing; of a tie, where a value is due exactly when the next observable is sent, both outcomes are allowed"
  },
  {
   "property": "C133",
   "status": "proved",
   "theorems": [
    "Aio.Nested.C133_cancelled",
    "Aio.Nested.C133_results",
    "Aio.Nested.C133_answers"
   ],
   "note": "C133_cancelled (also if workflows raise, with operators behind), C133_results (workflows that return). Workflows do not catch CancelledError; the subscription to switch_latest itself is not disposed. If a result is due exactly when the next value is sent, both outcomes are possible (examples)"
  },
  {
   "property": "C134",
   "status": "proved",
   "theorems": [
    "Aio.C134_asked",
    "Aio.C134_results",
    "Aio.C134_readme"
   ],
   "note": "C134_asked, C134_results, C134_readme: C119's laws without the assumption on the loop, composed with C133 (whose new C133_answers determines the results). Ties (a term typed exactly d after another, a result due exactly when the next search starts or exactly now) are excluded: there the behaviour depends on the order of callbacks. The subscription is not disposed, the subject only sends values"
  },
  {
   "property": "C135",
   "status": "proved",
   "theorems": [
    "Aio.C135_flat_map_async",
    "Aio.C135_search_box",
    "Aio.C135_autocomplete"
   ],
   "note": "C135_flat_map_async (any source; without dur > 0 the results as a multiset), C135_search_box, C135_autocomplete. single is modelled with its safe observer and that one's worker; distinct_until_changed up to its safe observer, whose worker awaits the search. Searches that raise are not covered here (C129). Ties of typed terms are excluded as in C134"
  },
  {
   "property": "C136",
   "status": "proved",
   "theorems": [
    "Aio.Deadline.C136_run",
    "Aio.Deadline.C136_verdict",
    "Aio.Deadline.C136_timeout",
    "Aio.Deadline.C136_released",
    "Aio.C136_operator",
    "Aio.Interval.C136_timer",
    "Aio.Interval.C136_interval",
    "Aio.Interval.C136_interval_take",
    "Aio.Interval.C136_interval_take_released",
    "Aio.Interval.C136_interval_released"
   ],
   "note": "C136_run, C136_verdict, C136_timeout (any hosted source), C136_operator (behind operators without timers), C136_released; C136_timer, C136_interval, C136_interval_take and their _released. subscribe_async and dispose_async of the source may give way to other tasks but wait for nothing. When source and deadline coincide, the theorems allow both outcomes"
  },
  {
   "property": "C137",
   "status": "partial",
   "theorems": [
    "Aio.VirtualTime.C137_same_partial",
    "Aio.VirtualTime.C137_program_partial",
    "Aio.VirtualTime.C137_violated_tied",
    "Aio.VirtualTime.C137_violated_zero",
    "Aio.VirtualTime.C137_busy_normal",
    "Aio.VirtualTime.C137_violated_busy",
    "Aio.VirtualTime.C137_starves",
    "Aio.VirtualTime.C137_normal_takes_due",
    "Aio.VirtualTime.C137_heap_partial"
   ],
   "note": "false: of two timers due at the same time the second runs only when all that the first one started is over (C137_violated_tied); call_later(0) waits until no callback is ready (C137_violated_zero), so that a task that waits with `while not stopped: await asyncio.sleep(0)` for a call_later(0) never ends on the virtual loop (C137_violated_busy, for all numbers of iterations; on the normal loop it ends, C137_busy_normal); in general time stands still and no timer runs as long as callbacks are ready (C137_starves), while the normal loop takes up every due timer at once (C137_normal_takes_due). Partial: if no two timers are due at the same time and none is made that is due already, the loops do the same step by step (C137_same_partial for any code, C137_program_partial), and nothing depends on how heapq arranges the timers (C137_heap_partial). The normal loop is modelled from asyncio.BaseEventLoop._run_once, ideal: callbacks take no time"
  },
  {
   "property": "C138",
   "status": "proved",
   "theorems": [
    "Aio.Loop.C138_exact",
    "Aio.Loop.C138_no_spin",
    "Aio.Interval.C138_interval",
    "Aio.Interval.C138_interval_slow"
   ],
   "note": "the worker and the task of the loop are tasks of the virtual event loop; C138_exact for all sources and chains, C138_interval and C138_interval_slow for intervals; C138_no_spin: the host never resumes a task whose turn is empty, so the default in the definition of its turns is never used"
  },
  {
   "property": "C139",
   "status": "partial",
   "theorems": [
    "Aio.Loop.C139_violated_worker_left",
    "Aio.Loop.C139_consumer_partial",
    "Aio.Loop.C139_violated_mailbox",
    "Aio.Interval.C139_violated_interval"
   ],
   "note": "false in every run: when the loop has got StopAsyncIteration or an error, the worker of safe_observer waits forever in the aclose or athrow that has brought it, as the exception from `await self._push` leaves wait_for_push before _pull is set (C139_violated_worker_left); after a break in the body for value n at the latest, all calls of the source but n + 2 are in the mailbox and stay there (C139_violated_mailbox), so behind an interval the mailbox grows by one value per period forever (C139_violated_interval). Partial: the task of the loop is done, and neither task has a timer or a callback, so the event loop is not kept busy (C139_consumer_partial)"
  },
  {
   "property": "C140",
   "status": "proved",
   "theorems": [
    "Aio.Direct.C140_iterable",
    "Aio.Direct.C140_interval",
    "Aio.Direct.C140_iterable_behind",
    "Aio.Direct.C140_released",
    "Aio.Direct.C140_interval_times",
    "Aio.Direct.C140_interval_raises",
    "Aio.Direct.C140_generator"
   ],
   "note": "one task that runs the source's loop, the operators and the observer; C140_iterable and C140_interval in general (the first n rounds, for all large n, since a source may go on forever), C140_interval_times, C140_generator and C140_interval_raises for the cases in the text, C140_released and C140_iterable_behind"
  },
  {
   "property": "C141",
   "status": "partial",
   "theorems": [
    "Aio.SelfCancel.C141_violated_interval",
    "Aio.SelfCancel.C141_interval_partial",
    "Aio.SelfCancel.C141_violated_iterable",
    "Aio.SelfCancel.C141_violated_goes_on",
    "Aio.SelfCancel.C141_mailbox_partial",
    "Aio.SelfCancel.C141_timer_partial"
   ],
   "note": "refuted both ways, with an exact law. The sources await the observer in the task that the disposal cancels: what the observer does after its next await is lost (C141_violated_interval, C141_violated_iterable); if nothing ever suspends, all values and the completion are still delivered (C141_violated_goes_on). Proved: an asend without await after the disposal is executed and interval sends nothing more (C141_interval_partial); behind safe_observer nothing is lost (C141_mailbox_partial). Not covered: observers that catch CancelledError or have finally blocks"
  },
  {
   "property": "C142",
   "status": "partial",
   "theorems": [
    "Aio.SelfCancel.C142_violated",
    "Aio.SelfCancel.C142_partial",
    "Aio.SelfCancel.C142_no_error_partial",
    "Aio.SelfCancel.C142_mailbox_partial"
   ],
   "note": "refuted with an exact law: catch disposes the failed source first, and behind from_async_iterable this cancels the very task that runs catch; a subscribe_async that awaits is interrupted at its first await, in every run (C142_violated). Proved: a subscribe_async that does not suspend runs to its end (C142_partial), and so does every one if there is a mailbox in between (C142_mailbox_partial)"
  },
  {
   "property": "C143",
   "status": "proved",
   "theorems": [
    "Aio.Effects.C143_loop",
    "Aio.Effects.C143_once"
   ],
   "note": "functions are arbitrary code over shared variables (C143_loop); C143_once is the order of the calls spelled out for map and filter. Simplified: a function does not suspend in the middle of its effects"
  },
  {
   "property": "C144",
   "status": "proved",
   "theorems": [
    "Aio.Effects.C144_all_called",
    "Aio.Effects.C144_after"
   ],
   "note": "C144_all_called compares the pipelines with and without take(n): same variables, same visible effects, the first n results; C144_after is the other order. Only the part of the disposal that take causes is left out: it does not reach the messages that are already in the mailbox (C26), which is what makes the claim surprising"
  },
  {
   "property": "C145",
   "status": "partial",
   "theorems": [
    "Aio.Feedback.C145_exact",
    "Aio.Feedback.C145_violated",
    "Aio.Feedback.C145_violated_close",
    "Aio.Feedback.C145_same_partial",
    "Aio.Feedback.C145_level_order_partial"
   ],
   "note": "false for a direct subscriber: those who subscribed after it get every value after all that was made from it (C145_violated; C145_exact: they get the post-order of the tree of values, the others the pre-order), and get a value after the completion if the subscriber closes the subject (C145_violated_close). Partial: a subscriber behind an operator with a mailbox; then all get the same, within the grammar (C145_same_partial), and one generation after the other (C145_level_order_partial), provided that the other subscribers do not suspend"
  },
  {
   "property": "C146",
   "status": "proved",
   "theorems": [
    "Aio.Debounce.C146_debounce",
    "Aio.Debounce.C146_debounce_any",
    "Aio.Delay.C146_delay"
   ],
   "note": "the tasks of debounce are not cancelled: they live on for `seconds` after the subscription has been disposed, too (C146_debounce says so). delay: not disposed, and the observer does not raise"
  },
  {
   "property": "C147",
   "status": "partial",
   "theorems": [
    "Aio.RoundTrip.C147_prefix_partial",
    "Aio.RoundTrip.C147_all_partial",
    "Aio.RoundTrip.C147_violated"
   ],
   "note": "false for observables that fail: `async for` raises in the worker of of_async_iterable outside of its try, the task ends, and the observer is told nothing, in every run (C147_violated). Partial: values and completion; the subscription is not disposed and the observer does not raise"
  },
  {
   "property": "C148",
   "status": "partial",
   "theorems": [
    "Aio.Twice.C148_partial",
    "Aio.Twice.C148_violated"
   ],
   "note": "false: the first __anext__ subscribes obv once more, so xs tells everything to obv twice, and values come twice (C148_violated). Partial: the loop gets an interleaving of two initial parts of the values, at the end one of them is complete, and it never raises. Whether it happens with from_iterable depends on whether receive of the mailbox suspends although a message is there, which is left open (the package expression decides); it does with sources that wait between values"
  },
  {
   "property": "C149",
   "status": "partial",
   "theorems": [
    "Aio.C149_partial",
    "Aio.C149_exact_partial",
    "Aio.C149_violated"
   ],
   "note": "False of the code (C149_violated: a mixed pair comes whenever two values have been sent). C149_partial: at rest the last pair belongs together, for any operators. C149_exact_partial: exactly which pairs come."
  },
  {
   "property": "C150",
   "status": "partial",
   "theorems": [
    "Aio.C150_exact_partial",
    "Aio.C150_violated",
    "Aio.C150_mailbox_partial",
    "Aio.C150_paced_partial"
   ],
   "note": "False of the code (C150_violated: never the own one, under no schedule; C150_exact_partial: always the one before). C150_mailbox_partial and C150_paced_partial: what holds when the source has a mailbox."
  },
  {
   "property": "C151",
   "status": "proved",
   "theorems": [
    "Aio.C151_until",
    "Aio.C151_take_until_value"
   ],
   "note": "Relies on take_until subscribing to the other observable first."
  },
  {
   "property": "C152",
   "status": "partial",
   "theorems": [
    "Aio.C152_any_call",
    "Aio.C152_exact_partial",
    "Aio.C152_paced_partial",
    "Aio.C152_observed_partial",
    "Aio.C152_violated"
   ],
   "note": "False of the code (C152_violated: values sent right after subscribe_async are lost). C152_exact_partial: what comes, for every schedule. C152_paced_partial and C152_observed_partial: the full claim if the worker is at rest at each call."
  },
  {
   "property": "C153",
   "status": "partial",
   "theorems": [
    "Aio.C153_never",
    "Aio.C153_violated",
    "Aio.C153_violated_gap",
    "Aio.C153_paced_partial",
    "Aio.C153_observed_partial",
    "Aio.C153_order_partial"
   ],
   "note": "False of the code (C153_violated, C153_violated_gap; C153_never for all schedules). C153_order_partial: one after the other, always. C153_paced_partial and C153_observed_partial: what comes if the worker is at rest at each call."
  },
  {
   "property": "C154",
   "status": "partial",
   "theorems": [
    "Aio.C154_any_call",
    "Aio.C154_exact_partial",
    "Aio.C154_paced_partial",
    "Aio.C154_observed_partial",
    "Aio.C154_violated"
   ],
   "note": "False of the code (C154_violated: the old subject's value comes, the new one's is lost). C154_exact_partial: what comes, for every schedule. C154_paced_partial and C154_observed_partial: the full claim if the worker is at rest at each call."
  },
  {
   "property": "C155",
   "status": "partial",
   "theorems": [
    "Aio.C155_merge_partial",
    "Aio.C155_switch_partial",
    "Aio.C155_violated",
    "Aio.C155_violated_switch"
   ],
   "note": "False of the code when an inner subject fails (C155_violated) and when the source of switch_latest fails (C155_violated_switch). C155_merge_partial: after a disposal or a source error. C155_switch_partial: after a disposal."
  },
  {
   "property": "C156",
   "status": "proved",
   "theorems": [
    "Aio.C156_any_call",
    "Aio.C156_exact",
    "Aio.C156_observed"
   ],
   "note": "C156_exact: what comes, call by call. C156_observed: the same for the final observer behind operators. Disposing: see C70 (C70_subjects_partial, C70_subjects_violated)."
  },
  {
   "property": "C157",
   "status": "partial",
   "theorems": [
    "Aio.C157_violated",
    "Aio.C157_partial"
   ],
   "note": "False of the code (C157_violated, for every count and every sequence of calls: after an error nothing comes, and never an error). C157_partial: what comes as long as the subject does not fail."
  },
  {
   "property": "C158",
   "status": "proved",
   "theorems": [
    "Aio.C158_exact",
    "Aio.C158_merge",
    "Aio.C158_rests"
   ],
   "note": "C158_exact: any limit, any moment. C158_merge: when everything is at rest. C158_rests: it comes to rest in any order of the remaining steps. Examples show that the hypotheses are needed (overtaking, a subject that is sent twice)."
  },
  {
   "property": "C159",
   "status": "proved",
   "theorems": [
    "Aio.C159_concat",
    "Aio.C159_observed"
   ],
   "note": "C159_concat: the posts, at any moment a prefix and at rest all of it. C159_observed: the same for the final observer behind any operators."
  },
  {
   "property": "C160",
   "status": "partial",
   "theorems": [
    "Aio.C160_violated_merge",
    "Aio.C160_violated_switch",
    "Aio.C160_partial",
    "Aio.C160_switch_partial"
   ],
   "note": "False of the code (C160_violated_merge, C160_violated_switch: from every state in which a subject is disposed; concrete runs beside them). C160_partial and C160_switch_partial: asend raises, and nothing else hangs."
  },
  {
   "property": "C161",
   "status": "partial",
   "theorems": [
    "Aio.C161_direct_partial",
    "Aio.C161_violated",
    "Aio.C161_violated_underway"
   ],
   "note": "False of the code. C161_violated: for every operator with a mailbox, any values: all asend calls have returned, the subscription is disposed, the observer has not been called once, and then it is called with everything. C161_violated_underway: for every operator without one. C161_direct_partial: what holds, over all later steps. C62 is the weaker claim that holds for all operators (nothing that is sent after the disposal)."
  },
  {
   "property": "C162",
   "status": "partial",
   "theorems": [
    "Aio.DetachSingle.C162_violated",
    "Aio.DetachSingle.C162_violated_disposed",
    "Aio.DetachSingle.C162_violated_take",
    "Aio.DetachSingle.C162_partial"
   ],
   "note": "False of the code. C162_violated (the stream has ended by itself, the agent survives and was quick), C162_violated_take (take(n) after n values), C162_violated_disposed (the consumer disposes). C162_partial: what holds. Callers cancelled while they waited for the subscription are left out of the violations (then aclose raises CancelledError)."
  },
  {
   "property": "C163",
   "status": "proved",
   "theorems": [
    "Aio.Single.C163_pipe",
    "Aio.Single.C163_gets_there",
    "Aio.Single.C163_run"
   ],
   "note": "C163_pipe, C163_gets_there, C163_run. The subscription is not disposed, and nobody who waits is cancelled (C160, C162, C71 are about that). An example shows that 'in turn' is needed: a call that comes between woken callers overtakes them."
  },
  {
   "property": "C164",
   "status": "partial",
   "theorems": [
    "Aio.SlowSubject.C164_exact",
    "Aio.SlowSubject.C164_violated",
    "Aio.SlowSubject.C164_partial",
    "Aio.SlowSubject.C164_goes_on",
    "Aio.SlowSubject.C164_violated_witness"
   ],
   "note": "False: the subscribers are told one after the other, each when the ones before it are through (C164_exact gives the times of all and of the return of the call, C164_violated the delay). C164_partial: a subscriber whose predecessors take no time (they only post to a mailbox) is told at once. C164_goes_on: the clock is never stopped. An example shows that a second producer that does not wait overtakes the first one behind a slow subscriber."
  },
  {
   "property": "C165",
   "status": "proved",
   "theorems": [
    "Aio.C165_take_last",
    "Aio.C165_skip_last",
    "Aio.C165_bound"
   ],
   "note": "C165_take_last, C165_skip_last (what is remembered), C165_bound (how much). The mailbox of the safe observer behind the operator is a separate matter (C83, C123)."
  },
  {
   "property": "C166",
   "status": "proved",
   "theorems": [
    "Aio.DetachTwo.C166_side",
    "Aio.DetachTwo.C166_both",
    "Aio.DetachTwo.C166_others"
   ],
   "note": "C166_side, C166_both, C166_others. Unlike the release at the end of the stream (C93) this does not depend on the agent. A call under way is not stopped (second example)."
  },
  {
   "property": "C167",
   "status": "proved",
   "theorems": [
    "Aio.FlatMap.C167_determinate",
    "Aio.FlatMap.C167_congruence",
    "Aio.FlatMap.C167_left",
    "Aio.FlatMap.C167_right",
    "Aio.FlatMap.C167_associative",
    "Aio.FlatMap.C167_interval"
   ],
   "note": "C167_left, C167_right, C167_associative, C167_congruence, C167_determinate, C167_interval. Nobody disposes and nothing fails; with errors the laws do not hold as they stand (an inner error leaves the other inner observables subscribed, C39)."
  },
  {
   "property": "C168",
   "status": "proved",
   "theorems": [
    "Aio.Flatten.C168_left",
    "Aio.Flatten.C168_right",
    "Aio.Flatten.C168_associative",
    "Aio.Flatten.C168_concat_left",
    "Aio.Flatten.C168_concat_right",
    "Aio.Flatten.C168_concat_associative"
   ],
   "note": "C168_left, C168_right, C168_associative; C168_concat_left, C168_concat_right, C168_concat_associative. Says nothing of runs that do not complete; the examples show that with max_concurrent=0 the order does depend on the schedule."
  },
  {
   "property": "C169",
   "status": "partial",
   "theorems": [
    "Aio.IterDispose.C169_yields",
    "Aio.IterDispose.C169_violated_subscribing",
    "Aio.IterDispose.C169_violated_overlap",
    "Aio.IterDispose.C169_released_partial",
    "Aio.IterDispose.C169_one_at_a_time_partial",
    "Aio.IterDispose.C169_released_plain"
   ],
   "note": "False twice: a disposal while the first __anext__ is subscribing disposes nothing (C169_violated_subscribing), and of two overlapping disposals the later one forgets a subscription made in between (C169_violated_overlap). Holds for disposals that avoid both (C169_released_partial, C169_one_at_a_time_partial), and without any restriction for sources that subscribe and dispose without suspending, such as subjects (C169_released_plain). C169_yields (no loss, no duplicates over all loops) holds in full."
  },
  {
   "property": "C170",
   "status": "partial",
   "theorems": [
    "Aio.IterDispose.C170_violated",
    "Aio.IterDispose.C170_violated_example",
    "Aio.IterDispose.C170_partial"
   ],
   "note": "False in every run: a call that waits when the loop is left never returns, whether or not the observer is disposed (C170_violated, C170_violated_example). Partial: if no call waits at that moment, all calls made so far return as soon as the scheduled task goes on (C170_partial)."
  },
  {
   "property": "C171",
   "status": "proved",
   "theorems": [
    "Aio.Flatten.C171_fair",
    "Aio.Flatten.C171_sublist",
    "Aio.Flatten.C171_concat",
    "Aio.Flatten.C171_last",
    "Aio.Flatten.C171_left",
    "Aio.Flatten.C171_right",
    "Aio.Flatten.C171_loses"
   ],
   "note": "C171_sublist, C171_concat (against merge_inner(1)), C171_left, C171_right, C171_last; C171_loses shows that flat_map_latest(single) is not the identity. C171_fair: the result can be source or inner observable of further operators."
  },
  {
   "property": "C172",
   "status": "proved",
   "theorems": [
    "Aio.Flatten.C172_flat_map",
    "Aio.Flatten.C172_concat",
    "Aio.Flatten.C172_before",
    "Aio.Flatten.C172_map",
    "Aio.Flatten.C172_each_map",
    "Aio.Flatten.C172_each_filter",
    "Aio.Flatten.C172_each_choose"
   ],
   "note": "C172_flat_map, C172_concat, C172_before, C172_map; C172_each_map, C172_each_filter and C172_each_choose show which operators qualify."
  },
  {
   "property": "C173",
   "status": "partial",
   "theorems": [
    "Aio.Linger.C173_answered_violated",
    "Aio.Linger.C173_all_violated",
    "Aio.Nested.C173_latest_partial",
    "Aio.Linger.C173_violated"
   ],
   "note": "The code violates it: C173_answered_violated and C173_all_violated for all sources and durations, C173_violated with a stale result that comes last. C173_latest_partial: what holds when f(x) honours its disposal."
  },
  {
   "property": "C174",
   "status": "proved",
   "theorems": [
    "Aio.Caught.C174_schedule",
    "Aio.Caught.C174_in_order",
    "Aio.Caught.C174_handled",
    "Aio.Caught.C174_operator",
    "Aio.Caught.C174_fallback"
   ],
   "note": "Sources whose subscribe_async raises, and disposal of the subscription, are not part of these theorems (C43, C70)."
  },
  {
   "property": "C175",
   "status": "partial",
   "theorems": [
    "Aio.Caught.C175_violated",
    "Aio.Caught.C175_partial"
   ],
   "note": "The code violates it: C175_violated (for every n and every source). C175_partial: before the last attempt has failed."
  },
  {
   "property": "C176",
   "status": "partial",
   "theorems": [
    "Aio.Caught.C176_again",
    "Aio.Caught.C176_violated",
    "Aio.Caught.C176_partial"
   ],
   "note": "The code violates it: C176_violated (for every g and every source that fails), C176_again. C176_partial: before the source has failed."
  },
  {
   "property": "C177",
   "status": "partial",
   "theorems": [
    "Aio.Linger.C177_answered_violated",
    "Aio.Linger.C177_partial",
    "Aio.Linger.C177_violated"
   ],
   "note": "The code violates it: C177_violated (a run), C177_answered_violated (in general). C177_partial: searches that are over before the next value. With of_async in place of single it holds (C133)."
  },
  {
   "property": "C178",
   "status": "partial",
   "theorems": [
    "Aio.C178_all_violated",
    "Aio.C178_partial",
    "Aio.C178_violated"
   ],
   "note": "The code violates it: C178_violated (a run), C178_all_violated (in general). C178_partial: no value in the first s, only values of the source at their times."
  },
  {
   "property": "C179",
   "status": "partial",
   "theorems": [
    "Aio.Caught.C179_second_violated",
    "Aio.Caught.C179_again_violated",
    "Aio.Caught.C179_partial",
    "Aio.Caught.C179_violated"
   ],
   "note": "The code violates it: C179_violated (a run), C179_second_violated (the second handler is never called), C179_again_violated (b is subscribed again after each failure). C179_partial: as long as b has not failed."
  },
  {
   "property": "C180",
   "status": "proved",
   "theorems": [
    "Aio.Caught.C180_recovers",
    "Aio.Caught.C180_same",
    "Aio.Caught.C180_move",
    "Aio.Caught.C180_no_error",
    "Aio.Caught.C180_error"
   ],
   "note": "Proved for sources that come to an end with the same values whenever they are subscribed (Steady); what has been sent before the end is C115."
  },
  {
   "property": "C181",
   "status": "proved",
   "theorems": [
    "Aio.C181_delayed",
    "Aio.C181_behind",
    "Aio.C181_before",
    "Aio.C181_moves"
   ],
   "note": "Proved."
  },
  {
   "property": "C182",
   "status": "partial",
   "theorems": [
    "Aio.IterTasks.C182_held",
    "Aio.IterTasks.C182_safe",
    "Aio.IterTasks.C182_no_key_error",
    "Aio.IterTasks.C182_clean_partial",
    "Aio.IterTasks.C182_forever_violated",
    "Aio.IterTasks.C182_clean_violated"
   ],
   "note": "First half proved, with what the set holds at every moment (C182_held) and that tasks.remove never raises KeyError. The second half is false: a task is only removed after aclose() of its observer returned, so the tasks of disposed subscriptions, of observers that raised and of iterables that raised stay for ever (C182_forever_violated); n subscriptions that come and go leave n ended tasks, for every n (C182_clean_violated)."
  },
  {
   "property": "C183",
   "status": "proved",
   "theorems": [
    "Aio.Debounces.C183_at_least",
    "Aio.Debounces.C183_at_most",
    "Aio.Debounces.C183_longer_first",
    "Aio.Debounces.C183_order_matters"
   ],
   "note": "Proved. That the order matters is shown by a run of both pipelines over the same values (C183_order_matters)."
  },
  {
   "property": "C184",
   "status": "proved",
   "theorems": [
    "Aio.DebounceMoves.C184_behind",
    "Aio.DebounceMoves.C184_before",
    "Aio.DebounceMoves.C184_map",
    "Aio.DebounceMoves.C184_filter",
    "Aio.DebounceMoves.C184_filter_order"
   ],
   "note": "Proved. That filter before debounce can send more is shown by a run of both pipelines over the same values (C184_filter_order)."
  },
  {
   "property": "C185",
   "status": "proved",
   "theorems": [
    "Aio.DelayDebounce.C185_delay_first",
    "Aio.DelayDebounce.C185_delay_last",
    "Aio.DelayDebounce.C185_moves"
   ],
   "note": "Proved."
  },
  {
   "property": "C186",
   "status": "proved",
   "theorems": [
    "Aio.HostedDebounce.C186_twice",
    "Aio.HostedDebounce.C186_behind",
    "Aio.HostedDebounce.C186_before",
    "Aio.HostedDebounce.C186_map",
    "Aio.HostedDebounce.C186_filter",
    "Aio.HostedDebounce.C186_filter_order"
   ],
   "note": "Proved. C186_filter_order shows two runs of the loop in which the order of filter and debounce makes a difference."
  },
  {
   "property": "C187",
   "status": "proved",
   "theorems": [
    "Aio.DelayMerge.C187_outside",
    "Aio.DelayMerge.C187_inside",
    "Aio.DelayMerge.C187_same",
    "Aio.DelayMerge.C187_completed_inside",
    "Aio.DelayMerge.C187_completed_outside",
    "Aio.DelayMerge.C187_completed_order"
   ],
   "note": "Proved. C187_completed_order shows that moving delay inside can make the completion come earlier."
  },
  {
   "property": "C188",
   "status": "proved",
   "theorems": [
    "Aio.DebounceMerge.C188_outside",
    "Aio.DebounceMerge.C188_inside",
    "Aio.DebounceMerge.C188_more",
    "Aio.DebounceMerge.C188_order"
   ],
   "note": "Proved. C188_order is the witness against the converse. The safe observer between an inner debounce and merge_inner is left out of the model of the second pipeline; it hands on values at once."
  },
  {
   "property": "C189",
   "status": "proved",
   "theorems": [
    "Aio.DelaySwitch.C189_outside",
    "Aio.DelaySwitch.C189_inside",
    "Aio.DelaySwitch.C189_inside_all",
    "Aio.DelaySwitch.C189_fewer",
    "Aio.DelaySwitch.C189_order",
    "Aio.DelaySwitch.C189_late"
   ],
   "note": "Proved, under the assumption named in the statement. C189_order is the witness against the converse, C189_late a run without the assumption in which a replaced observable's value is sent after the switch."
  },
  {
   "property": "C190",
   "status": "proved",
   "theorems": [
    "Aio.DebounceDistinct.C190_behind",
    "Aio.DebounceDistinct.C190_before",
    "Aio.DebounceDistinct.C190_no_repeat",
    "Aio.DebounceDistinct.C190_earlier",
    "Aio.DebounceDistinct.C190_order"
   ],
   "note": "Proved. C190_order is the witness that the second order sends the same value twice in a row, and sooner."
  },
  {
   "property": "C191",
   "status": "proved",
   "theorems": [
    "Aio.DebounceScan.C191_behind",
    "Aio.DebounceScan.C191_before",
    "Aio.DebounceScan.C191_same_times",
    "Aio.DebounceScan.C191_order"
   ],
   "note": "Proved. C191_order is the witness that the totals differ."
  },
  {
   "property": "C192",
   "status": "proved",
   "theorems": [
    "Aio.DebounceTake.C192_behind",
    "Aio.DebounceTake.C192_before",
    "Aio.DebounceTake.C192_order"
   ],
   "note": "Proved. C192_order is a run in which the two orders differ. That debounce does not send the last value when its source completes is C78."
  },
  {
   "property": "C193",
   "status": "proved",
   "theorems": [
    "Aio.DebounceSkip.C193_behind",
    "Aio.DebounceSkip.C193_before",
    "Aio.DebounceSkip.C193_suffix",
    "Aio.DebounceSkip.C193_order"
   ],
   "note": "Proved. C193_order is the witness that the two differ."
  }
 ]
}