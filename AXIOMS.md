# Axioms of the property theorems

Output of `#print axioms` for every theorem named in `MANIFEST.json`.

| theorem | axioms |
|---|---|
| `Aio.Safe.C01_grammar` | propext, Quot.sound |
| `Aio.Safe.C02_serialised` | propext, Quot.sound |
| `Aio.Safe.C03_fifo` | propext, Quot.sound |
| `Aio.Safe.C04_dispose_before_terminal` | propext, Quot.sound |
| `Aio.Safe.C04_dispose_once` | propext, Quot.sound |
| `Aio.Safe.C04_disposed_iff_terminal` | propext, Quot.sound |
| `Aio.Safe.C05_exception_returned` | propext, Quot.sound |
| `Aio.Safe.C05_cancelled` | propext, Quot.sound |
| `Aio.Safe.C05_no_dispose_after_raise` | propext, Quot.sound |
| `Aio.C05_pipeline` | propext, Classical.choice, Quot.sound |
| `Aio.C05_pipeline_after` | propext, Classical.choice, Quot.sound |
| `Aio.AutoDetach.C06_killed_agent_disposes_nothing` | propext, Quot.sound |
| `Aio.AutoDetach.C06_violated_if_agent_killed` | propext, Quot.sound |
| `Aio.AutoDetach.C06_violated_if_agent_survives` | propext, Quot.sound |
| `Aio.AutoDetach.C06_detach_partial` | propext, Quot.sound |
| `Aio.AutoDetach.C06_pending_disposes_nothing` | propext, Quot.sound |
| `Aio.AutoDetach.C06_raise_stops` | propext, Quot.sound |
| `Aio.AutoDetach.C06_violated_raise` | propext |
| `Aio.C07_schedule_independent` | propext, Classical.choice, Quot.sound |
| `Aio.C07_same_result` | propext, Classical.choice, Quot.sound |
| `Aio.C07_terminates` | propext, Classical.choice, Quot.sound |
| `Aio.C07_can_finish` | propext, Classical.choice, Quot.sound |
| `Aio.C07_compose` | propext, Classical.choice, Quot.sound |
| `Aio.C07_suspending` | propext, Classical.choice, Quot.sound |
| `Aio.Subject.C08_broadcast` | propext, Classical.choice, Quot.sound |
| `Aio.Subject.C08_progress` | propext, Quot.sound |
| `Aio.Subject.C08_dropped` | propext, Classical.choice, Quot.sound |
| `Aio.Subject.C09_nothing_later` | propext, Quot.sound |
| `Aio.Subject.C09_one_call` | propext, Quot.sound |
| `Aio.Subject.C09_one_terminal` | propext, Classical.choice, Quot.sound |
| `Aio.Subject.C10_call` | propext, Quot.sound |
| `Aio.Subject.C10_subscribe` | propext, Quot.sound |
| `Aio.Subject.C11_removes_partial` | propext, Classical.choice, Quot.sound |
| `Aio.Subject.C11_never_again_partial` | propext, Classical.choice, Quot.sound |
| `Aio.Subject.C11_remaining_partial` | propext, Classical.choice, Quot.sound |
| `Aio.Subject.C11_violated` | propext |
| `Aio.Subject.C11_violated_unguarded` | propext |
| `Aio.Single.C12_held` | propext, Classical.choice, Quot.sound |
| `Aio.Single.C12_in_order` | propext, Classical.choice, Quot.sound |
| `Aio.Single.C12_progress` | propext, Classical.choice, Quot.sound |
| `Aio.Single.C12_all` | propext, Classical.choice, Quot.sound |
| `Aio.Single.C13_violated` | propext |
| `Aio.Single.C13_violated_raise` | propext |
| `Aio.Single.C13_after_return_partial` | propext, Quot.sound |
| `Aio.Single.C14_asend_partial` | propext, Quot.sound |
| `Aio.Single.C14_subscribe_partial` | propext, Classical.choice, Quot.sound |
| `Aio.Single.C14_silent_partial` | propext, Classical.choice, Quot.sound |
| `Aio.Single.C14_violated` | propext, Classical.choice, Quot.sound |
| `Aio.Single.C14_violated_stuck` | propext, Quot.sound |
| `Aio.Awaitable.C15_last_value` | propext, Quot.sound |
| `Aio.Awaitable.C15_no_value` | propext |
| `Aio.Awaitable.C15_error` | propext, Quot.sound |
| `Aio.Awaitable.C15_disposed` | propext, Quot.sound |
| `Aio.Awaitable.C15_open` | propext |
| `Aio.Awaitable.C15_exhaustive` | propext |
| `Aio.Awaitable.C15_ignored` | propext, Quot.sound |
| `Aio.Awaitable.C15_callback` | propext |
| `Aio.RunUntil.C16_disposes` | propext, Quot.sound |
| `Aio.RunUntil.C16_returns` | propext, Quot.sound |
| `Aio.RunUntil.C16_raises` | propext, Quot.sound |
| `Aio.RunUntil.C16_goes_on` | propext, Quot.sound |
| `Aio.RunUntil.C16_can_go_on` | propext, Quot.sound |
| `Aio.RunUntil.C16_gives_up` | propext |
| `Aio.Iterator.C17_yields_what_was_handed_over` | propext, Classical.choice, Quot.sound |
| `Aio.Iterator.C17_nth` | propext, Classical.choice, Quot.sound |
| `Aio.Iterator.C17_no_invalid_state` | propext, Classical.choice, Quot.sound |
| `Aio.Iterator.C17_real_time_order` | propext, Classical.choice, Quot.sound |
| `Aio.Iterator.C17_sequential` | propext, Classical.choice, Quot.sound |
| `Aio.Iterator.C18_at_most_one_waiting` | propext, Classical.choice, Quot.sound |
| `Aio.Iterator.C18_returns_after_taken` | propext, Classical.choice, Quot.sound |
| `Aio.Iterator.C19_violated_lost_wakeup` | propext |
| `Aio.Iterator.C19_violated_close` | propext, Classical.choice, Quot.sound |
| `Aio.Iterator.C19_ends_partial` | propext, Classical.choice, Quot.sound |
| `Aio.Iterator.C19_sequential_partial` | propext, Classical.choice, Quot.sound |
| `Aio.Iterator.C19_next_call_wakes_partial` | propext, Classical.choice, Quot.sound |
| `Aio.C20_violated_raising` | propext, Quot.sound |
| `Aio.C20_from_iterable_partial` | propext, Classical.choice, Quot.sound |
| `Aio.C20_raising_exact` | propext, Classical.choice, Quot.sound |
| `Aio.C21_fail` | propext, Classical.choice, Quot.sound |
| `Aio.C21_single` | propext, Classical.choice, Quot.sound |
| `Aio.C21_never` | propext, Classical.choice, Quot.sound |
| `Aio.C21_empty` | none |
| `Aio.C21_empty_recorded` | none |
| `Aio.C22_violated_dispose` | propext |
| `Aio.C22_of_async_partial` | propext, Quot.sound |
| `Aio.C22_not_before` | propext, Quot.sound |
| `Aio.C22_dispose_early` | propext, Quot.sound |
| `Aio.C22_ends` | propext, Quot.sound |
| `Aio.OfAsyncIterable.C23_violated_raising` | propext |
| `Aio.OfAsyncIterable.C23_in_order_partial` | propext, Quot.sound |
| `Aio.OfAsyncIterable.C23_completes` | propext, Quot.sound |
| `Aio.OfAsyncIterable.C23_observer_raises` | propext, Quot.sound |
| `Aio.OfAsyncIterable.C23_nothing_after_dead` | propext, Quot.sound |
| `Aio.OfAsyncIterable.C23_dispose_early` | propext, Quot.sound |
| `Aio.OfAsyncIterable.C23_dispose_stops` | propext, Quot.sound |
| `Aio.Defer.C24_defer` | propext, Quot.sound |
| `Aio.Interval.C25_consecutive` | propext, Quot.sound |
| `Aio.Interval.C25_never_early` | propext, Quot.sound |
| `Aio.Interval.C25_timer` | propext, Quot.sound |
| `Aio.Interval.C25_no_terminal` | propext, Quot.sound |
| `Aio.Interval.C25_dispose` | propext, Quot.sound |
| `Aio.Interval.C25_exact` | propext, Quot.sound |
| `Aio.Interval.C25_on_schedule` | propext, Quot.sound |
| `Aio.Interval.C25_raise_stops` | propext, Quot.sound |
| `Aio.Interval.C25_dispose_ends` | propext |
| `Aio.Interval.C25_goes_on` | propext, Quot.sound |
| `Aio.C26_violated` | propext |
| `Aio.C26_dispose_early_partial` | propext, Quot.sound |
| `Aio.C27_map` | propext, Classical.choice, Quot.sound |
| `Aio.C27_map_async` | propext, Classical.choice, Quot.sound |
| `Aio.C27_starmap` | propext, Classical.choice, Quot.sound |
| `Aio.C27_starmap_async` | propext, Classical.choice, Quot.sound |
| `Aio.C28_violated_direct_source` | propext, Quot.sound |
| `Aio.C28_direct_exact` | propext |
| `Aio.C28_map_partial` | propext, Classical.choice, Quot.sound |
| `Aio.C28_choose_partial` | propext, Classical.choice, Quot.sound |
| `Aio.C28_filter_partial` | propext, Classical.choice, Quot.sound |
| `Aio.C29_mapi` | propext, Classical.choice, Quot.sound |
| `Aio.C29_mapi_async` | propext, Classical.choice, Quot.sound |
| `Aio.C29_filteri` | propext, Classical.choice, Quot.sound |
| `Aio.C85_flat_mapi` | propext, Classical.choice, Quot.sound |
| `Aio.C85_flat_mapi_async` | propext, Classical.choice, Quot.sound |
| `Aio.C30_filter` | propext, Classical.choice, Quot.sound |
| `Aio.C30_filter_async` | propext, Classical.choice, Quot.sound |
| `Aio.C30_starfilter` | propext, Classical.choice, Quot.sound |
| `Aio.C30_choose` | propext, Classical.choice, Quot.sound |
| `Aio.C30_choose_async` | propext, Classical.choice, Quot.sound |
| `Aio.C31_scan` | propext, Classical.choice, Quot.sound |
| `Aio.C32_violated` | propext |
| `Aio.C32_until_error_partial` | propext, Quot.sound |
| `Aio.C32_guarded_partial` | propext, Classical.choice, Quot.sound |
| `Aio.C32_take_partial` | propext, Classical.choice, Quot.sound |
| `Aio.ScanRace.C33_violated` | propext |
| `Aio.ScanRace.C33_sync_partial` | propext |
| `Aio.ScanRace.C33_overwritten` | propext |
| `Aio.ScanRace.C33_serial_partial` | propext |
| `Aio.ScanRace.C33_every_schedule` | propext, Quot.sound |
| `Aio.C34_violated_empty` | propext |
| `Aio.C34_reduce_partial` | propext, Classical.choice, Quot.sound |
| `Aio.C34_reduce_exact` | propext, Classical.choice, Quot.sound |
| `Aio.Merge.C35_forwards` | propext, Classical.choice, Quot.sound |
| `Aio.Merge.C36_bound` | propext, Classical.choice, Quot.sound |
| `Aio.Merge.C37_order` | propext, Classical.choice, Quot.sound |
| `Aio.Merge.C37_prompt` | propext, Classical.choice, Quot.sound |
| `Aio.Merge.C37_worker_terminates` | propext, Quot.sound |
| `Aio.Merge.C37_worker_progress` | propext, Quot.sound |
| `Aio.Merge.C38_only_when_done` | propext, Classical.choice, Quot.sound |
| `Aio.Merge.C38_when_done` | propext, Classical.choice, Quot.sound |
| `Aio.Merge.C38_negative` | propext |
| `Aio.Merge.C39_error_ends` | propext, Classical.choice, Quot.sound |
| `Aio.Merge.C39_source_error_partial` | propext, Classical.choice, Quot.sound |
| `Aio.Merge.C39_violated` | propext |
| `Aio.Merge.C40_concat` | propext, Classical.choice, Quot.sound |
| `Aio.Switch.C41_latest` | propext, Classical.choice, Quot.sound |
| `Aio.Switch.C41_older_disposed` | propext, Classical.choice, Quot.sound |
| `Aio.Switch.C41_older_gone` | propext, Classical.choice, Quot.sound |
| `Aio.Switch.C41_order` | propext, Classical.choice, Quot.sound |
| `Aio.Switch.C41_forwards` | propext, Classical.choice, Quot.sound |
| `Aio.Switch.C41_stale` | propext, Quot.sound |
| `Aio.Switch.C42_violated` | propext, Quot.sound |
| `Aio.Switch.C42_never` | propext, Classical.choice, Quot.sound |
| `Aio.Switch.C42_not_before_partial` | propext, Classical.choice, Quot.sound |
| `Aio.Switch.C42_empty_partial` | propext, Classical.choice, Quot.sound |
| `Aio.Catch.C43_stream` | propext, Quot.sound |
| `Aio.Catch.C43_no_error` | propext, Quot.sound |
| `Aio.Catch.C43_sources` | propext, Quot.sound |
| `Aio.Catch.C43_continues` | propext, Quot.sound |
| `Aio.Catch.C43_disposed_first_partial` | propext, Quot.sound |
| `Aio.Catch.C43_violated` | propext, Quot.sound |
| `Aio.Catch.C44_violated_count` | propext, Quot.sound |
| `Aio.Catch.C44_violated_error` | propext, Quot.sound |
| `Aio.Catch.C44_spins` | propext, Quot.sound |
| `Aio.Catch.C44_violated_shared` | propext, Quot.sound |
| `Aio.Catch.C44_once_partial` | propext, Classical.choice, Quot.sound |
| `Aio.C45_skip` | propext, Classical.choice, Quot.sound |
| `Aio.C45_skip_any_source` | propext, Classical.choice, Quot.sound |
| `Aio.C46_violated_none` | propext |
| `Aio.C46_skip_last_partial` | propext, Classical.choice, Quot.sound |
| `Aio.C46_skip_last_exact` | propext, Classical.choice, Quot.sound |
| `Aio.C47_take` | propext, Classical.choice, Quot.sound |
| `Aio.C47_take_negative` | none |
| `Aio.C47_take_completes` | propext, Classical.choice, Quot.sound |
| `Aio.C48_take_last` | propext, Classical.choice, Quot.sound |
| `Aio.C49_take_until` | propext, Classical.choice, Quot.sound |
| `Aio.C50_distinct` | propext, Classical.choice, Quot.sound |
| `Aio.C51_violated_stop_zero` | propext |
| `Aio.C51_violated_reversed` | propext |
| `Aio.C51_violated_mixed_signs` | propext |
| `Aio.C51_violated_none` | propext |
| `Aio.C51_slice_partial` | propext, Classical.choice, Quot.sound |
| `Aio.C51_slice_no_neg_stop_partial` | propext, Classical.choice, Quot.sound |
| `Aio.C51_rejected` | propext, Quot.sound |
| `Aio.C52_violated_none` | propext |
| `Aio.C52_index_partial` | propext, Classical.choice, Quot.sound |
| `Aio.C53_combine_latest` | propext, Classical.choice, Quot.sound |
| `Aio.C54_with_latest_from` | propext, Classical.choice, Quot.sound |
| `Aio.C55_zip_finite` | propext, Classical.choice, Quot.sound |
| `Aio.C55_zip_infinite` | propext, Classical.choice, Quot.sound |
| `Aio.C55_zip_raising` | propext, Classical.choice, Quot.sound |
| `Aio.C56_exact` | propext, Classical.choice, Quot.sound |
| `Aio.C56_violated_twice` | propext |
| `Aio.C56_violated_lost` | propext |
| `Aio.C56_sublist_partial` | propext, Classical.choice, Quot.sound |
| `Aio.Delay.C57_order` | propext, Quot.sound |
| `Aio.Delay.C57_never_early` | propext, Quot.sound |
| `Aio.Delay.C57_each_once` | propext, Classical.choice, Quot.sound |
| `Aio.Delay.C57_quiescent` | propext, Quot.sound |
| `Aio.Delay.C58_exact` | propext, Quot.sound |
| `Aio.Delay.C58_none_overdue` | propext, Classical.choice, Quot.sound |
| `Aio.Delay.C59_isolated_partial` | propext, Classical.choice, Quot.sound |
| `Aio.Delay.C59_violated_others` | propext, Quot.sound |
| `Aio.Delay.C59_violated_later` | propext, Quot.sound |
| `Aio.Delay.C59_violated` | propext, Quot.sound |
| `Aio.Debounce.C60_quiet` | propext, Classical.choice, Quot.sound |
| `Aio.Debounce.C60_exact` | propext, Classical.choice, Quot.sound |
| `Aio.Debounce.C61_violated_always` | propext, Quot.sound |
| `Aio.Debounce.C61_violated` | propext |
| `Aio.Debounce.C61_bounded_partial` | propext, Quot.sound |
| `Aio.Hub.C62_nothing_new` | propext, Classical.choice, Quot.sound |
| `Aio.Hub.C62_exactly` | propext, Classical.choice, Quot.sound |
| `Aio.VirtualTime.C63_clock_monotone` | propext, Quot.sound |
| `Aio.VirtualTime.C63_advances_to_next_timer` | propext, Classical.choice, Quot.sound |
| `Aio.VirtualTime.C63_exact_time` | propext, Classical.choice, Quot.sound |
| `Aio.VirtualTime.C63_due_order` | propext, Classical.choice, Quot.sound |
| `Aio.VirtualTime.C63_fifo` | propext, Classical.choice, Quot.sound |
| `Aio.VirtualTime.C63_at_most_once` | propext, Classical.choice, Quot.sound |
| `Aio.VirtualTime.C63_cancelled_never_run` | propext, Quot.sound |
| `Aio.VirtualTime.C63_nothing_lost` | propext, Classical.choice, Quot.sound |
| `Aio.VirtualTime.C63_progress` | propext, Classical.choice, Quot.sound |
| `Aio.TestObserver.C64_values_partial` | propext, Quot.sound |
| `Aio.TestObserver.C64_times_in_order_partial` | propext, Quot.sound |
| `Aio.TestObserver.C64_violated_twice` | propext |
| `Aio.TestObserver.C64_callbacks_partial` | propext, Classical.choice, Quot.sound |
| `Aio.TestObserver.C64_stopped_partial` | propext, Quot.sound |
| `Aio.ToObservable.C65_forwards_partial` | propext, Quot.sound |
| `Aio.ToObservable.C65_disposes_partial` | propext, Quot.sound |
| `Aio.ToObservable.C65_violated_early_dispose` | propext, Classical.choice, Quot.sound |
| `Aio.C66_equality` | propext |
| `Aio.C66_equivalence` | propext |
| `Aio.C66_equivalence_only_if` | propext |
| `Aio.Hub.C67_own_run` | propext, Classical.choice, Quot.sound |
| `Aio.Hub.C67_hears` | propext, Classical.choice, Quot.sound |
| `Aio.Hub.C67_as_if_alone` | propext, Classical.choice, Quot.sound |
| `Aio.Merge.C68_dispose_releases` | propext, Classical.choice, Quot.sound |
| `Aio.Switch.C69_dispose_partial` | propext, Classical.choice, Quot.sound |
| `Aio.Switch.C69_violated` | propext, Quot.sound |
| `Aio.Switch.C69_completes_after_dispose` | propext, Quot.sound |
| `Aio.Switch.C69_violated_late` | propext, Quot.sound |
| `Aio.C70_subjects_partial` | propext, Classical.choice, Quot.sound |
| `Aio.C70_subjects_violated` | propext, Classical.choice, Quot.sound |
| `Aio.Catch.C70_violated` | propext, Quot.sound |
| `Aio.Catch.C70_partial` | propext, Quot.sound |
| `Aio.Single.C71_violated` | propext |
| `Aio.Single.C71_all_lost` | propext, Quot.sound |
| `Aio.Single.C71_woken_partial` | propext, Classical.choice, Quot.sound |
| `Aio.RunUntil.C72_violated` | propext, Quot.sound |
| `Aio.RunUntil.C72_no_value_partial` | propext, Quot.sound |
| `Aio.ToObservable.C73_violated` | propext, Quot.sound |
| `Aio.ToObservable.C73_partial` | propext, Quot.sound |
| `Aio.ToObservable.C73_task_kept_partial` | propext, Quot.sound |
| `Aio.C74_round_trip` | propext, Quot.sound |
| `Aio.C74_dispatch` | propext, Quot.sound |
| `Aio.TestSubject.C75_at_partial` | propext, Classical.choice, Quot.sound |
| `Aio.TestSubject.C75_exactly_when_partial` | propext, Classical.choice, Quot.sound |
| `Aio.TestSubject.C75_later_partial` | propext, Classical.choice, Quot.sound |
| `Aio.TestSubject.C75_nothing_lost_partial` | propext, Classical.choice, Quot.sound |
| `Aio.TestSubject.C75_order_partial` | propext, Classical.choice, Quot.sound |
| `Aio.TestSubject.C75_held_partial` | propext, Classical.choice, Quot.sound |
| `Aio.TestSubject.C75_released_partial` | propext, Classical.choice, Quot.sound |
| `Aio.TestSubject.C75_violated` | propext, Classical.choice, Quot.sound |
| `Aio.TestSubject.C75_violated_raise` | propext, Classical.choice, Quot.sound |
| `Aio.VirtualTime.C76_violated` | propext, Quot.sound |
| `Aio.VirtualTime.C76_same_time_partial` | propext, Classical.choice, Quot.sound |
| `Aio.Delay.C77_violated_all` | propext, Quot.sound |
| `Aio.Delay.C77_violated` | propext |
| `Aio.Delay.C77_first_not_early_partial` | propext, Quot.sound |
| `Aio.Debounce.C78_violated` | propext, Classical.choice, Quot.sound |
| `Aio.Debounce.C78_followed_partial` | propext, Classical.choice, Quot.sound |
| `Aio.SeqIter.C79_container_partial` | propext, Classical.choice, Quot.sound |
| `Aio.SeqIter.C79_violated` | propext, Classical.choice, Quot.sound |
| `Aio.SeqIter.C79_violated_empty` | propext, Quot.sound |
| `Aio.Iterate.C80_violated` | propext, Classical.choice, Quot.sound |
| `Aio.Iterate.C80_violated_empty` | propext |
| `Aio.Iterate.C80_partial` | propext, Quot.sound |
| `Aio.Iterator.C81_violated` | propext, Classical.choice, Quot.sound |
| `Aio.Iterator.C81_last_taken_partial` | propext, Classical.choice, Quot.sound |
| `Aio.SharedAwait.C82_future_partial` | propext, Quot.sound |
| `Aio.SharedAwait.C82_future_progress` | propext |
| `Aio.SharedAwait.C82_violated` | propext, Quot.sound |
| `Aio.SharedAwait.C82_violated_dispose` | propext, Quot.sound |
| `Aio.C83_direct_partial` | propext |
| `Aio.C83_violated` | propext |
| `Aio.Safe.C84_violated` | propext, Quot.sound |
| `Aio.Safe.C84_ended_partial` | propext, Quot.sound |
| `Aio.C84_violated_source` | propext, Quot.sound |
| `Aio.C84_violated_of_seq` | propext |
| `Aio.C85_flat_map` | propext, Classical.choice, Quot.sound |
| `Aio.C85_flat_map_async` | propext, Classical.choice, Quot.sound |
| `Aio.C85_flat_mapi` | propext, Classical.choice, Quot.sound |
| `Aio.C85_flat_mapi_async` | propext, Classical.choice, Quot.sound |
| `Aio.C85_flat_map_raising` | propext, Classical.choice, Quot.sound |
| `Aio.C85_flat_map_async_raising` | propext, Classical.choice, Quot.sound |
| `Aio.C85_flat_mapi_raising` | propext, Classical.choice, Quot.sound |
| `Aio.C85_merge` | propext, Classical.choice, Quot.sound |
| `Aio.C86_concat_map` | propext, Classical.choice, Quot.sound |
| `Aio.C86_concat_map_raising` | propext, Classical.choice, Quot.sound |
| `Aio.C86_concat_seq` | propext, Classical.choice, Quot.sound |
| `Aio.C87_flat_map_latest` | propext, Classical.choice, Quot.sound |
| `Aio.C87_flat_map_latest_async` | propext, Classical.choice, Quot.sound |
| `Aio.C87_flat_map_latest_raising` | propext, Classical.choice, Quot.sound |
| `Aio.Catch.C88_violated` | propext, Quot.sound |
| `Aio.Catch.C88_partial` | propext, Quot.sound |
| `Aio.C89_functions` | propext, Classical.choice, Quot.sound |
| `Aio.C90_law` | propext, Classical.choice, Quot.sound |
| `Aio.C90_violated` | propext, Classical.choice, Quot.sound |
| `Aio.C90_partial` | propext, Classical.choice, Quot.sound |
| `Aio.C91_violated_map` | propext, Classical.choice, Quot.sound |
| `Aio.C91_violated_choose` | propext, Classical.choice, Quot.sound |
| `Aio.C91_violated_filter` | propext, Classical.choice, Quot.sound |
| `Aio.C91_partial` | propext, Classical.choice, Quot.sound |
| `Aio.C91_violated_scan` | propext, Classical.choice, Quot.sound |
| `Aio.Detach.C92_violated` | propext, Classical.choice, Quot.sound |
| `Aio.Detach.C92_violated_pending` | propext, Classical.choice, Quot.sound |
| `Aio.Detach.C92_partial` | propext, Classical.choice, Quot.sound |
| `Aio.Detach.C92_take_partial` | propext, Classical.choice, Quot.sound |
| `Aio.DetachTwo.C93_take_until_violated` | propext, Classical.choice, Quot.sound |
| `Aio.DetachTwo.C93_violated_killed` | propext, Classical.choice, Quot.sound |
| `Aio.DetachTwo.C93_violated_pending` | propext, Classical.choice, Quot.sound |
| `Aio.DetachTwo.C93_partial` | propext, Classical.choice, Quot.sound |
| `Aio.SeqSource.C94_from_iterable_law` | propext, Classical.choice, Quot.sound |
| `Aio.SeqSource.C94_from_iterable_partial` | propext, Classical.choice, Quot.sound |
| `Aio.SeqSource.C94_from_iterable_violated` | propext, Classical.choice, Quot.sound |
| `Aio.SeqSource.C94_from_iterable_progress` | propext, Classical.choice, Quot.sound |
| `Aio.AsyncSource.C94_async_partial` | propext, Quot.sound |
| `Aio.AsyncSource.C94_generator_law` | propext, Classical.choice, Quot.sound |
| `Aio.AsyncSource.C94_generator_violated` | propext, Classical.choice, Quot.sound |
| `Aio.AsyncSource.C94_generator_violated_silent` | propext, Quot.sound |
| `Aio.AsyncSource.C94_generator_violated_dispose` | propext, Classical.choice, Quot.sound |
| `Aio.SeqSource.C95_partial` | propext, Quot.sound |
| `Aio.SeqSource.C95_violated` | propext, Quot.sound |
| `Aio.EndToEnd.C96_result` | propext, Classical.choice, Quot.sound |
| `Aio.EndToEnd.C96_can_finish` | propext, Classical.choice, Quot.sound |
| `Aio.EndToEnd.C96_terminates` | propext, Quot.sound |
| `Aio.EndToEnd.C96_list` | propext, Classical.choice, Quot.sound |
| `Aio.EndToEnd.C96_fail` | propext, Classical.choice, Quot.sound |
| `Aio.EndToEnd.C96_raising_iterable` | propext, Classical.choice, Quot.sound |
| `Aio.EndToEnd.C96_raising_function` | propext, Classical.choice, Quot.sound |
| `Aio.AsyncFor.C97_yields` | propext, Classical.choice, Quot.sound |
| `Aio.AsyncFor.C97_no_deadlock` | propext, Classical.choice, Quot.sound |
| `Aio.AsyncFor.C97_terminates` | propext, Classical.choice, Quot.sound |
| `Aio.AsyncFor.C97_answers` | propext, Classical.choice, Quot.sound |
| `Aio.AsyncFor.C97_list` | propext, Classical.choice, Quot.sound |
| `Aio.AsyncFor.C97_raising_function` | propext, Classical.choice, Quot.sound |
| `Aio.Subject.C98_partial` | propext, Quot.sound |
| `Aio.Subject.C98_violated` | propext |
| `Aio.Subject.C99_partial` | propext, Classical.choice, Quot.sound |
| `Aio.Subject.C99_violated` | propext |
| `Aio.Subject.C100_violated` | propext, Classical.choice, Quot.sound |
| `Aio.Subject.C100_violated_witness` | propext |
| `Aio.Subject.C100_partial` | propext, Classical.choice, Quot.sound |
| `Aio.C101_delivers` | propext, Classical.choice, Quot.sound |
| `Aio.C101_pipe` | propext, Classical.choice, Quot.sound |
| `Aio.C101_merge` | propext, Classical.choice, Quot.sound |
| `Aio.C101_concat` | propext, Classical.choice, Quot.sound |
| `Aio.C101_switch` | propext, Classical.choice, Quot.sound |
| `Aio.C101_flat_map` | propext, Classical.choice, Quot.sound |
| `Aio.C101_front` | propext, Quot.sound |
| `Aio.Running.C102_result` | propext, Quot.sound |
| `Aio.Running.C102_can_finish` | propext, Quot.sound |
| `Aio.Running.C102_run` | propext, Quot.sound |
| `Aio.C103_operators` | propext, Classical.choice, Quot.sound |
| `Aio.C103_timer` | propext, Classical.choice, Quot.sound |
| `Aio.Interval.C103_take` | propext, Classical.choice, Quot.sound |
| `Aio.Interval.C103_run` | propext, Classical.choice, Quot.sound |
| `Aio.Interval.C103_in_time` | propext, Classical.choice, Quot.sound |
| `Aio.Subscribing.C104_combine_violated` | propext, Classical.choice, Quot.sound |
| `Aio.Subscribing.C104_take_until_violated` | propext, Classical.choice, Quot.sound |
| `Aio.Subscribing.C104_no_disposable` | propext, Quot.sound |
| `Aio.Subscribing.C104_partial` | propext, Quot.sound |
| `Aio.C105_map_map` | propext, Classical.choice, Quot.sound |
| `Aio.C105_map_map_raising` | propext, Classical.choice, Quot.sound |
| `Aio.C105_map_id` | propext, Classical.choice, Quot.sound |
| `Aio.C105_filter_filter` | propext, Classical.choice, Quot.sound |
| `Aio.C105_map_filter` | propext, Classical.choice, Quot.sound |
| `Aio.C105_filter_map` | propext, Classical.choice, Quot.sound |
| `Aio.C105_choose_choose` | propext, Classical.choice, Quot.sound |
| `Aio.C105_map_scan` | propext, Classical.choice, Quot.sound |
| `Aio.C105_map_mapi` | propext, Classical.choice, Quot.sound |
| `Aio.C105_map_skip` | propext, Classical.choice, Quot.sound |
| `Aio.C105_map_take` | propext, Classical.choice, Quot.sound |
| `Aio.C105_map_take_last` | propext, Classical.choice, Quot.sound |
| `Aio.C105_skip_skip` | propext, Classical.choice, Quot.sound |
| `Aio.C105_skip_none` | propext, Classical.choice, Quot.sound |
| `Aio.C105_take_take` | propext, Classical.choice, Quot.sound |
| `Aio.C105_skip_take` | propext, Classical.choice, Quot.sound |
| `Aio.C105_take_last_take_last` | propext, Classical.choice, Quot.sound |
| `Aio.C105_skip_last_skip_last` | propext, Classical.choice, Quot.sound |
| `Aio.C105_distinct_twice` | propext, Classical.choice, Quot.sound |
| `Aio.C105_take_zero_differs` | propext, Classical.choice, Quot.sound |
| `Aio.C105_skip_filter_differs` | propext, Classical.choice, Quot.sound |
| `Aio.C106_combine_latest` | propext, Classical.choice, Quot.sound |
| `Aio.C106_with_latest_from` | propext, Classical.choice, Quot.sound |
| `Aio.C106_take_until` | propext, Classical.choice, Quot.sound |
| `Aio.C106_delivers` | propext, Classical.choice, Quot.sound |
| `Aio.C106_sends` | propext, Classical.choice, Quot.sound |
| `Aio.C106_last_pair` | propext, Quot.sound |
| `Aio.C106_pairs_of_values` | propext, Quot.sound |
| `Aio.C106_from_then_on` | propext, Quot.sound |
| `Aio.C106_until` | propext, Quot.sound |
| `Aio.C106_combine_latest_at_rest` | propext, Classical.choice, Quot.sound |
| `Aio.C106_with_latest_from_at_rest` | propext, Classical.choice, Quot.sound |
| `Aio.C106_take_until_at_rest` | propext, Classical.choice, Quot.sound |
| `Aio.Delay.C107_delay` | propext, Classical.choice, Quot.sound |
| `Aio.Delay.C107_exact` | propext, Classical.choice, Quot.sound |
| `Aio.Delay.C107_twice` | propext, Classical.choice, Quot.sound |
| `Aio.Interval.C107_interval` | propext, Classical.choice, Quot.sound |
| `Aio.Interval.C107_interval_exact` | propext, Classical.choice, Quot.sound |
| `Aio.Debounce.C108_debounce` | propext, Classical.choice, Quot.sound |
| `Aio.Debounce.C108_exact` | propext, Classical.choice, Quot.sound |
| `Aio.Interval.C108_interval_fast` | propext, Classical.choice, Quot.sound |
| `Aio.Interval.C108_interval_slow` | propext, Classical.choice, Quot.sound |
| `Aio.C109_operator` | propext, Classical.choice, Quot.sound |
| `Aio.C109_two` | propext, Classical.choice, Quot.sound |
| `Aio.C109_map` | propext, Classical.choice, Quot.sound |
| `Aio.Interval.C109_interval_take` | propext, Classical.choice, Quot.sound |
| `Aio.C110_before` | propext, Classical.choice, Quot.sound |
| `Aio.C110_after` | propext, Classical.choice, Quot.sound |
| `Aio.Interval.C110_interval` | propext, Classical.choice, Quot.sound |
| `Aio.C111_with_latest_from` | propext, Classical.choice, Quot.sound |
| `Aio.C111_with_latest_from_all` | propext, Classical.choice, Quot.sound |
| `Aio.C111_combine_latest` | propext, Classical.choice, Quot.sound |
| `Aio.C111_combine_latest_all` | propext, Classical.choice, Quot.sound |
| `Aio.Nested.C112_subscribed` | propext, Classical.choice, Quot.sound |
| `Aio.Nested.C112_completed` | propext, Classical.choice, Quot.sound |
| `Aio.Nested.C112_arrive` | propext, Classical.choice, Quot.sound |
| `Aio.Nested.C112_last` | propext, Classical.choice, Quot.sound |
| `Aio.Nested.C112_observed` | propext, Classical.choice, Quot.sound |
| `Aio.Nested.C112_intervals` | propext, Classical.choice, Quot.sound |
| `Aio.Nested.C112_intervals_exact` | propext, Classical.choice, Quot.sound |
| `Aio.Nested.C113_subscribed` | propext, Classical.choice, Quot.sound |
| `Aio.Nested.C113_in_order` | propext, Classical.choice, Quot.sound |
| `Aio.Nested.C113_timers` | propext, Classical.choice, Quot.sound |
| `Aio.Nested.C113_timers_observed` | propext, Classical.choice, Quot.sound |
| `Aio.Nested.C114_in_order` | propext, Classical.choice, Quot.sound |
| `Aio.Nested.C114_subscribed` | propext, Classical.choice, Quot.sound |
| `Aio.Nested.C114_intervals` | propext, Classical.choice, Quot.sound |
| `Aio.Nested.C114_intervals_exact` | propext, Classical.choice, Quot.sound |
| `Aio.Caught.C115_in_order` | propext, Quot.sound |
| `Aio.Caught.C115_handled` | propext, Quot.sound |
| `Aio.Caught.C115_continues` | propext, Quot.sound |
| `Aio.Caught.C115_delayed` | propext, Classical.choice, Quot.sound |
| `Aio.Caught.C115_fallback` | propext, Classical.choice, Quot.sound |
| `Aio.Sampled.C116_sample` | propext, Classical.choice, Quot.sound |
| `Aio.Hosted.C117_calm` | propext, Classical.choice, Quot.sound |
| `Aio.Hosted.C117_schedule` | propext, Classical.choice, Quot.sound |
| `Aio.Hosted.C117_progress` | propext, Classical.choice, Quot.sound |
| `Aio.Hosted.C117_rest` | propext, Classical.choice, Quot.sound |
| `Aio.Interval.C117_interval` | propext, Classical.choice, Quot.sound |
| `Aio.Interval.C117_timer` | propext, Classical.choice, Quot.sound |
| `Aio.Interval.C117_timer_ends` | propext |
| `Aio.Debounce.C117_debounce` | propext, Classical.choice, Quot.sound |
| `Aio.Interval.C117_interval_debounce` | propext, Classical.choice, Quot.sound |
| `Aio.C117_operator` | propext, Classical.choice, Quot.sound |
| `Aio.C117_two` | propext, Classical.choice, Quot.sound |
| `Aio.Interval.C117_interval_take` | propext, Classical.choice, Quot.sound |
| `Aio.Interval.C117_take_until` | propext, Classical.choice, Quot.sound |
| `Aio.Deadline.C118_never_early` | propext, Quot.sound |
| `Aio.Deadline.C118_exact` | propext, Quot.sound |
| `Aio.Deadline.C118_in_time` | propext, Classical.choice, Quot.sound |
| `Aio.Deadline.C118_timeout` | propext, Classical.choice, Quot.sound |
| `Aio.Interval.C118_timer` | propext, Classical.choice, Quot.sound |
| `Aio.Interval.C118_interval` | propext, Classical.choice, Quot.sound |
| `Aio.Interval.C118_interval_take` | propext, Classical.choice, Quot.sound |
| `Aio.C119_debounce` | propext, Classical.choice, Quot.sound |
| `Aio.C119_asked` | propext, Classical.choice, Quot.sound |
| `Aio.C119_searches` | propext, Classical.choice, Quot.sound |
| `Aio.C119_results` | propext, Classical.choice, Quot.sound |
| `Aio.C119_shown` | propext, Classical.choice, Quot.sound |
| `Aio.C119_readme` | propext, Classical.choice, Quot.sound |
| `Aio.Shared.C120_heard` | propext, Classical.choice, Quot.sound |
| `Aio.Shared.C120_subscribed` | propext, Classical.choice, Quot.sound |
| `Aio.Shared.C120_follows` | propext, Classical.choice, Quot.sound |
| `Aio.Shared.C120_nothing_else` | propext, Classical.choice, Quot.sound |
| `Aio.Shared.C120_since` | propext, Classical.choice, Quot.sound |
| `Aio.Nested.C121_order` | propext, Classical.choice, Quot.sound |
| `Aio.Nested.C121_count` | propext, Classical.choice, Quot.sound |
| `Aio.Nested.C121_begun` | propext, Classical.choice, Quot.sound |
| `Aio.Jobs.C122_results` | propext, Classical.choice, Quot.sound |
| `Aio.Jobs.C122_parallel` | propext, Classical.choice, Quot.sound |
| `Aio.Jobs.C122_begun` | propext, Classical.choice, Quot.sound |
| `Aio.Jobs.C122_at_most` | propext, Classical.choice, Quot.sound |
| `Aio.Jobs.C122_no_idle_slot` | propext, Classical.choice, Quot.sound |
| `Aio.Jobs.C122_wait` | propext, Classical.choice, Quot.sound |
| `Aio.Jobs.C122_completed` | propext, Classical.choice, Quot.sound |
| `Aio.Jobs.C122_soonest` | propext, Classical.choice, Quot.sound |
| `Aio.Jobs.C122_latest` | propext, Classical.choice, Quot.sound |
| `Aio.Busy.C123_exact` | propext, Classical.choice, Quot.sound |
| `Aio.Busy.C123_one_at_a_time` | propext, Classical.choice, Quot.sound |
| `Aio.Busy.C123_keeps_up` | propext, Classical.choice, Quot.sound |
| `Aio.Busy.C123_batch` | propext, Classical.choice, Quot.sound |
| `Aio.Busy.C123_falls_behind` | propext, Classical.choice, Quot.sound |
| `Aio.Interval.C123_interval_waits` | propext, Classical.choice, Quot.sound |
| `Aio.Work.C124_exact` | propext, Classical.choice, Quot.sound |
| `Aio.Work.C124_same_work` | propext, Classical.choice, Quot.sound |
| `Aio.Work.C124_map_map` | propext, Quot.sound |
| `Aio.Work.C124_order` | propext, Classical.choice, Quot.sound |
| `Aio.Work.C124_batch` | propext, Classical.choice, Quot.sound |
| `Aio.Work.C124_keeps_up` | propext, Classical.choice, Quot.sound |
| `Aio.Work.C124_falls_behind` | propext, Classical.choice, Quot.sound |
| `Aio.Loop.C125_exact` | propext, Classical.choice, Quot.sound |
| `Aio.Loop.C125_order` | propext, Classical.choice, Quot.sound |
| `Aio.Loop.C125_one_at_a_time` | propext, Classical.choice, Quot.sound |
| `Aio.Loop.C125_overlap` | propext, Classical.choice, Quot.sound |
| `Aio.Loop.C125_subscribed_instead` | propext, Classical.choice, Quot.sound |
| `Aio.Loop.C125_keeps_up` | propext, Classical.choice, Quot.sound |
| `Aio.C126_exact` | propext, Classical.choice, Quot.sound |
| `Aio.C126_interval` | propext, Classical.choice, Quot.sound |
| `Aio.Work.C127_exact` | propext, Classical.choice, Quot.sound |
| `Aio.Work.C127_totals` | propext, Classical.choice, Quot.sound |
| `Aio.Work.C127_batch` | propext, Classical.choice, Quot.sound |
| `Aio.Work.C127_keeps_up` | propext, Classical.choice, Quot.sound |
| `Aio.Work.C128_behind` | propext, Classical.choice, Quot.sound |
| `Aio.Work.C128_reduce_running` | propext, Classical.choice, Quot.sound |
| `Aio.Work.C128_reduce` | propext, Classical.choice, Quot.sound |
| `Aio.Work.C128_reduce_failed` | propext, Classical.choice, Quot.sound |
| `Aio.WorkInner.C129_subscribed` | propext, Classical.choice, Quot.sound |
| `Aio.WorkInner.C129_switched` | propext, Classical.choice, Quot.sound |
| `Aio.WorkInner.C129_jobs` | propext, Classical.choice, Quot.sound |
| `Aio.Work.C130_chain` | propext, Classical.choice, Quot.sound |
| `Aio.Work.C130_scan` | propext, Classical.choice, Quot.sound |
| `Aio.Work.C130_behind` | propext, Classical.choice, Quot.sound |
| `Aio.Work.C130_reduce` | propext, Classical.choice, Quot.sound |
| `Aio.Interval.C130_interval` | propext, Classical.choice, Quot.sound |
| `Aio.Interval.C130_interval_slow` | propext, Classical.choice, Quot.sound |
| `Aio.Nested.C131_schedule` | propext, Classical.choice, Quot.sound |
| `Aio.Nested.C131_merge` | propext, Classical.choice, Quot.sound |
| `Aio.Nested.C131_concat` | propext, Classical.choice, Quot.sound |
| `Aio.Nested.C131_completed` | propext, Classical.choice, Quot.sound |
| `Aio.Nested.C131_observed` | propext, Classical.choice, Quot.sound |
| `Aio.Nested.C131_intervals` | propext, Classical.choice, Quot.sound |
| `Aio.Nested.C131_timers` | propext, Classical.choice, Quot.sound |
| `Aio.Nested.C131_parallel` | propext, Classical.choice, Quot.sound |
| `Aio.Nested.C131_slots` | propext, Classical.choice, Quot.sound |
| `Aio.Nested.C132_schedule` | propext, Classical.choice, Quot.sound |
| `Aio.Nested.C132_subscribed` | propext, Classical.choice, Quot.sound |
| `Aio.Nested.C132_told` | propext, Classical.choice, Quot.sound |
| `Aio.Nested.C132_observed` | propext, Classical.choice, Quot.sound |
| `Aio.Nested.C132_intervals` | propext, Classical.choice, Quot.sound |
| `Aio.Nested.C133_cancelled` | propext, Classical.choice, Quot.sound |
| `Aio.Nested.C133_results` | propext, Classical.choice, Quot.sound |
| `Aio.Nested.C133_answers` | propext, Classical.choice, Quot.sound |
| `Aio.C134_asked` | propext, Classical.choice, Quot.sound |
| `Aio.C134_results` | propext, Classical.choice, Quot.sound |
| `Aio.C134_readme` | propext, Classical.choice, Quot.sound |
| `Aio.C135_flat_map_async` | propext, Classical.choice, Quot.sound |
| `Aio.C135_search_box` | propext, Classical.choice, Quot.sound |
| `Aio.C135_autocomplete` | propext, Classical.choice, Quot.sound |
| `Aio.Deadline.C136_run` | propext, Classical.choice, Quot.sound |
| `Aio.Deadline.C136_verdict` | propext, Classical.choice, Quot.sound |
| `Aio.Deadline.C136_timeout` | propext, Classical.choice, Quot.sound |
| `Aio.Deadline.C136_released` | propext, Classical.choice, Quot.sound |
| `Aio.C136_operator` | propext, Classical.choice, Quot.sound |
| `Aio.Interval.C136_timer` | propext, Classical.choice, Quot.sound |
| `Aio.Interval.C136_interval` | propext, Classical.choice, Quot.sound |
| `Aio.Interval.C136_interval_take` | propext, Classical.choice, Quot.sound |
| `Aio.Interval.C136_interval_take_released` | propext, Classical.choice, Quot.sound |
| `Aio.Interval.C136_interval_released` | propext, Classical.choice, Quot.sound |
| `Aio.VirtualTime.C137_same_partial` | propext, Classical.choice, Quot.sound |
| `Aio.VirtualTime.C137_program_partial` | propext, Classical.choice, Quot.sound |
| `Aio.VirtualTime.C137_violated_tied` | propext, Quot.sound |
| `Aio.VirtualTime.C137_violated_zero` | propext, Quot.sound |
| `Aio.VirtualTime.C137_busy_normal` | propext, Classical.choice, Quot.sound |
| `Aio.VirtualTime.C137_violated_busy` | propext, Classical.choice, Quot.sound |
| `Aio.VirtualTime.C137_starves` | propext, Classical.choice, Quot.sound |
| `Aio.VirtualTime.C137_normal_takes_due` | propext, Quot.sound |
| `Aio.VirtualTime.C137_heap_partial` | propext, Classical.choice, Quot.sound |
| `Aio.Loop.C138_exact` | propext, Classical.choice, Quot.sound |
| `Aio.Loop.C138_no_spin` | propext, Classical.choice, Quot.sound |
| `Aio.Interval.C138_interval` | propext, Classical.choice, Quot.sound |
| `Aio.Interval.C138_interval_slow` | propext, Classical.choice, Quot.sound |
| `Aio.Loop.C139_violated_worker_left` | propext, Classical.choice, Quot.sound |
| `Aio.Loop.C139_consumer_partial` | propext, Classical.choice, Quot.sound |
| `Aio.Loop.C139_violated_mailbox` | propext, Classical.choice, Quot.sound |
| `Aio.Interval.C139_violated_interval` | propext, Classical.choice, Quot.sound |
| `Aio.Direct.C140_iterable` | propext, Classical.choice, Quot.sound |
| `Aio.Direct.C140_interval` | propext, Classical.choice, Quot.sound |
| `Aio.Direct.C140_iterable_behind` | propext, Classical.choice, Quot.sound |
| `Aio.Direct.C140_released` | propext, Classical.choice, Quot.sound |
| `Aio.Direct.C140_interval_times` | propext, Classical.choice, Quot.sound |
| `Aio.Direct.C140_interval_raises` | propext, Classical.choice, Quot.sound |
| `Aio.Direct.C140_generator` | propext, Classical.choice, Quot.sound |
| `Aio.SelfCancel.C141_violated_interval` | propext, Quot.sound |
| `Aio.SelfCancel.C141_interval_partial` | propext, Quot.sound |
| `Aio.SelfCancel.C141_violated_iterable` | propext |
| `Aio.SelfCancel.C141_violated_goes_on` | propext |
| `Aio.SelfCancel.C141_mailbox_partial` | propext |
| `Aio.SelfCancel.C141_timer_partial` | propext |
| `Aio.SelfCancel.C142_violated` | propext |
| `Aio.SelfCancel.C142_partial` | propext |
| `Aio.SelfCancel.C142_no_error_partial` | propext |
| `Aio.SelfCancel.C142_mailbox_partial` | propext |
| `Aio.Effects.C143_loop` | propext, Quot.sound |
| `Aio.Effects.C143_once` | propext, Quot.sound |
| `Aio.Effects.C144_all_called` | propext, Quot.sound |
| `Aio.Effects.C144_after` | propext, Quot.sound |
| `Aio.Feedback.C145_exact` | propext, Quot.sound |
| `Aio.Feedback.C145_violated` | propext, Quot.sound |
| `Aio.Feedback.C145_violated_close` | propext, Quot.sound |
| `Aio.Feedback.C145_same_partial` | propext, Quot.sound |
| `Aio.Feedback.C145_level_order_partial` | propext, Classical.choice, Quot.sound |
| `Aio.Debounce.C146_debounce` | propext, Classical.choice, Quot.sound |
| `Aio.Debounce.C146_debounce_any` | propext, Classical.choice, Quot.sound |
| `Aio.Delay.C146_delay` | propext, Classical.choice, Quot.sound |
| `Aio.RoundTrip.C147_prefix_partial` | propext, Classical.choice, Quot.sound |
| `Aio.RoundTrip.C147_all_partial` | propext, Classical.choice, Quot.sound |
| `Aio.RoundTrip.C147_violated` | propext, Classical.choice, Quot.sound |
| `Aio.Twice.C148_partial` | propext, Classical.choice, Quot.sound |
| `Aio.Twice.C148_violated` | propext, Quot.sound |
| `Aio.C149_partial` | propext, Classical.choice, Quot.sound |
| `Aio.C149_exact_partial` | propext, Classical.choice, Quot.sound |
| `Aio.C149_violated` | propext, Classical.choice, Quot.sound |
| `Aio.C150_exact_partial` | propext, Classical.choice, Quot.sound |
| `Aio.C150_violated` | propext, Classical.choice, Quot.sound |
| `Aio.C150_mailbox_partial` | propext, Classical.choice, Quot.sound |
| `Aio.C150_paced_partial` | propext, Classical.choice, Quot.sound |
| `Aio.C151_until` | propext, Classical.choice, Quot.sound |
| `Aio.C151_take_until_value` | propext, Classical.choice, Quot.sound |
| `Aio.C152_any_call` | propext, Classical.choice, Quot.sound |
| `Aio.C152_exact_partial` | propext, Classical.choice, Quot.sound |
| `Aio.C152_paced_partial` | propext, Classical.choice, Quot.sound |
| `Aio.C152_observed_partial` | propext, Classical.choice, Quot.sound |
| `Aio.C152_violated` | propext |
| `Aio.C153_never` | propext, Classical.choice, Quot.sound |
| `Aio.C153_violated` | propext |
| `Aio.C153_violated_gap` | propext |
| `Aio.C153_paced_partial` | propext, Classical.choice, Quot.sound |
| `Aio.C153_observed_partial` | propext, Classical.choice, Quot.sound |
| `Aio.C153_order_partial` | propext, Classical.choice, Quot.sound |
| `Aio.C154_any_call` | propext, Classical.choice, Quot.sound |
| `Aio.C154_exact_partial` | propext, Classical.choice, Quot.sound |
| `Aio.C154_paced_partial` | propext, Classical.choice, Quot.sound |
| `Aio.C154_observed_partial` | propext, Classical.choice, Quot.sound |
| `Aio.C154_violated` | propext, Quot.sound |
| `Aio.C155_merge_partial` | propext, Classical.choice, Quot.sound |
| `Aio.C155_switch_partial` | propext, Classical.choice, Quot.sound |
| `Aio.C155_violated` | propext, Quot.sound |
| `Aio.C155_violated_switch` | propext, Quot.sound |
| `Aio.C156_any_call` | propext, Classical.choice, Quot.sound |
| `Aio.C156_exact` | propext, Classical.choice, Quot.sound |
| `Aio.C156_observed` | propext, Classical.choice, Quot.sound |
| `Aio.C157_violated` | propext, Quot.sound |
| `Aio.C157_partial` | propext, Quot.sound |
| `Aio.C158_exact` | propext, Classical.choice, Quot.sound |
| `Aio.C158_merge` | propext, Classical.choice, Quot.sound |
| `Aio.C158_rests` | propext, Classical.choice, Quot.sound |
| `Aio.C159_concat` | propext, Classical.choice, Quot.sound |
| `Aio.C159_observed` | propext, Classical.choice, Quot.sound |
| `Aio.C160_violated_merge` | propext, Quot.sound |
| `Aio.C160_violated_switch` | propext, Classical.choice, Quot.sound |
| `Aio.C160_partial` | propext, Quot.sound |
| `Aio.C160_switch_partial` | propext, Classical.choice, Quot.sound |
| `Aio.C161_direct_partial` | propext, Classical.choice, Quot.sound |
| `Aio.C161_violated` | propext, Classical.choice, Quot.sound |
| `Aio.C161_violated_underway` | propext, Quot.sound |
| `Aio.DetachSingle.C162_violated` | propext, Classical.choice, Quot.sound |
| `Aio.DetachSingle.C162_violated_disposed` | propext, Classical.choice, Quot.sound |
| `Aio.DetachSingle.C162_violated_take` | propext, Classical.choice, Quot.sound |
| `Aio.DetachSingle.C162_partial` | propext, Quot.sound |
| `Aio.Single.C163_pipe` | propext, Classical.choice, Quot.sound |
| `Aio.Single.C163_gets_there` | propext, Classical.choice, Quot.sound |
| `Aio.Single.C163_run` | propext, Classical.choice, Quot.sound |
| `Aio.SlowSubject.C164_exact` | propext, Classical.choice, Quot.sound |
| `Aio.SlowSubject.C164_violated` | propext, Classical.choice, Quot.sound |
| `Aio.SlowSubject.C164_partial` | propext, Classical.choice, Quot.sound |
| `Aio.SlowSubject.C164_goes_on` | propext, Quot.sound |
| `Aio.SlowSubject.C164_violated_witness` | propext |
| `Aio.C165_take_last` | propext, Classical.choice, Quot.sound |
| `Aio.C165_skip_last` | propext, Classical.choice, Quot.sound |
| `Aio.C165_bound` | propext, Classical.choice, Quot.sound |
| `Aio.DetachTwo.C166_side` | propext, Classical.choice, Quot.sound |
| `Aio.DetachTwo.C166_both` | propext, Classical.choice, Quot.sound |
| `Aio.DetachTwo.C166_others` | propext, Classical.choice, Quot.sound |
| `Aio.FlatMap.C167_determinate` | propext, Classical.choice, Quot.sound |
| `Aio.FlatMap.C167_congruence` | propext, Classical.choice, Quot.sound |
| `Aio.FlatMap.C167_left` | propext, Classical.choice, Quot.sound |
| `Aio.FlatMap.C167_right` | propext, Classical.choice, Quot.sound |
| `Aio.FlatMap.C167_associative` | propext, Classical.choice, Quot.sound |
| `Aio.FlatMap.C167_interval` | propext, Classical.choice, Quot.sound |
| `Aio.Flatten.C168_left` | propext, Classical.choice, Quot.sound |
| `Aio.Flatten.C168_right` | propext, Classical.choice, Quot.sound |
| `Aio.Flatten.C168_associative` | propext, Classical.choice, Quot.sound |
| `Aio.Flatten.C168_concat_left` | propext, Classical.choice, Quot.sound |
| `Aio.Flatten.C168_concat_right` | propext, Classical.choice, Quot.sound |
| `Aio.Flatten.C168_concat_associative` | propext, Classical.choice, Quot.sound |
| `Aio.IterDispose.C169_yields` | propext, Classical.choice, Quot.sound |
| `Aio.IterDispose.C169_violated_subscribing` | propext |
| `Aio.IterDispose.C169_violated_overlap` | propext |
| `Aio.IterDispose.C169_released_partial` | propext, Quot.sound |
| `Aio.IterDispose.C169_one_at_a_time_partial` | propext, Classical.choice, Quot.sound |
| `Aio.IterDispose.C169_released_plain` | propext, Quot.sound |
| `Aio.IterDispose.C170_violated` | propext, Classical.choice, Quot.sound |
| `Aio.IterDispose.C170_violated_example` | propext |
| `Aio.IterDispose.C170_partial` | propext, Classical.choice, Quot.sound |
| `Aio.Flatten.C171_fair` | propext, Classical.choice, Quot.sound |
| `Aio.Flatten.C171_sublist` | propext, Classical.choice, Quot.sound |
| `Aio.Flatten.C171_concat` | propext, Classical.choice, Quot.sound |
| `Aio.Flatten.C171_last` | propext, Classical.choice, Quot.sound |
| `Aio.Flatten.C171_left` | propext, Classical.choice, Quot.sound |
| `Aio.Flatten.C171_right` | propext, Classical.choice, Quot.sound |
| `Aio.Flatten.C171_loses` | propext, Quot.sound |
| `Aio.Flatten.C172_flat_map` | propext, Classical.choice, Quot.sound |
| `Aio.Flatten.C172_concat` | propext, Classical.choice, Quot.sound |
| `Aio.Flatten.C172_before` | propext, Classical.choice, Quot.sound |
| `Aio.Flatten.C172_map` | propext, Classical.choice, Quot.sound |
| `Aio.Flatten.C172_each_map` | propext, Classical.choice, Quot.sound |
| `Aio.Flatten.C172_each_filter` | propext, Classical.choice, Quot.sound |
| `Aio.Flatten.C172_each_choose` | propext, Classical.choice, Quot.sound |
| `Aio.Linger.C173_answered_violated` | propext, Classical.choice, Quot.sound |
| `Aio.Linger.C173_all_violated` | propext, Classical.choice, Quot.sound |
| `Aio.Nested.C173_latest_partial` | propext, Classical.choice, Quot.sound |
| `Aio.Linger.C173_violated` | propext, Quot.sound |
| `Aio.Caught.C174_schedule` | propext, Classical.choice, Quot.sound |
| `Aio.Caught.C174_in_order` | propext, Classical.choice, Quot.sound |
| `Aio.Caught.C174_handled` | propext, Classical.choice, Quot.sound |
| `Aio.Caught.C174_operator` | propext, Classical.choice, Quot.sound |
| `Aio.Caught.C174_fallback` | propext, Classical.choice, Quot.sound |
| `Aio.Caught.C175_violated` | propext, Classical.choice, Quot.sound |
| `Aio.Caught.C175_partial` | propext, Classical.choice, Quot.sound |
| `Aio.Caught.C176_again` | propext, Quot.sound |
| `Aio.Caught.C176_violated` | propext, Classical.choice, Quot.sound |
| `Aio.Caught.C176_partial` | propext, Classical.choice, Quot.sound |
| `Aio.Linger.C177_answered_violated` | propext, Classical.choice, Quot.sound |
| `Aio.Linger.C177_partial` | propext, Classical.choice, Quot.sound |
| `Aio.Linger.C177_violated` | propext, Quot.sound |
| `Aio.C178_all_violated` | propext, Classical.choice, Quot.sound |
| `Aio.C178_partial` | propext, Classical.choice, Quot.sound |
| `Aio.C178_violated` | propext, Quot.sound |
| `Aio.Caught.C179_second_violated` | propext, Quot.sound |
| `Aio.Caught.C179_again_violated` | propext, Quot.sound |
| `Aio.Caught.C179_partial` | propext, Quot.sound |
| `Aio.Caught.C179_violated` | propext, Quot.sound |
| `Aio.Caught.C180_recovers` | propext, Quot.sound |
| `Aio.Caught.C180_same` | propext, Quot.sound |
| `Aio.Caught.C180_move` | propext, Classical.choice, Quot.sound |
| `Aio.Caught.C180_no_error` | propext, Quot.sound |
| `Aio.Caught.C180_error` | propext, Quot.sound |
| `Aio.C181_delayed` | propext, Classical.choice, Quot.sound |
| `Aio.C181_behind` | propext, Classical.choice, Quot.sound |
| `Aio.C181_before` | propext, Classical.choice, Quot.sound |
| `Aio.C181_moves` | propext, Classical.choice, Quot.sound |
| `Aio.IterTasks.C182_held` | propext, Quot.sound |
| `Aio.IterTasks.C182_safe` | propext, Quot.sound |
| `Aio.IterTasks.C182_no_key_error` | propext, Quot.sound |
| `Aio.IterTasks.C182_clean_partial` | propext, Quot.sound |
| `Aio.IterTasks.C182_forever_violated` | propext, Quot.sound |
| `Aio.IterTasks.C182_clean_violated` | propext, Quot.sound |
| `Aio.Debounces.C183_at_least` | propext, Classical.choice, Quot.sound |
| `Aio.Debounces.C183_at_most` | propext, Classical.choice, Quot.sound |
| `Aio.Debounces.C183_longer_first` | propext, Classical.choice, Quot.sound |
| `Aio.Debounces.C183_order_matters` | propext |
| `Aio.DebounceMoves.C184_behind` | propext, Classical.choice, Quot.sound |
| `Aio.DebounceMoves.C184_before` | propext, Classical.choice, Quot.sound |
| `Aio.DebounceMoves.C184_map` | propext, Classical.choice, Quot.sound |
| `Aio.DebounceMoves.C184_filter` | propext, Classical.choice, Quot.sound |
| `Aio.DebounceMoves.C184_filter_order` | propext |
| `Aio.DelayDebounce.C185_delay_first` | propext, Classical.choice, Quot.sound |
| `Aio.DelayDebounce.C185_delay_last` | propext, Classical.choice, Quot.sound |
| `Aio.DelayDebounce.C185_moves` | propext, Classical.choice, Quot.sound |
| `Aio.HostedDebounce.C186_twice` | propext, Classical.choice, Quot.sound |
| `Aio.HostedDebounce.C186_behind` | propext, Classical.choice, Quot.sound |
| `Aio.HostedDebounce.C186_before` | propext, Classical.choice, Quot.sound |
| `Aio.HostedDebounce.C186_map` | propext, Classical.choice, Quot.sound |
| `Aio.HostedDebounce.C186_filter` | propext, Classical.choice, Quot.sound |
| `Aio.HostedDebounce.C186_filter_order` | propext, Quot.sound |
| `Aio.DelayMerge.C187_outside` | propext, Classical.choice, Quot.sound |
| `Aio.DelayMerge.C187_inside` | propext, Classical.choice, Quot.sound |
| `Aio.DelayMerge.C187_same` | propext, Classical.choice, Quot.sound |
| `Aio.DelayMerge.C187_completed_inside` | propext, Classical.choice, Quot.sound |
| `Aio.DelayMerge.C187_completed_outside` | propext, Classical.choice, Quot.sound |
| `Aio.DelayMerge.C187_completed_order` | propext, Quot.sound |
| `Aio.DebounceMerge.C188_outside` | propext, Classical.choice, Quot.sound |
| `Aio.DebounceMerge.C188_inside` | propext, Classical.choice, Quot.sound |
| `Aio.DebounceMerge.C188_more` | propext, Classical.choice, Quot.sound |
| `Aio.DebounceMerge.C188_order` | propext, Quot.sound |
| `Aio.DelaySwitch.C189_outside` | propext, Classical.choice, Quot.sound |
| `Aio.DelaySwitch.C189_inside` | propext, Classical.choice, Quot.sound |
| `Aio.DelaySwitch.C189_inside_all` | propext, Classical.choice, Quot.sound |
| `Aio.DelaySwitch.C189_fewer` | propext, Classical.choice, Quot.sound |
| `Aio.DelaySwitch.C189_order` | propext, Quot.sound |
| `Aio.DelaySwitch.C189_late` | propext, Quot.sound |
| `Aio.DebounceDistinct.C190_behind` | propext, Classical.choice, Quot.sound |
| `Aio.DebounceDistinct.C190_before` | propext, Classical.choice, Quot.sound |
| `Aio.DebounceDistinct.C190_no_repeat` | propext, Classical.choice, Quot.sound |
| `Aio.DebounceDistinct.C190_earlier` | propext, Classical.choice, Quot.sound |
| `Aio.DebounceDistinct.C190_order` | propext |
| `Aio.DebounceScan.C191_behind` | propext, Classical.choice, Quot.sound |
| `Aio.DebounceScan.C191_before` | propext, Classical.choice, Quot.sound |
| `Aio.DebounceScan.C191_same_times` | propext, Classical.choice, Quot.sound |
| `Aio.DebounceScan.C191_order` | propext |
| `Aio.DebounceTake.C192_behind` | propext, Classical.choice, Quot.sound |
| `Aio.DebounceTake.C192_before` | propext, Classical.choice, Quot.sound |
| `Aio.DebounceTake.C192_order` | propext |
| `Aio.DebounceSkip.C193_behind` | propext, Classical.choice, Quot.sound |
| `Aio.DebounceSkip.C193_before` | propext, Classical.choice, Quot.sound |
| `Aio.DebounceSkip.C193_suffix` | propext, Classical.choice, Quot.sound |
| `Aio.DebounceSkip.C193_order` | propext |
