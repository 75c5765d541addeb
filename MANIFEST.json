{
 "claims": [
  {
   "property": "C01",
   "status": "proved",
   "theorems": [
    "Aiok8s.WorkQueue.C01_no_concurrent_processing"
   ],
   "note": "History theorem for every call sequence."
  },
  {
   "property": "C02",
   "status": "proved",
   "theorems": [
    "Aiok8s.WorkQueue.C02_accepted_add_not_lost",
    "Aiok8s.WorkQueue.C02_waiting_item_is_served"
   ],
   "note": "Not lost, and served within pre.length+1 gets. Two theorems."
  },
  {
   "property": "C03",
   "status": "proved",
   "theorems": [
    "Aiok8s.WorkQueue.C03_delivery_needs_new_add",
    "Aiok8s.WorkQueue.C03_len_counts_distinct"
   ],
   "note": "Two theorems: a delivery needs a new accepted add; len counts distinct items."
  },
  {
   "property": "C04",
   "status": "proved",
   "theorems": [
    "Aiok8s.WorkQueue.C04_refines_reference",
    "Aiok8s.WorkQueueSched.C04_tasks_refine_reference"
   ],
   "note": "Trace equality with the reference queue (Spec/WorkQueue.lean), also for any interleaving of tasks."
  },
  {
   "property": "C05",
   "status": "proved",
   "theorems": [
    "Aiok8s.WorkQueue.C05_add_ignored_after_shutdown",
    "Aiok8s.WorkQueue.C05_get_never_blocks_after_shutdown",
    "Aiok8s.WorkQueue.C05_drain_then_quit",
    "Aiok8s.WorkQueue.C05_at_most_once_after_shutdown"
   ],
   "note": "Add ignored, get never blocks, drain in order then quit, at most one delivery each."
  },
  {
   "property": "C06",
   "status": "proved",
   "theorems": [
    "Aiok8s.WorkQueueSched.C06_no_lost_wakeup",
    "Aiok8s.WorkQueueSched.C06_idle_means_no_work",
    "Aiok8s.WorkQueueSched.C06_shutdown_wakes_all",
    "Aiok8s.WorkQueueSched.C06_cancelled_get_loses_wakeup"
   ],
   "note": "Proved for no cancelled get (any CPython) and for cancelled gets on CPython >= 3.13; the excluded case is shown to fail (C06_cancelled_get_loses_wakeup)."
  },
  {
   "property": "C07",
   "status": "proved",
   "theorems": [
    "Aiok8s.RateLimiters.C07_backoff_formula",
    "Aiok8s.RateLimiters.C07_num_requeues",
    "Aiok8s.RateLimiters.C07_items_independent"
   ],
   "note": "Formula, num_requeues, independence of items, for every history."
  },
  {
   "property": "C08",
   "status": "partial",
   "theorems": [
    "Aiok8s.RateLimiters.C08_refuted_overflow",
    "Aiok8s.RateLimiters.C08_refuted_overflow_reachable",
    "Aiok8s.RateLimiters.C08_when_returns_partial",
    "Aiok8s.RateLimiters.C08_refuted_default_limiter",
    "Aiok8s.RateLimiters.C08_refuted_default_limiter_reachable"
   ],
   "note": "False of the code: OverflowError after 1024 failures with a float base, also for the default limiter (refuted theorems). Partial: returns below 1024 failures or with an int base."
  },
  {
   "property": "C09",
   "status": "proved",
   "theorems": [
    "Aiok8s.RateLimiters.C09_window_bound"
   ],
   "note": "Exact rationals, every non-decreasing clock."
  },
  {
   "property": "C10",
   "status": "proved",
   "theorems": [
    "Aiok8s.RateLimiters.C10_bounds",
    "Aiok8s.RateLimiters.C10_exact_delay",
    "Aiok8s.RateLimiters.C10_backwards",
    "Aiok8s.RateLimiters.C10_full_burst_free"
   ],
   "note": "Bounds, exact delay against an ideal bucket, free burst."
  },
  {
   "property": "C11",
   "status": "proved",
   "theorems": [
    "Aiok8s.RateLimiters.C11_when_is_max",
    "Aiok8s.RateLimiters.C11_exception_stops",
    "Aiok8s.RateLimiters.C11_forget_all",
    "Aiok8s.RateLimiters.C11_num_requeues_is_max",
    "Aiok8s.RateLimiters.C11_parts_independent",
    "Aiok8s.RateLimiters.C11_default_num_requeues",
    "Aiok8s.RateLimiters.C11_default_when"
   ],
   "note": "For any part interface; also exception behaviour and independence of parts over histories; and the default limiter completely: its num_requeues and when after every history."
  },
  {
   "property": "C12",
   "status": "proved",
   "theorems": [
    "Aiok8s.DelayHeap.C12_refines_table",
    "Aiok8s.DelayHeap.C12_pop_earliest"
   ],
   "note": "Trace equality with the table of earliest deadlines; heapq abstracted to extract-min."
  },
  {
   "property": "C13",
   "status": "proved",
   "theorems": [
    "Aiok8s.DelayQueue.C13_never_early",
    "Aiok8s.DelayQueue.C13_at_most_one_add_per_call"
   ],
   "note": "Every loop add is justified by a due add_after; at most one loop add per call; all interleavings."
  },
  {
   "property": "C14",
   "status": "proved",
   "theorems": [
    "Aiok8s.DelayQueue.C14_not_forgotten",
    "Aiok8s.DelayQueue.C14_sleep_has_timer",
    "Aiok8s.DelayQueue.C14_timer_exact",
    "Aiok8s.DelayQueue.C14_due_item_added",
    "Aiok8s.DelayQueue.C14_timer_wakes",
    "Aiok8s.DelayQueue.C14_entry_taken",
    "Aiok8s.DelayQueue.C14_capacity",
    "Aiok8s.DelayQueue.C14_comes"
   ],
   "note": "Not forgotten, timer set and exact, due items added within len+1 loop steps; the channel's capacity (C14_capacity); in every fair endless run, with calls of add_after without end, each accepted call is followed by an add (C14_comes)."
  },
  {
   "property": "C15",
   "status": "partial",
   "theorems": [
    "Aiok8s.DelayQueue.C15_refuted_never_shut_down",
    "Aiok8s.DelayQueue.C15_stop_wakes_partial",
    "Aiok8s.DelayQueue.C15_delay_loop_stops_partial"
   ],
   "note": "False of the code (shut_down calls itself, base class never told): refuted for every history. Partial: the delay loop does stop."
  },
  {
   "property": "C16",
   "status": "proved",
   "theorems": [
    "Aiok8s.RateLimitingQueue.C16_limiter_sees_exactly",
    "Aiok8s.RateLimitingQueue.C16_queue_sees_exactly",
    "Aiok8s.RateLimitingQueue.C16_num_requeues",
    "Aiok8s.RateLimitingQueue.C16_exponential_schedule"
   ],
   "note": "Projection theorems for any limiter; end-to-end schedule for the exponential limiter."
  },
  {
   "property": "C17",
   "status": "proved",
   "theorems": [
    "Aiok8s.Store.C17_store_is_map",
    "Aiok8s.Store.C17_key_error_changes_nothing"
   ],
   "note": "Trace answers equal to an independent ordered map for every history; key errors change nothing."
  },
  {
   "property": "C18",
   "status": "proved",
   "theorems": [
    "Aiok8s.Store.C18_by_index",
    "Aiok8s.Store.C18_index_keys",
    "Aiok8s.Store.C18_index",
    "Aiok8s.Store.C18_list_index_func_values",
    "Aiok8s.Store.C18_unknown_name"
   ],
   "note": "All four index queries, for every history and every non-raising duplicate-free index function."
  },
  {
   "property": "C19",
   "status": "partial",
   "theorems": [
    "Aiok8s.Store.C19_refuted_repeated_value",
    "Aiok8s.Store.C19_exact_partial",
    "Aiok8s.Store.C19_raises_iff_clash_partial"
   ],
   "note": "False of the code: a repeated value shared with another object makes delete/update raise KeyError (refuted). Partial: exact iff-characterisation of when it raises, and exactness otherwise."
  },
  {
   "property": "C20",
   "status": "partial",
   "theorems": [
    "Aiok8s.Store.C20_refuted_always_conflict",
    "Aiok8s.Store.C20_raises_partial",
    "Aiok8s.Store.C20_refuted_useless"
   ],
   "note": "False of the code: add_indexers raises for every non-empty table (union instead of intersection); C20_refuted_useless: it never changes anything. Partial: the raising half."
  },
  {
   "property": "C21",
   "status": "proved",
   "theorems": [
    "Aiok8s.Fifo.C21_pop_newest",
    "Aiok8s.Fifo.C21_shows_waiting",
    "Aiok8s.Fifo.C21_answers",
    "Aiok8s.Fifo.C21_delivered",
    "Aiok8s.Fifo.C21_queue_length"
   ],
   "note": "FIFO modelled call by call; Spec.waiting reads the history."
  },
  {
   "property": "C22",
   "status": "proved",
   "theorems": [
    "Aiok8s.Fifo.C22_not_synced_initially",
    "Aiok8s.Fifo.C22_synced_iff",
    "Aiok8s.Fifo.C22_synced_exact",
    "Aiok8s.Fifo.C22_synced_means_consumed"
   ],
   "note": "Holds with further replaces as well (C22_synced_iff); consumption needs no second replace."
  },
  {
   "property": "C23",
   "status": "proved",
   "theorems": [
    "Aiok8s.DeltaFifo.C23_delta_nobody_sleeps",
    "Aiok8s.DeltaFifo.C23_delta_closed_pop",
    "Aiok8s.DeltaFifo.C23_delta_open_pop",
    "Aiok8s.DeltaFifo.C23_delta_released",
    "Aiok8s.Fifo.C23_fifo_nobody_sleeps",
    "Aiok8s.Fifo.C23_fifo_closed_pop",
    "Aiok8s.Fifo.C23_fifo_open_pop",
    "Aiok8s.Fifo.C23_fifo_released"
   ],
   "note": "Any number of tasks blocked in pop, any interleaving (Model/Monitor), for FIFO and DeltaFIFO."
  },
  {
   "property": "C24",
   "status": "proved",
   "theorems": [
    "Aiok8s.DeltaFifo.C24_keys_once_in_order",
    "Aiok8s.DeltaFifo.C24_pop_first"
   ],
   "note": "Refinement of DeltaFIFO to a log of changes (Spec/DeltaFifo)."
  },
  {
   "property": "C25",
   "status": "proved",
   "theorems": [
    "Aiok8s.DeltaFifo.C25_popped_is_pending",
    "Aiok8s.DeltaFifo.C25_get_shows_pending",
    "Aiok8s.DeltaFifo.C25_list",
    "Aiok8s.DeltaFifo.C25_since_last_pop",
    "Aiok8s.DeltaFifo.C25_add_appends",
    "Aiok8s.DeltaFifo.C25_answers"
   ],
   "note": "Popped deltas equal the log's pending changes; merge rule characterised separately."
  },
  {
   "property": "C26",
   "status": "proved",
   "theorems": [
    "Aiok8s.DeltaFifo.C26_replace_known",
    "Aiok8s.DeltaFifo.C26_replace_pending",
    "Aiok8s.DeltaFifo.C26_vanished_newest",
    "Aiok8s.DeltaFifo.C26_delete"
   ],
   "note": "Per-key effect of replace with and without known objects, and of delete."
  },
  {
   "property": "C27",
   "status": "partial",
   "theorems": [
    "Aiok8s.DeltaFifo.C27_synced_iff_count",
    "Aiok8s.DeltaFifo.C27_synced_iff_partial",
    "Aiok8s.DeltaFifo.C27_refuted_repeated_key",
    "Aiok8s.DeltaFifo.C27_synced_exact"
   ],
   "note": "False for lists with repeated keys (C27_refuted_repeated_key: count is len(list)); proved for lists with distinct keys."
  },
  {
   "property": "C28",
   "status": "proved",
   "theorems": [
    "Aiok8s.DeltaFifo.C28_requeue",
    "Aiok8s.DeltaFifo.C28_other",
    "Aiok8s.DeltaFifo.C28_retry"
   ],
   "note": "Requeue, ProcessError and the controller's retry with arbitrary calls in between."
  },
  {
   "property": "C29",
   "status": "partial",
   "theorems": [
    "Aiok8s.Informer.C29_replay",
    "Aiok8s.Informer.C29_coherent",
    "Aiok8s.Informer.C29_sensible_partial",
    "Aiok8s.Informer.C29_refuted_requeue"
   ],
   "note": "For every history and handler: replay of the notifications gives the store, adds are of absent objects, updates carry the object delivered last. Deletions of present objects only: proved for handlers that do not raise RequeueError; refuted for those that do (the deletion is put back and repeated)."
  },
  {
   "property": "C30",
   "status": "proved",
   "theorems": [
    "Aiok8s.Informer.C30_converges",
    "Aiok8s.Informer.C30_drains"
   ],
   "note": "One initial list, arbitrary watch events, resyncs, pops; draining shown to take one pop per pending key."
  },
  {
   "property": "C31",
   "status": "partial",
   "theorems": [
    "Aiok8s.Informer.C31_converges_partial",
    "Aiok8s.Informer.C31_list_partial",
    "Aiok8s.Informer.C31_refuted_ghost",
    "Aiok8s.Informer.C31_refuted_lost"
   ],
   "note": "False as stated: two counterexamples (an unprocessed addition survives a relist that does not have it; a relist's Sync is dropped behind a pending deletion). Proved key by key for the moments at which neither applies."
  },
  {
   "property": "C32",
   "status": "proved",
   "theorems": [
    "Aiok8s.Informer.C32_queues",
    "Aiok8s.Informer.C32_repeats"
   ],
   "note": ""
  },
  {
   "property": "C33",
   "status": "partial",
   "theorems": [
    "Aiok8s.Informer.C33_refuted",
    "Aiok8s.Informer.C33_last_partial",
    "Aiok8s.Informer.C33_heals_partial"
   ],
   "note": "False as stated: a handler raising on the first of several pending deltas drops the rest. Proved: failures in the last call of a pop or on other keys are harmless, and the next watch event of the object heals it."
  },
  {
   "property": "C34",
   "status": "partial",
   "theorems": [
    "Aiok8s.SharedInformer.C34_refuted",
    "Aiok8s.SharedInformer.C34_due_partial",
    "Aiok8s.SharedInformer.C34_sensible_partial",
    "Aiok8s.SharedInformer.C34_nolist_partial",
    "Aiok8s.SharedInformer.C34_same_cache"
   ],
   "note": "False as stated: a handler not due at the last resync check misses relist-detected changes. Proved for handlers that every check finds due, and for all handlers as long as no list follows the first check; all handlers share one cache."
  },
  {
   "property": "C35",
   "status": "proved",
   "theorems": [
    "Aiok8s.Resync.C35_check",
    "Aiok8s.Resync.C35_granted"
   ],
   "note": ""
  },
  {
   "property": "C36",
   "status": "proved",
   "theorems": [
    "Aiok8s.Resync.C36_selected",
    "Aiok8s.Resync.C36_schedule",
    "Aiok8s.Resync.C36_apart"
   ],
   "note": ""
  },
  {
   "property": "C37",
   "status": "proved",
   "theorems": [
    "Aiok8s.Listener.C37_order",
    "Aiok8s.Listener.C37_prefix",
    "Aiok8s.Listener.C37_delivered",
    "Aiok8s.Listener.C37_stopped"
   ],
   "note": ""
  },
  {
   "property": "C38",
   "status": "partial",
   "theorems": [
    "Aiok8s.InformerSync.C38_refuted",
    "Aiok8s.InformerSync.C38_shared_partial",
    "Aiok8s.InformerSync.C38_plain_partial",
    "Aiok8s.InformerSync.C38_distinct_partial",
    "Aiok8s.InformerSync.C38_refines",
    "Aiok8s.InformerSync.C38_exclusive"
   ],
   "note": "False of the shared informer: while add_event_handler holds _block_deltas the last item of the first list may be off the queue (has_synced True) and not in the store. Proved: this is the only exception; without registrations meanwhile it holds; the split pop refines the informer's pop; while the lock is held nothing is handed out and nothing stored, and a waiting pop goes on when it is free."
  },
  {
   "property": "C39",
   "status": "proved",
   "theorems": [
    "Aiok8s.Reflector.C39_resume"
   ],
   "note": "Over whole runs, any number of lists and watches."
  },
  {
   "property": "C40",
   "status": "proved",
   "theorems": [
    "Aiok8s.Reflector.C40_calls"
   ],
   "note": "Over whole runs; exceptions of the store for single events do not matter."
  },
  {
   "property": "C41",
   "status": "partial",
   "theorems": [
    "Aiok8s.Reflector.C41_refuted",
    "Aiok8s.Reflector.C41_partial"
   ],
   "note": "False: an iterator that raises leaves list_and_watch waiting for ever (C41_refuted). C41_partial covers every other end of a watch."
  },
  {
   "property": "C42",
   "status": "proved",
   "theorems": [
    "Aiok8s.Reflector.C42_last"
   ],
   "note": "After any prefix of a run (scripts may stop anywhere in the last stream)."
  },
  {
   "property": "C43",
   "status": "partial",
   "theorems": [
    "Aiok8s.Reflector.C43_refuted",
    "Aiok8s.Reflector.C43_partial"
   ],
   "note": "False for the core group: api_version.split('/') raises for \"v1\" and the watch ends (C43_refuted). C43_partial covers objects with a group."
  },
  {
   "property": "C44",
   "status": "proved",
   "theorems": [
    "Aiok8s.Mux.C44_live",
    "Aiok8s.Mux.C44_registered",
    "Aiok8s.Mux.C44_stopped",
    "Aiok8s.Mux.C44_order"
   ],
   "note": "Runs in which readers are not cancelled (that case is C63); every queue length including 0."
  },
  {
   "property": "C45",
   "status": "proved",
   "theorems": [
    "Aiok8s.Mux.C45_no_delay",
    "Aiok8s.Mux.C45_only_full",
    "Aiok8s.Mux.C45_full",
    "Aiok8s.Mux.C45_buffer"
   ],
   "note": "Sublist part is C44_order, which covers both modes."
  },
  {
   "property": "C46",
   "status": "proved",
   "theorems": [
    "Aiok8s.Mux.C46_not_blocked",
    "Aiok8s.Mux.C46_waits_for_reader",
    "Aiok8s.Mux.C46_shutdown",
    "Aiok8s.Mux.C46_idempotent",
    "Aiok8s.Mux.C46_remove",
    "Aiok8s.Mux.C46_end",
    "Aiok8s.Mux.C46_fixed",
    "Aiok8s.Mux.C46_emptied"
   ],
   "note": "Not blocked by stopped watchers, waits only for live watchers with unread events, end after the buffered events, idempotent stop."
  },
  {
   "property": "C47",
   "status": "proved",
   "theorems": [
    "Aiok8s.FakeClock.C47_alone",
    "Aiok8s.FakeClock.C47_once",
    "Aiok8s.FakeClock.C47_reports",
    "Aiok8s.FakeClock.C47_stopped",
    "Aiok8s.FakeClock.C47_reset"
   ],
   "note": "Histories of any length with any number of other timers and tickers; exact rational times. C47_alone: refinement of a one-timer specification; C47_once, C47_stopped, C47_reset, C47_reports: what users see. That timers never block the clock is C48_never_blocks."
  },
  {
   "property": "C48",
   "status": "proved",
   "theorems": [
    "Aiok8s.FakeClock.C48_never_blocks",
    "Aiok8s.FakeClock.C48_buffer",
    "Aiok8s.FakeClock.C48_alone",
    "Aiok8s.FakeClock.C48_next",
    "Aiok8s.FakeClock.C48_negative"
   ],
   "note": "Positive intervals as stated; a negative interval makes the clock hang (C48_negative), interval 0 ticks once. Exact rational times: with floats, start + n*interval accumulates rounding, not modelled."
  },
  {
   "property": "C49",
   "status": "proved",
   "theorems": [
    "Aiok8s.Wait.C49_bounded",
    "Aiok8s.Wait.C49_unchanged",
    "Aiok8s.Wait.C49_all_calls",
    "Aiok8s.Wait.C49_cap",
    "Aiok8s.Wait.C49_sleeps",
    "Aiok8s.Wait.C49_negative",
    "Aiok8s.Wait.C49_few_sleeps",
    "Aiok8s.Wait.C49_default_retry"
   ],
   "note": "For every number of steps >= 0. C49_negative shows why: a negative number loops for ever. Meeting the cap ends the calls early (C49_cap), after one more sleep."
  },
  {
   "property": "C50",
   "status": "proved",
   "theorems": [
    "Aiok8s.Wait.C50_values",
    "Aiok8s.Wait.C50_constant",
    "Aiok8s.Wait.C50_cap",
    "Aiok8s.Wait.C50_jittered",
    "Aiok8s.Wait.C50_jitter",
    "Aiok8s.Wait.C50_jitter_default",
    "Aiok8s.Wait.C50_jitter_onto"
   ],
   "note": "Exact rationals. The cap only acts if there is a factor and at least one step (hypotheses of C50_cap). jitter with factor <= 0 acts as factor 1."
  },
  {
   "property": "C51",
   "status": "proved",
   "theorems": [
    "Aiok8s.Meta.C51_injective",
    "Aiok8s.Meta.C51_slash",
    "Aiok8s.Meta.C51_lookup",
    "Aiok8s.Meta.C51_request"
   ],
   "note": "Strings as character lists; absent namespaces (None and empty) count as the same. C51_slash: keys clash with slashes."
  },
  {
   "property": "C52",
   "status": "proved",
   "theorems": [
    "Aiok8s.LeaderElection.C52_accepts",
    "Aiok8s.LeaderElection.C52_rejects"
   ],
   "note": "exact arithmetic; also: each rejection names a violated condition"
  },
  {
   "property": "C53",
   "status": "partial",
   "theorems": [
    "Aiok8s.LeaderElection.C53_refuted",
    "Aiok8s.LeaderElection.C53_refuted_stops",
    "Aiok8s.LeaderElection.C53_partial"
   ],
   "note": "false of the code: _observed_raw_record is read before it is ever set (AttributeError) and records are dicts without attributes; C53_refuted: update is never called, C53_refuted_stops: the leader stops at its first renewal attempt. Left: it makes that attempt at once (C53_partial)."
  },
  {
   "property": "C54",
   "status": "partial",
   "theorems": [
    "Aiok8s.LeaderElection.C54_refuted",
    "Aiok8s.LeaderElection.C54_partial"
   ],
   "note": "false of the code: with a ConfigMap lock get() raises for a missing ConfigMap (so create is never tried) and create fails with 409 for an existing one (C54_refuted, for every initial ConfigMap). Left: with a lock that reports no record and lets it be created the elector leads (C54_partial)."
  },
  {
   "property": "C55",
   "status": "proved",
   "theorems": [
    "Aiok8s.Controller.C55_order",
    "Aiok8s.Controller.C55_done_once",
    "Aiok8s.Controller.C55_exclusive",
    "Aiok8s.Controller.C55_done_follows",
    "Aiok8s.Controller.C55_cancelled"
   ],
   "note": "Any number of workers on one rate-limiting queue, any reconciler, any cancellation, any interleaving; Python 3.8 and before."
  },
  {
   "property": "C56",
   "status": "partial",
   "theorems": [
    "Aiok8s.Controller.C56_limiter",
    "Aiok8s.Controller.C56_num_requeues",
    "Aiok8s.Controller.C56_schedule",
    "Aiok8s.Controller.C56_retried_partial",
    "Aiok8s.Controller.C56_refuted",
    "Aiok8s.Controller.C56_refuted_none"
   ],
   "note": "Refuted: the 1025th failure in a row makes add_rate_limited raise OverflowError and the request is dropped; a reconciler that returns None also drops it. C56_limiter, C56_num_requeues, C56_schedule prove what the limiter and the queue are told; C56_retried_partial: when the limiter gives a delay, the request is retried."
  },
  {
   "property": "C57",
   "status": "partial",
   "theorems": [
    "Aiok8s.Source.C57_enqueued_partial",
    "Aiok8s.Source.C57_only",
    "Aiok8s.Source.C57_refuted",
    "Aiok8s.Source.C57_refuted_relist",
    "Aiok8s.Source.C57_cached_partial",
    "Aiok8s.Source.C57_deleted_partial"
   ],
   "note": "Refuted for deletions found out by a relist: the handler drops DeletedFinalStateUnknown. Proved for notifications whose objects have namespace and name (C57_enqueued_partial), nothing else is added (C57_only), and the whole way from the reflector's calls to the queue for every object in the cache (C57_cached_partial) and for watched deletions (C57_deleted_partial)."
  },
  {
   "property": "C58",
   "status": "partial",
   "theorems": [
    "Aiok8s.InformersMap.C58_same",
    "Aiok8s.InformersMap.C58_stable",
    "Aiok8s.InformersMap.C58_run_partial",
    "Aiok8s.InformersMap.C58_refuted"
   ],
   "note": "C58_same, C58_stable: one informer per kind, for every interleaving.  C58_run_partial: informers requested before start are run.  C58_refuted: an informer requested after start is never run, and get never returns."
  },
  {
   "property": "C59",
   "status": "partial",
   "theorems": [
    "Aiok8s.InformersMap.C59_refuted",
    "Aiok8s.InformersMap.C59_range_partial"
   ],
   "note": "C59_refuted: the period is below 18 percent of the configured one for every random number (random()/5*0.9 where random()/5+0.9 was meant).  C59_range_partial gives the exact range."
  },
  {
   "property": "C60",
   "status": "partial",
   "theorems": [
    "Aiok8s.FakeSource.C60_replay_partial",
    "Aiok8s.FakeSource.C60_versions_partial",
    "Aiok8s.FakeSource.C60_event_versions_partial",
    "Aiok8s.FakeSource.C60_answers",
    "Aiok8s.FakeSource.C60_shutdown",
    "Aiok8s.FakeSource.C60_refuted",
    "Aiok8s.FakeSource.C60_refuted_versions"
   ],
   "note": "C60_replay_partial, C60_versions_partial, C60_event_versions_partial: true for callers who change an object only when they report it (any number of failed deletions and unreported changes).  C60_refuted, C60_refuted_versions: the source keeps the caller's object, so that a later edit changes the list without a change, and an object used twice gives two events with the same version.  C60_answers, C60_shutdown: which calls raise, and that after shutdown every call hangs (for all histories)."
  },
  {
   "property": "C61",
   "status": "proved",
   "theorems": [
    "Aiok8s.Poll.C61_result",
    "Aiok8s.Poll.C61_returns"
   ],
   "note": "Every behaviour of the sync functions and of the sleeps."
  },
  {
   "property": "C62",
   "status": "partial",
   "theorems": [
    "Aiok8s.Listener.C62_refuted",
    "Aiok8s.Listener.C62_partial"
   ],
   "note": "False as stated: while a call lasts the listener takes over one more notification and then blocks its producer. Proved: while the second queue is empty _add is accepted and returns."
  },
  {
   "property": "C63",
   "status": "partial",
   "theorems": [
    "Aiok8s.Mux.C63_refuted_lost",
    "Aiok8s.Mux.C63_refuted_stuck",
    "Aiok8s.Mux.C63_partial"
   ],
   "note": "False: a reader cancelled in __anext__ leaves a task behind that swallows the next event (C63_refuted_lost) and with queue length 0 blocks the broadcaster (C63_refuted_stuck). C63_partial: at most one event lost per cancelled read, order kept."
  },
  {
   "property": "C64",
   "status": "partial",
   "theorems": [
    "Aiok8s.Mux.C64_refuted",
    "Aiok8s.Mux.C64_partial"
   ],
   "note": "False: calls after shutdown hang (C64_refuted). C64_partial: registrations handled before are made."
  },
  {
   "property": "C65",
   "status": "partial",
   "theorems": [
    "Aiok8s.Poll.C65_refuted",
    "Aiok8s.Poll.C65_poll_partial",
    "Aiok8s.Poll.C65_poll_returns",
    "Aiok8s.Poll.C65_immediate",
    "Aiok8s.Poll.C65_immediate_partial"
   ],
   "note": "False: asyncio.TimeoutError raised by the condition is reported as WaitTimeoutError (C65_refuted). The rest holds (C65_*_partial, C65_poll_returns, C65_immediate)."
  },
  {
   "property": "C66",
   "status": "partial",
   "theorems": [
    "Aiok8s.Meta.C66_refuted",
    "Aiok8s.Meta.C66_partial"
   ],
   "note": "False: raw objects without a namespace field have no key (C66_refuted). C66_partial: typed objects, and raw objects with both fields."
  },
  {
   "property": "C67",
   "status": "partial",
   "theorems": [
    "Aiok8s.LeaderElection.C67_refuted",
    "Aiok8s.LeaderElection.C67_partial"
   ],
   "note": "false of the code: renew_deadline is never used; a leader whose reads fail polls for ever while leading (C67_refuted). Left: it steps down when it can read a record (C67_partial)."
  },
  {
   "property": "C68",
   "status": "partial",
   "theorems": [
    "Aiok8s.LeaderElection.C68_refuted",
    "Aiok8s.LeaderElection.C68_partial"
   ],
   "note": "false of the code: UnboundLocalError in the finally clause when the lock was not acquired (C68_refuted). Left: after starting to lead, the order and number of calls at the end (C68_partial)."
  },
  {
   "property": "C69",
   "status": "proved",
   "theorems": [
    "Aiok8s.LeaderElection.C69_no_lost_update",
    "Aiok8s.LeaderElection.C69_update",
    "Aiok8s.LeaderElection.C69_get",
    "Aiok8s.LeaderElection.C69_read"
   ],
   "note": "any number of clients and outside changes; the server is modelled as one ConfigMap with versions"
  },
  {
   "property": "C70",
   "status": "proved",
   "theorems": [
    "Aiok8s.InformersMap.C70_synced",
    "Aiok8s.InformersMap.C70_started"
   ],
   "note": "Informers are abstract (running, synced); what synced means is C38."
  },
  {
   "property": "C71",
   "status": "partial",
   "theorems": [
    "Aiok8s.Manager.C71_once_partial",
    "Aiok8s.Manager.C71_all_partial",
    "Aiok8s.Manager.C71_waits",
    "Aiok8s.Manager.C71_synced_first",
    "Aiok8s.Manager.C71_refuted_late",
    "Aiok8s.Manager.C71_run_once",
    "Aiok8s.Manager.C71_refuted_again"
   ],
   "note": "false for runnables added after the start (never started) and for a second start (starts everything again, then raises TypeError); proved for one start"
  },
  {
   "property": "C72",
   "status": "partial",
   "theorems": [
    "Aiok8s.Manager.C72_registered",
    "Aiok8s.Manager.C72_connected_partial",
    "Aiok8s.Manager.C72_refuted_overlap",
    "Aiok8s.Manager.C72_exclusive",
    "Aiok8s.Manager.C72_progress"
   ],
   "note": "False of the code when two calls of start of one controller overlap (manager.start called twice, or a controller added twice): self.queue is the queue of the call that began last, so the earlier call's queue is never fed and the later one's twice (C72_refuted_overlap). Proved for every interleaving: every call that runs its workers has registered exactly one handler per watch on the right, running and synced informer (C72_registered); these feed the call's own queue if no other call of the same controller is between its beginning and its workers (C72_connected_partial); exclusion (C72_exclusive) and progress (C72_progress). Watches made after the start are not started; the claim is about the ones made before."
  },
  {
   "property": "C73",
   "status": "proved",
   "theorems": [
    "Aiok8s.Loops.C73_sliding",
    "Aiok8s.Loops.C73_fixed",
    "Aiok8s.Loops.C73_punctual",
    "Aiok8s.Loops.C73_until_loop",
    "Aiok8s.Loops.C73_not_after_stop",
    "Aiok8s.Loops.C73_ends_only",
    "Aiok8s.Loops.C73_stops_promptly",
    "Aiok8s.Loops.C73_goes_on"
   ],
   "note": "time is exact rational time; the lag of the event loop is a parameter"
  },
  {
   "property": "C74",
   "status": "proved",
   "theorems": [
    "Aiok8s.RealTime.C74_timer",
    "Aiok8s.RealTime.C74_timer_fires",
    "Aiok8s.RealTime.C74_timer_stopped",
    "Aiok8s.RealTime.C74_ticker",
    "Aiok8s.RealTime.C74_ticker_count",
    "Aiok8s.RealTime.C74_ticker_goes_on",
    "Aiok8s.RealTime.C74_ticker_stopped"
   ],
   "note": "time.time() is taken to be monotone"
  },
  {
   "property": "C75",
   "status": "partial",
   "theorems": [
    "Aiok8s.System.C75_current_partial",
    "Aiok8s.System.C75_quiet_partial",
    "Aiok8s.System.C75_settles",
    "Aiok8s.System.C75_eventually_partial",
    "Aiok8s.System.C75_no_more",
    "Aiok8s.System.C75_refuted",
    "Aiok8s.System.C75_fair",
    "Aiok8s.System.C75_fair_partial"
   ],
   "note": "False for deletions found by a relist (C75_refuted: the delete handler drops DeletedFinalStateUnknown). Proved for every object in the cache and every deletion that was watched, for predicates that accept everything. Liveness: every fair order of the moves of handler and workers leads to a state with nothing left to do (C75_fair), after which the reconciler's view stays current (C75_fair_partial)."
  },
  {
   "property": "C76",
   "status": "partial",
   "theorems": [
    "Aiok8s.RateLimiters.C76_partial",
    "Aiok8s.RateLimiters.C76_refuted"
   ],
   "note": "False in real time, for every limit and every burst from 2 on (C76_refuted). Proved with the time the clock went forward in place of real time."
  },
  {
   "property": "C77",
   "status": "proved",
   "theorems": [
    "Aiok8s.Heapq.C77_invariant",
    "Aiok8s.Heapq.C77_bag"
   ],
   "note": "heappush and heappop with their sift functions are modelled on the list itself; C12-C14 use them."
  },
  {
   "property": "C78",
   "status": "partial",
   "theorems": [
    "Aiok8s.FakeWatcher.C78_rendezvous_partial",
    "Aiok8s.FakeWatcher.C78_served_partial",
    "Aiok8s.FakeWatcher.C78_ended_only",
    "Aiok8s.FakeWatcher.C78_stop",
    "Aiok8s.FakeWatcher.C78_refuted_stop",
    "Aiok8s.FakeWatcher.C78_refuted_reset",
    "Aiok8s.FakeWatcher.C78_refuted_cancel",
    "Aiok8s.FakeWatcher.C78_refuted_raises",
    "Aiok8s.FakeWatcher.C78_lock",
    "Aiok8s.FakeWatcher.C78_order"
   ],
   "note": "Proved for runs without cancellation; false: stop does not free a sender nor the reset behind it (C78_refuted_stop), a reader that waits during stop and reset stays at the old queue (C78_refuted_reset), a cancelled reader still takes an event (C78_refuted_cancel). After a cancelled action and a reset the reader raises ValueError and the event is lost (C78_refuted_raises)."
  },
  {
   "property": "C79",
   "status": "partial",
   "theorems": [
    "Aiok8s.Client.C79_raises",
    "Aiok8s.Client.C79_atomic",
    "Aiok8s.Client.C79_by_gvk",
    "Aiok8s.Client.C79_by_type",
    "Aiok8s.Client.C79_consistent",
    "Aiok8s.Client.C79_found_partial",
    "Aiok8s.Client.C79_refuted_shared",
    "Aiok8s.Client.C79_requests",
    "Aiok8s.Client.C79_unknown"
   ],
   "note": "False for two classes with the same object type: the second is not refused and hides the first (C79_refuted_shared); proved otherwise."
  },
  {
   "property": "C80",
   "status": "partial",
   "theorems": [
    "Aiok8s.Lifecycle.C80_ends_partial",
    "Aiok8s.Lifecycle.C80_silent_partial",
    "Aiok8s.Lifecycle.C80_refuted_again"
   ],
   "note": "False if run is cancelled a second time while it waits for _started_lock: it ends and leaves the processor and all listeners running for ever (C80_refuted_again); proved otherwise, with handlers that return or raise in the end."
  },
  {
   "property": "C81",
   "status": "partial",
   "theorems": [
    "Aiok8s.Lifecycle.C81_order",
    "Aiok8s.Lifecycle.C81_content",
    "Aiok8s.Lifecycle.C81_told",
    "Aiok8s.Lifecycle.C81_delivered_partial",
    "Aiok8s.Lifecycle.C81_refuted_handler"
   ],
   "note": "False for a handler that awaits add_event_handler of its own informer: it can deadlock with handle_deltas (C81_refuted_handler); proved for handlers that return or raise in the end."
  },
  {
   "property": "C82",
   "status": "partial",
   "theorems": [
    "Aiok8s.ReflectorTasks.C82_calls",
    "Aiok8s.ReflectorTasks.C82_stream",
    "Aiok8s.ReflectorTasks.C82_scope",
    "Aiok8s.ReflectorTasks.C82_spaced",
    "Aiok8s.ReflectorTasks.C82_alive_partial",
    "Aiok8s.ReflectorTasks.C82_cause",
    "Aiok8s.ReflectorTasks.C82_quiet",
    "Aiok8s.ReflectorTasks.C82_cancel",
    "Aiok8s.ReflectorTasks.C82_refuted_raise"
   ],
   "note": "C82_alive_partial assumes that should_resync does not raise; C82_refuted_raise shows that after such an exception the store is not resynced until the next list. The rest is proved in full."
  },
  {
   "property": "C83",
   "status": "partial",
   "theorems": [
    "Aiok8s.Shutdown.C83_cancel",
    "Aiok8s.Shutdown.C83_steps",
    "Aiok8s.Shutdown.C83_over_partial",
    "Aiok8s.Shutdown.C83_tasks",
    "Aiok8s.Shutdown.C83_queue",
    "Aiok8s.Shutdown.C83_open",
    "Aiok8s.Shutdown.C83_returns",
    "Aiok8s.Shutdown.C83_raises",
    "Aiok8s.Shutdown.C83_refuted_informer",
    "Aiok8s.Shutdown.C83_refuted_worker",
    "Aiok8s.Shutdown.C83_refuted_sync",
    "Aiok8s.Shutdown.C83_refuted_raise",
    "Aiok8s.Shutdown.C83_refuted_reconciler",
    "Aiok8s.Shutdown.C83_refuted_early",
    "Aiok8s.Shutdown.C83_refuted_unsound"
   ],
   "note": "False of the code: cancelled while the caches sync, or ended by a failed child, start leaves informers and workers running for ever (refuted, for every continuation). Partial: cancelled while it runs with nothing failed so far, everything is told to stop at once and ends. A controller's queue is open from the beginning of its task to its end (C83_open)."
  },
  {
   "property": "C84",
   "status": "partial",
   "theorems": [
    "Aiok8s.Store.C84_map_partial",
    "Aiok8s.Store.C84_sound_partial",
    "Aiok8s.Store.C84_settled_partial",
    "Aiok8s.Store.C84_replace_repairs",
    "Aiok8s.Store.C84_refuted_atomic",
    "Aiok8s.Store.C84_refuted_undeletable",
    "Aiok8s.Store.C84_refuted_forever"
   ],
   "note": "False of the code: an add or update that raises has stored the object and removed the key from indices (C84_refuted_atomic); an object on which an index function raises can never be deleted (C84_refuted_undeletable); after one update that raised every later one may raise KeyError for ever (C84_refuted_forever). Proved: what is stored is the map of all calls but the deletes that raised (C84_map_partial); queries do not raise and list no wrong object (C84_sound_partial); keys whose last write returned are listed exactly (C84_settled_partial); replace repairs everything (C84_replace_repairs)."
  },
  {
   "property": "C85",
   "status": "partial",
   "theorems": [
    "Aiok8s.IndexedInformer.C85_plain",
    "Aiok8s.IndexedInformer.C85_isolated_partial",
    "Aiok8s.IndexedInformer.C85_index_partial",
    "Aiok8s.IndexedInformer.C85_converges_partial",
    "Aiok8s.IndexedInformer.C85_progress",
    "Aiok8s.IndexedInformer.C85_refuted_stuck",
    "Aiok8s.IndexedInformer.C85_refuted_untold",
    "Aiok8s.IndexedInformer.C85_refuted_deleted",
    "Aiok8s.IndexedInformer.C85_refuted_update"
   ],
   "note": "False for keys of objects on which an index function raises: such an object is stored but no handler hears of it (C85_refuted_untold), its deletion is lost for ever unless another object comes for the key (C85_refuted_stuck, general; C85_refuted_deleted), and a handler gets an update of an object it never saw (C85_refuted_update). Proved: every other key is unaffected - handlers, indices and convergence (C85_isolated_partial, C85_index_partial, C85_converges_partial) -, every round of the loop takes one key from the queue (C85_progress), and without raising the informer is the one with a map as indexer (C85_plain)."
  },
  {
   "property": "C86",
   "status": "partial",
   "theorems": [
    "Aiok8s.Builder.C86_built",
    "Aiok8s.Builder.C86_returns",
    "Aiok8s.Builder.C86_once_partial",
    "Aiok8s.Builder.C86_connected_partial",
    "Aiok8s.Builder.C86_works_partial",
    "Aiok8s.Builder.C86_refuted_race",
    "Aiok8s.Builder.C86_refuted_failed",
    "Aiok8s.Builder.C86_refuted_late"
   ],
   "note": "False of the code when the calls overlap: a controller that is started while its build_controller is still waiting for the cache has a queue that nothing feeds (C86_refuted_race), one built after the start is never started (C86_refuted_late), and a call that raises leaves its controller, without watches, in the manager (C86_refuted_failed). Proved for all interleavings: what a returned call has done (C86_built); that it returns when it comes before manager.start (C86_returns); for calls that returned before the only start, the connection to the one right informer (C86_connected_partial); for one call of manager.start, the way to the workers (C86_works_partial) and that no controller is started twice (C86_once_partial)."
  },
  {
   "property": "C87",
   "status": "partial",
   "theorems": [
    "Aiok8s.Wiring.C87_stable",
    "Aiok8s.Wiring.C87_starts",
    "Aiok8s.Wiring.C87_own_partial",
    "Aiok8s.Wiring.C87_refuted_shared",
    "Aiok8s.Wiring.C87_refuted_added",
    "Aiok8s.Wiring.C87_runnables"
   ],
   "note": "False of the code for a source that another manager has had before (C87_refuted_shared: Kind.inject_cache keeps the first cache) and for a controller added to a second manager (C87_refuted_added). Proved: no watched source is ever without a cache (C87_starts), the cache never changes (C87_stable), and for controllers and sources that stay with one manager it is that manager's, the one the controller waits for (C87_own_partial)."
  },
  {
   "property": "C88",
   "status": "partial",
   "theorems": [
    "Aiok8s.Restart.C88_exclusive_partial",
    "Aiok8s.Restart.C88_returned_partial",
    "Aiok8s.Restart.C88_connected_partial",
    "Aiok8s.Restart.C88_reported",
    "Aiok8s.Restart.C88_sources",
    "Aiok8s.Restart.C88_shut_partial",
    "Aiok8s.Restart.C88_refuted_stuck",
    "Aiok8s.Restart.C88_refuted_restart",
    "Aiok8s.Restart.C88_refuted_twice",
    "Aiok8s.Restart.C88_refuted_same_queue",
    "Aiok8s.Restart.C88_refuted_retry",
    "Aiok8s.Restart.C88_refuted_sources"
   ],
   "note": "False of the code if calls of start overlap: they share self.queue. A request being reconciled when start is called again, in any run, is never again given out by its queue (C88_refuted_stuck), and its worker's done raises, which ends the old call, which shuts down the queue of the new one (C88_refuted_restart); the same request can be reconciled twice at once (C88_refuted_twice, C88_refuted_same_queue), retries go to the other queue and are lost (C88_refuted_retry), sources feed the wrong queue (C88_refuted_sources). Proved for all runs in which start is called only when nothing is left of the earlier calls: C88_exclusive_partial, C88_returned_partial, C88_connected_partial, C88_shut_partial. For all runs, overlapping or not: a call that makes its workers has started every source once and in order, and the calls do not mix (C88_sources). Also for all runs: nothing is reconciled that no source has reported (C88_reported)."
  },
  {
   "property": "C89",
   "status": "partial",
   "theorems": [
    "Aiok8s.StoreRef.C89_exact_partial",
    "Aiok8s.StoreRef.C89_replace_repairs",
    "Aiok8s.StoreRef.C89_map_partial",
    "Aiok8s.StoreRef.C89_refuted_delete",
    "Aiok8s.StoreRef.C89_refuted_update"
   ],
   "note": "False of the code: the indices are kept by calling the index functions on the old object as it is at the time of the later call. In any store that is right so far, an object that loses its index values by an assignment and is deleted leaves its key behind, and by_index of the old value raises KeyError from then on (C89_refuted_delete); an object that is given a value which another stored object has makes its own update and delete raise KeyError (C89_refuted_update). Proved: everything, as long as the assignments are to objects that are not stored or do not change index values (C89_exact_partial); the map, whatever is assigned (C89_map_partial); replace repairs the indices (C89_replace_repairs)."
  },
  {
   "property": "C90",
   "status": "partial",
   "theorems": [
    "Aiok8s.Rerun.C90_refuted_silent",
    "Aiok8s.Rerun.C90_refuted_stuck",
    "Aiok8s.Rerun.C90_ends_partial",
    "Aiok8s.Rerun.C90_no_listeners_partial",
    "Aiok8s.Rerun.C90_unstarted_partial"
   ],
   "note": "False of the code: after a call of run that got _started_lock, _stopped and the listeners' _stop_add and _stop_next stay set. However often run is called again, no handler is called and no handler is accepted any more (C90_refuted_silent), and handle_deltas waits for ever in join after at most two notifications for a listener (C90_refuted_stuck). Proved: a later call that is cancelled ends (C90_ends_partial); an informer without listeners can be run again (C90_no_listeners_partial); after calls that were cancelled before they got _started_lock a later call is like a first one (C90_unstarted_partial). Not modelled: two calls of run at the same time, and a call after one that was cancelled twice and left its processor behind (C80_refuted_again)."
  },
  {
   "property": "C91",
   "status": "proved",
   "theorems": [
    "Aiok8s.DeltaLock.C91_one_at_a_time",
    "Aiok8s.DeltaLock.C91_callback",
    "Aiok8s.DeltaLock.C91_reads",
    "Aiok8s.DeltaLock.C91_answers_calls",
    "Aiok8s.DeltaLock.C91_known_now",
    "Aiok8s.DeltaLock.C91_nobody_forgotten"
   ],
   "note": ""
  },
  {
   "property": "C92",
   "status": "partial",
   "theorems": [
    "Aiok8s.DeltaLock.C92_refuted_hangs",
    "Aiok8s.DeltaLock.C92_reads_partial",
    "Aiok8s.DeltaLock.C92_pointless_partial",
    "Aiok8s.DeltaLock.C92_cancelled_partial"
   ],
   "note": "False: every call that takes the lock hangs, since asyncio.Lock is not reentrant, and with it the queue (C92_refuted_hangs, for every reachable state and every such call). Proved: calls that only look are answered (C92_reads_partial), calls that cannot do anything raise at once (C92_pointless_partial); a cancellation of the task ends the hang (C92_cancelled_partial)."
  },
  {
   "property": "C93",
   "status": "partial",
   "theorems": [
    "Aiok8s.LoopTasks.C93_refuted_stopped",
    "Aiok8s.LoopTasks.C93_refuted_forever",
    "Aiok8s.LoopTasks.C93_refuted_cleared",
    "Aiok8s.LoopTasks.C93_few_partial",
    "Aiok8s.LoopTasks.C93_stopped_partial",
    "Aiok8s.LoopTasks.C93_raised_partial",
    "Aiok8s.LoopTasks.C93_gone_partial"
   ],
   "note": "False: the last timer sleeps on when the event is set (C93_refuted_stopped), the task waiting for the event stays for as long as nobody sets it when f raises or the loop is cancelled (C93_refuted_forever), and after a set and clear the loop spins and piles up timers (C93_refuted_cleared). Proved: never more than three tasks, one for jitter_loop (C93_few_partial); after a stop only the last timer (C93_stopped_partial); after a failure in sliding mode only the wait for the event (C93_raised_partial); a longest period after the end no timer is left, and nothing once the event is set (C93_gone_partial)."
  },
  {
   "property": "C94",
   "status": "partial",
   "theorems": [
    "Aiok8s.Example.C94_refuted_name",
    "Aiok8s.Example.C94_refuted_ambiguous",
    "Aiok8s.Example.C94_refuted_relist",
    "Aiok8s.Example.C94_line_partial",
    "Aiok8s.Example.C94_current_partial",
    "Aiok8s.Example.C94_deleted_partial"
   ],
   "note": "False: the line about a deleted pod gives its name twice instead of namespace and name (C94_refuted_name, for every pod; C94_refuted_ambiguous), and a pod found missing by a relist is never said to be deleted (C94_refuted_relist). Proved: lines with an address are about the pod asked for and name it (C94_line_partial); when nothing is left to do the last line about every cached pod gives its present address (C94_current_partial), and the last line about a pod whose deletion was watched says deleted (C94_deleted_partial)."
  },
  {
   "property": "C95",
   "status": "proved",
   "theorems": [
    "Aiok8s.Controller.C95_added",
    "Aiok8s.Controller.C95_again",
    "Aiok8s.Controller.C95_forever"
   ],
   "note": "Endless runs of the controller model with Spec.Fair; the work of the delaying queue is taken from C14 (put_comes) by projecting the run. Requires that items are requests (others are forgotten, C55). If the limiter raises, the request is not tried again: C56."
  },
  {
   "property": "C96",
   "status": "partial",
   "theorems": [
    "Aiok8s.DelayClock.C96_refuted_early",
    "Aiok8s.DelayClock.C96_early_partial",
    "Aiok8s.DelayClock.C96_late_partial",
    "Aiok8s.DelayClock.C96_timer_partial",
    "Aiok8s.DelayClock.C96_refuted_late"
   ],
   "note": "False: an adjustment lets any delayed item be added at the time of the call (C96_refuted_early), or be left for any time after it was due although the loop goes round (C96_refuted_late). Proved: both up to the size of the adjustments, and that the timer fires in time up to that size."
  },
  {
   "property": "C97",
   "status": "partial",
   "theorems": [
    "Aiok8s.WorkQueueSched.C97_refuted_overtaken",
    "Aiok8s.WorkQueueSched.C97_in_order_partial"
   ],
   "note": "False: for every n a waiting task can be woken n times and passed n times by tasks that call later (C97_refuted_overtaken). Proved for runs in which no task calls get between the waking of another and its running, woken tasks run in their order, and none is cancelled."
  },
  {
   "property": "C98",
   "status": "proved",
   "theorems": [
    "Aiok8s.System.C98_called",
    "Aiok8s.System.C98_current",
    "Aiok8s.System.C98_succeeds"
   ],
   "note": "Endless runs of the whole model (informer, handler, controller with delays and retries) with Spec.Endless; what the controller sees of such a run is a fair run of C95's, and what the cache holds follows from the notifications by C34. Unlike C75_fair_partial the informer, failures, retries and delays go on without end. For deletions found out by a relist see C75_refuted, for handlers that are not due at a check see C34_refuted."
  },
  {
   "property": "C99",
   "status": "partial",
   "theorems": [
    "Aiok8s.ResyncReach.C99_refuted",
    "Aiok8s.ResyncReach.C99_refuted_watch",
    "Aiok8s.ResyncReach.C99_reaches_partial",
    "Aiok8s.ResyncReach.C99_fastest_partial",
    "Aiok8s.ResyncReach.C99_repeats"
   ],
   "note": "False in two ways: every check replaces _syncing_listeners, so a check that comes before the deltas of the last resync have been processed takes them away from a handler it does not select; and the watch may end while store.resync() waits for the queue's lock, after the check has moved the due times. Proved: these are the only two ways (C99_reaches_partial); a handler whose period is no longer than the time between checks only suffers from the second (C99_fastest_partial); resyncs say nothing new and nothing to handlers that were not selected (C99_repeats)."
  },
  {
   "property": "C100",
   "status": "partial",
   "theorems": [
    "Aiok8s.Follow.C100_follows_partial",
    "Aiok8s.Follow.C100_drained_clean",
    "Aiok8s.Follow.C100_forward_partial",
    "Aiok8s.Follow.C100_settles_partial",
    "Aiok8s.Follow.C100_refuted_ghost",
    "Aiok8s.Follow.C100_refuted_back"
   ],
   "note": "False in two ways: if something is pending when a list is stored, an object that was made and deleted again in between stays in the cache for good (C100_refuted_ghost, the composition's form of C31); and since lists are asked for with resource version \"0\" a relist may answer with an older state, so the cache may go back (C100_refuted_back). Proved for a faithful API server, with the reflector's tasks in any order: the cache is the server's content at last_sync_resource_version whenever nothing is pending and the last list came at a clean moment (C100_follows_partial), e.g. with nothing pending (C100_drained_clean); between lists the version never goes back (C100_forward_partial); under an open watch all schedules end within a stated number of steps with the newest content (C100_settles_partial)."
  },
  {
   "property": "C101",
   "status": "proved",
   "theorems": [
    "Aiok8s.Follow.C101_catches_up",
    "Aiok8s.Follow.C101_comes"
   ],
   "note": "Proved for the composition of C100 (API server, reflector with all its tasks, DeltaFIFO, store) in endless fair runs: the version grows as long as the server is ahead, also across ended and reopened watches (C101_catches_up), and an object that stays comes into the cache for good (C101_comes). The clean moment is necessary, see C100_refuted_ghost; a first list always is at one (C100_drained_clean). A concrete endless run with an ended watch and changes meanwhile meets the hypotheses."
  },
  {
   "property": "C102",
   "status": "proved",
   "theorems": [
    "Aiok8s.Whole.C102_seen",
    "Aiok8s.Whole.C102_deleted",
    "Aiok8s.Whole.C102_succeeds"
   ],
   "note": "Proved for the composition of the models of C100 and C75: runs of the whole are shown to be runs of its parts (view of server, reflector, queue and indexer; shared informer, handler and controller), then C101_comes, C34_due_partial and C98 give the result. C102_seen: objects that stay; C102_deleted: deletions reported by the watch (those found out by a list are not told to the reconciler, C57_refuted); C102_succeeds: a call with the server's object returns for good. The clean moment is necessary (C100_refuted_ghost); a first list always is at one (C100_drained_clean). That the handler is due at every check is necessary (C34_refuted); it holds if the handler has the smallest period or there are no resyncs. A concrete endless run with a modification, a resync and a deletion meets all hypotheses."
  },
  {
   "property": "C103",
   "status": "partial",
   "theorems": [
    "Aiok8s.PollTime.C103_spacing",
    "Aiok8s.PollTime.C103_spacing_immediate",
    "Aiok8s.PollTime.C103_in_time_partial",
    "Aiok8s.PollTime.C103_ends_partial",
    "Aiok8s.PollTime.C103_result",
    "Aiok8s.PollTime.C103_late_partial",
    "Aiok8s.PollTime.C103_refuted_late",
    "Aiok8s.PollTime.C103_returns",
    "Aiok8s.PollTime.C103_refuted_swallow",
    "Aiok8s.PollTime.C103_refuted_immediate",
    "Aiok8s.PollTime.C103_immediate_partial",
    "Aiok8s.PollTime.C103_infinite",
    "Aiok8s.PollTime.C103_immediate_infinite"
   ],
   "note": "False of the code in three ways. A condition that answers False when wait_for cancels it (one that catches Exception, up to Python 3.7) makes poll go on for ever (C103_refuted_swallow). With the wait_for of Python 3.10 one that answers True then, or raises something else, makes poll return or raise that after the timeout (C103_refuted_late). The first call of poll_immediate is not limited by the timeout (C103_refuted_immediate). Proved: the spacing (C103_spacing, C103_spacing_immediate) for all conditions; that poll ends in time (C103_in_time_partial, C103_ends_partial) for conditions that end when they are cancelled, apart from the time they take for that; how it ends (C103_result) for those that raise CancelledError; that it never ends late but with WaitTimeoutError with the wait_for of Python 3.7 (C103_late_partial); that it returns when the condition is met in time (C103_returns); poll_immediate within the timeout after its first call (C103_immediate_partial). poll_infinite never gives up (C103_infinite)."
  },
  {
   "property": "C104",
   "status": "proved",
   "theorems": [
    "Aiok8s.Controller.C104_count",
    "Aiok8s.Controller.C104_backoff",
    "Aiok8s.Controller.C104_rate"
   ],
   "note": "Controller, rate-limiting queue, delay loop and default limiter together. Every delivery is charged to an ask of its own that is due (C104_count, any limiter); cumulative back-off (C104_backoff); global rate (C104_rate, needs the limiter to read the same clock as the queue, as it does in the code)."
  },
  {
   "property": "C105",
   "status": "partial",
   "theorems": [
    "Aiok8s.Controller.C105_remembered",
    "Aiok8s.Controller.C105_limiter_partial",
    "Aiok8s.Controller.C105_refuted_limiter",
    "Aiok8s.DelayQueue.C105_heap_partial",
    "Aiok8s.DelayQueue.C105_refuted_heap",
    "Aiok8s.Fifo.C105_refuted_fifo",
    "Aiok8s.Fifo.C105_fifo_partial"
   ],
   "note": "False of all three structures. The limiter keeps the counter of an item whose reconciler, after a retry, returned something that is no result or was cancelled (C105_refuted_limiter); the list under the heap grows without bound when one item is asked for earlier and earlier (C105_refuted_heap); FIFO's queue when an object is added and deleted over and over (C105_refuted_fifo). Proved: exactly which items have a counter (C105_remembered) and that an item with a counter is around unless its last outcome was of these kinds or the limiter raised (C105_limiter_partial); removed entries of the heap are charged to accepted calls whose deadline is not before the earliest one waited for (C105_heap_partial); replace and an empty pop clear FIFO's queue of stale keys (C105_fifo_partial; its length in general: C21_queue_length)."
  },
  {
   "property": "C106",
   "status": "partial",
   "theorems": [
    "Aiok8s.LeaderElection.C106_one_partial",
    "Aiok8s.LeaderElection.C106_record_partial",
    "Aiok8s.LeaderElection.C106_clients",
    "Aiok8s.LeaderElection.C106_configmap",
    "Aiok8s.LeaderElection.C106_refuted",
    "Aiok8s.LeaderElection.C106_reads_partial",
    "Aiok8s.LeaderElection.C106_alone"
   ],
   "note": "False of the code: if the record is removed while one elector leads, another creates it and leads too, and as long as the first one's reads fail, for any number of rounds (renew_deadline is never looked at, see C67), both lead (C106_refuted). Proved: if nobody removes the record, at most one elector ever leads (C106_one_partial); with ConfigMapLocks and a ConfigMap that nobody deletes none ever leads (C106_configmap); a leading elector whose read finds a record, or whose create succeeds, leads no more (C106_reads_partial). C106_alone: an elector that nobody disturbs does in the cut model what run of the other model does. C106_record_partial: the same for electors that share a record; C106_clients: the calls of one client's ConfigMapLock leave what the others keep."
  },
  {
   "property": "C107",
   "status": "partial",
   "theorems": [
    "Aiok8s.StoreIndexers.C107_exact_partial",
    "Aiok8s.StoreIndexers.C107_replace_repairs",
    "Aiok8s.StoreIndexers.C107_refuted_missing",
    "Aiok8s.StoreIndexers.C107_refuted_stuck",
    "Aiok8s.StoreIndexers.C107_refuted_remove"
   ],
   "note": "False of the code: a function assigned while objects are stored finds none of them (C107_refuted_missing); once another object with the same value is added, the older one can never be deleted: every delete raises KeyError (C107_refuted_stuck); a function removed and put back makes by_index raise (C107_refuted_remove). Proved: functions assigned only while nothing is stored work exactly (C107_exact_partial), and a replace repairs whatever was done before (C107_replace_repairs)."
  },
  {
   "property": "C108",
   "status": "proved",
   "theorems": [
    "Aiok8s.ReflectorTime.C108_gaps",
    "Aiok8s.ReflectorTime.C108_rate",
    "Aiok8s.ReflectorTime.C108_lists",
    "Aiok8s.ReflectorTime.C108_again",
    "Aiok8s.ReflectorTime.C108_needs_clock",
    "Aiok8s.ReflectorTime.C108_same"
   ],
   "note": "C108_gaps: the spacing; C108_rate: requests in any stretch of time; C108_lists: lists, for any wall clock; C108_again: lists that fail; C108_same: the calls are those of the model of C39 to C42; C108_needs_clock: with a wall clock set forward again and again C108_rate would be false."
  },
  {
   "property": "C109",
   "status": "partial",
   "theorems": [
    "Aiok8s.ListenerTime.C109_on_time_partial",
    "Aiok8s.ListenerTime.C109_pause_partial",
    "Aiok8s.ListenerTime.C109_held_partial",
    "Aiok8s.ListenerTime.C109_stop_partial",
    "Aiok8s.ListenerTime.C109_refuted_held",
    "Aiok8s.ListenerTime.C109_refuted_late",
    "Aiok8s.ListenerTime.C109_refuted_stop"
   ],
   "note": "False of the code: after a call that raised, _run sleeps 60 seconds (shared_informer.py line 398), during which _pop waits in join and so does _add. C109_refuted_late: a notification is handed over 60 seconds late; C109_refuted_held: no bound on how long the informer is held up by a handler whose calls take no time; C109_refuted_stop: a minute passes after a stop. What holds: C109_on_time_partial gives the exact moment of every call (60 seconds after a call that raised, else at once), C109_pause_partial the pause on any event loop, C109_held_partial bounds the time the informer is held up by the time in calls and 60 seconds for each that raised, C109_stop_partial says what a stop waits for."
  },
  {
   "property": "C110",
   "status": "proved",
   "theorems": [
    "Aiok8s.DelayQueue.C110_exact",
    "Aiok8s.DelayQueue.C110_punctual"
   ],
   "note": "Verif.Model.DelayQueue with time that passes only when the queue's tasks can do nothing (Verif.Spec.DelayIdle): C110_exact (each add of the delay loop is at the end of a delay asked for), C110_punctual (once the end of a delay is past the item has been added, at the latest at that end). Heartbeats may come at any time and are not needed."
  },
  {
   "property": "C111",
   "status": "proved",
   "theorems": [
    "Aiok8s.Controller.C111_on_time",
    "Aiok8s.Controller.C111_retry",
    "Aiok8s.Controller.C111_backoff",
    "Aiok8s.Controller.C111_default"
   ],
   "note": "Verif.Model.Controller (workers, limiter, delaying queue) with time that passes only when nothing can be done (Verif.Spec.ControllerIdle): C111_on_time (anything asked for), C111_retry (retries), C111_backoff (with the exponential limiter, up to the overflow of C56), C111_default (with the default limiter; the wall clock reads at least ten seconds since 1970 and may otherwise jump). How long reconcilers take and workers pause is arbitrary."
  },
  {
   "property": "C112",
   "status": "partial",
   "theorems": [
    "Aiok8s.DeltaRef.C112_values_partial",
    "Aiok8s.DeltaRef.C112_kept",
    "Aiok8s.DeltaRef.C112_names_partial",
    "Aiok8s.DeltaRef.C112_refuted"
   ],
   "note": "False of the code (C112_refuted): the queue keeps the very list that was given to add_if_not_present, and a list that pop puts back is also returned to the caller of pop; changing such a list changes what pop hands over (under the old key) and can make list() raise. Proved: C112_kept (the queue itself changes no list, whatever the callers do), C112_values_partial (all answers are those of Verif.Model.DeltaFifo, where lists are values, as long as callers change only lists that are theirs: made by them, a copy from get, or popped and not put back), C112_names_partial."
  },
  {
   "property": "C113",
   "status": "partial",
   "theorems": [
    "Aiok8s.System.C113_cached_partial",
    "Aiok8s.System.C113_watched_partial"
   ],
   "note": "False of the code for deletions found out by a relist (C75_refuted: a DeletedFinalStateUnknown makes no request) and for lists that come at an unfortunate moment (C31). Proved: C113_cached_partial (the reconciler was last called with what is in the cache; for watched deletions it was called, last when the cache did not hold the object; at every moment at which time passes, for handlers that every check finds due and whose predicates accept everything) and C113_watched_partial (the cache is what was reported, if the last list did no harm to the object)."
  },
  {
   "property": "C114",
   "status": "partial",
   "theorems": [
    "Aiok8s.Runs.C114_coherent",
    "Aiok8s.Runs.C114_converges_partial",
    "Aiok8s.Runs.C114_refuted"
   ],
   "note": "False of the code with resyncs (C114_refuted): a resync of one call queues an old object that a lagging call has just put into the indexer; applied after the lagging call has caught up, it leaves the old object there with nothing pending. Proved: C114_coherent (for all histories) and C114_converges_partial (reflectors that list once, at any time, and do not resync). Cancellation and the doubled listener tasks are not modelled here."
  },
  {
   "property": "C115",
   "status": "partial",
   "theorems": [
    "Aiok8s.Whole.C115_seen_partial"
   ],
   "note": "False of the code for deletions found out by a list (C57_refuted: a DeletedFinalStateUnknown makes no request) and for lists that come at an unfortunate moment (C100_refuted_ghost). Proved: C115_seen_partial, at every moment at which time passes, after a last list at a clean moment, for handlers that every check finds due and whose predicates accept everything; it also covers moments without a watch, for the version the reflector took note of. A concrete run in which the server has not sent its last change meets the hypotheses."
  },
  {
   "property": "C116",
   "status": "partial",
   "theorems": [
    "Aiok8s.Listeners.C116_each_once_partial",
    "Aiok8s.Listeners.C116_delivered_partial",
    "Aiok8s.Listeners.C116_one_run_partial",
    "Aiok8s.Listeners.C116_refuted_end",
    "Aiok8s.Listeners.C116_refuted_order",
    "Aiok8s.Listeners.C116_refuted_overlap"
   ],
   "note": "False of the code: with the tasks of two calls of run, the handler is called with notification 2 before notification 1 (C116_refuted_order), two calls of it run at the same time (C116_refuted_overlap), and when one call of run ends, the handler is not called any more for any of them (C116_refuted_end, for all states and continuations). What holds, before a stop: each accepted notification is on its way or delivered, exactly once (C116_each_once_partial); nothing gets stuck: what tasks and handler can do without new notifications is bounded, and in the end every notification has been delivered (C116_delivered_partial). With one call of run the order holds, one call at a time, also with a stop (C116_one_run_partial, by simulation in the model of C37)."
  }
 ]
}