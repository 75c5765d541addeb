# A Lean 4 model of tbarrella/aiok8s and proofs about it

This file is put together by `tools/mkdesign.py` from `tools/design_head.md` (sections 1-4) and from the
properties, their status and the axioms Lean reports (sections 5 and 6).

## 1. Layout

* `lean/Verif/Model/*.lean`: the model. Small total functions that follow the Python, each with the file and
  lines it models; where it is simpler than the code its comment says so.
* `lean/Verif/Spec/*.lean`: independent specifications (reference machines, predicates on histories). They do
  not use the helper functions of the model.
* `lean/Verif/Proof/*.lean`: lemmas and invariants.
* `lean/Verif/Props/*.lean`: the theorems about the properties (names start with the id of the property), beside
  `example`s that meet their hypotheses.
* `properties.jsonl`: the properties. `MANIFEST.json`: status and theorem names. `seeded/LOG.jsonl`: the wrong
  programs that the theorems were tried against, and what was tightened.

## 2. Modelling conventions

* Exceptions are values, together with the state left behind by the half-finished call.
* `dict` is an association list in insertion order (`Model/PyDict.lean`), `set` a list without duplicates of which
  only membership is used. Strings are lists of characters.
* A body under a lock without a suspending `await` is one atomic step: asyncio is cooperative, a task is only
  suspended at an `await` that really waits. Where a body does wait, the model is a small-step transition system
  with explicit program points, and the theorems hold for every sequence of steps.
* Time and delays are exact rationals. Rounding of floats is not modelled; overflow is (C08, C56).
* What is supplied by users or by the outside (key and index functions, handlers, reconcilers, predicates, random
  numbers, the API server, the lock service, cancellations) is universally quantified.
* Loops that may run for ever have fuel, and "has not ended" is a separate result (`none`, `running`); theorems
  about ends say that enough fuel exists or that no amount is enough.
* A property that is false of the code has status `partial`: `Cnn_refuted…` proves the negation, for every
  instance where that is possible and else for a concrete witness, and `Cnn…_partial` proves what is left.

## 3. What is modelled

| file in /repo/aiok8s | modelled | module | not modelled |
|---|---|---|---|
| workqueue/queue.py | all of `Type`; sleeping and waking of tasks in `get` | WorkQueue, WorkQueueSched | clock and metrics arguments (unused by the code) |
| workqueue/default_rate_limiters.py | all limiters | RateLimiters, DefaultLimiter | float rounding |
| workqueue/delaying_queue.py | `_WaitForPriorityQueue`, `_DelayingType` with its loop, channel and timer; `heapq` of the standard library | Heapq, DelayHeap, DelayQueue, DelayClock (adjustments of the wall clock) | the heartbeat only as a spurious wake-up |
| workqueue/rate_limiting_queue.py | all | RateLimitingQueue | |
| cache/thread_safe_store.py, cache/store.py, cache/index.py | all; index functions may raise (C84); objects changed in place after being stored (C89); index functions changed later (C107) | Store, StoreRef, StoreIndexers, Meta | - |
| cache/fifo.py | all (the callback of `pop` is called without `await`, so no other task runs while the lock is held and one call is one step) | Fifo, Monitor | |
| cache/delta_fifo.py | all, including wake-ups, the lock with its waiting tasks, the split at `await process(item)`, and callbacks that call back into the queue, lists that are changed in place (C112), `get` with a `Deltas` | DeltaFifo, Monitor, DeltaLock, DeltaRef, InformerSync | a `Deltas` passed as an object to `add`, `update`, `delete`, `replace` |
| cache/controller.py | `_process_loop`, `_new_informer`, `run` | Informer, InformerSync, Lifecycle | |
| cache/shared_informer.py | handlers, distribution, resync bookkeeping, `_ProcessListener`, `wait_for_cache_sync`, `run`, `add_event_handler` and its locks, `_SharedProcessor._run` | SharedInformer, IndexedInformer, Resync, ResyncReach, Listener, ListenerTime, InformerSync, Poll, Lifecycle, Rerun, Runs (queues and indexer of several calls of `run` at once), Listeners (a listener with the tasks of several calls) | a second cancellation of `run` outside its wait for `_started_lock`; a call after one that left its processor behind |
| cache/reflector.py | `list_and_watch`, `_watch_handler`, `run`, the resync task, the reader of the watch, cancellation, times | Reflector, ReflectorTime, ReflectorTasks, Follow (with an API server and an informer; finite and endless runs), Whole (with the API server, the shared informer, a handler and a controller) | a reader that does not end when cancelled; an exception of `__aexit__` |
| cache/list_watch.py | a pair of functions: quantified over in Reflector | Reflector | |
| cache/testing/fake_controller_source.py | all | FakeSource | event types other than the three, malformed versions |
| watch/mux.py | all | Mux | |
| watch/watch.py | `FakeWatcher` | FakeWatcher | |
| util/clock.py, util/_time.py | `FakeClock`, its timers and tickers; the real `Timer` and `Ticker` | FakeClock, RealTime | |
| util/wait.py | `jitter`, `Backoff`, `exponential_backoff`, the `poll` family, `until`, `jitter_until`, `loop`, `jitter_loop` with the tasks they make | Wait, Poll, PollTime (the `poll` family with times), Loops, LoopTasks | |
| util/retry.py | `default_retry` | Wait | |
| api/meta.py | accessors, `group_version_kind` | Meta, Reflector, PyStr | |
| leaderelection/*.py | all | LeaderElection (one elector), Electors (several, cut at the awaits) | log output |
| controller/controller.py | the workers; `new`, `start`, `watch`, `inject_func` | Controller, Manager, Wiring, Restart (`start` called any number of times) | metrics; in Restart the limiter and the times of the delays |
| controller/builder.py | all | Builder | |
| controller/manager.py | `add`, `set_fields`, `start` and the order of what it starts; failures, cancellation and the end of the tasks below it, with `_SpecificInformersMap.start` and `_Controller.start` | Manager, Shutdown, Wiring | a second call of `start` together with failures |
| controller/source.py, handler.py, event.py, reconcile.py | `EventHandler`, `EnqueueRequestForObject`; `Kind` | Source, Wiring, Manager | |
| controller/_cache_reader.py | `get` | Meta | |
| controller/_informers_map.py, _deleg_map.py, cache.py | `get`, `start`, `_resync_period` | InformersMap | |
| controller/client.py; `_create_structured_list_watch`, `_get_kwargs` | all | Client | what the API methods do |
| /repo/example.py | the reconciler and what it prints, on top of System | Example | connecting to a cluster, signal handlers |

Composition: the controller's workers run on the rate-limiting queue, that on the delaying queue, that on the work
queue. C57 goes from the reflector's calls through the DeltaFIFO, the shared informer and its listeners to the
queue; C75 from there through the workers to the reconciler and the cache it reads.
C95 does the same for the times of the delaying queue: its fair runs contain fair runs of C14's queue. C110 says
when that queue adds its items if time passes only when its tasks can do nothing; C111 says it of the controller,
C113 of the way from the informer's queue to the reconciler, and C115 of the whole way from the API server.
C98 does it for the way from the calls of the reflector to the reconciler: its fair runs contain fair runs of
C95's controller. C102 adds the API server and the reflector: its fair runs contain those of C98 and of C101.

## 4. Trusted base

* The kernel of Lean 4.33.0 and the axioms listed in section 6: at most `propext`, `Classical.choice` and
  `Quot.sound`. No axiom is added, there is no `sorry`, no `native_decide`, no `bv_decide`. `decide +kernel` is only
  used in examples and for concrete counterexamples; it is evaluated by the kernel.
* The reading of the Python source into the model. No code is run; the mapping is by the line numbers in the
  comments.
* The facts about Python and asyncio that the module comments name: insertion order of `dict`; cooperative
  scheduling; first-in-first-out wake-up of `Condition`, `Lock` and `Queue` waiters; what `asyncio.wait`,
  `Queue.join` and cancellation do. Where CPython versions differ the difference is a parameter (C06, C55).
* The specifications in `Verif/Spec` and the statements in `Verif/Props` say what the English statements say.

## 5. The properties

Modules: the theorems of a property are in `Props/<module>.lean`, the model in
`Model/<module>.lean` and the modules it imports. Full statements: `properties.jsonl`.

| id | property | status | module | what is proved, and what is not |
|---|---|---|---|---|
| C01 | Work queue never hands one item to two consumers | proved | WorkQueue | History theorem for every call sequence. Theorems: C01_no_concurrent_processing. |
| C02 | An accepted add is never lost | proved | WorkQueue | Not lost, and served within pre.length+1 gets. Two theorems. Theorems: C02_accepted_add_not_lost, C02_waiting_item_is_served. |
| C03 | Coalescing: at most one delivery per add | proved | WorkQueue | Two theorems: a delivery needs a new accepted add; len counts distinct items. Theorems: C03_delivery_needs_new_add, C03_len_counts_distinct. |
| C04 | Work queue behaves like a simple reference line | proved | WorkQueue, WorkQueueSched | Trace equality with the reference queue (Spec/WorkQueue.lean), also for any interleaving of tasks. Theorems: C04_refines_reference, C04_tasks_refine_reference. |
| C05 | Shutdown drains and then reports | proved | WorkQueue | Add ignored, get never blocks, drain in order then quit, at most one delivery each. Theorems: C05_add_ignored_after_shutdown, C05_get_never_blocks_after_shutdown, C05_drain_then_quit, C05_at_most_once_after_shutdown. |
| C06 | No lost wake-up | proved | WorkQueueSched | Proved for no cancelled get (any CPython) and for cancelled gets on CPython >= 3.13; the excluded case is shown to fail (C06_cancelled_get_loses_wakeup). Theorems: C06_no_lost_wakeup, C06_idle_means_no_work, C06_shutdown_wakes_all, C06_cancelled_get_loses_wakeup. |
| C07 | Exponential back-off formula | proved | RateLimiters | Formula, num_requeues, independence of items, for every history. Theorems: C07_backoff_formula, C07_num_requeues, C07_items_independent. |
| C08 | Back-off never fails however often an item failed | partial | RateLimiters | False of the code: OverflowError after 1024 failures with a float base, also for the default limiter (refuted theorems). Partial: returns below 1024 failures or with an int base. Theorems: C08_refuted_overflow, C08_refuted_overflow_reachable, C08_when_returns_partial, C08_refuted_default_limiter, C08_refuted_default_limiter_reachable. |
| C09 | Token bucket bounds every window | proved | RateLimiters | Exact rationals, every non-decreasing clock. Theorems: C09_window_bound. |
| C10 | Token bucket is not stricter than its parameters | proved | RateLimiters | Bounds, exact delay against an ideal bucket, free burst. Theorems: C10_bounds, C10_exact_delay, C10_backwards, C10_full_burst_free. |
| C11 | Combined limiter is the maximum of its parts | proved | RateLimiters | For any part interface; also exception behaviour and independence of parts over histories; and the default limiter completely: its num_requeues and when after every history. Theorems: C11_when_is_max, C11_exception_stops, C11_forget_all, C11_num_requeues_is_max, C11_parts_independent, C11_default_num_requeues, C11_default_when. |
| C12 | Delay heap keeps the earliest deadline per item | proved | DelayHeap | Trace equality with the table of earliest deadlines; heapq abstracted to extract-min. Theorems: C12_refines_table, C12_pop_earliest. |
| C13 | add_after never delivers early | proved | DelayQueue | Every loop add is justified by a due add_after; at most one loop add per call; all interleavings. Theorems: C13_never_early, C13_at_most_one_add_per_call. |
| C14 | add_after is never forgotten | proved | DelayQueue | Not forgotten, timer set and exact, due items added within len+1 loop steps; the channel's capacity (C14_capacity); in every fair endless run, with calls of add_after without end, each accepted call is followed by an add (C14_comes). Theorems: C14_not_forgotten, C14_sleep_has_timer, C14_timer_exact, C14_due_item_added, C14_timer_wakes, C14_entry_taken, C14_capacity, C14_comes. |
| C15 | Shutting down a delaying or rate-limiting queue shuts it down | partial | DelayQueue | False of the code (shut_down calls itself, base class never told): refuted for every history. Partial: the delay loop does stop. Theorems: C15_refuted_never_shut_down, C15_stop_wakes_partial, C15_delay_loop_stops_partial. |
| C16 | add_rate_limited uses the limiter's delay | proved | RateLimitingQueue | Projection theorems for any limiter; end-to-end schedule for the exponential limiter. Theorems: C16_limiter_sees_exactly, C16_queue_sees_exactly, C16_num_requeues, C16_exponential_schedule. |
| C17 | Store is a map | proved | Store | Trace answers equal to an independent ordered map for every history; key errors change nothing. Theorems: C17_store_is_map, C17_key_error_changes_nothing. |
| C18 | Indexes agree with the contents | proved | Store | All four index queries, for every history and every non-raising duplicate-free index function. Theorems: C18_by_index, C18_index_keys, C18_index, C18_list_index_func_values, C18_unknown_name. |
| C19 | Index functions may repeat a value | partial | Store | False of the code: a repeated value shared with another object makes delete/update raise KeyError (refuted). Partial: exact iff-characterisation of when it raises, and exactness otherwise. Theorems: C19_refuted_repeated_value, C19_exact_partial, C19_raises_iff_clash_partial. |
| C20 | Indexers can be added to an empty store | partial | Store | False of the code: add_indexers raises for every non-empty table (union instead of intersection); C20_refuted_useless: it never changes anything. Partial: the raising half. Theorems: C20_refuted_always_conflict, C20_raises_partial, C20_refuted_useless. |
| C21 | FIFO delivers the newest object of every live key | proved | Fifo | FIFO modelled call by call; Spec.waiting reads the history. Theorems: C21_pop_newest, C21_shows_waiting, C21_answers, C21_delivered, C21_queue_length. |
| C22 | FIFO.has_synced marks the first batch consumed | proved | Fifo | Holds with further replaces as well (C22_synced_iff); consumption needs no second replace. Theorems: C22_not_synced_initially, C22_synced_iff, C22_synced_exact, C22_synced_means_consumed. |
| C23 | Closing a queue releases consumers | proved | DeltaFifo, Fifo | Any number of tasks blocked in pop, any interleaving (Model/Monitor), for FIFO and DeltaFIFO. Theorems: C23_delta_nobody_sleeps, C23_delta_closed_pop, C23_delta_open_pop, C23_delta_released, C23_fifo_nobody_sleeps, C23_fifo_closed_pop, C23_fifo_open_pop, C23_fifo_released. |
| C24 | DeltaFIFO holds each changed key once, in order of first change | proved | DeltaFifo | Refinement of DeltaFIFO to a log of changes (Spec/DeltaFifo). Theorems: C24_keys_once_in_order, C24_pop_first. |
| C25 | DeltaFIFO loses no change | proved | DeltaFifo | Popped deltas equal the log's pending changes; merge rule characterised separately. Theorems: C25_popped_is_pending, C25_get_shows_pending, C25_list, C25_since_last_pop, C25_add_appends, C25_answers. |
| C26 | Replace reports vanished objects | proved | DeltaFifo | Per-key effect of replace with and without known objects, and of delete. Theorems: C26_replace_known, C26_replace_pending, C26_vanished_newest, C26_delete. |
| C27 | DeltaFIFO.has_synced marks the first list consumed | partial | DeltaFifo | False for lists with repeated keys (C27_refuted_repeated_key: count is len(list)); proved for lists with distinct keys. Theorems: C27_synced_iff_count, C27_synced_iff_partial, C27_refuted_repeated_key, C27_synced_exact. |
| C28 | Failed processing is reported and requeue keeps the item | proved | DeltaFifo | Requeue, ProcessError and the controller's retry with arbitrary calls in between. Theorems: C28_requeue, C28_other, C28_retry. |
| C29 | Informer handler sees a well-formed history | partial | Informer | For every history and handler: replay of the notifications gives the store, adds are of absent objects, updates carry the object delivered last. Deletions of present objects only: proved for handlers that do not raise RequeueError; refuted for those that do (the deletion is put back and repeated). Theorems: C29_replay, C29_coherent, C29_sensible_partial, C29_refuted_requeue. |
| C30 | Informer store converges to the watched state | proved | Informer | One initial list, arbitrary watch events, resyncs, pops; draining shown to take one pop per pending key. Theorems: C30_converges, C30_drains. |
| C31 | Informer store converges after a relist | partial | Informer | False as stated: two counterexamples (an unprocessed addition survives a relist that does not have it; a relist's Sync is dropped behind a pending deletion). Proved key by key for the moments at which neither applies. Theorems: C31_converges_partial, C31_list_partial, C31_refuted_ghost, C31_refuted_lost. |
| C32 | Resync only repeats | proved | Informer | As stated. Theorems: C32_queues, C32_repeats. |
| C33 | A failing handler does not corrupt the store | partial | Informer | False as stated: a handler raising on the first of several pending deltas drops the rest. Proved: failures in the last call of a pop or on other keys are harmless, and the next watch event of the object heals it. Theorems: C33_refuted, C33_last_partial, C33_heals_partial. |
| C34 | Every shared-informer handler's view equals the cache | partial | SharedInformer | False as stated: a handler not due at the last resync check misses relist-detected changes. Proved for handlers that every check finds due, and for all handlers as long as no list follows the first check; all handlers share one cache. Theorems: C34_refuted, C34_due_partial, C34_sensible_partial, C34_nolist_partial, C34_same_cache. |
| C35 | Resync periods are granted consistently | proved | Resync | As stated. Theorems: C35_check, C35_granted. |
| C36 | Resync reaches exactly the handlers that are due | proved | Resync | As stated. Theorems: C36_selected, C36_schedule, C36_apart. |
| C37 | A listener delivers notifications once and in order | proved | Listener | As stated. Theorems: C37_order, C37_prefix, C37_delivered, C37_stopped. |
| C38 | has_synced means the first list is in the cache | partial | InformerSync | False of the shared informer: while add_event_handler holds _block_deltas the last item of the first list may be off the queue (has_synced True) and not in the store. Proved: this is the only exception; without registrations meanwhile it holds; the split pop refines the informer's pop; while the lock is held nothing is handed out and nothing stored, and a waiting pop goes on when it is free. Theorems: C38_refuted, C38_shared_partial, C38_plain_partial, C38_distinct_partial, C38_refines, C38_exclusive. |
| C39 | Watches resume where the stream stopped | proved | Reflector | Over whole runs, any number of lists and watches. Theorems: C39_resume. |
| C40 | The reflector forwards the stream faithfully | proved | Reflector | Over whole runs; exceptions of the store for single events do not matter. Theorems: C40_calls. |
| C41 | A broken watch leads to a new list | partial | Reflector | False: an iterator that raises leaves list_and_watch waiting for ever (C41_refuted). C41_partial covers every other end of a watch. Theorems: C41_refuted, C41_partial. |
| C42 | last_sync_resource_version is the version of the last thing applied | proved | Reflector | After any prefix of a run (scripts may stop anywhere in the last stream). Theorems: C42_last. |
| C43 | Type filters accept exactly the expected kind | partial | Reflector | False for the core group: api_version.split('/') raises for "v1" and the watch ends (C43_refuted). C43_partial covers objects with a group. Theorems: C43_refuted, C43_partial. |
| C44 | Broadcaster delivers everything to every live watcher (wait mode) | proved | Mux | Runs in which readers are not cancelled (that case is C63); every queue length including 0. Theorems: C44_live, C44_registered, C44_stopped, C44_order. |
| C45 | Drop mode drops only on a full queue | proved | Mux | Sublist part is C44_order, which covers both modes. Theorems: C45_no_delay, C45_only_full, C45_full, C45_buffer. |
| C46 | Stopping never wedges the broadcaster | proved | Mux | Not blocked by stopped watchers, waits only for live watchers with unread events, end after the buffered events, idempotent stop. Theorems: C46_not_blocked, C46_waits_for_reader, C46_shutdown, C46_idempotent, C46_remove, C46_end, C46_fixed, C46_emptied. |
| C47 | Fake timers fire once, exactly when due | proved | FakeClock | Histories of any length with any number of other timers and tickers; exact rational times. C47_alone: refinement of a one-timer specification; C47_once, C47_stopped, C47_reset, C47_reports: what users see. That timers never block the clock is C48_never_blocks. Theorems: C47_alone, C47_once, C47_reports, C47_stopped, C47_reset. |
| C48 | Fake tickers keep ticking on schedule | proved | FakeClock | Positive intervals as stated; a negative interval makes the clock hang (C48_negative), interval 0 ticks once. Exact rational times: with floats, start + n*interval accumulates rounding, not modelled. Theorems: C48_never_blocks, C48_buffer, C48_alone, C48_next, C48_negative. |
| C49 | exponential_backoff is bounded | proved | Wait | For every number of steps >= 0. C49_negative shows why: a negative number loops for ever. Meeting the cap ends the calls early (C49_cap), after one more sleep. Theorems: C49_bounded, C49_unchanged, C49_all_calls, C49_cap, C49_sleeps, C49_negative, C49_few_sleeps, C49_default_retry. |
| C50 | Back-off durations and jitter stay in range | proved | Wait | Exact rationals. The cap only acts if there is a factor and at least one step (hypotheses of C50_cap). jitter with factor <= 0 acts as factor 1. Theorems: C50_values, C50_constant, C50_cap, C50_jittered, C50_jitter, C50_jitter_default, C50_jitter_onto. |
| C51 | Store keys identify objects | proved | Meta | Strings as character lists; absent namespaces (None and empty) count as the same. C51_slash: keys clash with slashes. Theorems: C51_injective, C51_slash, C51_lookup, C51_request. |
| C52 | Leader election configuration is validated | proved | LeaderElection | exact arithmetic; also: each rejection names a violated condition Theorems: C52_accepts, C52_rejects. |
| C53 | A leader keeps its lease | partial | LeaderElection | false of the code: _observed_raw_record is read before it is ever set (AttributeError) and records are dicts without attributes; C53_refuted: update is never called, C53_refuted_stops: the leader stops at its first renewal attempt. Left: it makes that attempt at once (C53_partial). Theorems: C53_refuted, C53_refuted_stops, C53_partial. |
| C54 | A first leader can be elected | partial | LeaderElection | false of the code: with a ConfigMap lock get() raises for a missing ConfigMap (so create is never tried) and create fails with 409 for an existing one (C54_refuted, for every initial ConfigMap). Left: with a lock that reports no record and lets it be created the elector leads (C54_partial). Theorems: C54_refuted, C54_partial. |
| C55 | Every dequeued request is finished exactly once | proved | Controller | Any number of workers on one rate-limiting queue, any reconciler, any cancellation, any interleaving; Python 3.8 and before. Theorems: C55_order, C55_done_once, C55_exclusive, C55_done_follows, C55_cancelled. |
| C56 | Requeue decisions | partial | Controller | Refuted: the 1025th failure in a row makes add_rate_limited raise OverflowError and the request is dropped; a reconciler that returns None also drops it. C56_limiter, C56_num_requeues, C56_schedule prove what the limiter and the queue are told; C56_retried_partial: when the limiter gives a delay, the request is retried. Theorems: C56_limiter, C56_num_requeues, C56_schedule, C56_retried_partial, C56_refuted, C56_refuted_none. |
| C57 | Object events enqueue a request for the object | partial | Source | Refuted for deletions found out by a relist: the handler drops DeletedFinalStateUnknown. Proved for notifications whose objects have namespace and name (C57_enqueued_partial), nothing else is added (C57_only), and the whole way from the reflector's calls to the queue for every object in the cache (C57_cached_partial) and for watched deletions (C57_deleted_partial). Theorems: C57_enqueued_partial, C57_only, C57_refuted, C57_refuted_relist, C57_cached_partial, C57_deleted_partial. |
| C58 | One informer per kind | partial | InformersMap | C58_same, C58_stable: one informer per kind, for every interleaving.  C58_run_partial: informers requested before start are run.  C58_refuted: an informer requested after start is never run, and get never returns. Theorems: C58_same, C58_stable, C58_run_partial, C58_refuted. |
| C59 | Jittered resync period stays near the configured one | partial | InformersMap | C59_refuted: the period is below 18 percent of the configured one for every random number (random()/5*0.9 where random()/5+0.9 was meant).  C59_range_partial gives the exact range. Theorems: C59_refuted, C59_range_partial. |
| C60 | Fake source: list plus watch equals current state | partial | FakeSource | C60_replay_partial, C60_versions_partial, C60_event_versions_partial: true for callers who change an object only when they report it (any number of failed deletions and unreported changes).  C60_refuted, C60_refuted_versions: the source keeps the caller's object, so that a later edit changes the list without a change, and an object used twice gives two events with the same version.  C60_answers, C60_shutdown: which calls raise, and that after shutdown every call hangs (for all histories). Theorems: C60_replay_partial, C60_versions_partial, C60_event_versions_partial, C60_answers, C60_shutdown, C60_refuted, C60_refuted_versions. |
| C61 | wait_for_cache_sync returns True only when all caches are synced | proved | Poll | Every behaviour of the sync functions and of the sleeps. Theorems: C61_result, C61_returns. |
| C62 | A slow handler does not hold up the others | partial | Listener | False as stated: while a call lasts the listener takes over one more notification and then blocks its producer. Proved: while the second queue is empty _add is accepted and returns. Theorems: C62_refuted, C62_partial. |
| C63 | Cancelling a read of a watcher loses nothing | partial | Mux | False: a reader cancelled in __anext__ leaves a task behind that swallows the next event (C63_refuted_lost) and with queue length 0 blocks the broadcaster (C63_refuted_stuck). C63_partial: at most one event lost per cancelled read, order kept. Theorems: C63_refuted_lost, C63_refuted_stuck, C63_partial. |
| C64 | Calls on a broadcaster return | partial | Mux | False: calls after shutdown hang (C64_refuted). C64_partial: registrations handled before are made. Theorems: C64_refuted, C64_partial. |
| C65 | poll reports time-outs and nothing else as time-outs | partial | Poll | False: asyncio.TimeoutError raised by the condition is reported as WaitTimeoutError (C65_refuted). The rest holds (C65_*_partial, C65_poll_returns, C65_immediate). Theorems: C65_refuted, C65_poll_partial, C65_poll_returns, C65_immediate, C65_immediate_partial. |
| C66 | Every object has a key | partial | Meta | False: raw objects without a namespace field have no key (C66_refuted). C66_partial: typed objects, and raw objects with both fields. Theorems: C66_refuted, C66_partial. |
| C67 | A leader that cannot renew steps down | partial | LeaderElection | false of the code: renew_deadline is never used; a leader whose reads fail polls for ever while leading (C67_refuted). Left: it steps down when it can read a record (C67_partial). Theorems: C67_refuted, C67_partial. |
| C68 | run() ends cleanly | partial | LeaderElection | false of the code: UnboundLocalError in the finally clause when the lock was not acquired (C68_refuted). Left: after starting to lead, the order and number of calls at the end (C68_partial). Theorems: C68_refuted, C68_partial. |
| C69 | ConfigMap lock: no lost updates | proved | LeaderElection | any number of clients and outside changes; the server is modelled as one ConfigMap with versions Theorems: C69_no_lost_update, C69_update, C69_get, C69_read. |
| C70 | Reads come from a synced cache | proved | InformersMap | Informers are abstract (running, synced); what synced means is C38. Theorems: C70_synced, C70_started. |
| C71 | The manager starts every runnable once, after the caches have synced | partial | Manager | false for runnables added after the start (never started) and for a second start (starts everything again, then raises TypeError); proved for one start Theorems: C71_once_partial, C71_all_partial, C71_waits, C71_synced_first, C71_refuted_late, C71_run_once, C71_refuted_again. |
| C72 | Workers run only when their watches are connected | partial | Manager | False of the code when two calls of start of one controller overlap (manager.start called twice, or a controller added twice): self.queue is the queue of the call that began last, so the earlier call's queue is never fed and the later one's twice (C72_refuted_overlap). Proved for every interleaving: every call that runs its workers has registered exactly one handler per watch on the right, running and synced informer (C72_registered); these feed the call's own queue if no other call of the same controller is between its beginning and its workers (C72_connected_partial); exclusion (C72_exclusive) and progress (C72_progress). Watches made after the start are not started; the claim is about the ones made before. Theorems: C72_registered, C72_connected_partial, C72_refuted_overlap, C72_exclusive, C72_progress. |
| C73 | Periodic loops keep their distance and stop | proved | Loops | time is exact rational time; the lag of the event loop is a parameter Theorems: C73_sliding, C73_fixed, C73_punctual, C73_until_loop, C73_not_after_stop, C73_ends_only, C73_stops_promptly, C73_goes_on. |
| C74 | Real timers fire once, real tickers keep their distance | proved | RealTime | time.time() is taken to be monotone Theorems: C74_timer, C74_timer_fires, C74_timer_stopped, C74_ticker, C74_ticker_count, C74_ticker_goes_on, C74_ticker_stopped. |
| C75 | What the reconciler saw last is current, or a call is coming | partial | System | False for deletions found by a relist (C75_refuted: the delete handler drops DeletedFinalStateUnknown). Proved for every object in the cache and every deletion that was watched, for predicates that accept everything. Liveness: every fair order of the moves of handler and workers leads to a state with nothing left to do (C75_fair), after which the reconciler's view stays current (C75_fair_partial). Theorems: C75_current_partial, C75_quiet_partial, C75_settles, C75_eventually_partial, C75_no_more, C75_refuted, C75_fair, C75_fair_partial. |
| C76 | The token bucket bounds the rate although the clock is adjusted | partial | RateLimiters | False in real time, for every limit and every burst from 2 on (C76_refuted). Proved with the time the clock went forward in place of real time. Theorems: C76_partial, C76_refuted. |
| C77 | heapq hands out the smallest entry | proved | Heapq | heappush and heappop with their sift functions are modelled on the list itself; C12-C14 use them. Theorems: C77_invariant, C77_bag. |
| C78 | The fake watcher hands over events one by one | partial | FakeWatcher | Proved for runs without cancellation; false: stop does not free a sender nor the reset behind it (C78_refuted_stop), a reader that waits during stop and reset stays at the old queue (C78_refuted_reset), a cancelled reader still takes an event (C78_refuted_cancel). After a cancelled action and a reset the reader raises ValueError and the event is lost (C78_refuted_raises). Theorems: C78_rendezvous_partial, C78_served_partial, C78_ended_only, C78_stop, C78_refuted_stop, C78_refuted_reset, C78_refuted_cancel, C78_refuted_raises, C78_lock, C78_order. |
| C79 | Registered clients are found and get the right requests | partial | Client | False for two classes with the same object type: the second is not refused and hides the first (C79_refuted_shared); proved otherwise. Theorems: C79_raises, C79_atomic, C79_by_gvk, C79_by_type, C79_consistent, C79_found_partial, C79_refuted_shared, C79_requests, C79_unknown. |
| C80 | A cancelled informer ends and is silent | partial | Lifecycle | False if run is cancelled a second time while it waits for _started_lock: it ends and leaves the processor and all listeners running for ever (C80_refuted_again); proved otherwise, with handlers that return or raise in the end. Theorems: C80_ends_partial, C80_silent_partial, C80_refuted_again. |
| C81 | Each handler is told the content at its registration and then everything sent to it | partial | Lifecycle | False for a handler that awaits add_event_handler of its own informer: it can deadlock with handle_deltas (C81_refuted_handler); proved for handlers that return or raise in the end. Theorems: C81_order, C81_content, C81_told, C81_delivered_partial, C81_refuted_handler. |
| C82 | The tasks of a reflector together: same calls, resyncs in time, clean end | partial | ReflectorTasks | C82_alive_partial assumes that should_resync does not raise; C82_refuted_raise shows that after such an exception the store is not resynced until the next list. The rest is proved in full. Theorems: C82_calls, C82_stream, C82_scope, C82_spaced, C82_alive_partial, C82_cause, C82_quiet, C82_cancel, C82_refuted_raise. |
| C83 | The end of manager.start ends everything it has started | partial | Shutdown | False of the code: cancelled while the caches sync, or ended by a failed child, start leaves informers and workers running for ever (refuted, for every continuation). Partial: cancelled while it runs with nothing failed so far, everything is told to stop at once and ends. A controller's queue is open from the beginning of its task to its end (C83_open). Theorems: C83_cancel, C83_steps, C83_over_partial, C83_tasks, C83_queue, C83_open, C83_returns, C83_raises, C83_refuted_informer, C83_refuted_worker, C83_refuted_sync, C83_refuted_raise, C83_refuted_reconciler, C83_refuted_early, C83_refuted_unsound. |
| C84 | An index function that raises does no damage | partial | Store | False of the code: an add or update that raises has stored the object and removed the key from indices (C84_refuted_atomic); an object on which an index function raises can never be deleted (C84_refuted_undeletable); after one update that raised every later one may raise KeyError for ever (C84_refuted_forever). Proved: what is stored is the map of all calls but the deletes that raised (C84_map_partial); queries do not raise and list no wrong object (C84_sound_partial); keys whose last write returned are listed exactly (C84_settled_partial); replace repairs everything (C84_replace_repairs). Theorems: C84_map_partial, C84_sound_partial, C84_settled_partial, C84_replace_repairs, C84_refuted_atomic, C84_refuted_undeletable, C84_refuted_forever. |
| C85 | Index functions that raise do not disturb the shared informer | partial | IndexedInformer | False for keys of objects on which an index function raises: such an object is stored but no handler hears of it (C85_refuted_untold), its deletion is lost for ever unless another object comes for the key (C85_refuted_stuck, general; C85_refuted_deleted), and a handler gets an update of an object it never saw (C85_refuted_update). Proved: every other key is unaffected - handlers, indices and convergence (C85_isolated_partial, C85_index_partial, C85_converges_partial) -, every round of the loop takes one key from the queue (C85_progress), and without raising the informer is the one with a map as indexer (C85_plain). Theorems: C85_plain, C85_isolated_partial, C85_index_partial, C85_converges_partial, C85_progress, C85_refuted_stuck, C85_refuted_untold, C85_refuted_deleted, C85_refuted_update. |
| C86 | build_controller gives a controller that is fed | partial | Builder | False of the code when the calls overlap: a controller that is started while its build_controller is still waiting for the cache has a queue that nothing feeds (C86_refuted_race), one built after the start is never started (C86_refuted_late), and a call that raises leaves its controller, without watches, in the manager (C86_refuted_failed). Proved for all interleavings: what a returned call has done (C86_built); that it returns when it comes before manager.start (C86_returns); for calls that returned before the only start, the connection to the one right informer (C86_connected_partial); for one call of manager.start, the way to the workers (C86_works_partial) and that no controller is started twice (C86_once_partial). Theorems: C86_built, C86_returns, C86_once_partial, C86_connected_partial, C86_works_partial, C86_refuted_race, C86_refuted_failed, C86_refuted_late. |
| C87 | A source reads from the cache of its controller's manager | partial | Wiring | False of the code for a source that another manager has had before (C87_refuted_shared: Kind.inject_cache keeps the first cache) and for a controller added to a second manager (C87_refuted_added). Proved: no watched source is ever without a cache (C87_starts), the cache never changes (C87_stable), and for controllers and sources that stay with one manager it is that manager's, the one the controller waits for (C87_own_partial). Theorems: C87_stable, C87_starts, C87_own_partial, C87_refuted_shared, C87_refuted_added, C87_runnables. |
| C88 | A controller can be started again | partial | Restart | False of the code if calls of start overlap: they share self.queue. A request being reconciled when start is called again, in any run, is never again given out by its queue (C88_refuted_stuck), and its worker's done raises, which ends the old call, which shuts down the queue of the new one (C88_refuted_restart); the same request can be reconciled twice at once (C88_refuted_twice, C88_refuted_same_queue), retries go to the other queue and are lost (C88_refuted_retry), sources feed the wrong queue (C88_refuted_sources). Proved for all runs in which start is called only when nothing is left of the earlier calls: C88_exclusive_partial, C88_returned_partial, C88_connected_partial, C88_shut_partial. For all runs, overlapping or not: a call that makes its workers has started every source once and in order, and the calls do not mix (C88_sources). Also for all runs: nothing is reconciled that no source has reported (C88_reported). Theorems: C88_exclusive_partial, C88_returned_partial, C88_connected_partial, C88_reported, C88_sources, C88_shut_partial, C88_refuted_stuck, C88_refuted_restart, C88_refuted_twice, C88_refuted_same_queue, C88_refuted_retry, C88_refuted_sources. |
| C89 | The store and its indices stay right when stored objects are changed in place | partial | StoreRef | False of the code: the indices are kept by calling the index functions on the old object as it is at the time of the later call. In any store that is right so far, an object that loses its index values by an assignment and is deleted leaves its key behind, and by_index of the old value raises KeyError from then on (C89_refuted_delete); an object that is given a value which another stored object has makes its own update and delete raise KeyError (C89_refuted_update). Proved: everything, as long as the assignments are to objects that are not stored or do not change index values (C89_exact_partial); the map, whatever is assigned (C89_map_partial); replace repairs the indices (C89_replace_repairs). Theorems: C89_exact_partial, C89_replace_repairs, C89_map_partial, C89_refuted_delete, C89_refuted_update. |
| C90 | A shared informer can be run again | partial | Rerun | False of the code: after a call of run that got _started_lock, _stopped and the listeners' _stop_add and _stop_next stay set. However often run is called again, no handler is called and no handler is accepted any more (C90_refuted_silent), and handle_deltas waits for ever in join after at most two notifications for a listener (C90_refuted_stuck). Proved: a later call that is cancelled ends (C90_ends_partial); an informer without listeners can be run again (C90_no_listeners_partial); after calls that were cancelled before they got _started_lock a later call is like a first one (C90_unstarted_partial). Not modelled: two calls of run at the same time, and a call after one that was cancelled twice and left its processor behind (C80_refuted_again). Theorems: C90_refuted_silent, C90_refuted_stuck, C90_ends_partial, C90_no_listeners_partial, C90_unstarted_partial. |
| C91 | DeltaFIFO: calls of many tasks take effect one at a time | proved | DeltaLock | As stated. Theorems: C91_one_at_a_time, C91_callback, C91_reads, C91_answers_calls, C91_known_now, C91_nobody_forgotten. |
| C92 | DeltaFIFO: a callback of pop may call the queue | partial | DeltaLock | False: every call that takes the lock hangs, since asyncio.Lock is not reentrant, and with it the queue (C92_refuted_hangs, for every reachable state and every such call). Proved: calls that only look are answered (C92_reads_partial), calls that cannot do anything raise at once (C92_pointless_partial); a cancellation of the task ends the hang (C92_cancelled_partial). Theorems: C92_refuted_hangs, C92_reads_partial, C92_pointless_partial, C92_cancelled_partial. |
| C93 | A loop leaves nothing behind | partial | LoopTasks | False: the last timer sleeps on when the event is set (C93_refuted_stopped), the task waiting for the event stays for as long as nobody sets it when f raises or the loop is cancelled (C93_refuted_forever), and after a set and clear the loop spins and piles up timers (C93_refuted_cleared). Proved: never more than three tasks, one for jitter_loop (C93_few_partial); after a stop only the last timer (C93_stopped_partial); after a failure in sliding mode only the wait for the event (C93_raised_partial); a longest period after the end no timer is left, and nothing once the event is set (C93_gone_partial). Theorems: C93_refuted_stopped, C93_refuted_forever, C93_refuted_cleared, C93_few_partial, C93_stopped_partial, C93_raised_partial, C93_gone_partial. |
| C94 | The example program tells what is in the cluster | partial | Example | False: the line about a deleted pod gives its name twice instead of namespace and name (C94_refuted_name, for every pod; C94_refuted_ambiguous), and a pod found missing by a relist is never said to be deleted (C94_refuted_relist). Proved: lines with an address are about the pod asked for and name it (C94_line_partial); when nothing is left to do the last line about every cached pod gives its present address (C94_current_partial), and the last line about a pod whose deletion was watched says deleted (C94_deleted_partial). Theorems: C94_refuted_name, C94_refuted_ambiguous, C94_refuted_relist, C94_line_partial, C94_current_partial, C94_deleted_partial. |
| C95 | Every added request comes to the reconciler, every retry too | proved | Controller | Endless runs of the controller model with Spec.Fair; the work of the delaying queue is taken from C14 (put_comes) by projecting the run. Requires that items are requests (others are forgotten, C55). If the limiter raises, the request is not tried again: C56. Theorems: C95_added, C95_again, C95_forever. |
| C96 | add_after keeps its delay although the wall clock is adjusted | partial | DelayClock | False: an adjustment lets any delayed item be added at the time of the call (C96_refuted_early), or be left for any time after it was due although the loop goes round (C96_refuted_late). Proved: both up to the size of the adjustments, and that the timer fires in time up to that size. Theorems: C96_refuted_early, C96_early_partial, C96_late_partial, C96_timer_partial, C96_refuted_late. |
| C97 | Waiting calls of get are served in the order in which they were made | partial | WorkQueueSched | False: for every n a waiting task can be woken n times and passed n times by tasks that call later (C97_refuted_overtaken). Proved for runs in which no task calls get between the waking of another and its running, woken tasks run in their order, and none is cancelled. Theorems: C97_refuted_overtaken, C97_in_order_partial. |
| C98 | What stays as it is, the reconciler has seen, and has dealt with | proved | System | Endless runs of the whole model (informer, handler, controller with delays and retries) with Spec.Endless; what the controller sees of such a run is a fair run of C95's, and what the cache holds follows from the notifications by C34. Unlike C75_fair_partial the informer, failures, retries and delays go on without end. For deletions found out by a relist see C75_refuted, for handlers that are not due at a check see C34_refuted. Theorems: C98_called, C98_current, C98_succeeds. |
| C99 | A resync tells the handlers that are due about every cached object | partial | ResyncReach | False in two ways: every check replaces _syncing_listeners, so a check that comes before the deltas of the last resync have been processed takes them away from a handler it does not select; and the watch may end while store.resync() waits for the queue's lock, after the check has moved the due times. Proved: these are the only two ways (C99_reaches_partial); a handler whose period is no longer than the time between checks only suffers from the second (C99_fastest_partial); resyncs say nothing new and nothing to handlers that were not selected (C99_repeats). Theorems: C99_refuted, C99_refuted_watch, C99_reaches_partial, C99_fastest_partial, C99_repeats. |
| C100 | The cache follows the API server | partial | Follow | False in two ways: if something is pending when a list is stored, an object that was made and deleted again in between stays in the cache for good (C100_refuted_ghost, the composition's form of C31); and since lists are asked for with resource version "0" a relist may answer with an older state, so the cache may go back (C100_refuted_back). Proved for a faithful API server, with the reflector's tasks in any order: the cache is the server's content at last_sync_resource_version whenever nothing is pending and the last list came at a clean moment (C100_follows_partial), e.g. with nothing pending (C100_drained_clean); between lists the version never goes back (C100_forward_partial); under an open watch all schedules end within a stated number of steps with the newest content (C100_settles_partial). Theorems: C100_follows_partial, C100_drained_clean, C100_forward_partial, C100_settles_partial, C100_refuted_ghost, C100_refuted_back. |
| C101 | What stays as it is at the API server comes into the cache | proved | Follow | Proved for the composition of C100 (API server, reflector with all its tasks, DeltaFIFO, store) in endless fair runs: the version grows as long as the server is ahead, also across ended and reopened watches (C101_catches_up), and an object that stays comes into the cache for good (C101_comes). The clean moment is necessary, see C100_refuted_ghost; a first list always is at one (C100_drained_clean). A concrete endless run with an ended watch and changes meanwhile meets the hypotheses. Theorems: C101_catches_up, C101_comes. |
| C102 | What stays at the API server is what the reconciler last saw | proved | Whole | Proved for the composition of the models of C100 and C75: runs of the whole are shown to be runs of its parts (view of server, reflector, queue and indexer; shared informer, handler and controller), then C101_comes, C34_due_partial and C98 give the result. C102_seen: objects that stay; C102_deleted: deletions reported by the watch (those found out by a list are not told to the reconciler, C57_refuted); C102_succeeds: a call with the server's object returns for good. The clean moment is necessary (C100_refuted_ghost); a first list always is at one (C100_drained_clean). That the handler is due at every check is necessary (C34_refuted); it holds if the handler has the smallest period or there are no resyncs. A concrete endless run with a modification, a resync and a deletion meets all hypotheses. Theorems: C102_seen, C102_deleted, C102_succeeds. |
| C103 | Polling keeps to its times | partial | PollTime | False of the code in three ways. A condition that answers False when wait_for cancels it (one that catches Exception, up to Python 3.7) makes poll go on for ever (C103_refuted_swallow). With the wait_for of Python 3.10 one that answers True then, or raises something else, makes poll return or raise that after the timeout (C103_refuted_late). The first call of poll_immediate is not limited by the timeout (C103_refuted_immediate). Proved: the spacing (C103_spacing, C103_spacing_immediate) for all conditions; that poll ends in time (C103_in_time_partial, C103_ends_partial) for conditions that end when they are cancelled, apart from the time they take for that; how it ends (C103_result) for those that raise CancelledError; that it never ends late but with WaitTimeoutError with the wait_for of Python 3.7 (C103_late_partial); that it returns when the condition is met in time (C103_returns); poll_immediate within the timeout after its first call (C103_immediate_partial). poll_infinite never gives up (C103_infinite). Theorems: C103_spacing, C103_spacing_immediate, C103_in_time_partial, C103_ends_partial, C103_result, C103_late_partial, C103_refuted_late, C103_returns, C103_refuted_swallow, C103_refuted_immediate, C103_immediate_partial, C103_infinite, C103_immediate_infinite. |
| C104 | Retries keep their distance | proved | Controller | Controller, rate-limiting queue, delay loop and default limiter together. Every delivery is charged to an ask of its own that is due (C104_count, any limiter); cumulative back-off (C104_backoff); global rate (C104_rate, needs the limiter to read the same clock as the queue, as it does in the code). Theorems: C104_count, C104_backoff, C104_rate. |
| C105 | What is gone is forgotten | partial | Controller, DelayQueue, Fifo | False of all three structures. The limiter keeps the counter of an item whose reconciler, after a retry, returned something that is no result or was cancelled (C105_refuted_limiter); the list under the heap grows without bound when one item is asked for earlier and earlier (C105_refuted_heap); FIFO's queue when an object is added and deleted over and over (C105_refuted_fifo). Proved: exactly which items have a counter (C105_remembered) and that an item with a counter is around unless its last outcome was of these kinds or the limiter raised (C105_limiter_partial); removed entries of the heap are charged to accepted calls whose deadline is not before the earliest one waited for (C105_heap_partial); replace and an empty pop clear FIFO's queue of stale keys (C105_fifo_partial; its length in general: C21_queue_length). Theorems: C105_remembered, C105_limiter_partial, C105_refuted_limiter, C105_heap_partial, C105_refuted_heap, C105_refuted_fifo, C105_fifo_partial. |
| C106 | At most one elector leads | partial | LeaderElection | False of the code: if the record is removed while one elector leads, another creates it and leads too, and as long as the first one's reads fail, for any number of rounds (renew_deadline is never looked at, see C67), both lead (C106_refuted). Proved: if nobody removes the record, at most one elector ever leads (C106_one_partial); with ConfigMapLocks and a ConfigMap that nobody deletes none ever leads (C106_configmap); a leading elector whose read finds a record, or whose create succeeds, leads no more (C106_reads_partial). C106_alone: an elector that nobody disturbs does in the cut model what run of the other model does. C106_record_partial: the same for electors that share a record; C106_clients: the calls of one client's ConfigMapLock leave what the others keep. Theorems: C106_one_partial, C106_record_partial, C106_clients, C106_configmap, C106_refuted, C106_reads_partial, C106_alone. |
| C107 | Index functions that are added later find everything | partial | StoreIndexers | False of the code: a function assigned while objects are stored finds none of them (C107_refuted_missing); once another object with the same value is added, the older one can never be deleted: every delete raises KeyError (C107_refuted_stuck); a function removed and put back makes by_index raise (C107_refuted_remove). Proved: functions assigned only while nothing is stored work exactly (C107_exact_partial), and a replace repairs whatever was done before (C107_replace_repairs). Theorems: C107_exact_partial, C107_replace_repairs, C107_refuted_missing, C107_refuted_stuck, C107_refuted_remove. |
| C108 | The reflector does not flood the API server | proved | ReflectorTime | C108_gaps: the spacing; C108_rate: requests in any stretch of time; C108_lists: lists, for any wall clock; C108_again: lists that fail; C108_same: the calls are those of the model of C39 to C42; C108_needs_clock: with a wall clock set forward again and again C108_rate would be false. Theorems: C108_gaps, C108_rate, C108_lists, C108_again, C108_needs_clock, C108_same. |
| C109 | A handler that raises holds nobody up | partial | ListenerTime | False of the code: after a call that raised, _run sleeps 60 seconds (shared_informer.py line 398), during which _pop waits in join and so does _add. C109_refuted_late: a notification is handed over 60 seconds late; C109_refuted_held: no bound on how long the informer is held up by a handler whose calls take no time; C109_refuted_stop: a minute passes after a stop. What holds: C109_on_time_partial gives the exact moment of every call (60 seconds after a call that raised, else at once), C109_pause_partial the pause on any event loop, C109_held_partial bounds the time the informer is held up by the time in calls and 60 seconds for each that raised, C109_stop_partial says what a stop waits for. Theorems: C109_on_time_partial, C109_pause_partial, C109_held_partial, C109_stop_partial, C109_refuted_held, C109_refuted_late, C109_refuted_stop. |
| C110 | add_after is punctual on an idle event loop | proved | DelayQueue | Verif.Model.DelayQueue with time that passes only when the queue's tasks can do nothing (Verif.Spec.DelayIdle): C110_exact (each add of the delay loop is at the end of a delay asked for), C110_punctual (once the end of a delay is past the item has been added, at the latest at that end). Heartbeats may come at any time and are not needed. Theorems: C110_exact, C110_punctual. |
| C111 | What was asked for comes on time when a worker is free | proved | Controller | Verif.Model.Controller (workers, limiter, delaying queue) with time that passes only when nothing can be done (Verif.Spec.ControllerIdle): C111_on_time (anything asked for), C111_retry (retries), C111_backoff (with the exponential limiter, up to the overflow of C56), C111_default (with the default limiter; the wall clock reads at least ten seconds since 1970 and may otherwise jump). How long reconcilers take and workers pause is arbitrary. Theorems: C111_on_time, C111_retry, C111_backoff, C111_default. |
| C112 | The DeltaFIFO and its callers do not change each other's lists | partial | DeltaRef | False of the code (C112_refuted): the queue keeps the very list that was given to add_if_not_present, and a list that pop puts back is also returned to the caller of pop; changing such a list changes what pop hands over (under the old key) and can make list() raise. Proved: C112_kept (the queue itself changes no list, whatever the callers do), C112_values_partial (all answers are those of Verif.Model.DeltaFifo, where lists are values, as long as callers change only lists that are theirs: made by them, a copy from get, or popped and not put back), C112_names_partial. Theorems: C112_values_partial, C112_kept, C112_names_partial, C112_refuted. |
| C113 | When time passes while a worker is free, the reconciler is up to date | partial | System | False of the code for deletions found out by a relist (C75_refuted: a DeletedFinalStateUnknown makes no request) and for lists that come at an unfortunate moment (C31). Proved: C113_cached_partial (the reconciler was last called with what is in the cache; for watched deletions it was called, last when the cache did not hold the object; at every moment at which time passes, for handlers that every check finds due and whose predicates accept everything) and C113_watched_partial (the cache is what was reported, if the last list did no harm to the object). Theorems: C113_cached_partial, C113_watched_partial. |
| C114 | Several runs of one shared informer agree in the end | partial | Runs | False of the code with resyncs (C114_refuted): a resync of one call queues an old object that a lagging call has just put into the indexer; applied after the lagging call has caught up, it leaves the old object there with nothing pending. Proved: C114_coherent (for all histories) and C114_converges_partial (reflectors that list once, at any time, and do not resync). Cancellation and the doubled listener tasks are not modelled here. Theorems: C114_coherent, C114_converges_partial, C114_refuted. |
| C115 | When time passes while a worker is free, the reconciler has seen what the API server sent | partial | Whole | False of the code for deletions found out by a list (C57_refuted: a DeletedFinalStateUnknown makes no request) and for lists that come at an unfortunate moment (C100_refuted_ghost). Proved: C115_seen_partial, at every moment at which time passes, after a last list at a clean moment, for handlers that every check finds due and whose predicates accept everything; it also covers moments without a watch, for the version the reflector took note of. A concrete run in which the server has not sent its last change meets the hypotheses. Theorems: C115_seen_partial. |
| C116 | Several runs of one shared informer call a handler in order, one call at a time | partial | Listeners | False of the code: with the tasks of two calls of run, the handler is called with notification 2 before notification 1 (C116_refuted_order), two calls of it run at the same time (C116_refuted_overlap), and when one call of run ends, the handler is not called any more for any of them (C116_refuted_end, for all states and continuations). What holds, before a stop: each accepted notification is on its way or delivered, exactly once (C116_each_once_partial); nothing gets stuck: what tasks and handler can do without new notifications is bounded, and in the end every notification has been delivered (C116_delivered_partial). With one call of run the order holds, one call at a time, also with a stop (C116_one_run_partial, by simulation in the model of C37). Theorems: C116_each_once_partial, C116_delivered_partial, C116_one_run_partial, C116_refuted_end, C116_refuted_order, C116_refuted_overlap. |

## 6. Axioms per theorem

### propext

RateLimiters.C11_forget_all, Store.C19_refuted_repeated_value, Store.C20_refuted_useless, Fifo.C22_not_synced_initially, Informer.C29_refuted_requeue, Informer.C31_refuted_ghost, Informer.C31_refuted_lost, Listener.C37_stopped, InformerSync.C38_refuted, InformerSync.C38_exclusive, Reflector.C43_refuted, FakeSource.C60_shutdown, Listener.C62_refuted, Mux.C63_refuted_lost, Poll.C65_immediate, FakeWatcher.C78_ended_only, Client.C79_atomic, Client.C79_refuted_shared, Shutdown.C83_refuted_sync, Shutdown.C83_refuted_raise, Shutdown.C83_refuted_reconciler, Shutdown.C83_refuted_early, Shutdown.C83_refuted_unsound, Store.C84_refuted_atomic, Store.C84_refuted_forever, Wiring.C87_stable, DeltaLock.C92_pointless_partial, LeaderElection.C106_clients, StoreIndexers.C107_refuted_remove, Listeners.C116_refuted_end, Listeners.C116_refuted_order, Listeners.C116_refuted_overlap.

### propext, Quot.sound

WorkQueue.C02_waiting_item_is_served, WorkQueue.C05_drain_then_quit, WorkQueueSched.C06_cancelled_get_loses_wakeup, RateLimiters.C08_refuted_overflow_reachable, RateLimiters.C08_refuted_default_limiter_reachable, RateLimiters.C11_num_requeues_is_max, Store.C20_refuted_always_conflict, Store.C20_raises_partial, DeltaFifo.C23_delta_nobody_sleeps, DeltaFifo.C23_delta_closed_pop, DeltaFifo.C23_delta_open_pop, Fifo.C23_fifo_nobody_sleeps, DeltaFifo.C24_keys_once_in_order, DeltaFifo.C24_pop_first, DeltaFifo.C25_popped_is_pending, DeltaFifo.C25_get_shows_pending, DeltaFifo.C25_list, DeltaFifo.C25_since_last_pop, DeltaFifo.C25_add_appends, DeltaFifo.C25_answers, DeltaFifo.C27_synced_iff_count, DeltaFifo.C27_refuted_repeated_key, DeltaFifo.C27_synced_exact, DeltaFifo.C28_requeue, DeltaFifo.C28_other, DeltaFifo.C28_retry, Informer.C33_refuted, SharedInformer.C34_refuted, Listener.C37_order, Listener.C37_prefix, Listener.C37_delivered, InformerSync.C38_refines, Mux.C46_idempotent, Mux.C46_remove, Mux.C46_end, Mux.C46_fixed, InformersMap.C58_same, InformersMap.C58_stable, InformersMap.C58_run_partial, InformersMap.C58_refuted, FakeSource.C60_replay_partial, FakeSource.C60_answers, Listener.C62_partial, Mux.C63_refuted_stuck, Mux.C64_refuted, Mux.C64_partial, Poll.C65_refuted, LeaderElection.C69_no_lost_update, LeaderElection.C69_update, LeaderElection.C69_get, LeaderElection.C69_read, InformersMap.C70_synced, InformersMap.C70_started, Manager.C71_waits, Manager.C71_synced_first, Manager.C71_refuted_late, Manager.C71_run_once, Manager.C71_refuted_again, FakeWatcher.C78_refuted_stop, FakeWatcher.C78_refuted_reset, FakeWatcher.C78_refuted_cancel, FakeWatcher.C78_refuted_raises, FakeWatcher.C78_lock, FakeWatcher.C78_order, Client.C79_raises, Client.C79_by_gvk, Client.C79_by_type, Client.C79_consistent, Client.C79_found_partial, Client.C79_unknown, Lifecycle.C81_refuted_handler, Shutdown.C83_cancel, Shutdown.C83_steps, Shutdown.C83_over_partial, Shutdown.C83_tasks, Shutdown.C83_queue, Shutdown.C83_open, Shutdown.C83_returns, Shutdown.C83_raises, Shutdown.C83_refuted_informer, Shutdown.C83_refuted_worker, Store.C84_refuted_undeletable, IndexedInformer.C85_refuted_untold, IndexedInformer.C85_refuted_deleted, IndexedInformer.C85_refuted_update, Wiring.C87_starts, Wiring.C87_own_partial, Wiring.C87_refuted_shared, Wiring.C87_refuted_added, Wiring.C87_runnables, Restart.C88_reported, Restart.C88_sources, Restart.C88_refuted_twice, Restart.C88_refuted_same_queue, Restart.C88_refuted_retry, Restart.C88_refuted_sources, DeltaLock.C91_one_at_a_time, DeltaLock.C91_callback, DeltaLock.C91_answers_calls, DeltaLock.C91_known_now, DeltaLock.C91_nobody_forgotten, DeltaLock.C92_reads_partial, DeltaLock.C92_cancelled_partial, Fifo.C105_refuted_fifo, Fifo.C105_fifo_partial, DeltaRef.C112_refuted, Runs.C114_refuted, Listeners.C116_one_run_partial.

### propext, Classical.choice, Quot.sound

WorkQueue.C01_no_concurrent_processing, WorkQueue.C02_accepted_add_not_lost, WorkQueue.C03_delivery_needs_new_add, WorkQueue.C03_len_counts_distinct, WorkQueue.C04_refines_reference, WorkQueueSched.C04_tasks_refine_reference, WorkQueue.C05_add_ignored_after_shutdown, WorkQueue.C05_get_never_blocks_after_shutdown, WorkQueue.C05_at_most_once_after_shutdown, WorkQueueSched.C06_no_lost_wakeup, WorkQueueSched.C06_idle_means_no_work, WorkQueueSched.C06_shutdown_wakes_all, RateLimiters.C07_backoff_formula, RateLimiters.C07_num_requeues, RateLimiters.C07_items_independent, RateLimiters.C08_refuted_overflow, RateLimiters.C08_when_returns_partial, RateLimiters.C08_refuted_default_limiter, RateLimiters.C09_window_bound, RateLimiters.C10_bounds, RateLimiters.C10_exact_delay, RateLimiters.C10_backwards, RateLimiters.C10_full_burst_free, RateLimiters.C11_when_is_max, RateLimiters.C11_exception_stops, RateLimiters.C11_parts_independent, RateLimiters.C11_default_num_requeues, RateLimiters.C11_default_when, DelayHeap.C12_refines_table, DelayHeap.C12_pop_earliest, DelayQueue.C13_never_early, DelayQueue.C13_at_most_one_add_per_call, DelayQueue.C14_not_forgotten, DelayQueue.C14_sleep_has_timer, DelayQueue.C14_timer_exact, DelayQueue.C14_due_item_added, DelayQueue.C14_timer_wakes, DelayQueue.C14_entry_taken, DelayQueue.C14_capacity, DelayQueue.C14_comes, DelayQueue.C15_refuted_never_shut_down, DelayQueue.C15_stop_wakes_partial, DelayQueue.C15_delay_loop_stops_partial, RateLimitingQueue.C16_limiter_sees_exactly, RateLimitingQueue.C16_queue_sees_exactly, RateLimitingQueue.C16_num_requeues, RateLimitingQueue.C16_exponential_schedule, Store.C17_store_is_map, Store.C17_key_error_changes_nothing, Store.C18_by_index, Store.C18_index_keys, Store.C18_index, Store.C18_list_index_func_values, Store.C18_unknown_name, Store.C19_exact_partial, Store.C19_raises_iff_clash_partial, Fifo.C21_pop_newest, Fifo.C21_shows_waiting, Fifo.C21_answers, Fifo.C21_delivered, Fifo.C21_queue_length, Fifo.C22_synced_iff, Fifo.C22_synced_exact, Fifo.C22_synced_means_consumed, DeltaFifo.C23_delta_released, Fifo.C23_fifo_closed_pop, Fifo.C23_fifo_open_pop, Fifo.C23_fifo_released, DeltaFifo.C26_replace_known, DeltaFifo.C26_replace_pending, DeltaFifo.C26_vanished_newest, DeltaFifo.C26_delete, DeltaFifo.C27_synced_iff_partial, Informer.C29_replay, Informer.C29_coherent, Informer.C29_sensible_partial, Informer.C30_converges, Informer.C30_drains, Informer.C31_converges_partial, Informer.C31_list_partial, Informer.C32_queues, Informer.C32_repeats, Informer.C33_last_partial, Informer.C33_heals_partial, SharedInformer.C34_due_partial, SharedInformer.C34_sensible_partial, SharedInformer.C34_nolist_partial, SharedInformer.C34_same_cache, Resync.C35_check, Resync.C35_granted, Resync.C36_selected, Resync.C36_schedule, Resync.C36_apart, InformerSync.C38_shared_partial, InformerSync.C38_plain_partial, InformerSync.C38_distinct_partial, Reflector.C39_resume, Reflector.C40_calls, Reflector.C41_refuted, Reflector.C41_partial, Reflector.C42_last, Reflector.C43_partial, Mux.C44_live, Mux.C44_registered, Mux.C44_stopped, Mux.C44_order, Mux.C45_no_delay, Mux.C45_only_full, Mux.C45_full, Mux.C45_buffer, Mux.C46_not_blocked, Mux.C46_waits_for_reader, Mux.C46_shutdown, Mux.C46_emptied, FakeClock.C47_alone, FakeClock.C47_once, FakeClock.C47_reports, FakeClock.C47_stopped, FakeClock.C47_reset, FakeClock.C48_never_blocks, FakeClock.C48_buffer, FakeClock.C48_alone, FakeClock.C48_next, FakeClock.C48_negative, Wait.C49_bounded, Wait.C49_unchanged, Wait.C49_all_calls, Wait.C49_cap, Wait.C49_sleeps, Wait.C49_negative, Wait.C49_few_sleeps, Wait.C49_default_retry, Wait.C50_values, Wait.C50_constant, Wait.C50_cap, Wait.C50_jittered, Wait.C50_jitter, Wait.C50_jitter_default, Wait.C50_jitter_onto, Meta.C51_injective, Meta.C51_slash, Meta.C51_lookup, Meta.C51_request, LeaderElection.C52_accepts, LeaderElection.C52_rejects, LeaderElection.C53_refuted, LeaderElection.C53_refuted_stops, LeaderElection.C53_partial, LeaderElection.C54_refuted, LeaderElection.C54_partial, Controller.C55_order, Controller.C55_done_once, Controller.C55_exclusive, Controller.C55_done_follows, Controller.C55_cancelled, Controller.C56_limiter, Controller.C56_num_requeues, Controller.C56_schedule, Controller.C56_retried_partial, Controller.C56_refuted, Controller.C56_refuted_none, Source.C57_enqueued_partial, Source.C57_only, Source.C57_refuted, Source.C57_refuted_relist, Source.C57_cached_partial, Source.C57_deleted_partial, InformersMap.C59_refuted, InformersMap.C59_range_partial, FakeSource.C60_versions_partial, FakeSource.C60_event_versions_partial, FakeSource.C60_refuted, FakeSource.C60_refuted_versions, Poll.C61_result, Poll.C61_returns, Mux.C63_partial, Poll.C65_poll_partial, Poll.C65_poll_returns, Poll.C65_immediate_partial, Meta.C66_refuted, Meta.C66_partial, LeaderElection.C67_refuted, LeaderElection.C67_partial, LeaderElection.C68_refuted, LeaderElection.C68_partial, Manager.C71_once_partial, Manager.C71_all_partial, Manager.C72_registered, Manager.C72_connected_partial, Manager.C72_refuted_overlap, Manager.C72_exclusive, Manager.C72_progress, Loops.C73_sliding, Loops.C73_fixed, Loops.C73_punctual, Loops.C73_until_loop, Loops.C73_not_after_stop, Loops.C73_ends_only, Loops.C73_stops_promptly, Loops.C73_goes_on, RealTime.C74_timer, RealTime.C74_timer_fires, RealTime.C74_timer_stopped, RealTime.C74_ticker, RealTime.C74_ticker_count, RealTime.C74_ticker_goes_on, RealTime.C74_ticker_stopped, System.C75_current_partial, System.C75_quiet_partial, System.C75_settles, System.C75_eventually_partial, System.C75_no_more, System.C75_refuted, System.C75_fair, System.C75_fair_partial, RateLimiters.C76_partial, RateLimiters.C76_refuted, Heapq.C77_invariant, Heapq.C77_bag, FakeWatcher.C78_rendezvous_partial, FakeWatcher.C78_served_partial, FakeWatcher.C78_stop, Client.C79_requests, Lifecycle.C80_ends_partial, Lifecycle.C80_silent_partial, Lifecycle.C80_refuted_again, Lifecycle.C81_order, Lifecycle.C81_content, Lifecycle.C81_told, Lifecycle.C81_delivered_partial, ReflectorTasks.C82_calls, ReflectorTasks.C82_stream, ReflectorTasks.C82_scope, ReflectorTasks.C82_spaced, ReflectorTasks.C82_alive_partial, ReflectorTasks.C82_cause, ReflectorTasks.C82_quiet, ReflectorTasks.C82_cancel, ReflectorTasks.C82_refuted_raise, Store.C84_map_partial, Store.C84_sound_partial, Store.C84_settled_partial, Store.C84_replace_repairs, IndexedInformer.C85_plain, IndexedInformer.C85_isolated_partial, IndexedInformer.C85_index_partial, IndexedInformer.C85_converges_partial, IndexedInformer.C85_progress, IndexedInformer.C85_refuted_stuck, Builder.C86_built, Builder.C86_returns, Builder.C86_once_partial, Builder.C86_connected_partial, Builder.C86_works_partial, Builder.C86_refuted_race, Builder.C86_refuted_failed, Builder.C86_refuted_late, Restart.C88_exclusive_partial, Restart.C88_returned_partial, Restart.C88_connected_partial, Restart.C88_shut_partial, Restart.C88_refuted_stuck, Restart.C88_refuted_restart, StoreRef.C89_exact_partial, StoreRef.C89_replace_repairs, StoreRef.C89_map_partial, StoreRef.C89_refuted_delete, StoreRef.C89_refuted_update, Rerun.C90_refuted_silent, Rerun.C90_refuted_stuck, Rerun.C90_ends_partial, Rerun.C90_no_listeners_partial, Rerun.C90_unstarted_partial, DeltaLock.C91_reads, DeltaLock.C92_refuted_hangs, LoopTasks.C93_refuted_stopped, LoopTasks.C93_refuted_forever, LoopTasks.C93_refuted_cleared, LoopTasks.C93_few_partial, LoopTasks.C93_stopped_partial, LoopTasks.C93_raised_partial, LoopTasks.C93_gone_partial, Example.C94_refuted_name, Example.C94_refuted_ambiguous, Example.C94_refuted_relist, Example.C94_line_partial, Example.C94_current_partial, Example.C94_deleted_partial, Controller.C95_added, Controller.C95_again, Controller.C95_forever, DelayClock.C96_refuted_early, DelayClock.C96_early_partial, DelayClock.C96_late_partial, DelayClock.C96_timer_partial, DelayClock.C96_refuted_late, WorkQueueSched.C97_refuted_overtaken, WorkQueueSched.C97_in_order_partial, System.C98_called, System.C98_current, System.C98_succeeds, ResyncReach.C99_refuted, ResyncReach.C99_refuted_watch, ResyncReach.C99_reaches_partial, ResyncReach.C99_fastest_partial, ResyncReach.C99_repeats, Follow.C100_follows_partial, Follow.C100_drained_clean, Follow.C100_forward_partial, Follow.C100_settles_partial, Follow.C100_refuted_ghost, Follow.C100_refuted_back, Follow.C101_catches_up, Follow.C101_comes, Whole.C102_seen, Whole.C102_deleted, Whole.C102_succeeds, PollTime.C103_spacing, PollTime.C103_spacing_immediate, PollTime.C103_in_time_partial, PollTime.C103_ends_partial, PollTime.C103_result, PollTime.C103_late_partial, PollTime.C103_refuted_late, PollTime.C103_returns, PollTime.C103_refuted_swallow, PollTime.C103_refuted_immediate, PollTime.C103_immediate_partial, PollTime.C103_infinite, PollTime.C103_immediate_infinite, Controller.C104_count, Controller.C104_backoff, Controller.C104_rate, Controller.C105_remembered, Controller.C105_limiter_partial, Controller.C105_refuted_limiter, DelayQueue.C105_heap_partial, DelayQueue.C105_refuted_heap, LeaderElection.C106_one_partial, LeaderElection.C106_record_partial, LeaderElection.C106_configmap, LeaderElection.C106_refuted, LeaderElection.C106_reads_partial, LeaderElection.C106_alone, StoreIndexers.C107_exact_partial, StoreIndexers.C107_replace_repairs, StoreIndexers.C107_refuted_missing, StoreIndexers.C107_refuted_stuck, ReflectorTime.C108_gaps, ReflectorTime.C108_rate, ReflectorTime.C108_lists, ReflectorTime.C108_again, ReflectorTime.C108_needs_clock, ReflectorTime.C108_same, ListenerTime.C109_on_time_partial, ListenerTime.C109_pause_partial, ListenerTime.C109_held_partial, ListenerTime.C109_stop_partial, ListenerTime.C109_refuted_held, ListenerTime.C109_refuted_late, ListenerTime.C109_refuted_stop, DelayQueue.C110_exact, DelayQueue.C110_punctual, Controller.C111_on_time, Controller.C111_retry, Controller.C111_backoff, Controller.C111_default, DeltaRef.C112_values_partial, DeltaRef.C112_kept, DeltaRef.C112_names_partial, System.C113_cached_partial, System.C113_watched_partial, Runs.C114_coherent, Runs.C114_converges_partial, Whole.C115_seen_partial, Listeners.C116_each_once_partial, Listeners.C116_delivered_partial.

