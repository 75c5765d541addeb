{
 "C01": [
  "proved",
  "History theorem for every call sequence."
 ],
 "C02": [
  "proved",
  "Not lost, and served within pre.length+1 gets. Two theorems."
 ],
 "C03": [
  "proved",
  "Two theorems: a delivery needs a new accepted add; len counts distinct items."
 ],
 "C04": [
  "proved",
  "Trace equality with the reference queue (Spec/WorkQueue.lean), also for any interleaving of tasks."
 ],
 "C05": [
  "proved",
  "Add ignored, get never blocks, drain in order then quit, at most one delivery each."
 ],
 "C06": [
  "proved",
  "Proved for no cancelled get (any CPython) and for cancelled gets on CPython >= 3.13; the excluded case is shown to fail (C06_cancelled_get_loses_wakeup)."
 ],
 "C07": [
  "proved",
  "Formula, num_requeues, independence of items, for every history."
 ],
 "C08": [
  "partial",
  "False of the code: OverflowError after 1024 failures with a float base, also for the default limiter (refuted theorems). Partial: returns below 1024 failures or with an int base."
 ],
 "C09": [
  "proved",
  "Exact rationals, every non-decreasing clock."
 ],
 "C10": [
  "proved",
  "Bounds, exact delay against an ideal bucket, free burst."
 ],
 "C11": [
  "proved",
  "For any part interface; also exception behaviour and independence of parts over histories; and the default limiter completely: its num_requeues and when after every history."
 ],
 "C12": [
  "proved",
  "Trace equality with the table of earliest deadlines; heapq abstracted to extract-min."
 ],
 "C13": [
  "proved",
  "Every loop add is justified by a due add_after; at most one loop add per call; all interleavings."
 ],
 "C14": [
  "proved",
  "Not forgotten, timer set and exact, due items added within len+1 loop steps; the channel's capacity (C14_capacity); in every fair endless run, with calls of add_after without end, each accepted call is followed by an add (C14_comes)."
 ],
 "C15": [
  "partial",
  "False of the code (shut_down calls itself, base class never told): refuted for every history. Partial: the delay loop does stop."
 ],
 "C16": [
  "proved",
  "Projection theorems for any limiter; end-to-end schedule for the exponential limiter."
 ],
 "C17": [
  "proved",
  "Trace answers equal to an independent ordered map for every history; key errors change nothing."
 ],
 "C18": [
  "proved",
  "All four index queries, for every history and every non-raising duplicate-free index function."
 ],
 "C19": [
  "partial",
  "False of the code: a repeated value shared with another object makes delete/update raise KeyError (refuted). Partial: exact iff-characterisation of when it raises, and exactness otherwise."
 ],
 "C20": [
  "partial",
  "False of the code: add_indexers raises for every non-empty table (union instead of intersection); C20_refuted_useless: it never changes anything. Partial: the raising half."
 ],
 "C21": [
  "proved",
  "FIFO modelled call by call; Spec.waiting reads the history."
 ],
 "C22": [
  "proved",
  "Holds with further replaces as well (C22_synced_iff); consumption needs no second replace."
 ],
 "C23": [
  "proved",
  "Any number of tasks blocked in pop, any interleaving (Model/Monitor), for FIFO and DeltaFIFO."
 ],
 "C24": [
  "proved",
  "Refinement of DeltaFIFO to a log of changes (Spec/DeltaFifo)."
 ],
 "C25": [
  "proved",
  "Popped deltas equal the log's pending changes; merge rule characterised separately."
 ],
 "C26": [
  "proved",
  "Per-key effect of replace with and without known objects, and of delete."
 ],
 "C27": [
  "partial",
  "False for lists with repeated keys (C27_refuted_repeated_key: count is len(list)); proved for lists with distinct keys."
 ],
 "C28": [
  "proved",
  "Requeue, ProcessError and the controller's retry with arbitrary calls in between."
 ],
 "C29": [
  "partial",
  "For every history and handler: replay of the notifications gives the store, adds are of absent objects, updates carry the object delivered last. Deletions of present objects only: proved for handlers that do not raise RequeueError; refuted for those that do (the deletion is put back and repeated)."
 ],
 "C30": [
  "proved",
  "One initial list, arbitrary watch events, resyncs, pops; draining shown to take one pop per pending key."
 ],
 "C31": [
  "partial",
  "False as stated: two counterexamples (an unprocessed addition survives a relist that does not have it; a relist's Sync is dropped behind a pending deletion). Proved key by key for the moments at which neither applies."
 ],
 "C32": [
  "proved",
  ""
 ],
 "C33": [
  "partial",
  "False as stated: a handler raising on the first of several pending deltas drops the rest. Proved: failures in the last call of a pop or on other keys are harmless, and the next watch event of the object heals it."
 ],
 "C34": [
  "partial",
  "False as stated: a handler not due at the last resync check misses relist-detected changes. Proved for handlers that every check finds due, and for all handlers as long as no list follows the first check; all handlers share one cache."
 ],
 "C35": [
  "proved",
  ""
 ],
 "C36": [
  "proved",
  ""
 ],
 "C37": [
  "proved",
  ""
 ],
 "C62": [
  "partial",
  "False as stated: while a call lasts the listener takes over one more notification and then blocks its producer. Proved: while the second queue is empty _add is accepted and returns."
 ],
 "C38": [
  "partial",
  "False of the shared informer: while add_event_handler holds _block_deltas the last item of the first list may be off the queue (has_synced True) and not in the store. Proved: this is the only exception; without registrations meanwhile it holds; the split pop refines the informer's pop; while the lock is held nothing is handed out and nothing stored, and a waiting pop goes on when it is free."
 ],
 "C39": [
  "proved",
  "Over whole runs, any number of lists and watches."
 ],
 "C40": [
  "proved",
  "Over whole runs; exceptions of the store for single events do not matter."
 ],
 "C41": [
  "partial",
  "False: an iterator that raises leaves list_and_watch waiting for ever (C41_refuted). C41_partial covers every other end of a watch."
 ],
 "C42": [
  "proved",
  "After any prefix of a run (scripts may stop anywhere in the last stream)."
 ],
 "C43": [
  "partial",
  "False for the core group: api_version.split('/') raises for \"v1\" and the watch ends (C43_refuted). C43_partial covers objects with a group."
 ],
 "C44": [
  "proved",
  "Runs in which readers are not cancelled (that case is C63); every queue length including 0."
 ],
 "C45": [
  "proved",
  "Sublist part is C44_order, which covers both modes."
 ],
 "C46": [
  "proved",
  "Not blocked by stopped watchers, waits only for live watchers with unread events, end after the buffered events, idempotent stop."
 ],
 "C63": [
  "partial",
  "False: a reader cancelled in __anext__ leaves a task behind that swallows the next event (C63_refuted_lost) and with queue length 0 blocks the broadcaster (C63_refuted_stuck). C63_partial: at most one event lost per cancelled read, order kept."
 ],
 "C64": [
  "partial",
  "False: calls after shutdown hang (C64_refuted). C64_partial: registrations handled before are made."
 ],
 "C47": [
  "proved",
  "Histories of any length with any number of other timers and tickers; exact rational times. C47_alone: refinement of a one-timer specification; C47_once, C47_stopped, C47_reset, C47_reports: what users see. That timers never block the clock is C48_never_blocks."
 ],
 "C48": [
  "proved",
  "Positive intervals as stated; a negative interval makes the clock hang (C48_negative), interval 0 ticks once. Exact rational times: with floats, start + n*interval accumulates rounding, not modelled."
 ],
 "C49": [
  "proved",
  "For every number of steps >= 0. C49_negative shows why: a negative number loops for ever. Meeting the cap ends the calls early (C49_cap), after one more sleep."
 ],
 "C50": [
  "proved",
  "Exact rationals. The cap only acts if there is a factor and at least one step (hypotheses of C50_cap). jitter with factor <= 0 acts as factor 1."
 ],
 "C61": [
  "proved",
  "Every behaviour of the sync functions and of the sleeps."
 ],
 "C65": [
  "partial",
  "False: asyncio.TimeoutError raised by the condition is reported as WaitTimeoutError (C65_refuted). The rest holds (C65_*_partial, C65_poll_returns, C65_immediate)."
 ],
 "C51": [
  "proved",
  "Strings as character lists; absent namespaces (None and empty) count as the same. C51_slash: keys clash with slashes."
 ],
 "C66": [
  "partial",
  "False: raw objects without a namespace field have no key (C66_refuted). C66_partial: typed objects, and raw objects with both fields."
 ],
 "C52": [
  "proved",
  "exact arithmetic; also: each rejection names a violated condition"
 ],
 "C53": [
  "partial",
  "false of the code: _observed_raw_record is read before it is ever set (AttributeError) and records are dicts without attributes; C53_refuted: update is never called, C53_refuted_stops: the leader stops at its first renewal attempt. Left: it makes that attempt at once (C53_partial)."
 ],
 "C54": [
  "partial",
  "false of the code: with a ConfigMap lock get() raises for a missing ConfigMap (so create is never tried) and create fails with 409 for an existing one (C54_refuted, for every initial ConfigMap). Left: with a lock that reports no record and lets it be created the elector leads (C54_partial)."
 ],
 "C67": [
  "partial",
  "false of the code: renew_deadline is never used; a leader whose reads fail polls for ever while leading (C67_refuted). Left: it steps down when it can read a record (C67_partial)."
 ],
 "C68": [
  "partial",
  "false of the code: UnboundLocalError in the finally clause when the lock was not acquired (C68_refuted). Left: after starting to lead, the order and number of calls at the end (C68_partial)."
 ],
 "C69": [
  "proved",
  "any number of clients and outside changes; the server is modelled as one ConfigMap with versions"
 ],
 "C55": [
  "proved",
  "Any number of workers on one rate-limiting queue, any reconciler, any cancellation, any interleaving; Python 3.8 and before."
 ],
 "C56": [
  "partial",
  "Refuted: the 1025th failure in a row makes add_rate_limited raise OverflowError and the request is dropped; a reconciler that returns None also drops it. C56_limiter, C56_num_requeues, C56_schedule prove what the limiter and the queue are told; C56_retried_partial: when the limiter gives a delay, the request is retried."
 ],
 "C57": [
  "partial",
  "Refuted for deletions found out by a relist: the handler drops DeletedFinalStateUnknown. Proved for notifications whose objects have namespace and name (C57_enqueued_partial), nothing else is added (C57_only), and the whole way from the reflector's calls to the queue for every object in the cache (C57_cached_partial) and for watched deletions (C57_deleted_partial)."
 ],
 "C58": [
  "partial",
  "C58_same, C58_stable: one informer per kind, for every interleaving.  C58_run_partial: informers requested before start are run.  C58_refuted: an informer requested after start is never run, and get never returns."
 ],
 "C59": [
  "partial",
  "C59_refuted: the period is below 18 percent of the configured one for every random number (random()/5*0.9 where random()/5+0.9 was meant).  C59_range_partial gives the exact range."
 ],
 "C70": [
  "proved",
  "Informers are abstract (running, synced); what synced means is C38."
 ],
 "C60": [
  "partial",
  "C60_replay_partial, C60_versions_partial, C60_event_versions_partial: true for callers who change an object only when they report it (any number of failed deletions and unreported changes).  C60_refuted, C60_refuted_versions: the source keeps the caller's object, so that a later edit changes the list without a change, and an object used twice gives two events with the same version.  C60_answers, C60_shutdown: which calls raise, and that after shutdown every call hangs (for all histories)."
 ],
 "C71": [
  "partial",
  "false for runnables added after the start (never started) and for a second start (starts everything again, then raises TypeError); proved for one start"
 ],
 "C72": [
  "partial",
  "False of the code when two calls of start of one controller overlap (manager.start called twice, or a controller added twice): self.queue is the queue of the call that began last, so the earlier call's queue is never fed and the later one's twice (C72_refuted_overlap). Proved for every interleaving: every call that runs its workers has registered exactly one handler per watch on the right, running and synced informer (C72_registered); these feed the call's own queue if no other call of the same controller is between its beginning and its workers (C72_connected_partial); exclusion (C72_exclusive) and progress (C72_progress). Watches made after the start are not started; the claim is about the ones made before."
 ],
 "C73": [
  "proved",
  "time is exact rational time; the lag of the event loop is a parameter"
 ],
 "C74": [
  "proved",
  "time.time() is taken to be monotone"
 ],
 "C75": [
  "partial",
  "False for deletions found by a relist (C75_refuted: the delete handler drops DeletedFinalStateUnknown). Proved for every object in the cache and every deletion that was watched, for predicates that accept everything. Liveness: every fair order of the moves of handler and workers leads to a state with nothing left to do (C75_fair), after which the reconciler's view stays current (C75_fair_partial)."
 ],
 "C76": [
  "partial",
  "False in real time, for every limit and every burst from 2 on (C76_refuted). Proved with the time the clock went forward in place of real time."
 ],
 "C77": [
  "proved",
  "heappush and heappop with their sift functions are modelled on the list itself; C12-C14 use them."
 ],
 "C78": [
  "partial",
  "Proved for runs without cancellation; false: stop does not free a sender nor the reset behind it (C78_refuted_stop), a reader that waits during stop and reset stays at the old queue (C78_refuted_reset), a cancelled reader still takes an event (C78_refuted_cancel). After a cancelled action and a reset the reader raises ValueError and the event is lost (C78_refuted_raises)."
 ],
 "C79": [
  "partial",
  "False for two classes with the same object type: the second is not refused and hides the first (C79_refuted_shared); proved otherwise."
 ],
 "C80": [
  "partial",
  "False if run is cancelled a second time while it waits for _started_lock: it ends and leaves the processor and all listeners running for ever (C80_refuted_again); proved otherwise, with handlers that return or raise in the end."
 ],
 "C81": [
  "partial",
  "False for a handler that awaits add_event_handler of its own informer: it can deadlock with handle_deltas (C81_refuted_handler); proved for handlers that return or raise in the end."
 ],
 "C82": [
  "partial",
  "C82_alive_partial assumes that should_resync does not raise; C82_refuted_raise shows that after such an exception the store is not resynced until the next list. The rest is proved in full."
 ],
 "C83": [
  "partial",
  "False of the code: cancelled while the caches sync, or ended by a failed child, start leaves informers and workers running for ever (refuted, for every continuation). Partial: cancelled while it runs with nothing failed so far, everything is told to stop at once and ends. A controller's queue is open from the beginning of its task to its end (C83_open)."
 ],
 "C84": [
  "partial",
  "False of the code: an add or update that raises has stored the object and removed the key from indices (C84_refuted_atomic); an object on which an index function raises can never be deleted (C84_refuted_undeletable); after one update that raised every later one may raise KeyError for ever (C84_refuted_forever). Proved: what is stored is the map of all calls but the deletes that raised (C84_map_partial); queries do not raise and list no wrong object (C84_sound_partial); keys whose last write returned are listed exactly (C84_settled_partial); replace repairs everything (C84_replace_repairs)."
 ],
 "C85": [
  "partial",
  "False for keys of objects on which an index function raises: such an object is stored but no handler hears of it (C85_refuted_untold), its deletion is lost for ever unless another object comes for the key (C85_refuted_stuck, general; C85_refuted_deleted), and a handler gets an update of an object it never saw (C85_refuted_update). Proved: every other key is unaffected - handlers, indices and convergence (C85_isolated_partial, C85_index_partial, C85_converges_partial) -, every round of the loop takes one key from the queue (C85_progress), and without raising the informer is the one with a map as indexer (C85_plain)."
 ],
 "C86": [
  "partial",
  "False of the code when the calls overlap: a controller that is started while its build_controller is still waiting for the cache has a queue that nothing feeds (C86_refuted_race), one built after the start is never started (C86_refuted_late), and a call that raises leaves its controller, without watches, in the manager (C86_refuted_failed). Proved for all interleavings: what a returned call has done (C86_built); that it returns when it comes before manager.start (C86_returns); for calls that returned before the only start, the connection to the one right informer (C86_connected_partial); for one call of manager.start, the way to the workers (C86_works_partial) and that no controller is started twice (C86_once_partial)."
 ],
 "C87": [
  "partial",
  "False of the code for a source that another manager has had before (C87_refuted_shared: Kind.inject_cache keeps the first cache) and for a controller added to a second manager (C87_refuted_added). Proved: no watched source is ever without a cache (C87_starts), the cache never changes (C87_stable), and for controllers and sources that stay with one manager it is that manager's, the one the controller waits for (C87_own_partial)."
 ],
 "C88": [
  "partial",
  "False of the code if calls of start overlap: they share self.queue. A request being reconciled when start is called again, in any run, is never again given out by its queue (C88_refuted_stuck), and its worker's done raises, which ends the old call, which shuts down the queue of the new one (C88_refuted_restart); the same request can be reconciled twice at once (C88_refuted_twice, C88_refuted_same_queue), retries go to the other queue and are lost (C88_refuted_retry), sources feed the wrong queue (C88_refuted_sources). Proved for all runs in which start is called only when nothing is left of the earlier calls: C88_exclusive_partial, C88_returned_partial, C88_connected_partial, C88_shut_partial. For all runs, overlapping or not: a call that makes its workers has started every source once and in order, and the calls do not mix (C88_sources). Also for all runs: nothing is reconciled that no source has reported (C88_reported)."
 ],
 "C89": [
  "partial",
  "False of the code: the indices are kept by calling the index functions on the old object as it is at the time of the later call. In any store that is right so far, an object that loses its index values by an assignment and is deleted leaves its key behind, and by_index of the old value raises KeyError from then on (C89_refuted_delete); an object that is given a value which another stored object has makes its own update and delete raise KeyError (C89_refuted_update). Proved: everything, as long as the assignments are to objects that are not stored or do not change index values (C89_exact_partial); the map, whatever is assigned (C89_map_partial); replace repairs the indices (C89_replace_repairs)."
 ],
 "C90": [
  "partial",
  "False of the code: after a call of run that got _started_lock, _stopped and the listeners' _stop_add and _stop_next stay set. However often run is called again, no handler is called and no handler is accepted any more (C90_refuted_silent), and handle_deltas waits for ever in join after at most two notifications for a listener (C90_refuted_stuck). Proved: a later call that is cancelled ends (C90_ends_partial); an informer without listeners can be run again (C90_no_listeners_partial); after calls that were cancelled before they got _started_lock a later call is like a first one (C90_unstarted_partial). Not modelled: two calls of run at the same time, and a call after one that was cancelled twice and left its processor behind (C80_refuted_again)."
 ],
 "C91": [
  "proved",
  ""
 ],
 "C92": [
  "partial",
  "False: every call that takes the lock hangs, since asyncio.Lock is not reentrant, and with it the queue (C92_refuted_hangs, for every reachable state and every such call). Proved: calls that only look are answered (C92_reads_partial), calls that cannot do anything raise at once (C92_pointless_partial); a cancellation of the task ends the hang (C92_cancelled_partial)."
 ],
 "C93": [
  "partial",
  "False: the last timer sleeps on when the event is set (C93_refuted_stopped), the task waiting for the event stays for as long as nobody sets it when f raises or the loop is cancelled (C93_refuted_forever), and after a set and clear the loop spins and piles up timers (C93_refuted_cleared). Proved: never more than three tasks, one for jitter_loop (C93_few_partial); after a stop only the last timer (C93_stopped_partial); after a failure in sliding mode only the wait for the event (C93_raised_partial); a longest period after the end no timer is left, and nothing once the event is set (C93_gone_partial)."
 ],
 "C94": [
  "partial",
  "False: the line about a deleted pod gives its name twice instead of namespace and name (C94_refuted_name, for every pod; C94_refuted_ambiguous), and a pod found missing by a relist is never said to be deleted (C94_refuted_relist). Proved: lines with an address are about the pod asked for and name it (C94_line_partial); when nothing is left to do the last line about every cached pod gives its present address (C94_current_partial), and the last line about a pod whose deletion was watched says deleted (C94_deleted_partial)."
 ],
 "C95": [
  "proved",
  "Endless runs of the controller model with Spec.Fair; the work of the delaying queue is taken from C14 (put_comes) by projecting the run. Requires that items are requests (others are forgotten, C55). If the limiter raises, the request is not tried again: C56."
 ],
 "C96": [
  "partial",
  "False: an adjustment lets any delayed item be added at the time of the call (C96_refuted_early), or be left for any time after it was due although the loop goes round (C96_refuted_late). Proved: both up to the size of the adjustments, and that the timer fires in time up to that size."
 ],
 "C97": [
  "partial",
  "False: for every n a waiting task can be woken n times and passed n times by tasks that call later (C97_refuted_overtaken). Proved for runs in which no task calls get between the waking of another and its running, woken tasks run in their order, and none is cancelled."
 ],
 "C98": [
  "proved",
  "Endless runs of the whole model (informer, handler, controller with delays and retries) with Spec.Endless; what the controller sees of such a run is a fair run of C95's, and what the cache holds follows from the notifications by C34. Unlike C75_fair_partial the informer, failures, retries and delays go on without end. For deletions found out by a relist see C75_refuted, for handlers that are not due at a check see C34_refuted."
 ],
 "C99": [
  "partial",
  "False in two ways: every check replaces _syncing_listeners, so a check that comes before the deltas of the last resync have been processed takes them away from a handler it does not select; and the watch may end while store.resync() waits for the queue's lock, after the check has moved the due times. Proved: these are the only two ways (C99_reaches_partial); a handler whose period is no longer than the time between checks only suffers from the second (C99_fastest_partial); resyncs say nothing new and nothing to handlers that were not selected (C99_repeats)."
 ],
 "C100": [
  "partial",
  "False in two ways: if something is pending when a list is stored, an object that was made and deleted again in between stays in the cache for good (C100_refuted_ghost, the composition's form of C31); and since lists are asked for with resource version \"0\" a relist may answer with an older state, so the cache may go back (C100_refuted_back). Proved for a faithful API server, with the reflector's tasks in any order: the cache is the server's content at last_sync_resource_version whenever nothing is pending and the last list came at a clean moment (C100_follows_partial), e.g. with nothing pending (C100_drained_clean); between lists the version never goes back (C100_forward_partial); under an open watch all schedules end within a stated number of steps with the newest content (C100_settles_partial)."
 ],
 "C101": [
  "proved",
  "Proved for the composition of C100 (API server, reflector with all its tasks, DeltaFIFO, store) in endless fair runs: the version grows as long as the server is ahead, also across ended and reopened watches (C101_catches_up), and an object that stays comes into the cache for good (C101_comes). The clean moment is necessary, see C100_refuted_ghost; a first list always is at one (C100_drained_clean). A concrete endless run with an ended watch and changes meanwhile meets the hypotheses."
 ],
 "C102": [
  "proved",
  "Proved for the composition of the models of C100 and C75: runs of the whole are shown to be runs of its parts (view of server, reflector, queue and indexer; shared informer, handler and controller), then C101_comes, C34_due_partial and C98 give the result. C102_seen: objects that stay; C102_deleted: deletions reported by the watch (those found out by a list are not told to the reconciler, C57_refuted); C102_succeeds: a call with the server's object returns for good. The clean moment is necessary (C100_refuted_ghost); a first list always is at one (C100_drained_clean). That the handler is due at every check is necessary (C34_refuted); it holds if the handler has the smallest period or there are no resyncs. A concrete endless run with a modification, a resync and a deletion meets all hypotheses."
 ],
 "C103": [
  "partial",
  "False of the code in three ways. A condition that answers False when wait_for cancels it (one that catches Exception, up to Python 3.7) makes poll go on for ever (C103_refuted_swallow). With the wait_for of Python 3.10 one that answers True then, or raises something else, makes poll return or raise that after the timeout (C103_refuted_late). The first call of poll_immediate is not limited by the timeout (C103_refuted_immediate). Proved: the spacing (C103_spacing, C103_spacing_immediate) for all conditions; that poll ends in time (C103_in_time_partial, C103_ends_partial) for conditions that end when they are cancelled, apart from the time they take for that; how it ends (C103_result) for those that raise CancelledError; that it never ends late but with WaitTimeoutError with the wait_for of Python 3.7 (C103_late_partial); that it returns when the condition is met in time (C103_returns); poll_immediate within the timeout after its first call (C103_immediate_partial). poll_infinite never gives up (C103_infinite)."
 ],
 "C104": [
  "proved",
  "Controller, rate-limiting queue, delay loop and default limiter together. Every delivery is charged to an ask of its own that is due (C104_count, any limiter); cumulative back-off (C104_backoff); global rate (C104_rate, needs the limiter to read the same clock as the queue, as it does in the code)."
 ],
 "C105": [
  "partial",
  "False of all three structures. The limiter keeps the counter of an item whose reconciler, after a retry, returned something that is no result or was cancelled (C105_refuted_limiter); the list under the heap grows without bound when one item is asked for earlier and earlier (C105_refuted_heap); FIFO's queue when an object is added and deleted over and over (C105_refuted_fifo). Proved: exactly which items have a counter (C105_remembered) and that an item with a counter is around unless its last outcome was of these kinds or the limiter raised (C105_limiter_partial); removed entries of the heap are charged to accepted calls whose deadline is not before the earliest one waited for (C105_heap_partial); replace and an empty pop clear FIFO's queue of stale keys (C105_fifo_partial; its length in general: C21_queue_length)."
 ],
 "C106": [
  "partial",
  "False of the code: if the record is removed while one elector leads, another creates it and leads too, and as long as the first one's reads fail, for any number of rounds (renew_deadline is never looked at, see C67), both lead (C106_refuted). Proved: if nobody removes the record, at most one elector ever leads (C106_one_partial); with ConfigMapLocks and a ConfigMap that nobody deletes none ever leads (C106_configmap); a leading elector whose read finds a record, or whose create succeeds, leads no more (C106_reads_partial). C106_alone: an elector that nobody disturbs does in the cut model what run of the other model does. C106_record_partial: the same for electors that share a record; C106_clients: the calls of one client's ConfigMapLock leave what the others keep."
 ],
 "C107": [
  "partial",
  "False of the code: a function assigned while objects are stored finds none of them (C107_refuted_missing); once another object with the same value is added, the older one can never be deleted: every delete raises KeyError (C107_refuted_stuck); a function removed and put back makes by_index raise (C107_refuted_remove). Proved: functions assigned only while nothing is stored work exactly (C107_exact_partial), and a replace repairs whatever was done before (C107_replace_repairs)."
 ],
 "C108": [
  "proved",
  "C108_gaps: the spacing; C108_rate: requests in any stretch of time; C108_lists: lists, for any wall clock; C108_again: lists that fail; C108_same: the calls are those of the model of C39 to C42; C108_needs_clock: with a wall clock set forward again and again C108_rate would be false."
 ],
 "C109": [
  "partial",
  "False of the code: after a call that raised, _run sleeps 60 seconds (shared_informer.py line 398), during which _pop waits in join and so does _add. C109_refuted_late: a notification is handed over 60 seconds late; C109_refuted_held: no bound on how long the informer is held up by a handler whose calls take no time; C109_refuted_stop: a minute passes after a stop. What holds: C109_on_time_partial gives the exact moment of every call (60 seconds after a call that raised, else at once), C109_pause_partial the pause on any event loop, C109_held_partial bounds the time the informer is held up by the time in calls and 60 seconds for each that raised, C109_stop_partial says what a stop waits for."
 ],
 "C110": [
  "proved",
  "Verif.Model.DelayQueue with time that passes only when the queue's tasks can do nothing (Verif.Spec.DelayIdle): C110_exact (each add of the delay loop is at the end of a delay asked for), C110_punctual (once the end of a delay is past the item has been added, at the latest at that end). Heartbeats may come at any time and are not needed."
 ],
 "C111": [
  "proved",
  "Verif.Model.Controller (workers, limiter, delaying queue) with time that passes only when nothing can be done (Verif.Spec.ControllerIdle): C111_on_time (anything asked for), C111_retry (retries), C111_backoff (with the exponential limiter, up to the overflow of C56), C111_default (with the default limiter; the wall clock reads at least ten seconds since 1970 and may otherwise jump). How long reconcilers take and workers pause is arbitrary."
 ],
 "C112": [
  "partial",
  "False of the code (C112_refuted): the queue keeps the very list that was given to add_if_not_present, and a list that pop puts back is also returned to the caller of pop; changing such a list changes what pop hands over (under the old key) and can make list() raise. Proved: C112_kept (the queue itself changes no list, whatever the callers do), C112_values_partial (all answers are those of Verif.Model.DeltaFifo, where lists are values, as long as callers change only lists that are theirs: made by them, a copy from get, or popped and not put back), C112_names_partial."
 ],
 "C113": [
  "partial",
  "False of the code for deletions found out by a relist (C75_refuted: a DeletedFinalStateUnknown makes no request) and for lists that come at an unfortunate moment (C31). Proved: C113_cached_partial (the reconciler was last called with what is in the cache; for watched deletions it was called, last when the cache did not hold the object; at every moment at which time passes, for handlers that every check finds due and whose predicates accept everything) and C113_watched_partial (the cache is what was reported, if the last list did no harm to the object)."
 ],
 "C114": [
  "partial",
  "False of the code with resyncs (C114_refuted): a resync of one call queues an old object that a lagging call has just put into the indexer; applied after the lagging call has caught up, it leaves the old object there with nothing pending. Proved: C114_coherent (for all histories) and C114_converges_partial (reflectors that list once, at any time, and do not resync). Cancellation and the doubled listener tasks are not modelled here."
 ],
 "C115": [
  "partial",
  "False of the code for deletions found out by a list (C57_refuted: a DeletedFinalStateUnknown makes no request) and for lists that come at an unfortunate moment (C100_refuted_ghost). Proved: C115_seen_partial, at every moment at which time passes, after a last list at a clean moment, for handlers that every check finds due and whose predicates accept everything; it also covers moments without a watch, for the version the reflector took note of. A concrete run in which the server has not sent its last change meets the hypotheses."
 ],
 "C116": [
  "partial",
  "False of the code: with the tasks of two calls of run, the handler is called with notification 2 before notification 1 (C116_refuted_order), two calls of it run at the same time (C116_refuted_overlap), and when one call of run ends, the handler is not called any more for any of them (C116_refuted_end, for all states and continuations). What holds, before a stop: each accepted notification is on its way or delivered, exactly once (C116_each_once_partial); nothing gets stuck: what tasks and handler can do without new notifications is bounded, and in the end every notification has been delivered (C116_delivered_partial). With one call of run the order holds, one call at a time, also with a stop (C116_one_run_partial, by simulation in the model of C37)."
 ]
}