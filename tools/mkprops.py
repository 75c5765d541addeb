import json
P=[]
def p(id,title,statement,quantifier,why,anchors):
    P.append(dict(id=id,title=title,statement=statement,quantifier=quantifier,why_tests_cant=why,anchors=anchors))
WQ="aiok8s/workqueue/queue.py"; DQ="aiok8s/workqueue/delaying_queue.py"; RL="aiok8s/workqueue/default_rate_limiters.py"; RQ="aiok8s/workqueue/rate_limiting_queue.py"
TS="aiok8s/cache/thread_safe_store.py"; ST="aiok8s/cache/store.py"; FI="aiok8s/cache/fifo.py"; DF="aiok8s/cache/delta_fifo.py"; CC="aiok8s/cache/controller.py"; SI="aiok8s/cache/shared_informer.py"; RE="aiok8s/cache/reflector.py"
MX="aiok8s/watch/mux.py"; CK="aiok8s/util/clock.py"; WT="aiok8s/util/wait.py"; LE="aiok8s/leaderelection/leaderelection.py"; LK="aiok8s/leaderelection/resourcelock.py"
CO="aiok8s/controller/"
p("C01","Work queue never hands one item to two consumers","Between any two get() calls that return the same item there is a done() call for that item that succeeded; so no item is ever being processed by two consumers at once.","every sequence of add/get/done/shut_down calls on a new queue, in every order the event loop may serialise them, every item type","needs every interleaving and every length of history; a test samples a few",[WQ+":Type.add",WQ+":Type.get",WQ+":Type.done"])
p("C02","An accepted add is never lost","After add(x) on a queue that is not shut down, x is delivered by some later get(): at once if waiting, or after its current processing is done(). A waiting item with p items ahead of it is delivered by the (p+1)-th following successful get() at the latest, whatever other calls happen in between.","every reachable queue state, every continuation","quantifies over all histories and all continuations",[WQ+":Type.add",WQ+":Type.get",WQ+":Type.done"])
p("C03","Coalescing: at most one delivery per add","Between two deliveries of x there is an accepted add(x) made after the first of them; x is counted at most once by len() however often it is added.","every history","unbounded histories",[WQ+":Type.add",WQ+":Type.__len__"])
p("C04","Work queue behaves like a simple reference line","Every call on the queue returns what a reference made of one waiting line plus a set of in-progress items (each with a 'must run again' mark) returns, and len() equals the length of the line.","every sequence of calls, including done() of items not in progress (KeyError)","refinement over all call sequences",[WQ+":Type"])
p("C05","Shutdown drains and then reports","After shut_down(), add() has no effect, get() never blocks, returns each item still waiting (including items re-queued by done()) exactly once and then (None, True).","every reachable state and every continuation after shutdown","all continuations",[WQ+":Type.shut_down",WQ+":Type.get"])
p("C06","No lost wake-up","While no blocked get() is cancelled, whenever items wait in the queue and consumers are blocked in get(), at least min(items, blocked consumers) of them have been woken; after shut_down() none stays asleep. (With a cancelled get() on CPython < 3.13 the wake-up can be lost.)","every interleaving of any number of tasks calling add/get/done/shut_down and of the event loop resuming them","interleavings are unbounded and scheduler dependent",[WQ+":Type.get",WQ+":Type.add",WQ+":Type.done",WQ+":Type.shut_down"])
p("C07","Exponential back-off formula","when(x) returns min(base*2^n, max) where n is the number of when(x) calls since the last forget(x), and num_requeues(x) returns that n; calls about other items do not matter. (The formula covers the calls that return a delay.)","every history of when/forget over any items","unbounded histories",[RL+":ItemExponentialFailureRateLimiter"])
p("C08","Back-off never fails however often an item failed","when(x) always returns a delay, for every number of previous failures.","every history length","needs > 1024 consecutive failures; the shipped test stops at 1000",[RL+":ItemExponentialFailureRateLimiter.when",RL+":default_controller_rate_limiter"])
p("C09","Token bucket bounds every window","With a non-decreasing clock, the number of reservations whose ready time falls in any window of T seconds is at most burst + limit*T.","every sequence of clock readings, every window, every positive limit and burst >= 1 (exact arithmetic)","all windows of all histories",[RL+":BucketRateLimiter.when",RL+":BucketRateLimiter._advance"])
p("C10","Token bucket is not stricter than its parameters","Delays are never negative, the balance never exceeds burst, and a reservation is delayed by exactly the time the bucket needs to refill its deficit: k calls after the bucket was full need no wait when k <= burst.","every history of clock readings","all histories",[RL+":BucketRateLimiter.when",RL+":BucketRateLimiter._advance"])
p("C11","Combined limiter is the maximum of its parts","when(x) on the combination returns the largest of the delays the parts return, every part is charged exactly once, forget reaches every part, num_requeues is the largest part value.","any number of parts, any history","all histories and part lists",[RL+":_MaxOfRateLimiters"])
p("C12","Delay heap keeps the earliest deadline per item","For every sequence of insert/peek/pop, len, peek and pop answer like a table holding for each item the earliest deadline asked for; pop returns an item with the smallest deadline, first-registered first among equals; re-inserting with a later deadline changes nothing.","every operation sequence, any totally ordered deadlines","lazy deletion makes state depend on whole history",[DQ+":_WaitForPriorityQueue"])
p("C13","add_after never delivers early","An item scheduled by add_after(x, d) at time t with d > 0 enters the queue because of that call only at a time >= t + d.","every schedule of client calls, loop steps and non-decreasing clock","all schedules",[DQ+":_DelayingType.add_after",DQ+":_DelayingType._waiting_loop"])
p("C14","add_after is never forgotten","Before shutdown every add_after(x, d) accepted at t either has led to add(x) since, or x is still held with a deadline <= t + d; when the delay loop sleeps it has a timer set for the earliest deadline held, and when it wakes after that deadline x is added. The channel to the delay loop never holds more than 1000 entries. In every endless run in which time passes, nothing is put off for ever and shut_down is not called, every accepted add_after(x, d) is followed by an add(x), however many other calls are made meanwhile.","every schedule; every endless fair run","all schedules, infinite runs",[DQ+":_DelayingType._waiting_loop",DQ+":_WaitForPriorityQueue.insert"])
p("C15","Shutting down a delaying or rate-limiting queue shuts it down","After shut_down() on a delaying queue shutting_down() is True, add() is ignored and a get() on the empty queue returns (None, True).","every state of the queue","no shipped test calls it; must hold from every state",[DQ+":_DelayingType.shut_down"])
p("C16","add_rate_limited uses the limiter's delay","add_rate_limited(x) charges the limiter once for x and schedules x exactly that delay from now (immediately if 0); forget(x) only resets the limiter; num_requeues(x) reads it.","every history","all histories",[RQ+":_RateLimitingType"])
p("C17","Store is a map","After any sequence of add/update/delete/replace, get(), get_by_key(), list() and list_keys() answer like a dictionary updated with the same calls; a failing key function raises StoreKeyError and changes nothing.","every call sequence, every key function","all histories",[TS+":_ThreadSafeMap",ST+":_Cache"])
p("C18","Indexes agree with the contents","In every reachable state by_index(n, v) returns exactly the stored objects whose index function n yields v, each once; index_keys their keys; index(n, obj) the stored objects sharing a value with obj; list_index_func_values exactly the values in use.","every history of add/update/delete/replace, all index functions that do not raise and return no duplicates","all histories",[TS+":_ThreadSafeMap._update_indices",TS+":_ThreadSafeMap._delete_from_indices",TS+":_ThreadSafeMap.by_index",TS+":_ThreadSafeMap.index"])
p("C19","Index functions may repeat a value","If an index function returns the same value twice for an object, updating and deleting still succeed and indexes stay exact.","all index functions that do not raise","needs two objects sharing a repeated value",[TS+":_ThreadSafeMap._delete_from_indices"])
p("C20","Indexers can be added to an empty store","add_indexers(new) on an empty store succeeds when no name is already taken and raises on a name conflict or a non-empty store.","all existing and new indexer tables","all tables",[TS+":_ThreadSafeMap.add_indexers",SI+":_SharedIndexInformer.add_indexers"])
p("C21","FIFO delivers the newest object of every live key","pop hands over the last object added for its key; never a deleted key; each key added and not deleted is handed over after at most as many queue entries as were ahead of it.","every history of add/update/delete/replace/resync/add_if_not_present/pop","all histories",[FI+":FIFO"])
p("C22","FIFO.has_synced marks the first batch consumed","has_synced() is False before anything happened and, when the first call was replace(list), becomes True exactly when as many entries were popped as the list has distinct keys.","every history without a second replace","all histories",[FI+":FIFO.has_synced",FI+":FIFO.replace",FI+":FIFO.pop"])
p("C23","Closing a queue releases consumers","After close(), pop() on a non-empty FIFO/DeltaFIFO still delivers, and on an empty one raises FIFOClosedError; no pop() stays blocked.","every interleaving of blocked pops and close","all interleavings",[FI+":FIFO.close",FI+":FIFO.pop",DF+":DeltaFIFO.close",DF+":DeltaFIFO.pop"])
p("C24","DeltaFIFO holds each changed key once, in order of first change","The pending keys are exactly the keys with changes not yet popped, each once, ordered by their first unpopped change; the pending list of a key is never empty and pop never skips.","every history","all histories",[DF+":DeltaFIFO._queue_action_locked",DF+":DeltaFIFO.pop"])
p("C25","DeltaFIFO loses no change","The deltas popped for a key are exactly the changes recorded for that key since its previous pop, in order, where a deletion following a deletion is merged (keeping the one with a real object) and a Sync behind a pending deletion is dropped.","every history","all histories",[DF+":DeltaFIFO._queue_action_locked",DF+":_dedup_deltas",DF+":_is_dup"])
p("C26","Replace reports vanished objects","replace(list) appends, for every object known to the store (or, without store, pending) and absent from list, a Deleted delta carrying the last known state; delete(x) of an object neither known nor pending records nothing.","every state, every list","all states",[DF+":DeltaFIFO.replace",DF+":DeltaFIFO.delete"])
p("C27","DeltaFIFO.has_synced marks the first list consumed","When the first call is replace(list), has_synced() becomes True exactly when all keys it queued have been popped.","every list (also with repeated keys), every following history","all histories",[DF+":DeltaFIFO.has_synced",DF+":DeltaFIFO.replace"])
p("C28","Failed processing is reported and requeue keeps the item","If process raises RequeueError the popped deltas are back in the queue unchanged; other exceptions surface as ProcessError carrying the deltas; with retry_on_error the controller re-queues them unless the key has newer changes.","every state, every outcome of the callback","all states",[DF+":DeltaFIFO.pop",FI+":FIFO.pop",CC+":_Controller._process_loop"])
p("C29","Informer handler sees a well-formed history","For each object the handler sees on_add, then any number of on_update whose old object is the one delivered last, then on_delete, and so on; on_add only for absent objects, on_delete only for present ones; replaying the notifications gives the store's contents.","every history of watch events, relists, resyncs and pops","all histories",[CC+":_new_informer",DF+":DeltaFIFO"])
p("C30","Informer store converges to the watched state","After any sequence of one initial list, watch events and resyncs, once the queue is drained the store equals the state obtained by applying the list and the events in order.","every history","all histories",[CC+":_new_informer",DF+":DeltaFIFO"])
p("C31","Informer store converges after a relist","Once the queue is drained after replace(list), the store contains exactly the listed objects, whatever was pending when the relist happened.","every state in which a relist happens","needs specific pending changes at relist time",[DF+":DeltaFIFO.replace",DF+":DeltaFIFO._queue_action_locked"])
p("C32","Resync only repeats","resync() queues at most one Sync per stored object that has nothing pending, carrying the stored object; processing it leaves the store unchanged and notifies on_update(x, x).","every state","all states",[DF+":DeltaFIFO.resync",DF+":DeltaFIFO._sync_key_locked"])
p("C33","A failing handler does not corrupt the store","If a handler raises, the informer's store still converges to the watched state.","every handler failure pattern","every failure point",[CC+":_new_informer",DF+":DeltaFIFO.pop"])
p("C34","Every shared-informer handler's view equals the cache","For every registered handler, at any time, replaying the notifications sent to it gives the indexer's contents, whenever it was registered.","every history of changes, registrations, resync checks and relists","all histories",[SI+":_SharedIndexInformer.handle_deltas",SI+":_SharedIndexInformer.add_event_handler",SI+":_SharedProcessor._distribute"])
p("C35","Resync periods are granted consistently","After any sequence of add_event_handler calls, a handler that asked for no resync has none; otherwise, if the informer resyncs at all, its effective period is the larger of its request (at least 1s) and the informer's check period, and before start the check period is the minimum of the default and all requests.","every sequence of registrations before and after start","all sequences",[SI+":_SharedIndexInformer.add_event_handler",SI+":_determine_resync_period",SI+":_SharedProcessor._resync_check_period_changed"])
p("C36","Resync reaches exactly the handlers that are due","At a resync check at time t exactly the handlers with a non-zero period whose next resync time is <= t are selected, their next time becomes t + period, and consecutive selections of one handler are at least its period apart.","every sequence of check times (non-decreasing)","all sequences",[SI+":_SharedProcessor._should_resync",SI+":_ProcessListener._should_resync"])
p("C37","A listener delivers notifications once and in order","What the handler has been called with, followed by what is in flight and pending, is exactly the sequence of notifications accepted for it.","every interleaving of producer, buffer and handler tasks before stop, including handler exceptions","all interleavings",[SI+":_ProcessListener._pop",SI+":_ProcessListener._run",SI+":_ProcessListener._add"])
p("C38","has_synced means the first list is in the cache","When has_synced() returns True every object of the first list has been applied to the store.","every interleaving of a reader with the processing loop","needs a read in the middle of processing",[DF+":DeltaFIFO.has_synced",DF+":DeltaFIFO.pop",SI+":_SharedIndexInformer.handle_deltas"])
p("C39","Watches resume where the stream stopped","Every watch call made after a list uses the resource version of the last event accepted since that list, or the list's own version if none.","every list result, every sequence of watch streams and failures","all event sequences",[RE+":Reflector.list_and_watch",RE+":Reflector._watch_handler"])
p("C40","The reflector forwards the stream faithfully","The calls made on the target store in one list-and-watch run are replace(list) followed by one add/update/delete per accepted ADDED/MODIFIED/DELETED event, in stream order; events of the wrong type, bookmarks and unknown types cause no store call.","every script of lists and events","all scripts",[RE+":Reflector._watch_handler",RE+":Reflector._sync_with"])
p("C41","A broken watch leads to a new list","Whatever way a watch ends with an error, list_and_watch returns (so run() lists again); it never stays stuck on a dead stream.","every way a stream can end","failure injection at every point",[RE+":Reflector._watch_handler",RE+":Reflector.run"])
p("C42","last_sync_resource_version is the version of the last thing applied","After any prefix of a run it is the version of the last accepted event, else of the last successful list, else empty.","every script","all scripts",[RE+":Reflector.last_sync_resource_version"])
p("C43","Type filters accept exactly the expected kind","With an expected GroupVersionKind, an event is forwarded iff its apiVersion/kind name that kind.","every apiVersion string","all strings",[RE+":Reflector._watch_handler","aiok8s/api/meta.py:_ObjectAccessor.group_version_kind"])
p("C44","Broadcaster delivers everything to every live watcher (wait mode)","Each watcher receives exactly the events broadcast between its registration and its stop, in order, preceded by its prefix; nothing is duplicated or reordered.","every interleaving of actions, registrations, reads, stops, any queue length","all interleavings",[MX+":Broadcaster._distribute",MX+":Broadcaster.watch",MX+":Broadcaster.watch_with_prefix"])
p("C45","Drop mode drops only on a full queue","In drop mode a watcher receives a subsequence of the events; an event is dropped for a watcher only if its queue is full at that moment, and never delays others.","every interleaving","all interleavings",[MX+":Broadcaster._distribute"])
p("C46","Stopping never wedges the broadcaster","A stopped watcher can not block distribution; after shutdown every watcher ends after its buffered events; stop() is idempotent.","every state","all states",[MX+":_BroadcasterWatcher.stop",MX+":Broadcaster._close_all",MX+":_BroadcasterWatcher.__anext__"])
p("C47","Fake timers fire once, exactly when due","A timer set for d fires at the first time change that reaches its deadline and never again; a stopped timer never fires; stop/reset report whether it was still pending.","every sequence of clock operations","all sequences",[CK+":FakeClock._set_time_locked",CK+":_FakeTimer"])
p("C48","Fake tickers keep ticking on schedule","After each time change a ticker's next tick lies in the future on its original grid start + n*interval, at most one tick is buffered and no tick blocks the clock.","every sequence of clock operations, every positive interval","all sequences",[CK+":FakeClock._set_time_locked",CK+":FakeClock.new_ticker"])
p("C49","exponential_backoff is bounded","For a non-negative number of steps it calls the condition at most that many times, stops at the first True, lets exceptions through, otherwise raises WaitTimeoutError, and never changes the caller's Backoff.","every condition behaviour, every configuration","all behaviours",[WT+":exponential_backoff",WT+":Backoff.step","aiok8s/util/retry.py:17"])
p("C50","Back-off durations and jitter stay in range","Successive un-jittered steps return duration*factor^k until the cap, never more than the cap after the first; jitter(d,f) lies in [d, d+f*d).","all parameters, all random draws in [0,1)","real valued inputs",[WT+":jitter",WT+":Backoff.step"])
p("C51","Store keys identify objects","meta_namespace_key_func maps different (namespace, name) pairs to different keys when names and namespaces contain no '/', and a cache lookup by NamespacedName uses the same key.","all strings","all strings",[ST+":meta_namespace_key_func",CO+"_cache_reader.py:_object_key_to_store_key"])
p("C52","Leader election configuration is validated","The constructor accepts exactly the configurations with lease_duration > renew_deadline > 1.2*retry_period, retry_period > 0 and the required callbacks and lock present.","all configurations","all numbers",[LE+":LeaderElector.__init__"])
p("C53","A leader keeps its lease","After acquiring the lock the elector keeps renewing it while the lock service works.","every lock behaviour","every environment",[LE+":LeaderElector._renew",LE+":LeaderElector._try_acquire_or_renew",LE+":LeaderElector._maybe_report_transition"])
p("C54","A first leader can be elected","With a ConfigMap lock and an API server that answers reads, creates and replaces as Kubernetes does, some elector eventually acquires the lock.","every initial state of the ConfigMap","every environment",[LK+":ConfigMapLock.get",LK+":ConfigMapLock.create",LE+":LeaderElector._acquire"])
p("C55","Every dequeued request is finished exactly once","A controller worker calls done() exactly once for every request it took, whatever the reconciler does (return, raise, be cancelled), a request is never reconciled by two workers at once, and a worker that is cancelled has ended (Python 3.8 and later; before, it sleeps and goes on).","every number of workers, every reconciler behaviour, every interleaving","all interleavings",[CO+"controller.py:_Controller._process_next_work_item"])
p("C56","Requeue decisions","Success forgets the back-off; requeue_after forgets and schedules that delay; requeue and errors schedule a rate-limited retry without forgetting; so a request whose reconcile failed is retried.","every reconcile result and history","all histories",[CO+"controller.py:_Controller._reconcile_handler"])
p("C57","Object events enqueue a request for the object","Every add, update and delete notification that passes the predicates enqueues the object's namespace/name, including deletions discovered by a relist.","all notifications, all predicates","all notifications",[CO+"source.py:EventHandler",CO+"handler.py:EnqueueRequestForObject"])
p("C58","One informer per kind","get_informer returns the same informer for the same kind whatever the interleaving of callers; an informer requested after start is run.","every interleaving","all interleavings",[CO+"_informers_map.py:_SpecificInformersMap.get"])
p("C59","Jittered resync period stays near the configured one","The resync period given to an informer lies within 10 percent of the configured one.","all random draws","real valued",[CO+"_informers_map.py:_resync_period"])
p("C60","Fake source: list plus watch equals current state","For every history of changes, applying the events of watch(rv) to the list taken at version rv gives the current items; resource versions are the change numbers; before shutdown a change raises exactly when it deletes what is not there and a watch exactly for a version in the future; after shutdown nothing returns and nothing changes.","every history of changes, every rv","all histories",["aiok8s/cache/testing/fake_controller_source.py:FakeControllerSource"])
p("C61","wait_for_cache_sync returns True only when all caches are synced","It returns True only after one evaluation in which every given function returned True, False only if one raised.","every behaviour of the functions","all behaviours",[SI+":wait_for_cache_sync",WT+":poll_immediate_infinite"])
p("C62","A slow handler does not hold up the others","While one handler's call lasts, its listener keeps accepting notifications, so that the other handlers of the informer and the cache go on.","every length of a call, every number of notifications","unbounded calls, all interleavings of the listener's tasks",[SI+":_ProcessListener._pop",SI+":_ProcessListener._add",SI+":_SharedProcessor._distribute"])
p("C63","Cancelling a read of a watcher loses nothing","A reader cancelled while it waits in __anext__ (for instance by wait_for) loses no event and does not hold up the broadcaster.","every interleaving of reads, cancellations and broadcasts","all interleavings of tasks left behind by cancelled readers",["aiok8s/watch/mux.py:_BroadcasterWatcher.__anext__","aiok8s/watch/mux.py:_BroadcasterWatcher._put"])
p("C64","Calls on a broadcaster return","watch(), watch_with_prefix() and action() return, also after shutdown().","every state of the broadcaster","hanging calls can not be told from slow ones by a test",["aiok8s/watch/mux.py:Broadcaster._block_queue","aiok8s/watch/mux.py:Broadcaster.shutdown","aiok8s/watch/mux.py:Broadcaster._loop"])
p("C65","poll reports time-outs and nothing else as time-outs","poll and poll_immediate return only right after the condition answered True, raise WaitTimeoutError only when the time ran out, and pass on what the condition raises.","every behaviour of the condition, every timeout","all behaviours",[WT+":poll",WT+":poll_immediate",WT+":poll_infinite"])
p("C66","Every object has a key","meta_namespace_key_func gives a key for every typed or raw object with a name, with or without a namespace, so that it can be stored.","all objects","all objects",[ST+":meta_namespace_key_func","aiok8s/api/meta.py:_UnstructuredAccessor"])
p("C67","A leader that cannot renew steps down","An elector that leads and can not renew for renew_deadline cancels its leading task and calls on_stopped_leading, so that two electors do not lead at once.","every behaviour of the lock service","every environment, unbounded time",[LE+":LeaderElector._renew"])
p("C68","run() ends cleanly","run() calls on_stopped_leading once, after cancelling the leading task, and does not fail by itself, whether the lock was acquired or not.","every lock behaviour, cancellation at every wait","every environment",[LE+":LeaderElector.run",LE+":LeaderElector._acquire"])
p("C69","ConfigMap lock: no lost updates","update() succeeds exactly if the ConfigMap has not been changed since this client last read or wrote it; it then holds the new record and all other annotations, otherwise it is untouched. A read by any client gives the record last written.","any number of clients, every interleaving of get/create/update and outside changes","all interleavings",[LK+":ConfigMapLock.update",LK+":ConfigMapLock.get",LK+":ConfigMapLock.create"])
p("C70","Reads come from a synced cache","The cache's client answers from an informer only if that informer is the one of the kind, runs and has synced; before start it raises CacheNotStartedError.","every interleaving of callers, start and informers","all interleavings",[CO+"_informers_map.py:_SpecificInformersMap.get",CO+"cache.py:_InformerCache.get"])
p("C71","The manager starts every runnable once, after the caches have synced","Every runnable added to a manager, before or after its start, has its start called exactly once, and not before each informer requested from the cache before manager.start was called runs and has synced; further calls of manager.start start nothing again, and no informer is run twice.","every number of runnables, informers and callers, every interleaving","all interleavings of callers, informers and additions; runnables added late",[CO+"manager.py:_ControllerManager.add",CO+"manager.py:_ControllerManager._start_non_leader_election_runnables",CO+"manager.py:_ControllerManager._wait_for_cache"])
p("C72","Workers run only when their watches are connected","When a controller's workers run, every watch made before its start got the mutex has exactly one event handler feeding the queue of that start, in order, on the informer of its kind, which is running and has synced; no two starts of one controller go through its watches at the same time; and a start whose informers have synced reaches its workers by its own steps.","every number of controllers, watches and starts, every interleaving","all interleavings; any number of watches",[CO+"controller.py:_Controller.start",CO+"controller.py:_Controller.watch",CO+"source.py:Kind.start"])
p("C73","Periodic loops keep their distance and stop","jitter_until and jitter_loop (and until and loop) leave at least the period between the end of a call and the beginning of the next when sliding, between beginnings otherwise, never overlap calls, and with an idle event loop are at most the jittered period late; no call begins once the stop event is set, the loop ends only because of the event or an exception of the function, and then as soon as the call under way has ended; without event and exception it goes on for ever.","every period, jitter factor, random numbers, durations of calls, delays of the event loop, time of the stop event, number of rounds","unbounded number of rounds, arbitrary durations and delays",["aiok8s/util/wait.py:jitter_loop","aiok8s/util/wait.py:jitter_until","aiok8s/util/wait.py:loop","aiok8s/util/wait.py:until"])
p("C74","Real timers fire once, real tickers keep their distance","A timer gives at most one value, not before its duration has passed; it can fire as soon as that has passed unless stopped, and gives nothing if stopped before it fired. The ticks taken from a ticker are at least its period apart and not more than the elapsed time has periods, at whatever times they are taken; a ticker that is not stopped goes on for ever, and after stop only a tick already in its queue can be taken.","every duration, every sequence of passing time, firing, taking and stopping","all interleavings, unbounded time",["aiok8s/util/_time.py:Timer","aiok8s/util/_time.py:Ticker","aiok8s/util/clock.py:_RealTimer","aiok8s/util/clock.py:_RealTicker"])
p("C75","What the reconciler saw last is current, or a call is coming","Reflector, DeltaFIFO, shared informer, listener, event handler, queue and workers together: at every moment what the cache held when the reconciler was last called for an object is what the handler was last told about it, or a call for it is coming. When nothing is left to do, every object in the cache was last reconciled in its present state and every deleted object was reconciled after its deletion; from every state with a worker left that point is reached in whatever order handler and workers make their moves, provided each keeps being scheduled and reconcilers return, and no call is made after it until something happens to the informer.","every sequence of calls to the informer, of deliveries, of steps of the workers and of the queue's timer; every number of workers; every rate limiter","all interleavings of several tasks, unbounded histories",["aiok8s/controller/controller.py:Controller._process_next_work_item","aiok8s/controller/source.py:EventHandler","aiok8s/controller/handler.py:EnqueueRequestForObject","aiok8s/cache/shared_informer.py:_SharedIndexInformer.handle_deltas"])
p("C76","The token bucket bounds the rate although the clock is adjusted","BucketRateLimiter reads the wall clock. Whatever adjustments are made to the clock, the number of calls that need no wait in a stretch of real time is at most burst + limit times its length.","every sequence of clock readings","all histories of clock readings",[RL+":BucketRateLimiter.when",RL+":BucketRateLimiter._advance"])
p("C77","heapq hands out the smallest entry","The list that heappush and heappop keep for the delay heap satisfies heapq's documented invariant after any calls, and behaves like a bag from which every pop takes a smallest entry: nothing is lost, doubled or made up, and a pop fails only if the bag is empty. C12 and everything above it is proved on this list.","every sequence of pushes and pops, every order for which 'not smaller' is transitive","lists of every length, all histories",[DQ+":_WaitForPriorityQueue.insert",DQ+":_WaitForPriorityQueue.pop",DQ+":_WaitForPriorityQueue.peek_priority"])
p("C78","The fake watcher hands over events one by one","Events are received at most once and in the order in which the actions return, every action returns directly after its event was received, and can always still return if somebody reads; also if actions are cancelled, a single reader receives the events in the order in which they were put, and the lock is not kept; StopAsyncIteration is raised to every reader after stop and only then; stop and reset free everybody, and a cancelled reader takes nothing.","every interleaving of senders, readers, stops, resets and cancellations","all interleavings of any number of tasks",["aiok8s/watch/watch.py:FakeWatcher.__anext__","aiok8s/watch/watch.py:FakeWatcher.action","aiok8s/watch/watch.py:FakeWatcher.reset","aiok8s/watch/watch.py:FakeWatcher.stop"])
p("C79","Registered clients are found and get the right requests","Defining a client class for a gvk that has one raises and changes nothing; otherwise the class is found by its gvk and by its object type, and keeps being found; what a type leads to is a client of this type. The informer for a type lists and watches with this client, in the namespace of the cache exactly if it has one, with the reflector's options unchanged.","every sequence of class definitions, every namespace and all options","all sequences of definitions; the tests have one class",["aiok8s/controller/client.py:_Client.__init_subclass__","aiok8s/controller/client.py:_PodClient._get_lister","aiok8s/controller/client.py:gvk_for_object","aiok8s/controller/client.py:rest_client_for_gvk","aiok8s/controller/_informers_map.py:_create_structured_list_watch","aiok8s/controller/_informers_map.py:_get_kwargs"])
p("C80","A cancelled informer ends and is silent","A shared informer's run that is cancelled ends, whatever it, its handlers and the calls of add_event_handler are doing; when it has ended, the tasks of all listeners have ended, both locks are free, no handler is called any more and no further handler is accepted.","every number of handlers and of calls of add_event_handler, every interleaving, cancellation at every moment","all interleavings of any number of tasks",[SI+":_SharedIndexInformer.run",SI+":_SharedIndexInformer.add_event_handler",SI+":_SharedIndexInformer.handle_deltas",SI+":_SharedProcessor._run",SI+":_SharedProcessor._distribute","aiok8s/cache/controller.py:_Controller.run"])
p("C81","Each handler is told the content at its registration and then everything sent to it","Each handler is called with the content of the indexer at the moment of its registration and then with every notification sent to its listener, in order and without gap, also if it is added while the informer runs; no call of add_event_handler and no handle_deltas gets stuck, and when the tasks can do no more every handler has been called with everything.","every number of handlers, every moment of registration, every interleaving, every content","all interleavings of any number of tasks; registrations concurrent with deltas",[SI+":_SharedIndexInformer.run",SI+":_SharedIndexInformer.add_event_handler",SI+":_SharedIndexInformer.handle_deltas",SI+":_SharedProcessor._run",SI+":_SharedProcessor._distribute","aiok8s/cache/controller.py:_Controller.run"])
p("C82","The tasks of a reflector together: same calls, resyncs in time, clean end","Whatever the interleaving of run, the task that reads the watch and the resync task, server and store see the calls of the sequential model for the answers given, events are taken in the order given and all of them if the watch ends normally, the store is resynced only while a watch is opened or read and at least a resync period after the list and after the resync before; the resync task goes on as long as there are watches, or its error ends the watch, and no error of an earlier round does; after a cancellation there are no calls any more, and when run has ended no task is left.","every interleaving, every answer of server and store, every period, cancellation at every moment","four tasks interleave with timers, answers and cancellation in unboundedly many ways",["aiok8s/cache/reflector.py:Reflector.run","aiok8s/cache/reflector.py:Reflector.list_and_watch","aiok8s/cache/reflector.py:Reflector._watch_handler","aiok8s/cache/reflector.py:Reflector._resync_queue"])
p("C83","The end of manager.start ends everything it has started",
  "When manager.start ends, however it does, no informer and no worker it has started goes on and every queue made by its controllers has been shut down. Cancelled while it waits for its children, it tells every task to stop at once, and every task ends after finitely many steps of its own; it returns only if there is no informer and no worker; the queue of a controller stays open until its start ends.",
  "all numbers of informers, controllers and workers, all interleavings of the tasks, all failures of sources, informers and reconcilers, cancellation at any time",
  "the order in which tasks end and the moment of a cancellation are those of the scheduler; a leaked task is not seen by a test that ends its loop",
  ["aiok8s/controller/manager.py:43-64","aiok8s/controller/_informers_map.py:38-45","aiok8s/controller/controller.py:56-80"])
p("C84","An index function that raises does no damage",
  "A write of the store in whose course an index function raises changes nothing. After any history, whichever writes have raised, a query of a known index does not raise and lists only stored objects that have the value, and an object whose last write has returned is listed exactly under its values; a replace by objects on which all functions return makes the indices exact for all keys.",
  "all index functions that return no value twice and may raise on any objects, all key functions, all histories of calls",
  "a test uses index functions that return; which indices have been updated when one raises depends on the order of the functions and on what else is stored",
  ["aiok8s/cache/thread_safe_store.py:32-68","aiok8s/cache/thread_safe_store.py:85-105","aiok8s/cache/thread_safe_store.py:123-146","aiok8s/cache/store.py:55-99"])
p("C85","Index functions that raise do not disturb the shared informer",
  "Whatever index functions raise and on whatever objects, the indexer of a shared informer, its indices and what the handlers were told about a key follow what the reflector has reported for that key, and an exception for one key does not affect any other key or stop the processing loop",
  "all index functions that return no value twice and may raise on any objects, all key functions, all histories of lists, watch events, resyncs, registrations, checks and pops, all listeners",
  "the informer's tests have no index functions that raise; what is lost depends on which delta of which key is being processed and on what is stored at that moment",
  ["aiok8s/cache/shared_informer.py:30-41","aiok8s/cache/shared_informer.py:176-202","aiok8s/cache/shared_informer.py:259-266","aiok8s/cache/controller.py:78-86","aiok8s/cache/delta_fifo.py:140-163","aiok8s/cache/thread_safe_store.py:32-52","aiok8s/cache/thread_safe_store.py:123-146"])
p("C86","build_controller gives a controller that is fed",
  "When build_controller has returned, the manager has exactly one more runnable, which watches exactly the kind asked for; once the manager has been started and the informers have synced, its workers run and their queue is fed by exactly one handler, on the running and synced informer of that kind; a call that raises leaves the manager as it was",
  "any number of calls of build_controller, of manager.start and of the cache by any tasks, in every interleaving, for all kinds",
  "a test builds, then starts; the calls suspend inside the cache, and what goes wrong when they overlap the start is a controller that silently does nothing",
  [CO+"builder.py:20-37",CO+"controller.py:25-31",CO+"controller.py:47-80",CO+"manager.py:32-35",CO+"manager.py:48-63",CO+"cache.py:44-47"])
p("C87","A source reads from the cache of its controller's manager",
  "When a controller is started, each of its sources has a cache, it is the cache of the manager that made the controller, whose informers the controller waits for, and it never changes; a manager starts, in order, the controllers that were made for it or added to it",
  "any number of managers, controllers and sources, every order of the calls of controller.new, manager.add, manager.set_fields and controller.watch",
  "tests have one manager; which cache a source has depends on who was first",
  [CO+"source.py:24-37",CO+"controller.py:25-31",CO+"controller.py:47-54",CO+"controller.py:82-83",CO+"manager.py:32-41"])
p("C88","A controller can be started again",
  "However often and whenever start of a controller is called: no request is reconciled twice at once; done and the retries of a request go to the queue it was taken from, and done does not raise; a call that makes its workers has started every source once with its own queue, and the calls start their sources one after the other; a call that ends shuts down its own queue and no other; and nothing is reconciled that no source has reported.",
  "all numbers of sources and workers, all interleavings of any number of calls of start with events, delays, reconcilers, failures and cancellations",
  "tests start a controller once; what goes wrong depends on what the workers of the earlier call are doing when self.queue is replaced",
  [CO+"controller.py:56-80",CO+"controller.py:85-98",CO+"controller.py:100-125"])
p("C89","The store and its indices stay right when stored objects are changed in place",
  "After any calls of the store, and any assignments to the objects whether they are stored or not: the calls that concern the map answer like a plain map, and by_index returns exactly the stored objects that have the value now, each once.",
  "all objects, references, key functions and index functions that do not raise and return no value twice, all sequences of calls and assignments",
  "tests use objects that are not changed after they have been stored; an assignment that changes an index value does no harm until a later update, delete or query of another object with that value",
  [TS+":32-68",TS+":99-105",TS+":123-144",ST+":55-121"])
p("C90","A shared informer can be run again",
  "When a call of run of a shared informer has ended, run can be called again, and is then what the first call was: handlers are accepted, every handler is called with all it is to be told, in order and without gap, nothing gets stuck, and a call that is cancelled ends.",
  "any number of calls of run one after the other, every number of handlers and of calls of add_event_handler, every interleaving, cancellation at every moment",
  "tests run an informer once; what a later call does depends on events and queues the earlier call has left behind",
  [SI+":85-95",SI+":134-159",SI+":259-278",SI+":312-361",SI+":363-402"])
p("C91","DeltaFIFO: calls of many tasks take effect one at a time",
  "Whatever tasks call the methods of one DeltaFIFO and in whatever order they get its lock, sleep, are woken or are cancelled: the calls that take the lock are answered, in the order in which they end, as by a queue called by a single task, and lead to the same state; while the callback of a pop runs no other call gets the lock and calls without lock see the queue without the item in the callback's hands; every task gets one answer for every call, to that call; a task sleeps only while nothing is queued and the queue is open, and no task waits for a free lock in vain.",
  "all numbers of tasks, all interleavings of their calls, lock acquisitions, callbacks and cancellations, all answers of the known objects, all key functions",
  "a test runs a few interleavings; this is about all of them",
  [DF+":36-62",DF+":78-178",DF+":192-239"])
p("C92","DeltaFIFO: a callback of pop may call the queue",
  "The callback given to DeltaFIFO.pop can call methods of the same queue: they return, and so does pop.",
  "all reachable states in which a callback runs, all calls it may make, all later events",
  "a hang shows only as a test that does not end; that no later event ends it needs all continuations",
  [DF+":140-163",DF+":36-62",DF+":78-138",DF+":165-178"])
p("C93","A loop leaves nothing behind",
  "When jitter_until, until, jitter_loop or loop has ended, because the stop event is set, because f raised or because it was cancelled, none of the tasks it made is left.",
  "all periods, factors and random numbers, both modes, all orders of returns, failures, ticks of the clock, settings and clearings of the event, wake-ups and cancellation",
  "a task that is left over does nothing a test would see; how many there can be and how long they stay needs all runs",
  ["aiok8s/util/wait.py:24-65","aiok8s/util/_time.py:5-16"])
p("C94","The example program tells what is in the cluster",
  "Every line that example.py prints names by namespace and name the pod it is about, and when nothing is left to do the last line about every pod gives its present address, or says that it is deleted if it is gone.",
  "all sequences of lists, watch events, deliveries and moves of the workers, all pods, addresses and limiters",
  "the program needs a cluster, and the claim is about every history of it",
  ["example.py:46-61","aiok8s/controller/_cache_reader.py:21-32","aiok8s/controller/handler.py:20-68"])
p("C95","Every added request comes to the reconciler, every retry too",
  "As long as the queue is not shut down, one worker is never cancelled for good and nothing is put off for ever, every request that is added, at once or after a time, is afterwards given to the reconciler; a request whose reconciler raised or asked to be called again is given to it again, provided the limiter names a time; so one that always fails is tried again without end.",
  "all endless runs with any number of workers, requests, outcomes, other calls and cancellations of other workers, all limiters, all orders of moves subject to fairness",
  "that something happens at last in every run without end cannot be seen in any number of finite runs",
  ["aiok8s/controller/controller.py:66-125",WQ+":41-69",DQ+":38-115",RQ+":32-33"])
p("C96","add_after keeps its delay although the wall clock is adjusted",
  "Whatever adjustments are made to the wall clock, an item given to add_after with a delay d is not added by the delay loop before d seconds have really passed since such a call, and is added in the first round the loop makes after that.",
  "all sequences of calls, moves of the delay loop, passings of time and adjustments of the clock, all items and delays",
  "tests use a fake clock, whose timers follow it; the clock of a test machine is not set back and forward at every point of a run",
  [DQ+":36-57",DQ+":65-115","aiok8s/util/clock.py:21-32","aiok8s/util/_time.py:5-16"])
p("C97","Waiting calls of get are served in the order in which they were made",
  "Tasks that call get of a work queue are given their answers in the order of their calls; a task that waits is not passed by one that calls later.",
  "all orders of moves of any number of tasks, all items, both behaviours of asyncio.Condition",
  "whether a task is passed depends on which of several ready tasks the event loop runs first, and how often has no bound",
  [WQ+":41-74"])
p("C98","What stays as it is, the reconciler has seen, and has dealt with",
  "In endless runs in which nothing is put off for ever, whatever else happens to the informer and the queue without end: a notification which the handler has still to get and which the predicates accept is followed by a call of the reconciler for each object it names. When the cache does not change any more for some object, and the handler's last notification about it is accepted and not the deletion of a DeletedFinalStateUnknown, then from some moment on the reconciler's last call for the object was made with just that in the cache; and if it fails or asks to be called again only finitely often, one of these calls returns without asking for another. The handler takes part in every resync.",
  "all endless runs from the beginning, all objects, predicates, limiters, numbers of workers, outcomes, delays and orders of moves subject to fairness",
  "that something happens at last in every run without end, while other objects change without end, cannot be seen in finite runs",
  [SI+":176-203",SI+":363-400","aiok8s/controller/source.py:45-93","aiok8s/controller/handler.py:23-68","aiok8s/controller/controller.py:66-125",DQ+":36-115"])
p("C99","A resync tells the handlers that are due about every cached object",
  "When a resync check of a running shared informer finds a handler due, the handler has been told about every object in the cache by the time the queue is empty; a handler that is not due is told nothing by a resync, and a resync says nothing but what is in the cache already.",
  "all histories of reflector calls, pops, registrations with any periods, checks at any times and ends of the watch; all objects",
  "two mechanisms (the due times and the queue of deltas) meet only through a list that each check replaces; it needs large caches or slow processing to see one overtake the other",
  [SI+":280-289",SI+":259-266",RE+":66-83",RE+":107-109",DF+":DeltaFIFO.resync"])
p("C100","The cache follows the API server",
  "Whenever nothing is pending in an informer, its cache holds exactly the objects that the API server had at the reflector's last_sync_resource_version, whatever watches ended, failed or were resumed in between; this version never goes back; and while a watch stays open, however its reader, the reflector's loop and the processing loop take turns, they come to rest after finitely many steps with the server's newest content in the cache.",
  "all histories of changes at the server, all interleavings of the server, the reflector's tasks, resyncs and the processing loop, all lists the server may answer, all objects",
  "a lost or doubled change shows only if a watch ends at the right moment with events under way and the objects are compared with the server's; the space of interleavings is unbounded",
  [RE+":53-111",RE+":143-248",DF+":36-138",CC+":118-151"])
p("C101","What stays as it is at the API server comes into the cache",
  "Suppose a list has been stored at a clean moment, from then on no watch breaks off with an error or ends at once without an event, no resync and no handler fails and nobody cancels, and no part is put off for ever. Then, even if other objects change without end and watches end and are reopened at any moment, the reflector reaches every version the server has; and if from some moment on nothing changes about a key, then from some later moment on the cache holds under this key exactly what the server has, and keeps it.",
  "all endless fair runs of the server, the reflector's tasks, resyncs and the processing loop, all keys and objects",
  "it is a statement about the limit of endless runs in which other keys keep the queue busy; a finite test never sees it",
  [RE+":53-111",RE+":143-248",DF+":36-163",CC+":74-86",CC+":118-151"])
p("C102","What stays at the API server is what the reconciler last saw",
  "Take the whole way from the API server through reflector, DeltaFIFO, shared informer and event handler to the controller's workers. Suppose a list has been stored at a clean moment and nothing goes wrong between server and cache afterwards, every resync check finds the handler due, all predicates accept, and no part is put off for ever. If from some moment on nothing changes about an object that the server has, the reconciler is called for it, and from some later moment on the last call for it is one that found exactly the server's object in the cache, however often other objects change; and if the reconciler fails for it, or asks for another call, only so often, such a call returns for good. An object whose deletion the watch has reported is last seen absent.",
  "all endless fair runs of server, reflector, queue, handler, rate limiting queue and any number of workers, all keys, objects, limiters and reconciler outcomes",
  "it is a statement about the limit of endless runs of six cooperating parts; a test sees a finite run of one schedule",
  [RE+":53-111",RE+":143-248",DF+":36-163",SI+":137-202",SI+":255-289",CO+"handler.py:20-68",CO+"controller.py:57-125"])
p("C103","Polling keeps to its times",
  "poll and poll_infinite make the first call of the condition interval after they were called and each further one interval after the end of the call before, poll_immediate and poll_immediate_infinite make the first one at once; never earlier, and on an idle event loop not later. poll and poll_immediate end within the timeout: no call begins once it has run out, so that there are at most timeout / interval, and WaitTimeoutError is raised then and, unless the condition raises TimeoutError, never earlier; if a call answers True before, they return at that moment.",
  "all intervals and timeouts, all durations and answers of the condition, all delays of the event loop, all ways a condition reacts to being cancelled",
  "times, durations and reactions to cancellation range over infinite sets; tests of these functions do not exist, they would have to wait",
  ["aiok8s/util/wait.py:117-143"])
p("C104","Retries keep their distance",
  "A controller gives an item to its workers at most as often as it was asked for with a time that has come: by add and add_after, by a result with requeue_after, or by a rate-limited retry. With the default limiter, a request asked for once from outside that keeps failing is delivered for the n+1-st time not before the first n back-offs (5 ms doubled each time, at most 1000 s) have passed one after the other; and all items together are retried at most 100 times and 10 times more for each second since the start.",
  "all runs of any number of workers, all outcomes and durations of the reconciler, all cancellations, all steps of the delay loop and all other users of the queue",
  "the bound has to hold for every interleaving of workers, delay loop and callers and for every length of the run; tests look at single delays of one limiter",
  ["aiok8s/controller/controller.py:57","aiok8s/controller/controller.py:89-125","aiok8s/workqueue/rate_limiting_queue.py:19-36","aiok8s/workqueue/delaying_queue.py:36-135","aiok8s/workqueue/default_rate_limiters.py:20-93"])
p("C105","What is gone is forgotten",
  "The structures of a process that runs for long keep nothing for items that are gone: before shut_down the default limiter of a controller remembers an item only while it is with a worker or waits in the queue, the list under the delay heap has no more entries than items wait, and FIFO's queue has no more entries than it has objects.",
  "all runs of a controller with any number of workers and everything else that uses its queue; all sequences of calls of add_after and moves of the delay loop; all sequences of calls of FIFO",
  "leaks show after days, for particular outcomes of the reconciler or particular orders of deadlines; no test looks at the private structures after long runs",
  ["aiok8s/workqueue/default_rate_limiters.py:60-78","aiok8s/controller/controller.py:89-125","aiok8s/workqueue/delaying_queue.py:122-169","aiok8s/cache/fifo.py:44-132"])
p("C106","At most one elector leads",
  "Of any number of electors that share a lock, at most one leads at a time: between the start of on_started_leading and the call of on_stopped_leading of one elector, on_started_leading of no other is started.",
  "any number of electors, all configurations, clocks and locks whose create succeeds only if there is no record; all interleavings of their calls at the awaits, calls that fail with or without an effect, cancelled waits, and everything others do to the record",
  "the overlap shows only for particular interleavings of get and create of several processes and of what others do to the record; the tests run one elector, if any",
  ["aiok8s/leaderelection/leaderelection.py:65-98","aiok8s/leaderelection/leaderelection.py:100-120","aiok8s/leaderelection/leaderelection.py:138-216","aiok8s/leaderelection/resourcelock.py:42-75"])
p("C107","Index functions that are added later find everything",
  "get_indexers returns the dict of index functions that the store uses. Whenever a function is put into it, replaced or removed, by_index answers from then on by the functions that are in the dict: exactly the stored objects to which the function gives the value, each once; and all other calls go on answering as before.",
  "all key functions and index functions that do not raise and return no value twice, all sequences of calls and of changes of the dict",
  "what goes wrong depends on which objects were stored when the dict was changed and which other objects share their values; the tests never change it",
  ["aiok8s/cache/store.py:44-47","aiok8s/cache/store.py:105-106","aiok8s/cache/thread_safe_store.py:26-52","aiok8s/cache/thread_safe_store.py:99-108","aiok8s/cache/thread_safe_store.py:123-144"])
p("C108", "The reflector does not flood the API server",
  "Whatever the API server and the store answer, a reflector makes in a stretch of T seconds at most 2 * (T + 1) requests and as many more as events were accepted in it, and at most T + 1 lists: of two requests in a row the second comes a second or more after the first, or is the watch after a list, or a watch after an accepted event. While lists fail it lists again a second after each failure.",
  "all answers of the server and the store, all durations, all delays of the event loop, all stretches of time, all wall clocks that are not set forward (for the lists: all)",
  "a flood needs a particular server: one that closes watches at once, with or without events, in any mixture with errors",
  ["aiok8s/cache/reflector.py:40-51", "aiok8s/cache/reflector.py:53-111", "aiok8s/cache/reflector.py:143-250", "aiok8s/util/clock.py:22-27"])
p("C109", "A handler that raises holds nobody up",
  "On an idle event loop a notification given to a listener is handed to its handler as soon as the calls before have ended, whether they returned or raised. A listener holds up the informer, and with it the other handlers, no longer than the calls of its handler last. After a stop it ends as soon as its handler is in no call.",
  "all sequences of notifications, all durations of the handler's calls, all calls that raise, all interleavings of the listener's tasks, all moments of a stop",
  "the delay shows only after a call that raised, a minute later and in other handlers; the tests use handlers that do not raise and never wait that long",
  ["aiok8s/cache/shared_informer.py:312-361", "aiok8s/cache/shared_informer.py:363-402", "aiok8s/util/wait.py:105-113"])
p("C110", "add_after is punctual on an idle event loop",
  "When the event loop has nothing else to do, an item is added by the delay loop only at the very moment at which a delay asked for it ends, and after every call of add_after with a delay it is added at the latest when the delay of this call ends. This holds until the queue is shut down, whatever else is added meanwhile, however many items wait, and whatever the heartbeat does.",
  "all sequences of add_after calls, delays, calls of the base queue, heartbeats, and all interleavings with the delay loop in which time passes only when the loop and the pending puts can do nothing",
  "a timer set for a later item than the first, or a missed wake-up, is hidden by the ten-second heartbeat and shows only as an occasional delay",
  ["aiok8s/workqueue/delaying_queue.py:36-115", "aiok8s/workqueue/delaying_queue.py:118-180"])
p("C111", "What was asked for comes on time when a worker is free",
  "On an idle event loop, as long as the queue is not shut down: a request added, added with a delay, or to be tried again is given to a worker at the latest at the time asked for (now, after the delay, after requeue_after, after the back-off the limiter names), unless from then on every worker is busy or pausing, or the request is still being reconciled; the latter does not happen to one that is to be tried again. With the exponential limiter the k+1-st failure in a row is due min(base * 2^k, max) later. With the limiter a controller gets by default it is due min(5 ms * 2^k, 1000 s) later, or (m - 99) / 10 s later if that is more, when m retries were asked for before.",
  "all numbers of workers, all requests, outcomes and durations of reconciliations, all limiters, all other users of the queue, all cancellations, and all interleavings in which time passes only when the queue's tasks and the waiting workers can do nothing",
  "the tests look at one delay of one queue without workers; here every moment of every run with any number of workers counts",
  ["aiok8s/controller/controller.py:68-125", "aiok8s/workqueue/rate_limiting_queue.py:32-33", "aiok8s/workqueue/delaying_queue.py:36-115", "aiok8s/workqueue/queue.py:41-69"])

p("C112", "The DeltaFIFO and its callers do not change each other's lists",
  "The queue never changes a Deltas list that a caller made or was given. What callers do to lists they made or were given (by get, get_by_key or pop) does not change any later answer of the queue: it answers as if lists were passed and returned as values. The list that pop hands over names the key it was kept under.",
  "all key functions (which may raise), all histories of calls of the queue, of lists made by callers, and of changes of any content to lists that callers have",
  "the tests never change a list after passing it on, and a changed list shows only in a later call about the same key",
  ["aiok8s/cache/delta_fifo.py:36-216", "aiok8s/cache/delta_fifo.py:258-290"])

p("C113", "When time passes while a worker is free, the reconciler is up to date",
  "On an event loop that is otherwise idle (time passes only when the processing loop, the listener, the handler, the queue and the workers can do nothing), whenever time passes while some worker waits for an item, then for every object that is not in a worker's hands: the cache holds it as it was last reported by the API server, and the reconciler was last called when the cache held it like that; for a deleted object, when the cache did not hold it any more.",
  "all histories of lists, watch events, resyncs, checks, registrations and pops, all schedules of handler and workers, all outcomes of the reconciler, all limiters, any number of workers and objects",
  "the tests sleep for a fixed time and then look at one object; a change that is acted upon only after some later event or heartbeat would show only with the right order of events and nothing else going on",
  ["aiok8s/cache/controller.py:78-86", "aiok8s/cache/shared_informer.py:176-202", "aiok8s/cache/shared_informer.py:363-400", "aiok8s/controller/controller.py:60-131"])

p("C114", "Several runs of one shared informer agree in the end",
  "run of a shared informer is called while earlier calls have not ended: each call has its own DeltaFIFO and reflector, the indexer is shared. What is distributed to handlers is coherent (additions of absent objects, updates with the object distributed last) and who follows it has what is in the indexer. When all queues are drained and all reflectors have reported the same state of an object last, the indexer holds that state.",
  "all key functions, any number of calls of run, all interleavings of the reflectors' calls with pops and with the single deltas of several handle_deltas",
  "the tests start an informer once; the fault needs one call's reflector to lag behind another's and a resync in between",
  ["aiok8s/cache/shared_informer.py:134-159", "aiok8s/cache/shared_informer.py:176-202", "aiok8s/controller/_informers_map.py:38-45"])

p("C115", "When time passes while a worker is free, the reconciler has seen what the API server sent",
  "On an event loop that is otherwise idle, whenever time passes while a watch is open and some worker waits for an item: the cache holds exactly what the API server had after the changes it has sent so far; and for every object that is not in a worker's hands the reconciler was last called when the cache held it like that; for an object that was deleted, when the cache did not hold it any more.",
  "all histories of the API server, all lists, watches, bookmarks, errors, ends of watches, resyncs and checks, all schedules of reflector, processing loop, handler and workers, all outcomes of the reconciler, all limiters, any number of workers and objects",
  "the tests sleep for a fixed time and then look at one object; that nothing of what has arrived is left lying about until a later event needs the right order of events in five tasks",
  ["aiok8s/cache/reflector.py:124-248", "aiok8s/cache/controller.py:78-86", "aiok8s/cache/shared_informer.py:176-202", "aiok8s/cache/shared_informer.py:363-400", "aiok8s/controller/controller.py:60-131"])

p("C116", "Several runs of one shared informer call a handler in order, one call at a time",
  "run of a shared informer is called while earlier calls have not ended: every listener then has one pair of tasks _pop and _run for each call, on the same queues. Its handler is called with the notifications in the order in which they were accepted, each exactly once, one call at a time, and none gets stuck; the end of one call of run does not end this for the others.",
  "any number of calls of run starting at any time, all notifications, all interleavings of the tasks' steps, all outcomes and durations of handler calls",
  "the tests start an informer once; the wrong order needs two notifications in the hands of the tasks of different calls of run",
  ["aiok8s/cache/shared_informer.py:134-159", "aiok8s/cache/shared_informer.py:267-278", "aiok8s/cache/shared_informer.py:300-402"])

with open('/verif/properties.jsonl','w') as f:
    for x in P: f.write(json.dumps(x)+"\n")
print(len(P))
