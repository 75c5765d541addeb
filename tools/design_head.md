# A Lean 4 model of tbarrella/aiok8s and proofs about it

This file is put together by `tools/mkdesign.py` from `tools/design_head.md` (sections 1-4) and from the
properties, their status and the axioms Lean reports (sections 5 and 6).

## 1. Layout

* `lean/Verif/Model/*.lean`: the model. Small total functions that follow the Python, each with the file and
  lines it models; where it is simpler than the code its comment says so.
* `lean/Verif/Spec/*.lean`: independent specifications (reference machines, predicates on histories). They do
  not use the helper functions of the model.
* `lean/Verif/Proof/*.lean`: lemmas and invariants.
* `lean/Verif/Props/*.lean`: the theorems about the properties (names start with the id of the property), beside
  `example`s that meet their hypotheses.
* `properties.jsonl`: the properties. `MANIFEST.json`: status and theorem names. `seeded/LOG.jsonl`: the wrong
  programs that the theorems were tried against, and what was tightened.

## 2. Modelling conventions

* Exceptions are values, together with the state left behind by the half-finished call.
* `dict` is an association list in insertion order (`Model/PyDict.lean`), `set` a list without duplicates of which
  only membership is used. Strings are lists of characters.
* A body under a lock without a suspending `await` is one atomic step: asyncio is cooperative, a task is only
  suspended at an `await` that really waits. Where a body does wait, the model is a small-step transition system
  with explicit program points, and the theorems hold for every sequence of steps.
* Time and delays are exact rationals. Rounding of floats is not modelled; overflow is (C08, C56).
* What is supplied by users or by the outside (key and index functions, handlers, reconcilers, predicates, random
  numbers, the API server, the lock service, cancellations) is universally quantified.
* Loops that may run for ever have fuel, and "has not ended" is a separate result (`none`, `running`); theorems
  about ends say that enough fuel exists or that no amount is enough.
* A property that is false of the code has status `partial`: `Cnn_refuted…` proves the negation, for every
  instance where that is possible and else for a concrete witness, and `Cnn…_partial` proves what is left.

## 3. What is modelled

| file in /repo/aiok8s | modelled | module | not modelled |
|---|---|---|---|
| workqueue/queue.py | all of `Type`; sleeping and waking of tasks in `get` | WorkQueue, WorkQueueSched | clock and metrics arguments (unused by the code) |
| workqueue/default_rate_limiters.py | all limiters | RateLimiters, DefaultLimiter | float rounding |
| workqueue/delaying_queue.py | `_WaitForPriorityQueue`, `_DelayingType` with its loop, channel and timer; `heapq` of the standard library | Heapq, DelayHeap, DelayQueue, DelayClock (adjustments of the wall clock) | the heartbeat only as a spurious wake-up |
| workqueue/rate_limiting_queue.py | all | RateLimitingQueue | |
| cache/thread_safe_store.py, cache/store.py, cache/index.py | all; index functions may raise (C84); objects changed in place after being stored (C89); index functions changed later (C107) | Store, StoreRef, StoreIndexers, Meta | - |
| cache/fifo.py | all (the callback of `pop` is called without `await`, so no other task runs while the lock is held and one call is one step) | Fifo, Monitor | |
| cache/delta_fifo.py | all, including wake-ups, the lock with its waiting tasks, the split at `await process(item)`, and callbacks that call back into the queue, lists that are changed in place (C112), `get` with a `Deltas` | DeltaFifo, Monitor, DeltaLock, DeltaRef, InformerSync | a `Deltas` passed as an object to `add`, `update`, `delete`, `replace` |
| cache/controller.py | `_process_loop`, `_new_informer`, `run` | Informer, InformerSync, Lifecycle | |
| cache/shared_informer.py | handlers, distribution, resync bookkeeping, `_ProcessListener`, `wait_for_cache_sync`, `run`, `add_event_handler` and its locks, `_SharedProcessor._run` | SharedInformer, IndexedInformer, Resync, ResyncReach, Listener, ListenerTime, InformerSync, Poll, Lifecycle, Rerun, Runs (queues and indexer of several calls of `run` at once), Listeners (a listener with the tasks of several calls) | a second cancellation of `run` outside its wait for `_started_lock`; a call after one that left its processor behind |
| cache/reflector.py | `list_and_watch`, `_watch_handler`, `run`, the resync task, the reader of the watch, cancellation, times | Reflector, ReflectorTime, ReflectorTasks, Follow (with an API server and an informer; finite and endless runs), Whole (with the API server, the shared informer, a handler and a controller) | a reader that does not end when cancelled; an exception of `__aexit__` |
| cache/list_watch.py | a pair of functions: quantified over in Reflector | Reflector | |
| cache/testing/fake_controller_source.py | all | FakeSource | event types other than the three, malformed versions |
| watch/mux.py | all | Mux | |
| watch/watch.py | `FakeWatcher` | FakeWatcher | |
| util/clock.py, util/_time.py | `FakeClock`, its timers and tickers; the real `Timer` and `Ticker` | FakeClock, RealTime | |
| util/wait.py | `jitter`, `Backoff`, `exponential_backoff`, the `poll` family, `until`, `jitter_until`, `loop`, `jitter_loop` with the tasks they make | Wait, Poll, PollTime (the `poll` family with times), Loops, LoopTasks | |
| util/retry.py | `default_retry` | Wait | |
| api/meta.py | accessors, `group_version_kind` | Meta, Reflector, PyStr | |
| leaderelection/*.py | all | LeaderElection (one elector), Electors (several, cut at the awaits) | log output |
| controller/controller.py | the workers; `new`, `start`, `watch`, `inject_func` | Controller, Manager, Wiring, Restart (`start` called any number of times) | metrics; in Restart the limiter and the times of the delays |
| controller/builder.py | all | Builder | |
| controller/manager.py | `add`, `set_fields`, `start` and the order of what it starts; failures, cancellation and the end of the tasks below it, with `_SpecificInformersMap.start` and `_Controller.start` | Manager, Shutdown, Wiring | a second call of `start` together with failures |
| controller/source.py, handler.py, event.py, reconcile.py | `EventHandler`, `EnqueueRequestForObject`; `Kind` | Source, Wiring, Manager | |
| controller/_cache_reader.py | `get` | Meta | |
| controller/_informers_map.py, _deleg_map.py, cache.py | `get`, `start`, `_resync_period` | InformersMap | |
| controller/client.py; `_create_structured_list_watch`, `_get_kwargs` | all | Client | what the API methods do |
| /repo/example.py | the reconciler and what it prints, on top of System | Example | connecting to a cluster, signal handlers |

Composition: the controller's workers run on the rate-limiting queue, that on the delaying queue, that on the work
queue. C57 goes from the reflector's calls through the DeltaFIFO, the shared informer and its listeners to the
queue; C75 from there through the workers to the reconciler and the cache it reads.
C95 does the same for the times of the delaying queue: its fair runs contain fair runs of C14's queue. C110 says
when that queue adds its items if time passes only when its tasks can do nothing; C111 says it of the controller,
C113 of the way from the informer's queue to the reconciler, and C115 of the whole way from the API server.
C98 does it for the way from the calls of the reflector to the reconciler: its fair runs contain fair runs of
C95's controller. C102 adds the API server and the reflector: its fair runs contain those of C98 and of C101.

## 4. Trusted base

* The kernel of Lean 4.33.0 and the axioms listed in section 6: at most `propext`, `Classical.choice` and
  `Quot.sound`. No axiom is added, there is no `sorry`, no `native_decide`, no `bv_decide`. `decide +kernel` is only
  used in examples and for concrete counterexamples; it is evaluated by the kernel.
* The reading of the Python source into the model. No code is run; the mapping is by the line numbers in the
  comments.
* The facts about Python and asyncio that the module comments name: insertion order of `dict`; cooperative
  scheduling; first-in-first-out wake-up of `Condition`, `Lock` and `Queue` waiters; what `asyncio.wait`,
  `Queue.join` and cancellation do. Where CPython versions differ the difference is a parameter (C06, C55).
* The specifications in `Verif/Spec` and the statements in `Verif/Props` say what the English statements say.
