import Verif.Props.WorkQueue
import Verif.Props.WorkQueueSched
import Verif.Props.RateLimiters
import Verif.Props.DelayHeap
import Verif.Props.DelayQueue
import Verif.Props.DelayQueueFair
import Verif.Props.DelayClock
import Verif.Props.GetOrder
import Verif.Props.RateLimitingQueue
import Verif.Props.Store
import Verif.Spec.Monitor
import Verif.Proof.Monitor
import Verif.Props.Fifo
import Verif.Props.DeltaFifo
import Verif.Model.Example
import Verif.Spec.Example
import Verif.Props.Example
import Verif.Model.LoopTasks
import Verif.Spec.LoopTasks
import Verif.Props.LoopTasks
import Verif.Model.DeltaLock
import Verif.Spec.DeltaLock
import Verif.Proof.DeltaLock
import Verif.Props.DeltaLock
import Verif.Props.Informer
import Verif.Props.SharedInformer
import Verif.Props.IndexedInformer
import Verif.Props.Resync
import Verif.Props.Listener
import Verif.Props.InformerSync
import Verif.Props.Reflector
import Verif.Props.ReflectorTasks
import Verif.Props.Mux
import Verif.Props.FakeClock
import Verif.Props.Wait
import Verif.Props.Poll
import Verif.Props.Meta
import Verif.Props.LeaderElection
import Verif.Props.Controller
import Verif.Props.Source
import Verif.Props.InformersMap
import Verif.Props.Manager
import Verif.Props.Loops
import Verif.Props.RealTime
import Verif.Props.FakeSource
import Verif.Props.Heapq
import Verif.Props.Client
import Verif.Props.Lifecycle
import Verif.Props.FakeWatcher
import Verif.Props.System
import Verif.Proof.SystemFair
import Verif.Props.SystemFair
import Verif.Props.ControllerFair
import Verif.Props.BucketClock
import Verif.Model.Shutdown
import Verif.Spec.Shutdown
import Verif.Proof.Shutdown
import Verif.Props.Shutdown
import Verif.Spec.StoreRaise
import Verif.Proof.StoreRaise
import Verif.Props.StoreRaise
import Verif.Model.StoreRef
import Verif.Spec.StoreRef
import Verif.Props.StoreRef
import Verif.Model.Rerun
import Verif.Spec.Rerun
import Verif.Proof.Rerun
import Verif.Props.Rerun
import Verif.Model.Builder
import Verif.Spec.Builder
import Verif.Proof.Builder
import Verif.Props.Builder
import Verif.Model.Wiring
import Verif.Spec.Wiring
import Verif.Props.Wiring
import Verif.Model.Restart
import Verif.Spec.Restart
import Verif.Proof.Restart
import Verif.Props.Restart
import Verif.Spec.SystemEndless
import Verif.Props.SystemEndless
import Verif.Model.ResyncReach
import Verif.Spec.ResyncReach
import Verif.Proof.ResyncReach
import Verif.Props.ResyncReach
import Verif.Model.Follow
import Verif.Spec.Follow
import Verif.Proof.Follow
import Verif.Props.Follow
import Verif.Spec.FollowEndless
import Verif.Proof.FollowEndless
import Verif.Props.FollowEndless
import Verif.Model.Whole
import Verif.Spec.Whole
import Verif.Proof.Whole
import Verif.Props.Whole
import Verif.Model.PollTime
import Verif.Spec.PollTime
import Verif.Props.PollTime
import Verif.Model.DefaultLimiter
import Verif.Spec.Spacing
import Verif.Proof.Spacing
import Verif.Props.Spacing
import Verif.Spec.Memory
import Verif.Props.Memory
import Verif.Model.Electors
import Verif.Spec.Electors
import Verif.Proof.Electors
import Verif.Props.Electors
import Verif.Model.StoreIndexers
import Verif.Spec.StoreIndexers
import Verif.Props.StoreIndexers
import Verif.Model.ReflectorTime
import Verif.Spec.ReflectorTime
import Verif.Props.ReflectorTime
import Verif.Model.ListenerTime
import Verif.Spec.ListenerTime
import Verif.Proof.ListenerTime
import Verif.Props.ListenerTime
import Verif.Spec.DelayIdle
import Verif.Props.DelayIdle
import Verif.Spec.ControllerIdle
import Verif.Props.ControllerIdle
import Verif.Model.DeltaRef
import Verif.Spec.DeltaRef
import Verif.Props.DeltaRef
import Verif.Spec.SystemIdle
import Verif.Props.SystemIdle
import Verif.Model.Runs
import Verif.Spec.Runs
import Verif.Props.Runs
import Verif.Spec.WholeIdle
import Verif.Props.WholeIdle
import Verif.Model.Listeners
import Verif.Spec.Listeners
import Verif.Props.Listeners
