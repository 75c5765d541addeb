/-!
# The tasks below `manager.start`, and how they end

`aiok8s/controller/manager.py` lines 43-64, `_SpecificInformersMap.start`
(`aiok8s/controller/_informers_map.py` lines 38-45, reached through `cache.py` and `_deleg_map.py`)
and `_Controller.start` (`aiok8s/controller/controller.py` lines 56-80).

One call of `manager.start`.  The tree of tasks is: the call, the task of `cache.start` with one task
per informer, one task per controller with one task per worker.  A task that waits in `gather` and is
cancelled cancels every child of the `gather` in the same step (`asyncio.gather`, `asyncio.Task.cancel`);
it goes on as soon as *one* child has ended with an exception or has been cancelled (`gather` is called
without `return_exceptions`), or all children have returned.

Simplified: the number of informers and of controllers does not change after the start (others can be
added, see `Verif.Model.Manager`, but their tasks are not made by this call); what an informer does
between being asked to stop and ending is `Verif.Model.Lifecycle`, what a worker does is
`Verif.Model.Controller`.  `queue.shut_down` of the queue of a controller does not suspend
(`delaying_queue.py` lines 59-63), so it is one step with the end of `start`.
-/
namespace Aiok8s.Shutdown

/-- A task without children that matter here: `informer.run` or a worker (`aw`, `controller.py` lines
68-71).  Neither returns; it ends by an exception or because it was cancelled. -/
inductive Leaf where
  | running
  /-- cancelled, but still in its `finally` blocks -/
  | stopping
  | ended
deriving DecidableEq

/-- How a task with children has ended. -/
inductive Outcome where
  | returned
  /-- by an exception, `CancelledError` among them -/
  | failed
deriving DecidableEq

/-- Where the task of `controller.start` is (`controller.py` lines 56-80). -/
inductive CtlPc where
  /-- made by `ensure_future` (`manager.py` line 53), not yet run -/
  | pending
  /-- lines 57-66 -/
  | preparing
  /-- lines 57-66, cancelled -/
  | stopping
  /-- line 78: in `gather` -/
  | working
  /-- line 78: a worker has ended, so that the future of `gather` has ended with an exception; the
  task has not run since.  Cancelling it reaches no worker any more -/
  | waking
  | ended (o : Outcome)
deriving DecidableEq

/-- A controller. -/
structure Ctl where
  pc : CtlPc
  /-- `max_concurrent_reconciles`, `controller.py` line 39 -/
  conc : Nat
  /-- the tasks of line 74 -/
  workers : List Leaf
  /-- `self.queue` exists: line 57 -/
  queue : Bool
  /-- `self.queue.shut_down()` has been called: line 80 -/
  shut : Bool
deriving DecidableEq

/-- Where the task of `cache.start` is (`_informers_map.py` lines 38-45). -/
inductive CachePc where
  /-- there is no such task yet -/
  | none
  /-- made by `ensure_future` (`manager.py` line 61), not yet run -/
  | pending
  /-- line 45: in `gather` -/
  | running
  /-- line 45: the future of `gather` has ended with an exception, the task has not run since -/
  | waking
  | ended (o : Outcome)
deriving DecidableEq

/-- Where the call of `manager.start` is (`manager.py` lines 43-64). -/
inductive MgrPc where
  | idle
  /-- line 62 -/
  | waiting
  /-- line 56: in `gather` -/
  | running
  /-- line 56, cancelled -/
  | stopping
  /-- line 56: the future of `gather` has ended, the task has not run since -/
  | waking (o : Outcome)
  | ended (o : Outcome)
deriving DecidableEq

structure State where
  mgr : MgrPc
  cache : CachePc
  /-- the number of informers in the map when `cache.start` runs -/
  informers : Nat
  /-- the tasks of `_informers_map.py` line 41 -/
  infs : List Leaf
  /-- `max_concurrent_reconciles` of the runnables of the manager -/
  runnables : List Nat
  /-- the tasks of `manager.py` line 53 -/
  ctls : List Ctl
deriving DecidableEq

/-- `manager.py` lines 26-31, with this many informers and these controllers. -/
def init (informers : Nat) (runnables : List Nat) : State :=
  ⟨.idle, .none, informers, [], runnables, []⟩

/-- The moves. -/
inductive Act where
  /-- `manager.start` is called -/
  | start
  /-- the task of `cache.start` begins -/
  | cacheRuns
  /-- the informers have synced: `manager.py` line 62 returns -/
  | synced
  /-- the task of the controller begins -/
  | begins (c : Nat)
  /-- the controller has started its sources and its caches have synced -/
  | ready (c : Nat)
  /-- a source cannot be started, or `controller.py` line 66 -/
  | prepRaises (c : Nat)
  /-- a controller cancelled before it had workers ends -/
  | prepEnds (c : Nat)
  /-- an informer ends though nobody has asked it to -/
  | infRaises (i : Nat)
  /-- an informer that was cancelled has ended -/
  | infEnds (i : Nat)
  /-- the reconciler raises `CancelledError` by itself: `controller.py` lines 108-109 -/
  | workerRaises (c w : Nat)
  /-- a worker that was cancelled has ended -/
  | workerEnds (c w : Nat)
  /-- the future of `gather` of `_informers_map.py` line 45 ends -/
  | cacheTold
  /-- and the task goes on -/
  | cacheWakes
  /-- the future of `gather` of `controller.py` line 78 ends -/
  | ctlTold (c : Nat)
  /-- and the task goes on -/
  | ctlWakes (c : Nat)
  /-- the future of `gather` of `manager.py` line 56 ends -/
  | mgrTold
  /-- and the call of `manager.start` goes on -/
  | mgrWakes
  /-- the task that called `manager.start` is cancelled -/
  | cancel
deriving DecidableEq

/-- `Task.cancel` for a task without children. -/
def Leaf.ask : Leaf → Leaf
  | .running => .stopping
  | l => l

/-- `Task.cancel` for the task of a controller.  A task that has not run ends without running
(`asyncio.Task.__step`): no queue is made and no `finally` is entered. -/
def Ctl.ask (c : Ctl) : Ctl :=
  match c.pc with
  | .pending => { c with pc := .ended .failed }
  | .preparing => { c with pc := .stopping }
  | .working => { c with workers := c.workers.map Leaf.ask }
  | _ => c

/-- `Task.cancel` for the task of `cache.start`. -/
def askCache (s : State) : State :=
  match s.cache with
  | .pending => { s with cache := .ended .failed }
  | .running => { s with infs := s.infs.map Leaf.ask }
  | _ => s

/-- `controller.py` lines 79-80. -/
def Ctl.finish (c : Ctl) (o : Outcome) : Ctl := { c with pc := .ended o, shut := true }

/-- Whether `gather` of `manager.py` line 56 has ended: a child has failed, or all have returned. -/
def State.joined (s : State) : Option Outcome :=
  if s.cache = .ended .failed ∨ s.ctls.any (fun c => c.pc == .ended .failed) then some .failed
  else if s.cache = .ended .returned ∧ s.ctls.all (fun c => c.pc == .ended .returned) then
    some .returned
  else none

/-- Change one controller, if that is possible. -/
def State.onCtl (s : State) (c : Nat) (f : Ctl → Option Ctl) : Option State :=
  match s.ctls[c]? with
  | none => none
  | some x =>
    match f x with
    | none => none
    | some y => some { s with ctls := s.ctls.set c y }

/-- Change one worker of a controller from `a` to ended. -/
def Ctl.endWorker (a : Leaf) (w : Nat) (c : Ctl) : Option Ctl :=
  if c.workers[w]? = some a then some { c with workers := c.workers.set w .ended } else none

/-- One move; `none` if it is not possible. -/
def step (s : State) : Act → Option State
  | .start =>
    match s.mgr with
    | .idle => some { s with mgr := .waiting, cache := .pending }
    | _ => none
  | .cacheRuns =>
    match s.cache with
    | .pending =>
      if s.informers = 0 then some { s with cache := .ended .returned }
      else some { s with cache := .running, infs := List.replicate s.informers .running }
    | _ => none
  | .synced =>
    match s.mgr with
    | .waiting =>
      -- an informer syncs only after it has been run
      if s.cache = .pending ∧ s.informers ≠ 0 then none
      else some { s with
        mgr := .running
        ctls := s.runnables.map fun k => ⟨.pending, k, [], false, false⟩ }
    | _ => none
  | .begins c => s.onCtl c fun x =>
    match x.pc with
    | .pending => some { x with pc := .preparing, queue := true }
    | _ => none
  | .ready c => s.onCtl c fun x =>
    match x.pc with
    | .preparing =>
      if x.conc = 0 then some (x.finish .returned)
      else some { x with pc := .working, workers := List.replicate x.conc .running }
    | _ => none
  | .prepRaises c => s.onCtl c fun x =>
    match x.pc with
    | .preparing => some (x.finish .failed)
    | _ => none
  | .prepEnds c => s.onCtl c fun x =>
    match x.pc with
    | .stopping => some (x.finish .failed)
    | _ => none
  | .infRaises i =>
    if s.infs[i]? = some .running then some { s with infs := s.infs.set i .ended } else none
  | .infEnds i =>
    if s.infs[i]? = some .stopping then some { s with infs := s.infs.set i .ended } else none
  | .workerRaises c w => s.onCtl c (Ctl.endWorker .running w)
  | .workerEnds c w => s.onCtl c (Ctl.endWorker .stopping w)
  | .cacheTold =>
    match s.cache with
    | .running => if Leaf.ended ∈ s.infs then some { s with cache := .waking } else none
    | _ => none
  | .cacheWakes =>
    match s.cache with
    | .waking => some { s with cache := .ended .failed }
    | _ => none
  | .ctlTold c => s.onCtl c fun x =>
    match x.pc with
    | .working => if Leaf.ended ∈ x.workers then some { x with pc := .waking } else none
    | _ => none
  | .ctlWakes c => s.onCtl c fun x =>
    match x.pc with
    | .waking => some (x.finish .failed)
    | _ => none
  | .mgrTold =>
    match s.mgr, s.joined with
    | .running, some o => some { s with mgr := .waking o }
    | .stopping, some _ => some { s with mgr := .waking .failed }
    | _, _ => none
  | .mgrWakes =>
    match s.mgr with
    | .waking o => some { s with mgr := .ended o }
    | _ => none
  | .cancel =>
    match s.mgr with
    | .waiting => some { s with mgr := .ended .failed }
    | .running | .stopping =>
      some { askCache s with mgr := .stopping, ctls := s.ctls.map Ctl.ask }
    | .waking _ => some { s with mgr := .waking .failed }
    | _ => none

/-- A sequence of moves; `none` if one of them is not possible. -/
def exec (s : State) : List Act → Option State
  | [] => some s
  | a :: as => (step s a).bind fun s' => exec s' as

end Aiok8s.Shutdown
