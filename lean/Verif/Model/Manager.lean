import Verif.Model.InformersMap
/-!
# `aiok8s/controller/manager.py`, `_Controller.watch` and `_Controller.start` (`controller.py` lines
47-80) and `Kind.start` (`source.py` lines 29-33)

Any number of tasks call the manager, its controllers and its cache, in any order.  Controllers are
numbered by their users; a call of `_Controller.start` is numbered by its position in `State.starts`.
A queue made by `_Controller.start` has the number of the call that made it.
The cache is `Verif.Model.InformersMap`, whose callers are numbered: the call `n` of `start` is the
caller `2 * n`, other tasks have odd numbers.

Simplified: a watch is the kind it watches (handlers and predicates are `Verif.Model.Source`), all
kinds are registered and `inject_cache` has been called (`watch` and `add` do it, lines 32-41 of
`manager.py`); what the workers do is `Verif.Model.Controller`.
-/
namespace Aiok8s.Manager
open Aiok8s

/-- Where a call of `_Controller.start` is. -/
inductive CPc (G : Type) where
  /-- `manager.py` line 53: the task has been made and has not run yet -/
  | pending
  /-- `controller.py` line 59: at the mutex -/
  | entering
  /-- lines 60-63: these watches are still to be started -/
  | watching (todo : List G)
  /-- `source.py` line 32: in `get_informer` for the kind `g`, with the queue `q` as argument -/
  | getting (g : G) (q : Nat) (todo : List G)
  /-- line 65: waiting for these informers to sync -/
  | syncing (fs : List Nat)
  /-- line 78: the workers run -/
  | working
deriving DecidableEq

/-- Where a task that calls `manager.start` is. -/
inductive MPc where
  | idle
  /-- `manager.py` line 50: at the mutex -/
  | entering
  /-- line 62: waiting for these informers to sync -/
  | waiting (fs : List Nat)
  /-- line 56: in `gather` -/
  | running
  /-- line 56 raised: `gather(None, ...)` -/
  | failed
deriving DecidableEq

/-- The manager, its cache and its controllers. -/
structure State (G : Type) where
  /-- the map of informers of `self._cache` -/
  im : InformersMap.State G
  /-- `self._non_leader_election_runnables` -/
  runnables : List Nat
  /-- `controller._watches` -/
  watches : Nat → List G
  /-- whether the mutex of a controller is taken -/
  ctlLock : Nat → Bool
  /-- the calls of `_Controller.start` so far: the controller and where the call is -/
  starts : List (Nat × CPc G)
  /-- `self.queue` of a controller, once a call of its `start` has begun -/
  queue : Nat → Nat
  /-- the event handlers registered: the informer, the call of `start` that registered it and the queue
  it feeds -/
  handlers : List (Nat × Nat × Nat)
  mgr : Nat → MPc
  /-- whether `self._mutex` is taken -/
  lock : Bool
  /-- `self._started` -/
  started : Bool
  /-- the number of tasks made at line 61 that have not run yet -/
  cacheTasks : Nat

/-- `manager.py` lines 26-30. -/
def init {G : Type} : State G :=
  ⟨InformersMap.init, [], fun _ => [], fun _ => false, [], fun _ => 0, [], fun _ => .idle, false, false, 0⟩

/-- The moves. -/
inductive Ev (G : Type) where
  /-- something happens in the cache that is not a call of the manager or of its controllers -/
  | cache (e : InformersMap.Ev G)
  /-- `manager.add(c)` -/
  | add (c : Nat)
  /-- `controller.watch` for the controller `c` -/
  | watch (c : Nat) (g : G)
  /-- task `m` calls `manager.start` -/
  | start (m : Nat)
  /-- task `m` gets the mutex of the manager -/
  | enter (m : Nat)
  /-- the task made at line 61 runs `cache.start` -/
  | cacheTask
  /-- task `m` looks again whether the informers have synced -/
  | poll (m : Nat)
  /-- the call `n` of `_Controller.start` goes on -/
  | ctl (n : Nat)

variable {G : Type} [DecidableEq G]

/-- Moves in the cache that other tasks can make: calls have odd numbers, and only the manager starts
the cache. -/
def foreign : InformersMap.Ev G → Bool
  | .call c _ => c % 2 == 1
  | .start => false
  | _ => true

def State.setMgr (s : State G) (m : Nat) (p : MPc) : State G :=
  { s with mgr := fun d => if d = m then p else s.mgr d }

def State.setCtl (s : State G) (n c : Nat) (p : CPc G) : State G :=
  { s with starts := s.starts.set n (c, p) }

/-- `manager.py` lines 52-55: a task is made for every runnable's `start`. -/
def startAll (s : State G) : State G :=
  { s with starts := s.starts ++ s.runnables.map fun c => (c, .pending) }

/-- `shared_informer.py` line 45: all have synced. -/
def allSynced (s : State G) (fs : List Nat) : Bool := fs.all fun i => decide (i ∈ s.im.synced)

/-- `controller.py` lines 57-78: the next step of the call `n` of `start`. -/
def ctlStep (s : State G) (n : Nat) : State G :=
  match s.starts[n]? with
  | none => s
  | some (c, .pending) =>
    -- line 57
    { s.setCtl n c .entering with queue := fun d => if d = c then n else s.queue d }
  | some (c, .entering) =>
    if s.ctlLock c then s
    else { s.setCtl n c (.watching (s.watches c)) with
      ctlLock := fun d => if d = c then true else s.ctlLock d }
  | some (c, .watching []) => s.setCtl n c (.syncing s.im.map.values)
  | some (c, .watching (g :: todo)) =>
    -- `self.queue` is evaluated here, line 62
    { s.setCtl n c (.getting g (s.queue c) todo) with im := InformersMap.step s.im (.call (2 * n) g) }
  | some (c, .getting _ q todo) =>
    match s.im.tasks (2 * n) with
    | .returned _ i _ =>
      -- `source.py` line 33
      { s.setCtl n c (.watching todo) with handlers := s.handlers ++ [(i, n, q)] }
    | _ => s
  | some (c, .syncing fs) =>
    if allSynced s fs then
      { s.setCtl n c .working with ctlLock := fun d => if d = c then false else s.ctlLock d }
    else s
  | some (_, .working) => s

/-- One move; impossible moves change nothing. -/
def step (s : State G) : Ev G → State G
  | .cache e => if foreign e then { s with im := InformersMap.step s.im e } else s
  | .add c => { s with runnables := s.runnables ++ [c] }
  | .watch c g =>
    -- `controller.py` lines 47-54; a call that has to wait for the mutex is the move that happens later
    if s.ctlLock c then s
    else { s with watches := fun d => if d = c then s.watches c ++ [g] else s.watches d }
  | .start m =>
    match s.mgr m with
    | .idle => s.setMgr m .entering
    | _ => s
  | .enter m =>
    match s.mgr m with
    | .entering =>
      if s.lock then s
      else if s.started then (startAll s).setMgr m .failed
      else { s.setMgr m (.waiting s.im.map.values) with lock := true, cacheTasks := s.cacheTasks + 1 }
    | _ => s
  | .cacheTask =>
    if s.cacheTasks = 0 then s
    else { s with cacheTasks := s.cacheTasks - 1, im := InformersMap.step s.im .start }
  | .poll m =>
    match s.mgr m with
    | .waiting fs =>
      if allSynced s fs then { (startAll s).setMgr m .running with started := true, lock := false }
      else s
    | _ => s
  | .ctl n => ctlStep s n

/-- The state after a sequence of moves. -/
def exec (s : State G) : List (Ev G) → State G
  | [] => s
  | e :: es => exec (step s e) es

end Aiok8s.Manager
