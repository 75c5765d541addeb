import Verif.Model.PyDict
import Mathlib.Algebra.Order.Ring.Rat
/-!
# `aiok8s/controller/_informers_map.py` and `aiok8s/controller/cache.py`

Any number of tasks call `get`, in any order.  Informers are numbered in the order of their creation;
how an informer works inside is `Verif.Model.SharedInformer` and `Verif.Model.InformerSync`.
-/
namespace Aiok8s.InformersMap
open Aiok8s

/-- Where a task that calls `get` is. -/
inductive Pc (G : Type) where
  | idle
  /-- at the mutex (line 53) -/
  | entering (g : G)
  /-- after line 55; the informer found, if any, and the value of `started` -/
  | looked (g : G) (found : Option Nat) (started : Bool)
  /-- in `wait_for_cache_sync` (lines 61-63) for this informer -/
  | waiting (g : G) (i : Nat)
  /-- line 66: returned -/
  | returned (g : G) (i : Nat) (started : Bool)
deriving DecidableEq

/-- Lines 29-36, and what the informers did. -/
structure State (G : Type) where
  /-- `self._informers_by_gvk` -/
  map : PyDict G Nat
  /-- how many informers have been made -/
  made : Nat
  /-- `self._started` -/
  started : Bool
  /-- the informers whose `run` has been called (line 41), once for each call -/
  running : List Nat
  /-- the informers for which `has_synced()` is true -/
  synced : List Nat
  tasks : Nat → Pc G

/-- Lines 29-36. -/
def init {G : Type} : State G := ⟨[], 0, false, [], [], fun _ => .idle⟩

/-- The moves. -/
inductive Ev (G : Type) where
  /-- task `c` calls `get` for the kind `g` -/
  | call (c : Nat) (g : G)
  /-- lines 53-55 -/
  | look (c : Nat)
  /-- lines 57-60: up to the end or to the wait -/
  | make (c : Nat)
  /-- task `c` looks again whether its informer has synced (`shared_informer.py` line 45) -/
  | poll (c : Nat)
  /-- lines 38-44: `start` -/
  | start
  /-- an informer becomes synced: it must be running -/
  | sync (i : Nat)

variable {G : Type} [DecidableEq G]

def State.setPc (s : State G) (c : Nat) (p : Pc G) : State G :=
  { s with tasks := fun d => if d = c then p else s.tasks d }

/-- Lines 68-84: `_add_informer_to_map`; the new state and the informer. -/
def addInformer (s : State G) (g : G) : State G × Nat :=
  match s.map.get? g with
  | some i => (s, i)
  | none => ({ s with map := s.map.set g s.made, made := s.made + 1 }, s.made)

/-- Lines 57-58: the informer found, or else one from `_add_informer_to_map`. -/
def orAdd (s : State G) (g : G) : Option Nat → State G × Nat
  | some i => (s, i)
  | none => addInformer s g

/-- One move; impossible ones change nothing. -/
def step (s : State G) : Ev G → State G
  | .call c g =>
    match s.tasks c with
    | .idle => s.setPc c (.entering g)
    | .returned _ _ _ => s.setPc c (.entering g)
    | _ => s
  | .look c =>
    match s.tasks c with
    | .entering g => s.setPc c (.looked g (s.map.get? g) s.started)
    | _ => s
  | .make c =>
    match s.tasks c with
    | .looked g found started =>
      let r := orAdd s g found
      if started && !decide (r.2 ∈ r.1.synced) then r.1.setPc c (.waiting g r.2)
      else r.1.setPc c (.returned g r.2 started)
    | _ => s
  | .poll c =>
    match s.tasks c with
    | .waiting g i => if i ∈ s.synced then s.setPc c (.returned g i true) else s
    | _ => s
  | .start => { s with started := true, running := s.running ++ s.map.values }
  | .sync i => if i ∈ s.running then { s with synced := i :: s.synced } else s

/-- The state after a sequence of moves. -/
def exec (s : State G) : List (Ev G) → State G
  | [] => s
  | e :: es => exec (step s e) es

/-- `cache.py` lines 34-39: what `_InformerCache.get` makes of the answer of `get`. -/
inductive Answer where
  /-- `CacheNotStartedError` -/
  | notStarted
  /-- the answer of the informer's reader (`Verif.Model.Meta.readerGet`) -/
  | read (i : Nat)
deriving DecidableEq

/-- `cache.py` lines 34-39; `none`: there is no answer yet. -/
def cacheGet : Pc G → Option Answer
  | .returned _ i started => some (if started then .read i else .notStarted)
  | _ => none

/-- Lines 103-104: `_resync_period`; `u` is the value of `random.random()`. -/
def resyncPeriod (resync u : ℚ) : ℚ := resync * (u / 5 * (9 / 10))

end Aiok8s.InformersMap
