import Verif.Model.Manager
/-!
# `aiok8s/controller/builder.py`

`build_controller`, called by any number of tasks, also while the manager is started.  The manager, its
cache and its controllers are `Verif.Model.Manager`; the rest of the program moves there as before.

Calls of `build_controller` are numbered.  The controller made by the call `b` is the controller `2 * b`
(nobody else ever has it: `build_controller` returns nothing, lines 20-27); the controllers of others have
odd numbers.  The call asks the cache as the caller `4 * b + 1`, other tasks are `4 * k + 3`.
-/
namespace Aiok8s.Builder
open Aiok8s

/-- Where a call of `build_controller` is. -/
inductive BPc (G : Type) where
  /-- not called yet -/
  | idle
  /-- line 25: in `get_informer`, or at the mutex of the controller (line 27, `controller.py` line 48) -/
  | getting (g : G)
  /-- returned -/
  | done (g : G)
  /-- line 25 raised: `gvk_for_object` does not know the type (`client.py` line 64) -/
  | failed
deriving DecidableEq

/-- The manager and the calls of `build_controller`. -/
structure State (G : Type) where
  m : Manager.State G
  builds : Nat → BPc G

/-- No calls yet. -/
def init {G : Type} : State G := ⟨Manager.init, fun _ => .idle⟩

/-- The moves. -/
inductive Ev (G : Type) where
  /-- the manager, its cache or a controller moves, or another task calls them -/
  | mgr (e : Manager.Ev G)
  /-- the call `b` of `build_controller`; `none`: the type is not registered -/
  | build (b : Nat) (g : Option G)
  /-- the call `b` goes on after `get_informer` -/
  | go (b : Nat)

variable {G : Type} [DecidableEq G]

/-- Moves of others: they have neither the controllers of `build_controller` nor its calls of the cache. -/
def others : Manager.Ev G → Bool
  | .add c => c % 2 == 1
  | .watch c _ => c % 2 == 1
  | .cache (.call c _) => c % 4 == 3
  | _ => true

def State.setBuild (s : State G) (b : Nat) (p : BPc G) : State G :=
  { s with builds := fun d => if d = b then p else s.builds d }

/-- One move; impossible moves change nothing. -/
def step (s : State G) : Ev G → State G
  | .mgr e => if others e then { s with m := Manager.step s.m e } else s
  | .build b g =>
    match s.builds b with
    | .idle =>
      -- line 21: `controller.py` lines 25-31
      let m := Manager.step s.m (.add (2 * b))
      match g with
      | none => { s with m := m }.setBuild b .failed
      | some g => { s with m := Manager.step m (.cache (.call (4 * b + 1) g)) }.setBuild b (.getting g)
    | _ => s
  | .go b =>
    match s.builds b with
    | .getting g =>
      match s.m.im.tasks (4 * b + 1) with
      | .returned _ _ _ =>
        if s.m.ctlLock (2 * b) then s
        else { s with m := Manager.step s.m (.watch (2 * b) g) }.setBuild b (.done g)
      | _ => s
    | _ => s

/-- The state after a sequence of moves. -/
def exec (s : State G) : List (Ev G) → State G
  | [] => s
  | e :: es => exec (step s e) es

end Aiok8s.Builder
