import Verif.Model.Follow
import Verif.Spec.Reflector
import Verif.Spec.Informer
/-!
# What it means that a cache follows the API server (C100)
-/
namespace Aiok8s.Follow.Spec
open Aiok8s.Follow
open Aiok8s.Reflector (Access)
open Aiok8s.Reflector.Spec (Wanted Fatal)
open Aiok8s.Informer.Spec (CleanAt Drained)
variable {K O G : Type} [DecidableEq K] [DecidableEq O] [DecidableEq G]

/-- The object the server has under `k` after some changes: that of the last change about `k`, unless
this was a deletion. -/
def held (key : O → Option K) (h : List (Change O)) (k : K) : Option O :=
  h.foldl (fun v c => if key c.obj = some k then
    (match c with
      | .put o => some o
      | .del _ => none) else v) none

/-- The server has only objects of the type and kind the reflector expects. -/
def Serves (A : Access O G) : Act O → Prop
  | .change c => Wanted A ⟨.added, c.obj, false⟩
  | _ => True

/-- The handler does not fail. -/
def HandlerOk : Act O → Prop
  | .pop h => ∀ i, h i = .ok
  | _ => True

/-- A list is stored. -/
def Lists : Act O → Prop
  | .tasks (.replaced _) => True
  | _ => False

/-- The list that is about to be stored comes at a moment that is clean for every key (C31). -/
def Clean (key : O → Option K) (s : State K O) : Prop :=
  ∀ items v, s.refl.pc = .replacing items v → ∀ k, CleanAt key s.inf (items.map .real) k

/-- The store has exactly what the server had after `n` changes. -/
def Agrees (key : O → Option K) (s : State K O) (n : Nat) : Prop :=
  n ≤ s.hist.length ∧ ∀ k, s.inf.items.get? k = (held key (s.hist.take n) k).map .real

/-- What happens when everybody only does what there is left to do: the watch sends what it has not sent,
the loop handles the events, the objects are processed. -/
def Settling : Act O → Prop
  | .event => True
  | .tasks .resume => True
  | .tasks .stored => True
  | .pop h => ∀ i, h i = .ok
  | _ => False

/-- A watch is open and read, and neither an error nor its end is under way. -/
def Calm (A : Access O G) (s : State K O) : Prop :=
  (s.refl.pc = .waiting ∨ ∃ v, s.refl.pc = .storing v) ∧ s.refl.reader = .reading ∧
  s.refl.errTask = .waiting ∧ ∀ x ∈ s.refl.queue, ∃ e, x = some e ∧ ¬ Fatal A e

end Aiok8s.Follow.Spec
