import Verif.Model.Runs
import Verif.Spec.Informer
/-!
# What several calls of `run` at once should achieve
-/
namespace Aiok8s.Runs.Spec
open Aiok8s.DeltaFifo (Obj keyOf)
variable {K O : Type} [DecidableEq K]

/-- What the reflector of call `r` reports. -/
def callsOf (r : Nat) (es : List (Ev K O)) : List (Informer.Ev K O) :=
  es.filterMap fun
    | .call v e => if v = r then some e else none
    | _ => none

/-- A reflector that lists once, then watches, and does not resync. -/
def ListsOnce (key : O → Option K) (cs : List (Informer.Ev K O)) : Prop :=
  cs = [] ∨ ∃ xs rest, cs = .replace xs :: rest ∧ (∀ x ∈ xs, (keyOf key x).isSome) ∧
    ∀ e ∈ rest, Informer.Spec.Ev.noList e ∧ e ≠ .resync

/-- Nothing is pending. -/
def Drained (s : State K O) : Prop := ∀ r, (s.q r).queue = [] ∧ s.hand r = none

end Aiok8s.Runs.Spec
