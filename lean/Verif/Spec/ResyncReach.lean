import Verif.Model.ResyncReach
import Verif.Spec.Source
/-!
# Specification: a resync reaches its handlers
-/
namespace Aiok8s.ResyncReach.Spec
open Aiok8s.ResyncReach
open Aiok8s.Informer (Note)
open Aiok8s.Source.Spec (noteKey)
variable {K O : Type} [DecidableEq K]

/-- Between the states `a` and `b` handler `i` was told about the object of key `k`. -/
def Told (key : O → Option K) (i : Nat) (k : K) (a b : State K O) : Prop :=
  ∃ old new, a.s.sent[i]? = some old ∧ b.s.sent[i]? = some (old ++ new) ∧
    ∃ n ∈ new, noteKey key n = some k

/-- A check of the history that finds the task idle selects handler `i`. -/
def Selects (key : O → Option K) (i : Nat) : State K O → List (Ev K O) → Prop
  | _, [] => True
  | s, e :: es => (∀ now, e = .check now → s.forcing = false → i ∈ Resync.selected s.r.listeners now) ∧
      Selects key i (step key s e) es

/-- No check of the history selects handler `i`. -/
def Spares (key : O → Option K) (i : Nat) : State K O → List (Ev K O) → Prop
  | _, [] => True
  | s, e :: es => (∀ now, e = .check now → i ∉ Resync.selected s.r.listeners now) ∧
      Spares key i (step key s e) es

/-- Nothing but the resync task and the processing loop. -/
def Quiet : Ev K O → Prop
  | .check _ | .resync | .pop | .watchEnds => True
  | _ => False

/-- The times of the checks. -/
def times : List (Ev K O) → List ℚ
  | [] => []
  | .check t :: es => t :: times es
  | _ :: es => times es

/-- Each time is at least `p` after the one before. -/
def Apart (p : ℚ) : ℚ → List ℚ → Prop
  | _, [] => True
  | t, u :: us => t + p ≤ u ∧ Apart p u us

end Aiok8s.ResyncReach.Spec
