import Verif.Model.ReflectorTime
import Mathlib.Data.List.Forall2
/-!
# What is expected of the times of a reflector
-/
namespace Aiok8s.ReflectorTime.Spec
open Aiok8s.Reflector (Watch Script StreamEnd)
open Aiok8s.ReflectorTime
variable {O : Type}

/-- Nothing takes less than no time. -/
def WatchValid : TWatch O → Prop
  | .fails d => 0 ≤ d
  | .stream d es _ after close => 0 ≤ d ∧ (∀ p ∈ es, 0 ≤ p.1) ∧ 0 ≤ after ∧ 0 ≤ close

/-- The same for a whole script. -/
def Valid : TScript O → Prop
  | .listFails d => 0 ≤ d
  | .replaceFails _ _ d r => 0 ≤ d ∧ 0 ≤ r
  | .listed _ _ d r ws close => 0 ≤ d ∧ 0 ≤ r ∧ (∀ w ∈ ws, WatchValid w) ∧ 0 ≤ close

/-- The wall clock is never set forward (it may be set back, and may be slow). -/
def NotForward (wall : ℚ → ℚ) : Prop := ∀ s t, s ≤ t → wall t - wall s ≤ t - s

/-- A request to the API server. -/
def isRequest : Entry O → Bool
  | .call (.list _) | .call (.watch _) => true
  | _ => false

/-- The one that asks for everything. -/
def isList : Entry O → Bool
  | .call (.list _) => true
  | _ => false

/-- An event that was accepted. -/
def isEvent : Entry O → Bool
  | .accepted => true
  | _ => false

/-- How many of some sort there are from `a` to `b`. -/
def within (a b : ℚ) (p : Entry O → Bool) (log : List (ℚ × Entry O)) : Nat :=
  (log.filter fun x => p x.2 && decide (a ≤ x.1) && decide (x.1 ≤ b)).length

/-- The calls, without their times. -/
def calls : List (ℚ × Entry O) → List (Aiok8s.Reflector.Call O)
  | [] => []
  | (_, .call c) :: l => c :: calls l
  | (_, .accepted) :: l => calls l

/-- The same end; whether a watch was short is only known with times. -/
def SameEnd : TEnd → StreamEnd → Prop
  | .closed, .closed _ => True
  | .raises, .raises => True
  | .resyncFails, .resyncFails => True
  | .open, .open => True
  | _, _ => False

/-- The same answers without times. -/
def SameWatch : TWatch O → Watch O → Prop
  | .fails _, .fails => True
  | .stream _ es e _ _, .stream es' e' => es.map (·.2) = es' ∧ SameEnd e e'
  | _, _ => False

/-- The same answers without times. -/
def SameScript : TScript O → Script O → Prop
  | .listFails _, .listFails => True
  | .replaceFails is v _ _, .replaceFails is' v' => is = is' ∧ v = v'
  | .listed is v _ _ ws _, .listed is' v' ws' => is = is' ∧ v = v' ∧ List.Forall₂ SameWatch ws ws'
  | _, _ => False

end Aiok8s.ReflectorTime.Spec
