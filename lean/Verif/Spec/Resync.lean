import Verif.Model.Resync
import Mathlib.Order.MinMax
/-!
# Specification of resync periods and resync checks, from the calls alone
-/
namespace Aiok8s.Resync.Spec
open Aiok8s.Resync

/-- What a handler effectively asks for: nothing, or at least one second. -/
def ask (default : ℚ) (p : Option ℚ) : ℚ :=
  if p.getD default = 0 then 0 else max (p.getD default) 1

/-- What the handlers ask for, in the order of registration. -/
def asks (default : ℚ) : List Op → List ℚ
  | [] => []
  | .register p _ :: os => ask default p :: asks default os
  | _ :: os => asks default os

/-- What the handlers registered before the start ask for. -/
def early (default : ℚ) : List Op → List ℚ
  | [] => []
  | .register p _ :: os => ask default p :: early default os
  | .start :: _ => []
  | .check _ :: os => early default os

/-- The informer's check period: the smallest of the default and what is asked for before the
start. -/
def checkPeriod (default : ℚ) (os : List Op) : ℚ :=
  ((early default os).filter (· ≠ 0)).foldl min default

/-- The period granted to a handler. -/
def granted (asked check : ℚ) : ℚ := if asked = 0 ∨ check = 0 then 0 else max asked check

/-- The times of the checks. -/
def times : List Op → List ℚ
  | [] => []
  | .check t :: os => t :: times os
  | _ :: os => times os

/-- Which of the checks at the given times a handler should be selected by, if its period is `p`
and it was registered or last selected at `since`. -/
def expected (p since : ℚ) : List ℚ → List Bool
  | [] => []
  | t :: ts => if p ≠ 0 ∧ since + p ≤ t then true :: expected p t ts else false :: expected p since ts

end Aiok8s.Resync.Spec
