import Verif.Model.ListenerTime
import Verif.Spec.Listener
/-!
# What is expected of the times of a listener
-/
namespace Aiok8s.ListenerTime.Spec
open Aiok8s.Listener (State Act)
open Aiok8s.ListenerTime
variable {N : Type}

/-- The notifications given to the listener. -/
def puts : List (ℚ × Obs N) → List (ℚ × N)
  | [] => []
  | (t, .put n) :: l => (t, n) :: puts l
  | _ :: l => puts l

/-- The calls of the handler. -/
def calls : List (ℚ × Obs N) → List (ℚ × N)
  | [] => []
  | (t, .call n) :: l => (t, n) :: calls l
  | _ :: l => calls l

/-- The ends of the calls; `true`: it did not raise. -/
def ends : List (ℚ × Obs N) → List (ℚ × Bool)
  | [] => []
  | (t, .ends ok) :: l => (t, ok) :: ends l
  | _ :: l => ends l

/-- When the handler is ready for call number `i`, counted from 0, if `pause` passes after a call that raised. -/
def ready (pause t0 : ℚ) (es : List (ℚ × Bool)) : Nat → Option ℚ
  | 0 => some t0
  | i + 1 => es[i]?.map fun e => e.1 + if e.2 then 0 else pause

/-- The event loop has nothing else to do: time passes only when the listener's tasks can do nothing. -/
def Idle (s : TState N) : List (TAct N) → Prop
  | [] => True
  | a :: as =>
    (match a with
      | .act _ => True
      | .pass d => d ≤ 0 ∨ ((∀ b, Listener.Spec.Act.own b = true → b ≠ .wake → Listener.step s.l b = none) ∧
          (s.l.run = .sleeping → s.now + d ≤ s.wake))) ∧
    ∀ s' o, step s a = some (s', o) → Idle s' as

/-- The informer is not told to stop. -/
def Going (as : List (TAct N)) : Prop := ∀ a ∈ as, ∀ b, a = .act b → b ≠ .stop

/-- How much time passes while `p` holds. -/
def timeIn (p : State N → Bool) (s : TState N) : List (TAct N) → ℚ
  | [] => 0
  | a :: as =>
    (match a with
      | .pass d => if p s.l then d else 0
      | .act _ => 0) +
    match step s a with
    | none => 0
    | some (s', _) => timeIn p s' as

/-- `_add` waits for its notification to be taken, and with it the informer. -/
def heldUp (s : State N) : Bool := !s.addQ.isEmpty

/-- The handler is in a call. -/
def inCall (s : State N) : Bool :=
  match s.run with
  | .handling _ => true
  | _ => false

/-- How many calls raised. -/
def failures (log : List (ℚ × Obs N)) : Nat := ((ends log).filter fun e => !e.2).length

end Aiok8s.ListenerTime.Spec
