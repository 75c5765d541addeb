import Verif.Model.DelayClock
import Verif.Spec.DelayQueue
/-!
# Specification vocabulary for the delaying queue and the wall clock
-/
namespace Aiok8s.DelayClock
variable {α : Type}

/-- By how much the wall clock was set forward, on balance. -/
def shift : List (Ev α) → ℚ
  | [] => 0
  | .adjust d :: es => d + shift es
  | .q _ :: es => shift es

/-- On no stretch of the run is the wall clock set forward by more than `A`, on balance. -/
def Ahead (A : ℚ) (es : List (Ev α)) : Prop := ∀ as bs cs, es = as ++ bs ++ cs → shift bs ≤ A

/-- On no stretch of the run is the wall clock set back by more than `B`, on balance. -/
def Behind (B : ℚ) (es : List (Ev α)) : Prop := ∀ as bs cs, es = as ++ bs ++ cs → -B ≤ shift bs

/-- Is this a call of `shut_down`? -/
def isShutDown : Ev α → Bool
  | .adjust _ => false
  | .q e => DelayQueue.isShutDown e

/-- Number of steps the loop takes in a sequence of moves. -/
def loops (es : List (Ev α)) : Nat := es.countP (fun e => match e with | .q .loop => true | _ => false)

/-- No time passes while the loop takes entries from the heap (`delaying_queue.py` lines 70-78). -/
def Brisk [DecidableEq α] (s : State α) (es : List (Ev α)) : Prop :=
  ∀ as d bs n, es = as ++ .q (.tick d) :: bs → (exec s as).q.pc ≠ .popping n

end Aiok8s.DelayClock
