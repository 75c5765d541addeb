import Verif.Spec.DelayQueue
/-!
# A delaying queue on an idle event loop
-/
namespace Aiok8s.DelayQueue.Spec
open Aiok8s.DelayQueue
variable {α : Type} [DecidableEq α]

/-- A move of the tasks of the queue that does not depend on anybody else: the delay loop goes on, or leaves its
`asyncio.wait` for a reason other than the heartbeat, or a pending `put` completes. -/
def own : Ev α → Bool
  | .loop => true
  | .wake .timer => true
  | .wake .item => true
  | .wake .stop => true
  | .putDone _ => true
  | _ => false

/-- For the time `d` the tasks of the queue can do nothing. -/
def QuietFor (s : State α) (d : ℚ) : Prop :=
  ∀ d', 0 ≤ d' → d' < d → ∀ e, own e = true →
    step { s with clock := s.clock + d' } e = ({ s with clock := s.clock + d' }, [])

/-- The event loop has nothing else to do: time passes only when the tasks of the queue can do nothing. -/
def Idle (t0 : ℚ) (es : List (Ev α)) : Prop :=
  ∀ a d b, es = a ++ .tick d :: b → QuietFor (exec (init t0) a) d

end Aiok8s.DelayQueue.Spec
