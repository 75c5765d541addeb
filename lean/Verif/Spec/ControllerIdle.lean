import Verif.Spec.DelayIdle
import Verif.Spec.Spacing
/-!
# A controller on an idle event loop
-/
namespace Aiok8s.Controller.Spec
open Controller (Log Outcome State Ev exec init step)
open RateLimiters (Iface)
variable {σ α ε : Type} [DecidableEq α]

/-- For the time `d` the tasks of the queue can do nothing, no worker can take an item, and no worker has a call of
`add_after` or `add_rate_limited` that can return. -/
def QuietFor (I : Iface σ α ε) (py38 : Bool) (isReq : α → Bool) (s : State σ α) (d : ℚ) : Prop :=
  DelayQueue.Spec.QuietFor s.rq.q d ∧
    ∀ w, step I py38 isReq s (.take w) = (s, []) ∧ step I py38 isReq s (.requeued w) = (s, [])

/-- Time passes only when nothing can be done.  The reconciler and the pauses of the workers may take any time. -/
def IdleLoop (I : Iface σ α ε) (py38 : Bool) (isReq : α → Bool) (s : State σ α) (es : List (Ev α ε)) : Prop :=
  ∀ a d b, es = a ++ .queue (.tick d) :: b → 0 < d → QuietFor I py38 isReq (exec I py38 isReq s a) d

/-- How many retries were asked for, of whatever item. -/
def asked : List (Log α ε) → Nat
  | [] => 0
  | .outcome _ _ o _ :: l => (if retry o = true then 1 else 0) + asked l
  | _ :: l => asked l

end Aiok8s.Controller.Spec
