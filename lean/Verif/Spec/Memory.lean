import Verif.Spec.Controller
import Verif.Model.DefaultLimiter
/-!
# What a controller and its queue keep in memory
-/
namespace Aiok8s.Controller.Spec
open Controller (Log Outcome State)
open RateLimiters (Part)
variable {σ α ε : Type} [DecidableEq α]

/-- The items for which the limiter keeps a counter (`default_rate_limiters.py` line 64). -/
def remembered (s : State (List (Part α)) α) : List α :=
  s.rq.lim.flatMap fun p => match p with
    | .exp _ f => f.map Prod.fst
    | .bucket _ _ => []

/-- The item is with a worker, or waits in the queue, at once or for a time to come. -/
def Around (s : State σ α) (x : α) : Prop :=
  (∃ w, s.workers w = .reconciling x) ∨ x ∈ s.rq.q.core.dirty ∨ ∃ r, DelayQueue.Held s.rq.q x r

/-- How the reconciler ended for `x` the last time. -/
def lastOutcome (x : α) : List (Log α ε) → Option Outcome → Option Outcome
  | [], r => r
  | .outcome _ y o _ :: l, r => lastOutcome x l (if y = x then some o else r)
  | _ :: l, r => lastOutcome x l r

end Aiok8s.Controller.Spec
namespace Aiok8s.DelayQueue
variable {α : Type}

/-- The deadlines of the accepted calls of `add_after`. -/
def deadlines (l : List (Log α)) : List ℚ :=
  l.flatMap fun a => match a with
    | .called _ d t => [t + d]
    | .loopAdd _ _ => []

end Aiok8s.DelayQueue
