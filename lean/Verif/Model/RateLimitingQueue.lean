import Verif.Model.DelayQueue
import Verif.Model.RateLimiters
/-!
# `aiok8s/workqueue/rate_limiting_queue.py`: class `_RateLimitingType`
-/
namespace Aiok8s.RateLimitingQueue
open Aiok8s Aiok8s.RateLimiters

/-- `rate_limiting_queue.py` lines 26-30: a delaying queue and a rate limiter (any object with
the methods of `Iface`). -/
structure State (σ α : Type) where
  q : DelayQueue.State α
  lim : σ

/-- Calls and moves. `env` is what the limiter reads (the clock). -/
inductive Ev (α ε : Type) where
  /-- line 32 -/
  | addRateLimited (x : α) (env : ε)
  /-- line 35 -/
  | forget (x : α)
  /-- line 38 -/
  | numRequeues (x : α)
  /-- anything inherited from the delaying queue -/
  | queue (e : DelayQueue.Ev α)

/-- Results. -/
inductive Out where
  | none
  | num (n : Nat)
  /-- the limiter's `when` raised -/
  | raised (r : Res)
deriving DecidableEq

variable {σ α ε : Type} [DecidableEq α]

/-- `rate_limiting_queue.py` lines 32-33: `add_rate_limited` (`when` is evaluated first; if it
raises, `add_after` is not called). -/
def addRateLimited (I : Iface σ α ε) (s : State σ α) (x : α) (env : ε) :
    State σ α × Out × List (DelayQueue.Log α) :=
  match I.when s.lim x env with
  | (lim, .delay d) =>
    let r := DelayQueue.addAfter s.q x d
    (⟨r.1, lim⟩, .none, r.2)
  | (lim, e) => ({ s with lim := lim }, .raised e, [])

/-- One call or move (`rate_limiting_queue.py` lines 32-39). -/
def step (I : Iface σ α ε) (s : State σ α) : Ev α ε → State σ α × Out × List (DelayQueue.Log α)
  | .addRateLimited x env => addRateLimited I s x env
  | .forget x => ({ s with lim := I.forget s.lim x }, .none, [])
  | .numRequeues x => (s, .num (I.numRequeues s.lim x), [])
  | .queue e => let r := DelayQueue.step s.q e; ({ s with q := r.1 }, .none, r.2)

/-- The state after a sequence of calls and moves. -/
def exec (I : Iface σ α ε) (s : State σ α) : List (Ev α ε) → State σ α
  | [] => s
  | e :: es => exec I (step I s e).1 es

/-- The exponential limiter of `default_rate_limiters.py` lines 60-78 as a limiter object. -/
def expIface (c : ExpCfg) : Iface (Failures α) α Unit where
  when f x _ := expWhen c f x
  forget f x := expForget f x
  numRequeues f x := expNumRequeues f x

end Aiok8s.RateLimitingQueue
