import Verif.Spec.Controller
/-!
# Why a request comes to a worker, and when at the earliest
-/
namespace Aiok8s.Controller.Spec
open Controller (Log Outcome State Ev exec init step)
open RateLimiters (Iface)
variable {σ α ε β : Type} [DecidableEq α]

/-- Somebody asks for item `x`, to be given out from time `r` on: somebody else's `add` and `add_after`
(`queue.py` line 41, `delaying_queue.py` line 36), and a result with `requeue_after` (`controller.py`
lines 113-116). -/
def othersAt (s : State σ α) : Ev α ε → List (α × ℚ)
  | .queue (.base (.add x)) => [(x, s.rq.q.clock)]
  | .queue (.addAfter x d) => [(x, s.rq.q.clock + d)]
  | .finish w (.result _ d) _ =>
    match s.workers w with
    | .reconciling x => if d ≠ 0 then [(x, s.rq.q.clock + d)] else []
    | _ => []
  | _ => []

/-- The controller asks for a rate-limited retry (`controller.py` lines 110-112 and 117-119): from now on
and the delay that the limiter says, if it says one. -/
def retriesAt (I : Iface σ α ε) (s : State σ α) : Ev α ε → List (α × ℚ)
  | .finish w o env =>
    match s.workers w with
    | .reconciling x =>
      if retry o then
        match (I.when s.rq.lim x env).2 with
        | .delay d => [(x, s.rq.q.clock + d)]
        | _ => []
      else []
    | _ => []
  | _ => []

/-- Everything of this kind in a run, in order. -/
def along (I : Iface σ α ε) (py38 : Bool) (isReq : α → Bool) (f : State σ α → Ev α ε → List β)
    (s : State σ α) : List (Ev α ε) → List β
  | [] => []
  | e :: es => f s e ++ along I py38 isReq f (step I py38 isReq s e).1 es

/-- How often item `x` was given to a worker. -/
def takes (x : α) (l : List (Log α ε)) : Nat :=
  l.countP fun a => match a with | .took _ y => y = x | _ => false

/-- How many of these are for `x` and due at time `T`. -/
def dueBy (x : α) (T : ℚ) (l : List (α × ℚ)) : Nat := l.countP fun p => p.1 = x ∧ p.2 ≤ T

/-- How often any item was given to a worker. -/
def allTakes (l : List (Log α ε)) : Nat := l.countP fun a => match a with | .took _ _ => true | _ => false

/-- How many of these are due at time `T`, whatever the item. -/
def allDueBy (T : ℚ) (l : List (α × ℚ)) : Nat := l.countP fun p => p.2 ≤ T

/-- The limiter reads the clock that the queue reads (`default_rate_limiters.py` line 38: `time.time()` in
nanoseconds). -/
def Timely (I : Iface σ α ℚ) (py38 : Bool) (isReq : α → Bool) (s : State σ α) : List (Ev α ℚ) → Prop
  | [] => True
  | e :: es =>
    (∀ w o now, e = .finish w o now → now = s.rq.q.clock * 1000000000) ∧
      Timely I py38 isReq (step I py38 isReq s e).1 es

/-- 5 ms, doubled each time, at most 1000 s. -/
def backoff (k : Nat) : ℚ := min (5 / 1000 * 2 ^ k) 1000

/-- The first `n` back-offs together. -/
def backoffs : Nat → ℚ
  | 0 => 0
  | n + 1 => backoffs n + backoff n

end Aiok8s.Controller.Spec
