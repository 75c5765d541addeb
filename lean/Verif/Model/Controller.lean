import Verif.Model.RateLimitingQueue
/-!
# `aiok8s/controller/controller.py`: the workers

Any number of workers (tasks `aw` of lines 68-76) on one rate-limiting queue.  The reconciler's
behaviour, cancellations and everything else that happens to the queue are moves.  The queue's `get`
and `done` are called by the workers only.
-/
namespace Aiok8s.Controller
open Aiok8s Aiok8s.RateLimiters

/-- Where a worker is. -/
inductive Pc (α : Type) where
  /-- in `queue.get()` (line 90) -/
  | idle
  /-- in `do.reconcile(x)` (line 107) -/
  | reconciling (x : α)
  /-- in `add_after` or `add_rate_limited` (lines 111, 116, 119); the flag: what `_reconcile_handler`
  returns afterwards -/
  | requeuing (x : α) (ret : Bool)
  /-- in `asyncio.sleep` (line 71) -/
  | sleeping
  /-- the task has ended -/
  | ended
deriving DecidableEq

/-- What the reconciler does. -/
inductive Outcome where
  /-- it returns a `reconcile.Result` (`reconcile.py` lines 23-25) -/
  | result (requeue : Bool) (requeueAfter : ℚ)
  /-- it returns something without these attributes, for instance `None` -/
  | bad
  /-- it raises an exception -/
  | raised
  /-- it is cancelled -/
  | cancelled
deriving DecidableEq

structure State (σ α : Type) where
  rq : RateLimitingQueue.State σ α
  workers : Nat → Pc α

/-- The moves; `env` is what the limiter reads. -/
inductive Ev (α ε : Type) where
  /-- anything else that happens to the queue: time, calls of `add` and `add_after`, `shut_down`, steps
  of the delay loop -/
  | queue (e : DelayQueue.Ev α)
  /-- worker `w` goes through `queue.get()` -/
  | take (w : Nat)
  /-- the reconciler called by worker `w` ends -/
  | finish (w : Nat) (o : Outcome) (env : ε)
  /-- the `add_after` or `add_rate_limited` of worker `w` returns -/
  | requeued (w : Nat)
  /-- worker `w` is cancelled in it -/
  | cancelRequeue (w : Nat)
  /-- worker `w` has slept enough -/
  | wake (w : Nat)
  /-- worker `w` is cancelled in `queue.get()` or in `asyncio.sleep` -/
  | cancel (w : Nat)

/-- What is observed. -/
inductive Log (α ε : Type) where
  /-- `queue.get()` gave `x` to worker `w` -/
  | took (w : Nat) (x : α)
  /-- worker `w` called `do.reconcile(x)` -/
  | reconcile (w : Nat) (x : α)
  /-- the reconciler did this; `env` is what the limiter would read then -/
  | outcome (w : Nat) (x : α) (o : Outcome) (env : ε)
  /-- worker `w` called `queue.done(x)`; the flag: it did not raise -/
  | done (w : Nat) (x : α) (ok : Bool)
  /-- worker `w` found that `x` is not a request -/
  | notRequest (w : Nat) (x : α)
  /-- seen at the delaying queue: an accepted `add_after`, an `add` by the delay loop -/
  | queue (l : DelayQueue.Log α)
deriving DecidableEq

variable {σ α ε : Type} [DecidableEq α]

/-- Is this move one of the others' (not a call of `get` or `done`)? -/
def foreign : DelayQueue.Ev α → Bool
  | .base .get => false
  | .base (.done _) => false
  | _ => true

def State.setPc (s : State σ α) (w : Nat) (p : Pc α) : State σ α :=
  { s with workers := fun v => if v = w then p else s.workers v }

/-- A call on the queue. -/
def State.call (I : Iface σ α ε) (s : State σ α) (e : RateLimitingQueue.Ev α ε) : State σ α :=
  { s with rq := (RateLimitingQueue.step I s.rq e).1 }

/-- What is seen at the delaying queue during a call. -/
def State.seen (I : Iface σ α ε) (s : State σ α) (e : RateLimitingQueue.Ev α ε) : List (Log α ε) :=
  (RateLimitingQueue.step I s.rq e).2.2.map .queue

/-- How `_reconcile_handler` ended: it returned a flag, or raised an exception or `CancelledError`. -/
inductive End where
  | ret (b : Bool)
  | exc
  | cancelled
deriving DecidableEq

/-- Lines 93-98 after `_reconcile_handler` has ended, then lines 85-87 and 68-71: `done` in any case;
then the next `get` if the handler returned `True`, otherwise the sleep, or the end of the task if it
was cancelled.  `py38`: `CancelledError` is not an `Exception` (Python 3.8); before, line 95 catches it.
A `KeyError` from `done` ends the task. -/
def finally_ (I : Iface σ α ε) (py38 : Bool) (s : State σ α) (w : Nat) (x : α) (e : End) :
    State σ α × List (Log α ε) :=
  let ok := decide ((WorkQueue.done s.rq.q.core x).2 = .ok)
  let s := s.call I (.queue (.base (.done x)))
  let p : Pc α :=
    if !ok then .ended
    else match e with
      | .ret true => .idle
      | .ret false => .sleeping
      | .exc => .sleeping
      | .cancelled => if py38 then .ended else .sleeping
  (s.setPc w p, [.done w x ok])

/-- Lines 106-125: what follows the reconciler's end. -/
def afterReconcile (I : Iface σ α ε) (py38 : Bool) (s : State σ α) (w : Nat) (x : α) (o : Outcome)
    (env : ε) : State σ α × List (Log α ε) :=
  let rateLimited (ret : Bool) : State σ α × List (Log α ε) :=
    -- `when` may raise
    match (RateLimitingQueue.step I s.rq (.addRateLimited x env)).2.1 with
    | .raised _ => finally_ I py38 (s.call I (.addRateLimited x env)) w x .exc
    | _ => ((s.call I (.addRateLimited x env)).setPc w (.requeuing x ret),
        s.seen I (.addRateLimited x env))
  match o with
  | .cancelled => finally_ I py38 s w x .cancelled
  | .raised => rateLimited false
  | .bad => finally_ I py38 s w x .exc
  | .result requeue after =>
    if after ≠ 0 then
      (((s.call I (.forget x)).call I (.queue (.addAfter x after))).setPc w (.requeuing x true),
        (s.call I (.forget x)).seen I (.queue (.addAfter x after)))
    else if requeue then rateLimited true
    else finally_ I py38 (s.call I (.forget x)) w x (.ret true)

/-- One move.  `isReq`: is the item a `reconcile.Request`?  A call of `add_after` that does not have to
wait is treated like one that has to: `requeued` can come at any time. -/
def step (I : Iface σ α ε) (py38 : Bool) (isReq : α → Bool) (s : State σ α) :
    Ev α ε → State σ α × List (Log α ε)
  | .queue e => if foreign e then (s.call I (.queue e), s.seen I (.queue e)) else (s, [])
  | .take w =>
    if s.workers w = .idle then
      match (WorkQueue.get s.rq.q.core).2 with
      | .item x =>
        let s := s.call I (.queue (.base .get))
        if isReq x then (s.setPc w (.reconciling x), [.took w x, .reconcile w x])
        else
          -- lines 101-104
          let r := finally_ I py38 (s.call I (.forget x)) w x (.ret true)
          (r.1, .took w x :: .notRequest w x :: r.2)
      | .quit => (s.setPc w .sleeping, [])
      | _ => (s, [])
    else (s, [])
  | .finish w o env =>
    match s.workers w with
    | .reconciling x =>
      let r := afterReconcile I py38 s w x o env
      (r.1, .outcome w x o env :: r.2)
    | _ => (s, [])
  | .requeued w =>
    match s.workers w with
    | .requeuing x ret => finally_ I py38 s w x (.ret ret)
    | _ => (s, [])
  | .cancelRequeue w =>
    match s.workers w with
    | .requeuing x _ => finally_ I py38 s w x .cancelled
    | _ => (s, [])
  | .wake w => if s.workers w = .sleeping then (s.setPc w .idle, []) else (s, [])
  | .cancel w =>
    if s.workers w = .idle ∨ s.workers w = .sleeping then (s.setPc w .ended, []) else (s, [])

/-- The state after a sequence of moves. -/
def exec (I : Iface σ α ε) (py38 : Bool) (isReq : α → Bool) (s : State σ α) :
    List (Ev α ε) → State σ α
  | [] => s
  | e :: es => exec I py38 isReq (step I py38 isReq s e).1 es

/-- What was observed during a sequence of moves. -/
def logOf (I : Iface σ α ε) (py38 : Bool) (isReq : α → Bool) (s : State σ α) :
    List (Ev α ε) → List (Log α ε)
  | [] => []
  | e :: es => (step I py38 isReq s e).2 ++ logOf I py38 isReq (step I py38 isReq s e).1 es

/-- Lines 57 and 73-76: a new queue at time `t` and `n` workers (`max_concurrent_reconciles`). -/
def init (l : σ) (t : ℚ) (n : Nat) : State σ α :=
  ⟨⟨DelayQueue.init t, l⟩, fun w => if w < n then .idle else .ended⟩

end Aiok8s.Controller
