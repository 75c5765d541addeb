import Verif.Model.Controller
import Verif.Spec.RateLimiters
import Verif.Spec.DelayQueue
/-!
# What the workers of a controller should do
-/
namespace Aiok8s.Controller.Spec
open Controller (Log Outcome State Ev exec init step)
open RateLimiters (LimOp)
variable {α ε : Type} [DecidableEq α]

/-- A worker as seen from outside. -/
inductive Phase (α : Type) where
  | free
  /-- it has taken `x` -/
  | taken (x : α)
  /-- it has called the reconciler for `x` -/
  | running (x : α)
  /-- the reconciler has ended, or was not called because `x` is not a request -/
  | over (x : α)
deriving DecidableEq

/-- The item a worker has taken and not finished. -/
def Phase.item : Phase α → Option α
  | .free => none
  | .taken x => some x
  | .running x => some x
  | .over x => some x

def put (h : Nat → Phase α) (w : Nat) (p : Phase α) : Nat → Phase α := fun v => if v = w then p else h v

/-- `Good h l h'`: with the workers in the phases `h`, the events `l` are in order and lead to `h'`: a
worker takes an item only if it is free and no worker has that item; it calls the reconciler once for a
request it took, then waits for its end, then calls `done` once for the item, successfully. -/
inductive Good : (Nat → Phase α) → List (Log α ε) → (Nat → Phase α) → Prop where
  | nil (h) : Good h [] h
  | took {h w x l h'} : h w = .free → (∀ v, (h v).item ≠ some x) → Good (put h w (.taken x)) l h' →
      Good h (.took w x :: l) h'
  | reconcile {h w x l h'} : h w = .taken x → Good (put h w (.running x)) l h' →
      Good h (.reconcile w x :: l) h'
  | notRequest {h w x l h'} : h w = .taken x → Good (put h w (.over x)) l h' →
      Good h (.notRequest w x :: l) h'
  | outcome {h w x o env l h'} : h w = .running x → Good (put h w (.over x)) l h' →
      Good h (.outcome w x o env :: l) h'
  | done {h w x l h'} : h w = .over x → Good (put h w .free) l h' → Good h (.done w x true :: l) h'
  | queue {h d l h'} : Good h l h' → Good h (.queue d :: l) h'

/-- Does this outcome ask for a rate-limited retry (and count as a failure)? -/
def retry : Outcome → Bool
  | .raised => true
  | .result requeue after => requeue && after == 0
  | _ => false

/-- Does this outcome reset the back-off: a result that does not ask for a rate-limited retry? -/
def reset : Outcome → Bool
  | .result requeue after => after != 0 || !requeue
  | _ => false

/-- What the limiter should be told about one event. -/
def limOp : Log α ε → List (LimOp α ε)
  | .outcome _ x o env =>
    if retry o then [.when x env] else if reset o then [.forget x] else []
  | .notRequest _ x => [.forget x]
  | _ => []

/-- How often in a row a retry of `x` was asked for: since the last outcome that reset the back-off. -/
def retries (x : α) : List (Log α ε) → Nat → Nat
  | [], n => n
  | .outcome _ y o _ :: l, n =>
    retries x l (if y ≠ x then n else if retry o then n + 1 else if reset o then 0 else n)
  | .notRequest _ y :: l, n => retries x l (if y = x then 0 else n)
  | _ :: l, n => retries x l n

/-! ### Runs without end -/

variable {σ : Type}
open RateLimiters (Iface)

/-- The state after the first `m` moves of an endless run; all items are requests. -/
def at_ (I : Iface σ α ε) (py38 : Bool) (l : σ) (t : ℚ) (n : Nat) (f : Nat → Ev α ε) (m : Nat) : State σ α :=
  exec I py38 (fun _ => true) (init l t n) ((List.range m).map f)

/-- What is observed in move `m`. -/
def logAt (I : Iface σ α ε) (py38 : Bool) (l : σ) (t : ℚ) (n : Nat) (f : Nat → Ev α ε) (m : Nat) :
    List (Log α ε) :=
  (step I py38 (fun _ => true) (at_ I py38 l t n f m) (f m)).2

/-- Nothing is put off for ever.  For the queue: as in `DelayQueue.Fair`.  For the workers: one of them
is never cancelled for good, and it goes on; every worker's reconciler ends at some time, in whatever
way, and so do its calls of `add_after` and `add_rate_limited`. -/
structure Fair (I : Iface σ α ε) (py38 : Bool) (l : σ) (t : ℚ) (n : Nat) (f : Nat → Ev α ε) : Prop where
  open_ : ∀ m e, f m = .queue e → DelayQueue.isShutDown e = false
  time : ∀ T, ∃ m, T ≤ (at_ I py38 l t n f m).rq.q.clock
  loop : ∀ N, ∃ m, N ≤ m ∧ f m = .queue .loop
  beat : ∀ N, ∃ m, N ≤ m ∧ f m = .queue (.wake .heartbeat)
  drain : ∀ N, ∃ m, N ≤ m ∧ (at_ I py38 l t n f m).rq.q.pc ≠ .draining
  item : (∀ N, ∃ m, N ≤ m ∧ DelayQueue.Served (at_ I py38 l t n f m).rq.q) →
    ∀ N, ∃ m, N ≤ m ∧ DelayQueue.Served (at_ I py38 l t n f m).rq.q ∧ f m = .queue (.wake .item)
  put : ∀ e N, (∀ m, N ≤ m → e ∈ (at_ I py38 l t n f m).rq.q.puts) →
    (∀ M, ∃ m, M ≤ m ∧ (at_ I py38 l t n f m).rq.q.chan.length < 1000) →
    ∃ m i, N ≤ m ∧ (at_ I py38 l t n f m).rq.q.puts[i]? = some e ∧
      (at_ I py38 l t n f m).rq.q.chan.length < 1000 ∧ f m = .queue (.putDone i)
  alive : ∃ w, (∀ m, (at_ I py38 l t n f m).workers w ≠ .ended) ∧ (∀ N, ∃ m, N ≤ m ∧ f m = .take w) ∧
    ∀ N, ∃ m, N ≤ m ∧ f m = .wake w
  finish : ∀ w N, (at_ I py38 l t n f N).workers w ≠ .ended → ∃ m o env, N ≤ m ∧ f m = .finish w o env
  requeued : ∀ w N, (at_ I py38 l t n f N).workers w ≠ .ended → ∃ m, N ≤ m ∧ f m = .requeued w

end Aiok8s.Controller.Spec
