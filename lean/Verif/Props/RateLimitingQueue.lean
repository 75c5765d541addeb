import Verif.Model.RateLimitingQueue
import Verif.Props.RateLimiters
import Verif.Props.DelayQueue
/-!
# Property C16: the rate-limiting queue (`aiok8s/workqueue/rate_limiting_queue.py`)
-/
set_option linter.unusedSimpArgs false
namespace Aiok8s.RateLimitingQueue
open Aiok8s Aiok8s.RateLimiters
variable {σ α ε : Type} [DecidableEq α]

/-- The calls the limiter gets to see. -/
def limOps : List (Ev α ε) → List (LimOp α ε)
  | [] => []
  | .addRateLimited x env :: es => .when x env :: limOps es
  | .forget x :: es => .forget x :: limOps es
  | _ :: es => limOps es

/-- **C16.** Over any history the limiter is charged once per `add_rate_limited` and reset once
per `forget`, and nothing else touches it. -/
theorem C16_limiter_sees_exactly (I : Iface σ α ε) (s : State σ α) (es : List (Ev α ε)) :
    (exec I s es).lim = partExec I s.lim (limOps es) := by
  induction es generalizing s with
  | nil => rfl
  | cons e es ih =>
    simp only [exec]
    rw [ih]
    cases e with
    | addRateLimited x env =>
      have : (step I s (.addRateLimited x env)).1.lim = (I.when s.lim x env).1 := by
        simp only [step, addRateLimited]
        split <;> simp_all
      rw [this]; rfl
    | forget x => rfl
    | numRequeues x => rfl
    | queue e => rfl

/-- The moves the delaying queue gets to see: `add_rate_limited(x)` is `add_after(x, d)` with
the delay `d` the limiter returned at that moment, and nothing if the limiter raised. -/
def queueEvs (I : Iface σ α ε) : σ → List (Ev α ε) → List (DelayQueue.Ev α)
  | _, [] => []
  | l, .addRateLimited x env :: es =>
    (match (I.when l x env).2 with | .delay d => [.addAfter x d] | _ => [])
      ++ queueEvs I (I.when l x env).1 es
  | l, .forget x :: es => queueEvs I (I.forget l x) es
  | l, .numRequeues _ :: es => queueEvs I l es
  | l, .queue e :: es => e :: queueEvs I l es

/-- **C16.** Over any history the queue part behaves as a delaying queue on which each
`add_rate_limited(x)` is replaced by `add_after(x, d)` with the limiter's delay `d`; `forget` and
`num_requeues` do not touch it. -/
theorem C16_queue_sees_exactly (I : Iface σ α ε) (s : State σ α) (es : List (Ev α ε)) :
    (exec I s es).q = DelayQueue.exec s.q (queueEvs I s.lim es) := by
  induction es generalizing s with
  | nil => rfl
  | cons e es ih =>
    simp only [exec]
    rw [ih]
    cases e with
    | addRateLimited x env =>
      simp only [queueEvs]
      rw [DelayQueue.exec_append]
      cases hr : I.when s.lim x env with
      | mk l r =>
        cases r <;> simp [step, addRateLimited, hr, DelayQueue.exec, DelayQueue.step]
    | forget x => rfl
    | numRequeues x => rfl
    | queue e => rfl

/-- **C16.** `num_requeues(x)` reads the limiter and changes nothing. -/
theorem C16_num_requeues (I : Iface σ α ε) (s : State σ α) (es : List (Ev α ε)) (x : α) :
    step I (exec I s es) (.numRequeues x)
      = (exec I s es, .num (I.numRequeues (partExec I s.lim (limOps es)) x), []) := by
  rw [← C16_limiter_sees_exactly]; rfl

theorem recent_fold (c : ExpCfg) (x : α) (os : List (LimOp α Unit)) (f : Failures α)
    (hw : f.WF) :
    failures (partExec (expIface c) f os) x = recentFailures' x os (failures f x) := by
  induction os generalizing f with
  | nil => rfl
  | cons o os ih =>
    cases o with
    | forget y =>
      simp only [partExec, recentFailures']
      rw [ih ((expIface c).forget f y) (PyDict.WF_del hw y)]
      simp only [expIface, expForget, failures, PyDict.get?_del hw]
      by_cases hy : y = x <;> simp [hy]
    | «when» y u =>
      simp only [partExec, recentFailures']
      have e : ((expIface c).when f y u).1 = f.set y (failures f y + 1) := by
        simp only [expIface, expWhen]; split <;> rfl
      rw [e, ih _ (PyDict.WF_set hw _ _)]
      simp only [failures, PyDict.get?_set]
      by_cases hy : y = x
      · subst hy; simp
      · simp [hy]

/-- **C16.** End to end with the exponential limiter: after any history, `add_rate_limited(x)`
schedules `x` exactly `min(base * 2^n, max)` from now, where `n` is the number of
`add_rate_limited(x)` since the last `forget(x)` (as long as `n` < 1024 or the base delay is an
`int`). -/
theorem C16_exponential_schedule (c : ExpCfg) (t0 : ℚ) (es : List (Ev α Unit)) (x : α) (n : Nat)
    (hn : n = recentFailures' x (limOps es) 0) (hok : c.floatBase = false ∨ n < 1024)
    (hpos : 0 < min (c.base * 2 ^ n) c.max) :
    (step (expIface c) (exec (expIface c) ⟨DelayQueue.init t0, []⟩ es) (.addRateLimited x ())).2
      = (.none, [.called x (min (c.base * 2 ^ n) c.max)
          (exec (expIface c) ⟨DelayQueue.init t0, []⟩ es).q.clock]) := by
  have hl := C16_limiter_sees_exactly (expIface c) (⟨DelayQueue.init t0, []⟩ : State _ α) es
  have hf := recent_fold c x (limOps es) [] PyDict.WF_nil
  have h0 : failures ([] : Failures α) x = 0 := rfl
  rw [h0, ← hn] at hf
  have hq := C16_queue_sees_exactly (expIface c) (⟨DelayQueue.init t0, []⟩ : State _ α) es
  have hsd : (exec (expIface c) ⟨DelayQueue.init t0, []⟩ es).q.core.shuttingDown = false := by
    rw [hq]; exact (DelayQueue.base_exec (DelayQueue.base_init t0) _).sd
  generalize exec (expIface c) ⟨DelayQueue.init t0, []⟩ es = s at *
  have hcond : ¬ (c.floatBase && decide (1024 ≤ n)) = true := by
    rcases hok with h | h
    · simp [h]
    · simp; omega
  have hw : ((expIface c).when s.lim x ()).2 = .delay (min (c.base * 2 ^ n) c.max) := by
    rw [← hl] at hf
    show (expWhen c s.lim x).2 = _
    simp only [expWhen, hf, mulPow, if_neg hcond]
  have hw' : (expIface c).when s.lim x ()
      = (((expIface c).when s.lim x ()).1, .delay (min (c.base * 2 ^ n) c.max)) := by rw [← hw]
  simp only [step, addRateLimited]
  rw [hw']
  simp only [DelayQueue.addAfter, hsd, Bool.false_eq_true, if_false, not_le.2 hpos]

example : recentFailures' 7 (limOps [Ev.addRateLimited 7 (), .forget 7, .addRateLimited 7 (),
    .addRateLimited 8 (), .addRateLimited 7 ()]) 0 = 2 ∧ 0 < min ((5 / 1000 : ℚ) * 2 ^ 2) 1000 := by
  constructor
  · decide
  · norm_num

end Aiok8s.RateLimitingQueue
