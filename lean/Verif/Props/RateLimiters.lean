import Verif.Spec.RateLimiters
import Mathlib.Tactic.Linarith
import Mathlib.Tactic.FieldSimp
import Mathlib.Tactic.Ring
import Mathlib.Tactic.NormNum
import Mathlib.Tactic.Positivity
/-!
# Properties C07-C11: rate limiters (`aiok8s/workqueue/default_rate_limiters.py`)
-/
set_option linter.unusedSimpArgs false
namespace Aiok8s.RateLimiters
variable {α : Type} [DecidableEq α]

/-! ## Exponential back-off -/

private theorem expExec_append (c : ExpCfg) (f : Failures α) (as bs : List (ExpOp α)) :
    expExec c f (as ++ bs) = expExec c (expExec c f as) bs := by
  induction as generalizing f with
  | nil => rfl
  | cons a as ih => exact ih _

private theorem expStep_wf (c : ExpCfg) {f : Failures α} (h : f.WF) (o : ExpOp α) :
    (expStep c f o).1.WF := by
  cases o with
  | when x =>
    simp only [expStep, expWhen]
    split <;> exact PyDict.WF_set h _ _
  | forget x => exact PyDict.WF_del h _
  | numRequeues x => exact h

private theorem expExec_wf (c : ExpCfg) {f : Failures α} (h : f.WF) (os : List (ExpOp α)) :
    (expExec c f os).WF := by
  induction os generalizing f with
  | nil => exact h
  | cons o os ih => exact ih (expStep_wf c h o)

private theorem recent_append (x : α) (os : List (ExpOp α)) (o : ExpOp α) :
    recentFailures x (os ++ [o]) = if o = .forget x then 0
      else recentFailures x os + (if o = .when x then 1 else 0) := by
  simp only [recentFailures, List.reverse_append, List.reverse_singleton,
      List.singleton_append, List.takeWhile_cons]
  by_cases h : o = .forget x
  · simp [h]
  · simp [h, List.count_cons]

private theorem failures_exec (c : ExpCfg) (os : List (ExpOp α)) (x : α) :
    failures (expExec c [] os) x = recentFailures x os := by
  induction os using List.reverseRecOn with
  | nil => simp [expExec, failures, recentFailures]
  | append_singleton os o ih =>
    rw [expExec_append]
    have hw : (expExec c ([] : Failures α) os).WF := expExec_wf c PyDict.WF_nil os
    simp only [recentFailures, List.reverse_append, List.reverse_singleton,
      List.singleton_append, List.takeWhile_cons] at ih ⊢
    cases o with
    | when y =>
      have hd : (decide ((ExpOp.when y : ExpOp α) ≠ .forget x)) = true := by simp
      rw [if_pos hd, List.count_cons, ← ih]
      have e : (expStep c (expExec c [] os) (.when y)).1 =
          (expExec c [] os).set y (failures (expExec c [] os) y + 1) := by
        simp only [expStep, expWhen]; split <;> rfl
      simp only [expExec, e]
      simp only [failures, PyDict.get?_set]
      by_cases hy : y = x
      · subst hy; simp
      · simp [hy]
    | forget y =>
      by_cases hy : y = x
      · subst hy
        simp [expExec, expStep, expForget, failures, PyDict.get?_del hw]
      · have hd : (decide ((ExpOp.forget y : ExpOp α) ≠ .forget x)) = true := by simp [hy]
        rw [if_pos hd, List.count_cons, ← ih]
        simp [expExec, expStep, expForget, failures, PyDict.get?_del hw, hy]
    | numRequeues y =>
      have hd : (decide ((ExpOp.numRequeues y : ExpOp α) ≠ .forget x)) = true := by simp
      rw [if_pos hd, List.count_cons, ← ih]
      simp [expExec, expStep]

/-- **C07.** After any history, `when(x)` – if it returns at all – returns
`min(base * 2^n, max)` with `n` the number of `when(x)` since the last `forget(x)`. -/
theorem C07_backoff_formula (c : ExpCfg) (os : List (ExpOp α)) (x : α) (d : ℚ)
    (h : (expStep c (expExec c [] os) (.when x)).2 = .res (.delay d)) :
    d = min (c.base * 2 ^ recentFailures x os) c.max := by
  simp only [expStep, expWhen, mulPow, failures_exec] at h
  split at h <;> rename_i hh <;> split at hh
  · simp at h
  · simp at hh
  · simp at hh
  · simp only [ExpOut.res.injEq, Res.delay.injEq] at h
    simp only [Option.some.injEq] at hh
    rw [← h, ← hh]

/-- **C07.** `num_requeues(x)` is that same number. -/
theorem C07_num_requeues (c : ExpCfg) (os : List (ExpOp α)) (x : α) :
    (expStep c (expExec c [] os) (.numRequeues x)).2 = .num (recentFailures x os) := by
  simp only [expStep, expNumRequeues, failures_exec]

/-- **C07.** Calls about other items make no difference. -/
theorem C07_items_independent (c : ExpCfg) (os os' : List (ExpOp α)) (x : α)
    (h : os.filter (fun o => o = .when x ∨ o = .forget x)
       = os'.filter (fun o => o = .when x ∨ o = .forget x)) :
    (expStep c (expExec c [] os) (.when x)).2 = (expStep c (expExec c [] os') (.when x)).2 := by
  have key : ∀ os : List (ExpOp α), recentFailures x os
      = recentFailures x (os.filter (fun o => o = .when x ∨ o = .forget x)) := by
    intro os
    induction os using List.reverseRecOn with
    | nil => rfl
    | append_singleton os o ih =>
      rw [List.filter_append, recent_append, ih]
      by_cases h1 : o = .when x
      · subst h1
        simp [List.filter_cons, recent_append]
      · by_cases h2 : o = .forget x
        · subst h2; simp [List.filter_cons, recent_append]
        · simp [List.filter_cons, h1, h2]
  have hk : recentFailures x os = recentFailures x os' := by rw [key os, key os', h]
  simp only [expStep, expWhen, mulPow, failures_exec, hk]
  split <;> rfl

/-- non-vacuity: the third failure of item 7 gives four times the base delay -/
example : (expStep ⟨1, 1000, true⟩ (expExec ⟨1, 1000, true⟩ []
    [.when 7, .forget 7, .when 7, .when 8, .when 7]) (.when 7)).2 = .res (.delay 4)
    ∧ recentFailures 7 [.when 7, .forget 7, .when 7, .when 8, .when 7] = 2 := by
  constructor
  · simp [expStep, expExec, expWhen, expForget, failures, PyDict.get?, PyDict.set, PyDict.del,
      mulPow]
    norm_num
  · decide

/-- **C08 is false.** With a float base delay, `when(x)` raises `OverflowError` as soon as 1024
failures of `x` were recorded, and keeps raising until `forget(x)`. -/
theorem C08_refuted_overflow (c : ExpCfg) (hf : c.floatBase = true) (os : List (ExpOp α)) (x : α)
    (h : 1024 ≤ recentFailures x os) :
    (expStep c (expExec c [] os) (.when x)).2 = .res .overflow := by
  simp [expStep, expWhen, mulPow, failures_exec, hf, h]

/-- the hypothesis of `C08_refuted_overflow` is met by 1024 failures in a row -/
theorem C08_refuted_overflow_reachable (x : α) :
    recentFailures x (List.replicate 1024 (.when x)) = 1024 := by
  have : ∀ n, recentFailures x (List.replicate n (.when x)) = n := by
    intro n
    induction n with
    | zero => rfl
    | succ n ih => rw [List.replicate_succ', recent_append, ih]; simp
  exact this 1024

/-- **C08, the part that holds.** `when(x)` returns a delay while fewer than 1024 failures are
recorded, and always if the base delay is an `int`. -/
theorem C08_when_returns_partial (c : ExpCfg) (os : List (ExpOp α)) (x : α)
    (h : c.floatBase = false ∨ recentFailures x os < 1024) :
    ∃ d, (expStep c (expExec c [] os) (.when x)).2 = .res (.delay d) := by
  have : ¬ (c.floatBase && decide (1024 ≤ recentFailures x os)) = true := by
    rcases h with h | h
    · simp [h]
    · simp; omega
  simp only [expStep, expWhen, mulPow, failures_exec, if_neg this]
  exact ⟨_, rfl⟩

example : recentFailures 7 [ExpOp.when 7, .when 7] < 1024 := by decide

/-! ## Token bucket -/

theorem advance_le (c : BucketCfg) (b : Bucket) (now : ℚ) : advance c b now ≤ c.burst :=
  min_le_right _ _

theorem advance_eq (c : BucketCfg) (hc : c.valid) (b : Bucket) (now : ℚ)
    (hn : b.last ≤ now) :
    advance c b now = min c.burst (b.tokens + c.limit * (now / 1000000000 - b.last / 1000000000)) := by
  obtain ⟨hl, -⟩ := hc
  have hl : 0 < c.limit := not_le.1 hl
  simp only [advance, min_eq_left hn]
  rcases le_total (now - b.last) (1000000000 * (c.burst - b.tokens) / c.limit) with h | h
  · rw [min_eq_left h, min_comm]
    congr 1; ring
  · rw [min_eq_right h]
    have e : 1000000000 * (c.burst - b.tokens) / c.limit * c.limit / 1000000000
        = c.burst - b.tokens := by field_simp
    rw [e]
    have h2 : c.burst - b.tokens ≤ c.limit * (now / 1000000000 - b.last / 1000000000) := by
      rw [div_le_iff₀ hl] at h
      linarith
    rw [min_eq_right (by linarith : c.burst ≤ b.tokens + (c.burst - b.tokens)),
      min_eq_left (by linarith)]

private theorem when_le (c : BucketCfg) (hc : c.valid) (b : Bucket) (now : ℚ) (hn : b.last ≤ now) :
    (bucketWhen c b now).1.tokens
      ≤ b.tokens + c.limit * (now / 1000000000 - b.last / 1000000000) - 1 := by
  simp only [bucketWhen, advance_eq c hc b now hn]
  have := min_le_right c.burst (b.tokens + c.limit * (now / 1000000000 - b.last / 1000000000))
  linarith

theorem ready_eq (c : BucketCfg) (hc : c.valid) (b : Bucket) (now : ℚ) :
    (0 ≤ (bucketWhen c b now).1.tokens ∧ (bucketWhen c b now).2 = 0) ∨
    ((bucketWhen c b now).1.tokens < 0 ∧
      c.limit * (bucketWhen c b now).2 = - (bucketWhen c b now).1.tokens) := by
  have hl : 0 < c.limit := not_le.1 hc.1
  simp only [bucketWhen]
  split
  · right
    refine ⟨by assumption, ?_⟩
    field_simp
  · left; exact ⟨not_lt.1 (by assumption), rfl⟩

/-- The moments (seconds) at which calls made at the clock readings `nows` (nanoseconds, of the
calls) become ready when they were told to wait `waits`. -/
def readyTimes (nows waits : List ℚ) : List ℚ :=
  List.zipWith (fun n w => n / 1000000000 + w) nows waits

private theorem count_le (c : BucketCfg) (hc : c.valid) (U : ℚ) (nows : List ℚ) :
    ∀ b : Bucket, (b.last :: nows).Pairwise (· ≤ ·) →
    ((readyTimes nows (bucketWaits c b nows)).countP (fun r => r ≤ U) : ℚ)
      ≤ max 0 (b.tokens + c.limit * (U - b.last / 1000000000)) := by
  have hl : 0 < c.limit := not_le.1 hc.1
  induction nows with
  | nil => intro b _; simp [readyTimes, bucketWaits]
  | cons n ns ih =>
    intro b hp
    rw [List.pairwise_cons] at hp
    have hn : b.last ≤ n := hp.1 n (by simp)
    have ih := ih (bucketWhen c b n).1 hp.2
    have hw := when_le c hc b n hn
    have hr := ready_eq c hc b n
    have hlast : (bucketWhen c b n).1.last = n := rfl
    rw [hlast] at ih
    simp only [readyTimes, bucketWaits, List.zipWith_cons_cons, List.countP_cons] at ih ⊢
    have h1 := le_max_right (0 : ℚ) (b.tokens + c.limit * (U - b.last / 1000000000))
    have h0 := le_max_left (0 : ℚ) (b.tokens + c.limit * (U - b.last / 1000000000))
    have hle : (bucketWhen c b n).1.tokens + c.limit * (U - n / 1000000000)
        ≤ b.tokens + c.limit * (U - b.last / 1000000000) - 1 := by
      have : c.limit * (U - n / 1000000000) + c.limit * (n / 1000000000 - b.last / 1000000000)
          = c.limit * (U - b.last / 1000000000) := by ring
      linarith
    by_cases hU : n / 1000000000 + (bucketWhen c b n).2 ≤ U
    · simp only [hU, decide_true, if_true, Nat.cast_add, Nat.cast_one]
      have hpos : 0 ≤ (bucketWhen c b n).1.tokens + c.limit * (U - n / 1000000000) := by
        rcases hr with ⟨ha, hb⟩ | ⟨ha, hb⟩
        · rw [hb] at hU
          have : 0 ≤ c.limit * (U - n / 1000000000) := mul_nonneg hl.le (by linarith)
          linarith
        · have : 0 ≤ c.limit * (U - n / 1000000000 - (bucketWhen c b n).2) :=
            mul_nonneg hl.le (by linarith)
          have e : c.limit * (U - n / 1000000000 - (bucketWhen c b n).2)
            = c.limit * (U - n / 1000000000) - c.limit * (bucketWhen c b n).2 := by ring
          linarith
      rw [max_eq_right hpos] at ih
      linarith
    · simp only [hU, decide_false, Bool.false_eq_true, if_false, Nat.add_zero]
      refine ih.trans (max_le h0 ?_)
      linarith

/-- **C09.** With a clock that does not run backwards, among any calls of `when` on a new
bucket, the number of those whose ready time falls in any window `[t, t + T]` is at most
`burst + limit * T`. -/
theorem C09_window_bound (c : BucketCfg) (hc : c.valid) (nows : List ℚ)
    (hmono : nows.Pairwise (· ≤ ·)) (t T : ℚ) (hT : 0 ≤ T) :
    ((readyTimes nows (bucketWaits c bucketInit nows)).countP (fun r => t ≤ r ∧ r ≤ t + T) : ℚ)
      ≤ c.burst + c.limit * T := by
  have hl : 0 < c.limit := not_le.1 hc.1
  have hb : 1 ≤ c.burst := not_lt.1 hc.2
  have hLT : 0 ≤ c.limit * T := mul_nonneg hl.le hT
  generalize bucketInit = b
  induction nows generalizing b with
  | nil => simp [readyTimes, bucketWaits]; linarith
  | cons n ns ih =>
    rw [List.pairwise_cons] at hmono
    have ih := ih hmono.2 (bucketWhen c b n).1
    have hlast : (bucketWhen c b n).1.last = n := rfl
    simp only [readyTimes, bucketWaits, List.zipWith_cons_cons, List.countP_cons] at ih ⊢
    by_cases hU : t ≤ n / 1000000000 + (bucketWhen c b n).2 ∧
        n / 1000000000 + (bucketWhen c b n).2 ≤ t + T
    · simp only [hU, and_self, decide_true, if_true, Nat.cast_add, Nat.cast_one]
      have hA := count_le c hc (t + T) ns (bucketWhen c b n).1
        (by rw [hlast]; exact List.pairwise_cons.2 hmono)
      rw [hlast] at hA
      simp only [readyTimes] at hA
      have hsub : ((List.zipWith (fun n w => n / 1000000000 + w) ns
          (bucketWaits c (bucketWhen c b n).1 ns)).countP (fun r => t ≤ r ∧ r ≤ t + T) : ℚ)
          ≤ ((List.zipWith (fun n w => n / 1000000000 + w) ns
          (bucketWaits c (bucketWhen c b n).1 ns)).countP (fun r => r ≤ t + T) : ℚ) := by
        exact_mod_cast List.countP_mono_left (by
          intro x _ hx
          simp only [decide_eq_true_eq] at hx ⊢
          exact hx.2)
      have htok : (bucketWhen c b n).1.tokens ≤ c.burst - 1 := by
        have := advance_le c b n
        simp only [bucketWhen]; linarith
      have hfin : max 0 ((bucketWhen c b n).1.tokens + c.limit * (t + T - n / 1000000000))
          ≤ c.burst - 1 + c.limit * T := by
        apply max_le (by linarith)
        rcases ready_eq c hc b n with ⟨h1, h2⟩ | ⟨h1, h2⟩
        · rw [h2] at hU
          have : 0 ≤ c.limit * (n / 1000000000 - t) := mul_nonneg hl.le (by linarith [hU.1])
          have e : c.limit * (t + T - n / 1000000000)
              = c.limit * T - c.limit * (n / 1000000000 - t) := by ring
          linarith
        · have : 0 ≤ c.limit * (n / 1000000000 + (bucketWhen c b n).2 - t) :=
            mul_nonneg hl.le (by linarith [hU.1])
          have e : c.limit * (n / 1000000000 + (bucketWhen c b n).2 - t)
            = c.limit * T + c.limit * (bucketWhen c b n).2
              - c.limit * (t + T - n / 1000000000) := by ring
          linarith
      linarith
    · simp only [hU, decide_false, Bool.false_eq_true, if_false, Nat.add_zero]
      exact ih

/-- non-vacuity: limit 10 per second, burst 2, four calls at the same time -/
example : (⟨10, 2⟩ : BucketCfg).valid ∧
    readyTimes [1000000000, 1000000000, 1000000000, 1000000000]
      (bucketWaits ⟨10, 2⟩ bucketInit [1000000000, 1000000000, 1000000000, 1000000000])
    = [1, 1, 11/10, 12/10] := by
  constructor
  · constructor <;> norm_num
  · norm_num [readyTimes, bucketWaits, bucketWhen, advance, bucketInit]

/-- **C10.** Delays are never negative and the balance never exceeds `burst` (after a call it is
at most `burst - 1`), whatever the clock does. -/
theorem C10_bounds (c : BucketCfg) (hc : c.valid) (nows : List ℚ) (now : ℚ) :
    0 ≤ (bucketWhen c (bucketExec c bucketInit nows) now).2 ∧
    (bucketWhen c (bucketExec c bucketInit nows) now).1.tokens ≤ c.burst - 1 := by
  constructor
  · have hl : 0 < c.limit := not_le.1 hc.1
    rcases ready_eq c hc (bucketExec c bucketInit nows) now with ⟨-, h⟩ | ⟨h1, h2⟩
    · rw [h]
    · have : 0 < c.limit * (bucketWhen c (bucketExec c bucketInit nows) now).2 := by
        rw [h2]; linarith
      exact (pos_of_mul_pos_right this hl.le).le
  · have := advance_le c (bucketExec c bucketInit nows) now
    simp only [bucketWhen]; linarith

/-- **C10.** With a clock that does not run backwards, a reservation is delayed until exactly
the moment at which an ideal bucket that was charged by the same calls has paid back its
deficit. -/
theorem C10_exact_delay (c : BucketCfg) (hc : c.valid) (nows : List ℚ) (now : ℚ)
    (hmono : ((0 : ℚ) :: (nows ++ [now])).Pairwise (· ≤ ·)) :
    ((nows ++ [now]).foldl (fun b n => b.take c.limit c.burst (n / 1000000000))
      (⟨0, 0⟩ : IdealBucket)).ReadyAt c.limit
      (now / 1000000000 + (bucketWhen c (bucketExec c bucketInit nows) now).2) := by
  have hl : 0 < c.limit := not_le.1 hc.1
  have key : ∀ (ns : List ℚ) (b : Bucket) (i : IdealBucket),
      i.level = b.tokens → i.at_ = b.last / 1000000000 → (b.last :: ns).Pairwise (· ≤ ·) →
      (ns.foldl (fun b n => b.take c.limit c.burst (n / 1000000000)) i).level
        = (bucketExec c b ns).tokens ∧
      (ns.foldl (fun b n => b.take c.limit c.burst (n / 1000000000)) i).at_
        = (bucketExec c b ns).last / 1000000000 := by
    intro ns
    induction ns with
    | nil => intro b i h1 h2 _; exact ⟨h1, h2⟩
    | cons n ns ih =>
      intro b i h1 h2 hp
      rw [List.pairwise_cons] at hp
      refine ih (bucketWhen c b n).1 _ ?_ ?_ hp.2
      · simp only [IdealBucket.take, IdealBucket.levelAt, bucketWhen,
          advance_eq c hc b n (hp.1 n (by simp)), h1, h2]
      · rfl
  have hex : ∀ (b : Bucket) (ns : List ℚ), bucketExec c b (ns ++ [now])
      = (bucketWhen c (bucketExec c b ns) now).1 := by
    intro b ns
    induction ns generalizing b with
    | nil => rfl
    | cons n ns ih => exact ih _
  obtain ⟨h1, h2⟩ := key (nows ++ [now]) bucketInit ⟨0, 0⟩ rfl (by simp [bucketInit]) hmono
  rw [hex] at h1 h2
  have hlast : (bucketWhen c (bucketExec c bucketInit nows) now).1.last = now := rfl
  rw [hlast] at h2
  simp only [IdealBucket.ReadyAt, h1, h2]
  rcases ready_eq c hc (bucketExec c bucketInit nows) now with ⟨ha, hb⟩ | ⟨ha, hb⟩
  · rw [hb]
    refine ⟨⟨by linarith, ?_⟩, ?_⟩
    · have : now / 1000000000 + 0 - now / 1000000000 = 0 := by ring
      rw [this]; linarith
    · intro u hu _; linarith
  · have hpos := (C10_bounds c hc nows now).1
    refine ⟨⟨by linarith, ?_⟩, ?_⟩
    · have : now / 1000000000 + (bucketWhen c (bucketExec c bucketInit nows) now).2
        - now / 1000000000 = (bucketWhen c (bucketExec c bucketInit nows) now).2 := by ring
      rw [this, hb]; linarith
    · intro u hu h0
      have : 0 ≤ c.limit * (u - now / 1000000000
          - (bucketWhen c (bucketExec c bucketInit nows) now).2) := by
        have e : c.limit * (u - now / 1000000000
          - (bucketWhen c (bucketExec c bucketInit nows) now).2)
          = c.limit * (u - now / 1000000000)
            - c.limit * (bucketWhen c (bucketExec c bucketInit nows) now).2 := by ring
        rw [e, hb]; linarith
      have := nonneg_of_mul_nonneg_right this hl
      linarith

example : ((0 : ℚ) :: ([1000000000, 2000000000] ++ [2000000000])).Pairwise (· ≤ ·) := by
  norm_num

/-- **C10.** A clock that is set back does not cost tokens: the next call waits at most one token's time
longer than the last one (exactly that, if the last one had to wait). -/
theorem C10_backwards (c : BucketCfg) (hc : c.valid) (nows : List ℚ) (prev now : ℚ) (h : now ≤ prev) :
    let r := bucketWhen c (bucketExec c bucketInit nows) prev
    (bucketWhen c r.1 now).2 ≤ r.2 + 1 / c.limit ∧
    (0 < r.2 → (bucketWhen c r.1 now).2 = r.2 + 1 / c.limit) := by
  intro r
  have hl : 0 < c.limit := not_le.1 hc.1
  have ht : r.1.tokens ≤ c.burst - 1 := (C10_bounds c hc nows prev).2
  have hlast : r.1.last = prev := rfl
  have hw : r.2 = if r.1.tokens < 0 then -r.1.tokens / c.limit else 0 := rfl
  have hadv : advance c r.1 now = r.1.tokens := by
    have hm : 0 ≤ 1000000000 * (c.burst - r.1.tokens) / c.limit := by
      apply div_nonneg _ hl.le
      linarith
    have he : min (now - min r.1.last now) (1000000000 * (c.burst - r.1.tokens) / c.limit) = 0 := by
      rw [hlast, min_eq_right h, sub_self, min_eq_left hm]
    simp only [advance, he]
    rw [zero_mul, zero_div, add_zero, min_eq_left (by linarith)]
  have hw2 : (bucketWhen c r.1 now).2 =
      if r.1.tokens - 1 < 0 then -(r.1.tokens - 1) / c.limit else 0 := by
    simp only [bucketWhen, hadv]
  have hdiv : ∀ a : ℚ, -(a - 1) / c.limit = -a / c.limit + 1 / c.limit := by
    intro a
    rw [← add_div]
    congr 1
    ring
  rw [hw2, hw]
  by_cases h0 : r.1.tokens < 0
  · have h1 : r.1.tokens - 1 < 0 := by linarith
    rw [if_pos h0, if_pos h1, hdiv]
    exact ⟨le_refl _, fun _ => rfl⟩
  · rw [if_neg h0]
    refine ⟨?_, fun h => absurd h (lt_irrefl _)⟩
    have hpos : 0 < 1 / c.limit := one_div_pos.2 hl
    split
    · rw [hdiv]
      have : -r.1.tokens / c.limit ≤ 0 := div_nonpos_of_nonpos_of_nonneg (by linarith) hl.le
      linarith
    · linarith

-- two calls at 5 s, then one at 1 s after the clock was set back
example : (⟨10, 2⟩ : BucketCfg).valid ∧ bucketWaits ⟨10, 2⟩ bucketInit [5000000000, 5000000000, 5000000000, 1000000000]
    = [0, 0, 1 / 10, 2 / 10] := by
  constructor
  · constructor <;> norm_num
  · norm_num [bucketWaits, bucketWhen, advance, bucketInit]

/-- **C10.** After a pause long enough to fill the bucket, up to `burst` calls need no wait. -/
theorem C10_full_burst_free (c : BucketCfg) (hc : c.valid) (before nows : List ℚ) (start : ℚ)
    (hfull : (bucketExec c bucketInit before).last ≤ start ∧
      c.burst ≤ (bucketExec c bucketInit before).tokens + c.limit *
        (start / 1000000000 - (bucketExec c bucketInit before).last / 1000000000))
    (hmono : (start :: nows).Pairwise (· ≤ ·)) (hlen : (nows.length : ℚ) + 1 ≤ c.burst) :
    ∀ w ∈ bucketWaits c (bucketExec c bucketInit before) (start :: nows), w = 0 := by
  have hl : 0 < c.limit := not_le.1 hc.1
  generalize bucketExec c bucketInit before = b at *
  have key : ∀ (ns : List ℚ) (b : Bucket), (b.last :: ns).Pairwise (· ≤ ·) →
      (ns.length : ℚ) ≤ b.tokens → b.tokens ≤ c.burst → ∀ w ∈ bucketWaits c b ns, w = 0 := by
    intro ns
    induction ns with
    | nil => intro b _ _ _ w hw; simp [bucketWaits] at hw
    | cons n ns ih =>
      intro b hp hlen hb w hw
      rw [List.pairwise_cons] at hp
      have hn : b.last ≤ n := hp.1 n (by simp)
      have hge : b.tokens - 1 ≤ (bucketWhen c b n).1.tokens := by
        simp only [bucketWhen, advance_eq c hc b n hn]
        have : 0 ≤ c.limit * (n / 1000000000 - b.last / 1000000000) :=
          mul_nonneg hl.le (by linarith)
        have := le_min hb (show b.tokens ≤ b.tokens
          + c.limit * (n / 1000000000 - b.last / 1000000000) by linarith)
        linarith
      simp only [List.length_cons, Nat.cast_add, Nat.cast_one] at hlen
      simp only [bucketWaits, List.mem_cons] at hw
      have hns : (0 : ℚ) ≤ ns.length := Nat.cast_nonneg _
      rcases hw with rfl | hw
      · rcases ready_eq c hc b n with ⟨-, h⟩ | ⟨h, -⟩
        · exact h
        · exfalso; linarith
      · refine ih _ hp.2 (by linarith) ?_ w hw
        have := advance_le c b n
        simp only [bucketWhen]; linarith
  intro w hw
  have htok : (bucketWhen c b start).1.tokens = c.burst - 1 := by
    simp only [bucketWhen, advance_eq c hc b start hfull.1]
    rw [min_eq_left hfull.2]
  simp only [bucketWaits, List.mem_cons] at hw
  have hns : (0 : ℚ) ≤ nows.length := Nat.cast_nonneg _
  rcases hw with rfl | hw
  · rcases ready_eq c hc b start with ⟨-, h⟩ | ⟨h, -⟩
    · exact h
    · exfalso; linarith
  · exact key nows _ hmono (by linarith) (by linarith) w hw

/-- non-vacuity: the default bucket (10 per second, burst 100) on its first use at any
realistic clock reading (here 1.7e18 ns) -/
example : (bucketExec ⟨10, 100⟩ bucketInit []).last ≤ 1700000000000000000 ∧
    (100 : ℚ) ≤ (bucketExec ⟨10, 100⟩ bucketInit []).tokens + 10 *
        (1700000000000000000 / 1000000000 - (bucketExec ⟨10, 100⟩ bucketInit []).last / 1000000000)
    := by norm_num [bucketExec, bucketInit]

/-! ## Combination -/
variable {σ ε : Type}

private theorem pyMax_isMax {β : Type} [LinearOrder β] (d : β) (ds : List β) :
    ∃ m, pyMax (d :: ds) = some m ∧ IsMax m (d :: ds) := by
  refine ⟨_, rfl, ?_⟩
  induction ds generalizing d with
  | nil => simp [IsMax]
  | cons e ds ih =>
    obtain ⟨h1, h2⟩ := ih (if d < e then e else d)
    simp only [List.foldl_cons]
    constructor
    · rcases List.mem_cons.1 h1 with h | h
      · rw [h]; split <;> simp
      · simp [h]
    · intro a ha
      simp only [List.mem_cons] at ha h2
      rcases ha with rfl | rfl | ha
      · refine le_trans ?_ (h2 _ (Or.inl rfl))
        split
        · exact le_of_lt (by assumption)
        · exact le_refl _
      · refine le_trans ?_ (h2 _ (Or.inl rfl))
        split
        · exact le_refl _
        · exact not_lt.1 (by assumption)
      · exact h2 a (Or.inr ha)

private theorem callParts_ok (I : Iface σ α ε) (env : ε) (x : α) (ss : List σ) (ds : List ℚ)
    (h : ss.map (fun s => (I.when s x env).2) = ds.map Res.delay) :
    callParts I env x ss = (ss.map (fun s => (I.when s x env).1), .ok ds) := by
  induction ss generalizing ds with
  | nil =>
    cases ds with
    | nil => rfl
    | cons d ds => simp at h
  | cons s ss ih =>
    cases ds with
    | nil => simp at h
    | cons d ds =>
      simp only [List.map_cons, List.cons.injEq] at h
      simp only [callParts, h.1, ih ds h.2, List.map_cons]
      rfl

/-- **C11.** If every part returns a delay, the combination returns the largest of them and
every part has been charged exactly once (its state is the one its own `when` leaves). -/
theorem C11_when_is_max (I : Iface σ α ε) (ss : List σ) (x : α) (env : ε) (ds : List ℚ)
    (hne : ss ≠ []) (h : ss.map (fun s => (I.when s x env).2) = ds.map Res.delay) :
    ∃ d, (maxWhen I ss x env).2 = .delay d ∧ IsMax d ds ∧
      (maxWhen I ss x env).1 = ss.map (fun s => (I.when s x env).1) := by
  cases ds with
  | nil => simp at h; exact absurd h hne
  | cons d ds =>
    obtain ⟨m, hm, hmax⟩ := pyMax_isMax d ds
    refine ⟨m, ?_, hmax, ?_⟩ <;> simp only [maxWhen, callParts_ok I env x ss _ h, hm]

/-- **C11.** If a part raises, the combination raises the same exception; the parts before it
and the part itself were charged, the parts after it were not. -/
theorem C11_exception_stops (I : Iface σ α ε) (pre : List σ) (s : σ) (post : List σ)
    (x : α) (env : ε) (ds : List ℚ)
    (hpre : pre.map (fun s => (I.when s x env).2) = ds.map Res.delay)
    (hs : ∀ d, (I.when s x env).2 ≠ .delay d) :
    maxWhen I (pre ++ s :: post) x env
      = (pre.map (fun s => (I.when s x env).1) ++ (I.when s x env).1 :: post,
         (I.when s x env).2) := by
  have key : callParts I env x (pre ++ s :: post)
      = (pre.map (fun s => (I.when s x env).1) ++ (I.when s x env).1 :: post,
         .error (I.when s x env).2) := by
    induction pre generalizing ds with
    | nil =>
      have hs' : ∀ d, (I.when s x env).2 = .delay d → False := hs
      simp only [List.nil_append, callParts, List.map_nil]
    | cons p pre ih =>
      cases ds with
      | nil => simp at hpre
      | cons d ds =>
        simp only [List.map_cons, List.cons.injEq] at hpre
        simp only [List.cons_append, callParts, hpre.1, ih ds hpre.2, List.map_cons]
        rfl
  simp only [maxWhen, key]

/-- **C11.** `forget` reaches every part. -/
theorem C11_forget_all (I : Iface σ α ε) (ss : List σ) (x : α) (i : Nat) :
    (maxForget I ss x)[i]? = (ss[i]?).map (I.forget · x) := by
  simp [maxForget]

/-- **C11.** `num_requeues` is the largest of the parts' values. -/
theorem C11_num_requeues_is_max (I : Iface σ α ε) (ss : List σ) (x : α) (hne : ss ≠ []) :
    ∃ n, maxNumRequeues I ss x = some n ∧ IsMax n (ss.map (I.numRequeues · x)) := by
  cases ss with
  | nil => exact absurd rfl hne
  | cons s ss => exact pyMax_isMax _ _

/-- **C11.** Over any history: if parts never raise, each part is in the state it would be in
had the same calls been made on it alone. -/
theorem C11_parts_independent (I : Iface σ α ε) (ss : List σ) (os : List (LimOp α ε))
    (htotal : ∀ s x env, ∃ d, (I.when s x env).2 = .delay d) :
    partsExec I ss os = ss.map (partExec I · os) := by
  induction os generalizing ss with
  | nil => simp [partsExec, partExec]
  | cons o os ih =>
    simp only [partsExec]
    rw [ih]
    cases o with
    | forget x => simp [partsStep, maxForget, partExec]
    | «when» x env =>
      choose f hf using htotal
      have h : ss.map (fun s => (I.when s x env).2)
          = (ss.map (fun s => f s x env)).map Res.delay := by
        simp [hf]
      have e : (maxWhen I ss x env).1 = ss.map (fun s => (I.when s x env).1) := by
        simp only [maxWhen, callParts_ok I env x ss _ h]
        split <;> simp
      simp [partsStep, e, partExec]

/-- non-vacuity: the default limiter at its first call -/
example : (defaultParts : List (Part Nat)) ≠ [] ∧
    (defaultParts : List (Part Nat)).map (fun s => (partIface.when s 7 1700000000000000000).2)
      = [5 / 1000, 0].map Res.delay := by
  constructor
  · simp [defaultParts]
  · norm_num [defaultParts, partIface, expWhen, failures, mulPow, bucketWhen, advance, bucketInit]

/-- **C08 is false** of the default controller limiter: after 1024 calls of `when(x)` (at any
times, mixed with any calls about other items) it raises `OverflowError` for `x`. -/
theorem C08_refuted_default_limiter (os : List (LimOp α ℚ)) (x : α) (now : ℚ)
    (h : 1024 ≤ recentFailures' x os 0) :
    (maxWhen partIface (partsExec partIface defaultParts os) x now).2 = .overflow := by
  have key : ∀ (os : List (LimOp α ℚ)) (f : Failures α) (b : Bucket), f.WF →
      ∃ f' b', partsExec partIface [.exp ⟨5 / 1000, 1000, true⟩ f, .bucket ⟨10, 100⟩ b] os
        = [.exp ⟨5 / 1000, 1000, true⟩ f', .bucket ⟨10, 100⟩ b'] ∧
        failures f' x = recentFailures' x os (failures f x) := by
    intro os
    induction os with
    | nil => intro f b _; exact ⟨f, b, rfl, rfl⟩
    | cons o os ih =>
      intro f b hw
      cases o with
      | forget y =>
        obtain ⟨f', b', h1, h2⟩ := ih (expForget f y) b (PyDict.WF_del hw _)
        refine ⟨f', b', h1, ?_⟩
        rw [h2, recentFailures']
        simp only [expForget, failures, PyDict.get?_del hw]
        by_cases hy : y = x <;> simp [hy]
      | «when» y now =>
        have hstep : ∃ b'', partsStep partIface
            [.exp ⟨5 / 1000, 1000, true⟩ f, .bucket ⟨10, 100⟩ b] (.when y now)
            = [.exp ⟨5 / 1000, 1000, true⟩ (f.set y (failures f y + 1)), .bucket ⟨10, 100⟩ b''] := by
          simp only [partsStep, maxWhen, callParts, partIface, expWhen]
          cases mulPow ⟨5 / 1000, 1000, true⟩ (failures f y) with
          | none => exact ⟨b, rfl⟩
          | some v => exact ⟨_, rfl⟩
        obtain ⟨b'', hb⟩ := hstep
        obtain ⟨f', b', h1, h2⟩ := ih (f.set y (failures f y + 1)) b'' (PyDict.WF_set hw _ _)
        refine ⟨f', b', ?_, ?_⟩
        · simp only [partsExec, hb, h1]
        · rw [h2, recentFailures']
          simp only [failures, PyDict.get?_set]
          by_cases hy : y = x
          · subst hy; simp
          · simp [hy]
  obtain ⟨f', b', h1, h2⟩ := key os [] bucketInit PyDict.WF_nil
  have e : (defaultParts : List (Part α))
      = [.exp ⟨5 / 1000, 1000, true⟩ [], .bucket ⟨10, 100⟩ bucketInit] := rfl
  rw [e, h1]
  have h3 : failures ([] : Failures α) x = 0 := rfl
  rw [h3] at h2
  have hm : mulPow ⟨5 / 1000, 1000, true⟩ (failures f' x) = none := by
    rw [h2, mulPow, if_pos]
    simpa using h
  simp only [maxWhen, callParts, partIface, expWhen, hm]

/-- the hypothesis is met by 1024 failures in a row -/
theorem C08_refuted_default_limiter_reachable (x : α) (now : ℚ) :
    recentFailures' x (List.replicate 1024 (LimOp.when x now)) 0 = 1024 := by
  have : ∀ n m, recentFailures' x (List.replicate n (LimOp.when x now)) m = m + n := by
    intro n
    induction n with
    | zero => intro m; rfl
    | succ n ih => intro m; simp [List.replicate_succ, recentFailures', ih]; omega
  exact (this 1024 0).trans (Nat.zero_add _)

private theorem recentFailures'_append {ε : Type} (x : α) (os os' : List (LimOp α ε)) : ∀ n,
    recentFailures' x (os ++ os') n = recentFailures' x os' (recentFailures' x os n) := by
  induction os with
  | nil => intro n; rfl
  | cons o os ih =>
    intro n
    cases o <;> simp [recentFailures', ih]

private theorem default_state : ∀ (os before : List (LimOp α ℚ)) (f : Failures α) (b : Bucket), f.WF →
    (∀ y, failures f y = recentFailures' y before 0) →
    ∃ f', partsExec partIface [.exp ⟨5 / 1000, 1000, true⟩ f, .bucket ⟨10, 100⟩ b] os
        = [.exp ⟨5 / 1000, 1000, true⟩ f', .bucket ⟨10, 100⟩ (bucketExec ⟨10, 100⟩ b (charged before os))] ∧
      ∀ y, failures f' y = recentFailures' y (before ++ os) 0 := by
  intro os
  induction os with
  | nil => intro before f b _ h; exact ⟨f, rfl, by simpa using h⟩
  | cons o os ih =>
    intro before f b hw h
    cases o with
    | forget y =>
      obtain ⟨f', h1, h2⟩ := ih (before ++ [.forget y]) (expForget f y) b (PyDict.WF_del hw _) (by
        intro z
        rw [recentFailures'_append, ← h z]
        simp only [expForget, failures, PyDict.get?_del hw, recentFailures']
        by_cases hy : y = z <;> simp [hy])
      exact ⟨f', h1, by simpa using h2⟩
    | «when» y now =>
      have hset : ∀ z, failures (f.set y (failures f y + 1)) z
          = recentFailures' z (before ++ [.when y now]) 0 := by
        intro z
        rw [recentFailures'_append, ← h z]
        simp only [failures, PyDict.get?_set, recentFailures']
        by_cases hy : y = z
        · subst hy; simp
        · simp [hy]
      by_cases hlt : recentFailures' y before 0 < 1024
      · obtain ⟨f', h1, h2⟩ := ih (before ++ [.when y now]) (f.set y (failures f y + 1))
          (bucketWhen ⟨10, 100⟩ b now).1 (PyDict.WF_set hw _ _) hset
        refine ⟨f', ?_, by simpa using h2⟩
        have hm : mulPow ⟨5 / 1000, 1000, true⟩ (failures f y) = some (5 / 1000 * 2 ^ failures f y) := by
          rw [mulPow, if_neg]
          simpa [h y] using hlt
        simp only [charged, hlt, if_true, bucketExec]
        rw [← h1, partsExec]
        simp [partsStep, maxWhen, callParts, partIface, expWhen, hm, Except.map, pyMax]
      · obtain ⟨f', h1, h2⟩ := ih (before ++ [.when y now]) (f.set y (failures f y + 1)) b
          (PyDict.WF_set hw _ _) hset
        refine ⟨f', ?_, by simpa using h2⟩
        have hm : mulPow ⟨5 / 1000, 1000, true⟩ (failures f y) = none := by
          rw [mulPow, if_pos]
          simpa [h y] using hlt
        simp only [charged, hlt, if_false]
        rw [← h1, partsExec]
        simp [partsStep, maxWhen, callParts, partIface, expWhen, hm]

/-- **C11.** The default controller limiter, after any history of calls: `num_requeues(x)` is the number of
`when(x)` since the last `forget(x)`. -/
theorem C11_default_num_requeues (os : List (LimOp α ℚ)) (x : α) :
    maxNumRequeues partIface (partsExec partIface defaultParts os) x = some (recentFailures' x os 0) := by
  obtain ⟨f', h1, h2⟩ := default_state os [] [] bucketInit PyDict.WF_nil (fun _ => rfl)
  rw [show (defaultParts : List (Part α)) = [.exp ⟨5 / 1000, 1000, true⟩ [], .bucket ⟨10, 100⟩ bucketInit] from rfl, h1]
  simpa [maxNumRequeues, partIface, pyMax, expNumRequeues] using h2 x

/-- **C11.** The default controller limiter, after any history of calls: `when(x)` returns the larger of
5 ms doubled for each `when(x)` since the last `forget(x)`, at most 1000 s, and the wait of a bucket of 100
refilled at 10 per second from which all items draw; from the 1025th on it raises. -/
theorem C11_default_when (os : List (LimOp α ℚ)) (x : α) (now : ℚ) :
    (maxWhen partIface (partsExec partIface defaultParts os) x now).2 =
      if recentFailures' x os 0 < 1024 then
        .delay (max (min (5 / 1000 * 2 ^ recentFailures' x os 0) 1000)
          (bucketWhen ⟨10, 100⟩ (bucketExec ⟨10, 100⟩ bucketInit (charged [] os)) now).2)
      else .overflow := by
  obtain ⟨f', h1, h2⟩ := default_state os [] [] bucketInit PyDict.WF_nil (fun _ => rfl)
  rw [show (defaultParts : List (Part α)) = [.exp ⟨5 / 1000, 1000, true⟩ [], .bucket ⟨10, 100⟩ bucketInit] from rfl, h1]
  have h3 := h2 x
  simp only [List.nil_append] at h3
  by_cases hlt : recentFailures' x os 0 < 1024
  · have hm : mulPow ⟨5 / 1000, 1000, true⟩ (failures f' x) = some (5 / 1000 * 2 ^ recentFailures' x os 0) := by
      rw [mulPow, if_neg, h3]
      simpa [h3] using hlt
    simp only [hlt, if_true]
    simp [maxWhen, callParts, partIface, expWhen, hm, Except.map, pyMax, max_def_lt]
  · have hm : mulPow ⟨5 / 1000, 1000, true⟩ (failures f' x) = none := by
      rw [mulPow, if_pos]
      simpa [h3] using hlt
    simp [maxWhen, callParts, partIface, expWhen, hm, hlt]

/-- non-vacuity: two failures of 7, a forgotten 8 -/
example : recentFailures' 7 [LimOp.when 7 (10 ^ 18 : ℚ), .when 8 (10 ^ 18), .when 7 (10 ^ 18), .forget 8] 0 = 2 ∧
    recentFailures' 8 [LimOp.when 7 (10 ^ 18 : ℚ), .when 8 (10 ^ 18), .when 7 (10 ^ 18), .forget 8] 0 = 0 ∧
    charged [] [LimOp.when 7 (10 ^ 18 : ℚ), .when 8 (10 ^ 18), .when 7 (10 ^ 18), .forget 8]
      = [10 ^ 18, 10 ^ 18, 10 ^ 18] := by
  refine ⟨by decide, by decide, ?_⟩
  simp [charged, recentFailures']

end Aiok8s.RateLimiters
