import Verif.Proof.Wait
/-!
# C49, C50: back-off
-/
set_option linter.unusedSimpArgs false
namespace Aiok8s.Wait
open Spec

/-- C49: for every number `n ≥ 0` of steps `exponential_backoff` ends; it calls the condition at most
`n` times, and not again after a call that did not answer `False`; it returns if and because the last
call answered `True`, passes on what the condition (or a cancelled sleep) raises, and otherwise raises
`WaitTimeoutError`, all calls having answered `False`. -/
theorem C49_bounded {E : Type} (env : Env E) (heap : List Backoff) (ref : Nat) (b : Backoff) (n : Nat)
    (hb : heap[ref]? = some b) (hn : b.steps = n) :
    ∃ r, (∀ fuel, n < fuel → exponentialBackoff env fuel ref heap = some r) ∧
      r.calls ≤ n ∧
      (∀ i, i + 1 < r.calls → env.cond i = .ret false) ∧
      match r.outcome with
      | .returned => 1 ≤ r.calls ∧ env.cond (r.calls - 1) = .ret true
      | .raised e => 1 ≤ r.calls ∧ (env.cond (r.calls - 1) = .raise e ∨
          env.cond (r.calls - 1) = .ret false ∧ env.sleep (r.calls - 1) = some e)
      | .timeout => ∀ i, i < r.calls → env.cond i = .ret false := by
  obtain ⟨r, hr, F⟩ := loop_fine env n (n + 1) 0 [] heap b hn (by omega)
  refine ⟨r, ?_, by simpa using F.upper, fun i hi => (F.earlier i (by omega) hi).1, ?_⟩
  · intro fuel hf
    unfold exponentialBackoff
    simp only [hb]
    exact loop_le env _ _ _ _ _ _ _ hr hf
  · cases ho : r.outcome with
    | returned =>
      obtain ⟨h1, h2⟩ := F.returned ho
      exact ⟨h1, h2⟩
    | raised e =>
      obtain ⟨h1, h2⟩ := F.raised e ho
      exact ⟨h1, h2⟩
    | timeout => exact fun i hi => F.timeout ho i (by omega) hi

/-- C49: no `Backoff` object the caller can know of is changed. -/
theorem C49_unchanged {E : Type} (env : Env E) (heap : List Backoff) (ref fuel : Nat) (r : Run E)
    (b : Backoff) (n : Nat) (hb : heap[ref]? = some b) (hn : b.steps = n) (hf : n < fuel)
    (h : exponentialBackoff env fuel ref heap = some r) (i : Nat) (hi : i < heap.length) :
    r.heap[i]? = heap[i]? := by
  obtain ⟨r', hr, F⟩ := loop_fine env n fuel 0 [] heap b hn hf
  unfold exponentialBackoff at h
  simp only [hb] at h
  rw [hr] at h
  cases h
  have := congrArg (fun l => l[i]?) F.heap
  simp only [List.getElem?_take, if_pos hi] at this
  exact this

/-- C49: when it times out without the cap having been met it has used all its calls; so if one of the
first `n` answers is `True` (or an exception) it is not missed. -/
theorem C49_all_calls {E : Type} (env : Env E) (heap : List Backoff) (ref fuel : Nat) (r : Run E)
    (b : Backoff) (n : Nat) (hb : heap[ref]? = some b) (hn : b.steps = n)
    (hcap : b.factor = 0 ∨ b.cap = 0 ∨ ∀ j, 1 ≤ j → j < n → b.duration * b.factor ^ j ≤ b.cap)
    (h : exponentialBackoff env fuel ref heap = some r) (ho : r.outcome = .timeout) :
    r.calls = n := by
  unfold exponentialBackoff at h
  simp only [hb] at h
  have hle : r.calls ≤ n := by
    obtain ⟨r', hr, F⟩ := loop_fine env n (fuel + n + 1) 0 [] heap b hn (by omega)
    have := loop_le env _ _ (fuel + n + 1) _ _ _ _ h (by omega)
    rw [this] at hr
    cases hr
    simpa using F.upper
  obtain ⟨-, h2⟩ := loop_sleeps env b fuel 0 [] heap r rfl h
  have key : ∀ k, k < n → (after env.rnd b k).steps = (n : Int) - k := by
    intro k hk
    by_cases hf : b.factor = 0
    · rw [(after_zero_factor env.rnd b n hn hf k).2]
      omega
    · rw [(after_eq env.rnd b n hn hf k).2, if_neg]
      · omega
      · rintro ⟨c1, j, c2, c3⟩
        rcases hcap with hc | hc | hc
        · exact hf hc
        · exact c1 hc
        · exact absurd c3 (not_lt.2 (hc (j + 1) (by omega) (by omega)))
  by_contra hne
  have hlt : r.calls < n := by omega
  rcases h2 ho with h3 | ⟨h3, h4⟩
  · rw [key _ hlt] at h3
    omega
  · rw [key _ (by omega)] at h4
    omega

/-- C49: with the cap met the calls end early: with factor not 0, and `j` the first step at which the
cap is met, it times out after `j` calls. -/
theorem C49_cap {E : Type} (env : Env E) (heap : List Backoff) (ref fuel : Nat) (r : Run E)
    (b : Backoff) (n j : Nat) (hb : heap[ref]? = some b) (hn : b.steps = n) (hf : b.factor ≠ 0)
    (hc : b.cap ≠ 0) (hj : 1 ≤ j) (hjn : j < n) (hj1 : b.cap < b.duration * b.factor ^ j)
    (hj2 : ∀ i, 1 ≤ i → i < j → b.duration * b.factor ^ i ≤ b.cap)
    (h : exponentialBackoff env fuel ref heap = some r) (ho : r.outcome = .timeout) :
    r.calls = j := by
  unfold exponentialBackoff at h
  simp only [hb] at h
  obtain ⟨-, h2⟩ := loop_sleeps env b fuel 0 [] heap r rfl h
  have key : ∀ k, (after env.rnd b k).steps = if j ≤ k then 0 else (n : Int) - k := by
    intro k
    rw [(after_eq env.rnd b n hn hf k).2]
    by_cases hk : j ≤ k
    · rw [if_pos hk, if_pos]
      exact ⟨hc, j - 1, by omega, by rw [show j - 1 + 1 = j by omega]; exact hj1⟩
    · rw [if_neg hk, if_neg]
      · omega
      · rintro ⟨c1, i, c2, c3⟩
        exact absurd c3 (not_lt.2 (hj2 (i + 1) (by omega) (by omega)))
  -- not later: the loop ends as soon as the steps are used up
  have hle : ∀ (fuel k : Nat) (sl : List ℚ), k ≤ j →
      backoffLoop env heap.length fuel k sl (heap ++ [after env.rnd b k]) = some r →
      r.calls ≤ j := by
    intro fuel
    induction fuel with
    | zero => intro k sl _ h; simp [backoffLoop] at h
    | succ fuel ih =>
      intro k sl hk h
      have hget : ∀ x, (heap ++ [x])[heap.length]? = some x := by simp
      unfold backoffLoop at h
      simp only [hget] at h
      split at h
      · cases h; exact hk
      · rename_i h0
        have hkj : k < j := by
          rw [key] at h0
          by_contra hx
          exact h0 (if_pos (by omega))
        split at h
        · cases h; exact hkj
        · cases h; exact hkj
        · split at h
          · cases h; exact hkj
          · have hset : ∀ x y : Backoff, (heap ++ [x]).set heap.length y = heap ++ [y] := by
              intro x y; simp
            simp only [hset] at h
            split at h
            · cases h; exact hkj
            · exact ih (k + 1) _ hkj h
  have hcj := hle fuel 0 [] (by omega) h
  by_contra hne
  have hlt : r.calls < j := by omega
  rcases h2 ho with h3 | ⟨h3, h4⟩
  · rw [key, if_neg (by omega)] at h3
    omega
  · rw [key, if_neg (by omega)] at h4
    omega

/-- C49: between the calls it sleeps for what `step` returns (see C50). -/
theorem C49_sleeps {E : Type} (env : Env E) (heap : List Backoff) (ref fuel : Nat) (r : Run E)
    (b : Backoff) (hb : heap[ref]? = some b)
    (h : exponentialBackoff env fuel ref heap = some r) :
    ∃ m, r.sleeps = (List.range m).map (result env.rnd b) ∧ m ≤ r.calls ∧ r.calls ≤ m + 1 := by
  unfold exponentialBackoff at h
  simp only [hb] at h
  exact (loop_sleeps env b fuel 0 [] heap r rfl h).1

/-- Why C49 is about `n ≥ 0`: with a negative number of steps and a condition that is never met it
does not end. -/
theorem C49_negative {E : Type} (env : Env E) (heap : List Backoff) (ref fuel : Nat) (b : Backoff)
    (hb : heap[ref]? = some b) (hn : b.steps < 0) (hc : ∀ i, env.cond i = .ret false)
    (hs : ∀ i, env.sleep i = none) : exponentialBackoff env fuel ref heap = none := by
  unfold exponentialBackoff
  simp only [hb]
  exact loop_forever env fuel 0 [] heap b hn hc hs

/-- C50: the results of successive calls of `step` of an un-jittered back-off with a factor:
`duration * factor ^ k` up to the cap and up to the number of steps, then constant. -/
theorem C50_values (rnd : Nat → ℚ) (b : Backoff) (n : Nat) (hn : b.steps = n) (hf : b.factor ≠ 0)
    (hj : b.jitter = 0) (k : Nat) :
    result rnd b k = value b.duration b.factor b.cap n k := by
  have h := (after_eq rnd b n hn hf k).1
  have hj' := (after_fields rnd b k).2.1
  unfold result Backoff.step
  split <;> simp [hj', hj, h]

/-- C50: without a factor the duration never changes. -/
theorem C50_constant (rnd : Nat → ℚ) (b : Backoff) (n : Nat) (hn : b.steps = n) (hf : b.factor = 0)
    (hj : b.jitter = 0) (k : Nat) : result rnd b k = b.duration := by
  have h := (after_zero_factor rnd b n hn hf k).1
  have hj' := (after_fields rnd b k).2.1
  unfold result Backoff.step
  split <;> simp [hj', hj, h]

/-- C50: no un-jittered result but the first exceeds the cap. -/
theorem C50_cap (rnd : Nat → ℚ) (b : Backoff) (n : Nat) (hn : b.steps = n) (hn1 : 1 ≤ n)
    (hf : b.factor ≠ 0) (hj : b.jitter = 0) (hc : b.cap ≠ 0) (k : Nat) (hk : 1 ≤ k) :
    result rnd b k ≤ b.cap := by
  rw [C50_values rnd b n hn hf hj, value]
  split
  · exact le_rfl
  · rename_i h
    by_contra hx
    apply h
    refine ⟨hc, min k n - 1, by omega, ?_⟩
    rw [show min k n - 1 + 1 = min k n by omega]
    exact not_le.1 hx

/-- C50: with jitter each result is `jitter` of what it would be without. -/
theorem C50_jittered (rnd : Nat → ℚ) (b : Backoff) (n : Nat) (hn : b.steps = n) (hj : b.jitter ≠ 0)
    (k : Nat) :
    result rnd b k = jitter (result rnd { b with jitter := 0 } k) b.jitter (rnd k) := by
  have hj' := (after_fields rnd b k).2.1
  have hj0 := (after_fields rnd { b with jitter := 0 } k).2.1
  have hd : (after rnd b k).duration = (after rnd { b with jitter := 0 } k).duration := by
    by_cases hf : b.factor = 0
    · rw [(after_zero_factor rnd b n hn hf k).1,
        (after_zero_factor rnd { b with jitter := 0 } n hn hf k).1]
    · rw [(after_eq rnd b n hn hf k).1, (after_eq rnd { b with jitter := 0 } n hn hf k).1]
  have e1 : result rnd b k = jitter (after rnd b k).duration b.jitter (rnd k) := by
    unfold result Backoff.step
    split <;> simp [hj', hj]
  have e2 : result rnd { b with jitter := 0 } k = (after rnd { b with jitter := 0 } k).duration := by
    unfold result Backoff.step
    split <;> simp [hj0]
  rw [e1, e2, hd]

/-- C50: the range of `jitter`. -/
theorem C50_jitter {d f r : ℚ} (hd : 0 < d) (hf : 0 < f) (h0 : 0 ≤ r) (h1 : r < 1) :
    d ≤ jitter d f r ∧ jitter d f r < d + f * d := by
  unfold jitter
  simp only [if_neg (not_le.2 hf)]
  have hfd : 0 < f * d := mul_pos hf hd
  constructor
  · nlinarith [mul_nonneg h0 hfd.le]
  · nlinarith

/-- C50: a factor that is not positive counts as 1. -/
theorem C50_jitter_default {d f r : ℚ} (hd : 0 < d) (hf : f ≤ 0) (h0 : 0 ≤ r) (h1 : r < 1) :
    jitter d f r = jitter d 1 r ∧ d ≤ jitter d f r ∧ jitter d f r < 2 * d := by
  unfold jitter
  simp only [if_pos hf]
  refine ⟨by norm_num, ?_, ?_⟩ <;> nlinarith

/-- C50: every value in that range is possible. -/
theorem C50_jitter_onto {d f x : ℚ} (hd : 0 < d) (hf : 0 < f) (h0 : d ≤ x) (h1 : x < d + f * d) :
    ∃ r, 0 ≤ r ∧ r < 1 ∧ jitter d f r = x := by
  have hfd : 0 < f * d := mul_pos hf hd
  refine ⟨(x - d) / (f * d), div_nonneg (by linarith) hfd.le, ?_, ?_⟩
  · rw [div_lt_iff₀ hfd]
    linarith
  · unfold jitter
    simp only [if_neg (not_le.2 hf)]
    have : (x - d) / (f * d) * f * d = x - d := by
      rw [mul_assoc, div_mul_cancel₀ _ hfd.ne']
    rw [this]
    ring

/-- It does not sleep after the last call. -/
private theorem loop_few {E : Type} (env : Env E) : ∀ (fuel n k : Nat) (sl : List ℚ) (heap : List Backoff) (b : Backoff)
    (r : Run E), b.steps = n → backoffLoop env heap.length fuel k sl (heap ++ [b]) = some r →
    r.sleeps.length ≤ sl.length + (n - 1) := by
  intro fuel
  induction fuel with
  | zero => intro n k sl heap b r _ h; simp [backoffLoop] at h
  | succ fuel ih =>
    intro n k sl heap b r hn h
    have hget : ∀ x, (heap ++ [x])[heap.length]? = some x := by simp
    have hset : ∀ x y : Backoff, (heap ++ [x]).set heap.length y = heap ++ [y] := by simp
    unfold backoffLoop at h
    simp only [hget, hset] at h
    split at h
    · cases h; simp
    · rename_i hz
      split at h
      · cases h; simp
      · cases h; simp
      · split at h
        · cases h; simp
        · rename_i h1
          have hn2 : 2 ≤ n := by omega
          split at h
          · cases h; simp; omega
          · obtain ⟨n', hn', hle⟩ : ∃ n' : Nat, (b.step (env.rnd k)).1.steps = n' ∧ n' ≤ n - 1 := by
              unfold Backoff.step
              rw [if_neg (by omega)]
              simp only
              split
              · split
                · exact ⟨0, rfl, by omega⟩
                · exact ⟨n - 1, by simp only; omega, le_refl _⟩
              · exact ⟨n - 1, by simp only; omega, le_refl _⟩
            have := ih n' (k + 1) _ heap _ r hn' h
            simp only [List.length_append, List.length_singleton] at this
            omega

/-- C49: it sleeps at most once less often than the number of steps says. -/
theorem C49_few_sleeps {E : Type} (env : Env E) (heap : List Backoff) (ref fuel : Nat) (r : Run E) (b : Backoff)
    (n : Nat) (hb : heap[ref]? = some b) (hn : b.steps = n) (h : exponentialBackoff env fuel ref heap = some r) :
    r.sleeps.length ≤ n - 1 := by
  unfold exponentialBackoff at h
  simp only [hb] at h
  simpa using loop_few env fuel n 0 [] heap b r hn h

/-- C49, C50 for `default_retry`: the condition is called at most five times; between the calls it sleeps
for at least 10 and less than 11 ms; it times out exactly when all five answers are `False`, if no sleep is
cancelled. -/
theorem C49_default_retry {E : Type} (env : Env E) (heap : List Backoff) (ref : Nat)
    (hb : heap[ref]? = some defaultRetry) (h0 : ∀ i, 0 ≤ env.rnd i) (h1 : ∀ i, env.rnd i < 1) :
    ∃ r, (∀ fuel, 5 < fuel → exponentialBackoff env fuel ref heap = some r) ∧ r.calls ≤ 5 ∧
      (∀ d ∈ r.sleeps, 1 / 100 ≤ d ∧ d < 11 / 1000) ∧ r.sleeps.length ≤ 4 ∧
      (r.outcome = .timeout → r.calls = 5 ∧ ∀ i, i < 5 → env.cond i = .ret false) ∧
      ((∀ i, env.sleep i = none) → (∀ i, i < 5 → env.cond i = .ret false) → r.outcome = .timeout) := by
  obtain ⟨r, hr, hcalls, hearly, hout⟩ := C49_bounded env heap ref defaultRetry 5 hb rfl
  have h6 := hr 6 (by omega)
  obtain ⟨m, hm, hm1, -⟩ := C49_sleeps env heap ref 6 r defaultRetry hb h6
  refine ⟨r, hr, hcalls, ?_, ?_, ?_, ?_⟩
  · intro d hd
    rw [hm] at hd
    obtain ⟨k, -, rfl⟩ := List.mem_map.1 hd
    rw [C50_jittered env.rnd defaultRetry 5 rfl (by norm_num [defaultRetry]) k]
    rw [C50_values env.rnd { defaultRetry with jitter := 0 } 5 rfl (by norm_num [defaultRetry]) rfl k]
    have hv : value (defaultRetry.duration) (defaultRetry.factor) (defaultRetry.cap) 5 k = 1 / 100 := by
      rw [value, if_neg]
      · norm_num [defaultRetry]
      · rintro ⟨hc, -⟩; exact hc rfl
    show _ ≤ jitter (value defaultRetry.duration defaultRetry.factor defaultRetry.cap 5 k) _ _ ∧
      jitter (value defaultRetry.duration defaultRetry.factor defaultRetry.cap 5 k) _ _ < _
    rw [hv]
    have := C50_jitter (d := 1 / 100) (f := defaultRetry.jitter) (by norm_num) (by norm_num [defaultRetry])
      (h0 k) (h1 k)
    refine ⟨this.1, lt_of_lt_of_le this.2 (by norm_num [defaultRetry])⟩
  · exact C49_few_sleeps env heap ref 6 r defaultRetry 5 hb rfl h6
  · intro ho
    have hc := C49_all_calls env heap ref 6 r defaultRetry 5 hb rfl (.inr (.inl rfl)) h6 ho
    rw [ho] at hout
    refine ⟨hc, ?_⟩
    intro i hi
    exact hout i (by omega)
  · intro hsl hf
    cases ho : r.outcome with
    | timeout => rfl
    | returned =>
      rw [ho] at hout
      have := hf (r.calls - 1) (by omega)
      rw [hout.2] at this
      cases this
    | raised e =>
      rw [ho] at hout
      have := hf (r.calls - 1) (by omega)
      rcases hout.2 with h | ⟨-, h⟩
      · rw [h] at this; cases this
      · rw [hsl] at h; cases h

/-! ### Cases that meet the hypotheses -/

private def b0 : Backoff := ⟨1, 2, 0, 5, 6⟩

private def env0 : Env Unit := ⟨fun i => if i = 7 then .ret true else .ret false, fun _ => none,
  fun _ => 1 / 2⟩

/-- Steps 1, 2, 4, then the cap 6. -/
example : (List.range 6).map (result (fun _ => 0) b0) = [1, 2, 4, 6, 6, 6] := by
  norm_num [List.range, List.range.loop, result, after, Backoff.step, b0]

/-- The cap is met after three calls: it times out, having slept three times. -/
example : ∃ r, exponentialBackoff env0 6 0 [b0] = some r ∧ r.calls = 3 ∧ r.sleeps = [1, 2, 4] ∧
    r.heap[0]? = some b0 := by
  refine ⟨_, by norm_num [exponentialBackoff, backoffLoop, env0, Backoff.step, b0]; rfl, rfl, rfl,
    rfl⟩

example : b0.steps = (5 : Nat) ∧ b0.factor ≠ 0 ∧ b0.cap ≠ 0 ∧ (1 ≤ 3 ∧ 3 < 5) ∧
    b0.cap < b0.duration * b0.factor ^ 3 ∧
    ∀ i, 1 ≤ i → i < 3 → b0.duration * b0.factor ^ i ≤ b0.cap := by
  refine ⟨rfl, by norm_num [b0], by norm_num [b0], by norm_num, by norm_num [b0], ?_⟩
  intro i h1 h2
  have : i = 1 ∨ i = 2 := by omega
  rcases this with rfl | rfl <;> norm_num [b0]

/-- The default of `default_retry`: five calls. -/
example : ∃ r, exponentialBackoff env0 6 0 [⟨1 / 100, 1, 1 / 10, 5, 0⟩] = some r ∧ r.calls = 5 ∧
    r.sleeps.length = 4 := by
  refine ⟨_, by norm_num [exponentialBackoff, backoffLoop, env0, Backoff.step]; rfl, rfl, rfl⟩

/-- The hypotheses of `C49_default_retry`. -/
example : [defaultRetry][0]? = some defaultRetry ∧ (∀ i, 0 ≤ env0.rnd i) ∧ (∀ i, env0.rnd i < 1) := by
  refine ⟨rfl, ?_, ?_⟩ <;> norm_num [env0]

example : (0 : ℚ) < 3 ∧ (0 : ℚ) ≤ 1 / 2 ∧ (1 / 2 : ℚ) < 1 ∧ jitter 3 2 (1 / 2) = 6 := by
  norm_num [jitter]

end Aiok8s.Wait
