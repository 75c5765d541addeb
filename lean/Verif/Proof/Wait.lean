import Verif.Spec.Wait
import Mathlib.Tactic.Linarith
import Mathlib.Tactic.NormNum
import Mathlib.Tactic.Ring
/-!
# Lemmas about back-off
-/
set_option linter.unusedSimpArgs false
namespace Aiok8s.Wait
open Spec

theorem capped_mono {d f c : ℚ} {n k : Nat} (h : capped d f c n k) : capped d f c n (k + 1) := by
  obtain ⟨h1, j, h2, h3⟩ := h
  exact ⟨h1, j, by omega, h3⟩

theorem after_fields (rnd : Nat → ℚ) (b : Backoff) (k : Nat) :
    (after rnd b k).factor = b.factor ∧ (after rnd b k).jitter = b.jitter ∧
      (after rnd b k).cap = b.cap := by
  induction k with
  | zero => exact ⟨rfl, rfl, rfl⟩
  | succ k ih =>
    obtain ⟨h1, h2, h3⟩ := ih
    simp only [after, Backoff.step]
    split
    · exact ⟨h1, h2, h3⟩
    · simp only
      split
      · split <;> exact ⟨h1, h2, h3⟩
      · exact ⟨h1, h2, h3⟩

/-- The object after `k` steps. -/
theorem after_eq (rnd : Nat → ℚ) (b : Backoff) (n : Nat) (hn : b.steps = n) (hf : b.factor ≠ 0)
    (k : Nat) :
    (after rnd b k).duration = value b.duration b.factor b.cap n k ∧
    (after rnd b k).steps = if capped b.duration b.factor b.cap n k then 0 else (n : Int) - min k n := by
  induction k with
  | zero =>
    have hc : ¬ capped b.duration b.factor b.cap n 0 := by
      rintro ⟨-, j, h, -⟩
      simp at h
    simp [after, value, hc, hn]
  | succ k ih =>
    obtain ⟨h1, h2⟩ := ih
    obtain ⟨e1, e2, e3⟩ := after_fields rnd b k
    generalize hx : after rnd b k = x at h1 h2 e1 e2 e3
    have hax : after rnd b (k + 1) = (x.step (rnd k)).1 := by rw [after, hx]
    rw [hax]
    unfold Backoff.step
    by_cases hc : capped b.duration b.factor b.cap n k
    · rw [if_pos hc] at h2
      have hc' := capped_mono hc
      simp only [h2]
      simp [value, hc', hc, h1, h2]
    · rw [if_neg hc] at h2
      by_cases hk : n ≤ k
      · have hm : min k n = n := by omega
        have hm' : min (k + 1) n = n := by omega
        have hst : x.steps = 0 := by rw [h2]; omega
        have hc' : ¬ capped b.duration b.factor b.cap n (k + 1) := by
          rintro ⟨c1, j, c2, c3⟩
          exact hc ⟨c1, j, by omega, c3⟩
        simp only [hst]
        simp [value, hc', hc, h1, hst, hm, hm']
      · have hm : min k n = k := by omega
        have hm' : min (k + 1) n = k + 1 := by omega
        have hst : ¬ x.steps < 1 := by rw [h2]; omega
        have hd : x.duration = b.duration * b.factor ^ k := by
          rw [h1, value, if_neg hc, hm]
        have hnext : x.duration * x.factor = b.duration * b.factor ^ (k + 1) := by
          rw [hd, e1]; ring
        simp only [if_neg hst, e1, ne_eq, hf, not_false_eq_true, if_true, e3]
        rw [e1] at hnext
        rw [hnext]
        by_cases hcap : b.cap ≠ 0 ∧ b.duration * b.factor ^ (k + 1) > b.cap
        · have hc' : capped b.duration b.factor b.cap n (k + 1) :=
            ⟨hcap.1, k, by omega, hcap.2⟩
          rw [if_pos hcap]
          simp [value, hc']
        · have hc' : ¬ capped b.duration b.factor b.cap n (k + 1) := by
            rintro ⟨c1, j, c2, c3⟩
            by_cases hj : j = k
            · subst hj; exact hcap ⟨c1, c3⟩
            · exact hc ⟨c1, j, by omega, c3⟩
          rw [if_neg hcap]
          simp only [value, hc', if_false, hm']
          refine ⟨trivial, ?_⟩
          rw [h2, hm]
          push_cast
          omega

theorem after_zero_factor (rnd : Nat → ℚ) (b : Backoff) (n : Nat) (hn : b.steps = n)
    (hf : b.factor = 0) (k : Nat) :
    (after rnd b k).duration = b.duration ∧ (after rnd b k).steps = (n : Int) - min k n := by
  induction k with
  | zero => simp [after, hn]
  | succ k ih =>
    obtain ⟨h1, h2⟩ := ih
    obtain ⟨e1, e2, e3⟩ := after_fields rnd b k
    simp only [after, Backoff.step]
    split
    · refine ⟨h1, ?_⟩
      rw [h2]
      omega
    · simp only [e1, hf, ne_eq, not_true_eq_false, if_false]
      refine ⟨h1, ?_⟩
      rw [h2]
      omega

/-- Steps can only go down, by at least 1, to 0. -/
theorem step_steps {b : Backoff} (r : ℚ) (h : 1 ≤ b.steps) :
    0 ≤ (b.step r).1.steps ∧ (b.step r).1.steps ≤ b.steps - 1 := by
  unfold Backoff.step
  rw [if_neg (by omega)]
  simp only
  split
  · split <;> simp only <;> omega
  · simp only; omega

/-- What a run of the loop does. -/
structure Fine {E : Type} (env : Env E) (k n : Nat) (old : List Backoff) (sl : List ℚ) (r : Run E) :
    Prop where
  lower : k ≤ r.calls
  upper : r.calls ≤ k + n
  earlier : ∀ i, k ≤ i → i + 1 < r.calls → env.cond i = .ret false ∧ env.sleep i = none
  returned : r.outcome = .returned → k < r.calls ∧ env.cond (r.calls - 1) = .ret true
  raised : ∀ e, r.outcome = .raised e → k < r.calls ∧
    (env.cond (r.calls - 1) = .raise e ∨
      env.cond (r.calls - 1) = .ret false ∧ env.sleep (r.calls - 1) = some e)
  timeout : r.outcome = .timeout → ∀ i, k ≤ i → i < r.calls → env.cond i = .ret false
  heap : r.heap.take old.length = old

theorem loop_fine {E : Type} (env : Env E) (n : Nat) (fuel k : Nat) (sl : List ℚ)
    (old : List Backoff) (b : Backoff) (hn : b.steps = n) (hf : n < fuel) :
    ∃ r, backoffLoop env old.length fuel k sl (old ++ [b]) = some r ∧ Fine env k n old sl r := by
  induction fuel generalizing k sl b n with
  | zero => omega
  | succ fuel ih =>
    have hget : (old ++ [b])[old.length]? = some b := by simp
    have htake : (old ++ [b]).take old.length = old := by simp
    unfold backoffLoop
    simp only [hget]
    by_cases h0 : b.steps = 0
    · rw [if_pos h0]
      refine ⟨_, rfl, ⟨by simp, by simp, ?_, by simp, by simp, ?_, htake⟩⟩
      · intro i hi hi'; simp only at hi'; omega
      · intro _ i hi hi'; simp only at hi'; omega
    · rw [if_neg h0]
      cases hc : env.cond k with
      | raise e =>
        refine ⟨_, rfl, ⟨by simp, by simp only; omega, ?_, by simp, ?_, by simp, htake⟩⟩
        · intro i hi hi'; simp only at hi'; omega
        · intro e' he
          cases he
          exact ⟨by simp, Or.inl (by simpa using hc)⟩
      | ret x =>
        cases x with
        | true =>
          refine ⟨_, rfl, ⟨by simp, by simp only; omega, ?_, ?_, by simp, by simp, htake⟩⟩
          · intro i hi hi'; simp only at hi'; omega
          · intro _
            exact ⟨by simp, by simpa using hc⟩
        | false =>
          simp only
          by_cases h1 : b.steps = 1
          · rw [if_pos h1]
            refine ⟨_, rfl, ⟨by simp, by simp only; omega, ?_, by simp, by simp, ?_, htake⟩⟩
            · intro i hi hi'; simp only at hi'; omega
            · intro _ i hi hi'
              simp only at hi'
              have : i = k := by omega
              rw [this]; exact hc
          · rw [if_neg h1]
            have hset : (old ++ [b]).set old.length (b.step (env.rnd k)).1 =
                old ++ [(b.step (env.rnd k)).1] := by simp
            rw [hset]
            cases hs : env.sleep k with
            | some e =>
              refine ⟨_, rfl, ⟨by simp, by simp only; omega, ?_, by simp, ?_, by simp, by simp⟩⟩
              · intro i hi hi'; simp only at hi'; omega
              · intro e' he
                cases he
                exact ⟨by simp, Or.inr ⟨by simpa using hc, by simpa using hs⟩⟩
            | none =>
              obtain ⟨s1, s2⟩ := step_steps (b := b) (env.rnd k) (by omega)
              obtain ⟨m, hm⟩ := Int.eq_ofNat_of_zero_le s1
              obtain ⟨r, hr, F⟩ := ih m (k + 1) (sl ++ [(b.step (env.rnd k)).2])
                (b.step (env.rnd k)).1 hm (by omega)
              have hl := F.lower
              refine ⟨r, hr, ⟨by omega, ?_, ?_, ?_, ?_, ?_, F.heap⟩⟩
              · have := F.upper
                omega
              · intro i hi hi'
                by_cases hik : i = k
                · subst hik; exact ⟨hc, hs⟩
                · exact F.earlier i (by omega) hi'
              · intro ho
                obtain ⟨a1, a2⟩ := F.returned ho
                exact ⟨by omega, a2⟩
              · intro e ho
                obtain ⟨a1, a2⟩ := F.raised e ho
                exact ⟨by omega, a2⟩
              · intro ho i hi hi'
                by_cases hik : i = k
                · subst hik; exact hc
                · exact F.timeout ho i (by omega) hi'

/-- Of the loop for the copy `b0` after `k` rounds: the sleeps are the results of `step`; and on
time-out the steps are used up. -/
theorem loop_sleeps {E : Type} (env : Env E) (b0 : Backoff) (fuel k : Nat) (sl : List ℚ)
    (old : List Backoff) (r : Run E)
    (hsl : sl = (List.range k).map (result env.rnd b0))
    (hr : backoffLoop env old.length fuel k sl (old ++ [after env.rnd b0 k]) = some r) :
    (∃ m, r.sleeps = (List.range m).map (result env.rnd b0) ∧ m ≤ r.calls ∧ r.calls ≤ m + 1) ∧
    (r.outcome = .timeout → (after env.rnd b0 r.calls).steps = 0 ∨
      1 ≤ r.calls ∧ (after env.rnd b0 (r.calls - 1)).steps = 1) := by
  induction fuel generalizing k sl with
  | zero => simp [backoffLoop] at hr
  | succ fuel ih =>
    have hget : ∀ b, (old ++ [b])[old.length]? = some b := by simp
    unfold backoffLoop at hr
    simp only [hget] at hr
    split at hr
    · rename_i h0
      cases hr
      exact ⟨⟨k, hsl, le_rfl, by simp only; omega⟩, fun _ => Or.inl h0⟩
    · split at hr
      · cases hr
        exact ⟨⟨k, hsl, by simp only; omega, by simp only; omega⟩, by simp⟩
      · cases hr
        exact ⟨⟨k, hsl, by simp only; omega, by simp only; omega⟩, by simp⟩
      · split at hr
        · rename_i h1
          cases hr
          exact ⟨⟨k, hsl, by simp only; omega, by simp only; omega⟩,
            fun _ => Or.inr ⟨by simp, by simpa using h1⟩⟩
        · have hset : ∀ b b' : Backoff, (old ++ [b]).set old.length b' = old ++ [b'] := by
            intro b b'; simp
          have hsl' : sl ++ [((after env.rnd b0 k).step (env.rnd k)).2] =
              (List.range (k + 1)).map (result env.rnd b0) := by
            rw [hsl, List.range_succ, List.map_append]
            rfl
          simp only [hset] at hr
          split at hr
          · cases hr
            exact ⟨⟨k + 1, hsl', by simp, by simp⟩, by simp⟩
          · exact ih (k + 1) _ hsl' hr

/-- A negative number of steps never gets less. -/
theorem loop_forever {E : Type} (env : Env E) (fuel k : Nat) (sl : List ℚ) (old : List Backoff)
    (b : Backoff) (hn : b.steps < 0) (hc : ∀ i, env.cond i = .ret false)
    (hs : ∀ i, env.sleep i = none) :
    backoffLoop env old.length fuel k sl (old ++ [b]) = none := by
  induction fuel generalizing k sl with
  | zero => rfl
  | succ fuel ih =>
    have hget : (old ++ [b])[old.length]? = some b := by simp
    unfold backoffLoop
    have hstep : (b.step (env.rnd k)).1 = b := by
      unfold Backoff.step
      rw [if_pos (by omega)]
    simp only [hget, hc, hs, if_neg (show ¬ b.steps = 0 by omega),
      if_neg (show ¬ b.steps = 1 by omega), hstep]
    have hset : (old ++ [b]).set old.length b = old ++ [b] := by simp
    rw [hset]
    exact ih _ _

/-- More rounds do not change a run that has ended. -/
theorem loop_mono {E : Type} (env : Env E) (ref fuel k : Nat) (sl : List ℚ) (heap : List Backoff)
    (r : Run E) (h : backoffLoop env ref fuel k sl heap = some r) :
    backoffLoop env ref (fuel + 1) k sl heap = some r := by
  induction fuel generalizing k sl heap with
  | zero => simp [backoffLoop] at h
  | succ fuel ih =>
    rw [backoffLoop] at h ⊢
    cases hb : heap[ref]? with
    | none => simp [hb] at h
    | some b =>
      simp only [hb] at h ⊢
      split
      · rename_i h0
        rw [if_pos h0] at h
        exact h
      · rename_i h0
        rw [if_neg h0] at h
        cases hc : env.cond k with
        | raise e => simpa [hc] using h
        | ret x =>
          cases x with
          | true => simpa [hc] using h
          | false =>
            simp only [hc] at h ⊢
            split
            · rename_i h1
              rw [if_pos h1] at h
              exact h
            · rename_i h1
              rw [if_neg h1] at h
              cases hs : env.sleep k with
              | some e => simpa [hs] using h
              | none =>
                simp only [hs] at h ⊢
                exact ih _ _ _ h

theorem loop_le {E : Type} (env : Env E) (ref fuel fuel' k : Nat) (sl : List ℚ) (heap : List Backoff)
    (r : Run E) (h : backoffLoop env ref fuel k sl heap = some r) (hle : fuel ≤ fuel') :
    backoffLoop env ref fuel' k sl heap = some r := by
  induction fuel' with
  | zero =>
    have : fuel = 0 := by omega
    subst this
    exact h
  | succ m ih =>
    by_cases hm : fuel = m + 1
    · subst hm; exact h
    · exact loop_mono env ref m k sl heap r (ih (by omega))

end Aiok8s.Wait
