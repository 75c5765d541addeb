import Verif.Spec.PollTime
import Mathlib.Tactic.Linarith
import Mathlib.Data.List.Basic
/-!
# C103: the times of polling
-/
set_option linter.unusedSimpArgs false
namespace Aiok8s.PollTime
open Aiok8s.Wait (Res)
open Aiok8s.Poll (Exc)

private theorem before_le {tie : Bool} {a d : ℚ} (h : before tie a (some d) = true) : a ≤ d := by
  simp only [before, Bool.or_eq_true, Bool.and_eq_true, decide_eq_true_eq] at h
  rcases h with h | h
  · exact h.le
  · exact h.2.le

private theorem not_before {tie : Bool} {a d : ℚ} (h : ¬ before tie a (some d) = true) : d ≤ a := by
  simp only [before, Bool.or_eq_true, Bool.and_eq_true, decide_eq_true_eq, not_or, not_lt] at h
  exact h.1

private theorem free_spaced (c : Cfg) (env : Env) (hv : env.Valid) (over : Bool) (fuel k : Nat) (now : ℚ) :
    Spaced (max 0 c.interval) now (free c env over fuel k now).calls ∧ now ≤ (free c env over fuel k now).time ∧
    ∀ x ∈ (free c env over fuel k now).calls, x.stop ≤ (free c env over fuel k now).time := by
  induction fuel generalizing k now with
  | zero => simp [free, Spaced]
  | succ fuel ih =>
    have h1 := hv.dur k
    have h2 := hv.lag k
    have h3 : 0 ≤ max 0 c.interval := le_max_left ..
    simp only [free]
    cases env.cond k with
    | raise e => refine ⟨⟨?_, ?_, trivial⟩, ?_, ?_⟩ <;> simp <;> linarith
    | ret b =>
      cases b with
      | true => refine ⟨⟨?_, ?_, trivial⟩, ?_, ?_⟩ <;> simp <;> linarith
      | false =>
        obtain ⟨i1, i2, i3⟩ := ih (k + 1) (now + max 0 c.interval + env.lag k + env.dur k)
        simp only [Run.after]
        refine ⟨⟨?_, ?_, i1⟩, ?_, ?_⟩
        · simp only; linarith
        · simp only; linarith
        · linarith
        · intro x hx
          rcases List.mem_cons.1 hx with rfl | hx
          · exact i2
          · exact i3 x hx

private theorem limited_spaced (c : Cfg) (env : Env) (hv : env.Valid) (d : ℚ) (fuel k : Nat) (now : ℚ)
    (hd : now ≤ d) :
    Spaced (max 0 c.interval) now (limited c env d fuel k now).calls ∧ now ≤ (limited c env d fuel k now).time ∧
    ∀ x ∈ (limited c env d fuel k now).calls, x.stop ≤ (limited c env d fuel k now).time := by
  induction fuel generalizing k now with
  | zero => simp [limited, Spaced]
  | succ fuel ih =>
    have h1 := hv.dur k
    have h2 := hv.lag k
    have h3 : 0 ≤ max 0 c.interval := le_max_left ..
    have h4 := hv.give k
    simp only [limited]
    split
    · rename_i hs
      have hs := before_le hs
      split
      · rename_i hf
        have hf := before_le hf
        cases env.cond k with
        | raise e => refine ⟨⟨?_, ?_, trivial⟩, ?_, ?_⟩ <;> simp <;> linarith
        | ret b =>
          cases b with
          | true => refine ⟨⟨?_, ?_, trivial⟩, ?_, ?_⟩ <;> simp <;> linarith
          | false =>
            obtain ⟨i1, i2, i3⟩ := ih (k + 1) (now + max 0 c.interval + env.lag k + env.dur k) hf
            simp only [Run.after]
            refine ⟨⟨?_, ?_, i1⟩, ?_, ?_⟩
            · simp only; linarith
            · simp only; linarith
            · linarith
            · intro x hx
              rcases List.mem_cons.1 hx with rfl | hx
              · exact i2
              · exact i3 x hx
      · cases env.onCancel k with
        | none => refine ⟨⟨?_, ?_, trivial⟩, ?_, ?_⟩ <;> simp <;> linarith
        | some r =>
          cases r with
          | raise e => refine ⟨⟨?_, ?_, trivial⟩, ?_, ?_⟩ <;> simp <;> linarith
          | ret b =>
            cases b with
            | true => refine ⟨⟨?_, ?_, trivial⟩, ?_, ?_⟩ <;> simp <;> linarith
            | false =>
              obtain ⟨i1, i2, i3⟩ := free_spaced c env hv true fuel (k + 1) (d + env.give k)
              simp only [Run.after]
              refine ⟨⟨?_, ?_, i1⟩, ?_, ?_⟩
              · simp only; linarith
              · simp only; linarith
              · linarith
              · intro x hx
                rcases List.mem_cons.1 hx with rfl | hx
                · exact i2
                · exact i3 x hx
    · simp [Spaced, hd]

private theorem free_paced (c : Cfg) (env : Env) (hl : ∀ k, env.lag k = 0) (over : Bool) (fuel k : Nat) (now : ℚ) :
    Paced (max 0 c.interval) now (free c env over fuel k now).calls := by
  induction fuel generalizing k now with
  | zero => simp [free, Paced]
  | succ fuel ih =>
    simp only [free, hl, add_zero]
    cases env.cond k with
    | raise e => exact ⟨rfl, trivial⟩
    | ret b =>
      cases b with
      | true => exact ⟨rfl, trivial⟩
      | false => exact ⟨rfl, ih ..⟩

private theorem limited_paced (c : Cfg) (env : Env) (hl : ∀ k, env.lag k = 0) (d : ℚ) (fuel k : Nat) (now : ℚ) :
    Paced (max 0 c.interval) now (limited c env d fuel k now).calls := by
  induction fuel generalizing k now with
  | zero => simp [limited, Paced]
  | succ fuel ih =>
    simp only [limited, hl, add_zero]
    split
    · split
      · cases env.cond k with
        | raise e => exact ⟨rfl, trivial⟩
        | ret b =>
          cases b with
          | true => exact ⟨rfl, trivial⟩
          | false => exact ⟨rfl, ih ..⟩
      · cases env.onCancel k with
        | none => exact ⟨rfl, trivial⟩
        | some r =>
          cases r with
          | raise e => exact ⟨rfl, trivial⟩
          | ret b =>
            cases b with
            | true => exact ⟨rfl, trivial⟩
            | false => exact ⟨rfl, free_paced c env hl ..⟩
    · exact trivial

private theorem plain_calls (r : Run) : (pollInfinite.if_plain r).calls = r.calls := by
  unfold pollInfinite.if_plain
  split <;> rfl

private theorem plain_time (r : Run) : (pollInfinite.if_plain r).time = r.time := by
  unfold pollInfinite.if_plain
  split <;> rfl

/-- C103: `poll` and `poll_infinite` make the first call of the condition no earlier than `interval` after
they were called, and each further one no earlier than `interval` after the end of the one before, so that no
two overlap; on an idle event loop exactly then.  They end when or after the last call ends. -/
theorem C103_spacing (c : Cfg) (env : Env) (hv : env.Valid) (fuel : Nat) (now : ℚ) (r : Run)
    (hr : r = poll c env fuel 0 now ∨ r = pollInfinite c env fuel 0 now) :
    Spaced (max 0 c.interval) now r.calls ∧ (∀ x ∈ r.calls, x.stop ≤ r.time) ∧
    ((∀ k, env.lag k = 0) → Paced (max 0 c.interval) now r.calls) := by
  rcases hr with rfl | rfl
  · unfold poll
    split
    · exact ⟨trivial, by simp, fun _ => trivial⟩
    · rename_i ht
      obtain ⟨h1, -, h3⟩ := limited_spaced c env hv (now + c.timeout + env.late) fuel 0 now
        (by have := hv.late; linarith)
      exact ⟨h1, h3, fun hl => limited_paced c env hl ..⟩
  · unfold pollInfinite
    rw [plain_calls, plain_time]
    obtain ⟨h1, -, h3⟩ := free_spaced c env hv false fuel 0 now
    exact ⟨h1, h3, fun hl => free_paced c env hl ..⟩

/-- C103: `poll_immediate` and `poll_immediate_infinite` make the first call at once and the others as above
after its end. -/
theorem C103_spacing_immediate (c : Cfg) (env : Env) (hv : env.Valid) (fuel : Nat) (now : ℚ) (r : Run)
    (hr : r = pollImmediate c env fuel now ∨ r = pollImmediateInfinite c env fuel now) :
    ∃ rest, r.calls = ⟨now, now + env.dur 0⟩ :: rest ∧
    Spaced (max 0 c.interval) (now + env.dur 0) rest ∧ (∀ x ∈ r.calls, x.stop ≤ r.time) ∧
    ((∀ k, env.lag k = 0) → Paced (max 0 c.interval) (now + env.dur 0) rest) := by
  rcases hr with rfl | rfl
  · unfold pollImmediate
    simp only
    cases hc : env.cond 0 with
    | raise e => exact ⟨[], rfl, trivial, by simp, fun _ => trivial⟩
    | ret b =>
      cases b with
      | true => exact ⟨[], rfl, trivial, by simp, fun _ => trivial⟩
      | false =>
        refine ⟨_, rfl, ?_⟩
        simp only [Run.after]
        unfold poll
        split
        · exact ⟨trivial, by simp, fun _ => trivial⟩
        · rename_i ht
          obtain ⟨h1, h2, h3⟩ := limited_spaced c env hv (now + env.dur 0 + c.timeout + env.late) fuel 1
            (now + env.dur 0) (by have := hv.late; linarith)
          refine ⟨h1, ?_, fun hl => limited_paced c env hl ..⟩
          intro x hx
          rcases List.mem_cons.1 hx with rfl | hx
          · exact h2
          · exact h3 x hx
  · unfold pollImmediateInfinite
    simp only
    cases hc : env.cond 0 with
    | raise e => exact ⟨[], rfl, trivial, by simp, fun _ => trivial⟩
    | ret b =>
      cases b with
      | true => exact ⟨[], rfl, trivial, by simp, fun _ => trivial⟩
      | false =>
        refine ⟨_, rfl, ?_⟩
        simp only [Run.after]
        unfold pollInfinite
        rw [plain_calls, plain_time]
        obtain ⟨h1, h2, h3⟩ := free_spaced c env hv false fuel 1 (now + env.dur 0)
        refine ⟨h1, ?_, fun hl => free_paced c env hl ..⟩
        intro x hx
        rcases List.mem_cons.1 hx with rfl | hx
        · exact h2
        · exact h3 x hx

private theorem limited_main (c : Cfg) (env : Env) (hv : env.Valid) (he : env.Ends) (g : ℚ)
    (hg : ∀ k, env.give k ≤ g) (d : ℚ) (fuel k : Nat) (now : ℚ) (hd : now ≤ d) :
    (∀ x ∈ (limited c env d fuel k now).calls, x.start ≤ d) ∧
    ((limited c env d fuel k now).calls.length : ℚ) * max 0 c.interval ≤ d - now ∧
    ((limited c env d fuel k now).fin ≠ .running → (limited c env d fuel k now).time ≤ d + g) := by
  induction fuel generalizing k now with
  | zero => simp [limited]; linarith
  | succ fuel ih =>
    have h1 := hv.dur k
    have h2 := hv.lag k
    have h3 : 0 ≤ max 0 c.interval := le_max_left ..
    have h4 := hg k
    have h5 := hv.give k
    simp only [limited]
    split
    · rename_i hs
      have hs := before_le hs
      split
      · rename_i hf
        have hf := before_le hf
        cases env.cond k with
        | raise e =>
          refine ⟨?_, ?_, ?_⟩
          · simpa using hs
          · simp only [List.length_singleton, Nat.cast_one, one_mul]; linarith
          · intro _; simp only; linarith
        | ret b =>
          cases b with
          | true =>
            refine ⟨?_, ?_, ?_⟩
            · simpa using hs
            · simp only [List.length_singleton, Nat.cast_one, one_mul]; linarith
            · intro _; simp only; linarith
          | false =>
            obtain ⟨i1, i2, i3⟩ := ih (k + 1) (now + max 0 c.interval + env.lag k + env.dur k) hf
            simp only [Run.after]
            refine ⟨?_, ?_, i3⟩
            · intro x hx
              rcases List.mem_cons.1 hx with rfl | hx
              · exact hs
              · exact i1 x hx
            · simp only [List.length_cons, Nat.cast_add, Nat.cast_one, add_mul, one_mul]; linarith
      · cases ho : env.onCancel k with
        | none =>
          refine ⟨?_, ?_, ?_⟩
          · simpa using hs
          · simp only [List.length_singleton, Nat.cast_one, one_mul]; linarith
          · intro _; simp only; linarith
        | some r =>
          cases r with
          | raise e =>
            refine ⟨?_, ?_, ?_⟩
            · simpa using hs
            · simp only [List.length_singleton, Nat.cast_one, one_mul]; linarith
            · intro _; simp only; linarith
          | ret b =>
            cases b with
            | true =>
              refine ⟨?_, ?_, ?_⟩
              · simpa using hs
              · simp only [List.length_singleton, Nat.cast_one, one_mul]; linarith
              · intro _; simp only; linarith
            | false => exact absurd ho (he k)
    · refine ⟨by simp, ?_, ?_⟩
      · simp; linarith
      · intro _; simp only; linarith

/-- C103: `poll` begins no call of the condition once the time has run out, makes at most
`timeout / interval` calls, and ends by then, apart from the time `g` a cancelled condition takes for its end
and the time by which the event loop is late: on an idle event loop, with a condition that gives in at once,
at most `timeout` after its call.

Missing from the full claim ("ends within the timeout"): a condition that does not let itself be cancelled
makes `poll` go on for ever (`C103_refuted_swallow`). -/
theorem C103_in_time_partial (c : Cfg) (env : Env) (hv : env.Valid) (he : env.Ends) (g : ℚ)
    (hg : ∀ k, env.give k ≤ g) (fuel : Nat) (now : ℚ) :
    (∀ x ∈ (poll c env fuel 0 now).calls, x.start ≤ now + max 0 c.timeout + env.late) ∧
    ((poll c env fuel 0 now).calls.length : ℚ) * max 0 c.interval ≤ max 0 c.timeout + env.late ∧
    ((poll c env fuel 0 now).fin ≠ .running →
      (poll c env fuel 0 now).time ≤ now + max 0 c.timeout + env.late + g) := by
  have hl := hv.late
  have hg0 := (hv.give 0).trans (hg 0)
  unfold poll
  split
  · rename_i ht
    rw [max_eq_left ht]
    refine ⟨by simp, by simpa using hl, fun _ => ?_⟩
    simp only
    linarith
  · rename_i ht
    rw [max_eq_right (not_le.1 ht).le]
    obtain ⟨h1, h2, h3⟩ := limited_main c env hv he g hg (now + c.timeout + env.late) fuel 0 now
      (by linarith)
    exact ⟨h1, by linarith, h3⟩

private theorem limited_ends (c : Cfg) (env : Env) (hv : env.Valid) (he : env.Ends) (d : ℚ) (fuel k : Nat) (now : ℚ)
    (hd : now ≤ d) (hf : d - now < fuel * max 0 c.interval) : (limited c env d fuel k now).fin ≠ .running := by
  induction fuel generalizing k now with
  | zero =>
    simp only [Nat.cast_zero, zero_mul] at hf
    linarith
  | succ fuel ih =>
    have h1 := hv.dur k
    have h2 := hv.lag k
    simp only [Nat.cast_add, Nat.cast_one, add_mul, one_mul] at hf
    simp only [limited]
    split
    · split
      · rename_i hb
        cases env.cond k with
        | raise e => cases e <;> simp [ends]
        | ret b =>
          cases b with
          | true => simp
          | false => exact ih (k + 1) _ (before_le hb) (by linarith)
      · cases ho : env.onCancel k with
        | none => simp
        | some r =>
          cases r with
          | raise e => cases e <;> simp only [endsLate] <;> split <;> simp [ends]
          | ret b =>
            cases b with
            | true => simp only; split <;> simp
            | false => exact absurd ho (he k)
    · simp

/-- C103: with a positive interval `poll` does end, after at most so many rounds. -/
theorem C103_ends_partial (c : Cfg) (env : Env) (hv : env.Valid) (he : env.Ends) (fuel : Nat) (now : ℚ)
    (hf : max 0 c.timeout + env.late < fuel * max 0 c.interval) : (poll c env fuel 0 now).fin ≠ .running := by
  have hl := hv.late
  unfold poll
  split
  · simp
  · rename_i ht
    rw [max_eq_right (not_le.1 ht).le] at hf
    exact limited_ends c env hv he _ fuel 0 now (by linarith) (by linarith)

private theorem limited_result (c : Cfg) (env : Env) (hv : env.Valid) (ho : env.Obeys) (d : ℚ) (fuel k : Nat)
    (now : ℚ) (r : Run) (hr : r = limited c env d fuel k now) :
    (∀ i, i + 1 < r.calls.length → env.cond (k + i) = .ret false) ∧
    match r.fin with
    | .returned => ∃ n, r.calls.length = n + 1 ∧ env.cond (k + n) = .ret true ∧ r.time ≤ d
    | .raised e => e ≠ .timeout ∧ ∃ n, r.calls.length = n + 1 ∧ env.cond (k + n) = .raise e ∧ r.time ≤ d
    | .timeout => d ≤ r.time ∨ ∃ n, r.calls.length = n + 1 ∧ env.cond (k + n) = .raise .timeout
    | .running => r.calls.length = fuel ∧ ∀ i < fuel, env.cond (k + i) = .ret false := by
  induction fuel generalizing k now r with
  | zero => subst hr; simp [limited]
  | succ fuel ih =>
    have h4 := hv.give k
    simp only [limited] at hr
    split at hr
    · split at hr
      · rename_i hf
        have hf := before_le hf
        cases hc : env.cond k with
        | raise e =>
          simp only [hc] at hr
          subst hr
          refine ⟨by simp, ?_⟩
          cases e with
          | timeout => exact Or.inr ⟨0, rfl, hc⟩
          | _ => exact ⟨by simp, 0, rfl, hc, hf⟩
        | ret b =>
          cases b with
          | true =>
            simp only [hc] at hr
            subst hr
            exact ⟨by simp, 0, rfl, hc, hf⟩
          | false =>
            simp only [hc] at hr
            obtain ⟨i1, i2⟩ := ih (k + 1) (now + max 0 c.interval + env.lag k + env.dur k) _ rfl
            have e : ∀ i, k + (i + 1) = k + 1 + i := by intro i; omega
            subst hr
            simp only [Run.after]
            generalize limited c env d fuel (k + 1) (now + max 0 c.interval + env.lag k + env.dur k) = r at i1 i2
            refine ⟨?_, ?_⟩
            · intro i hi
              cases i with
              | zero => exact hc
              | succ i => rw [e]; exact i1 i (by simpa using hi)
            · cases hfin : r.fin with
              | returned =>
                simp only [hfin] at i2 ⊢
                obtain ⟨n, h1, h2, h3⟩ := i2
                exact ⟨n + 1, by simp [h1], by rw [e]; exact h2, h3⟩
              | raised x =>
                simp only [hfin] at i2 ⊢
                obtain ⟨h0, n, h1, h2, h3⟩ := i2
                exact ⟨h0, n + 1, by simp [h1], by rw [e]; exact h2, h3⟩
              | timeout =>
                simp only [hfin] at i2 ⊢
                refine i2.imp_right ?_
                rintro ⟨n, h1, h2⟩
                exact ⟨n + 1, by simp [h1], by rw [e]; exact h2⟩
              | running =>
                simp only [hfin] at i2 ⊢
                refine ⟨by simp [i2.1], ?_⟩
                intro i hi
                cases i with
                | zero => exact hc
                | succ i => rw [e]; exact i2.2 i (by omega)
      · simp only [ho k] at hr
        subst hr
        refine ⟨by simp, Or.inl ?_⟩
        simp only
        linarith
    · subst hr
      exact ⟨by simp, Or.inl le_rfl⟩

/-- C103: how `poll` ends, if the condition lets itself be cancelled: it returns only because the last call
answered `True` in time, all before having answered `False`; it raises `WaitTimeoutError` only if the time
has run out, never earlier, or the condition has raised a `TimeoutError`; anything else it raises is what the
condition has raised in time. -/
theorem C103_result (c : Cfg) (env : Env) (hv : env.Valid) (ho : env.Obeys) (fuel : Nat) (now : ℚ)
    (r : Run) (hr : r = poll c env fuel 0 now) :
    (∀ i, i + 1 < r.calls.length → env.cond i = .ret false) ∧
    match r.fin with
    | .returned => ∃ n, r.calls.length = n + 1 ∧ env.cond n = .ret true ∧ r.time ≤ now + c.timeout + env.late
    | .raised e => e ≠ .timeout ∧ ∃ n, r.calls.length = n + 1 ∧ env.cond n = .raise e ∧
        r.time ≤ now + c.timeout + env.late
    | .timeout => now + c.timeout ≤ r.time ∨ ∃ n, r.calls.length = n + 1 ∧ env.cond n = .raise .timeout
    | .running => r.calls.length = fuel ∧ ∀ i < fuel, env.cond i = .ret false := by
  have hl := hv.late
  unfold poll at hr
  split at hr
  · rename_i ht
    subst hr
    refine ⟨by simp, Or.inl ?_⟩
    simp only
    linarith
  · obtain ⟨h1, h2⟩ := limited_result c env hv ho (now + c.timeout + env.late) fuel 0 now r hr
    simp only [Nat.zero_add] at h1 h2
    refine ⟨h1, ?_⟩
    cases hfin : r.fin with
    | timeout =>
      simp only [hfin] at h2
      refine h2.imp_left fun h => ?_
      linarith
    | _ => simpa only [hfin] using h2

private theorem free_late (c : Cfg) (env : Env) (hp : env.py310 = false) (fuel k : Nat) (now : ℚ) :
    (free c env true fuel k now).fin = .running ∨ (free c env true fuel k now).fin = .timeout := by
  induction fuel generalizing k now with
  | zero => exact Or.inl rfl
  | succ fuel ih =>
    simp only [free]
    cases env.cond k with
    | raise e => right; simp [endsLate, hp]
    | ret b =>
      cases b with
      | true => right; simp [hp]
      | false => exact ih _ _

private theorem limited_late (c : Cfg) (env : Env) (hp : env.py310 = false) (d : ℚ) (fuel k : Nat) (now : ℚ)
    (hd : d < (limited c env d fuel k now).time) :
    (limited c env d fuel k now).fin = .running ∨ (limited c env d fuel k now).fin = .timeout := by
  induction fuel generalizing k now with
  | zero => exact Or.inl rfl
  | succ fuel ih =>
    simp only [limited] at hd ⊢
    split
    · rename_i hs
      rw [if_pos hs] at hd
      split
      · rename_i hf
        rw [if_pos hf] at hd
        have hf := before_le hf
        cases hc : env.cond k with
        | raise e => simp only [hc] at hd; exact absurd hf (not_le.2 hd)
        | ret b =>
          cases b with
          | true => simp only [hc] at hd; exact absurd hf (not_le.2 hd)
          | false => simp only [hc, Run.after] at hd ⊢; exact ih _ _ hd
      · cases ho : env.onCancel k with
        | none => exact Or.inr rfl
        | some x =>
          cases x with
          | raise e => right; simp [endsLate, hp]
          | ret b =>
            cases b with
            | true => right; simp [hp]
            | false => exact free_late c env hp ..
    · exact Or.inr rfl

/-- C103: on a Python whose `wait_for` raises `TimeoutError` in any case once it has cancelled the call, whatever the
condition does then: when `poll` ends after the time has run out, it raises `WaitTimeoutError`.

Missing from the full claim: other Pythons (3.10), see `C103_refuted_late`. -/
theorem C103_late_partial (c : Cfg) (env : Env) (hp : env.py310 = false) (fuel : Nat) (now : ℚ)
    (hf : (poll c env fuel 0 now).fin ≠ .running)
    (hd : now + c.timeout + env.late < (poll c env fuel 0 now).time) : (poll c env fuel 0 now).fin = .timeout := by
  unfold poll at hf hd ⊢
  split
  · rfl
  · rename_i ht
    rw [if_neg ht] at hf hd
    exact (limited_late c env hp _ fuel 0 now hd).resolve_left hf

/-- C103, negated: with the `wait_for` of Python 3.10, a condition that answers `True`, or raises some exception,
when it is cancelled makes `poll` return, or raise that, after the time has run out; a `TimeoutError` becomes a
`WaitTimeoutError`. -/
theorem C103_refuted_late (c : Cfg) (hi : 0 ≤ c.interval) (ht : c.interval < c.timeout) (more : ℚ) (hm : 0 < more)
    (a : Res Exc) (ha : a ≠ .ret false) :
    ∃ env : Env, env.Valid ∧ env.Idle ∧ env.Ends ∧ ∀ (fuel : Nat) (now : ℚ),
      (poll c env (fuel + 1) 0 now).time = now + c.timeout + more ∧
      (poll c env (fuel + 1) 0 now).fin = (match a with
        | .ret _ => .returned
        | .raise e => if e = .cancelled ∨ e = .timeout then .timeout else .raised e) := by
  refine ⟨⟨fun _ => .ret true, fun _ => c.timeout, fun _ => 0, fun _ => some a, fun _ => more, 0, false, true⟩,
    ⟨fun _ => by simp only; linarith, fun _ => le_rfl, fun _ => hm.le, le_rfl⟩, ⟨fun _ => rfl, rfl⟩,
    fun _ => by simpa using ha, ?_⟩
  intro fuel now
  unfold poll
  rw [if_neg (by linarith)]
  have h1 : before false (now + max 0 c.interval + 0) (some (now + c.timeout + 0)) = true := by
    simp [before, max_eq_right hi, ht]
  have h2 : before false (now + max 0 c.interval + 0 + c.timeout) (some (now + c.timeout + 0)) = false := by
    simp [before, max_eq_right hi, hi]
  simp only [limited, h1, h2, if_true, Bool.false_eq_true, if_false]
  cases a with
  | ret b =>
    cases b with
    | true => simp
    | false => exact absurd rfl ha
  | raise e => cases e <;> simp [endsLate, ends]

private theorem tick_succ (i : ℚ) (env : Env) (k : Nat) (t : ℚ) (n : Nat) :
    tick i env k t (n + 1) = tick i env (k + 1) (t + i + env.lag k + env.dur k) n := by
  induction n with
  | zero => rfl
  | succ n ih =>
    rw [tick, ih, tick]
    have : k + 1 + n + 1 = k + (n + 1) + 1 := by omega
    rw [this]

private theorem tick_ge (i : ℚ) (env : Env) (hv : env.Valid) (hi : 0 ≤ i) (k : Nat) (t : ℚ) (n : Nat) :
    t + i + env.lag k + env.dur k ≤ tick i env k t n := by
  induction n with
  | zero => exact le_rfl
  | succ n ih =>
    rw [tick]
    have h1 := hv.lag (k + n + 1)
    have h2 := hv.dur (k + n + 1)
    linarith

private theorem before_of_le {tie : Bool} {a b d : ℚ} (hab : a ≤ b) (h : before tie b (some d) = true) :
    before tie a (some d) = true := by
  simp only [before, Bool.or_eq_true, Bool.and_eq_true, decide_eq_true_eq] at h ⊢
  rcases lt_or_eq_of_le hab with h1 | h1
  · rcases h with h | h
    · exact Or.inl (h1.trans h)
    · exact Or.inl (h.2 ▸ h1)
  · rw [h1]; exact h

private theorem limited_returns (c : Cfg) (env : Env) (hv : env.Valid) (d : ℚ) (n k : Nat) (now : ℚ)
    (hf : ∀ i < n, env.cond (k + i) = .ret false) (ht : env.cond (k + n) = .ret true)
    (hb : before env.tie (tick (max 0 c.interval) env k now n) (some d) = true) (fuel : Nat) (hfu : n < fuel) :
    (limited c env d fuel k now).fin = .returned ∧
    (limited c env d fuel k now).time = tick (max 0 c.interval) env k now n ∧
    (limited c env d fuel k now).calls.length = n + 1 := by
  induction n generalizing fuel k now with
  | zero =>
    obtain ⟨fuel, rfl⟩ : ∃ f, fuel = f + 1 := ⟨fuel - 1, by omega⟩
    have hd := hv.dur k
    have h1 : before env.tie (now + max 0 c.interval + env.lag k) (some d) = true :=
      before_of_le (by simp only [tick]; linarith) hb
    rw [Nat.add_zero] at ht
    simp only [tick] at hb
    simp [limited, h1, hb, ht, tick]
  | succ n ih =>
    obtain ⟨fuel, rfl⟩ : ∃ f, fuel = f + 1 := ⟨fuel - 1, by omega⟩
    have hd := hv.dur k
    have hge := tick_ge (max 0 c.interval) env hv (le_max_left ..) k now (n + 1)
    have h1 : before env.tie (now + max 0 c.interval + env.lag k) (some d) = true :=
      before_of_le (by linarith) hb
    have h2 : before env.tie (now + max 0 c.interval + env.lag k + env.dur k) (some d) = true :=
      before_of_le hge hb
    have h3 : env.cond k = .ret false := hf 0 (by omega)
    rw [tick_succ] at hb ⊢
    have e : ∀ i, k + (i + 1) = k + 1 + i := by intro i; omega
    obtain ⟨i1, i2, i3⟩ := ih (k + 1) (now + max 0 c.interval + env.lag k + env.dur k)
      (fun i hi => by rw [← e]; exact hf (i + 1) (by omega)) (by rw [← e]; exact ht) hb fuel (by omega)
    simp only [limited, h1, h2, if_true, h3, Run.after]
    exact ⟨i1, i2, by simp [i3]⟩

/-- C103: if call `n` is the first to answer `True`, and ends before the time runs out, `poll` returns right
then; it has called the condition no further. -/
theorem C103_returns (c : Cfg) (env : Env) (hv : env.Valid) (n : Nat) (now : ℚ)
    (hf : ∀ i < n, env.cond i = .ret false) (ht : env.cond n = .ret true)
    (hb : tick (max 0 c.interval) env 0 now n < now + c.timeout) (fuel : Nat) (hfu : n < fuel) :
    (poll c env fuel 0 now).fin = .returned ∧
    (poll c env fuel 0 now).time = tick (max 0 c.interval) env 0 now n ∧
    (poll c env fuel 0 now).calls.length = n + 1 := by
  have h0 := tick_ge (max 0 c.interval) env hv (le_max_left ..) 0 now n
  have h1 : 0 ≤ max 0 c.interval := le_max_left ..
  have h2 := hv.lag 0
  have h3 := hv.dur 0
  have h4 := hv.late
  unfold poll
  rw [if_neg (by linarith)]
  refine limited_returns c env hv _ n 0 now (by simpa using hf) (by simpa using ht) ?_ fuel hfu
  simp only [before, Bool.or_eq_true, decide_eq_true_eq]
  left
  linarith

private theorem free_false (c : Cfg) (env : Env) (hv : env.Valid) (over : Bool) (hf : ∀ k, env.cond k = .ret false) (fuel k : Nat)
    (now : ℚ) : (free c env over fuel k now).fin = .running ∧
      now + fuel * max 0 c.interval ≤ (free c env over fuel k now).time ∧
      (free c env over fuel k now).calls.length = fuel := by
  induction fuel generalizing k now with
  | zero => simp [free]
  | succ fuel ih =>
    obtain ⟨i1, i2, i3⟩ := ih (k + 1) (now + max 0 c.interval + env.lag k + env.dur k)
    have h1 := hv.dur k
    have h2 := hv.lag k
    simp only [free, hf k, Run.after]
    refine ⟨i1, ?_, by simp [i3]⟩
    simp only [Nat.cast_add, Nat.cast_one, add_mul, one_mul]
    linarith

/-- C103, negated: if the call under way when the time runs out answers `False` instead of letting itself be
cancelled (as one does that catches `Exception`, up to Python 3.7), `poll` goes on: it never ends as long as
the condition is not met, whatever the timeout, though the event loop is idle and every call ends. -/
theorem C103_refuted_swallow (c : Cfg) (hi : 0 ≤ c.interval) (ht : c.interval < c.timeout) (py310 : Bool) :
    ∃ env : Env, env.Valid ∧ env.Idle ∧ env.py310 = py310 ∧ (∀ k, env.give k = 0) ∧
    ∀ (fuel : Nat) (now : ℚ), (poll c env (fuel + 1) 0 now).fin = .running ∧
      (poll c env (fuel + 1) 0 now).calls.length = fuel + 1 ∧
      now + c.timeout + fuel * c.interval ≤ (poll c env (fuel + 1) 0 now).time := by
  have hv : Env.Valid ⟨fun _ => .ret false, fun _ => c.timeout, fun _ => 0, fun _ => some (.ret false), fun _ => 0, 0,
      false, py310⟩ := ⟨fun _ => by simp only; linarith, fun _ => le_rfl, fun _ => le_rfl, le_rfl⟩
  refine ⟨⟨fun _ => .ret false, fun _ => c.timeout, fun _ => 0, fun _ => some (.ret false), fun _ => 0, 0,
    false, py310⟩, hv, ⟨fun _ => rfl, rfl⟩, rfl, fun _ => rfl, ?_⟩
  intro fuel now
  obtain ⟨i1, i2, i3⟩ := free_false c _ hv true (fun _ => rfl) fuel 1 (now + c.timeout + 0 + 0)
  unfold poll
  rw [if_neg (by linarith)]
  have h1 : before false (now + max 0 c.interval + 0) (some (now + c.timeout + 0)) = true := by
    simp [before, max_eq_right hi, ht]
  have h2 : before false (now + max 0 c.interval + 0 + c.timeout) (some (now + c.timeout + 0)) = false := by
    simp [before, max_eq_right hi]
    linarith
  rw [max_eq_right hi] at i2
  simp only [limited, h1, h2, if_true, Bool.false_eq_true, if_false, Run.after]
  exact ⟨i1, by rw [List.length_cons, i3], le_trans (by simp) i2⟩

/-- C103, negated: the first call of `poll_immediate` is not limited at all: it can take longer than the
timeout, by any amount, on an idle event loop. -/
theorem C103_refuted_immediate (c : Cfg) (more : ℚ) : ∃ env : Env, env.Valid ∧ env.Idle ∧ env.Obeys ∧
    ∀ (fuel : Nat) (now : ℚ), (pollImmediate c env fuel now).fin = .returned ∧
      now + c.timeout + more ≤ (pollImmediate c env fuel now).time := by
  refine ⟨⟨fun _ => .ret true, fun _ => max 0 (c.timeout + more), fun _ => 0, fun _ => none, fun _ => 0, 0,
    false, true⟩, ⟨fun _ => le_max_left .., fun _ => le_rfl, fun _ => le_rfl, le_rfl⟩, ⟨fun _ => rfl, rfl⟩,
    fun _ => rfl, fun fuel now => ⟨rfl, ?_⟩⟩
  have : c.timeout + more ≤ max 0 (c.timeout + more) := le_max_right ..
  simp only [pollImmediate]
  linarith

/-- C103: `poll_immediate` ends within the timeout after its first call, with the conditions of
`C103_in_time_partial`. -/
theorem C103_immediate_partial (c : Cfg) (env : Env) (hv : env.Valid) (he : env.Ends) (g : ℚ)
    (hg : ∀ k, env.give k ≤ g) (fuel : Nat) (now : ℚ)
    (hr : (pollImmediate c env fuel now).fin ≠ .running) :
    (pollImmediate c env fuel now).time ≤ now + env.dur 0 + max 0 c.timeout + env.late + g := by
  have hl := hv.late
  have hg0 := (hv.give 0).trans (hg 0)
  have hm : 0 ≤ max 0 c.timeout := le_max_left ..
  unfold pollImmediate at hr ⊢
  simp only at hr ⊢
  cases hc : env.cond 0 with
  | raise e => simp only; linarith
  | ret b =>
    cases b with
    | true => simp only; linarith
    | false =>
      simp only [hc, Run.after] at hr ⊢
      unfold poll at hr ⊢
      split
      · simp only; linarith
      · rename_i ht
        rw [if_neg ht] at hr
        rw [max_eq_right (not_le.1 ht).le]
        exact (limited_main c env hv he g hg (now + env.dur 0 + c.timeout + env.late) fuel 1 (now + env.dur 0)
          (by linarith)).2.2 hr

/-! ### Cases that meet the hypotheses -/

/-- A condition that is met at its third call, and takes one second. -/
private def env0 : Env := ⟨fun k => .ret (2 ≤ k), fun _ => 1, fun _ => 0, fun _ => none, fun _ => 0, 0, false, true⟩

example : env0.Valid ∧ env0.Idle ∧ env0.Ends ∧ env0.Obeys :=
  ⟨⟨fun _ => by simp [env0], fun _ => le_rfl, fun _ => le_rfl, le_rfl⟩, ⟨fun _ => rfl, rfl⟩, fun _ => by simp [env0],
    fun _ => rfl⟩

/-- It is polled every two seconds: with ten seconds there is enough time, with eight it is cancelled in its
second pause, with five in its second call. -/
example : poll ⟨2, 10⟩ env0 5 0 100 = ⟨[⟨102, 103⟩, ⟨105, 106⟩, ⟨108, 109⟩], .returned, 109⟩ := by decide +kernel
example : poll ⟨2, 8⟩ env0 5 0 100 = ⟨[⟨102, 103⟩, ⟨105, 106⟩], .timeout, 108⟩ := by decide +kernel
example : poll ⟨2, 11 / 2⟩ env0 5 0 100 = ⟨[⟨102, 103⟩, ⟨105, 211 / 2⟩], .timeout, 211 / 2⟩ := by decide +kernel
example : tick 2 env0 0 100 2 = 109 := by decide +kernel
example : max 0 (10 : ℚ) + env0.late < (6 : Nat) * max 0 (2 : ℚ) := by decide +kernel

/-- A condition that answers `True` one second after its cancellation: too late, or late, as `wait_for` has it. -/
example : poll ⟨2, 5 / 2⟩ { env0 with onCancel := fun _ => some (.ret true), give := fun _ => 1, py310 := false } 5 0 100 =
    ⟨[⟨102, 207 / 2⟩], .timeout, 207 / 2⟩ := by decide +kernel
example : poll ⟨2, 5 / 2⟩ { env0 with onCancel := fun _ => some (.ret true), give := fun _ => 1 } 5 0 100 =
    ⟨[⟨102, 207 / 2⟩], .returned, 207 / 2⟩ := by decide +kernel

private theorem free_result (c : Cfg) (env : Env) (fuel k : Nat) (now : ℚ) (r : Run)
    (hr : r = pollInfinite c env fuel k now) :
    (∀ i, i + 1 < r.calls.length → env.cond (k + i) = .ret false) ∧
    match r.fin with
    | .returned => ∃ n, r.calls.length = n + 1 ∧ env.cond (k + n) = .ret true ∧ (r.calls.map Call.stop).getLast? = some r.time
    | .raised e => ∃ n, r.calls.length = n + 1 ∧ env.cond (k + n) = .raise e ∧
        (r.calls.map Call.stop).getLast? = some r.time
    | .timeout => False
    | .running => r.calls.length = fuel ∧ ∀ i < fuel, env.cond (k + i) = .ret false := by
  subst hr
  unfold pollInfinite
  induction fuel generalizing k now with
  | zero => simp [free, pollInfinite.if_plain]
  | succ fuel ih =>
    simp only [free]
    cases hc : env.cond k with
    | raise e => cases e <;> simp [pollInfinite.if_plain, ends, hc]
    | ret b =>
      cases b with
      | true => simp [pollInfinite.if_plain, hc]
      | false =>
        simp only
        have := ih (k + 1) (now + max 0 c.interval + env.lag k + env.dur k)
        generalize free c env false fuel (k + 1) (now + max 0 c.interval + env.lag k + env.dur k) = r at this ⊢
        obtain ⟨cs, fin, t⟩ := r
        have hz : ∀ i, k + 1 + i = k + (i + 1) := fun i => by omega
        simp only [hz] at this
        have first : ∀ (l : List Call), (∀ i, i + 1 < l.length → env.cond (k + (i + 1)) = .ret false) →
            ∀ i, i + 1 < l.length + 1 → env.cond (k + i) = .ret false := by
          intro l hl i hi
          cases i with
          | zero => exact hc
          | succ i => exact hl i (by omega)
        have last : ∀ (x : Call) (t : ℚ), (cs.map Call.stop).getLast? = some t →
            ((x :: cs).map Call.stop).getLast? = some t := by
          intro x t h
          cases cs with
          | nil => simp at h
          | cons y cs => simpa [List.getLast?_cons_cons] using h
        cases fin with
        | returned =>
          obtain ⟨h1, n, h2, h3, h4⟩ := this
          exact ⟨first _ h1, n + 1, by simpa [pollInfinite.if_plain, Run.after] using h2, h3, last _ _ h4⟩
        | raised e =>
          obtain ⟨h1, n, h2, h3, h4⟩ := this
          exact ⟨first _ h1, n + 1, by simpa [pollInfinite.if_plain, Run.after] using h2, h3, last _ _ h4⟩
        | timeout =>
          obtain ⟨h1, n, h2, h3, h4⟩ := this
          exact ⟨first _ h1, n + 1, by simpa [pollInfinite.if_plain, Run.after] using h2, h3, last _ _ h4⟩
        | running =>
          obtain ⟨h1, h2, h3⟩ := this
          refine ⟨first _ h1, by simpa [pollInfinite.if_plain, Run.after] using h2, fun i hi => ?_⟩
          cases i with
          | zero => exact hc
          | succ i => exact h3 i (by omega)

/-- **C103**: `poll_infinite` never gives up; it ends at the end of the first call that does not answer `False`, with its
exception if it raises, and it goes on as long as there is none. -/
theorem C103_infinite (c : Cfg) (env : Env) (fuel : Nat) (now : ℚ) (r : Run) (hr : r = pollInfinite c env fuel 0 now) :
    (∀ i, i + 1 < r.calls.length → env.cond i = .ret false) ∧
    match r.fin with
    | .returned => ∃ n, r.calls.length = n + 1 ∧ env.cond n = .ret true ∧ (r.calls.map Call.stop).getLast? = some r.time
    | .raised e => ∃ n, r.calls.length = n + 1 ∧ env.cond n = .raise e ∧
        (r.calls.map Call.stop).getLast? = some r.time
    | .timeout => False
    | .running => r.calls.length = fuel ∧ ∀ i < fuel, env.cond i = .ret false := by
  simpa using free_result c env fuel 0 now r hr

/-- **C103**: the same for `poll_immediate_infinite`. -/
theorem C103_immediate_infinite (c : Cfg) (env : Env) (fuel : Nat) (now : ℚ) (r : Run)
    (hr : r = pollImmediateInfinite c env fuel now) :
    (∀ i, i + 1 < r.calls.length → env.cond i = .ret false) ∧
    match r.fin with
    | .returned => ∃ n, r.calls.length = n + 1 ∧ env.cond n = .ret true ∧ (r.calls.map Call.stop).getLast? = some r.time
    | .raised e => ∃ n, r.calls.length = n + 1 ∧ env.cond n = .raise e ∧
        (r.calls.map Call.stop).getLast? = some r.time
    | .timeout => False
    | .running => r.calls.length = fuel + 1 ∧ ∀ i < fuel + 1, env.cond i = .ret false := by
  subst hr
  unfold pollImmediateInfinite
  simp only
  cases hc : env.cond 0 with
  | raise e => simp [hc]
  | ret b =>
    cases b with
    | true => simp [hc]
    | false =>
      have := free_result c env fuel 1 (now + env.dur 0) _ rfl
      simp only
      generalize pollInfinite c env fuel 1 (now + env.dur 0) = r at this ⊢
      obtain ⟨cs, fin, t⟩ := r
      have hz : ∀ i, 1 + i = i + 1 := fun i => by omega
      simp only [hz] at this
      have first : (∀ i, i + 1 < cs.length → env.cond (i + 1) = .ret false) →
          ∀ i, i + 1 < cs.length + 1 → env.cond i = .ret false := by
        intro hl i hi
        cases i with
        | zero => exact hc
        | succ i => exact hl i (by omega)
      have last : ∀ (x : Call) (t : ℚ), (cs.map Call.stop).getLast? = some t →
          ((x :: cs).map Call.stop).getLast? = some t := by
        intro x t h
        cases cs with
        | nil => simp at h
        | cons y cs => simpa [List.getLast?_cons_cons] using h
      cases fin with
      | returned =>
        obtain ⟨h1, n, h2, h3, h4⟩ := this
        exact ⟨first h1, n + 1, by simpa [Run.after] using h2, h3, last _ _ h4⟩
      | raised e =>
        obtain ⟨h1, n, h2, h3, h4⟩ := this
        exact ⟨first h1, n + 1, by simpa [Run.after] using h2, h3, last _ _ h4⟩
      | timeout => exact this.2.elim
      | running =>
        obtain ⟨h1, h2, h3⟩ := this
        refine ⟨first h1, by simpa [Run.after] using h2, fun i hi => ?_⟩
        cases i with
        | zero => exact hc
        | succ i => exact h3 i (by omega)

/-- A run of each that ends with the third call. -/
example :
    let env : Env := ⟨fun k => if k = 2 then .ret true else .ret false, fun _ => 1, fun _ => 0, fun _ => none, fun _ => 0, 0,
      false, false⟩
    (pollInfinite ⟨5, 7⟩ env 9 0 0).fin = .returned ∧ (pollInfinite ⟨5, 7⟩ env 9 0 0).calls.length = 3 ∧
    (pollImmediateInfinite ⟨5, 7⟩ env 9 0).fin = .returned ∧
    (pollImmediateInfinite ⟨5, 7⟩ env 9 0).calls.length = 3 := by
  decide +kernel

end Aiok8s.PollTime
