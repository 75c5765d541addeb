import Verif.Model.Poll
import Mathlib.Data.List.Basic
/-!
# C61: waiting for caches; C65: polling
-/
set_option linter.unusedSimpArgs false
namespace Aiok8s.Poll
open Wait (Res Env)

private theorem infinite_spec (env : Env Exc) (cut : Option Nat) (fuel k : Nat) (e : End) (n : Nat)
    (h : pollInfinite env cut fuel k = some (e, n)) :
    k ≤ n ∧ (∀ i, k ≤ i → i + 1 < n → env.cond i = .ret false) ∧
    (∀ i, k ≤ i → i + 1 < n → env.sleep i = none) ∧
    match e with
    | .returned => k < n ∧ env.cond (n - 1) = .ret true ∧ ∀ c, cut = some c → k ≤ c → n ≤ c
    | .raised x => (k < n ∧ env.cond (n - 1) = .raise x) ∨
        (env.sleep n = some x ∧ ∀ i, k ≤ i → i < n → env.cond i = .ret false)
    | .cut => cut = some n ∧ ∀ i, k ≤ i → i < n → env.cond i = .ret false := by
  induction fuel generalizing k with
  | zero => simp [pollInfinite] at h
  | succ fuel ih =>
    unfold pollInfinite at h
    split at h
    · cases h
      rename_i hc
      exact ⟨le_rfl, fun i h1 h2 => by omega, fun i h1 h2 => by omega, hc,
        fun i h1 h2 => by omega⟩
    · rename_i hcut
      split at h
      · cases h
        rename_i hs
        exact ⟨le_rfl, fun i h1 h2 => by omega, fun i h1 h2 => by omega,
          Or.inr ⟨hs, fun i h1 h2 => by omega⟩⟩
      · rename_i hs
        split at h
        · cases h
          rename_i hc
          exact ⟨by omega, fun i h1 h2 => by omega, fun i h1 h2 => by omega,
            Or.inl ⟨by omega, by simpa using hc⟩⟩
        · cases h
          rename_i hc
          refine ⟨by omega, fun i h1 h2 => by omega, fun i h1 h2 => by omega, by omega,
            by simpa using hc, ?_⟩
          intro c hcc hk
          rcases Nat.lt_or_ge k c with hlt | hge
          · exact hlt
          · have : c = k := by omega
            exact absurd (this ▸ hcc) hcut
        · rename_i hc
          obtain ⟨h1, h2, h3, h4⟩ := ih (k + 1) h
          refine ⟨by omega, ?_, ?_, ?_⟩
          · intro i hi hi'
            by_cases hik : i = k
            · subst hik; exact hc
            · exact h2 i (by omega) hi'
          · intro i hi hi'
            by_cases hik : i = k
            · subst hik; exact hs
            · exact h3 i (by omega) hi'
          · have ext : (∀ i, k + 1 ≤ i → i < n → env.cond i = .ret false) →
                ∀ i, k ≤ i → i < n → env.cond i = .ret false := by
              intro hx i hi hi'
              by_cases hik : i = k
              · subst hik; exact hc
              · exact hx i (by omega) hi'
            cases e with
            | returned =>
              refine ⟨by omega, h4.2.1, ?_⟩
              intro c hcc hk
              by_cases hck : c = k
              · exact absurd (hck ▸ hcc) hcut
              · exact h4.2.2 c hcc (by omega)
            | raised x =>
              rcases h4 with h4 | h4
              · exact Or.inl ⟨by omega, h4.2⟩
              · exact Or.inr ⟨h4.1, ext h4.2⟩
            | cut => exact ⟨h4.1, ext h4.2⟩

private theorem allSynced_true {rs : List (Res Exc)} :
    allSynced rs = .ret true ↔ ∀ r ∈ rs, r = .ret true := by
  induction rs with
  | nil => simp [allSynced]
  | cons r rs ih =>
    cases r with
    | raise e => simp [allSynced]
    | ret b => cases b <;> simp [allSynced, ih]

private theorem allSynced_raise {rs : List (Res Exc)} {e : Exc} :
    allSynced rs = .raise e ↔ ∃ a b, rs = a ++ .raise e :: b ∧ ∀ r ∈ a, r = .ret true := by
  induction rs with
  | nil => simp [allSynced]
  | cons r rs ih =>
    cases r with
    | raise x =>
      simp only [allSynced]
      constructor
      · intro h
        cases h
        exact ⟨[], rs, rfl, by simp⟩
      · rintro ⟨a, b, h1, h2⟩
        cases a with
        | nil => cases h1; rfl
        | cons y a =>
          simp only [List.cons_append, List.cons.injEq] at h1
          have := h2 y (by simp)
          rw [← h1.1] at this
          cases this
    | ret x =>
      cases x with
      | false =>
        simp only [allSynced]
        constructor
        · intro h; cases h
        · rintro ⟨a, b, h1, h2⟩
          cases a with
          | nil => cases h1
          | cons y a =>
            simp only [List.cons_append, List.cons.injEq] at h1
            have := h2 y (by simp)
            rw [← h1.1] at this
            cases this
      | true =>
        simp only [allSynced, ih]
        constructor
        · rintro ⟨a, b, rfl, h2⟩
          exact ⟨.ret true :: a, b, rfl, by simpa using h2⟩
        · rintro ⟨a, b, h1, h2⟩
          cases a with
          | nil => cases h1
          | cons y a =>
            simp only [List.cons_append, List.cons.injEq] at h1
            exact ⟨a, b, h1.2, fun r hr => h2 r (by simp [hr])⟩

private theorem allSynced_false {rs : List (Res Exc)} :
    allSynced rs = .ret false ↔ ∃ a b, rs = a ++ .ret false :: b ∧ ∀ r ∈ a, r = .ret true := by
  induction rs with
  | nil => simp [allSynced]
  | cons x rs ih =>
    have hd : ∀ (x : Res Exc), x ≠ .ret true → x ≠ .ret false →
        ¬ ∃ a b, x :: rs = a ++ .ret false :: b ∧ ∀ r ∈ a, r = Res.ret true := by
      rintro x h1 h2 ⟨a, b, h3, h4⟩
      cases a with
      | nil => simp only [List.nil_append, List.cons.injEq] at h3; exact h2 h3.1
      | cons y a =>
        simp only [List.cons_append, List.cons.injEq] at h3
        exact h1 (h3.1.trans (h4 y (by simp)))
    cases x with
    | raise e =>
      simp only [allSynced]
      exact ⟨fun h => by (cases h), fun h => (hd _ (by simp) (by simp) h).elim⟩
    | ret x =>
      cases x with
      | false =>
        simp only [allSynced]
        exact ⟨fun _ => ⟨[], rs, rfl, by simp⟩, fun _ => trivial⟩
      | true =>
        simp only [allSynced, ih]
        constructor
        · rintro ⟨a, b, rfl, h2⟩
          exact ⟨.ret true :: a, b, rfl, by simpa using h2⟩
        · rintro ⟨a, b, h1, h2⟩
          cases a with
          | nil => cases h1
          | cons y a =>
            simp only [List.cons_append, List.cons.injEq] at h1
            exact ⟨a, b, h1.2, fun r hr => h2 r (by simp [hr])⟩

private theorem immediate_spec (env : Env Exc) (fuel : Nat) (e : End) (n : Nat)
    (h : pollImmediateInfinite env fuel = some (e, n)) :
    1 ≤ n ∧ (∀ i, i + 1 < n → env.cond i = .ret false) ∧
    match e with
    | .returned => env.cond (n - 1) = .ret true
    | .raised x => env.cond (n - 1) = .raise x ∨
        (env.sleep n = some x ∧ env.cond (n - 1) = .ret false)
    | .cut => False := by
  unfold pollImmediateInfinite at h
  split at h
  · rename_i hc
    cases h
    exact ⟨le_rfl, fun i hi => by omega, Or.inl hc⟩
  · rename_i hc
    cases h
    exact ⟨le_rfl, fun i hi => by omega, hc⟩
  · rename_i hc
    obtain ⟨h1, h2, -, h4⟩ := infinite_spec env none fuel 1 e n h
    refine ⟨h1, ?_, ?_⟩
    · intro i hi
      cases i with
      | zero => exact hc
      | succ i => exact h2 (i + 1) (by omega) hi
    · cases e with
      | returned => exact h4.2.1
      | raised x =>
        rcases h4 with h4 | h4
        · exact Or.inl h4.2
        · refine Or.inr ⟨h4.1, ?_⟩
          by_cases hn : n = 1
          · subst hn; exact hc
          · exact h4.2 (n - 1) (by omega) (by omega)
      | cut => simp at h4

/-- C61: `True` is returned only right after an evaluation in which every function returned `True`,
`False` only right after one in which a function raised an `Exception` (those before it having
returned `True`) or a sleep did; every earlier evaluation ended at a function that returned `False`,
those before it having returned `True`. -/
theorem C61_result (syncs : Nat → List (Res Exc)) (sleep : Nat → Option Exc) (fuel n : Nat)
    (r : SyncEnd) (h : waitForCacheSync syncs sleep fuel = some (r, n)) :
    1 ≤ n ∧
    (∀ i, i + 1 < n → ∃ a b, syncs i = a ++ .ret false :: b ∧ ∀ x ∈ a, x = .ret true) ∧
    (r = .ret true → ∀ x ∈ syncs (n - 1), x = .ret true) ∧
    (r = .ret false → ∃ e, (e = .timeout ∨ ∃ m, e = .other m) ∧
      ((∃ a b, syncs (n - 1) = a ++ .raise e :: b ∧ ∀ x ∈ a, x = .ret true) ∨ sleep n = some e)) ∧
    (∀ e, r = .raised e → (e = .cancelled ∨ ∃ m, e = .base m) ∧
      ((∃ a b, syncs (n - 1) = a ++ .raise e :: b ∧ ∀ x ∈ a, x = .ret true) ∨
        sleep n = some e)) := by
  obtain ⟨⟨e, n'⟩, h1, h2⟩ := Option.map_eq_some_iff.1 h
  cases h2
  obtain ⟨i1, i2, i3⟩ := immediate_spec _ fuel e n' h1
  refine ⟨i1, ?_, ?_, ?_, ?_⟩
  · intro i hi
    exact allSynced_false.1 (i2 i hi)
  · intro hr
    cases e with
    | returned => exact allSynced_true.1 i3
    | raised x => cases x <;> simp [syncEnd] at hr
    | cut => simp at i3
  · intro hr
    cases e with
    | returned => simp [syncEnd] at hr
    | raised x =>
      refine ⟨x, ?_, ?_⟩
      · cases x with
        | timeout => exact Or.inl rfl
        | other m => exact Or.inr ⟨m, rfl⟩
        | cancelled => simp [syncEnd] at hr
        | base m => simp [syncEnd] at hr
      · rcases i3 with i3 | i3
        · exact Or.inl (allSynced_raise.1 i3)
        · exact Or.inr i3.1
    | cut => simp at i3
  · intro x hr
    cases e with
    | returned => simp [syncEnd] at hr
    | raised y =>
      have hy : y = x ∧ (x = .cancelled ∨ ∃ m, x = .base m) := by
        cases y with
        | timeout => simp [syncEnd] at hr
        | other m => simp [syncEnd] at hr
        | cancelled =>
          simp only [syncEnd, SyncEnd.raised.injEq] at hr
          exact ⟨hr, Or.inl hr.symm⟩
        | base m =>
          simp only [syncEnd, SyncEnd.raised.injEq] at hr
          exact ⟨hr, Or.inr ⟨m, hr.symm⟩⟩
      refine ⟨hy.2, ?_⟩
      rw [← hy.1]
      rcases i3 with i3 | i3
      · exact Or.inl (allSynced_raise.1 i3)
      · exact Or.inr i3.1
    | cut => simp at i3

private theorem infinite_returns (env : Env Exc) (cut : Option Nat) (n d k : Nat) (hd : n = k + d)
    (hf : ∀ i, k ≤ i → i < n → env.cond i = .ret false) (hs : ∀ i, k ≤ i → i ≤ n → env.sleep i = none)
    (hc : ∀ c, cut = some c → k ≤ c → n < c) (ht : env.cond n = .ret true) (fuel : Nat)
    (hfu : d < fuel) : pollInfinite env cut fuel k = some (.returned, n + 1) := by
  induction fuel generalizing k d with
  | zero => omega
  | succ fuel ih =>
    unfold pollInfinite
    rw [if_neg (fun he => by have := hc k he le_rfl; omega), hs k le_rfl (by omega)]
    by_cases hk : k = n
    · subst hk
      simp only [ht]
    · simp only [hf k le_rfl (by omega)]
      exact ih (d - 1) (k + 1) (by omega) (fun i h1 h2 => hf i (by omega) h2)
        (fun i h1 h2 => hs i (by omega) h2) (fun c h1 h2 => hc c h1 (by omega)) (by omega)

/-- C61: if in some evaluation all functions return `True`, and no earlier one raises, and it is not
cancelled, it does return `True`, after the first such evaluation; in particular at once if there is
nothing to wait for. -/
theorem C61_returns (syncs : Nat → List (Res Exc)) (sleep : Nat → Option Exc) (n : Nat)
    (hn : ∀ x ∈ syncs n, x = .ret true)
    (hf : ∀ i, i < n → ∃ a b, syncs i = a ++ .ret false :: b ∧ ∀ x ∈ a, x = .ret true)
    (hs : ∀ i, i ≤ n → sleep i = none) (fuel : Nat) (hfu : n < fuel) :
    waitForCacheSync syncs sleep fuel = some (.ret true, n + 1) := by
  have hfalse : ∀ i, i < n → allSynced (syncs i) = .ret false := by
    intro i hi
    obtain ⟨a, b, h1, h2⟩ := hf i hi
    rw [h1]
    clear h1
    induction a with
    | nil => rfl
    | cons x a ih =>
      have hx := h2 x (by simp)
      subst hx
      exact ih fun x hx => h2 x (by simp [hx])
  have htrue := allSynced_true.2 hn
  unfold waitForCacheSync pollImmediateInfinite
  by_cases h0 : n = 0
  · subst h0
    simp only [htrue]
    rfl
  · simp only [hfalse 0 (by omega)]
    rw [infinite_returns _ none n (n - 1) 1 (by omega) (fun i _ h2 => hfalse i h2)
      (fun i _ h2 => hs i h2) (by simp) htrue fuel (by omega)]
    rfl

/-- C65, negated: an `asyncio.TimeoutError` raised by the condition itself is not passed on but
reported as `WaitTimeoutError`, though no time has run out. -/
theorem C65_refuted : ∃ env : Env Exc, env.cond 0 = .raise .timeout ∧
    poll env none 1 0 = some (.timeout, 1) :=
  ⟨⟨fun _ => .raise .timeout, fun _ => none, fun _ => 0⟩, rfl, rfl⟩

/-- C65, what holds: `poll` returns only right after the condition answered `True`, and in time; it
passes on whatever else than `TimeoutError` is raised; and it raises `WaitTimeoutError` only when the
time has run out, all calls having answered `False`, or something raised `TimeoutError`. -/
theorem C65_poll_partial (env : Env Exc) (cut : Option Nat) (fuel n : Nat) (o : Wait.Outcome Exc)
    (h : poll env cut fuel 0 = some (o, n)) :
    (∀ i, i + 1 < n → env.cond i = .ret false) ∧
    match o with
    | .returned => 1 ≤ n ∧ env.cond (n - 1) = .ret true ∧ ∀ c, cut = some c → n ≤ c
    | .raised e => e ≠ .timeout ∧
        ((1 ≤ n ∧ env.cond (n - 1) = .raise e) ∨ env.sleep n = some e)
    | .timeout => (cut = some n ∧ ∀ i, i < n → env.cond i = .ret false) ∨
        (1 ≤ n ∧ env.cond (n - 1) = .raise .timeout) ∨ env.sleep n = some .timeout := by
  obtain ⟨⟨e, n'⟩, h1, h2⟩ := Option.map_eq_some_iff.1 h
  cases h2
  obtain ⟨i1, i2, -, i4⟩ := infinite_spec env cut fuel 0 e n' h1
  refine ⟨fun i hi => i2 i (by omega) hi, ?_⟩
  cases e with
  | returned => exact ⟨i4.1, i4.2.1, fun c hc => i4.2.2 c hc (by omega)⟩
  | cut => exact Or.inl ⟨i4.1, fun i hi => i4.2 i (by omega) hi⟩
  | raised x =>
    have hx : (1 ≤ n' ∧ env.cond (n' - 1) = .raise x) ∨ env.sleep n' = some x := by
      rcases i4 with i4 | i4
      · exact Or.inl ⟨i4.1, i4.2⟩
      · exact Or.inr i4.1
    cases x with
    | timeout => exact Or.inr hx
    | cancelled => exact ⟨by simp, hx⟩
    | other m => exact ⟨by simp, hx⟩
    | base m => exact ⟨by simp, hx⟩

/-- C65: `poll` does return if the condition is met in time. -/
theorem C65_poll_returns (env : Env Exc) (cut : Option Nat) (n : Nat)
    (hf : ∀ i, i < n → env.cond i = .ret false) (ht : env.cond n = .ret true)
    (hs : ∀ i, i ≤ n → env.sleep i = none) (hc : ∀ c, cut = some c → n < c) (fuel : Nat)
    (hfu : n < fuel) : poll env cut fuel 0 = some (.returned, n + 1) := by
  unfold poll
  rw [infinite_returns env cut n n 0 (by omega) (fun i _ h => hf i h) (fun i _ h => hs i h)
    (fun c h _ => hc c h) ht fuel hfu]
  rfl

/-- C65: `poll_immediate` asks once before anything else: with the condition met it returns even if
there is no time. -/
theorem C65_immediate (env : Env Exc) (cut : Option Nat) (fuel : Nat) (h : env.cond 0 = .ret true) :
    pollImmediate env cut fuel = some (.returned, 1) := by
  simp [pollImmediate, h]

/-- C65: of `poll_immediate`, as of `poll`. -/
theorem C65_immediate_partial (env : Env Exc) (cut : Option Nat) (fuel n : Nat)
    (o : Wait.Outcome Exc) (h : pollImmediate env cut fuel = some (o, n)) :
    1 ≤ n ∧ (∀ i, i + 1 < n → env.cond i = .ret false) ∧
    match o with
    | .returned => env.cond (n - 1) = .ret true
    | .raised e => env.cond (n - 1) = .raise e ∨ env.sleep n = some e
    | .timeout => (cut = some n ∧ ∀ i, i < n → env.cond i = .ret false) ∨
        (2 ≤ n ∧ env.cond (n - 1) = .raise .timeout) ∨ env.sleep n = some .timeout := by
  unfold pollImmediate at h
  split at h
  · rename_i hc
    cases h
    exact ⟨le_rfl, fun i hi => by omega, Or.inl hc⟩
  · rename_i hc
    cases h
    exact ⟨le_rfl, fun i hi => by omega, hc⟩
  · rename_i hc
    obtain ⟨⟨e, n'⟩, h1, h2⟩ := Option.map_eq_some_iff.1 h
    cases h2
    obtain ⟨i1, i2, -, i4⟩ := infinite_spec env cut fuel 1 e n' h1
    refine ⟨i1, ?_, ?_⟩
    · intro i hi
      cases i with
      | zero => exact hc
      | succ i => exact i2 (i + 1) (by omega) hi
    · cases e with
      | returned => exact i4.2.1
      | cut =>
        refine Or.inl ⟨i4.1, ?_⟩
        intro i hi
        cases i with
        | zero => exact hc
        | succ i => exact i4.2 (i + 1) (by omega) hi
      | raised x =>
        have hx : (2 ≤ n' ∧ env.cond (n' - 1) = .raise x) ∨ env.sleep n' = some x := by
          rcases i4 with i4 | i4
          · exact Or.inl ⟨i4.1, i4.2⟩
          · exact Or.inr i4.1
        have hy : env.cond (n' - 1) = .raise x ∨ env.sleep n' = some x := hx.imp And.right id
        cases x with
        | timeout => exact Or.inr hx
        | cancelled => exact hy
        | other m => exact hy
        | base m => exact hy

/-! ### Cases that meet the hypotheses -/

/-- Two caches; the first is synced at the second evaluation, the second at the third. -/
private def syncs0 (k : Nat) : List (Res Exc) := [.ret (1 ≤ k), .ret (2 ≤ k)]

example : waitForCacheSync syncs0 (fun _ => none) 5 = some (.ret true, 3) := rfl

example : (∀ x ∈ syncs0 2, x = .ret true) ∧
    ∀ i, i < 2 → ∃ a b, syncs0 i = a ++ .ret false :: b ∧ ∀ x ∈ a, x = .ret true := by
  refine ⟨by simp [syncs0], ?_⟩
  intro i hi
  have : i = 0 ∨ i = 1 := by omega
  rcases this with rfl | rfl
  · exact ⟨[], [.ret false], rfl, by simp⟩
  · exact ⟨[.ret true], [], rfl, by simp⟩

/-- A function raises; one is cancelled while it sleeps. -/
example : waitForCacheSync (fun k => [.ret true, if k = 1 then .raise (.other 7) else .ret false])
    (fun _ => none) 5 = some (.ret false, 2) := rfl
example : waitForCacheSync (fun _ => [.ret false]) (fun k => if k = 3 then some .cancelled else none)
    5 = some (.raised .cancelled, 3) := rfl

/-- The time runs out before the fourth call; it does not. -/
example : poll ⟨fun k => .ret (5 ≤ k), fun _ => none, fun _ => 0⟩ (some 3) 9 0 = some (.timeout, 3) :=
  rfl
example : poll ⟨fun k => .ret (5 ≤ k), fun _ => none, fun _ => 0⟩ (some 6) 9 0 =
    some (.returned, 6) := rfl

end Aiok8s.Poll
