import Verif.Spec.Resync
import Mathlib.Data.List.Forall2
import Mathlib.Tactic.Linarith
import Mathlib.Tactic.NormNum
/-!
# C35, C36: resync periods and resync checks
-/
namespace Aiok8s.Resync
open Spec

private theorem clamp_ask (d : ℚ) (p : Option ℚ) : clamp (p.getD d) = ask d p := by
  unfold clamp ask
  by_cases h : p.getD d = 0
  · simp [h]
  · simp only [h, ne_eq, not_false_eq_true, if_true, if_false]
    split
    · rw [max_eq_right (by linarith)]
    · rw [max_eq_left (by linarith)]

private theorem ask_zero_or (d : ℚ) (p : Option ℚ) : ask d p = 0 ∨ 1 ≤ ask d p := by
  unfold ask
  split
  · exact Or.inl rfl
  · exact Or.inr (le_max_right _ _)

private theorem determine_granted (a c : ℚ) : determine a c = granted a c := by
  unfold determine granted
  by_cases h1 : a = 0
  · simp [h1]
  · by_cases h2 : c = 0
    · simp [h2]
    · simp only [h1, h2, or_self, if_false]
      split
      · rw [max_eq_right (by linarith)]
      · rw [max_eq_left (by linarith)]

/-- Relation of a listener to what it asked for. -/
private def Rel (s : State) (l : Listener) (a : ℚ) : Prop :=
  l.period = granted a s.check ∧ (s.started = false → l.requested = a ∧ (a ≠ 0 → s.check ≤ a))

private theorem granted_lower {a c p : ℚ} (h : a ≠ 0 → c ≤ a) (hp : p < c) (hp1 : 1 ≤ p) :
    granted a p = granted a c := by
  unfold granted
  by_cases ha : a = 0
  · simp [ha]
  · have h1 : p ≠ 0 := by linarith
    have h2 : c ≠ 0 := by linarith
    have h3 := h ha
    simp only [ha, h1, h2, or_self, if_false]
    rw [max_eq_left (by linarith), max_eq_left h3]

private theorem granted_self {a : ℚ} (h : a ≠ 0) : granted a a = a := by
  simp [granted, h]

/-- One operation keeps listeners and requests in step. -/
private theorem rel_step (s : State) (as : List ℚ) (h : List.Forall₂ (Rel s) s.listeners as)
    (o : Op) : List.Forall₂ (Rel (step s o)) (step s o).listeners (as ++ asks s.default [o]) := by
  cases o with
  | start =>
    simp only [step, asks, List.append_nil]
    exact h.imp fun l a ⟨h1, _⟩ => ⟨h1, by simp⟩
  | check now =>
    simp only [step, asks, List.append_nil, checked]
    rw [List.forall₂_map_left_iff]
    refine h.imp fun l a h1 => ?_
    split <;> exact h1
  | register p now =>
    have ha := clamp_ask s.default p
    have h01 := ask_zero_or s.default p
    simp only [step, register, asks, ha]
    generalize ask s.default p = q at h01
    by_cases hc : q ≠ 0 ∧ q < s.check
    · have hq : 1 ≤ q := by rcases h01 with h0 | h0; exact absurd h0 hc.1; exact h0
      rw [if_pos hc]
      by_cases hs : s.started = true
      · rw [if_pos hs]
        refine List.rel_append h (List.Forall₂.cons ⟨?_, by simp [hs]⟩ .nil)
        show determine s.check s.check = granted q s.check
        have hc0 : s.check ≠ 0 := by have := hc.2; linarith
        rw [determine_granted, granted_self hc0]
        simp only [granted, hc.1, hc0, or_self, if_false]
        rw [max_eq_right (by linarith [hc.2])]
      · rw [if_neg hs]
        have hs' : s.started = false := by simpa using hs
        refine List.rel_append ?_ (List.Forall₂.cons ⟨?_, fun _ => ⟨rfl, fun _ => le_refl _⟩⟩ .nil)
        · simp only [checkPeriodChanged]
          rw [List.forall₂_map_left_iff]
          refine h.imp fun l a h1 => ?_
          obtain ⟨h2, h3⟩ := h1
          obtain ⟨h4, h5⟩ := h3 hs'
          refine ⟨?_, fun _ => ⟨h4, fun h0 => by have := h5 h0; have := hc.2; simp only; linarith⟩⟩
          show determine l.requested q = granted a q
          rw [determine_granted, h4]
        · exact determine_granted q q
    · rw [if_neg hc]
      refine List.rel_append (h.imp fun l a h1 => h1) (List.Forall₂.cons ⟨?_, ?_⟩ .nil)
      · exact determine_granted q s.check
      · intro _
        refine ⟨rfl, fun h0 => ?_⟩
        by_contra hlt
        exact hc ⟨h0, by simpa using hlt⟩

private theorem default_step (s : State) (o : Op) : (step s o).default = s.default := by
  cases o with
  | register p now => simp only [step, register]; split <;> (try split) <;> rfl
  | _ => rfl

private theorem asks_append (d : ℚ) (as bs : List Op) : asks d (as ++ bs) = asks d as ++ asks d bs := by
  induction as with
  | nil => rfl
  | cons o as ih => cases o <;> simp [asks, ih]

private theorem rel_exec (os : List Op) : ∀ (s : State) (as : List ℚ),
    List.Forall₂ (Rel s) s.listeners as →
    List.Forall₂ (Rel (exec s os)) (exec s os).listeners (as ++ asks s.default os) := by
  induction os with
  | nil => intro s as h; simpa [exec, asks] using h
  | cons o os ih =>
    intro s as h
    have := ih (step s o) _ (rel_step s as h o)
    rw [default_step, List.append_assoc, ← asks_append] at this
    exact this

private theorem check_started (os : List Op) : ∀ s : State, s.started = true →
    (exec s os).check = s.check := by
  induction os with
  | nil => intro s _; rfl
  | cons o os ih =>
    intro s hs
    simp only [exec]
    cases o with
    | start => exact ih _ rfl
    | check now => exact ih _ hs
    | register p now =>
      have h1 : (step s (.register p now)).started = true := by
        simp only [step, register, hs, if_true]; split <;> rfl
      have h2 : (step s (.register p now)).check = s.check := by
        simp only [step, register, hs, if_true]; split <;> rfl
      rw [ih _ h1, h2]

private theorem check_exec (os : List Op) : ∀ s : State, s.started = false →
    (exec s os).check = ((early s.default os).filter (· ≠ 0)).foldl min s.check := by
  induction os with
  | nil => intro s _; rfl
  | cons o os ih =>
    intro s hs
    simp only [exec]
    cases o with
    | start => rw [check_started _ _ rfl]; rfl
    | check now => exact ih _ hs
    | register p now =>
      have h1 : (step s (.register p now)).started = false := by
        simp only [step, register, hs, Bool.false_eq_true, if_false]; split <;> rfl
      rw [ih _ h1, default_step]
      simp only [early, List.filter_cons]
      have h2 : (step s (.register p now)).check =
          if ask s.default p ≠ 0 then min s.check (ask s.default p) else s.check := by
        simp only [step, register, hs, clamp_ask]
        by_cases h0 : ask s.default p = 0
        · simp [h0]
        · by_cases hlt : ask s.default p < s.check
          · simp [h0, hlt, min_eq_right (le_of_lt hlt)]
          · simp [h0, hlt, min_eq_left (not_lt.1 hlt)]
      rw [h2]
      by_cases h0 : ask s.default p = 0
      · simp [h0]
      · simp [h0]

/-- **C35**: the check period is the smallest of the default and what is asked for before the
start (lifted to a second), and does not change after the start. -/
theorem C35_check (d : ℚ) (os : List Op) : (exec (init d) os).check = checkPeriod d os :=
  check_exec os (init d) rfl

/-- **C35**: after any sequence of registrations, starts and checks there is one listener per
registration and its period is the one to be granted: none if nothing is asked for or the informer
does not resync, otherwise the larger of request and check period. -/
theorem C35_granted (d : ℚ) (os : List Op) :
    (exec (init d) os).listeners.map Listener.period
      = (asks d os).map fun a => granted a (checkPeriod d os) := by
  have h := rel_exec os (init d) [] .nil
  rw [List.nil_append] at h
  change List.Forall₂ _ _ (asks d os) at h
  rw [← C35_check]
  generalize asks d os = as at h
  generalize hs : exec (init d) os = s at h ⊢
  generalize s.listeners = ls at h
  induction h with
  | nil => rfl
  | cons h1 _ ih => simp only [List.map_cons, h1.1, ih]

example : asks 30 [.register none 0, .register (some 10) 0, .register (some 0) 0, .start,
      .register (some (1/2)) 5, .register (some 60) 6] = [30, 10, 0, 1, 60] ∧
    checkPeriod 30 [.register none 0, .register (some 10) 0, .register (some 0) 0, .start,
      .register (some (1/2)) 5, .register (some 60) 6] = 10 ∧
    (exec (init 30) [.register none 0, .register (some 10) 0, .register (some 0) 0, .start,
      .register (some (1/2)) 5, .register (some 60) 6]).listeners.map Listener.period
      = [30, 10, 0, 10, 60] := by
  refine ⟨?_, ?_, ?_⟩
  · norm_num [asks, ask]
  · norm_num [checkPeriod, early, ask]
  · norm_num [exec, step, register, init, clamp, determine, newListener, checkPeriodChanged]

/-! ## C36 -/

/-- **C36**: a check selects exactly the handlers with a period whose next time has come; their
next time becomes one period from now, the others keep theirs. -/
theorem C36_selected (s : State) (now : ℚ) (i : Nat) (l : Listener)
    (h : s.listeners[i]? = some l) :
    (i ∈ selected s.listeners now ↔ l.period ≠ 0 ∧ l.next ≤ now) ∧
    (step s (.check now)).listeners[i]? =
      some { l with next := if l.period ≠ 0 ∧ l.next ≤ now then now + l.period else l.next } := by
  have hlt : i < s.listeners.length := (List.getElem?_eq_some_iff.1 h).1
  refine ⟨?_, ?_⟩
  · simp only [selected, List.mem_filter, List.mem_range, hlt, h, due, Bool.and_eq_true,
      decide_eq_true_eq, true_and]
  · simp only [step, checked, List.getElem?_map, h, Option.map_some, due, Bool.and_eq_true,
      decide_eq_true_eq]
    split <;> rfl

/-- Nothing changes the period of a registered listener; only checks change its next time. -/
private theorem listener_step (s : State) (as : List ℚ) (hr : List.Forall₂ (Rel s) s.listeners as)
    (o : Op) (i : Nat) (l : Listener) (h : s.listeners[i]? = some l) :
    ∃ l', (step s o).listeners[i]? = some l' ∧ l'.period = l.period ∧
      ((∀ t, o ≠ .check t) → l'.next = l.next) := by
  have hlt : i < s.listeners.length := (List.getElem?_eq_some_iff.1 h).1
  cases o with
  | start => exact ⟨l, h, rfl, fun _ => rfl⟩
  | check now => exact ⟨_, (C36_selected s now i l h).2, rfl, fun hc => absurd rfl (hc now)⟩
  | register p now =>
    have h01 := ask_zero_or s.default p
    simp only [step, register, clamp_ask]
    generalize ask s.default p = q at h01
    by_cases hc : q ≠ 0 ∧ q < s.check
    · have hq : 1 ≤ q := by rcases h01 with h0 | h0; exact absurd h0 hc.1; exact h0
      rw [if_pos hc]
      by_cases hs : s.started = true
      · rw [if_pos hs]
        exact ⟨l, by rw [List.getElem?_append_left hlt]; exact h, rfl, fun _ => rfl⟩
      · rw [if_neg hs]
        have hs' : s.started = false := by simpa using hs
        refine ⟨{ l with period := determine l.requested q }, ?_, ?_, fun _ => rfl⟩
        · simp only [checkPeriodChanged]
          rw [List.getElem?_append_left (by simpa using hlt), List.getElem?_map, h]
          rfl
        · have hlen := hr.length_eq
          have hrel : Rel s l (as[i]'(by omega)) := by
            have := List.Forall₂.get hr hlt (by omega)
            have hl : s.listeners[i] = l := (List.getElem?_eq_some_iff.1 h).2
            simpa [hl] using this
          obtain ⟨h2, h3⟩ := hrel
          obtain ⟨h4, h5⟩ := h3 hs'
          simp only
          rw [determine_granted, h4, h2]
          exact granted_lower h5 hc.2 hq
    · rw [if_neg hc]
      exact ⟨l, by rw [List.getElem?_append_left hlt]; exact h, rfl, fun _ => rfl⟩

private theorem checks_expected (os : List Op) : ∀ (s : State) (as : List ℚ),
    List.Forall₂ (Rel s) s.listeners as → ∀ (i : Nat) (l : Listener) (since : ℚ),
    s.listeners[i]? = some l → l.next = since + l.period →
    (checks s os).map (fun c => decide (i ∈ c.2)) = expected l.period since (times os) ∧
    ∃ l', (exec s os).listeners[i]? = some l' ∧ l'.period = l.period := by
  induction os with
  | nil => intro s as _ i l since h _; exact ⟨rfl, l, h, rfl⟩
  | cons o os ih =>
    intro s as hr i l since h hn
    have hr' := rel_step s as hr o
    obtain ⟨l', h1, h2, h3⟩ := listener_step s as hr o i l h
    cases o with
    | start =>
      have := ih _ _ hr' i l' since h1 (by rw [h3 (by simp), h2]; exact hn)
      rw [h2] at this
      exact this
    | register p now =>
      have := ih _ _ hr' i l' since h1 (by rw [h3 (by simp), h2]; exact hn)
      rw [h2] at this
      exact this
    | check now =>
      obtain ⟨h4, h5⟩ := C36_selected s now i l h
      rw [h5] at h1
      simp only [Option.some.injEq] at h1
      simp only [checks, times, List.map_cons, expected]
      rw [hn] at h4
      by_cases hd : l.period ≠ 0 ∧ since + l.period ≤ now
      · rw [if_pos hd, decide_eq_true (h4.2 hd)]
        have := ih _ _ hr' i l' now (by rw [h5, h1]) (by
          rw [← h1]; simp only [hn, hd, and_self, if_true, ne_eq, not_false_eq_true])
        rw [h2] at this
        exact ⟨by rw [this.1], this.2⟩
      · rw [if_neg hd, decide_eq_false (fun hc => hd (h4.1 hc))]
        have := ih _ _ hr' i l' since (by rw [h5, h1]) (by
          rw [← h1]; simp only [hn, hd, if_false])
        rw [h2] at this
        exact ⟨by rw [this.1], this.2⟩

private theorem exec_append (as bs : List Op) : ∀ s : State,
    exec s (as ++ bs) = exec (exec s as) bs := by
  induction as with
  | nil => intro s; rfl
  | cons a as ih => intro s; exact ih _

private theorem default_exec (os : List Op) : ∀ s : State, (exec s os).default = s.default := by
  induction os with
  | nil => intro s; rfl
  | cons o os ih => intro s; rw [exec, ih, default_step]

/-- **C36**: from its registration on, in any sequence of registrations, starts and checks, a
handler is selected by exactly those checks that come at least its granted period after its
registration or its latest selection. -/
theorem C36_schedule (d : ℚ) (before after : List Op) (p : Option ℚ) (now : ℚ) :
    (checks (exec (init d) (before ++ [.register p now])) after).map
        (fun c => decide ((asks d before).length ∈ c.2))
      = expected (granted (ask d p) (checkPeriod d (before ++ .register p now :: after))) now
          (times after) := by
  have hr := rel_exec before (init d) [] .nil
  have hlen : (asks d before).length = (exec (init d) before).listeners.length := by
    have := hr.length_eq
    rw [List.nil_append] at this
    exact this.symm
  have hr' := rel_exec (before ++ [.register p now]) (init d) [] .nil
  have hl : ∃ l, (exec (init d) (before ++ [.register p now])).listeners[(asks d before).length]?
      = some l ∧ l.next = now + l.period := by
    rw [exec_append, hlen]
    simp only [exec, step, register]
    split
    · split
      · exact ⟨_, by simp only [List.getElem?_concat_length]; rfl, rfl⟩
      · refine ⟨_, by rw [List.getElem?_append_right (by simp [checkPeriodChanged])]; simp only [checkPeriodChanged, List.length_map, Nat.sub_self, List.getElem?_cons_zero]; rfl, rfl⟩
    · exact ⟨_, by simp only [List.getElem?_concat_length]; rfl, rfl⟩
  obtain ⟨l, h1, h2⟩ := hl
  obtain ⟨h3, l', h4, h5⟩ := checks_expected after _ _ hr' _ l now h1 h2
  rw [h3]
  congr 1
  rw [← exec_append, List.append_assoc] at h4
  simp only [List.cons_append, List.nil_append] at h4
  have h6 := C35_granted d (before ++ .register p now :: after)
  have h7 := congrArg (fun l : List ℚ => l[(asks d before).length]?) h6
  simp only [List.getElem?_map, h4, Option.map_some, asks_append, List.getElem?_append_right,
    Nat.le_refl, Nat.sub_self, asks, List.cons_append, List.nil_append, List.getElem?_cons_zero,
    Option.some.injEq] at h7
  rw [← h5, h7]

private theorem expected_apart (p since : ℚ) (hp : 0 ≤ p) (ts : List ℚ) (m n : Nat) (hmn : m < n)
    (t u : ℚ) (ht : ts[m]? = some t) (hu : ts[n]? = some u)
    (hm : (expected p since ts)[m]? = some true) (hn : (expected p since ts)[n]? = some true) :
    t + p ≤ u := by
  have late : ∀ (ts : List ℚ) (since : ℚ) (n : Nat) (u : ℚ), ts[n]? = some u →
      (expected p since ts)[n]? = some true → since + p ≤ u := by
    intro ts
    induction ts with
    | nil => intro since n u hu; simp at hu
    | cons t ts ih =>
      intro since n u hu hn
      cases n with
      | zero =>
        simp only [List.getElem?_cons_zero, Option.some.injEq] at hu
        subst hu
        simp only [expected] at hn
        split at hn
        · rename_i h; exact h.2
        · simp at hn
      | succ n =>
        simp only [List.getElem?_cons_succ] at hu
        simp only [expected] at hn
        split at hn
        · rename_i h
          simp only [List.getElem?_cons_succ] at hn
          have := ih t n u hu hn
          linarith [h.2]
        · simp only [List.getElem?_cons_succ] at hn
          exact ih since n u hu hn
  induction ts generalizing since m n with
  | nil => simp at ht
  | cons v ts ih =>
    cases n with
    | zero => omega
    | succ n =>
      simp only [List.getElem?_cons_succ] at hu
      cases m with
      | zero =>
        simp only [List.getElem?_cons_zero, Option.some.injEq] at ht
        subst ht
        simp only [expected] at hm hn
        split at hn
        · simp only [List.getElem?_cons_succ] at hn
          exact late ts v n u hu hn
        · rename_i h
          rw [if_neg h] at hm
          simp at hm
      | succ m =>
        simp only [List.getElem?_cons_succ] at ht
        simp only [expected] at hm hn
        split at hn
        · rename_i h
          rw [if_pos h] at hm
          simp only [List.getElem?_cons_succ] at hm hn
          exact ih v m n (by omega) ht hu hm hn
        · rename_i h
          rw [if_neg h] at hm
          simp only [List.getElem?_cons_succ] at hm hn
          exact ih since m n (by omega) ht hu hm hn

private theorem checks_times (os : List Op) : ∀ s : State, (checks s os).map Prod.fst = times os := by
  induction os with
  | nil => intro s; rfl
  | cons o os ih => intro s; cases o <;> simp [checks, times, ih]

/-- **C36**: two selections of a handler are at least its granted period apart, whatever the order
and the distances of the checks. -/
theorem C36_apart (d : ℚ) (before after : List Op) (p : Option ℚ) (now : ℚ) (m n : Nat) (hmn : m < n)
    (t u : ℚ) (sel sel' : List Nat)
    (hm : (checks (exec (init d) (before ++ [.register p now])) after)[m]? = some (t, sel))
    (hn : (checks (exec (init d) (before ++ [.register p now])) after)[n]? = some (u, sel'))
    (hs : (asks d before).length ∈ sel) (hs' : (asks d before).length ∈ sel') :
    t + granted (ask d p) (checkPeriod d (before ++ .register p now :: after)) ≤ u := by
  have hp : 0 ≤ granted (ask d p) (checkPeriod d (before ++ .register p now :: after)) := by
    unfold granted
    split
    · exact le_refl _
    · rename_i h
      simp only [not_or] at h
      rcases ask_zero_or d p with h0 | h0
      · exact absurd h0 h.1
      · exact le_trans (by linarith) (le_max_left _ _)
  have h1 := C36_schedule d before after p now
  have h2 := checks_times after (exec (init d) (before ++ [.register p now]))
  refine expected_apart _ now hp (times after) m n hmn t u ?_ ?_ ?_ ?_
  · rw [← h2, List.getElem?_map, hm]; rfl
  · rw [← h2, List.getElem?_map, hn]; rfl
  · rw [← h1, List.getElem?_map, hm]; simp [hs]
  · rw [← h1, List.getElem?_map, hn]; simp [hs']

/-- Two handlers with periods 10 and 25 checked every 10 seconds. -/
example : (checks (exec (init 30) [.register (some 10) 0, .register (some 25) 3, .start])
      [.check 10, .check 20, .check 30, .check 40, .check 60]).map Prod.snd
      = [[0], [0], [0, 1], [0], [0, 1]] := by
  have e : exec (init 30) [.register (some 10) 0, .register (some 25) 3, .start]
      = ⟨10, 30, true, [⟨10, 10, 10⟩, ⟨25, 25, 28⟩]⟩ := by
    norm_num [exec, step, register, init, clamp, determine, newListener, checkPeriodChanged]
  rw [e]
  norm_num [checks, selected, checked, step, due, List.range, List.range.loop]

end Aiok8s.Resync
