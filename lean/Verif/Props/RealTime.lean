import Verif.Model.RealTime
import Mathlib.Tactic.Linarith
import Mathlib.Tactic.NormNum
/-!
# Real timers and tickers: C74
-/
set_option linter.unusedSimpArgs false
namespace Aiok8s.RealTime

/-- These times are at least `d` apart, the first at least `d` after `t`. -/
def Spaced (d : ℚ) : ℚ → List ℚ → Prop
  | _, [] => True
  | t, x :: xs => t + d ≤ x ∧ Spaced d x xs

private theorem exec_append (as bs : List Ev) : ∀ s, exec s (as ++ bs) = exec (exec s as) bs := by
  induction as with
  | nil => intro s; rfl
  | cons a as ih => intro s; exact ih _

private theorem taken_append (as bs : List Ev) : ∀ s, taken s (as ++ bs) = taken s as ++ taken (exec s as) bs := by
  induction as with
  | nil => intro s; rfl
  | cons a as ih => intro s; simp only [List.cons_append, taken, exec, ih, List.append_assoc]

/-- The clock does not go back. -/
private theorem clock_step (s : State) (e : Ev) : s.clock ≤ (step s e).1.clock := by
  cases e with
  | advance dt => simp only [step]; split <;> simp_all
  | fire =>
    simp only [step]
    split
    · split
      · split <;> exact le_refl _
      · exact le_refl _
    · exact le_refl _
  | take => exact le_refl _
  | stop => exact le_refl _

private theorem adv_pos (s : State) {dt : ℚ} (h : 0 ≤ dt) :
    step s (.advance dt) = ({ s with clock := s.clock + dt }, none) := by simp only [step, h, if_true]

private theorem adv_neg (s : State) {dt : ℚ} (h : ¬ 0 ≤ dt) : step s (.advance dt) = (s, none) := by
  simp only [step, h, if_false]

private theorem fire_over {s : State} (h : s.pc = .over) : step s .fire = (s, none) := by simp only [step, h]

private theorem fire_early {s : State} {u : ℚ} (h : s.pc = .sleeping u) (hu : ¬ u ≤ s.clock) :
    step s .fire = (s, none) := by simp only [step, h, hu, if_false]

private theorem fire_timer {s : State} {u : ℚ} (h : s.pc = .sleeping u) (hu : u ≤ s.clock) (ht : s.ticker = false) :
    step s .fire = ({ s with c := some s.clock, pc := .over }, none) := by
  obtain ⟨p, tk, cl, c, pc⟩ := s
  simp only at h ht hu
  subst h ht
  simp only [step, hu, if_true, Bool.false_eq_true, if_false]

private theorem fire_ticker {s : State} {u : ℚ} (h : s.pc = .sleeping u) (hu : u ≤ s.clock) (ht : s.ticker = true) :
    step s .fire = ({ s with
      c := if s.c.isNone then some s.clock else s.c
      pc := .sleeping (s.clock + s.period) }, none) := by
  obtain ⟨p, tk, cl, c, pc⟩ := s
  simp only at h ht hu
  subst h ht
  simp only [step, hu, if_true]

/-! ## Timers -/

private theorem over_exec (es : List Ev) : ∀ s : State, s.pc = .over → s.c = none → taken s es = [] := by
  induction es with
  | nil => intro s _ _; rfl
  | cons e es ih =>
    intro s h1 h2
    cases e with
    | advance dt =>
      by_cases hdt : 0 ≤ dt
      · simp only [taken, adv_pos s hdt]; exact ih _ h1 h2
      · simp only [taken, adv_neg s hdt]; exact ih _ h1 h2
    | fire => simp only [taken, fire_over h1]; exact ih _ h1 h2
    | take => simp only [taken, step, h2]; exact ih _ h1 rfl
    | stop => simp only [taken, step]; exact ih _ rfl h2

private theorem over_full (es : List Ev) (x : ℚ) : ∀ s : State, s.pc = .over → s.c = some x →
    taken s es = [] ∨ taken s es = [x] := by
  induction es with
  | nil => intro s _ _; exact .inl rfl
  | cons e es ih =>
    intro s h1 h2
    cases e with
    | advance dt =>
      by_cases hdt : 0 ≤ dt
      · simp only [taken, adv_pos s hdt]; exact ih _ h1 h2
      · simp only [taken, adv_neg s hdt]; exact ih _ h1 h2
    | fire => simp only [taken, fire_over h1]; exact ih _ h1 h2
    | take =>
      right
      simp only [taken, step, h2]
      rw [over_exec es { s with c := none } h1 rfl]; rfl
    | stop => simp only [taken, step]; exact ih _ rfl h2

private theorem timer_go (t d : ℚ) (es : List Ev) : ∀ s : State, s.ticker = false → s.pc = .sleeping (t + d) →
    s.c = none → taken s es = [] ∨ ∃ x, taken s es = [x] ∧ t + d ≤ x := by
  induction es with
  | nil => intro s _ _ _; exact .inl rfl
  | cons e es ih =>
    intro s h0 h1 h2
    cases e with
    | advance dt =>
      by_cases hdt : 0 ≤ dt
      · simp only [taken, adv_pos s hdt]; exact ih _ h0 h1 h2
      · simp only [taken, adv_neg s hdt]; exact ih _ h0 h1 h2
    | take => simp only [taken, step, h2]; exact ih _ h0 h1 rfl
    | stop =>
      simp only [taken, step]
      left
      exact over_exec es _ rfl h2
    | fire =>
      by_cases hle : t + d ≤ s.clock
      · simp only [taken, fire_timer h1 hle h0]
        rcases over_full es s.clock { s with c := some s.clock, pc := .over } rfl rfl with h | h
        · left; simpa using h
        · right; exact ⟨s.clock, by simpa using h, hle⟩
      · simp only [taken, fire_early h1 hle]; exact ih _ h0 h1 h2

/-- **C74**, timers: a timer gives at most one value, the time at which it fired, which is not before `d`
has passed. -/
theorem C74_timer (d now : ℚ) (es : List Ev) :
    taken (newTimer d now) es = [] ∨ ∃ x, taken (newTimer d now) es = [x] ∧ now + d ≤ x :=
  timer_go now d es (newTimer d now) rfl rfl rfl

/-- What a timer that has not fired and has not been stopped looks like. -/
private theorem timer_state (d now : ℚ) (es : List Ev) : ∀ s : State, s.ticker = false →
    s.pc = .sleeping (now + d) → s.c = none → (∀ e ∈ es, e ≠ .stop) →
    ((exec s es).pc = .sleeping (now + d) ∧ (exec s es).c = none ∧ (exec s es).ticker = false ∧ taken s es = []) ∨
    ((exec s es).pc = .over ∧ ∃ x, now + d ≤ x ∧
      ((exec s es).c = some x ∧ taken s es = [] ∨ (exec s es).c = none ∧ taken s es = [x])) := by
  have over : ∀ (es : List Ev) (s : State) (x : ℚ), s.pc = .over →
      (s.c = some x → (exec s es).pc = .over ∧ ((exec s es).c = some x ∧ taken s es = [] ∨
        (exec s es).c = none ∧ taken s es = [x])) ∧
      (s.c = none → (exec s es).pc = .over ∧ (exec s es).c = none ∧ taken s es = []) := by
    intro es
    induction es with
    | nil => intro s x h; exact ⟨fun hc => ⟨h, .inl ⟨hc, rfl⟩⟩, fun hc => ⟨h, hc, rfl⟩⟩
    | cons e es ih =>
      intro s x h
      cases e with
      | advance dt =>
        by_cases hdt : 0 ≤ dt
        · simp only [taken, exec, adv_pos s hdt]; exact ih { s with clock := s.clock + dt } x h
        · simp only [taken, exec, adv_neg s hdt]; exact ih s x h
      | fire => simp only [taken, exec, fire_over h]; exact ih s x h
      | stop => simp only [taken, exec, step]; exact ih { s with pc := .over } x rfl
      | take =>
        simp only [taken, exec, step]
        constructor
        · intro hc
          obtain ⟨h1, h2, h3⟩ := (ih { s with c := none } x h).2 rfl
          exact ⟨h1, .inr ⟨h2, by rw [hc, h3]; rfl⟩⟩
        · intro hc
          obtain ⟨h1, h2, h3⟩ := (ih { s with c := none } x h).2 rfl
          exact ⟨h1, h2, by rw [hc, h3]; rfl⟩
  induction es with
  | nil => intro s h0 h1 h2 _; exact .inl ⟨h1, h2, h0, rfl⟩
  | cons e es ih =>
    intro s h0 h1 h2 hs
    have hs' : ∀ e ∈ es, e ≠ .stop := fun e h => hs e (by simp [h])
    cases e with
    | advance dt =>
      by_cases hdt : 0 ≤ dt
      · simp only [taken, exec, adv_pos s hdt]; exact ih _ h0 h1 h2 hs'
      · simp only [taken, exec, adv_neg s hdt]; exact ih _ h0 h1 h2 hs'
    | take => simp only [taken, exec, step, h2]; exact ih _ h0 h1 rfl hs'
    | stop => exact absurd rfl (hs .stop (by simp))
    | fire =>
      by_cases hle : now + d ≤ s.clock
      · simp only [taken, exec, fire_timer h1 hle h0]
        obtain ⟨a, b⟩ := (over es { s with c := some s.clock, pc := .over } s.clock rfl).1 rfl
        exact .inr ⟨a, s.clock, hle, b⟩
      · simp only [taken, exec, fire_early h1 hle]; exact ih _ h0 h1 h2 hs'

/-- **C74**, timers: a timer that is not stopped can fire as soon as `d` has passed, and then its value can
be taken. -/
theorem C74_timer_fires (d now : ℚ) (es : List Ev) (hs : ∀ e ∈ es, e ≠ .stop)
    (h : now + d ≤ (exec (newTimer d now) es).clock) :
    ∃ x, taken (newTimer d now) (es ++ [.fire, .take]) = [x] := by
  rw [taken_append]
  rcases timer_state d now es (newTimer d now) rfl rfl rfl hs with ⟨h1, h2, h3, h4⟩ | ⟨h1, x, -, h2⟩
  · refine ⟨(exec (newTimer d now) es).clock, ?_⟩
    simp [taken, step, h1, h2, h3, h4, h]
  · refine ⟨x, ?_⟩
    rcases h2 with ⟨h2, h3⟩ | ⟨h2, h3⟩
    · simp [taken, step, h1, h2, h3]
    · simp [taken, step, h1, h2, h3]

/-- **C74**, timers: a timer stopped before it fired never gives a value. -/
theorem C74_timer_stopped (d now : ℚ) (es more : List Ev) (hs : ∀ e ∈ es, e ≠ .fire) :
    taken (newTimer d now) (es ++ .stop :: more) = [] := by
  have h0 : ∀ (es : List Ev) (s : State), s.c = none → (∀ e ∈ es, e ≠ .fire) →
      (exec s es).c = none ∧ taken s es = [] := by
    intro es
    induction es with
    | nil => intro s h _; exact ⟨h, rfl⟩
    | cons e es ih =>
      intro s h hs
      have hs' : ∀ e ∈ es, e ≠ .fire := fun e h => hs e (by simp [h])
      cases e with
      | advance dt =>
        simp only [taken, exec, step]
        split
        · exact ih _ h hs'
        · exact ih _ h hs'
      | take => simp only [taken, exec, step, h]; exact ih _ rfl hs'
      | stop => simp only [taken, exec, step]; exact ih _ h hs'
      | fire => exact absurd rfl (hs .fire (by simp))
  obtain ⟨h1, h2⟩ := h0 es (newTimer d now) rfl hs
  rw [taken_append, h2]
  simp only [taken, step, Option.toList_none, List.nil_append]
  exact over_exec more _ rfl h1

/-! ## Tickers -/

private theorem spaced_mono {d : ℚ} : ∀ {t u : ℚ} {xs : List ℚ}, Spaced d t xs → u ≤ t → Spaced d u xs
  | _, _, [], _, _ => trivial
  | _, _, _ :: _, h, hu => ⟨by linarith [h.1], h.2⟩

/-- A ticker whose last tick was at `t` or later: the next is `d` later; a tick in the queue may be older. -/
private theorem ticker_go (d : ℚ) (hd : 0 ≤ d) (es : List Ev) : ∀ (s : State) (t : ℚ), s.period = d →
    s.ticker = true → t ≤ s.clock →
    (s.pc = .over ∨ s.pc = .sleeping (t + d)) →
    (s.c = none → Spaced d t (taken s es)) ∧
    (∀ x, s.c = some x → x ≤ t → ∃ xs, (taken s es = [] ∨ taken s es = x :: xs) ∧ Spaced d x xs) := by
  induction es with
  | nil =>
    intro s t _ _ _ _
    exact ⟨fun _ => trivial, fun x _ _ => ⟨[], .inl rfl, trivial⟩⟩
  | cons e es ih =>
    intro s t hp hk ht hpc
    cases e with
    | advance dt =>
      simp only [taken, step]
      split
      · rename_i hdt
        have := ih { s with clock := s.clock + dt } t hp hk (by show t ≤ s.clock + dt; linarith) hpc
        exact this
      · exact ih s t hp hk ht hpc
    | stop =>
      simp only [taken, step]
      exact ih { s with pc := .over } t hp hk ht (.inl rfl)
    | take =>
      simp only [taken, step]
      have := ih { s with c := none } t hp hk ht hpc
      constructor
      · intro hc
        rw [hc]
        exact this.1 rfl
      · intro x hc hx
        rw [hc]
        refine ⟨taken { s with c := none } es, .inr rfl, ?_⟩
        exact spaced_mono (this.1 rfl) hx
    | fire =>
      rcases hpc with hpc | hpc
      · simp only [taken, fire_over hpc]
        exact ih s t hp hk ht (.inl hpc)
      · by_cases hle : t + d ≤ s.clock
        · simp only [taken, fire_ticker hpc hle hk]
          have hih := ih { s with c := if s.c.isNone then some s.clock else s.c, pc := .sleeping (s.clock + s.period) }
            s.clock hp hk (le_refl _) (.inr (by rw [hp]))
          constructor
          · intro hc
            obtain ⟨xs, h1, h2⟩ := hih.2 s.clock (by simp [hc]) (le_refl _)
            simp only [Option.toList_none, List.nil_append]
            rcases h1 with h1 | h1
            · rw [h1]; trivial
            · rw [h1]; exact ⟨hle, h2⟩
          · intro x hc hx
            have hx' : x ≤ s.clock := by linarith
            obtain ⟨xs, h1, h2⟩ := hih.2 x (by simp [hc]) hx'
            exact ⟨xs, h1, h2⟩
        · simp only [taken, fire_early hpc hle]; exact ih s t hp hk ht (.inr hpc)

/-- **C74**, tickers: the ticks that are taken are at least `d` apart, the first not before `d` has
passed; at whatever times they are taken. -/
theorem C74_ticker (d now : ℚ) (hd : 0 ≤ d) (es : List Ev) : Spaced d now (taken (newTicker d now) es) :=
  (ticker_go d hd es (newTicker d now) now rfl rfl (le_refl _) (.inr rfl)).1 rfl

private theorem taken_le (es : List Ev) : ∀ s : State, (∀ x, s.c = some x → x ≤ s.clock) →
    (∀ x, (exec s es).c = some x → x ≤ (exec s es).clock) ∧
    ∀ x ∈ taken s es, x ≤ (exec s es).clock := by
  induction es with
  | nil => intro s h; exact ⟨h, by simp [taken]⟩
  | cons e es ih =>
    intro s h
    have hmono : ∀ (es : List Ev) (s : State), s.clock ≤ (exec s es).clock := by
      intro es
      induction es with
      | nil => intro s; exact le_refl _
      | cons e es ih => intro s; exact le_trans (clock_step s e) (ih _)
    have h' : ∀ x, (step s e).1.c = some x → x ≤ (step s e).1.clock := by
      cases e with
      | advance dt =>
        simp only [step]
        split
        · intro x hx; have := h x hx; show x ≤ s.clock + dt; linarith
        · exact h
      | take => simp [step]
      | stop => exact h
      | fire =>
        simp only [step]
        split
        · split
          · split
            · intro x hx
              simp only at hx
              split at hx
              · cases hx; exact le_refl _
              · exact h x hx
            · intro x hx; cases hx; exact le_refl _
          · exact h
        · exact h
    obtain ⟨h1, h2⟩ := ih _ h'
    refine ⟨h1, ?_⟩
    intro x hx
    rcases List.mem_append.1 hx with hx | hx
    · have hx' : x ≤ s.clock := by
        cases e with
        | take => exact h x (by simpa [step] using hx)
        | advance dt => simp [step] at hx
        | stop => simp [step] at hx
        | fire =>
          simp only [step] at hx
          split at hx
          · split at hx
            · split at hx <;> simp at hx
            · simp at hx
          · simp at hx
      exact le_trans hx' (hmono (e :: es) s)
    · exact h2 x hx

private theorem spaced_count {d : ℚ} (hd : 0 ≤ d) : ∀ {t T : ℚ} {xs : List ℚ}, Spaced d t xs →
    (∀ x ∈ xs, x ≤ T) → t ≤ T → t + xs.length * d ≤ T
  | t, T, [], _, _, h => by simpa using h
  | t, T, x :: xs, h, hx, _ => by
    have := spaced_count hd h.2 (fun y hy => hx y (by simp [hy])) (hx x (by simp))
    have h1 := h.1
    rw [List.length_cons]
    push_cast
    linarith

/-- **C74**, tickers: in any stretch of time no more ticks than the stretch has periods. -/
theorem C74_ticker_count (d now : ℚ) (hd : 0 ≤ d) (es : List Ev) :
    ((taken (newTicker d now) es).length : ℚ) * d ≤ (exec (newTicker d now) es).clock - now := by
  have h := spaced_count hd (C74_ticker d now hd es) (taken_le es (newTicker d now) (by simp [newTicker])).2
    (by
      have hmono : ∀ (es : List Ev) (s : State), s.clock ≤ (exec s es).clock := by
        intro es
        induction es with
        | nil => intro s; exact le_refl _
        | cons e es ih => intro s; exact le_trans (clock_step s e) (ih _)
      exact hmono es (newTicker d now))
  linarith

private theorem ticker_alive (es : List Ev) : ∀ s : State, s.ticker = true → (∀ e ∈ es, e ≠ .stop) →
    (∃ u, s.pc = .sleeping u ∧ u ≤ s.clock + s.period) →
    (exec s es).ticker = true ∧ (exec s es).period = s.period ∧
    ∃ u, (exec s es).pc = .sleeping u ∧ u ≤ (exec s es).clock + s.period := by
  induction es with
  | nil => intro s h _ hu; exact ⟨h, rfl, hu⟩
  | cons e es ih =>
    intro s h hs hu
    have hs' : ∀ e ∈ es, e ≠ .stop := fun e h => hs e (by simp [h])
    obtain ⟨u, hu, hle⟩ := hu
    cases e with
    | stop => exact absurd rfl (hs .stop (by simp))
    | take => exact ih { s with c := none } h hs' ⟨u, hu, hle⟩
    | advance dt =>
      simp only [exec, step]
      split
      · exact ih { s with clock := s.clock + dt } h hs' ⟨u, hu, by show u ≤ s.clock + dt + s.period; linarith⟩
      · exact ih s h hs' ⟨u, hu, hle⟩
    | fire =>
      by_cases hle' : u ≤ s.clock
      · simp only [exec, fire_ticker hu hle' h]
        exact ih { s with c := if s.c.isNone then some s.clock else s.c, pc := .sleeping (s.clock + s.period) } h hs'
          ⟨s.clock + s.period, rfl, le_refl _⟩
      · simp only [exec, fire_early hu hle']; exact ih s h hs' ⟨u, hu, hle⟩

/-- **C74**, tickers: a ticker that is not stopped goes on for ever: whatever happened so far, when another
period has passed it can fire, and then there is a tick to take. -/
theorem C74_ticker_goes_on (d now : ℚ) (hd : 0 ≤ d) (es : List Ev) (hs : ∀ e ∈ es, e ≠ .stop) :
    ∃ x, (step (exec (newTicker d now) (es ++ [.advance d, .fire])) .take).2 = some x := by
  obtain ⟨h1, h2, u, h3, h4⟩ := ticker_alive es (newTicker d now) rfl hs ⟨now + d, rfl, le_refl _⟩
  rw [exec_append]
  generalize exec (newTicker d now) es = s at *
  have h4 : u ≤ s.clock + d := h4
  simp only [exec, step, hd, if_true, h3, h1, h4]
  cases hc : s.c with
  | none => exact ⟨s.clock + d, by simp⟩
  | some x => exact ⟨x, by simp⟩

/-- **C74**, tickers: after `stop` only a tick that is already in the queue can be taken. -/
theorem C74_ticker_stopped (d now : ℚ) (es more : List Ev) :
    taken (exec (newTicker d now) (es ++ [.stop])) more = [] ∨
    ∃ x, (exec (newTicker d now) es).c = some x ∧ taken (exec (newTicker d now) (es ++ [.stop])) more = [x] := by
  rw [exec_append]
  generalize exec (newTicker d now) es = s
  simp only [exec, step]
  rcases Option.eq_none_or_eq_some s.c with hc | ⟨x, hc⟩
  · exact .inl (over_exec more _ rfl hc)
  · rcases over_full more x { s with pc := .over } rfl hc with h | h
    · exact .inl h
    · exact .inr ⟨x, hc, h⟩

/-! ## Runs -/

-- a timer
example : taken (newTimer 5 0) [.advance 3, .fire, .take, .advance 4, .fire, .advance 1, .take, .take] = [7] := by
  decide +kernel
example : 0 + 5 ≤ (exec (newTimer 5 0) [.advance 3, .fire, .advance 4]).clock := by decide +kernel
example : taken (newTimer 5 0) ([.advance 9] ++ .stop :: [.fire, .take]) = [] := by decide +kernel
-- a ticker that is not read in time loses ticks
example : taken (newTicker 5 0) [.advance 5, .fire, .advance 5, .fire, .advance 5, .fire, .take, .take, .advance 5,
    .fire, .take] = [5, 20] := by decide +kernel
example : taken (exec (newTicker 5 0) ([.advance 5, .fire] ++ [.stop])) [.advance 9, .fire, .take, .take] = [5] := by
  decide +kernel

end Aiok8s.RealTime
