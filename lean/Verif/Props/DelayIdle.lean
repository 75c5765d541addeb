import Verif.Spec.DelayIdle
import Verif.Props.DelayQueue
import Mathlib.Data.List.Induction
/-!
# C110: `add_after` is punctual on an idle event loop
-/
set_option linter.unusedSimpArgs false
namespace Aiok8s.DelayQueue
open Aiok8s Aiok8s.DelayHeap Spec
variable {α : Type} [DecidableEq α]

/-- Only time changes the clock. -/
theorem clock_step {s : State α} {e : Ev α} (he : ∀ d, e ≠ .tick d) : (step s e).1.clock = s.clock := by
  cases e with
  | tick d => exact absurd rfl (he d)
  | base o => cases o <;> rfl
  | addAfter x d =>
    simp only [step, addAfter]
    split
    · rfl
    · split <;> rfl
  | putDone i =>
    simp only [step]
    split
    · split <;> rfl
    · rfl
  | putCancel i => simp only [step]; split <;> rfl
  | shutDown => rfl
  | wake w =>
    simp only [step, wakeStep]
    split
    · split
      · split <;> rfl
      · rfl
      · split
        · split <;> rfl
        · rfl
      · split <;> rfl
    · rfl
  | loop =>
    simp only [step, loopStep]
    split
    · split <;> rfl
    · split
      · split
        · rfl
        · split
          · rfl
          · split <;> rfl
      · rfl
    · rfl
    · split
      · rfl
      · split
        · rfl
        · simp only [file]; split <;> rfl
    · split
      · rfl
      · simp only [file]; split <;> rfl
    · rfl

/-- The local `now` of a round is read at its beginning. -/
private theorem popping_step {s : State α} {e : Ev α} {n : ℚ} (h : (step s e).1.pc = .popping n) :
    s.pc = .popping n ∨ (e = .loop ∧ s.pc = .top ∧ n = s.clock) := by
  cases e with
  | tick d =>
    left
    simp only [step] at h
    split at h <;> exact h
  | base o => left; cases o <;> exact h
  | addAfter x d =>
    left
    simp only [step, addAfter] at h
    split at h
    · exact h
    · split at h <;> exact h
  | putDone i =>
    left
    simp only [step] at h
    split at h
    · split at h <;> exact h
    · exact h
  | putCancel i => left; simp only [step] at h; split at h <;> exact h
  | shutDown => left; exact h
  | wake w =>
    left
    simp only [step, wakeStep] at h
    split at h
    · split at h
      · split at h
        · cases h
        · exact h
      · cases h
      · split at h
        · split at h
          · cases h
          · exact h
        · exact h
      · split at h
        · cases h
        · exact h
    · exact h
  | loop =>
    cases hp : s.pc with
    | top =>
      right
      simp only [step, loopStep, hp] at h
      split at h
      · cases h
      · cases h; exact ⟨rfl, rfl, rfl⟩
    | popping m =>
      left
      simp only [step, loopStep, hp] at h
      repeat' split at h
      all_goals first | cases h | skip
      all_goals simp_all
    | sleeping t => simp only [step, loopStep, hp] at h; cases h
    | exited => simp only [step, loopStep, hp] at h; cases h
    | woke e =>
      simp only [step, loopStep, hp] at h
      split at h
      · cases h
      · split at h <;> cases h
    | draining =>
      simp only [step, loopStep, hp] at h
      split at h
      · cases h
      · simp only [file] at h
        split at h <;> simp [hp] at h

/-- When the tasks can do nothing for some time, the delay loop sleeps, nothing waits for it, and its timer is not due
within this time. -/
private theorem quiet_sleeps {s : State α} {d : ℚ} (hb : Base s) (hst : s.stop = false) (hd : 0 < d)
    (hq : QuietFor s d) :
    ∃ timer, s.pc = .sleeping timer ∧ s.chan = [] ∧ s.puts = [] ∧ ∀ f, timer = some f → s.clock + d ≤ f := by
  have h0 : ∀ e, own e = true → step s e = (s, []) := by
    intro e he
    have := hq 0 (le_refl _) hd e he
    simpa using this
  have hl := h0 .loop rfl
  cases hp : s.pc with
  | exited => exact absurd hp (hb.alive hst)
  | top =>
    simp only [step, loopStep, hp, hb.sd, Bool.false_eq_true, if_false] at hl
    have := congrArg (fun r => r.1.pc) hl
    rw [hp] at this
    cases this
  | woke e =>
    simp only [step, loopStep, hp, hst, Bool.false_eq_true, if_false] at hl
    split at hl
    · have := congrArg (fun r => r.1.pc) hl
      rw [hp] at this
      cases this
    · have := congrArg (fun r => r.1.pc) hl
      rw [hp] at this
      cases this
  | draining =>
    simp only [step, loopStep, hp] at hl
    split at hl
    · have := congrArg (fun r => r.1.pc) hl
      rw [hp] at this
      cases this
    · rename_i e rest hc
      have := congrArg (fun r => r.1.chan.length) hl
      simp only [file] at this
      split at this <;> simp [hc] at this
  | popping n =>
    exfalso
    simp only [step, loopStep, hp] at hl
    split at hl
    · split at hl
      · have := congrArg (fun r => r.1.pc) hl
        rw [hp] at this
        cases this
      · split at hl
        · have := congrArg (fun r => r.1.pc) hl
          rw [hp] at this
          cases this
        · split at hl
          · have := congrArg (fun r => r.1.pc) hl
            rw [hp] at this
            cases this
          · have := congrArg Prod.snd hl
            cases this
    · have := congrArg (fun r => r.1.pc) hl
      rw [hp] at this
      cases this
  | sleeping timer =>
    have hc : s.chan = [] := by
      cases hc : s.chan with
      | nil => rfl
      | cons e rest =>
        have := congrArg (fun r => r.1.pc) (h0 (.wake .item) rfl)
        simp [step, wakeStep, hp, hc] at this
    refine ⟨timer, rfl, hc, ?_, ?_⟩
    · cases hu : s.puts with
      | nil => rfl
      | cons e rest =>
        have := congrArg (fun r => r.1.puts.length) (h0 (.putDone 0) rfl)
        simp [step, hu, hc] at this
    · rintro f rfl
      by_contra hlt
      rw [not_le] at hlt
      have hx := hq (max 0 (f - s.clock)) (le_max_left _ _) (max_lt hd (by linarith)) (.wake .timer) rfl
      have hle : f ≤ s.clock + max 0 (f - s.clock) := by
        have := le_max_right 0 (f - s.clock)
        linarith
      have := congrArg (fun r => r.1.pc) hx
      simp [step, wakeStep, hp, hle] at this

/-- What holds on an idle event loop. -/
structure Punctual (s : State α) : Prop where
  held : ∀ x r, Held s x r → s.clock ≤ r
  now : ∀ n, s.pc = .popping n → n = s.clock
  timer : ∀ t, s.pc = .sleeping t → (t = none → ∀ x, dl s.heap x = none) ∧
    ∀ f, t = some f → ∀ x r, dl s.heap x = some r → f ≤ r

theorem punctual_step {s : State α} {e : Ev α} (hb : Base s) (hst : s.stop = false) (h : Punctual s)
    (hq : ∀ d, e = .tick d → QuietFor s d) : Punctual (step s e).1 := by
  by_cases he : ∃ d, e = .tick d
  · obtain ⟨d, rfl⟩ := he
    simp only [step]
    by_cases hd : 0 ≤ d
    · rw [if_pos hd]
      rcases hd.eq_or_lt with h0 | h0
      · subst h0
        simpa using h
      · obtain ⟨timer, hp, hc, hu, hf⟩ := quiet_sleeps hb hst h0 (hq d rfl)
        obtain ⟨t1, t2⟩ := h.timer timer hp
        refine ⟨?_, fun n hn => ?_, h.timer⟩
        · intro x r hx
          rw [held_iff] at hx
          simp only [hc, hu, hp, List.not_mem_nil, false_or, reduceCtorEq] at hx
          cases timer with
          | none => rw [t1 rfl x] at hx; cases hx
          | some f => exact (hf f rfl).trans (t2 f rfl x r hx)
        · rw [show ({ s with clock := s.clock + d } : State α).pc = s.pc from rfl, hp] at hn
          cases hn
    · rw [if_neg hd]
      exact h
  · have he' : ∀ d, e ≠ .tick d := fun d hd => he ⟨d, hd⟩
    have hck := clock_step (s := s) he'
    obtain ⟨heff, -⟩ := step_effect hb e
    refine ⟨?_, ?_, ?_⟩
    · rw [hck]
      generalize (step s e).1 = s' at heff ⊢
      generalize (step s e).2 = o at heff
      cases heff with
      | quiet hback _ _ => exact fun x r hx => h.held x r (hback x r hx)
      | called y d hd hiff _ =>
        intro x r hx
        rcases (hiff x r).1 hx with hx | ⟨-, rfl⟩
        · exact h.held x r hx
        · linarith
      | added y r' _ _ hback _ _ => exact fun x r hx => h.held x r (hback x r hx)
    · intro n hn
      rw [hck]
      rcases popping_step hn with h1 | ⟨-, -, h1⟩
      · exact h.now n h1
      · exact h1
    · intro t ht
      by_cases hl : e = .loop
      · subst hl
        by_cases hsl : ∃ t, s.pc = .sleeping t
        · obtain ⟨t', ht'⟩ := hsl
          have : (step s .loop).1 = s := by simp [step, loopStep, ht']
          rw [this] at ht ⊢
          exact h.timer t ht
        · obtain ⟨n, hn, hh⟩ := loop_sleep hb ht fun t ht => hsl ⟨t, ht⟩
          rcases hh with ⟨rfl, h2⟩ | ⟨x, e, rfl, h2, h3⟩
          · exact ⟨fun _ => h2, nofun⟩
          · refine ⟨nofun, fun f hf y r hy => ?_⟩
            cases hf
            have := h.now n hn
            have := h3 y r hy
            linarith
      · obtain ⟨h1, h2⟩ := other_same (s := s) hl
        rw [h1]
        exact h.timer t (h2 t ht)

private theorem idle_left {t0 : ℚ} {a b : List (Ev α)} (h : Idle t0 (a ++ b)) : Idle t0 a := by
  intro c d e hc
  exact h c d (e ++ b) (by rw [hc]; simp)

private theorem stop_exec (es : List (Ev α)) (hns : ∀ e ∈ es, isShutDown e = false) :
    ∀ (s : State α), s.stop = false → (exec s es).stop = false := by
  induction es with
  | nil => intro s h; exact h
  | cons e es ih =>
    intro s h
    exact ih (fun e he => hns e (by simp [he])) _ ((stop_stays (hns e (by simp))).trans h)

private theorem punctual_exec (t0 : ℚ) (es : List (Ev α)) (hns : ∀ e ∈ es, isShutDown e = false) (hi : Idle t0 es) :
    Punctual (exec (init t0) es) := by
  induction es using List.reverseRecOn with
  | nil =>
    refine ⟨fun x r hx => ?_, nofun, nofun⟩
    simp [Held, exec, init, DelayHeap.init] at hx
  | append_singleton es e ih =>
    have hns' : ∀ e ∈ es, isShutDown e = false := fun e he => hns e (by simp [he])
    rw [exec_append]
    refine punctual_step (base_exec (base_init t0) es) (stop_exec es hns' _ rfl) (ih hns' (idle_left hi)) ?_
    rintro d rfl
    exact hi es d [] (by simp)

/-- Every line of the log is written in one move. -/
private theorem log_split (es : List (Ev α)) : ∀ (s : State α) (A : List (Log α)) (l : Log α) (B : List (Log α)),
    Base s → logOf s es = A ++ l :: B →
    ∃ es1 e es2, es = es1 ++ e :: es2 ∧ logOf s es1 = A ∧ (step (exec s es1) e).2 = [l] := by
  induction es with
  | nil => intro s A l B _ h; simp [logOf] at h
  | cons e es ih =>
    intro s A l B hb h
    simp only [logOf] at h
    obtain ⟨heff, hb'⟩ := step_effect hb e
    have key : (step s e).2 = [] ∨ ∃ m, (step s e).2 = [m] := by
      generalize (step s e).2 = o at heff
      cases heff with
      | quiet => left; rfl
      | called => right; exact ⟨_, rfl⟩
      | added => right; exact ⟨_, rfl⟩
    rcases key with hk | ⟨m, hk⟩
    · rw [hk, List.nil_append] at h
      obtain ⟨es1, e', es2, h1, h2, h3⟩ := ih _ A l B hb' h
      exact ⟨e :: es1, e', es2, by rw [h1]; rfl, by simp [logOf, hk, h2], h3⟩
    · rw [hk] at h
      cases A with
      | nil =>
        simp only [List.cons_append, List.nil_append, List.cons.injEq] at h
        exact ⟨[], e, es, rfl, rfl, by rw [← h.1]; exact hk⟩
      | cons a A =>
        simp only [List.cons_append, List.nil_append, List.cons.injEq] at h
        obtain ⟨es1, e', es2, h1, h2, h3⟩ := ih _ A l B hb' h.2
        exact ⟨e :: es1, e', es2, by rw [h1]; rfl, by simp [logOf, hk, h2, h.1], h3⟩

private theorem src_exec (es : List (Ev α)) : ∀ (s : State α) (L : List (Log α)), Base s →
    (∀ x r, Held s x r → ∃ d t, Log.called x d t ∈ L ∧ 0 < d ∧ t + d = r) →
    ∀ x r, Held (exec s es) x r → ∃ d t, Log.called x d t ∈ L ++ logOf s es ∧ 0 < d ∧ t + d = r := by
  induction es with
  | nil => intro s L _ h; simpa [logOf, exec] using h
  | cons e es ih =>
    intro s L hb hs
    obtain ⟨heff, hb'⟩ := step_effect hb e
    simp only [logOf, exec]
    rw [← List.append_assoc]
    refine ih _ _ hb' ?_
    generalize (step s e).1 = s' at heff
    generalize (step s e).2 = o at heff
    cases heff with
    | quiet hback _ _ =>
      intro x r h
      simpa using hs x r (hback x r h)
    | called x d hd hiff _ =>
      intro y r h
      rcases (hiff y r).1 h with h | ⟨rfl, rfl⟩
      · obtain ⟨d, t, h1, h2⟩ := hs y r h
        exact ⟨d, t, by simp [h1], h2⟩
      · exact ⟨d, s.clock, by simp, hd, rfl⟩
    | added x r hr hx hback _ _ =>
      intro y r h
      obtain ⟨d, t, h1, h2⟩ := hs y r (hback y r h)
      exact ⟨d, t, by simp [h1], h2⟩

/-- **C110**: on an idle event loop the delay loop adds an item only at the very moment at which the delay of an earlier
`add_after` for it ends. -/
theorem C110_exact (t0 : ℚ) (es : List (Ev α)) (hns : ∀ e ∈ es, isShutDown e = false) (hi : Idle t0 es)
    (a : List (Log α)) (x : α) (τ : ℚ) (b : List (Log α)) (h : logOf (init t0) es = a ++ Log.loopAdd x τ :: b) :
    ∃ d t, Log.called x d t ∈ a ∧ 0 < d ∧ t + d = τ := by
  obtain ⟨es1, e, es2, rfl, h2, h3⟩ := log_split es _ _ _ _ (base_init t0) h
  have hb := base_exec (base_init t0 (α := α)) es1
  have hp := punctual_exec t0 es1 (fun e he => hns e (by simp [he])) (idle_left hi)
  have hs := src_exec es1 (init t0) [] (base_init t0) (by
    intro x r hx
    simp [Held, init, DelayHeap.init] at hx)
  rw [List.nil_append, h2] at hs
  obtain ⟨heff, -⟩ := step_effect hb e
  rw [h3] at heff
  cases heff with
  | added _ r hr hx _ _ _ =>
    have := le_antisymm (hp.held x r hx) hr
    rw [this]
    exact hs x r hx

/-- **C110**: on an idle event loop an item is added, after an `add_after` with delay `d` at `t`, at the latest at
`t + d`: once this time is past, it has been. -/
theorem C110_punctual (t0 : ℚ) (es : List (Ev α)) (hns : ∀ e ∈ es, isShutDown e = false) (hi : Idle t0 es)
    (a : List (Log α)) (x : α) (d t : ℚ) (b : List (Log α)) (h : logOf (init t0) es = a ++ Log.called x d t :: b)
    (hlate : t + d < (exec (init t0) es).clock) : ∃ τ, Log.loopAdd x τ ∈ b ∧ τ ≤ t + d := by
  by_cases hn : ∀ τ, Log.loopAdd x τ ∉ b
  · exfalso
    obtain ⟨⟨r, h1, h2⟩, -⟩ := C14_not_forgotten t0 es hns a x d t b h hn
    have := (punctual_exec t0 es hns hi).held x r h2
    linarith
  · -- the first one
    obtain ⟨b1, τ, b2, rfl, hb1⟩ : ∃ b1 τ b2, b = b1 ++ Log.loopAdd x τ :: b2 ∧ ∀ σ, Log.loopAdd x σ ∉ b1 := by
      clear h
      induction b with
      | nil => simp at hn
      | cons l b ih =>
        by_cases hl : ∃ τ, l = .loopAdd x τ
        · obtain ⟨τ, rfl⟩ := hl
          exact ⟨[], τ, b, rfl, by simp⟩
        · have hn' : ¬ ∀ τ, Log.loopAdd x τ ∉ b := by
            intro hc
            refine hn fun τ hm => ?_
            rcases List.mem_cons.1 hm with h1 | h1
            · exact hl ⟨τ, h1.symm⟩
            · exact hc τ h1
          obtain ⟨b1, τ, b2, rfl, h2⟩ := ih hn'
          refine ⟨l :: b1, τ, b2, rfl, fun σ hm => ?_⟩
          rcases List.mem_cons.1 hm with h1 | h1
          · exact hl ⟨σ, h1.symm⟩
          · exact h2 σ h1
    refine ⟨τ, by simp, ?_⟩
    have h' : logOf (init t0) es = (a ++ Log.called x d t :: b1) ++ Log.loopAdd x τ :: b2 := by rw [h]; simp
    obtain ⟨es1, e, es2, rfl, h2, h3⟩ := log_split es _ _ _ _ (base_init t0) h'
    have hns1 : ∀ e ∈ es1, isShutDown e = false := fun e he => hns e (by simp [he])
    obtain ⟨⟨r, h4, h5⟩, -⟩ := C14_not_forgotten t0 es1 hns1 a x d t b1 h2 hb1
    have hp := (punctual_exec t0 es1 hns1 (idle_left hi)).held x r h5
    obtain ⟨heff, -⟩ := step_effect (base_exec (base_init t0 (α := α)) es1) e
    rw [h3] at heff
    cases heff with
    | added _ r' hr hx _ _ _ => linarith

/-- The queue can do nothing while the delay loop sleeps and nothing waits for it. -/
theorem quiet_of_sleeping {s : State α} {d : ℚ} {t : Option ℚ} (hst : s.stop = false) (hp : s.pc = .sleeping t)
    (hc : s.chan = []) (hu : s.puts = []) (hf : ∀ f, t = some f → s.clock + d ≤ f) : QuietFor s d := by
  intro d' h0 h1 e he
  cases e with
  | loop => simp [step, loopStep, hp]
  | putDone i => simp [step, hu]
  | wake w =>
    cases w with
    | stop => simp [step, wakeStep, hp, hst]
    | heartbeat => cases he
    | item => simp [step, wakeStep, hp, hc]
    | timer =>
      cases t with
      | none => simp [step, wakeStep, hp]
      | some f =>
        have : ¬ f ≤ s.clock + d' := by
          have := hf f rfl
          linarith
        simp [step, wakeStep, hp, this]
  | tick | base | addAfter | putCancel | shutDown => cases he

private theorem idle_snoc {t0 : ℚ} {es : List (Ev α)} {e : Ev α} (h : Idle t0 es)
    (he : ∀ d, e = .tick d → QuietFor (exec (init t0) es) d) : Idle t0 (es ++ [e]) := by
  intro a d b hab
  rcases List.eq_nil_or_concat b with rfl | ⟨b, x, rfl⟩
  · obtain ⟨rfl, h2⟩ := List.append_inj' hab rfl
    exact he d (by simpa using h2)
  · rw [List.concat_eq_append, show a ++ Ev.tick d :: (b ++ [x]) = (a ++ Ev.tick d :: b) ++ [x] by simp] at hab
    obtain ⟨rfl, -⟩ := List.append_inj' hab rfl
    exact h a d b rfl

private theorem idle_append {t0 : ℚ} (b : List (Ev α)) : ∀ {a : List (Ev α)}, Idle t0 a →
    (∀ d, Ev.tick d ∉ b) → Idle t0 (a ++ b) := by
  induction b with
  | nil => intro a h _; simpa using h
  | cons e b ih =>
    intro a h hb
    have : Idle t0 (a ++ [e]) := idle_snoc h fun d hd => absurd (by simp [hd]) (hb d)
    have := ih this fun d hd => hb d (by simp [hd])
    simpa using this

/-- An item is added with delay 5; five seconds later the delay loop, which was asleep, adds it, and then sleeps. -/
def punctualRun : List (Ev Nat) :=
  (((([] ++ [.loop, .loop, .addAfter 7 5, .putDone 0, .wake .item, .loop, .loop, .loop, .loop]) ++ [.tick 5]) ++
    [.wake .timer, .loop, .loop, .loop, .loop]) ++ [.tick 1])

example : (∀ e ∈ punctualRun, isShutDown e = false) ∧ Idle 100 punctualRun ∧
    logOf (init 100) punctualRun = [Log.called 7 5 100] ++ Log.loopAdd 7 105 :: [] ∧
    (exec (init 100) punctualRun).clock = 106 := by
  refine ⟨by decide, ?_, ?_, ?_⟩
  · refine idle_snoc (idle_append _ (idle_snoc (idle_append _ ?_ (by simp)) ?_) (by simp)) ?_
    · intro a d b h
      simp at h
    · rintro d ⟨⟩
      refine quiet_of_sleeping (t := some 105) ?_ ?_ ?_ ?_ ?_ <;>
      norm_num [exec, step, loopStep, wakeStep, addAfter, init, WorkQueue.init,
        DelayHeap.init, file, DelayHeap.insert, insertEntry, PyDict.has, PyDict.get?, PyDict.set,
        PyDict.del, Heapq.heappush_nil, Heapq.heappop_one, DelayHeap.peek, peekLoop, DelayHeap.pop, popLoop]
    · rintro d ⟨⟩
      refine quiet_of_sleeping (t := none) ?_ ?_ ?_ ?_ nofun <;>
      norm_num [exec, step, loopStep, wakeStep, addAfter, init, WorkQueue.init,
        DelayHeap.init, file, DelayHeap.insert, insertEntry, PyDict.has, PyDict.get?, PyDict.set,
        PyDict.del, Heapq.heappush_nil, Heapq.heappop_one, DelayHeap.peek, peekLoop, DelayHeap.pop, popLoop]
  · norm_num [punctualRun, logOf, step, loopStep, wakeStep, addAfter, init, WorkQueue.init,
      DelayHeap.init, file, DelayHeap.insert, insertEntry, PyDict.has, PyDict.get?, PyDict.set,
      PyDict.del, Heapq.heappush_nil, Heapq.heappop_one, DelayHeap.peek, peekLoop, DelayHeap.pop, popLoop]
  · norm_num [punctualRun, exec, step, loopStep, wakeStep, addAfter, init, WorkQueue.init,
      DelayHeap.init, file, DelayHeap.insert, insertEntry, PyDict.has, PyDict.get?, PyDict.set,
      PyDict.del, Heapq.heappush_nil, Heapq.heappop_one, DelayHeap.peek, peekLoop, DelayHeap.pop, popLoop]

end Aiok8s.DelayQueue
