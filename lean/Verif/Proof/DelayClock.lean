import Verif.Spec.DelayClock
import Verif.Proof.DelayQueue
import Mathlib.Data.List.Induction
/-!
# Lemmas on the delaying queue and the wall clock
-/
set_option linter.unusedSimpArgs false
namespace Aiok8s.DelayClock
open Aiok8s Aiok8s.DelayHeap
open Aiok8s.DelayQueue (Held Base)
variable {α : Type} [DecidableEq α]

/-- Invariant that adjustments keep. -/
structure Base0 (s : DelayQueue.State α) : Prop where
  heap : HInv s.heap
  sd : s.core.shuttingDown = false
  alive : s.stop = false → s.pc ≠ .exited

theorem Base0.of {s : DelayQueue.State α} (h : Base s) : Base0 s := ⟨h.heap, h.sd, h.alive⟩

theorem Base0.base {s : DelayQueue.State α} (h : Base0 s) (hp : ∀ n, s.pc ≠ .popping n) : Base s :=
  ⟨h.heap, fun n hn => absurd hn (hp n), h.sd, h.alive⟩

/-- What a move of the queue can do, whatever the clock shows. -/
inductive Effect (s s' : DelayQueue.State α) : List (DelayQueue.Log α) → Prop where
  | quiet (hback : ∀ x r, Held s' x r → Held s x r)
      (hfwd : s.stop = false → ∀ x r, Held s x r → ∃ r', r' ≤ r ∧ Held s' x r') : Effect s s' []
  | called (x : α) (d : ℚ) (hd : 0 < d)
      (hiff : ∀ y r, Held s' y r ↔ Held s y r ∨ (y = x ∧ r = s.clock + d)) :
      Effect s s' [.called x d s.clock]
  | added (x : α) (r : ℚ)
      (hr : r ≤ s.clock ∨ ∃ n, s.pc = .popping n ∧ r ≤ n ∧ dl s.heap x = some r) (hx : Held s x r)
      (hback : ∀ x r, Held s' x r → Held s x r)
      (hfwd : ∀ y r, y ≠ x → Held s y r → ∃ r', r' ≤ r ∧ Held s' y r') :
      Effect s s' [.loopAdd x s.clock]

theorem Effect.of {s s' : DelayQueue.State α} {l : List (DelayQueue.Log α)}
    (h : DelayQueue.Effect s s' l) : Effect s s' l := by
  cases h with
  | quiet h1 h2 _ => exact .quiet h1 h2
  | called x d hd h _ => exact .called x d hd h
  | added x r hr hx h1 h2 _ => exact .added x r (.inl hr) hx h1 h2

theorem Effect.same {s s' : DelayQueue.State α} (h : ∀ x r, Held s' x r ↔ Held s x r) : Effect s s' [] :=
  .quiet (fun x r => (h x r).1) (fun _ x r hx => ⟨r, le_refl r, (h x r).2 hx⟩)

/-- The loop goes on taking due entries from the heap. -/
theorem popping_effect {s : DelayQueue.State α} (hb : Base0 s) {n : ℚ} (hp : s.pc = .popping n) :
    Effect s (DelayQueue.loopStep s).1 (DelayQueue.loopStep s).2 ∧ Base0 (DelayQueue.loopStep s).1 ∧
    (∀ x r, dl (DelayQueue.loopStep s).1.heap x = some r → dl s.heap x = some r) ∧
    (DelayQueue.loopStep s).1.clock = s.clock ∧
    ∀ m, (DelayQueue.loopStep s).1.pc = .popping m → m = n := by
  obtain ⟨hh, hsd, hal⟩ := hb
  by_cases hl : s.heap.len = 0
  · have e : DelayQueue.loopStep s = ({ s with pc := .sleeping none }, []) := by
      simp [DelayQueue.loopStep, hp, hl]
    rw [e]
    refine ⟨.same ?_, ⟨hh, hsd, by simp⟩, fun _ _ h => h, rfl, by simp⟩
    intro x r
    rw [DelayQueue.held_iff, DelayQueue.held_iff]; simp [hp]
  · obtain ⟨p1, p2, p3, p4, p5, p6⟩ := peek_spec hh
    cases hpk : (DelayHeap.peek s.heap).2 with
    | none => exact absurd (p6 hpk) hl
    | some p =>
      have hpk' : DelayHeap.peek s.heap = ((DelayHeap.peek s.heap).1, some p) := by rw [← hpk]
      by_cases hpn : p > n
      · have e : DelayQueue.loopStep s = ({ s with
            heap := (DelayHeap.peek s.heap).1
            pc := .sleeping (some (s.clock + (p - n))) }, []) := by
          simp only [DelayQueue.loopStep, hp, hl, ne_eq, not_false_eq_true, if_true]
          rw [hpk']; simp only [hpn, if_true]
        rw [e]
        refine ⟨.same ?_, ⟨p1, hsd, by simp⟩, fun x r h => by rw [← p2 x]; exact h, rfl, by simp⟩
        intro x r
        rw [DelayQueue.held_iff, DelayQueue.held_iff]; simp [hp, p2]
      · obtain ⟨y, q1, q2, q3, q4, q6, q5⟩ := pop_spec hh hpk
        have hpp : DelayHeap.pop (DelayHeap.peek s.heap).1
            = ((DelayHeap.pop (DelayHeap.peek s.heap).1).1, some y) := by rw [← q1]
        have e : DelayQueue.loopStep s = ({ s with
            heap := (DelayHeap.pop (DelayHeap.peek s.heap).1).1
            core := WorkQueue.add s.core y }, [.loopAdd y s.clock]) := by
          simp only [DelayQueue.loopStep, hp, hl, ne_eq, not_false_eq_true, if_true]
          rw [hpk']; simp only [hpn, if_false]
          rw [hpp]
        rw [e]
        refine ⟨.added y p (.inr ⟨n, hp, not_lt.1 hpn, q2⟩) ?_ ?_ ?_,
          ⟨q3, (DelayQueue.add_sd y).trans hsd, hal⟩, ?_, rfl, ?_⟩
        · rw [DelayQueue.held_iff]; simp [q2]
        · intro x r
          rw [DelayQueue.held_iff, DelayQueue.held_iff]
          simp only [q5]
          by_cases hx : x = y <;> simp [hx]
          tauto
        · intro x r hx h
          refine ⟨r, le_refl r, ?_⟩
          rw [DelayQueue.held_iff] at h ⊢
          simp only [q5, hx, if_false]
          exact h
        · intro x r h
          simp only [q5] at h
          by_cases hx : x = y
          · simp [hx] at h
          · simpa [hx] using h
        · intro m h
          simp only [hp, DelayQueue.Pc.popping.injEq] at h
          exact h.symm

/-- A move of the queue. -/
theorem step_effect {s : DelayQueue.State α} (hb : Base0 s) (e : DelayQueue.Ev α) :
    Effect s (DelayQueue.step s e).1 (DelayQueue.step s e).2 ∧ Base0 (DelayQueue.step s e).1 := by
  by_cases hp : ∃ n, s.pc = .popping n
  · obtain ⟨n, hp⟩ := hp
    by_cases he : e = .loop
    · subst he
      exact ⟨(popping_effect hb hp).1, (popping_effect hb hp).2.1⟩
    · by_cases hw : ∃ w, e = .wake w
      · obtain ⟨w, rfl⟩ := hw
        have : DelayQueue.step s (.wake w) = (s, []) := by simp [DelayQueue.step, DelayQueue.wakeStep, hp]
        rw [this]
        exact ⟨.same fun _ _ => Iff.rfl, hb⟩
      · have hb' : Base { s with pc := .top } := ⟨hb.heap, by simp, hb.sd, by simp⟩
        have hst : DelayQueue.step s e
            = ({ (DelayQueue.step { s with pc := .top } e).1 with pc := s.pc },
              (DelayQueue.step { s with pc := .top } e).2) := by
          cases e with
          | loop => exact absurd rfl he
          | wake w => exact absurd ⟨w, rfl⟩ hw
          | tick d => simp only [DelayQueue.step]; split <;> rfl
          | base o => cases o <;> rfl
          | addAfter x d =>
            simp only [DelayQueue.step, DelayQueue.addAfter]
            split
            · rfl
            · split <;> rfl
          | putDone i =>
            simp only [DelayQueue.step]
            split
            · split <;> rfl
            · rfl
          | putCancel i => simp only [DelayQueue.step]; split <;> rfl
          | shutDown => rfl
        have hpc : (DelayQueue.step { s with pc := .top } e).1.pc = .top := by
          cases e with
          | loop => exact absurd rfl he
          | wake w => exact absurd ⟨w, rfl⟩ hw
          | tick d => simp only [DelayQueue.step]; split <;> rfl
          | base o => cases o <;> rfl
          | addAfter x d =>
            simp only [DelayQueue.step, DelayQueue.addAfter]
            split
            · rfl
            · split <;> rfl
          | putDone i =>
            simp only [DelayQueue.step]
            split
            · split <;> rfl
            · rfl
          | putCancel i => simp only [DelayQueue.step]; split <;> rfl
          | shutDown => rfl
        obtain ⟨h1, h2⟩ := DelayQueue.step_effect hb' e
        rw [hst]
        generalize DelayQueue.step { s with pc := .top } e = r at *
        obtain ⟨s', l⟩ := r
        simp only at h1 h2 hpc ⊢
        have e1 : ∀ x r, Held { s with pc := .top } x r ↔ Held s x r := by
          intro x r; rw [DelayQueue.held_iff, DelayQueue.held_iff]; simp [hp]
        have e2 : ∀ x r, Held { s' with pc := s.pc } x r ↔ Held s' x r := by
          intro x r; rw [DelayQueue.held_iff, DelayQueue.held_iff]; simp [hp, hpc]
        refine ⟨?_, h2.heap, h2.sd, by simp [hp]⟩
        have h1 := Effect.of h1
        cases h1 with
        | quiet a b => exact .quiet (by simpa only [e1, e2] using a) (by simpa only [e1, e2] using b)
        | called x d hd h => exact .called x d hd (by simpa only [e1, e2] using h)
        | added x r hr hx a b =>
          refine .added x r ?_ (by simpa only [e1, e2] using hx) (by simpa only [e1, e2] using a)
            (by simpa only [e1, e2] using b)
          rcases hr with hr | ⟨n, hn, -⟩
          · exact .inl hr
          · simp at hn
  · have hp' : ∀ n, s.pc ≠ .popping n := fun n hn => hp ⟨n, hn⟩
    obtain ⟨h1, h2⟩ := DelayQueue.step_effect (hb.base hp') e
    exact ⟨.of h1, .of h2⟩

/-- When the loop takes entries from the heap, it has begun with the reading of the clock. -/
theorem popping_from {s : DelayQueue.State α} (hb : Base0 s) (e : DelayQueue.Ev α) {m : ℚ}
    (h : (DelayQueue.step s e).1.pc = .popping m) :
    (s.pc = .popping m ∧ ∀ x r, dl (DelayQueue.step s e).1.heap x = some r → dl s.heap x = some r) ∨
    (s.pc = .top ∧ m = s.clock ∧ (DelayQueue.step s e).1.heap = s.heap ∧ e = .loop) := by
  cases e with
  | loop =>
    simp only [DelayQueue.step] at h ⊢
    cases hp : s.pc with
    | popping n =>
      obtain ⟨-, -, h3, -, h5⟩ := popping_effect hb hp
      have := h5 m h
      subst this
      exact .inl ⟨rfl, h3⟩
    | top =>
      have e : DelayQueue.loopStep s = ({ s with pc := .popping s.clock }, []) := by
        simp [DelayQueue.loopStep, hp, hb.sd]
      rw [e] at h ⊢
      simp only [DelayQueue.Pc.popping.injEq] at h
      exact .inr ⟨rfl, h.symm, rfl, trivial⟩
    | sleeping t => simp [DelayQueue.loopStep, hp] at h
    | exited => simp [DelayQueue.loopStep, hp] at h
    | woke e =>
      simp only [DelayQueue.loopStep, hp] at h
      split at h
      · simp at h
      · split at h <;> simp at h
    | draining =>
      simp only [DelayQueue.loopStep, hp] at h
      split at h
      · simp at h
      · simp only [DelayQueue.file] at h
        split at h <;> simp [hp] at h
  | tick d =>
    left
    simp only [DelayQueue.step] at h ⊢
    split at h <;> rename_i hd <;> simp only [hd, if_true, if_false] <;> exact ⟨h, fun _ _ h => h⟩
  | base o => left; cases o <;> exact ⟨h, fun _ _ h => h⟩
  | addAfter x d =>
    left
    simp only [DelayQueue.step, DelayQueue.addAfter, hb.sd, Bool.false_eq_true, if_false] at h ⊢
    split at h <;> rename_i hd <;> simp only [hd, if_true, if_false] <;> exact ⟨h, fun _ _ h => h⟩
  | putDone i =>
    left
    simp only [DelayQueue.step] at h ⊢
    split at h
    · split at h <;> rename_i hd <;> simp only [hd, if_true, if_false] <;> exact ⟨h, fun _ _ h => h⟩
    · exact ⟨h, fun _ _ h => h⟩
  | putCancel i =>
    left
    simp only [DelayQueue.step] at h ⊢
    split at h <;> rename_i hd <;> simp only [hd, if_true, if_false] <;> exact ⟨h, fun _ _ h => h⟩
  | shutDown => left; exact ⟨h, fun _ _ h => h⟩
  | wake w =>
    left
    simp only [DelayQueue.step, DelayQueue.wakeStep] at h ⊢
    cases hp : s.pc with
    | sleeping t =>
      exfalso
      simp only [hp] at h
      cases w with
      | stop => simp only at h; split at h <;> simp [hp] at h
      | heartbeat => simp at h
      | timer => simp only at h; split at h <;> (try split at h) <;> simp [hp] at h
      | item => simp only at h; split at h <;> simp [hp] at h
    | _ => simp only [hp] at h ⊢; exact ⟨h, fun _ _ h => h⟩

/-- Only `tick` moves the clock. -/
theorem clock_step {s : DelayQueue.State α} (hb : Base0 s) {e : DelayQueue.Ev α} (he : ∀ d, e ≠ .tick d) :
    (DelayQueue.step s e).1.clock = s.clock := by
  cases e with
  | tick d => exact absurd rfl (he d)
  | base o => cases o <;> rfl
  | addAfter x d => simp only [DelayQueue.step, DelayQueue.addAfter]; split <;> (try split) <;> rfl
  | putDone i => simp only [DelayQueue.step]; split <;> (try split) <;> rfl
  | putCancel i => simp only [DelayQueue.step]; split <;> rfl
  | shutDown => rfl
  | wake w =>
    simp only [DelayQueue.step, DelayQueue.wakeStep]
    split
    · cases w <;> simp only <;> split <;> (try split) <;> rfl
    · rfl
  | loop =>
    simp only [DelayQueue.step]
    cases hp : s.pc with
    | popping n => exact (popping_effect hb hp).2.2.2.1
    | top => simp only [DelayQueue.loopStep, hp]; split <;> rfl
    | sleeping t => simp [DelayQueue.loopStep, hp]
    | exited => simp [DelayQueue.loopStep, hp]
    | woke e =>
      simp only [DelayQueue.loopStep, hp]
      split
      · rfl
      · split
        · rfl
        · simp only [DelayQueue.file]; split <;> rfl
    | draining =>
      simp only [DelayQueue.loopStep, hp]
      split
      · rfl
      · simp only [DelayQueue.file]; split <;> rfl

/-- Every move is one of these. -/
inductive Move (s : State α) (e : Ev α) (s' : State α) (l : List (Log α)) : Prop where
  | adjust (d : ℚ) (he : e = .adjust d) (hs : s' = { s with q := { s.q with clock := s.q.clock + d } })
      (hl : l = [])
  | time (d : ℚ) (hd : 0 ≤ d) (he : e = .q (.tick d))
      (hs : s' = { s with q := { s.q with clock := s.q.clock + d }, real := s.real + d }) (hl : l = [])
  | timer (t : Option ℚ) (hp : s.q.pc = .sleeping t) (he : e = .q (.wake .timer))
      (hs : s' = { s with q := { s.q with pc := .woke none } }) (hl : l = [])
  | queue (e' : DelayQueue.Ev α) (he : e = .q e') (hn : ∀ d, e' ≠ .tick d) (hq : s'.q = (DelayQueue.step s.q e').1)
      (hr : s'.real = s.real)
      (hf : s'.fires = armed s.q.pc s'.q.pc s.q.clock s.real s.fires) (hl : l = (DelayQueue.step s.q e').2.map (stamp s.real))
  | nothing (he : ∃ e', e = .q e' ∧ e' ≠ .loop) (hs : s' = s) (hl : l = [])

theorem move (s : State α) (e : Ev α) : Move s e (step s e).1 (step s e).2 := by
  cases e with
  | adjust d => exact .adjust d rfl rfl rfl
  | q e =>
    cases e with
    | tick d =>
      by_cases hd : 0 ≤ d
      · exact .time d hd rfl (by simp [step, DelayQueue.step, hd]) rfl
      · exact .nothing ⟨_, rfl, by simp⟩ (by simp [step, DelayQueue.step, hd]) rfl
    | wake w =>
      cases w with
      | timer =>
        simp only [step]
        split
        · rename_i t f hp hf
          split
          · exact .timer t hp rfl rfl rfl
          · exact .nothing ⟨_, rfl, by simp⟩ rfl rfl
        · exact .nothing ⟨_, rfl, by simp⟩ rfl rfl
      | _ => exact .queue _ rfl (by simp) rfl rfl rfl rfl
    | _ => exact .queue _ rfl (by simp) rfl rfl rfl rfl

theorem exec_append (s : State α) (as bs : List (Ev α)) :
    exec s (as ++ bs) = exec (exec s as) bs := by
  induction as generalizing s with
  | nil => rfl
  | cons a as ih => exact ih _

theorem logOf_append (s : State α) (as bs : List (Ev α)) :
    logOf s (as ++ bs) = logOf s as ++ logOf (exec s as) bs := by
  induction as generalizing s with
  | nil => rfl
  | cons a as ih => simp [logOf, exec, ih]

theorem shift_append (as bs : List (Ev α)) : shift (as ++ bs) = shift as + shift bs := by
  induction as with
  | nil => simp [shift]
  | cons a as ih => cases a <;> simp [shift, ih]; linarith

theorem base0_step {s : State α} (h : Base0 s.q) (e : Ev α) : Base0 (step s e).1.q := by
  cases move s e with
  | adjust d _ hs _ => rw [hs]; exact ⟨h.heap, h.sd, h.alive⟩
  | time d _ _ hs _ => rw [hs]; exact ⟨h.heap, h.sd, h.alive⟩
  | timer t hp _ hs _ => rw [hs]; exact ⟨h.heap, h.sd, by simp⟩
  | queue e' _ _ hq _ _ _ => rw [hq]; exact (step_effect h e').2
  | nothing _ hs _ => rw [hs]; exact h

theorem base0_exec (t w : ℚ) (es : List (Ev α)) : Base0 (exec (init t w) es).q := by
  have : ∀ (es : List (Ev α)) (s : State α), Base0 s.q → Base0 (exec s es).q := by
    intro es
    induction es with
    | nil => exact fun _ h => h
    | cons e es ih => exact fun s h => ih _ (base0_step h e)
  exact this es _ (.of (DelayQueue.base_init w))

/-- The wall clock shows the real time plus what it was set forward. -/
theorem wall_exec (t w : ℚ) (es : List (Ev α)) :
    (exec (init t w : State α) es).q.clock = (exec (init t w : State α) es).real + (w - t) + shift es := by
  induction es using List.reverseRecOn with
  | nil => simp [exec, init, DelayQueue.init, shift]
  | append_singleton es e ih =>
    have hb := base0_exec t w es
    rw [exec_append, shift_append]
    simp only [exec]
    generalize exec (init t w : State α) es = s at *
    have hq : ∀ e' : DelayQueue.Ev α, shift [Ev.q e'] = 0 := fun _ => rfl
    cases move s e with
    | adjust d he hs _ => rw [hs, he]; simp only [shift]; linarith
    | time d _ he hs _ => rw [hs, he, hq]; simp only; linarith
    | timer t hp he hs _ => rw [hs, he, hq]; simp only; linarith
    | queue e' he hn hq' hr _ _ => rw [hq', hr, he, hq, clock_step hb hn]; linarith
    | nothing he hs _ => obtain ⟨e', rfl, -⟩ := he; rw [hs, hq]; linarith

end Aiok8s.DelayClock
