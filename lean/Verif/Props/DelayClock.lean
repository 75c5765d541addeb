import Verif.Proof.DelayClock
import Verif.Props.DelayQueue
import Mathlib.Tactic.NormNum
import Mathlib.Tactic.IntervalCases
/-!
# Property C96: `add_after` and adjustments of the wall clock (`aiok8s/workqueue/delaying_queue.py`)

Real times throughout: `Log.called x d t` says that `add_after(x, d)` was called at the real time `t`,
`Log.loopAdd x t` that the delay loop added `x` at the real time `t`.  The claim that an item is added no
sooner than its delay after the call, and as soon as the loop comes round after that, is false of the code,
because the deadline is a reading of the wall clock.  It holds up to the size of the adjustments.
-/
set_option linter.unusedSimpArgs false
namespace Aiok8s.DelayClock
open Aiok8s Aiok8s.DelayHeap
open Aiok8s.DelayQueue (Held Base)
variable {α : Type} [DecidableEq α]

/-! ## Too early -/

/-- **C96, refuted.** Whatever the delay, an adjustment of the clock may let the loop add the item at the
very time of the call. -/
theorem C96_refuted_early (t w : ℚ) (x : α) (d : ℚ) (hd : 0 < d) :
    ∃ es : List (Ev α), logOf (init t w) es = [.called x d t, .loopAdd x t] := by
  refine ⟨[.q (.addAfter x d), .q (.putDone 0), .q .loop, .q .loop, .adjust d, .q (.wake .item), .q .loop], ?_⟩
  simp [logOf, step, DelayQueue.step, DelayQueue.addAfter, init, DelayQueue.init, WorkQueue.init, not_le.2 hd,
    DelayQueue.loopStep, DelayHeap.init, DelayQueue.wakeStep, DelayQueue.file, stamp]

private theorem ahead_left {A : ℚ} {as bs : List (Ev α)} (h : Ahead A (as ++ bs)) : Ahead A as := by
  intro a b c e
  exact h a b (c ++ bs) (by rw [e]; simp)

private structure Inv (t w A : ℚ) (es : List (Ev α)) : Prop where
  src : ∀ x r, Held (exec (init t w) es).q x r → ∃ d t' as bs, es = as ++ bs ∧
    Log.called x d t' ∈ logOf (init t w) es ∧ 0 < d ∧ r = t' + (w - t) + shift as + d
  pop : ∀ n x r, (exec (init t w) es).q.pc = .popping n → dl (exec (init t w) es).q.heap x = some r → r ≤ n →
    ∃ d t', Log.called x d t' ∈ logOf (init t w) es ∧ 0 < d ∧ t' + d ≤ (exec (init t w : State α) es).real + A
  early : ∀ a x τ b, logOf (init t w) es = a ++ Log.loopAdd x τ :: b →
    ∃ d t', Log.called x d t' ∈ a ∧ 0 < d ∧ t' + d ≤ τ + A

private theorem held_pc {s s' : DelayQueue.State α} (h1 : s'.puts = s.puts) (h2 : s'.chan = s.chan)
    (h3 : s'.heap = s.heap) (h4 : ∀ e, s'.pc = .woke (some e) ↔ s.pc = .woke (some e)) (x : α) (r : ℚ) :
    Held s' x r ↔ Held s x r := by
  rw [DelayQueue.held_iff, DelayQueue.held_iff, h1, h2, h3, h4]

private theorem due_called {t w A : ℚ} {es : List (Ev α)} (hA : Ahead A es) {d t' r : ℚ} {as bs : List (Ev α)}
    (h1 : es = as ++ bs) (h2 : r = t' + (w - t) + shift as + d)
    (hr : r ≤ (exec (init t w : State α) es).q.clock) :
    t' + d ≤ (exec (init t w : State α) es).real + A := by
  rw [wall_exec] at hr
  have h3 := hA as bs [] (by simp [h1])
  rw [h1, shift_append, ← h1] at hr
  linarith

private theorem inv_exec (t w A : ℚ) (es : List (Ev α)) (hA : Ahead A es) : Inv t w A es := by
  induction es using List.reverseRecOn with
  | nil =>
    refine ⟨?_, ?_, ?_⟩
    · intro x r h
      simp [exec, init, DelayQueue.held_iff, DelayQueue.init, DelayHeap.init, dl] at h
    · intro n x r h
      simp [exec, init, DelayQueue.init] at h
    · intro a x τ b h
      simp [logOf] at h
  | append_singleton es e ih =>
    obtain ⟨src, pop, early⟩ := ih (ahead_left hA)
    have hA' := ahead_left hA
    have hb := base0_exec t w es
    have hdue := @due_called α _ t w A es hA'
    have hex : exec (init t w) (es ++ [e]) = (step (exec (init t w) es) e).1 := by rw [exec_append]; rfl
    have hlog : logOf (init t w) (es ++ [e]) = logOf (init t w) es ++ (step (exec (init t w) es) e).2 := by
      rw [logOf_append]; simp [logOf]
    -- moves which observe nothing and leave everything held in place
    have silent : (step (exec (init t w) es) e).2 = [] →
        (∀ x r, Held (step (exec (init t w) es) e).1.q x r → Held (exec (init t w) es).q x r) →
        ((exec (init t w) es).real ≤ (step (exec (init t w) es) e).1.real) →
        (∀ n, (step (exec (init t w) es) e).1.q.pc = .popping n → (exec (init t w) es).q.pc = .popping n ∧
          ∀ x r, dl (step (exec (init t w) es) e).1.q.heap x = some r → dl (exec (init t w) es).q.heap x = some r) →
        Inv t w A (es ++ [e]) := by
      intro h1 h2 h3 h4
      rw [h1, List.append_nil] at hlog
      refine ⟨?_, ?_, ?_⟩
      · rw [hex, hlog]
        intro x r h
        obtain ⟨d, t', as, bs, k1, k2⟩ := src x r (h2 x r h)
        exact ⟨d, t', as, bs ++ [e], by simp [k1], k2⟩
      · rw [hex, hlog]
        intro n x r h hx hr
        obtain ⟨k1, k2⟩ := h4 n h
        obtain ⟨d, t', j1, j2, j3⟩ := pop n x r k1 (k2 x r hx) hr
        exact ⟨d, t', j1, j2, by linarith⟩
      · rw [hlog]; exact early
    cases move (exec (init t w) es) e with
    | adjust d he hs hl =>
      refine silent hl ?_ (by rw [hs]) ?_
      · rw [hs]; intro x r; exact (held_pc rfl rfl rfl (fun _ => Iff.rfl) x r).1
      · rw [hs]; exact fun n h => ⟨h, fun _ _ h => h⟩
    | time d hd he hs hl =>
      refine silent hl ?_ (by rw [hs]; simp only; linarith) ?_
      · rw [hs]; intro x r; exact (held_pc rfl rfl rfl (fun _ => Iff.rfl) x r).1
      · rw [hs]; exact fun n h => ⟨h, fun _ _ h => h⟩
    | timer tm hp he hs hl =>
      refine silent hl ?_ (by rw [hs]) ?_
      · rw [hs]; intro x r; rw [DelayQueue.held_iff, DelayQueue.held_iff]; simp [hp]
      · rw [hs]; intro n h; simp at h
    | nothing he hs hl =>
      exact silent hl (by rw [hs]; exact fun _ _ h => h) (by rw [hs]) (by rw [hs]; exact fun n h => ⟨h, fun _ _ h => h⟩)
    | queue e' he hn hq hr _ hl =>
      obtain ⟨heff, -⟩ := step_effect hb e'
      have hpop := @popping_from α _ _ hb e'
      rw [← hq] at heff hpop
      -- what the loop may take from the heap
      have hpop' : ∀ n x r, (step (exec (init t w) es) e).1.q.pc = .popping n →
          dl (step (exec (init t w) es) e).1.q.heap x = some r → r ≤ n →
          ∃ d t', Log.called x d t' ∈ logOf (init t w) es ∧ 0 < d ∧ t' + d ≤ (exec (init t w : State α) es).real + A := by
        intro n x r h hx hrn
        rcases hpop h with ⟨k1, k2⟩ | ⟨k1, k2, k3, -⟩
        · exact pop n x r k1 (k2 x r hx) hrn
        · rw [k3] at hx
          obtain ⟨d, t', as, bs, j1, j2, j3, j4⟩ := src x r (by rw [DelayQueue.held_iff]; simp [hx])
          exact ⟨d, t', j2, j3, hdue j1 j4 (by rw [← k2]; exact hrn)⟩
      have hpop2 : ∀ n x r, (exec (init t w) (es ++ [e])).q.pc = .popping n →
          dl (exec (init t w) (es ++ [e])).q.heap x = some r → r ≤ n →
          ∃ d t', Log.called x d t' ∈ logOf (init t w) (es ++ [e]) ∧ 0 < d ∧
            t' + d ≤ (exec (init t w : State α) (es ++ [e])).real + A := by
        rw [hex, hlog, hr]
        intro n x r h hx hrn
        obtain ⟨d, t', j1, j2⟩ := hpop' n x r h hx hrn
        exact ⟨d, t', List.mem_append_left _ j1, j2⟩
      have hsrc : (∀ x r, Held (step (exec (init t w) es) e).1.q x r → Held (exec (init t w) es).q x r) →
          ∀ x r, Held (exec (init t w) (es ++ [e])).q x r → ∃ d t' as bs, es ++ [e] = as ++ bs ∧
            Log.called x d t' ∈ logOf (init t w) (es ++ [e]) ∧ 0 < d ∧ r = t' + (w - t) + shift as + d := by
        intro hback x r h
        rw [hex] at h
        obtain ⟨d, t', as, bs, k1, k2, k3⟩ := src x r (hback x r h)
        exact ⟨d, t', as, bs ++ [e], by simp [k1], by rw [hlog]; exact List.mem_append_left _ k2, k3⟩
      have hsnoc : ∀ l, logOf (init t w) (es ++ [e]) = logOf (init t w) es ++ [l] →
          (∀ x τ, l = .loopAdd x τ → ∃ d t', Log.called x d t' ∈ logOf (init t w) es ∧ 0 < d ∧ t' + d ≤ τ + A) →
          ∀ a x τ b, logOf (init t w) (es ++ [e]) = a ++ Log.loopAdd x τ :: b →
            ∃ d t', Log.called x d t' ∈ a ∧ 0 < d ∧ t' + d ≤ τ + A := by
        intro l hl' hx a x τ b hab
        rw [hl'] at hab
        rcases List.eq_nil_or_concat b with rfl | ⟨b', l', rfl⟩
        · obtain ⟨h1, h2⟩ := List.append_inj' hab (by simp)
          simp only [List.cons.injEq, and_true] at h2
          rw [← h1]
          exact hx x τ h2
        · have : logOf (init t w) es ++ [l] = (a ++ Log.loopAdd x τ :: b') ++ [l'] := by rw [hab]; simp
          obtain ⟨h1, -⟩ := List.append_inj' this (by simp)
          exact early a x τ b' h1
      generalize ho : (DelayQueue.step (exec (init t w) es).q e').2 = o at heff hl
      cases heff with
      | quiet hback hfwd =>
        refine ⟨hsrc hback, hpop2, ?_⟩
        rw [hlog, hl]; simpa using early
      | called x d hd hiff =>
        refine ⟨?_, hpop2, hsnoc (.called x d (exec (init t w : State α) es).real) ?_ (by simp)⟩
        · intro y r h
          rw [hex] at h
          rcases (hiff y r).1 h with h | ⟨rfl, rfl⟩
          · obtain ⟨d, t', as, bs, k1, k2, k3⟩ := src y r h
            exact ⟨d, t', as, bs ++ [e], by simp [k1], by rw [hlog]; exact List.mem_append_left _ k2, k3⟩
          · refine ⟨d, (exec (init t w : State α) es).real, es, [e], rfl, by rw [hlog, hl]; simp [stamp], hd, ?_⟩
            rw [wall_exec]
        · rw [hlog, hl]; rfl
      | added x r hr' hx hback hfwd =>
        refine ⟨hsrc hback, hpop2, hsnoc (.loopAdd x (exec (init t w : State α) es).real) ?_ ?_⟩
        · rw [hlog, hl]; rfl
        · intro y τ h
          simp only [Log.loopAdd.injEq] at h
          obtain ⟨rfl, rfl⟩ := h
          rcases hr' with hr' | ⟨n, k1, k2, k3⟩
          · obtain ⟨d, t', as, bs, j1, j2, j3, j4⟩ := src x r hx
            exact ⟨d, t', j2, j3, hdue j1 j4 hr'⟩
          · exact pop n x r k1 k3 k2

/-- **C96.** Up to the size of the adjustments no item is added early: if the wall clock is never set forward
by more than `A` on balance, then for every `x` that the loop adds at the real time `τ` there is an earlier
call `add_after(x, d)`, at a real time `t'`, with `t' + d ≤ τ + A`.  Missing: the claim without `A`. -/
theorem C96_early_partial (t w A : ℚ) (es : List (Ev α)) (hA : Ahead A es) (a : List (Log α)) (x : α) (τ : ℚ)
    (b : List (Log α)) (h : logOf (init t w) es = a ++ Log.loopAdd x τ :: b) :
    ∃ d t', Log.called x d t' ∈ a ∧ 0 < d ∧ t' + d ≤ τ + A :=
  (inv_exec t w A es hA).early a x τ b h

/-! ## Too late -/

private def Kept (t w : ℚ) (es : List (Ev α)) : Prop :=
  ∀ a x d t' b, logOf (init t w) es = a ++ Log.called x d t' :: b → (∀ τ, Log.loopAdd x τ ∉ b) →
    ∃ as bs r, es = as ++ bs ∧ r ≤ t' + (w - t) + shift as + d ∧ Held (exec (init t w) es).q x r

private theorem stop_step {s : State α} {e : Ev α} (h : isShutDown e = false) :
    (step s e).1.q.stop = s.q.stop := by
  cases move s e with
  | adjust d _ hs _ => rw [hs]
  | time d _ _ hs _ => rw [hs]
  | timer tm _ _ hs _ => rw [hs]
  | nothing _ hs _ => rw [hs]
  | queue e' he _ hq _ _ _ => subst he; rw [hq]; exact DelayQueue.stop_stays h

private theorem stop_exec (t w : ℚ) (es : List (Ev α)) (hns : ∀ e ∈ es, isShutDown e = false) :
    (exec (init t w : State α) es).q.stop = false := by
  induction es using List.reverseRecOn with
  | nil => rfl
  | append_singleton es e ih =>
    rw [exec_append]
    simp only [exec]
    rw [stop_step (hns e (by simp))]
    exact ih (fun e he => hns e (by simp [he]))

private theorem kept_exec (t w : ℚ) (es : List (Ev α)) (hns : ∀ e ∈ es, isShutDown e = false) : Kept t w es := by
  induction es using List.reverseRecOn with
  | nil => intro a x d t' b h; simp [logOf] at h
  | append_singleton es e ih =>
    have kept := ih (fun e he => hns e (by simp [he]))
    have hst := stop_exec t w es (fun e he => hns e (by simp [he]))
    have hb := base0_exec t w es
    have hex : exec (init t w) (es ++ [e]) = (step (exec (init t w) es) e).1 := by rw [exec_append]; rfl
    have hlog : logOf (init t w) (es ++ [e]) = logOf (init t w) es ++ (step (exec (init t w) es) e).2 := by
      rw [logOf_append]; simp [logOf]
    have silent : (step (exec (init t w) es) e).2 = [] →
        (∀ x r, Held (exec (init t w) es).q x r → ∃ r' ≤ r, Held (step (exec (init t w) es) e).1.q x r') →
        Kept t w (es ++ [e]) := by
      intro h1 h2 a x d t' b h hno
      rw [hlog, h1, List.append_nil] at h
      obtain ⟨as, bs, r, k1, k2, k3⟩ := kept a x d t' b h hno
      obtain ⟨r', j1, j2⟩ := h2 x r k3
      exact ⟨as, bs ++ [e], r', by simp [k1], le_trans j1 k2, by rw [hex]; exact j2⟩
    have same : (step (exec (init t w) es) e).2 = [] →
        (∀ x r, Held (step (exec (init t w) es) e).1.q x r ↔ Held (exec (init t w) es).q x r) →
        Kept t w (es ++ [e]) := fun h1 h2 => silent h1 fun x r h => ⟨r, le_refl r, (h2 x r).2 h⟩
    cases move (exec (init t w) es) e with
    | adjust d he hs hl =>
      refine same hl ?_
      rw [hs]; intro x r; exact held_pc rfl rfl rfl (fun _ => Iff.rfl) x r
    | time d hd he hs hl =>
      refine same hl ?_
      rw [hs]; intro x r; exact held_pc rfl rfl rfl (fun _ => Iff.rfl) x r
    | timer tm hp he hs hl =>
      refine same hl ?_
      rw [hs]; intro x r; rw [DelayQueue.held_iff, DelayQueue.held_iff]; simp [hp]
    | nothing he hs hl => exact same hl (by rw [hs]; exact fun _ _ => Iff.rfl)
    | queue e' he hn hq hr _ hl =>
      obtain ⟨heff, -⟩ := step_effect hb e'
      rw [← hq] at heff
      generalize ho : (DelayQueue.step (exec (init t w) es).q e').2 = o at heff hl
      cases heff with
      | quiet hback hfwd => exact silent (by rw [hl]; rfl) (fun x r h => (hfwd hst x r h))
      | called y dy hd hiff =>
        intro a x d t' b h hno
        rw [hlog, hl] at h
        simp only [List.map_cons, List.map_nil, stamp] at h
        rcases List.eq_nil_or_concat b with rfl | ⟨b', l', rfl⟩
        · obtain ⟨h1, h2⟩ := List.append_inj' h (by simp)
          simp only [List.cons.injEq, and_true, Log.called.injEq] at h2
          obtain ⟨rfl, rfl, rfl⟩ := h2
          refine ⟨es, [e], (exec (init t w : State α) es).q.clock + dy, rfl, ?_, ?_⟩
          · rw [wall_exec]
          · rw [hex]; exact (hiff y _).2 (.inr ⟨rfl, rfl⟩)
        · have h' : logOf (init t w) es ++ [Log.called y dy (exec (init t w : State α) es).real]
              = (a ++ Log.called x d t' :: b') ++ [l'] := by rw [h]; simp
          obtain ⟨h1, -⟩ := List.append_inj' h' (by simp)
          obtain ⟨as, bs, r, k1, k2, k3⟩ := kept a x d t' b' h1 (fun τ hτ => hno τ (by simp [hτ]))
          exact ⟨as, bs ++ [e], r, by simp [k1], k2, by rw [hex]; exact (hiff x r).2 (.inl k3)⟩
      | added y ry hry hy hback hfwd =>
        intro a x d t' b h hno
        rw [hlog, hl] at h
        simp only [List.map_cons, List.map_nil, stamp] at h
        rcases List.eq_nil_or_concat b with rfl | ⟨b', l', rfl⟩
        · obtain ⟨h1, h2⟩ := List.append_inj' h (by simp)
          simp at h2
        · have h' : logOf (init t w) es ++ [Log.loopAdd y (exec (init t w : State α) es).real]
              = (a ++ Log.called x d t' :: b') ++ [l'] := by rw [h]; simp
          obtain ⟨h1, h2⟩ := List.append_inj' h' (by simp)
          simp only [List.cons.injEq, and_true] at h2
          have hyx : x ≠ y := by
            rintro rfl
            subst h2
            exact hno _ (by rw [List.concat_eq_append]; exact List.mem_append_right _ (List.mem_singleton.2 rfl))
          obtain ⟨as, bs, r, k1, k2, k3⟩ := kept a x d t' b' h1 (fun τ hτ => hno τ (by simp [hτ]))
          obtain ⟨r', j1, j2⟩ := hfwd x r hyx k3
          exact ⟨as, bs ++ [e], r', by simp [k1], le_trans j1 k2, by rw [hex]; exact j2⟩

/-- Moves other than those of the loop leave the heap and the loop's place alone, unless it sleeps. -/
private theorem other_same {s : DelayQueue.State α} (hb : Base0 s) {e : DelayQueue.Ev α} (he : e ≠ .loop)
    (hp : ∀ t, s.pc ≠ .sleeping t) : (DelayQueue.step s e).1.heap = s.heap ∧ (DelayQueue.step s e).1.pc = s.pc := by
  cases e with
  | loop => exact absurd rfl he
  | tick d => simp only [DelayQueue.step]; split <;> exact ⟨rfl, rfl⟩
  | base o => cases o <;> exact ⟨rfl, rfl⟩
  | addAfter x d => simp only [DelayQueue.step, DelayQueue.addAfter]; split <;> (try split) <;> exact ⟨rfl, rfl⟩
  | putDone i => simp only [DelayQueue.step]; split <;> (try split) <;> exact ⟨rfl, rfl⟩
  | putCancel i => simp only [DelayQueue.step]; split <;> exact ⟨rfl, rfl⟩
  | shutDown => exact ⟨rfl, rfl⟩
  | wake w =>
    simp only [DelayQueue.step, DelayQueue.wakeStep]
    cases h : s.pc with
    | sleeping t => exact absurd h (hp t)
    | _ => simp

private theorem step_other {s : State α} (hb : Base0 s.q) {e : Ev α} (he : e ≠ .q .loop)
    (hp : ∀ t, s.q.pc ≠ .sleeping t) : (step s e).1.q.heap = s.q.heap ∧ (step s e).1.q.pc = s.q.pc := by
  cases move s e with
  | adjust d _ hs _ => rw [hs]; exact ⟨rfl, rfl⟩
  | time d _ _ hs _ => rw [hs]; exact ⟨rfl, rfl⟩
  | timer tm h _ hs _ => exact absurd h (hp tm)
  | nothing _ hs _ => rw [hs]; exact ⟨rfl, rfl⟩
  | queue e' he' _ hq _ _ _ =>
    rw [hq]
    exact other_same hb (fun h => he (by rw [he', h])) hp

private theorem loops_other {e : Ev α} (he : e ≠ .q .loop) (more : List (Ev α)) : loops (e :: more) = loops more := by
  cases e with
  | adjust d => simp [loops]
  | q e => cases e <;> simp_all [loops]

private theorem popping_adds (x : α) (r : ℚ) (more : List (Ev α)) : ∀ (s : State α) (n : ℚ), Base0 s.q →
    s.q.pc = .popping n → dl s.q.heap x = some r → r ≤ n → s.q.heap.len ≤ (loops more : Int) →
    ∃ τ, Log.loopAdd x τ ∈ logOf s more := by
  induction more with
  | nil =>
    intro s n hb hp hx hr hl
    exfalso
    obtain ⟨T, hs⟩ := hb.heap
    obtain ⟨c, hc⟩ := (dl_iff hs x r).1 hx
    have := List.length_pos_of_mem hc
    have h2 := hs.len
    simp [loops] at hl
    omega
  | cons e more ih =>
    intro s n hb hp hx hr hl
    have hb' := base0_step hb e
    by_cases he : e = .q .loop
    · subst he
      obtain ⟨p1, p2, p3, p4, p5, p6⟩ := peek_spec hb.heap
      cases hpk : (DelayHeap.peek s.q.heap).2 with
      | none => have := p5 hpk x; rw [hx] at this; cases this
      | some p =>
        have hpk' : DelayHeap.peek s.q.heap = ((DelayHeap.peek s.q.heap).1, some p) := by rw [← hpk]
        have hpn : ¬ p > n := not_lt.2 (le_trans ((p4 p hpk).2 x r hx) hr)
        obtain ⟨y, q1, q2, q3, q4, q6, q5⟩ := pop_spec hb.heap hpk
        have hpp : DelayHeap.pop (DelayHeap.peek s.q.heap).1
            = ((DelayHeap.pop (DelayHeap.peek s.q.heap).1).1, some y) := by rw [← q1]
        have hlen : s.q.heap.len ≠ 0 := by omega
        have e : DelayQueue.loopStep s.q = ({ s.q with
            heap := (DelayHeap.pop (DelayHeap.peek s.q.heap).1).1
            core := WorkQueue.add s.q.core y }, [.loopAdd y s.q.clock]) := by
          simp only [DelayQueue.loopStep, hp, hlen, ne_eq, not_false_eq_true, if_true]
          rw [hpk']; simp only [hpn, if_false]
          rw [hpp]
        by_cases hyx : y = x
        · subst hyx
          refine ⟨s.real, ?_⟩
          simp [logOf, step, DelayQueue.step, e, stamp]
        · have hl' : (loops (Ev.q .loop :: more) : Int) = loops more + 1 := by
            simp [loops]
          obtain ⟨τ, hτ⟩ := ih _ n hb' (by simp only [step, DelayQueue.step, e]; exact hp)
            (by simp only [step, DelayQueue.step, e, q5, Ne.symm hyx, if_false]; exact hx) hr
            (by simp only [step, DelayQueue.step, e, q4]; omega)
          exact ⟨τ, by simp only [logOf]; exact List.mem_append_right _ hτ⟩
    · obtain ⟨h1, h2⟩ := step_other hb he (by simp [hp])
      rw [loops_other he] at hl
      obtain ⟨τ, hτ⟩ := ih _ n hb' (by rw [h2]; exact hp) (by rw [h1]; exact hx) hr (by rw [h1]; exact hl)
      exact ⟨τ, by simp only [logOf]; exact List.mem_append_right _ hτ⟩

/-- **C96.** Up to the size of the adjustments no item is added late: suppose the wall clock is never set back
by more than `B` on balance and `add_after(x, d)` was called at the real time `t'`, with no `x` added by the
loop since.  If the real time is `t' + d + B` or later, the loop is at the beginning of a round, and no entry
for `x` is still on its way to it, then it adds `x` within `heap.len + 1` of its own steps, whatever clients and
clock do meanwhile.  Missing: the claim without `B`. -/
theorem C96_late_partial (t w B : ℚ) (es more : List (Ev α)) (hB : Behind B (es ++ more))
    (hns : ∀ e ∈ es, isShutDown e = false) (a b : List (Log α)) (x : α) (d t' : ℚ)
    (hcall : logOf (init t w) es = a ++ Log.called x d t' :: b) (hno : ∀ τ, Log.loopAdd x τ ∉ b)
    (htop : (exec (init t w) es).q.pc = .top)
    (hputs : ∀ r, (x, r) ∉ (exec (init t w) es).q.puts) (hchan : ∀ r, (x, r) ∉ (exec (init t w) es).q.chan)
    (hreal : t' + d + B ≤ (exec (init t w : State α) es).real)
    (hloops : (exec (init t w) es).q.heap.len + 1 ≤ (loops more : Int)) :
    ∃ τ, Log.loopAdd x τ ∈ logOf (exec (init t w) es) more := by
  obtain ⟨as, bs, r, k1, k2, k3⟩ := kept_exec t w es hns a x d t' b hcall hno
  have hx : dl (exec (init t w) es).q.heap x = some r := by
    rw [DelayQueue.held_iff] at k3
    rcases k3 with h | h | h | h
    · exact absurd h (hputs r)
    · exact absurd h (hchan r)
    · rw [htop] at h; cases h
    · exact h
  -- until the loop reads the clock
  have key : ∀ (more pre : List (Ev α)), Behind B (es ++ pre ++ more) →
      (exec (init t w) (es ++ pre)).q.pc = .top → dl (exec (init t w) (es ++ pre)).q.heap x = some r →
      (exec (init t w : State α) es).real ≤ (exec (init t w : State α) (es ++ pre)).real →
      (exec (init t w) (es ++ pre)).q.heap.len + 1 ≤ (loops more : Int) →
      ∃ τ, Log.loopAdd x τ ∈ logOf (exec (init t w) (es ++ pre)) more := by
    intro more
    induction more with
    | nil =>
      intro pre _ _ hx _ hl
      exfalso
      obtain ⟨T, hs⟩ := (base0_exec t w (es ++ pre)).heap
      have h2 := hs.len
      simp [loops] at hl
      omega
    | cons e more ih =>
      intro pre hB hp hx hre hl
      have hb := base0_exec t w (es ++ pre)
      have hwall := wall_exec t w (es ++ pre)
      have hex : exec (init t w) (es ++ (pre ++ [e])) = (step (exec (init t w) (es ++ pre)) e).1 := by
        rw [← List.append_assoc, exec_append]; rfl
      by_cases he : e = .q .loop
      · subst he
        have hclock : r ≤ (exec (init t w : State α) (es ++ pre)).q.clock := by
          have h3 := hB as (bs ++ pre) (.q .loop :: more) (by rw [k1]; simp)
          rw [k1, List.append_assoc, shift_append, ← List.append_assoc, ← k1] at hwall
          rw [hwall]
          linarith
        have e : DelayQueue.loopStep (exec (init t w) (es ++ pre)).q
            = ({ (exec (init t w) (es ++ pre)).q with
              pc := .popping (exec (init t w : State α) (es ++ pre)).q.clock }, []) := by
          simp [DelayQueue.loopStep, hp, hb.sd]
        have hl' : (loops (Ev.q .loop :: more) : Int) = loops more + 1 := by
          simp [loops]
        obtain ⟨τ, hτ⟩ := popping_adds x r more (step (exec (init t w) (es ++ pre)) (.q .loop)).1 _
          (base0_step hb _) (by simp only [step, DelayQueue.step, e]) (by simp only [step, DelayQueue.step, e]; exact hx)
          hclock (by simp only [step, DelayQueue.step, e]; omega)
        exact ⟨τ, by simp only [logOf]; exact List.mem_append_right _ hτ⟩
      · obtain ⟨h1, h2⟩ := step_other hb he (by simp [hp])
        have hre' : (exec (init t w : State α) (es ++ pre)).real
            ≤ (step (exec (init t w : State α) (es ++ pre)) e).1.real := by
          cases move (exec (init t w : State α) (es ++ pre)) e with
          | adjust d _ hs _ => rw [hs]
          | time d hd _ hs _ => rw [hs]; simp only; linarith
          | timer tm _ _ hs _ => rw [hs]
          | nothing _ hs _ => rw [hs]
          | queue e' _ _ _ hr _ _ => rw [hr]
        rw [loops_other he] at hl
        obtain ⟨τ, hτ⟩ := ih (pre ++ [e]) (by simpa using hB) (by rw [hex, h2]; exact hp)
          (by rw [hex, h1]; exact hx) (by rw [hex]; linarith) (by rw [hex, h1]; exact hl)
        rw [hex] at hτ
        exact ⟨τ, by simp only [logOf]; exact List.mem_append_right _ hτ⟩
  have := key more [] (by simpa using hB) (by simpa using htop) (by simpa using hx) (by simp) (by simpa using hloops)
  simpa using this

/-- What the loop that takes entries from the heap, or waits, knows of the clock. -/
private structure Armed (t w : ℚ) (es : List (Ev α)) : Prop where
  pop : ∀ n, (exec (init t w) es).q.pc = .popping n →
    ∃ as bs, es = as ++ bs ∧ n = (exec (init t w : State α) es).real + (w - t) + shift as
  sleep : ∀ tm x r, (exec (init t w) es).q.pc = .sleeping tm → dl (exec (init t w) es).q.heap x = some r →
    ∃ as bs f, es = as ++ bs ∧ (exec (init t w : State α) es).fires = some f ∧ f ≤ r - (w - t) - shift as

/-- How the loop comes to wait. -/
private theorem sleeping_from {s : DelayQueue.State α} (hb : Base0 s) (e : DelayQueue.Ev α) {tm : Option ℚ}
    (h : (DelayQueue.step s e).1.pc = .sleeping tm) :
    (s.pc = .sleeping tm ∧ (DelayQueue.step s e).1.heap = s.heap) ∨
    (∃ n, s.pc = .popping n ∧ e = .loop ∧ ∀ x r, dl (DelayQueue.step s e).1.heap x = some r →
      ∃ p, p ≤ r ∧ tm = some (s.clock + (p - n))) := by
  cases e with
  | loop =>
    simp only [DelayQueue.step] at h ⊢
    cases hp : s.pc with
    | popping n =>
      right
      refine ⟨n, rfl, trivial, ?_⟩
      obtain ⟨p1, p2, p3, p4, p5, p6⟩ := peek_spec hb.heap
      simp only [DelayQueue.loopStep, hp] at h ⊢
      by_cases hl : s.heap.len ≠ 0
      · simp only [hl, ne_eq, not_false_eq_true, if_true] at h ⊢
        cases hpk : DelayHeap.peek s.heap with
        | mk heap o =>
          rw [hpk] at h p2 p4
          cases o with
          | none => simp at h
          | some p =>
            simp only at h p2 ⊢
            by_cases hpn : p > n
            · simp only [hpn, if_true, DelayQueue.Pc.sleeping.injEq] at h ⊢
              intro x r hx
              rw [p2] at hx
              exact ⟨p, (p4 p rfl).2 x r hx, h.symm⟩
            · simp only [hpn, if_false] at h
              split at h <;> simp [hp] at h
      · simp only [hl, if_false]
        intro x r hx
        exfalso
        obtain ⟨T, hs⟩ := hb.heap
        obtain ⟨c, hc⟩ := (dl_iff hs x r).1 hx
        have := List.length_pos_of_mem hc
        have h2 := hs.len
        omega
    | top => simp [DelayQueue.loopStep, hp, hb.sd] at h
    | sleeping t => simp [DelayQueue.loopStep, hp] at h ⊢; exact h
    | exited => simp [DelayQueue.loopStep, hp] at h
    | woke e =>
      simp only [DelayQueue.loopStep, hp] at h
      split at h
      · simp at h
      · split at h <;> simp at h
    | draining =>
      simp only [DelayQueue.loopStep, hp] at h
      split at h
      · simp at h
      · simp only [DelayQueue.file] at h
        split at h <;> simp [hp] at h
  | tick d =>
    left
    simp only [DelayQueue.step] at h ⊢
    split at h <;> rename_i hd <;> simp only [hd, if_true, if_false] <;> exact ⟨h, trivial⟩
  | base o => left; cases o <;> exact ⟨h, rfl⟩
  | addAfter x d =>
    left
    simp only [DelayQueue.step, DelayQueue.addAfter, hb.sd, Bool.false_eq_true, if_false] at h ⊢
    split at h <;> rename_i hd <;> simp only [hd, if_true, if_false] <;> exact ⟨h, trivial⟩
  | putDone i =>
    left
    simp only [DelayQueue.step] at h ⊢
    split at h
    · split at h <;> rename_i hd <;> simp only [hd, if_true, if_false] <;> exact ⟨h, trivial⟩
    · exact ⟨h, rfl⟩
  | putCancel i =>
    left
    simp only [DelayQueue.step] at h ⊢
    by_cases hd : s.stop = true <;> simp only [hd, if_true, if_false, Bool.false_eq_true] at h ⊢ <;>
      exact ⟨h, trivial⟩
  | shutDown => left; exact ⟨h, rfl⟩
  | wake w =>
    left
    simp only [DelayQueue.step, DelayQueue.wakeStep] at h ⊢
    cases hp : s.pc with
    | sleeping t =>
      simp only [hp] at h ⊢
      cases w with
      | stop =>
        simp only at h ⊢
        split at h
        · simp at h
        · rename_i hd; simp only [hd, if_false, Bool.false_eq_true]; exact ⟨hp ▸ h, trivial⟩
      | heartbeat => simp at h
      | timer =>
        simp only at h ⊢
        split at h
        · split at h
          · simp at h
          · rename_i hd; simp only [hd, if_false]; exact ⟨hp ▸ h, trivial⟩
        · exact ⟨hp ▸ h, rfl⟩
      | item =>
        simp only at h ⊢
        split at h
        · simp at h
        · exact ⟨hp ▸ h, rfl⟩
    | _ => simp only [hp] at h; exact absurd h (by simp)

private theorem armed_exec (t w : ℚ) (es : List (Ev α)) (hbr : Brisk (init t w) es) : Armed t w es := by
  induction es using List.reverseRecOn with
  | nil =>
    refine ⟨?_, ?_⟩
    · intro n h; simp [exec, init, DelayQueue.init] at h
    · intro tm x r h; simp [exec, init, DelayQueue.init] at h
  | append_singleton es e ih =>
    obtain ⟨pop, sleep⟩ := ih (fun as d bs n h => hbr as d (bs ++ [e]) n (by rw [h]; simp))
    have hlast : ∀ d n, e = .q (.tick d) → (exec (init t w) es).q.pc ≠ .popping n :=
      fun d n h => hbr es d [] n (by rw [h])
    have hb := base0_exec t w es
    have hwall := wall_exec t w es
    have hex : exec (init t w) (es ++ [e]) = (step (exec (init t w) es) e).1 := by rw [exec_append]; rfl
    cases move (exec (init t w) es) e with
    | adjust d he hs hl =>
      refine ⟨?_, ?_⟩
      · rw [hex, hs]
        intro n h
        obtain ⟨as, bs, k1, k2⟩ := pop n h
        exact ⟨as, bs ++ [e], by simp [k1], k2⟩
      · rw [hex, hs]
        intro tm x r h hx
        obtain ⟨as, bs, f, k1, k2⟩ := sleep tm x r h hx
        exact ⟨as, bs ++ [e], f, by simp [k1], k2⟩
    | time d hd he hs hl =>
      refine ⟨?_, ?_⟩
      · rw [hex, hs]
        intro n h
        exact absurd h (hlast d n he)
      · rw [hex, hs]
        intro tm x r h hx
        obtain ⟨as, bs, f, k1, k2⟩ := sleep tm x r h hx
        exact ⟨as, bs ++ [e], f, by simp [k1], k2⟩
    | timer tm hp he hs hl =>
      refine ⟨?_, ?_⟩
      · rw [hex, hs]; intro n h; simp at h
      · rw [hex, hs]; intro tm x r h; simp at h
    | nothing he hs hl =>
      refine ⟨?_, ?_⟩
      · rw [hex, hs]
        intro n h
        obtain ⟨as, bs, k1, k2⟩ := pop n h
        exact ⟨as, bs ++ [e], by simp [k1], k2⟩
      · rw [hex, hs]
        intro tm x r h hx
        obtain ⟨as, bs, f, k1, k2⟩ := sleep tm x r h hx
        exact ⟨as, bs ++ [e], f, by simp [k1], k2⟩
    | queue e' he hn hq hr hf hl =>
      refine ⟨?_, ?_⟩
      · rw [hex, hq, hr]
        intro n h
        rcases popping_from hb e' h with ⟨k1, -⟩ | ⟨-, k2, -⟩
        · obtain ⟨as, bs, j1, j2⟩ := pop n k1
          exact ⟨as, bs ++ [e], by simp [j1], j2⟩
        · exact ⟨es, [e], rfl, by rw [k2, hwall]⟩
      · rw [hex, hf, hq]
        intro tm x r h hx
        rcases sleeping_from hb e' h with ⟨k1, k2⟩ | ⟨n, k1, -, k3⟩
        · rw [k2] at hx
          obtain ⟨as, bs, f, j1, j2⟩ := sleep tm x r k1 hx
          exact ⟨as, bs ++ [e], f, by simp [j1], by simp only [armed, k1]; exact j2⟩
        · obtain ⟨p, j1, j2⟩ := k3 x r hx
          obtain ⟨as, bs, i1, i2⟩ := pop n k1
          refine ⟨as, bs ++ [e], (exec (init t w : State α) es).real + (p - n), by simp [i1], ?_, ?_⟩
          · simp only [armed, k1, h, j2, Option.some.injEq]; linarith
          · rw [i2]; linarith

/-- **C96.** The timer that the loop waits for fires in time, up to the size of the adjustments: suppose the
wall clock is neither set forward nor back by more than `B` on balance, no time passes while the loop takes
entries from the heap, and `add_after(x, d)` was called at the real time `t'`, with no `x` added by the loop
since.  If the loop waits and no entry for `x` is still on its way to it, then its timer fires at a real time `f`
that is `t' + d + B` or before: it wakes the loop then and later, and not before.  Missing: the claim without `B`. -/
theorem C96_timer_partial (t w B : ℚ) (es : List (Ev α)) (hA : Ahead B es) (hB : Behind B es)
    (hns : ∀ e ∈ es, isShutDown e = false) (hbr : Brisk (init t w) es) (a b : List (Log α)) (x : α) (d t' : ℚ)
    (hcall : logOf (init t w) es = a ++ Log.called x d t' :: b) (hno : ∀ τ, Log.loopAdd x τ ∉ b)
    (tm : Option ℚ) (hs : (exec (init t w) es).q.pc = .sleeping tm)
    (hputs : ∀ r, (x, r) ∉ (exec (init t w) es).q.puts) (hchan : ∀ r, (x, r) ∉ (exec (init t w) es).q.chan) :
    ∃ f, f ≤ t' + d + B ∧ (exec (init t w) (es ++ [.q (.wake .timer)])).q.pc =
      if f ≤ (exec (init t w : State α) es).real then .woke none else .sleeping tm := by
  obtain ⟨as, bs, r, k1, k2, k3⟩ := kept_exec t w es hns a x d t' b hcall hno
  have hx : dl (exec (init t w) es).q.heap x = some r := by
    rw [DelayQueue.held_iff] at k3
    rcases k3 with h | h | h | h
    · exact absurd h (hputs r)
    · exact absurd h (hchan r)
    · rw [hs] at h; cases h
    · exact h
  obtain ⟨cs, ds, f, j1, j2, j3⟩ := (armed_exec t w es hbr).sleep tm x r hs hx
  refine ⟨f, ?_, ?_⟩
  rotate_left
  · rw [exec_append]
    simp only [exec, step, hs, j2]
    split
    · rfl
    · exact hs
  have hsh : shift as - shift cs ≤ B := by
    rcases List.append_eq_append_iff.1 (k1.symm.trans j1) with ⟨l, h1, h2⟩ | ⟨l, h1, h2⟩
    · have := hB as l ds (by rw [k1, h2]; simp)
      rw [h1, shift_append]; linarith
    · have := hA cs l bs (by rw [j1, h2]; simp)
      rw [h1, shift_append]; linarith
  linarith

/-- A round of the loop that the heartbeat begins. -/
private def round : List (Ev α) := [.q (.wake .heartbeat), .q .loop, .q .loop, .q .loop]

private def putOff (x : α) (d M : ℚ) : List (Ev α) :=
  [.q (.addAfter x d), .q (.putDone 0), .q .loop, .q .loop, .adjust (-M), .q (.tick M),
    .q (.wake .item), .q .loop, .q .loop, .q .loop, .q .loop]

/-- **C96, refuted.** Whatever the delay `d`, an adjustment of the clock may have the item wait for longer than
any time `L` after it was due, although the loop has received it, has been through any number `k` of rounds
since, and waits for the next. -/
theorem C96_refuted_late (t w : ℚ) (x : α) (d L : ℚ) (hd : 0 < d) (hL : 0 ≤ L) (k : Nat) :
    ∃ es : List (Ev α), ∃ f, logOf (init t w) (es ++ (List.replicate k round).flatten) = [.called x d t] ∧
      (exec (init t w : State α) es).real = t + d + L ∧
      (exec (init t w : State α) (es ++ (List.replicate k round).flatten)).q.puts = [] ∧
      (exec (init t w : State α) (es ++ (List.replicate k round).flatten)).q.chan = [] ∧
      (exec (init t w : State α) (es ++ (List.replicate k round).flatten)).q.pc = .sleeping f := by
  obtain ⟨M, hM, hdL⟩ : ∃ M, M = d + L ∧ 0 ≤ M := ⟨d + L, rfl, by linarith⟩
  have h1 : w + -M + M = w := by linarith
  obtain ⟨S, hS, hlog⟩ : ∃ S : State α, exec (init t w) (putOff x d M) = S ∧
      logOf (init t w) (putOff x d M) = [.called x d t] := ⟨_, rfl, by
    norm_num [putOff, logOf, exec, step, DelayQueue.step, DelayQueue.addAfter, init, DelayQueue.init, WorkQueue.init,
      not_le.2 hd, DelayQueue.loopStep, DelayHeap.init, DelayQueue.wakeStep, DelayQueue.file, stamp, hdL, h1, hd,
      DelayHeap.insert, insertEntry, PyDict.has, PyDict.get?, PyDict.set, PyDict.del, Heapq.heappush_nil,
      Heapq.heappop_one, DelayHeap.peek, peekLoop, DelayHeap.pop, popLoop]⟩
  have hS' := hS
  norm_num [putOff, logOf, exec, step, DelayQueue.step, DelayQueue.addAfter, init, DelayQueue.init, WorkQueue.init,
      not_le.2 hd, DelayQueue.loopStep, DelayHeap.init, DelayQueue.wakeStep, DelayQueue.file, stamp, hdL, h1, hd,
      DelayHeap.insert, insertEntry, PyDict.has, PyDict.get?, PyDict.set, PyDict.del, Heapq.heappush_nil,
      Heapq.heappop_one, DelayHeap.peek, peekLoop, DelayHeap.pop, popLoop, armed] at hS'
  have hround : exec S round = S ∧ logOf S round = [] := by
    rw [← hS']
    constructor <;>
    norm_num [round, logOf, exec, step, DelayQueue.step, WorkQueue.init,
      DelayQueue.loopStep, DelayQueue.wakeStep, stamp, hd, PyDict.has, PyDict.get?, PyDict.set, PyDict.del,
      Heapq.heappop_one, DelayHeap.peek, peekLoop, DelayHeap.pop, popLoop, armed]
  have hrounds : ∀ k, exec S (List.replicate k round).flatten = S ∧ logOf S (List.replicate k round).flatten = [] := by
    intro k
    induction k with
    | zero => exact ⟨rfl, rfl⟩
    | succ k ih =>
      rw [List.replicate_succ, List.flatten_cons, exec_append, logOf_append, hround.1, hround.2]
      simpa using ih
  refine ⟨putOff x d M, some (w + d), ?_⟩
  rw [exec_append, logOf_append, hS, (hrounds k).1, (hrounds k).2, hlog, ← hS']
  refine ⟨rfl, ?_, rfl, rfl, ?_⟩
  · simp only [hM]; linarith
  · simp

/-! ### Runs that meet the hypotheses -/

private def ups : List (Ev α) → ℚ
  | [] => 0
  | .adjust d :: es => max d 0 + ups es
  | .q _ :: es => ups es

private theorem ups_nonneg (es : List (Ev α)) : 0 ≤ ups es := by
  induction es with
  | nil => simp [ups]
  | cons e es ih =>
    cases e with
    | adjust d => have := le_max_right d 0; simp only [ups]; linarith
    | q e => exact ih

private theorem ups_append (as bs : List (Ev α)) : ups (as ++ bs) = ups as + ups bs := by
  induction as with
  | nil => simp [ups]
  | cons a as ih => cases a <;> simp [ups, ih]; linarith

private theorem shift_le (es : List (Ev α)) : shift es ≤ ups es := by
  induction es with
  | nil => simp [ups, shift]
  | cons e es ih =>
    cases e with
    | adjust d => have := le_max_left d 0; simp only [ups, shift]; linarith
    | q e => exact ih

private theorem ahead_ups (es : List (Ev α)) : Ahead (ups es) es := by
  intro as bs cs h
  have h1 := shift_le bs
  have h2 := ups_nonneg as
  have h3 := ups_nonneg cs
  rw [h, ups_append, ups_append]
  linarith

private def downs : List (Ev α) → ℚ
  | [] => 0
  | .adjust d :: es => max (-d) 0 + downs es
  | .q _ :: es => downs es

private theorem downs_nonneg (es : List (Ev α)) : 0 ≤ downs es := by
  induction es with
  | nil => simp [downs]
  | cons e es ih =>
    cases e with
    | adjust d => have := le_max_right (-d) 0; simp only [downs]; linarith
    | q e => exact ih

private theorem downs_append (as bs : List (Ev α)) : downs (as ++ bs) = downs as + downs bs := by
  induction as with
  | nil => simp [downs]
  | cons a as ih => cases a <;> simp [downs, ih]; linarith

private theorem le_shift (es : List (Ev α)) : -downs es ≤ shift es := by
  induction es with
  | nil => simp [downs, shift]
  | cons e es ih =>
    cases e with
    | adjust d => have := le_max_left (-d) 0; simp only [downs, shift]; linarith
    | q e => exact ih

private theorem behind_downs (es : List (Ev α)) : Behind (downs es) es := by
  intro as bs cs h
  have h1 := le_shift bs
  have h2 := downs_nonneg as
  have h3 := downs_nonneg cs
  rw [h, downs_append, downs_append]
  linarith

/-- An item is put off by 5 seconds, the clock is set back by 2 and forward by 3, and 8 seconds pass. -/
private def sampleRun : List (Ev Nat) :=
  [.q (.addAfter 7 5), .q (.putDone 0), .q .loop, .q .loop, .q (.wake .item), .q .loop, .q .loop, .q .loop, .q .loop,
    .adjust (-2), .q (.tick 4), .adjust 3, .q (.tick 4), .q (.wake .timer), .q .loop]

example : Ahead 3 (sampleRun ++ [.q .loop, .q .loop]) ∧
    logOf (init 0 100) (sampleRun ++ [.q .loop, .q .loop]) = [.called 7 5 0] ++ Log.loopAdd 7 8 :: [] := by
  refine ⟨?_, ?_⟩
  · have := ahead_ups (sampleRun ++ [.q .loop, .q .loop])
    have h : ups (sampleRun ++ [.q .loop, .q .loop]) = 3 := by norm_num [ups, sampleRun]
    rwa [h] at this
  · norm_num [sampleRun, logOf, exec, step, DelayQueue.step, DelayQueue.addAfter, init, DelayQueue.init,
      WorkQueue.init, DelayQueue.loopStep, DelayHeap.init, DelayQueue.wakeStep, DelayQueue.file, stamp, armed,
      DelayHeap.insert, insertEntry, PyDict.has, PyDict.get?, PyDict.set, PyDict.del, Heapq.heappush_nil,
      Heapq.heappop_one, DelayHeap.peek, peekLoop, DelayHeap.pop, popLoop]

example : Behind 2 (sampleRun ++ [.q .loop, .q .loop]) ∧ (∀ e ∈ sampleRun, isShutDown e = false) ∧
    logOf (init 0 100) sampleRun = [] ++ Log.called 7 5 0 :: [] ∧
    (exec (init 0 100) sampleRun).q.pc = .top ∧ (exec (init 0 100) sampleRun).q.puts = [] ∧
    (exec (init 0 100) sampleRun).q.chan = [] ∧ 0 + 5 + 2 ≤ (exec (init 0 100) sampleRun).real ∧
    (exec (init 0 100) sampleRun).q.heap.len = 1 := by
  refine ⟨?_, by simp [sampleRun, isShutDown, DelayQueue.isShutDown], ?_⟩
  · have := behind_downs (sampleRun ++ [.q .loop, .q .loop])
    have h : downs (sampleRun ++ [.q .loop, .q .loop]) = 2 := by norm_num [downs, sampleRun]
    rwa [h] at this
  · norm_num [sampleRun, logOf, exec, step, DelayQueue.step, DelayQueue.addAfter, init, DelayQueue.init,
      WorkQueue.init, DelayQueue.loopStep, DelayHeap.init, DelayQueue.wakeStep, DelayQueue.file, stamp, armed,
      DelayHeap.insert, insertEntry, PyDict.has, PyDict.get?, PyDict.set, PyDict.del, Heapq.heappush_nil,
      Heapq.heappop_one, DelayHeap.peek, peekLoop, DelayHeap.pop, popLoop]

private theorem sample_brisk : Brisk (init 0 100) (sampleRun.take 13) := by
  intro as d bs n h
  have hlen : as.length ≤ 13 := by
    have := congrArg List.length h
    simp [sampleRun] at this
    omega
  have hget : (sampleRun.take 13)[as.length]? = some (.q (.tick d)) := by rw [h]; simp
  have has : as = (sampleRun.take 13).take as.length := by rw [h]; simp
  have hi : as.length = 10 ∨ as.length = 12 := by
    generalize as.length = i at hget hlen
    interval_cases i <;> simp [sampleRun] at hget <;> simp
  rcases hi with hi | hi <;> rw [hi] at has <;> rw [has] <;>
    norm_num [sampleRun, exec, step, DelayQueue.step, DelayQueue.addAfter, init, DelayQueue.init,
      WorkQueue.init, DelayQueue.loopStep, DelayHeap.init, DelayQueue.wakeStep, DelayQueue.file, stamp, armed,
      DelayHeap.insert, insertEntry, PyDict.has, PyDict.get?, PyDict.set, PyDict.del, Heapq.heappush_nil,
      Heapq.heappop_one, DelayHeap.peek, peekLoop, DelayHeap.pop, popLoop] <;> exact (fun h => nomatch h)

example : Ahead 3 (sampleRun.take 13) ∧ Behind 3 (sampleRun.take 13) ∧
    (∀ e ∈ sampleRun.take 13, isShutDown e = false) ∧ Brisk (init 0 100) (sampleRun.take 13) ∧
    logOf (init 0 100) (sampleRun.take 13) = [] ++ Log.called 7 5 0 :: [] ∧
    (exec (init 0 100) (sampleRun.take 13)).q.pc = .sleeping (some 105) ∧
    (exec (init 0 100) (sampleRun.take 13)).q.puts = [] ∧ (exec (init 0 100) (sampleRun.take 13)).q.chan = [] ∧
    (exec (init 0 100) (sampleRun.take 13)).fires = some 5 := by
  refine ⟨?_, ?_, by simp [sampleRun, isShutDown, DelayQueue.isShutDown], sample_brisk, ?_⟩
  · have := ahead_ups (sampleRun.take 13)
    have h : ups (sampleRun.take 13) = 3 := by norm_num [ups, sampleRun]
    rwa [h] at this
  · have := behind_downs (sampleRun.take 13)
    have h : downs (sampleRun.take 13) = 2 := by norm_num [downs, sampleRun]
    rw [h] at this
    intro as bs cs h
    have := this as bs cs h
    linarith
  · norm_num [sampleRun, logOf, exec, step, DelayQueue.step, DelayQueue.addAfter, init, DelayQueue.init,
      WorkQueue.init, DelayQueue.loopStep, DelayHeap.init, DelayQueue.wakeStep, DelayQueue.file, stamp, armed,
      DelayHeap.insert, insertEntry, PyDict.has, PyDict.get?, PyDict.set, PyDict.del, Heapq.heappush_nil,
      Heapq.heappop_one, DelayHeap.peek, peekLoop, DelayHeap.pop, popLoop]

example : ∃ es : List (Ev Nat), logOf (init 0 100) es = [.called 7 3600 0, .loopAdd 7 0] :=
  C96_refuted_early 0 100 7 3600 (by norm_num)

end Aiok8s.DelayClock
