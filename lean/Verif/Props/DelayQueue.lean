import Verif.Proof.DelayQueue
import Mathlib.Tactic.NormNum
/-!
# Properties C13-C15: the delaying queue (`aiok8s/workqueue/delaying_queue.py`)

`es` is any sequence of moves of clients, clock and delay loop, from a new queue; `logOf` lists
the accepted delayed `add_after` calls and the `add` calls made by the delay loop, with the clock
readings at which they happened.
-/
set_option linter.unusedSimpArgs false
namespace Aiok8s.DelayQueue
open Aiok8s Aiok8s.DelayHeap
variable {α : Type} [DecidableEq α]

private def Src (s : State α) (L : List (Log α)) : Prop :=
  ∀ x r, Held s x r → ∃ d t, Log.called x d t ∈ L ∧ 0 < d ∧ t + d = r

private def Early (L : List (Log α)) : Prop :=
  ∀ a x τ b, L = a ++ Log.loopAdd x τ :: b → ∃ d t, Log.called x d t ∈ a ∧ 0 < d ∧ t + d ≤ τ

private theorem early_snoc {L : List (Log α)} (h : Early L) (l : Log α)
    (hl : ∀ x τ, l = .loopAdd x τ → ∃ d t, Log.called x d t ∈ L ∧ 0 < d ∧ t + d ≤ τ) :
    Early (L ++ [l]) := by
  intro a x τ b hab
  rcases List.eq_nil_or_concat b with rfl | ⟨b', l', rfl⟩
  · obtain ⟨h1, h2⟩ := List.append_inj' hab (by simp)
    simp only [List.cons.injEq, and_true] at h2
    subst h1
    exact hl x τ h2
  · have : L ++ [l] = (a ++ Log.loopAdd x τ :: b') ++ [l'] := by rw [hab]; simp
    obtain ⟨h1, -⟩ := List.append_inj' this (by simp)
    exact h a x τ b' h1

private theorem early_exec (es : List (Ev α)) : ∀ (s : State α) (L : List (Log α)),
    Base s → Src s L → Early L → Early (L ++ logOf s es) := by
  induction es with
  | nil => intro s L _ _ h; simpa [logOf] using h
  | cons e es ih =>
    intro s L hb hs he
    obtain ⟨heff, hb'⟩ := step_effect hb e
    simp only [logOf]
    rw [← List.append_assoc]
    generalize hs' : (step s e).1 = s' at *
    generalize ho : (step s e).2 = o at *
    cases heff with
    | quiet hback _ _ =>
      refine ih _ _ hb' ?_ (by simpa using he)
      intro x r h
      simpa using hs x r (hback x r h)
    | called x d hd hiff _ =>
      refine ih _ _ hb' ?_ (early_snoc he _ (by simp))
      intro y r h
      rcases (hiff y r).1 h with h | ⟨rfl, rfl⟩
      · obtain ⟨d, t, h1, h2⟩ := hs y r h
        exact ⟨d, t, by simp [h1], h2⟩
      · exact ⟨d, s.clock, by simp, hd, rfl⟩
    | added x r hr hx hback _ _ =>
      refine ih _ _ hb' ?_ (early_snoc he _ ?_)
      · intro y r h
        obtain ⟨d, t, h1, h2⟩ := hs y r (hback y r h)
        exact ⟨d, t, by simp [h1], h2⟩
      · intro y τ h
        simp only [Log.loopAdd.injEq] at h
        obtain ⟨rfl, rfl⟩ := h
        obtain ⟨d, t, h1, h2, h3⟩ := hs x r hx
        exact ⟨d, t, h1, h2, by rw [h3]; exact hr⟩

private theorem not_held_init (t : ℚ) (x : α) (r : ℚ) : ¬ Held (init t : State α) x r := by
  simp [Held, init, DelayHeap.init]

/-- **C13.** Whenever the delay loop adds `x` at time `τ`, some earlier `add_after(x, d)`, made
at a time `t`, is due: `t + d ≤ τ`. -/
theorem C13_never_early (t0 : ℚ) (es : List (Ev α)) (a : List (Log α)) (x : α) (τ : ℚ)
    (b : List (Log α)) (h : logOf (init t0) es = a ++ Log.loopAdd x τ :: b) :
    ∃ d t, Log.called x d t ∈ a ∧ 0 < d ∧ t + d ≤ τ := by
  have := early_exec es (init t0 : State α) [] (base_init t0)
    (fun x r h => absurd h (not_held_init t0 x r)) (by intro a x τ b h; simp at h)
  exact this a x τ b (by simpa using h)

/-- a run: `add_after(7, 5)` at 100, the loop files it, sleeps until 105, adds it at 106 -/
def sampleRun : List (Ev Nat) :=
  [.loop, .loop, .addAfter 7 5, .putDone 0, .wake .item, .loop, .loop, .loop, .loop,
   .tick 6, .wake .timer, .loop, .loop, .loop]

example : logOf (init 100) sampleRun = [.called 7 5 100] ++ Log.loopAdd 7 106 :: [] := by
  norm_num [sampleRun, logOf, step, loopStep, wakeStep, addAfter, init, WorkQueue.init,
    DelayHeap.init, file, DelayHeap.insert, insertEntry, PyDict.has, PyDict.get?, PyDict.set,
    PyDict.del, Heapq.heappush_nil, Heapq.heappop_one, DelayHeap.peek, peekLoop, DelayHeap.pop, popLoop]

/-- The number of accepted delayed `add_after` calls for `x`. -/
def calls (x : α) (L : List (Log α)) : Nat :=
  L.countP (fun l => match l with | .called y _ _ => y = x | _ => false)

/-- The number of `add(x)` calls made by the delay loop. -/
def loopAdds (x : α) (L : List (Log α)) : Nat :=
  L.countP (fun l => match l with | .loopAdd y _ => y = x | _ => false)

/-- **C13.** The delay loop adds `x` at most once for each `add_after` of `x`. -/
theorem C13_at_most_one_add_per_call (t0 : ℚ) (es : List (Ev α)) (x : α) :
    loopAdds x (logOf (init t0) es) ≤ calls x (logOf (init t0) es) := by
  have key : ∀ (es : List (Ev α)) (s : State α), Base s →
      loopAdds x (logOf s es) + hc (exec s es) x ≤ calls x (logOf s es) + hc s x := by
    intro es
    induction es with
    | nil => intro s _; simp [logOf, loopAdds, calls, exec]
    | cons e es ih =>
      intro s hb
      obtain ⟨heff, hb'⟩ := step_effect hb e
      have ih := ih _ hb'
      simp only [logOf, exec, loopAdds, calls, List.countP_append] at ih ⊢
      generalize hs' : (step s e).1 = s' at *
      generalize ho : (step s e).2 = o at *
      cases heff with
      | quiet _ _ hcnt =>
        have := hcnt x
        simp only [List.countP_nil]; omega
      | called y d hd hiff hcnt =>
        have := hcnt x
        simp only [List.countP_singleton]
        by_cases h : x = y
        · subst h; simp at this ⊢; omega
        · simp [h, Ne.symm h] at this ⊢; omega
      | added y r hr hx hback _ hcnt =>
        have := hcnt x
        simp only [List.countP_singleton]
        by_cases h : x = y
        · subst h; simp at this ⊢; omega
        · simp [h, Ne.symm h] at this ⊢; omega
  have h0 : hc (init t0 : State α) x = 0 := by
    simp [hc, init, DelayHeap.init, dl]
  have := key es (init t0) (base_init t0)
  omega

/-! ## Not forgotten -/

private def Kept (s : State α) (L : List (Log α)) : Prop :=
  ∀ a x d t b, L = a ++ Log.called x d t :: b → (∀ τ, Log.loopAdd x τ ∉ b) →
    ∃ r, r ≤ t + d ∧ Held s x r

theorem stop_stays {s : State α} {e : Ev α} (h : isShutDown e = false) :
    (step s e).1.stop = s.stop := by
  cases e with
  | tick d => simp only [step]; split <;> rfl
  | base o => cases o <;> first | rfl | simp [isShutDown] at h
  | addAfter x d =>
    simp only [step, addAfter]
    split
    · rfl
    · split <;> rfl
  | putDone i =>
    simp only [step]
    split
    · split <;> rfl
    · rfl
  | putCancel i => simp only [step]; split <;> rfl
  | shutDown => simp [isShutDown] at h
  | wake w =>
    simp only [step, wakeStep]
    split
    · split
      · split <;> rfl
      · rfl
      · split
        · split <;> rfl
        · rfl
      · split <;> rfl
    · rfl
  | loop =>
    simp only [step, loopStep]
    split
    · split <;> rfl
    · split
      · split
        · rfl
        · split
          · rfl
          · split <;> rfl
      · rfl
    · rfl
    · split
      · rfl
      · split
        · rfl
        · simp only [file]; split <;> rfl
    · split
      · rfl
      · simp only [file]; split <;> rfl
    · rfl

private theorem kept_exec (es : List (Ev α)) (hns : ∀ e ∈ es, isShutDown e = false) :
    ∀ (s : State α) (L : List (Log α)), Base s → s.stop = false → Kept s L →
      Kept (exec s es) (L ++ logOf s es) := by
  induction es with
  | nil => intro s L _ _ h; simpa [logOf, exec] using h
  | cons e es ih =>
    intro s L hb hst hk
    obtain ⟨heff, hb'⟩ := step_effect hb e
    have hst' := (stop_stays (s := s) (hns e (by simp))).trans hst
    simp only [logOf, exec]
    rw [← List.append_assoc]
    have ih := ih (fun e he => hns e (by simp [he])) _ (L ++ (step s e).2) hb' hst'
    apply ih
    clear ih
    generalize hs' : (step s e).1 = s' at *
    generalize ho : (step s e).2 = o at *
    cases heff with
    | quiet _ hfwd _ =>
      intro a x d t b hab hn
      obtain ⟨r, h1, h2⟩ := hk a x d t b (by simpa using hab) hn
      obtain ⟨r', h3, h4⟩ := hfwd hst x r h2
      exact ⟨r', le_trans h3 h1, h4⟩
    | called y d' hd hiff _ =>
      intro a x d t b hab hn
      rcases List.eq_nil_or_concat b with rfl | ⟨b', l', rfl⟩
      · obtain ⟨h1, h2⟩ := List.append_inj' hab (by simp)
        simp only [List.cons.injEq, Log.called.injEq, and_true] at h2
        obtain ⟨rfl, rfl, rfl⟩ := h2
        exact ⟨_, le_refl _, (hiff _ _).2 (Or.inr ⟨rfl, rfl⟩)⟩
      · have : L ++ [Log.called y d' s.clock] = (a ++ Log.called x d t :: b') ++ [l'] := by
          rw [hab]; simp
        obtain ⟨h1, -⟩ := List.append_inj' this (by simp)
        obtain ⟨r, h2, h3⟩ := hk a x d t b' h1 (fun τ hτ => hn τ (by simp [hτ]))
        exact ⟨r, h2, (hiff _ _).2 (Or.inl h3)⟩
    | added y r hr hx hback hfwd _ =>
      intro a x d t b hab hn
      rcases List.eq_nil_or_concat b with rfl | ⟨b', l', rfl⟩
      · obtain ⟨h1, h2⟩ := List.append_inj' hab (by simp)
        simp at h2
      · have : L ++ [Log.loopAdd y s.clock] = (a ++ Log.called x d t :: b') ++ [l'] := by
          rw [hab]; simp
        obtain ⟨h1, h1'⟩ := List.append_inj' this (by simp)
        simp only [List.cons.injEq, and_true] at h1'
        subst h1'
        obtain ⟨r, h2, h3⟩ := hk a x d t b' h1 (fun τ hτ => hn τ (by simp [hτ]))
        have hxy : x ≠ y := by
          rintro rfl
          exact hn s.clock (by simp)
        obtain ⟨r', h4, h5⟩ := hfwd x r hxy h3
        exact ⟨r', le_trans h4 h2, h5⟩

/-- **C14.** While `shut_down` is not called: after an accepted `add_after(x, d)` at time `t`,
either the delay loop has called `add(x)` since, or `x` is held with a deadline of at most
`t + d` (and the delay loop has not ended). -/
theorem C14_not_forgotten (t0 : ℚ) (es : List (Ev α)) (hns : ∀ e ∈ es, isShutDown e = false)
    (a : List (Log α)) (x : α) (d t : ℚ) (b : List (Log α))
    (h : logOf (init t0) es = a ++ Log.called x d t :: b) (hn : ∀ τ, Log.loopAdd x τ ∉ b) :
    (∃ r, r ≤ t + d ∧ Held (exec (init t0) es) x r) ∧ (exec (init t0) es).pc ≠ .exited := by
  constructor
  · have := kept_exec es hns (init t0) [] (base_init t0) rfl (by intro a x d t b h; simp at h)
    exact this a x d t b (by simpa using h) hn
  · have hstop : ∀ (es : List (Ev α)) (s : State α), (∀ e ∈ es, isShutDown e = false) →
        s.stop = false → (exec s es).stop = false := by
      intro es
      induction es with
      | nil => intro s _ h; exact h
      | cons e es ih =>
        intro s hns h
        exact ih _ (fun e he => hns e (by simp [he]))
          ((stop_stays (hns e (by simp))).trans h)
    exact (base_exec (base_init t0) es).alive (hstop es _ hns rfl)

example : (∀ e ∈ sampleRun.take 9, isShutDown e = false) ∧
    logOf (init 100) (sampleRun.take 9) = [] ++ Log.called 7 5 100 :: [] := by
  constructor
  · decide
  · norm_num [sampleRun, logOf, step, loopStep, wakeStep, addAfter, init, WorkQueue.init,
      DelayHeap.init, file, DelayHeap.insert, insertEntry, PyDict.has, PyDict.get?, PyDict.set,
      PyDict.del, Heapq.heappush_nil, Heapq.heappop_one, DelayHeap.peek, peekLoop, DelayHeap.pop, popLoop]

private def SleepOK (s : State α) : Prop :=
  ∀ timer, s.pc = .sleeping timer →
    (timer = none → ∀ x, dl s.heap x = none) ∧
    (∀ f, timer = some f → ∃ x e, dl s.heap x = some e ∧ (∀ y q, dl s.heap y = some q → e ≤ q) ∧
      e ≤ f)

theorem loop_sleep {s : State α} (hb : Base s) {timer : Option ℚ}
    (h : (loopStep s).1.pc = .sleeping timer) (hpc : ∀ t, s.pc ≠ .sleeping t) :
    ∃ n, s.pc = .popping n ∧
    ((timer = none ∧ ∀ x, dl (loopStep s).1.heap x = none) ∨
     (∃ x e, timer = some (s.clock + (e - n)) ∧ dl (loopStep s).1.heap x = some e ∧
       (∀ y q, dl (loopStep s).1.heap y = some q → e ≤ q))) := by
  obtain ⟨hh, hn, hsd, hal⟩ := hb
  cases hp : s.pc with
  | sleeping t => exact absurd hp (hpc t)
  | top => simp [loopStep, hp, hsd] at h
  | exited => simp [loopStep, hp] at h
  | woke e =>
    simp only [loopStep, hp] at h
    split at h
    · simp at h
    · split at h <;> simp at h
  | draining =>
    simp only [loopStep, hp] at h
    split at h
    · simp at h
    · simp only [file] at h
      split at h <;> simp [hp] at h
  | popping n =>
    refine ⟨n, rfl, ?_⟩
    obtain ⟨p1, p2, p3, p4, p5, p6⟩ := peek_spec hh
    by_cases hlen : s.heap.len = 0
    · left
      have e : loopStep s = ({ s with pc := .sleeping none }, []) := by
        simp [loopStep, hp, hlen]
      rw [e] at h ⊢
      simp only [Pc.sleeping.injEq] at h
      refine ⟨h.symm, ?_⟩
      intro x
      obtain ⟨T, hs⟩ := hh
      have hT : T = [] := by
        have := hs.len
        rw [hlen] at this
        exact List.length_eq_zero_iff.1 (by omega)
      subst hT
      cases hd : dl s.heap x with
      | none => rfl
      | some p => simpa using (dl_iff hs x p).1 hd
    · right
      cases hpk : (DelayHeap.peek s.heap).2 with
      | none => exact absurd (p6 hpk) hlen
      | some p =>
        have hpk' : DelayHeap.peek s.heap = ((DelayHeap.peek s.heap).1, some p) := by rw [← hpk]
        by_cases hlt : p > n
        · have e : loopStep s = ({ s with
              heap := (DelayHeap.peek s.heap).1
              pc := .sleeping (some (s.clock + (p - n))) }, []) := by
            simp only [loopStep, hp, hlen, ne_eq, not_false_eq_true, if_true]
            rw [hpk']; simp [hlt]
          rw [e] at h ⊢
          obtain ⟨⟨x, hx⟩, hmin⟩ := p4 p hpk
          simp only [Pc.sleeping.injEq] at h
          refine ⟨x, p, h.symm, ?_, ?_⟩
          · simp only [p2]; exact hx
          · intro y q; simp only [p2]; exact hmin y q
        · exfalso
          simp only [loopStep, hp, hlen, ne_eq, not_false_eq_true, if_true] at h
          rw [hpk'] at h
          simp only [hlt, if_false] at h
          split at h <;> simp [hp] at h

theorem other_same {s : State α} {e : Ev α} (he : e ≠ .loop) :
    (step s e).1.heap = s.heap ∧ (∀ t, (step s e).1.pc = .sleeping t → s.pc = .sleeping t) := by
  cases e with
  | tick d => simp only [step]; split <;> exact ⟨rfl, fun _ h => h⟩
  | base o => cases o <;> exact ⟨rfl, fun _ h => h⟩
  | addAfter x d =>
    simp only [step, addAfter]
    split
    · exact ⟨rfl, fun _ h => h⟩
    · split <;> exact ⟨rfl, fun _ h => h⟩
  | putDone i =>
    simp only [step]
    split
    · split <;> exact ⟨rfl, fun _ h => h⟩
    · exact ⟨rfl, fun _ h => h⟩
  | putCancel i => simp only [step]; split <;> exact ⟨rfl, fun _ h => h⟩
  | shutDown => exact ⟨rfl, fun _ h => h⟩
  | wake w =>
    simp only [step, wakeStep]
    split
    · split
      · split
        · exact ⟨rfl, fun _ h => by simp at h⟩
        · exact ⟨rfl, fun _ h => h⟩
      · exact ⟨rfl, fun _ h => by simp at h⟩
      · split
        · split
          · exact ⟨rfl, fun _ h => by simp at h⟩
          · exact ⟨rfl, fun _ h => h⟩
        · exact ⟨rfl, fun _ h => h⟩
      · split
        · exact ⟨rfl, fun _ h => by simp at h⟩
        · exact ⟨rfl, fun _ h => h⟩
    · exact ⟨rfl, fun _ h => h⟩
  | loop => exact absurd rfl he

/-- **C14.** Whenever the delay loop sleeps and the heap holds an item, it has a timer set, not
before the earliest deadline `e` held. -/
theorem C14_sleep_has_timer (t0 : ℚ) (es : List (Ev α)) (timer : Option ℚ) (x : α) (r : ℚ)
    (hs : (exec (init t0) es).pc = .sleeping timer) (hx : InHeap (exec (init t0) es) x r) :
    ∃ f e y, timer = some f ∧ InHeap (exec (init t0) es) y e ∧ e ≤ f ∧
      ∀ z q, InHeap (exec (init t0) es) z q → e ≤ q := by
  have key : ∀ (es : List (Ev α)) (s : State α), Base s → SleepOK s → SleepOK (exec s es) := by
    intro es
    induction es with
    | nil => intro s _ h; exact h
    | cons e es ih =>
      intro s hb h
      refine ih _ (step_effect hb e).2 ?_
      by_cases he : e = .loop
      · subst he
        by_cases hsl : ∃ t, s.pc = .sleeping t
        · obtain ⟨t, ht⟩ := hsl
          have : (step s .loop).1 = s := by simp [step, loopStep, ht]
          rw [this]; exact h
        · intro timer ht
          obtain ⟨n, hn, hh⟩ := loop_sleep hb ht (fun t ht => hsl ⟨t, ht⟩)
          rcases hh with ⟨h1, h2⟩ | ⟨x, e, h1, h2, h3⟩
          · refine ⟨fun _ => h2, ?_⟩
            rintro f rfl; cases h1
          · refine ⟨fun h => (by rw [h] at h1; cases h1), ?_⟩
            intro f hf
            refine ⟨x, e, h2, h3, ?_⟩
            rw [h1] at hf
            simp only [Option.some.injEq] at hf
            have := hb.now n hn
            linarith
      · obtain ⟨h1, h2⟩ := other_same (s := s) he
        intro timer ht
        rw [h1]
        exact h timer (h2 timer ht)
  have := key es (init t0) (base_init t0) (by intro t h; simp [init] at h) timer hs
  cases timer with
  | none =>
    have := this.1 rfl x
    rw [InHeap] at hx
    rw [dl] at this
    rw [this] at hx; cases hx
  | some f =>
    obtain ⟨y, e, h1, h2, h3⟩ := this.2 f rfl
    exact ⟨f, e, y, rfl, h1, h3, h2⟩

/-- **C14.** The timer is set for exactly the earliest deadline held, counted from the clock
reading `n` of this round: no time is lost but what passed since that reading. -/
theorem C14_timer_exact (t0 : ℚ) (es : List (Ev α)) (f : ℚ)
    (hnot : ∀ t, (exec (init t0) es).pc ≠ .sleeping t)
    (hs : (loopStep (exec (init t0 : State α) es)).1.pc = .sleeping (some f)) :
    ∃ n e x, (exec (init t0) es).pc = .popping n ∧ f = e + ((exec (init t0) es).clock - n) ∧
      InHeap (loopStep (exec (init t0) es)).1 x e ∧
      ∀ z q, InHeap (loopStep (exec (init t0) es)).1 z q → e ≤ q := by
  obtain ⟨n, hn, h⟩ := loop_sleep (base_exec (base_init t0) es) hs hnot
  rcases h with ⟨h1, -⟩ | ⟨x, e, h1, h2, h3⟩
  · cases h1
  · refine ⟨n, e, x, hn, ?_, h2, h3⟩
    simp only [Option.some.injEq] at h1
    linarith

example : (exec (init 100) (sampleRun.take 9)).pc = .sleeping (some 105) ∧
    InHeap (exec (init 100) (sampleRun.take 9)) 7 105 := by
  norm_num [sampleRun, exec, InHeap, step, loopStep, wakeStep, addAfter, init, WorkQueue.init,
    DelayHeap.init, file, DelayHeap.insert, insertEntry, PyDict.has, PyDict.get?, PyDict.set,
    PyDict.del, Heapq.heappush_nil, Heapq.heappop_one, DelayHeap.peek, peekLoop, DelayHeap.pop, popLoop]

/-- **C14.** Once the loop is back at its top (after waking) with `x` in the heap and due, it
adds `x` within `heap.len + 1` of its own steps, whatever clients and clock do meanwhile. -/
theorem C14_due_item_added (t0 : ℚ) (es more : List (Ev α)) (x : α) (r : ℚ)
    (htop : (exec (init t0) es).pc = .top) (hx : InHeap (exec (init t0) es) x r)
    (hdue : r ≤ (exec (init t0) es).clock)
    (hloops : (exec (init t0) es).heap.len + 1 ≤ (loops more : Int)) :
    ∃ τ, Log.loopAdd x τ ∈ logOf (exec (init t0) es) more := by
  have hb := base_exec (base_init t0) es
  generalize exec (init t0 : State α) es = s at *
  -- in the popping phase
  have pop : ∀ (more : List (Ev α)) (s : State α) (n : ℚ), Base s → s.pc = .popping n →
      dl s.heap x = some r → r ≤ n → s.heap.len ≤ (loops more : Int) →
      ∃ τ, Log.loopAdd x τ ∈ logOf s more := by
    intro more
    induction more with
    | nil =>
      intro s n hb hp hx hr hl
      exfalso
      obtain ⟨T, hs⟩ := hb.heap
      obtain ⟨c, hc⟩ := (dl_iff hs x r).1 hx
      have := List.length_pos_of_mem hc
      have h2 := hs.len
      simp [loops] at hl
      omega
    | cons e more ih =>
      intro s n hb hp hx hr hl
      have hb' := (step_effect hb e).2
      by_cases he : e = .loop
      · subst he
        obtain ⟨p1, p2, p3, p4, p5, p6⟩ := peek_spec hb.heap
        cases hpk : (DelayHeap.peek s.heap).2 with
        | none => have := p5 hpk x; rw [hx] at this; cases this
        | some p =>
          have hpk' : DelayHeap.peek s.heap = ((DelayHeap.peek s.heap).1, some p) := by rw [← hpk]
          have hpn : ¬ p > n := not_lt.2 (le_trans ((p4 p hpk).2 x r hx) hr)
          obtain ⟨y, q1, q2, q3, q4, q6, q5⟩ := pop_spec hb.heap hpk
          have hpp : DelayHeap.pop (DelayHeap.peek s.heap).1
              = ((DelayHeap.pop (DelayHeap.peek s.heap).1).1, some y) := by rw [← q1]
          have hlen : s.heap.len ≠ 0 := by omega
          have e : loopStep s = ({ s with
              heap := (DelayHeap.pop (DelayHeap.peek s.heap).1).1
              core := WorkQueue.add s.core y }, [.loopAdd y s.clock]) := by
            simp only [loopStep, hp, hlen, ne_eq, not_false_eq_true, if_true]
            rw [hpk']; simp only [hpn, if_false]
            rw [hpp]
          by_cases hyx : y = x
          · subst hyx
            refine ⟨s.clock, ?_⟩
            simp [logOf, step, e]
          · have hl' : (loops (Ev.loop :: more) : Int) = loops more + 1 := by
              simp [loops]
            obtain ⟨τ, hτ⟩ := ih _ n hb' (by simp only [step, e]; exact hp)
              (by simp only [step, e, q5, Ne.symm hyx, if_false]; exact hx) hr
              (by simp only [step, e, q4]; omega)
            exact ⟨τ, by simp only [logOf]; exact List.mem_append_right _ hτ⟩
      · have hsame := (other_same (s := s) he).1
        have hpc : (step s e).1.pc = .popping n := by
          cases e with
          | loop => exact absurd rfl he
          | tick d => simp only [step]; split <;> exact hp
          | base o => cases o <;> exact hp
          | addAfter y d =>
            simp only [step, addAfter]
            split
            · exact hp
            · split <;> exact hp
          | putDone i =>
            simp only [step]
            split
            · split <;> exact hp
            · exact hp
          | putCancel i => simp only [step]; split <;> exact hp
          | shutDown => exact hp
          | wake w => simp only [step, wakeStep, hp]
        have hl' : loops (e :: more) = loops more := by
          cases e <;> simp_all [loops]
        obtain ⟨τ, hτ⟩ := ih _ n hb' hpc (by rw [hsame]; exact hx) hr (by rw [hsame, ← hl']; exact hl)
        exact ⟨τ, by simp only [logOf]; exact List.mem_append_right _ hτ⟩
  -- at the top
  induction more generalizing s with
  | nil =>
    exfalso
    obtain ⟨T, hs⟩ := hb.heap
    have h2 := hs.len
    simp [loops] at hloops
    omega
  | cons e more ih =>
    have hb' := (step_effect hb e).2
    by_cases he : e = .loop
    · subst he
      have e : loopStep s = ({ s with pc := .popping s.clock }, []) := by
        simp [loopStep, htop, hb.sd]
      have hl' : (loops (Ev.loop :: more) : Int) = loops more + 1 := by
        simp [loops]
      obtain ⟨τ, hτ⟩ := pop more (step s .loop).1 s.clock hb' (by simp [step, e])
        (by simp only [step, e]; exact hx) hdue (by simp only [step, e]; omega)
      exact ⟨τ, by simp only [logOf]; exact List.mem_append_right _ hτ⟩
    · have hsame := (other_same (s := s) he).1
      have hcl : s.clock ≤ (step s e).1.clock ∧ (step s e).1.pc = .top := by
        cases e with
        | loop => exact absurd rfl he
        | tick d =>
          simp only [step]
          split
          · exact ⟨by simp only; linarith, htop⟩
          · exact ⟨le_refl _, htop⟩
        | base o => cases o <;> exact ⟨le_refl _, htop⟩
        | addAfter y d =>
          simp only [step, addAfter]
          split
          · exact ⟨le_refl _, htop⟩
          · split <;> exact ⟨le_refl _, htop⟩
        | putDone i =>
          simp only [step]
          split
          · split <;> exact ⟨le_refl _, htop⟩
          · exact ⟨le_refl _, htop⟩
        | putCancel i => simp only [step]; split <;> exact ⟨le_refl _, htop⟩
        | shutDown => exact ⟨le_refl _, htop⟩
        | wake w => simp [step, wakeStep, htop]
      have hl' : loops (e :: more) = loops more := by
        cases e <;> simp_all [loops]
      have hx' : InHeap (step s e).1 x r := by unfold InHeap at hx ⊢; rw [hsame]; exact hx
      obtain ⟨τ, hτ⟩ := ih (step s e).1 hcl.2 hx' (le_trans hdue hcl.1)
        (by rw [hsame, ← hl']; exact hloops) hb'
      exact ⟨τ, by simp only [logOf]; exact List.mem_append_right _ hτ⟩

example : (exec (init 100) (sampleRun.take 12)).pc = .top ∧
    InHeap (exec (init 100) (sampleRun.take 12)) 7 105 ∧
    105 ≤ (exec (init 100) (sampleRun.take 12)).clock := by
  norm_num [sampleRun, exec, InHeap, step, loopStep, wakeStep, addAfter, init, WorkQueue.init,
    DelayHeap.init, file, DelayHeap.insert, insertEntry, PyDict.has, PyDict.get?, PyDict.set,
    PyDict.del, Heapq.heappush_nil, Heapq.heappop_one, DelayHeap.peek, peekLoop, DelayHeap.pop, popLoop]

/-- **C14.** The timer wakes the loop: if it sleeps with `x` in the heap, `x` is due and the time of the
timer has come, then the timer wakes it and it adds `x`, whatever clients and clock do meanwhile. -/
theorem C14_timer_wakes (t0 : ℚ) (es more : List (Ev α)) (timer : Option ℚ) (x : α) (r : ℚ)
    (hs : (exec (init t0) es).pc = .sleeping timer) (hst : (exec (init t0 : State α) es).stop = false)
    (hx : InHeap (exec (init t0) es) x r) (hdue : r ≤ (exec (init t0) es).clock)
    (htime : ∀ f, timer = some f → f ≤ (exec (init t0) es).clock)
    (hloops : (exec (init t0) es).heap.len + 1 ≤ (loops more : Int)) :
    ∃ τ, Log.loopAdd x τ ∈ logOf (exec (init t0) es) (.wake .timer :: .loop :: more) := by
  obtain ⟨f, -, -, hf, -⟩ := C14_sleep_has_timer t0 es timer x r hs hx
  have hft := htime f hf
  have e : exec (exec (init t0) es) [.wake .timer, .loop] = { exec (init t0) es with pc := .top } := by
    generalize exec (init t0 : State α) es = s at *
    subst hf
    simp only [exec, step, wakeStep, hs, if_pos hft, loopStep, hst, Bool.false_eq_true, if_false]
  have key := C14_due_item_added t0 (es ++ [.wake .timer, .loop]) more x r
    (by rw [exec_append, e]) (by rw [exec_append, e]; exact hx) (by rw [exec_append, e]; exact hdue)
    (by rw [exec_append, e]; exact hloops)
  obtain ⟨τ, hτ⟩ := key
  refine ⟨τ, ?_⟩
  rw [show (Ev.wake .timer :: .loop :: more : List (Ev α)) = [.wake .timer, .loop] ++ more from rfl,
    logOf_append]
  rw [exec_append] at hτ
  exact List.mem_append_right _ hτ

example : (exec (init 100) (sampleRun.take 10)).pc = .sleeping (some 105) ∧
    (exec (init 100) (sampleRun.take 10)).stop = false ∧
    InHeap (exec (init 100) (sampleRun.take 10)) 7 105 ∧
    105 ≤ (exec (init 100) (sampleRun.take 10)).clock := by
  norm_num [sampleRun, exec, InHeap, step, loopStep, wakeStep, addAfter, init, WorkQueue.init,
    DelayHeap.init, file, DelayHeap.insert, insertEntry, PyDict.has, PyDict.get?, PyDict.set,
    PyDict.del, Heapq.heappush_nil, Heapq.heappop_one, DelayHeap.peek, peekLoop, DelayHeap.pop, popLoop]

/-- **C14.** An entry in the channel wakes the loop, which adds the item if it is due and else has it in
the heap from then on. -/
theorem C14_entry_taken (t0 : ℚ) (es : List (Ev α)) (timer : Option ℚ) (x : α) (r : ℚ)
    (rest : List (α × ℚ)) (hs : (exec (init t0) es).pc = .sleeping timer)
    (hst : (exec (init t0 : State α) es).stop = false) (hc : (exec (init t0) es).chan = (x, r) :: rest) :
    (r ≤ (exec (init t0) es).clock →
      logOf (exec (init t0) es) [.wake .item, .loop] = [.loopAdd x (exec (init t0) es).clock]) ∧
    ((exec (init t0) es).clock < r →
      ∃ q ≤ r, InHeap (exec (init t0) (es ++ [.wake .item, .loop])) x q) ∧
    (exec (init t0) (es ++ [.wake .item, .loop])).chan = rest := by
  have hb := base_exec (base_init t0) es
  rw [exec_append]
  generalize exec (init t0 : State α) es = s at *
  refine ⟨fun hr => ?_, fun hr => ?_, ?_⟩
  · simp only [logOf, step, wakeStep, hs, hc, loopStep, hst, file, gt_iff_lt, not_lt.2 hr,
      Bool.false_eq_true, if_false]
    simp
  · have e : (exec s [.wake .item, .loop]).heap = DelayHeap.insert s.heap x r := by
      simp only [exec, step, wakeStep, hs, hc, loopStep, hst, file, gt_iff_lt, hr, if_true,
        Bool.false_eq_true, if_false]
    have hd := (dl_insert hb.heap x x r).2
    rw [if_pos rfl] at hd
    cases ho : dl s.heap x with
    | none => rw [ho] at hd; exact ⟨r, le_refl r, by unfold InHeap; rw [e]; exact hd⟩
    | some q =>
      rw [ho] at hd
      exact ⟨min q r, min_le_right q r, by unfold InHeap; rw [e]; exact hd⟩
  · simp only [exec, step, wakeStep, hs, hc, loopStep, hst, file, Bool.false_eq_true, if_false]
    split <;> rfl

example : (exec (init 100) (sampleRun.take 4)).pc = .sleeping none ∧
    (exec (init 100) (sampleRun.take 4)).chan = [(7, 105)] := by
  norm_num [sampleRun, exec, step, loopStep, addAfter, init, WorkQueue.init, DelayHeap.init]

/-! ## Shutdown -/

/-- **C15 is false**: whatever is done with a delaying queue, `shut_down()` included, it never
becomes shut down: `shutting_down()` is False, `add` is accepted, `get` on the empty queue
blocks. -/
theorem C15_refuted_never_shut_down (t0 : ℚ) (es : List (Ev α)) (x : α) :
    (WorkQueue.step (exec (init t0) es).core (.isShuttingDown)).2 = .flag false ∧
    x ∈ (WorkQueue.add (exec (init t0) es).core x).dirty ∧
    ((exec (init t0) es).core.queue = [] →
      (WorkQueue.get (exec (init t0) es).core).2 = .blocked) := by
  have hsd := (base_exec (base_init t0 (α := α)) es).sd
  refine ⟨by simp [WorkQueue.step, hsd], ?_, ?_⟩
  · simp only [WorkQueue.add, hsd, Bool.false_eq_true, if_false]
    split
    · assumption
    · split <;> simp
  · intro hq
    simp [WorkQueue.get, hq, hsd]

/-- the case of C15: a queue on which `shut_down()` was called -/
example : (exec (init 0 : State Nat) [.loop, .loop, .shutDown, .wake .stop, .loop]).pc = .exited ∧
    (exec (init 0 : State Nat) [.loop, .loop, .shutDown, .wake .stop, .loop]).core.shuttingDown
      = false := by
  simp [exec, step, loopStep, wakeStep, shutDown, init, WorkQueue.init, DelayHeap.init]

/-- **C15, what `shut_down()` does do.** A sleeping delay loop is woken by it and ends. -/
theorem C15_stop_wakes_partial (t0 : ℚ) (es : List (Ev α)) (timer : Option ℚ)
    (hs : (exec (init t0 : State α) es).pc = .sleeping timer) :
    (exec (init t0) (es ++ [.shutDown, .wake .stop, .loop])).pc = .exited := by
  rw [exec_append]
  generalize exec (init t0 : State α) es = s at *
  simp only [exec, step, shutDown, wakeStep, hs, if_true, loopStep]

example : (exec (init 0 : State Nat) [.loop, .loop]).pc = .sleeping none := by
  simp [exec, step, loopStep, init, WorkQueue.init, DelayHeap.init]

/-- **C15, what `shut_down()` does do.** It stops the delay loop: a loop that is asleep and is
woken after `shut_down()` ends, and then nothing is ever added by it again. -/
theorem C15_delay_loop_stops_partial (t0 : ℚ) (es more : List (Ev α)) (timer : Option ℚ) (w : Wake)
    (hs : (exec (init t0 : State α) es).pc = .sleeping timer)
    (hw : ∃ e, (wakeStep (shutDown (exec (init t0 : State α) es)) w).pc = .woke e) :
    (exec (init t0) (es ++ [.shutDown, .wake w, .loop])).pc = .exited ∧
    ∀ x τ, Log.loopAdd x τ ∉ logOf (exec (init t0) (es ++ [.shutDown, .wake w, .loop])) more := by
  rw [exec_append]
  generalize exec (init t0 : State α) es = s at *
  obtain ⟨e, he⟩ := hw
  have hst : (wakeStep (shutDown s) w).stop = true := by
    simp only [wakeStep]
    split
    · split
      · split <;> rfl
      · rfl
      · split
        · split <;> rfl
        · rfl
      · split <;> rfl
    · rfl
  have hpc : (exec s [.shutDown, .wake w, .loop]).pc = .exited := by
    simp only [exec, step, loopStep, he, hst, if_true]
  refine ⟨hpc, ?_⟩
  generalize exec s [.shutDown, .wake w, .loop] = s' at hpc
  induction more generalizing s' with
  | nil => simp [logOf]
  | cons m more ih =>
    have h1 : (step s' m).1.pc = .exited ∧ ∀ x τ, Log.loopAdd x τ ∉ (step s' m).2 := by
      cases m with
      | loop => simp [step, loopStep, hpc]
      | tick d => simp only [step]; split <;> exact ⟨hpc, by simp⟩
      | base o => cases o <;> exact ⟨hpc, by simp [step]⟩
      | addAfter y d =>
        simp only [step, addAfter]
        split
        · exact ⟨hpc, by simp⟩
        · split <;> exact ⟨hpc, by simp⟩
      | putDone i =>
        simp only [step]
        split
        · split <;> exact ⟨hpc, by simp⟩
        · exact ⟨hpc, by simp⟩
      | putCancel i => simp only [step]; split <;> exact ⟨hpc, by simp⟩
      | shutDown => exact ⟨hpc, by simp [step]⟩
      | wake w => simp [step, wakeStep, hpc]
    intro x τ hx
    simp only [logOf, List.mem_append] at hx
    rcases hx with hx | hx
    · exact h1.2 x τ hx
    · exact ih _ h1.1 x τ hx

example : (exec (init 0 : State Nat) [.loop, .loop]).pc = .sleeping none ∧
    (wakeStep (shutDown (exec (init 0 : State Nat) [.loop, .loop])) .stop).pc = .woke none := by
  simp [exec, step, loopStep, wakeStep, shutDown, init, WorkQueue.init, DelayHeap.init]

end Aiok8s.DelayQueue
