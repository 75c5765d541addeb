import Verif.Props.DelayQueue
import Mathlib.Algebra.Order.Archimedean.Basic
/-!
# Delayed items come: C14
-/
set_option linter.unusedSimpArgs false
namespace Aiok8s.DelayQueue
open Aiok8s Aiok8s.DelayHeap
variable {α : Type} [DecidableEq α]

/-! ### Single moves -/

private theorem popping_loop {s : State α} (hb : Base s) {n : ℚ} (hp : s.pc = .popping n) :
    (∃ t h', loopStep s = ({ s with heap := h', pc := .sleeping t }, []) ∧ ∀ x, dl h' x = dl s.heap x) ∨
    (∃ y h', loopStep s = ({ s with heap := h', core := WorkQueue.add s.core y }, [.loopAdd y s.clock]) ∧
      h'.len = s.heap.len - 1 ∧ 0 < s.heap.len ∧ ∀ x, x ≠ y → dl h' x = dl s.heap x) := by
  obtain ⟨p1, p2, p3, p4, p5, p6⟩ := peek_spec hb.heap
  by_cases hlen : s.heap.len = 0
  · left
    exact ⟨none, s.heap, by simp [loopStep, hp, hlen], fun _ => rfl⟩
  · cases hpk : (DelayHeap.peek s.heap).2 with
    | none => exact absurd (p6 hpk) hlen
    | some p =>
      have hpk' : DelayHeap.peek s.heap = ((DelayHeap.peek s.heap).1, some p) := by rw [← hpk]
      by_cases hlt : p > n
      · left
        refine ⟨some (s.clock + (p - n)), (DelayHeap.peek s.heap).1, ?_, p2⟩
        simp only [loopStep, hp, hlen, ne_eq, not_false_eq_true, if_true]
        rw [hpk']; simp [hlt]
      · right
        obtain ⟨y, q1, q2, q3, q4, q6, q5⟩ := pop_spec hb.heap hpk
        have hpp : DelayHeap.pop (DelayHeap.peek s.heap).1
            = ((DelayHeap.pop (DelayHeap.peek s.heap).1).1, some y) := by rw [← q1]
        refine ⟨y, (DelayHeap.pop (DelayHeap.peek s.heap).1).1, ?_, q4, q6, ?_⟩
        · simp only [loopStep, hp, hlen, ne_eq, not_false_eq_true, if_true]
          rw [hpk']; simp only [hlt, if_false]
          rw [hpp]
        · intro x hx
          rw [q5]; simp [hx]

/-- What filing an entry does to the heap. -/
private theorem file_dl {s : State α} (hb : HInv s.heap) (e : α × ℚ) (x : α) :
    (Log.loopAdd x s.clock ∈ (file s e).2) ∨
    ((∀ r, dl s.heap x = some r → ∃ r', r' ≤ r ∧ dl (file s e).1.heap x = some r') ∧
      (e.1 = x → ∃ r', r' ≤ e.2 ∧ dl (file s e).1.heap x = some r')) := by
  unfold file
  split
  · right
    have h := (dl_insert hb e.1 x e.2).2
    by_cases hx : x = e.1
    · subst hx
      simp only [if_true] at h
      cases hd : dl s.heap e.1 with
      | none => rw [hd] at h; exact ⟨fun r hr => (by cases hr), fun _ => ⟨e.2, le_refl _, h⟩⟩
      | some q =>
        rw [hd] at h
        refine ⟨fun r hr => ⟨min q e.2, ?_, h⟩, fun _ => ⟨min q e.2, min_le_right _ _, h⟩⟩
        cases hr
        exact min_le_left _ _
    · simp only [hx, if_false] at h
      exact ⟨fun r hr => ⟨r, le_refl _, h.trans hr⟩, fun he => absurd he.symm hx⟩
  · by_cases hx : x = e.1
    · left; simp [hx]
    · right; exact ⟨fun r hr => ⟨r, le_refl _, hr⟩, fun he => absurd he.symm hx⟩

private theorem file_other (s : State α) (e : α × ℚ) : (file s e).1.pc = s.pc ∧ (file s e).1.chan = s.chan ∧
    (file s e).1.puts = s.puts ∧ (file s e).1.clock = s.clock ∧ (file s e).1.stop = s.stop := by
  unfold file
  split <;> exact ⟨rfl, rfl, rfl, rfl, rfl⟩

/-- A move of somebody else: the heap stays, and so does the loop unless it waits. -/
private theorem other_move {s : State α} {e : Ev α} (he : e ≠ .loop) :
    (step s e).1.heap = s.heap ∧ ((∀ t, s.pc ≠ .sleeping t) → (step s e).1.pc = s.pc) ∧
    ((∃ t, s.pc = .sleeping t) → (step s e).1.pc = s.pc ∨ ∃ o, (step s e).1.pc = .woke o) := by
  cases e with
  | tick d => simp only [step]; split <;> exact ⟨rfl, fun _ => rfl, fun _ => Or.inl rfl⟩
  | base o => cases o <;> exact ⟨rfl, fun _ => rfl, fun _ => Or.inl rfl⟩
  | addAfter x d =>
    simp only [step, addAfter]
    split
    · exact ⟨rfl, fun _ => rfl, fun _ => Or.inl rfl⟩
    · split <;> exact ⟨rfl, fun _ => rfl, fun _ => Or.inl rfl⟩
  | putDone i =>
    simp only [step]
    split
    · split <;> exact ⟨rfl, fun _ => rfl, fun _ => Or.inl rfl⟩
    · exact ⟨rfl, fun _ => rfl, fun _ => Or.inl rfl⟩
  | putCancel i => simp only [step]; split <;> exact ⟨rfl, fun _ => rfl, fun _ => Or.inl rfl⟩
  | shutDown => exact ⟨rfl, fun _ => rfl, fun _ => Or.inl rfl⟩
  | wake w =>
    simp only [step, wakeStep]
    split
    · rename_i t ht
      have : ∀ {P : Prop}, (∀ t, s.pc ≠ .sleeping t) → P := fun h => absurd ht (h t)
      split
      · split
        · exact ⟨rfl, this, fun _ => Or.inr ⟨_, rfl⟩⟩
        · exact ⟨rfl, this, fun _ => Or.inl rfl⟩
      · exact ⟨rfl, this, fun _ => Or.inr ⟨_, rfl⟩⟩
      · split
        · split
          · exact ⟨rfl, this, fun _ => Or.inr ⟨_, rfl⟩⟩
          · exact ⟨rfl, this, fun _ => Or.inl rfl⟩
        · exact ⟨rfl, this, fun _ => Or.inl rfl⟩
      · split
        · exact ⟨rfl, this, fun _ => Or.inr ⟨_, rfl⟩⟩
        · exact ⟨rfl, this, fun _ => Or.inl rfl⟩
    · exact ⟨rfl, fun _ => rfl, fun _ => Or.inl rfl⟩
  | loop => exact absurd rfl he

/-- What is in the heap stays there or is added. -/
private theorem heap_move {s : State α} (hb : Base s) (hst : s.stop = false) (e : Ev α) {x : α} {r : ℚ}
    (h : dl s.heap x = some r) :
    (∃ τ, Log.loopAdd x τ ∈ (step s e).2) ∨ ∃ r', r' ≤ r ∧ dl (step s e).1.heap x = some r' := by
  by_cases he : e = .loop
  · subst he
    simp only [step]
    cases hp : s.pc with
    | top => right; exact ⟨r, le_refl _, by simp only [loopStep, hp, hb.sd, Bool.false_eq_true, if_false]; exact h⟩
    | sleeping t => right; exact ⟨r, le_refl _, by simp only [loopStep, hp]; exact h⟩
    | exited => right; exact ⟨r, le_refl _, by simp only [loopStep, hp]; exact h⟩
    | popping n =>
      rcases popping_loop hb hp with ⟨t, h', e, hd⟩ | ⟨y, h', e, -, -, hd⟩
      · right; rw [e]; exact ⟨r, le_refl _, (hd x).trans h⟩
      · by_cases hx : x = y
        · left; rw [e, hx]; exact ⟨s.clock, by simp⟩
        · right; rw [e]; exact ⟨r, le_refl _, (hd x hx).trans h⟩
    | woke o =>
      cases o with
      | none => right; exact ⟨r, le_refl _, by simp only [loopStep, hp, hst, Bool.false_eq_true, if_false]; exact h⟩
      | some e =>
        have e1 : loopStep s = ({ (file s e).1 with pc := .draining }, (file s e).2) := by
          simp [loopStep, hp, hst]
        rw [e1]
        rcases file_dl hb.heap e x with g | ⟨g, -⟩
        · exact Or.inl ⟨_, g⟩
        · exact Or.inr (g r h)
    | draining =>
      cases hch : s.chan with
      | nil => right; exact ⟨r, le_refl _, by simp only [loopStep, hp, hch]; exact h⟩
      | cons e rest =>
        have e1 : loopStep s = file { s with chan := rest } e := by simp [loopStep, hp, hch]
        rw [e1]
        rcases file_dl (s := { s with chan := rest }) hb.heap e x with g | ⟨g, -⟩
        · exact Or.inl ⟨_, g⟩
        · exact Or.inr (g r h)
  · right
    rw [(other_move (s := s) he).1]
    exact ⟨r, le_refl _, h⟩

private theorem clock_move (s : State α) (e : Ev α) : s.clock ≤ (step s e).1.clock := by
  cases e with
  | tick d =>
    simp only [step]
    split
    · simp only; linarith
    · exact le_refl _
  | base o => cases o <;> exact le_refl _
  | addAfter x d =>
    simp only [step, addAfter]
    split
    · exact le_refl _
    · split <;> exact le_refl _
  | putDone i =>
    simp only [step]
    split
    · split <;> exact le_refl _
    · exact le_refl _
  | putCancel i => simp only [step]; split <;> exact le_refl _
  | shutDown => exact le_refl _
  | wake w =>
    simp only [step, wakeStep]
    split
    · split
      · split <;> exact le_refl _
      · exact le_refl _
      · split
        · split <;> exact le_refl _
        · exact le_refl _
      · split <;> exact le_refl _
    · exact le_refl _
  | loop =>
    simp only [step, loopStep]
    split
    · split <;> exact le_refl _
    · split
      · split
        · exact le_refl _
        · split
          · exact le_refl _
          · split <;> exact le_refl _
      · exact le_refl _
    · exact le_refl _
    · split
      · exact le_refl _
      · split
        · exact le_refl _
        · exact (file_other s _).2.2.2.1.ge
    · split
      · exact le_refl _
      · exact (file_other _ _).2.2.2.1.ge
    · exact le_refl _

/-- What happens to the channel: it grows at the end while there is room; or its first entry goes to the
loop's hands, into the heap or to `add`. -/
private theorem chan_move {s : State α} (hb : Base s) (hst : s.stop = false) (e : Ev α) :
    (step s e).1.chan = s.chan ∨
    (s.chan.length < 1000 ∧ ∃ e', (step s e).1.chan = s.chan ++ [e']) ∨
    (∃ a rest, s.chan = a :: rest ∧ (step s e).1.chan = rest ∧
      ((step s e).1.pc = .woke (some a) ∨ (∃ r', r' ≤ a.2 ∧ dl (step s e).1.heap a.1 = some r') ∨
        ∃ τ, Log.loopAdd a.1 τ ∈ (step s e).2)) := by
  cases e with
  | tick d => simp only [step]; split <;> exact Or.inl rfl
  | base o => cases o <;> exact Or.inl rfl
  | addAfter x d =>
    simp only [step, addAfter]
    split
    · exact Or.inl rfl
    · split <;> exact Or.inl rfl
  | putDone i =>
    simp only [step]
    split
    · split
      · rename_i h
        exact Or.inr (Or.inl ⟨h, _, rfl⟩)
      · exact Or.inl rfl
    · exact Or.inl rfl
  | putCancel i => simp only [step]; split <;> exact Or.inl rfl
  | shutDown => exact Or.inl rfl
  | wake w =>
    simp only [step, wakeStep]
    split
    · split
      · split <;> exact Or.inl rfl
      · exact Or.inl rfl
      · split
        · split <;> exact Or.inl rfl
        · exact Or.inl rfl
      · split
        · rename_i a rest h
          exact Or.inr (Or.inr ⟨a, rest, h, rfl, Or.inl rfl⟩)
        · exact Or.inl rfl
    · exact Or.inl rfl
  | loop =>
    simp only [step]
    cases hp : s.pc with
    | top => left; simp [loopStep, hp, hb.sd]
    | sleeping t => left; simp [loopStep, hp]
    | exited => left; simp [loopStep, hp]
    | popping n =>
      left
      rcases popping_loop hb hp with ⟨t, h', e, hd⟩ | ⟨y, h', e, -, -, hd⟩ <;> rw [e]
    | woke o =>
      left
      cases o with
      | none => simp [loopStep, hp, hst]
      | some e =>
        simp only [loopStep, hp, hst, Bool.false_eq_true, if_false]
        exact (file_other s e).2.1
    | draining =>
      cases hch : s.chan with
      | nil => left; simp only [loopStep, hp, hch]
      | cons a rest =>
        right; right
        have e1 : loopStep s = file { s with chan := rest } a := by simp [loopStep, hp, hch]
        rw [e1]
        refine ⟨a, rest, rfl, (file_other _ _).2.1, Or.inr ?_⟩
        rcases file_dl (s := { s with chan := rest }) hb.heap a a.1 with g | ⟨-, g⟩
        · exact Or.inr ⟨_, g⟩
        · exact Or.inl (g rfl)

/-- A pending `put` stays or completes. -/
private theorem put_move {s : State α} (hst : s.stop = false) (e : Ev α) {a : α × ℚ} (h : a ∈ s.puts) :
    a ∈ (step s e).1.puts ∨ a ∈ (step s e).1.chan := by
  cases e with
  | tick d => simp only [step]; split <;> exact Or.inl h
  | base o => cases o <;> exact Or.inl h
  | addAfter x d =>
    simp only [step, addAfter]
    split
    · exact Or.inl h
    · split
      · exact Or.inl h
      · exact Or.inl (List.mem_append_left _ h)
  | putDone i =>
    simp only [step]
    split
    · rename_i e' he'
      split
      · simp only
        by_cases hae : a = e'
        · right; simp [hae]
        · left
          obtain ⟨j, hj⟩ := List.mem_iff_getElem?.1 h
          refine List.mem_eraseIdx_iff_getElem?.2 ⟨j, ?_, hj⟩
          rintro rfl
          rw [he'] at hj
          exact hae (Option.some.inj hj).symm
      · exact Or.inl h
    · exact Or.inl h
  | putCancel i => simp only [step, hst]; exact Or.inl h
  | shutDown => exact Or.inl h
  | wake w =>
    simp only [step, wakeStep]
    split
    · split
      · split <;> exact Or.inl h
      · exact Or.inl h
      · split
        · split <;> exact Or.inl h
        · exact Or.inl h
      · split <;> exact Or.inl h
    · exact Or.inl h
  | loop =>
    left
    simp only [step, loopStep]
    split
    · split <;> exact h
    · split
      · split
        · exact h
        · split
          · exact h
          · split <;> exact h
      · exact h
    · exact h
    · split
      · exact h
      · split
        · exact h
        · exact (file_other s _).2.2.1 ▸ h
    · split
      · exact h
      · rw [(file_other _ _).2.2.1]; exact h
    · exact h

/-! ### Endless runs -/

theorem at_succ (t0 : ℚ) (f : Nat → Ev α) (m : Nat) :
    at_ t0 f (m + 1) = (step (at_ t0 f m) (f m)).1 := by
  simp only [at_, List.range_succ, List.map_append, List.map_cons, List.map_nil, exec_append]
  rfl

private theorem at_base (t0 : ℚ) (f : Nat → Ev α) (m : Nat) : Base (at_ t0 f m) := base_exec (base_init t0) _

private theorem at_stop {t0 : ℚ} {f : Nat → Ev α} (hf : Fair t0 f) (m : Nat) : (at_ t0 f m).stop = false := by
  induction m with
  | zero => rfl
  | succ m ih => rw [at_succ]; exact (stop_stays (hf.open_ m)).trans ih

private theorem at_clock (t0 : ℚ) (f : Nat → Ev α) {a b : Nat} (h : a ≤ b) :
    (at_ t0 f a).clock ≤ (at_ t0 f b).clock := by
  induction b, h using Nat.le_induction with
  | base => exact le_refl _
  | succ b hb ih => rw [at_succ]; exact le_trans ih (clock_move _ _)

/-- The first time from `N` on. -/
theorem first {P : Nat → Prop} {N m : Nat} (hm : N ≤ m) (h : P m) :
    ∃ k, N ≤ k ∧ P k ∧ ∀ j, N ≤ j → j < k → ¬ P j := by
  classical
  have : ∃ d, P (N + d) := ⟨m - N, by rwa [Nat.add_sub_cancel' hm]⟩
  refine ⟨N + Nat.find this, Nat.le_add_right _ _, Nat.find_spec this, ?_⟩
  intro j h1 h2 hj
  have := Nat.find_min this (m := j - N) (by omega)
  rw [Nat.add_sub_cancel' h1] at this
  exact this hj

/-- The loop takes its next step where it is now. -/
private theorem next_loop {t0 : ℚ} {f : Nat → Ev α} (hf : Fair t0 f) (N : Nat)
    (hs : ¬ Asleep (at_ t0 f N)) :
    ∃ m, N ≤ m ∧ f m = .loop ∧ (at_ t0 f m).pc = (at_ t0 f N).pc ∧ (at_ t0 f m).heap = (at_ t0 f N).heap := by
  obtain ⟨m0, h0, h1⟩ := hf.loop N
  obtain ⟨m, hm, h2, h3⟩ := first (P := fun m => f m = .loop) h0 h1
  have key : ∀ k, N ≤ k → k ≤ m → (at_ t0 f k).pc = (at_ t0 f N).pc ∧ (at_ t0 f k).heap = (at_ t0 f N).heap := by
    intro k hk
    induction k, hk using Nat.le_induction with
    | base => intro _; exact ⟨rfl, rfl⟩
    | succ k hk ih =>
      intro hkm
      obtain ⟨i1, i2⟩ := ih (by omega)
      obtain ⟨o1, o2, -⟩ := other_move (s := at_ t0 f k) (h3 k hk (by omega))
      rw [at_succ]
      exact ⟨(o2 fun t ht => hs ⟨t, i1 ▸ ht⟩).trans i1, o1.trans i2⟩
  exact ⟨m, hm, h2, key m hm le_rfl⟩

/-- The inner loop ends. -/
private theorem pops_end {t0 : ℚ} {f : Nat → Ev α} (hf : Fair t0 f) (k : Nat) : ∀ (N : Nat) (n : ℚ),
    (at_ t0 f N).heap.len ≤ (k : Int) → (at_ t0 f N).pc = .popping n → ∃ m, N ≤ m ∧ Asleep (at_ t0 f m) := by
  induction k with
  | zero =>
    intro N n hk hp
    obtain ⟨m, h1, h2, h3, h4⟩ := next_loop hf N (by rintro ⟨t, ht⟩; rw [hp] at ht; cases ht)
    rw [hp] at h3
    rcases popping_loop (at_base t0 f m) h3 with ⟨t, h', e, -⟩ | ⟨y, h', e, -, e2, -⟩
    · refine ⟨m + 1, by omega, t, ?_⟩
      rw [at_succ, h2]; simp only [step, e]
    · rw [h4] at e2
      simp only [Nat.cast_zero] at hk
      omega
  | succ k ih =>
    intro N n hk hp
    obtain ⟨m, h1, h2, h3, h4⟩ := next_loop hf N (by rintro ⟨t, ht⟩; rw [hp] at ht; cases ht)
    rw [hp] at h3
    rcases popping_loop (at_base t0 f m) h3 with ⟨t, h', e, -⟩ | ⟨y, h', e, e1, e2, -⟩
    · refine ⟨m + 1, by omega, t, ?_⟩
      rw [at_succ, h2]; simp only [step, e]
    · obtain ⟨m', g1, g2⟩ := ih (m + 1) n (by
        rw [at_succ, h2]
        simp only [step, e, e1, h4]
        push_cast at hk
        omega) (by rw [at_succ, h2]; simp only [step, e]; exact h3)
      exact ⟨m', by omega, g2⟩

private theorem top_sleeps {t0 : ℚ} {f : Nat → Ev α} (hf : Fair t0 f) (N : Nat) (hp : (at_ t0 f N).pc = .top) :
    ∃ m, N ≤ m ∧ Asleep (at_ t0 f m) := by
  obtain ⟨m, h1, h2, h3, h4⟩ := next_loop hf N (by rintro ⟨t, ht⟩; rw [hp] at ht; cases ht)
  rw [hp] at h3
  obtain ⟨m', g1, g2⟩ := pops_end hf (at_ t0 f (m + 1)).heap.len.toNat (m + 1) (at_ t0 f m).clock
    (Int.self_le_toNat _) (by
      rw [at_succ, h2]
      simp [step, loopStep, h3, (at_base t0 f m).sd])
  exact ⟨m', by omega, g2⟩

private theorem drains {t0 : ℚ} {f : Nat → Ev α} (hf : Fair t0 f) (N : Nat)
    (hp : (at_ t0 f N).pc = .draining) : ∃ m, N ≤ m ∧ (at_ t0 f m).pc = .top := by
  obtain ⟨m0, h0, h1⟩ := hf.drain N
  obtain ⟨m, hm, h2, h3⟩ := first (P := fun m => (at_ t0 f m).pc ≠ .draining) h0 h1
  rcases Nat.eq_or_lt_of_le hm with rfl | hlt
  · exact absurd hp h2
  · obtain ⟨j, rfl⟩ : ∃ j, m = j + 1 := ⟨m - 1, by omega⟩
    have hj : (at_ t0 f j).pc = .draining := not_not.1 (h3 j (by omega) (by omega))
    refine ⟨j + 1, hm, ?_⟩
    rw [at_succ] at h2 ⊢
    by_cases he : f j = .loop
    · rw [he] at h2 ⊢
      simp only [step, loopStep, hj] at h2 ⊢
      cases hc : (at_ t0 f j).chan with
      | nil => rfl
      | cons a rest =>
        simp only [hc, (file_other _ _).1] at h2
        exact absurd rfl h2
    · exact absurd (((other_move (s := at_ t0 f j) he).2.1 (by simp [hj])).trans hj) h2

private theorem woke_top {t0 : ℚ} {f : Nat → Ev α} (hf : Fair t0 f) (N : Nat) (o : Option (α × ℚ))
    (hp : (at_ t0 f N).pc = .woke o) : ∃ m, N ≤ m ∧ (at_ t0 f m).pc = .top := by
  obtain ⟨m, h1, h2, h3, h4⟩ := next_loop hf N (by rintro ⟨t, ht⟩; rw [hp] at ht; cases ht)
  rw [hp] at h3
  cases o with
  | none =>
    refine ⟨m + 1, by omega, ?_⟩
    rw [at_succ, h2]
    simp [step, loopStep, h3, at_stop hf m]
  | some e =>
    obtain ⟨m', g1, g2⟩ := drains hf (m + 1) (by
      rw [at_succ, h2]
      simp [step, loopStep, h3, at_stop hf m])
    exact ⟨m', by omega, g2⟩

/-- The loop waits again and again. -/
private theorem sleeps {t0 : ℚ} {f : Nat → Ev α} (hf : Fair t0 f) (N : Nat) :
    ∃ m, N ≤ m ∧ Asleep (at_ t0 f m) := by
  cases hp : (at_ t0 f N).pc with
  | top => exact top_sleeps hf N hp
  | popping n => exact pops_end hf (at_ t0 f N).heap.len.toNat N n (Int.self_le_toNat _) hp
  | sleeping t => exact ⟨N, le_rfl, t, hp⟩
  | woke o =>
    obtain ⟨m, h1, h2⟩ := woke_top hf N o hp
    obtain ⟨m', g1, g2⟩ := top_sleeps hf m h2
    exact ⟨m', by omega, g2⟩
  | draining =>
    obtain ⟨m, h1, h2⟩ := drains hf N hp
    obtain ⟨m', g1, g2⟩ := top_sleeps hf m h2
    exact ⟨m', by omega, g2⟩
  | exited => exact absurd hp ((at_base t0 f N).alive (at_stop hf N))

/-- And it begins a new round again and again. -/
private theorem tops {t0 : ℚ} {f : Nat → Ev α} (hf : Fair t0 f) (N : Nat) :
    ∃ m, N ≤ m ∧ (at_ t0 f m).pc = .top := by
  obtain ⟨a, ha, hs⟩ := sleeps hf N
  have hleave : ∃ b, a ≤ b ∧ ¬ Asleep (at_ t0 f b) := by
    obtain ⟨b, hb, hbe⟩ := hf.beat a
    by_cases h : Asleep (at_ t0 f b)
    · refine ⟨b + 1, by omega, ?_⟩
      obtain ⟨t, ht⟩ := h
      rintro ⟨t', ht'⟩
      rw [at_succ, hbe] at ht'
      simp [step, wakeStep, ht] at ht'
    · exact ⟨b, hb, h⟩
  obtain ⟨b0, hb0, hb1⟩ := hleave
  obtain ⟨b, hb, h2, h3⟩ := first (P := fun m => ¬ Asleep (at_ t0 f m)) hb0 hb1
  rcases Nat.eq_or_lt_of_le hb with rfl | hlt
  · exact absurd hs h2
  · obtain ⟨j, rfl⟩ : ∃ j, b = j + 1 := ⟨b - 1, by omega⟩
    obtain ⟨t, hj⟩ := not_not.1 (h3 j (by omega) (by omega))
    rw [at_succ] at h2
    have he : f j ≠ .loop := by
      intro he
      rw [he] at h2
      exact h2 ⟨t, by simp only [step, loopStep, hj]⟩
    rcases (other_move (s := at_ t0 f j) he).2.2 ⟨t, hj⟩ with h | ⟨o, h⟩
    · exact absurd ⟨t, h.trans hj⟩ h2
    · rw [← at_succ] at h
      obtain ⟨m, g1, g2⟩ := woke_top hf (j + 1) o h
      exact ⟨m, by omega, g2⟩

/-! ### The way of an entry -/

/-- The delay loop calls `add(x)` at some time from `N` on. -/
def Comes (t0 : ℚ) (f : Nat → Ev α) (x : α) (N : Nat) : Prop :=
  ∃ m τ, N ≤ m ∧ Log.loopAdd x τ ∈ (step (at_ t0 f m) (f m)).2

private theorem comes_mono {t0 : ℚ} {f : Nat → Ev α} {x : α} {M N : Nat} (h : N ≤ M) (hc : Comes t0 f x M) :
    Comes t0 f x N := by
  obtain ⟨m, τ, h1, h2⟩ := hc
  exact ⟨m, τ, by omega, h2⟩

private theorem log_mem {t0 : ℚ} {f : Nat → Ev α} {l : Log α} (N : Nat) : ∀ d,
    l ∈ logOf (at_ t0 f N) ((List.range d).map fun m => f (N + m)) →
    ∃ m, N ≤ m ∧ l ∈ (step (at_ t0 f m) (f m)).2 := by
  have hat : ∀ d, exec (at_ t0 f N) ((List.range d).map fun m => f (N + m)) = at_ t0 f (N + d) := by
    intro d
    induction d with
    | zero => rfl
    | succ d ih =>
      rw [List.range_succ, List.map_append, exec_append, ih, ← Nat.add_assoc, at_succ]
      rfl
  intro d
  induction d with
  | zero => intro h; simp [logOf] at h
  | succ d ih =>
    intro h
    rw [List.range_succ, List.map_append, logOf_append, hat] at h
    rcases List.mem_append.1 h with h | h
    · exact ih h
    · refine ⟨N + d, Nat.le_add_right _ _, ?_⟩
      simpa [logOf] using h

private theorem many_loops {t0 : ℚ} {f : Nat → Ev α} (hf : Fair t0 f) (N : Nat) (k : Nat) :
    ∃ d, k ≤ loops ((List.range d).map fun m => f (N + m)) := by
  induction k with
  | zero => exact ⟨0, Nat.zero_le _⟩
  | succ k ih =>
    obtain ⟨d, hd⟩ := ih
    obtain ⟨m, h1, h2⟩ := hf.loop (N + d)
    refine ⟨m - N + 1, ?_⟩
    obtain ⟨c, hc⟩ : ∃ c, m - N = d + c := ⟨m - N - d, by omega⟩
    have hm : f (N + (m - N)) = .loop := by rw [← h2]; congr 1; omega
    rw [List.range_succ, List.map_append, hc, List.range_add, List.map_append]
    simp only [loops, List.countP_append] at hd ⊢
    simp only [← hc, List.map_cons, List.map_nil, hm, List.countP_singleton, if_true]
    omega

/-- From the heap. -/
private theorem heap_comes {t0 : ℚ} {f : Nat → Ev α} (hf : Fair t0 f) (N : Nat) (x : α) (r : ℚ)
    (h : dl (at_ t0 f N).heap x = some r) : Comes t0 f x N := by
  by_contra hc
  have stays : ∀ m, N ≤ m → ∃ r', r' ≤ r ∧ dl (at_ t0 f m).heap x = some r' := by
    intro m hm
    induction m, hm using Nat.le_induction with
    | base => exact ⟨r, le_refl _, h⟩
    | succ m hm ih =>
      obtain ⟨r', h1, h2⟩ := ih
      rw [at_succ]
      rcases heap_move (at_base t0 f m) (at_stop hf m) (f m) h2 with ⟨τ, g⟩ | ⟨r'', g1, g2⟩
      · exact absurd ⟨m, τ, hm, g⟩ hc
      · exact ⟨r'', le_trans g1 h1, g2⟩
  obtain ⟨a, ha⟩ := hf.time r
  obtain ⟨m, h1, h2⟩ := tops hf (max a N)
  obtain ⟨r', g1, g2⟩ := stays m (le_trans (le_max_right _ _) h1)
  obtain ⟨d, hd⟩ := many_loops hf m ((at_ t0 f m).heap.len.toNat + 1)
  obtain ⟨τ, hτ⟩ := C14_due_item_added t0 ((List.range m).map f) ((List.range d).map fun j => f (m + j)) x r' h2 g2
    (le_trans g1 (le_trans ha (at_clock t0 f (le_trans (le_max_left _ _) h1)))) (by
      have := Int.self_le_toNat (at_ t0 f m).heap.len
      have h3 : (((at_ t0 f m).heap.len.toNat + 1 : Nat) : Int) ≤
        (loops ((List.range d).map fun j => f (m + j)) : Int) := by exact_mod_cast hd
      push_cast at h3
      show (at_ t0 f m).heap.len + 1 ≤ _
      omega)
  obtain ⟨j, hj, hl⟩ := log_mem m d hτ
  exact hc ⟨j, τ, le_trans (le_trans (le_max_right _ _) h1) hj, hl⟩

/-- From the loop's hands. -/
private theorem hand_comes {t0 : ℚ} {f : Nat → Ev α} (hf : Fair t0 f) (N : Nat) (x : α) (r : ℚ)
    (h : (at_ t0 f N).pc = .woke (some (x, r))) : Comes t0 f x N := by
  obtain ⟨m, h1, h2, h3, h4⟩ := next_loop hf N (by rintro ⟨t, ht⟩; rw [h] at ht; cases ht)
  rw [h] at h3
  have e1 : loopStep (at_ t0 f m) = ({ (file (at_ t0 f m) (x, r)).1 with pc := .draining },
      (file (at_ t0 f m) (x, r)).2) := by
    simp [loopStep, h3, at_stop hf m]
  rcases file_dl (at_base t0 f m).heap (x, r) x with g | ⟨-, g⟩
  · exact ⟨m, (at_ t0 f m).clock, h1, by rw [h2]; simp only [step, e1]; exact g⟩
  · obtain ⟨r', -, g2⟩ := g rfl
    refine comes_mono (M := m + 1) (by omega) (heap_comes hf (m + 1) x r' ?_)
    rw [at_succ, h2]
    simp only [step, e1]
    exact g2

private theorem item_takes {s : State α} (h : Served s) : ∃ a rest, s.chan = a :: rest ∧
    (step s (.wake .item)).1.chan = rest := by
  obtain ⟨⟨t, ht⟩, hc⟩ := h
  cases hch : s.chan with
  | nil => exact absurd hch hc
  | cons a rest => exact ⟨a, rest, rfl, by simp [step, wakeStep, ht, hch]⟩

/-- From the channel. -/
private theorem chan_comes {t0 : ℚ} {f : Nat → Ev α} (hf : Fair t0 f) (x : α) (r : ℚ) (k : Nat) :
    ∀ (N : Nat) (pre post : List (α × ℚ)), pre.length = k → (at_ t0 f N).chan = pre ++ (x, r) :: post →
    Comes t0 f x N := by
  induction k with
  | zero =>
    intro N pre post hk hch
    rw [List.length_eq_zero_iff.1 hk, List.nil_append] at hch
    by_contra hc
    have stays : ∀ m, N ≤ m → ∃ post, (at_ t0 f m).chan = (x, r) :: post := by
      intro m hm
      induction m, hm using Nat.le_induction with
      | base => exact ⟨post, hch⟩
      | succ m hm ih =>
        obtain ⟨post, ih⟩ := ih
        rcases chan_move (at_base t0 f m) (at_stop hf m) (f m) with g | ⟨-, e', g⟩ | ⟨a, rest, g1, g2, g3⟩
        · exact ⟨post, by rw [at_succ, g, ih]⟩
        · exact ⟨post ++ [e'], by rw [at_succ, g, ih]; rfl⟩
        · exfalso
          rw [ih] at g1
          cases g1
          simp only at g3
          rcases g3 with g3 | ⟨r', -, g3⟩ | ⟨τ, g3⟩
          · exact hc (comes_mono (M := m + 1) (by omega) (hand_comes hf (m + 1) x r (by rw [at_succ]; exact g3)))
          · exact hc (comes_mono (M := m + 1) (by omega) (heap_comes hf (m + 1) x r' (by rw [at_succ]; exact g3)))
          · exact hc ⟨m, τ, hm, g3⟩
    obtain ⟨m, h1, h2, h3⟩ := hf.item (fun M => by
      obtain ⟨m, h1, h2⟩ := sleeps hf (max M N)
      obtain ⟨p, hp⟩ := stays m (le_trans (le_max_right _ _) h1)
      exact ⟨m, le_trans (le_max_left _ _) h1, h2, by rw [hp]; simp⟩) N
    obtain ⟨⟨t, ht⟩, -⟩ := h2
    obtain ⟨p, hp⟩ := stays m h1
    refine hc (comes_mono (M := m + 1) (by omega) (hand_comes hf (m + 1) x r ?_))
    rw [at_succ, h3]
    simp [step, wakeStep, ht, hp]
  | succ k ih =>
    intro N pre post hk hch
    obtain ⟨b, pre', rfl⟩ : ∃ b pre', pre = b :: pre' := by
      cases pre with
      | nil => simp at hk
      | cons b pre' => exact ⟨b, pre', rfl⟩
    by_contra hc
    have stays : ∀ m, N ≤ m → ∃ post, (at_ t0 f m).chan = b :: (pre' ++ (x, r) :: post) := by
      intro m hm
      induction m, hm using Nat.le_induction with
      | base => exact ⟨post, hch⟩
      | succ m hm ihm =>
        obtain ⟨post, ihm⟩ := ihm
        rcases chan_move (at_base t0 f m) (at_stop hf m) (f m) with g | ⟨-, e', g⟩ | ⟨a, rest, g1, g2, -⟩
        · exact ⟨post, by rw [at_succ, g, ihm]⟩
        · exact ⟨post ++ [e'], by rw [at_succ, g, ihm]; simp⟩
        · exfalso
          rw [ihm] at g1
          cases g1
          exact hc (comes_mono (M := m + 1) (by omega) (ih (m + 1) pre' post (by simpa using hk)
            (by rw [at_succ]; exact g2)))
    obtain ⟨m, h1, h2, h3⟩ := hf.item (fun M => by
      obtain ⟨m, h1, h2⟩ := sleeps hf (max M N)
      obtain ⟨p, hp⟩ := stays m (le_trans (le_max_right _ _) h1)
      exact ⟨m, le_trans (le_max_left _ _) h1, h2, by rw [hp]; simp⟩) N
    obtain ⟨p, hp⟩ := stays m h1
    obtain ⟨a, rest, e1, e2⟩ := item_takes h2
    rw [hp] at e1
    cases e1
    refine hc (comes_mono (M := m + 1) (by omega) (ih (m + 1) pre' p (by simpa using hk) ?_))
    rw [at_succ, h3]
    exact e2

/-- **C14**: the channel between `add_after` and the delay loop never holds more than 1000 entries. -/
theorem C14_capacity (t0 : ℚ) (es : List (Ev α)) : (exec (init t0) es).chan.length ≤ 1000 := by
  have key : ∀ (es : List (Ev α)) (s : State α), s.chan.length ≤ 1000 → (exec s es).chan.length ≤ 1000 := by
    intro es
    induction es with
    | nil => intro s h; exact h
    | cons e es ih =>
      intro s h
      refine ih _ ?_
      cases e with
      | tick d => simp only [step]; split <;> exact h
      | base o => cases o <;> exact h
      | addAfter x d =>
        simp only [step, addAfter]
        split
        · exact h
        · split <;> exact h
      | putDone i =>
        simp only [step]
        split
        · split
          · simp only [List.length_append, List.length_cons, List.length_nil]
            omega
          · exact h
        · exact h
      | putCancel i => simp only [step]; split <;> exact h
      | shutDown => exact h
      | wake w =>
        simp only [step, wakeStep]
        split
        · split
          · split <;> exact h
          · exact h
          · split
            · split <;> exact h
            · exact h
          · split
            · rename_i hc
              rw [hc] at h
              simp only [List.length_cons] at h
              simp only
              omega
            · exact h
        · exact h
      | loop =>
        simp only [step, loopStep]
        split
        · split <;> exact h
        · split
          · split
            · exact h
            · split
              · exact h
              · split <;> exact h
          · exact h
        · exact h
        · split
          · exact h
          · split
            · exact h
            · rw [(file_other s _).2.1]; exact h
        · split
          · exact h
          · rename_i hc
            rw [(file_other _ _).2.1]
            rw [hc] at h
            simp only [List.length_cons] at h
            simp only
            omega
        · exact h
  exact key es _ (Nat.zero_le _)

/-- There is room in the channel again and again. -/
private theorem room {t0 : ℚ} {f : Nat → Ev α} (hf : Fair t0 f) (M : Nat) :
    ∃ m, M ≤ m ∧ (at_ t0 f m).chan.length < 1000 := by
  by_contra hc
  have full : ∀ m, M ≤ m → 1000 ≤ (at_ t0 f m).chan.length := fun m hm =>
    Nat.le_of_not_lt fun h => hc ⟨m, hm, h⟩
  obtain ⟨m, h1, h2, h3⟩ := hf.item (fun N => by
    obtain ⟨m, h1, h2⟩ := sleeps hf (max M N)
    have := full m (le_trans (le_max_left _ _) h1)
    refine ⟨m, le_trans (le_max_right _ _) h1, h2, ?_⟩
    intro h
    rw [h] at this
    simp at this) M
  obtain ⟨a, rest, e1, e2⟩ := item_takes h2
  have h4 := full (m + 1) (by omega)
  rw [at_succ, h3, e2] at h4
  have h5 : (at_ t0 f m).chan.length ≤ 1000 := C14_capacity t0 _
  rw [e1] at h5
  simp only [List.length_cons] at h5
  omega

/-- From a pending `put`. -/
theorem put_comes {t0 : ℚ} {f : Nat → Ev α} (hf : Fair t0 f) (N : Nat) (x : α) (r : ℚ)
    (h : (x, r) ∈ (at_ t0 f N).puts) : Comes t0 f x N := by
  by_contra hc
  have stays : ∀ m, N ≤ m → (x, r) ∈ (at_ t0 f m).puts := by
    intro m hm
    induction m, hm using Nat.le_induction with
    | base => exact h
    | succ m hm ih =>
      rcases put_move (at_stop hf m) (f m) ih with g | g
      · rw [at_succ]; exact g
      · exfalso
        rw [← at_succ] at g
        obtain ⟨pre, post, hp⟩ := List.append_of_mem g
        exact hc (comes_mono (M := m + 1) (by omega) (chan_comes hf x r _ (m + 1) pre post rfl hp))
  obtain ⟨m, i, h1, h2, h3, h4⟩ := hf.put (x, r) N stays (room hf)
  refine hc (comes_mono (M := m + 1) (by omega) (chan_comes hf x r _ (m + 1) (at_ t0 f m).chan [] rfl ?_))
  rw [at_succ, h4]
  simp [step, h2, h3]

/-- **C14**: every accepted `add_after(x, d)` is followed by an `add(x)` of the delay loop, however many
other calls there are before and after. -/
theorem C14_comes (t0 : ℚ) (f : Nat → Ev α) (hf : Fair t0 f) (N : Nat) (x : α) (d t : ℚ)
    (h : Log.called x d t ∈ (step (at_ t0 f N) (f N)).2) :
    ∃ m τ, N < m ∧ Log.loopAdd x τ ∈ (step (at_ t0 f m) (f m)).2 := by
  have hput : ∃ r, (x, r) ∈ (at_ t0 f (N + 1)).puts := by
    rw [at_succ]
    cases he : f N with
    | addAfter y d' =>
      rw [he] at h
      simp only [step, addAfter] at h ⊢
      split at h
      · simp at h
      · split at h
        · simp at h
        · rename_i h1 h2
          simp only [h1, h2, if_false]
          simp only [List.mem_singleton, Log.called.injEq] at h
          exact ⟨(at_ t0 f N).clock + d', by simp [h.1]⟩
    | loop =>
      rw [he] at h
      obtain ⟨g, -⟩ := step_effect (at_base t0 f N) .loop
      exfalso
      generalize hl : (step (at_ t0 f N) .loop).2 = l at g h
      have hno : ∀ y d t, Log.called y d t ∉ (step (at_ t0 f N) .loop).2 := by
        intro y d t
        simp only [step, loopStep, file]
        repeat' split
        all_goals simp
      exact hno x d t (hl ▸ h)
    | tick d => rw [he] at h; simp [step] at h
    | base o => rw [he] at h; cases o <;> simp [step] at h
    | putDone i =>
      rw [he] at h
      simp only [step] at h
      split at h
      · split at h <;> simp at h
      · simp at h
    | putCancel i => rw [he] at h; simp [step] at h
    | shutDown => rw [he] at h; simp [step] at h
    | wake w => rw [he] at h; simp [step] at h
  obtain ⟨r, hr⟩ := hput
  obtain ⟨m, τ, h1, h2⟩ := put_comes hf (N + 1) x r hr
  exact ⟨m, τ, h1, h2⟩

/-! ### An example -/

/-- `add_after(7, 5)`; then time passes in rounds of ten seconds, in which the heartbeat wakes the loop. -/
private def rounds : Nat → Ev Nat := fun m =>
  if m < 7 then
    match m with
    | 0 => .addAfter 7 5
    | 1 => .putDone 0
    | 2 => .loop
    | 3 => .loop
    | 4 => .wake .item
    | 5 => .loop
    | _ => .loop
  else
    match (m - 7) % 6 with
    | 0 => .tick 10
    | 1 => .loop
    | 2 => .loop
    | 3 => .loop
    | 4 => .wake .heartbeat
    | _ => .loop

/-- Nothing is to be done. -/
private structure Idle (s : State Nat) : Prop where
  top : s.pc = .top
  heap : s.heap.len = 0
  stop : s.stop = false
  sd : s.core.shuttingDown = false
  chan : s.chan = []
  puts : s.puts = []

private theorem round_ (k : Nat) : rounds (7 + 6 * k) = .tick 10 ∧ rounds (7 + 6 * k + 1) = .loop ∧
    rounds (7 + 6 * k + 2) = .loop ∧ rounds (7 + 6 * k + 3) = .loop ∧
    rounds (7 + 6 * k + 4) = .wake .heartbeat ∧ rounds (7 + 6 * k + 5) = .loop := by
  have h : ∀ j, j < 6 → rounds (7 + 6 * k + j) = match j with
      | 0 => .tick 10
      | 1 => .loop
      | 2 => .loop
      | 3 => .loop
      | 4 => .wake .heartbeat
      | _ => .loop := by
    intro j hj
    have e : (7 + 6 * k + j - 7) % 6 = j := by omega
    simp only [rounds, show ¬ (7 + 6 * k + j < 7) by omega, if_false, e]
  exact ⟨h 0 (by omega), h 1 (by omega), h 2 (by omega), h 3 (by omega), h 4 (by omega), h 5 (by omega)⟩

private theorem idle_round (k : Nat) (h : Idle (at_ 100 rounds (7 + 6 * k))) :
    Idle (at_ 100 rounds (7 + 6 * (k + 1))) ∧
    (at_ 100 rounds (7 + 6 * (k + 1))).clock = (at_ 100 rounds (7 + 6 * k)).clock + 10 ∧
    ∀ j, j < 6 → (at_ 100 rounds (7 + 6 * k + j)).chan = [] ∧ (at_ 100 rounds (7 + 6 * k + j)).puts = [] := by
  obtain ⟨r0, r1, r2, r3, r4, r5⟩ := round_ k
  generalize hs : at_ 100 rounds (7 + 6 * k) = s at h
  obtain ⟨h1, h2, h3, h4, h5, h6⟩ := h
  have e1 : at_ 100 rounds (7 + 6 * k + 1) = { s with clock := s.clock + 10 } := by
    rw [at_succ, hs, r0]; simp [step]
  have e2 : at_ 100 rounds (7 + 6 * k + 2) =
      { s with clock := s.clock + 10, pc := .popping (s.clock + 10) } := by
    rw [at_succ, e1, r1]; simp [step, loopStep, h1, h4]
  have e3 : at_ 100 rounds (7 + 6 * k + 3) = { s with clock := s.clock + 10, pc := .sleeping none } := by
    rw [at_succ, e2, r2]; simp [step, loopStep, h2]
  have e4 : at_ 100 rounds (7 + 6 * k + 4) = { s with clock := s.clock + 10, pc := .sleeping none } := by
    rw [at_succ, e3, r3]; simp [step, loopStep]
  have e5 : at_ 100 rounds (7 + 6 * k + 5) = { s with clock := s.clock + 10, pc := .woke none } := by
    rw [at_succ, e4, r4]; simp [step, wakeStep]
  have e6 : at_ 100 rounds (7 + 6 * (k + 1)) = { s with clock := s.clock + 10, pc := .top } := by
    rw [show 7 + 6 * (k + 1) = 7 + 6 * k + 5 + 1 by omega, at_succ, e5, r5]; simp [step, loopStep, h3]
  refine ⟨by rw [e6]; exact ⟨rfl, h2, h3, h4, h5, h6⟩, by rw [e6], ?_⟩
  intro j hj
  match j with
  | 0 => rw [Nat.add_zero, hs]; exact ⟨h5, h6⟩
  | 1 => rw [e1]; exact ⟨h5, h6⟩
  | 2 => rw [e2]; exact ⟨h5, h6⟩
  | 3 => rw [e3]; exact ⟨h5, h6⟩
  | 4 => rw [e4]; exact ⟨h5, h6⟩
  | 5 => rw [e5]; exact ⟨h5, h6⟩

private theorem first_round : Idle (at_ 100 rounds (7 + 6 * 1)) := by
  constructor <;> norm_num [at_, rounds, List.range_succ, exec, step, loopStep, wakeStep, addAfter, init, WorkQueue.init,
    DelayHeap.init, file, DelayHeap.insert, insertEntry, PyDict.has, PyDict.get?, PyDict.set,
    PyDict.del, Heapq.heappush_nil, Heapq.heappop_one, DelayHeap.peek, peekLoop, DelayHeap.pop, popLoop,
    WorkQueue.add]

private theorem idle_all (k : Nat) : Idle (at_ 100 rounds (7 + 6 * (k + 1))) ∧
    (at_ 100 rounds (7 + 6 * 1)).clock + 10 * k = (at_ 100 rounds (7 + 6 * (k + 1))).clock := by
  induction k with
  | zero => exact ⟨first_round, by simp⟩
  | succ k ih =>
    obtain ⟨h1, h2, -⟩ := idle_round (k + 1) ih.1
    refine ⟨h1, ?_⟩
    rw [h2, ← ih.2]
    push_cast
    linarith

private theorem idle_empty (m : Nat) (h : 13 ≤ m) : (at_ 100 rounds m).chan = [] ∧ (at_ 100 rounds m).puts = [] := by
  have := (idle_round ((m - 13) / 6 + 1) (idle_all ((m - 13) / 6)).1).2.2 ((m - 13) % 6) (by omega)
  rw [show 7 + 6 * ((m - 13) / 6 + 1) + (m - 13) % 6 = m by omega] at this
  exact this

-- this is a fair run, and the call in its first move is accepted
example : Fair 100 rounds ∧ Log.called 7 5 100 ∈ (step (at_ 100 rounds 0) (rounds 0)).2 := by
  refine ⟨⟨?_, ?_, ?_, ?_, ?_, ?_, ?_⟩, ?_⟩
  · intro m
    simp only [rounds]
    split <;> split <;> rfl
  · intro T
    obtain ⟨k, hk⟩ := exists_nat_ge (T - (at_ 100 rounds (7 + 6 * 1)).clock)
    refine ⟨7 + 6 * (k + 1), ?_⟩
    rw [← (idle_all k).2]
    have : (0 : ℚ) ≤ k := Nat.cast_nonneg k
    linarith
  · intro N
    exact ⟨7 + 6 * N + 1, by omega, (round_ N).2.1⟩
  · intro N
    exact ⟨7 + 6 * N + 4, by omega, (round_ N).2.2.2.2.1⟩
  · intro N
    exact ⟨7 + 6 * (N + 1), by omega, by rw [(idle_all N).1.top]; simp⟩
  · intro h
    obtain ⟨m, h1, -, h2⟩ := h 13
    exact absurd (idle_empty m h1).1 h2
  · intro e N h
    have := h (max N 13) (le_max_left _ _)
    rw [(idle_empty _ (le_max_right _ _)).2] at this
    cases this
  · norm_num [at_, rounds, exec, step, addAfter, init, WorkQueue.init]

end Aiok8s.DelayQueue
