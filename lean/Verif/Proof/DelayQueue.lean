import Verif.Spec.DelayQueue
import Verif.Proof.DelayHeap
import Mathlib.Order.MinMax
import Mathlib.Data.List.Perm.Basic
import Mathlib.Tactic.Linarith
/-! # Invariants of the delaying queue -/
set_option linter.unusedSimpArgs false
set_option linter.unusedSectionVars false
namespace Aiok8s.DelayHeap
variable {P α : Type} [LinearOrder P] [DecidableEq α]

/-- The heap is consistent. -/
def HInv (h : Heap P α) : Prop := ∃ T, Sim h T

/-- The deadline stored for `x`. -/
def dl (h : Heap P α) (x : α) : Option P := (h.finder.get? x).map Prod.fst

theorem hinv_init : HInv (init : Heap P α) := ⟨[], sim_init⟩

theorem dl_insert {h : Heap P α} (hi : HInv h) (x y : α) (p : P) :
    HInv (insert h x p) ∧
    dl (insert h x p) y = if y = x then
      some (match dl h x with | none => p | some q => min q p) else dl h y := by
  obtain ⟨T, hs⟩ := hi
  refine ⟨let ⟨T', h', _⟩ := sim_insert hs x p; ⟨T', h'⟩, ?_⟩
  simp only [insert, dl]
  by_cases hx : h.finder.has x = true
  · obtain ⟨⟨q, c⟩, hq⟩ := Option.isSome_iff_exists.1 hx
    simp only [hx, if_true, remove, hq]
    by_cases hlt : q > p
    · simp only [hlt, if_true, insertEntry, PyDict.get?_set, PyDict.get?_del hs.wf]
      by_cases hy : y = x
      · subst hy; simp [min_eq_right (le_of_lt hlt)]
      · simp [hy, Ne.symm hy]
    · simp only [hlt, if_false, Bool.false_eq_true]
      by_cases hy : y = x
      · subst hy; simp [hq, min_eq_left (not_lt.1 hlt)]
      · simp [hy]
  · have hn : h.finder.get? x = none := by
      simpa [PyDict.has] using hx
    simp only [hx, if_false, insertEntry, PyDict.get?_set, Bool.false_eq_true, hn]
    by_cases hy : y = x
    · subst hy; simp
    · simp [hy, Ne.symm hy]

theorem dl_iff {h : Heap P α} {T : List (α × P × Nat)} (hs : Sim h T) (x : α) (p : P) :
    dl h x = some p ↔ ∃ c, (x, p, c) ∈ T := by
  simp only [dl, Option.map_eq_some_iff, Prod.exists, exists_and_right, exists_eq_right, hs.find]

theorem best_mem' {t : Table P α} {e : α × P} (h : t.best = some e) :
    e ∈ t ∧ ∀ f ∈ t, e.2 ≤ f.2 := by
  induction t generalizing e with
  | nil => simp [Table.best] at h
  | cons g t ih =>
    simp only [Table.best] at h
    cases hb : Table.best t with
    | none =>
      rw [hb] at h
      have := best_none hb
      subst this
      simp only [Option.some.injEq] at h
      subst h; simp
    | some f =>
      rw [hb] at h
      obtain ⟨h1, h2⟩ := ih hb
      simp only at h
      split at h
      · rename_i hlt
        simp only [Option.some.injEq] at h
        subst h
        refine ⟨by simp [h1], ?_⟩
        intro a ha
        rcases List.mem_cons.1 ha with rfl | ha
        · exact le_of_lt hlt
        · exact h2 a ha
      · rename_i hlt
        simp only [Option.some.injEq] at h
        subst h
        refine ⟨by simp, ?_⟩
        intro a ha
        rcases List.mem_cons.1 ha with rfl | ha
        · exact le_refl _
        · exact le_trans (not_lt.1 hlt) (h2 a ha)

theorem peek_spec {h : Heap P α} (hi : HInv h) :
    HInv (peek h).1 ∧ (∀ x, dl (peek h).1 x = dl h x) ∧ (peek h).1.len = h.len ∧
    (∀ p, (peek h).2 = some p → (∃ x, dl h x = some p) ∧ ∀ y q, dl h y = some q → p ≤ q) ∧
    ((peek h).2 = none → ∀ x, dl h x = none) ∧
    ((peek h).2 = none → h.len = 0) := by
  obtain ⟨T, hs⟩ := hi
  obtain ⟨h1, h2⟩ := sim_peek hs
  refine ⟨⟨T, h1⟩, fun x => rfl, rfl, ?_, ?_, ?_⟩
  · intro p hp
    rw [h2] at hp
    obtain ⟨e, he, rfl⟩ := Option.map_eq_some_iff.1 hp
    obtain ⟨h3, h4⟩ := best_mem' he
    obtain ⟨⟨x, q, c⟩, hx, rfl⟩ := List.mem_map.1 h3
    refine ⟨⟨x, (dl_iff hs x q).2 ⟨c, hx⟩⟩, ?_⟩
    intro y q' hy
    obtain ⟨c', hc'⟩ := (dl_iff hs y q').1 hy
    exact h4 (y, q') (List.mem_map.2 ⟨_, hc', rfl⟩)
  · intro hn x
    rw [h2] at hn
    have hT := best_none (Option.map_eq_none_iff.1 hn)
    have : T = [] := by simpa [erase] using hT
    subst this
    cases hd : dl h x with
    | none => rfl
    | some p => simpa using (dl_iff hs x p).1 hd
  · intro hn
    rw [h2] at hn
    have hT := best_none (Option.map_eq_none_iff.1 hn)
    have : T = [] := by simpa [erase] using hT
    subst this
    simpa using hs.len

theorem pop_spec {h : Heap P α} (hi : HInv h) {p : P} (hp : (peek h).2 = some p) :
    ∃ x, (pop (peek h).1).2 = some x ∧ dl h x = some p ∧ HInv (pop (peek h).1).1 ∧
      (pop (peek h).1).1.len = h.len - 1 ∧ 0 < h.len ∧
      ∀ y, dl (pop (peek h).1).1 y = if y = x then none else dl h y := by
  obtain ⟨T, hs⟩ := hi
  obtain ⟨h1, h2⟩ := sim_peek hs
  rw [hp] at h2
  rcases sim_pop h1 with ⟨hT, -, -⟩ | ⟨x, q, c, hm, hb, hx, h3⟩
  · subst hT; simp [erase, Table.best] at h2
  · rw [hb] at h2
    simp only [Option.map_some, Option.some.injEq] at h2
    subst h2
    have hlen : h.len = (T.filter (fun e => e.1 ≠ x)).length + 1 := by
      have := (sim_removed hs hm).len
      simp only at this
      omega
    refine ⟨x, hx, (dl_iff hs x p).2 ⟨c, hm⟩, ⟨_, h3⟩, ?_, by omega, ?_⟩
    · have := h3.len; omega
    · intro y
      have hiff : ∀ r, dl (pop (peek h).1).1 y = some r ↔ (y ≠ x ∧ dl h y = some r) := by
        intro r
        rw [dl_iff h3, dl_iff hs]
        simp only [List.mem_filter]
        constructor
        · rintro ⟨c, hc, hne⟩; exact ⟨by simpa using hne, c, hc⟩
        · rintro ⟨hne, c, hc⟩; exact ⟨c, hc, by simpa using hne⟩
      by_cases hy : y = x
      · subst hy
        simp only [if_true]
        cases hd : dl (pop (peek h).1).1 y with
        | none => rfl
        | some r => exact absurd rfl ((hiff r).1 hd).1
      · simp only [hy, if_false]
        cases hd : dl h y with
        | none =>
          cases hd' : dl (pop (peek h).1).1 y with
          | none => rfl
          | some r => rw [((hiff r).1 hd').2] at hd; cases hd
        | some r => exact (hiff r).2 ⟨hy, hd⟩

end Aiok8s.DelayHeap

namespace Aiok8s.DelayQueue
open Aiok8s Aiok8s.DelayHeap
variable {α : Type} [DecidableEq α]

/-- Basic invariant. -/
structure Base (s : State α) : Prop where
  heap : HInv s.heap
  now : ∀ n, s.pc = .popping n → n ≤ s.clock
  sd : s.core.shuttingDown = false
  alive : s.stop = false → s.pc ≠ .exited

/-- How often `x` is held. -/
def hc (s : State α) (x : α) : Nat :=
  s.puts.countP (fun e => e.1 = x) + s.chan.countP (fun e => e.1 = x) +
  (match s.pc with | .woke (some e) => if e.1 = x then 1 else 0 | _ => 0) +
  (if (dl s.heap x).isSome then 1 else 0)

theorem held_iff {s : State α} {x : α} {r : ℚ} : Held s x r ↔
    (x, r) ∈ s.puts ∨ (x, r) ∈ s.chan ∨ s.pc = .woke (some (x, r)) ∨ dl s.heap x = some r :=
  Iff.rfl

theorem add_sd {c : WorkQueue.State α} (x : α) :
    (WorkQueue.add c x).shuttingDown = c.shuttingDown := by
  simp only [WorkQueue.add]
  split
  · rfl
  · split
    · rfl
    · split <;> rfl

theorem core_sd {c : WorkQueue.State α} {o : WorkQueue.Op α} (h : o ≠ .shutDown) :
    (WorkQueue.step c o).1.shuttingDown = c.shuttingDown := by
  cases o with
  | shutDown => exact absurd rfl h
  | add x => exact add_sd x
  | get => simp only [WorkQueue.step, WorkQueue.get]; split <;> (try split) <;> rfl
  | done x => simp only [WorkQueue.step, WorkQueue.done]; split <;> (try split) <;> rfl
  | _ => rfl

theorem base_init (t : ℚ) : Base (init t : State α) := by
  refine ⟨hinv_init, ?_, rfl, ?_⟩ <;> simp [init]

/-- What a move can do. -/
inductive Effect (s s' : State α) : List (Log α) → Prop where
  | quiet (hback : ∀ x r, Held s' x r → Held s x r)
      (hfwd : s.stop = false → ∀ x r, Held s x r → ∃ r', r' ≤ r ∧ Held s' x r')
      (hcnt : ∀ x, hc s' x ≤ hc s x) : Effect s s' []
  | called (x : α) (d : ℚ) (hd : 0 < d)
      (hiff : ∀ y r, Held s' y r ↔ Held s y r ∨ (y = x ∧ r = s.clock + d))
      (hcnt : ∀ y, hc s' y ≤ hc s y + if y = x then 1 else 0) :
      Effect s s' [.called x d s.clock]
  | added (x : α) (r : ℚ) (hr : r ≤ s.clock) (hx : Held s x r)
      (hback : ∀ x r, Held s' x r → Held s x r)
      (hfwd : ∀ y r, y ≠ x → Held s y r → ∃ r', r' ≤ r ∧ Held s' y r')
      (hcnt : ∀ y, hc s' y + (if y = x then 1 else 0) ≤ hc s y) :
      Effect s s' [.loopAdd x s.clock]

theorem effect_same {s s' : State α} (h1 : s'.puts = s.puts) (h2 : s'.chan = s.chan)
    (h3 : ∀ e, s'.pc = .woke (some e) ↔ s.pc = .woke (some e)) (h4 : ∀ x, dl s'.heap x = dl s.heap x) :
    Effect s s' [] := by
  have hh : ∀ x r, Held s' x r ↔ Held s x r := by
    intro x r; rw [held_iff, held_iff, h1, h2, h3, h4]
  refine .quiet (fun x r => (hh x r).1) (fun _ x r h => ⟨r, le_refl _, (hh x r).2 h⟩) ?_
  intro x
  simp only [hc, h1, h2, h4]
  have : (match s'.pc with | .woke (some e) => if e.1 = x then 1 else 0 | _ => 0)
      = (match s.pc with | .woke (some e) => if e.1 = x then 1 else 0 | _ => 0) := by
    cases hp : s.pc with
    | woke e =>
      cases e with
      | some e => rw [(h3 e).2 hp]
      | none =>
        cases hp' : s'.pc with
        | woke e' =>
          cases e' with
          | some e' => have := (h3 e').1 hp'; rw [hp] at this; cases this
          | none => rfl
        | _ => rfl
    | _ =>
      cases hp' : s'.pc with
      | woke e' =>
        cases e' with
        | some e' => have := (h3 e').1 hp'; rw [hp] at this; cases this
        | none => rfl
      | _ => rfl
  rw [this]

/-- Filing an entry that came from the channel or from `wait_task`. -/
theorem file_effect {s : State α} {e : α × ℚ} {chan' : List (α × ℚ)} {pc' : Pc α}
    (hb : HInv s.heap)
    (hsrc : (s.chan = e :: chan' ∧ s.pc = .draining ∧ pc' = .draining) ∨
      (s.chan = chan' ∧ s.pc = .woke (some e) ∧ pc' = .draining)) :
    Effect s { (file { s with chan := chan' } e).1 with pc := pc' }
      (file { s with chan := chan' } e).2 ∧
    HInv (file { s with chan := chan' } e).1.heap ∧
    (file { s with chan := chan' } e).1.core.shuttingDown = s.core.shuttingDown ∧
    (file { s with chan := chan' } e).1.clock = s.clock ∧
    (file { s with chan := chan' } e).1.stop = s.stop := by
  obtain ⟨x, r⟩ := e
  have hpc' : ∀ e, pc' ≠ .woke (some e) := by
    rcases hsrc with ⟨-, -, h⟩ | ⟨-, -, h⟩ <;> simp [h]
  have hheld : Held s x r := by
    rw [held_iff]
    rcases hsrc with ⟨h, -⟩ | ⟨-, h, -⟩ <;> simp [h]
  have hchan : ∀ e, e ∈ chan' → e ∈ s.chan := by
    rcases hsrc with ⟨h, -⟩ | ⟨h, -⟩ <;> rw [h] <;> simp_all
  have hsplit : ∀ y q, ((y, q) ∈ s.chan ∨ s.pc = .woke (some (y, q))) →
      (y, q) ∈ chan' ∨ (y = x ∧ q = r) := by
    intro y q
    rcases hsrc with ⟨h, hp, -⟩ | ⟨h, hp, -⟩ <;> rw [h, hp] <;> simp <;> tauto
  have hcc : ∀ y, chan'.countP (fun e => e.1 = y) + (if y = x then 1 else 0)
      = s.chan.countP (fun e => e.1 = y)
        + (match s.pc with | .woke (some e) => if e.1 = y then 1 else 0 | _ => 0) := by
    intro y
    rcases hsrc with ⟨h, hp, -⟩ | ⟨h, hp, -⟩ <;> rw [h, hp] <;> simp [List.countP_cons, eq_comm]
  have hpcc : ∀ y, (match pc' with | .woke (some e) => if e.1 = y then 1 else 0 | _ => 0) = 0 := by
    intro y
    rcases hsrc with ⟨-, -, h⟩ | ⟨-, -, h⟩ <;> simp [h]
  simp only [file]
  split
  · rename_i hlt
    refine ⟨?_, (dl_insert hb x x r).1, rfl, rfl, rfl⟩
    refine .quiet ?_ ?_ ?_
    · intro y q hy
      rw [held_iff] at hy ⊢
      simp only [(dl_insert hb x y r).2] at hy
      rcases hy with hy | hy | hy | hy
      · exact Or.inl hy
      · exact Or.inr (Or.inl (hchan _ hy))
      · exact absurd hy (hpc' _)
      · split at hy
        · rename_i hyx
          subst hyx
          cases hd : dl s.heap y with
          | none =>
            simp only [hd, Option.some.injEq] at hy
            subst hy
            rw [← hd]
            exact hheld
          | some q' =>
            simp only [hd, Option.some.injEq] at hy
            rcases min_choice q' r with hm | hm
            · rw [hm] at hy; subst hy; simp
            · rw [hm] at hy; subst hy; rw [← hd]; exact hheld
        · exact Or.inr (Or.inr (Or.inr hy))
    · intro _ y q hy
      rw [held_iff] at hy
      have hx' : ∃ r', r' ≤ r ∧ (∀ q', dl s.heap x = some q' → r' ≤ q') ∧
          dl (DelayHeap.insert s.heap x r) x = some r' := by
        rw [(dl_insert hb x x r).2]
        simp only [if_true]
        cases hd : dl s.heap x with
        | none => exact ⟨r, le_refl _, by simp, rfl⟩
        | some q' => exact ⟨min q' r, min_le_right _ _, by simp, rfl⟩
      obtain ⟨r', hr1, hr2, hr3⟩ := hx'
      rcases hy with hy | hy | hy | hy
      · exact ⟨q, le_refl _, Or.inl hy⟩
      · rcases hsplit y q (Or.inl hy) with h | ⟨rfl, rfl⟩
        · exact ⟨q, le_refl _, Or.inr (Or.inl h)⟩
        · exact ⟨r', hr1, Or.inr (Or.inr (Or.inr hr3))⟩
      · rcases hsplit y q (Or.inr hy) with h | ⟨rfl, rfl⟩
        · exact ⟨q, le_refl _, Or.inr (Or.inl h)⟩
        · exact ⟨r', hr1, Or.inr (Or.inr (Or.inr hr3))⟩
      · by_cases hyx : y = x
        · subst hyx
          exact ⟨r', hr2 q hy, Or.inr (Or.inr (Or.inr hr3))⟩
        · refine ⟨q, le_refl _, Or.inr (Or.inr (Or.inr ?_))⟩
          show dl _ y = some q
          rw [(dl_insert hb x y r).2]
          simp [hyx, hy]
    · intro y
      have h1 := hcc y
      have h2 := hpcc y
      simp only [hc, h2, (dl_insert hb x y r).2]
      by_cases hyx : y = x
      · subst hyx; simp at h1 ⊢; omega
      · simp [hyx] at h1 ⊢; omega
  · rename_i hlt
    refine ⟨?_, hb, add_sd x, rfl, rfl⟩
    refine .added x r (not_lt.1 hlt) hheld ?_ ?_ ?_
    · intro y q hy
      rw [held_iff] at hy ⊢
      rcases hy with hy | hy | hy | hy
      · exact Or.inl hy
      · exact Or.inr (Or.inl (hchan _ hy))
      · exact absurd hy (hpc' _)
      · exact Or.inr (Or.inr (Or.inr hy))
    · intro y q hyx hy
      refine ⟨q, le_refl _, ?_⟩
      rw [held_iff] at hy ⊢
      rcases hy with hy | hy | hy | hy
      · exact Or.inl hy
      · rcases hsplit y q (Or.inl hy) with h | ⟨rfl, rfl⟩
        · exact Or.inr (Or.inl h)
        · exact absurd rfl hyx
      · rcases hsplit y q (Or.inr hy) with h | ⟨rfl, rfl⟩
        · exact Or.inr (Or.inl h)
        · exact absurd rfl hyx
      · exact Or.inr (Or.inr (Or.inr hy))
    · intro y
      have h1 := hcc y
      have h2 := hpcc y
      simp only [hc, h2]
      omega

theorem loop_effect {s : State α} (hb : Base s) :
    Effect s (loopStep s).1 (loopStep s).2 ∧ Base (loopStep s).1 := by
  obtain ⟨hh, hn, hsd, hal⟩ := hb
  cases hpc : s.pc with
  | top =>
    simp only [loopStep, hpc, hsd, Bool.false_eq_true, if_false]
    refine ⟨effect_same rfl rfl (by simp [hpc]) (fun _ => rfl), hh, ?_, hsd, by simp⟩
    intro n h
    simp only [Pc.popping.injEq] at h
    exact le_of_eq h.symm
  | exited => simpa [loopStep, hpc] using
      ⟨effect_same rfl rfl (by simp) (fun _ => rfl), ⟨hh, hn, hsd, hal⟩⟩
  | sleeping t => simpa [loopStep, hpc] using
      ⟨effect_same rfl rfl (by simp) (fun _ => rfl), ⟨hh, hn, hsd, hal⟩⟩
  | popping n =>
    have hn := hn n hpc
    obtain ⟨p1, p2, p3, p4, p5, p6⟩ := peek_spec hh
    by_cases hlen : s.heap.len = 0
    · simp only [loopStep, hpc, hlen, ne_eq, not_true_eq_false, if_false]
      exact ⟨effect_same rfl rfl (by simp [hpc]) (fun _ => rfl), hh, by simp, hsd, by simp⟩
    · cases hp : (DelayHeap.peek s.heap).2 with
      | none => exact absurd (p6 hp) hlen
      | some p =>
        have hpk : DelayHeap.peek s.heap = ((DelayHeap.peek s.heap).1, some p) := by rw [← hp]
        by_cases hlt : p > n
        · have e : loopStep s = ({ s with
              heap := (DelayHeap.peek s.heap).1
              pc := .sleeping (some (s.clock + (p - n))) }, []) := by
            simp only [loopStep, hpc, hlen, ne_eq, not_false_eq_true, if_true]
            rw [hpk]; simp [hlt]
          rw [e]
          exact ⟨effect_same rfl rfl (by simp [hpc]) p2, p1, by simp, hsd, by simp⟩
        · obtain ⟨x, q1, q2, q3, q4, q6, q5⟩ := pop_spec hh hp
          have hpp : DelayHeap.pop (DelayHeap.peek s.heap).1
              = ((DelayHeap.pop (DelayHeap.peek s.heap).1).1, some x) := by rw [← q1]
          have e : loopStep s = ({ s with
              heap := (DelayHeap.pop (DelayHeap.peek s.heap).1).1
              core := WorkQueue.add s.core x }, [.loopAdd x s.clock]) := by
            simp only [loopStep, hpc, hlen, ne_eq, not_false_eq_true, if_true]
            rw [hpk]; simp only [hlt, if_false]
            rw [hpp]
          rw [e]
          refine ⟨?_, ⟨q3, ?_, by rw [add_sd]; exact hsd, by simp [hpc]⟩⟩
          · refine .added x p (le_trans (not_lt.1 hlt) hn) (Or.inr (Or.inr (Or.inr q2))) ?_ ?_ ?_
            · intro y q hy
              rw [held_iff] at hy ⊢
              simp only [q5] at hy
              rcases hy with hy | hy | hy | hy
              · exact Or.inl hy
              · exact Or.inr (Or.inl hy)
              · exact Or.inr (Or.inr (Or.inl hy))
              · right; right; right
                split at hy
                · cases hy
                · exact hy
            · intro y q hyx hy
              refine ⟨q, le_refl _, ?_⟩
              rw [held_iff] at hy ⊢
              simpa only [q5, hyx, if_false] using hy
            · intro y
              simp only [hc, q5]
              by_cases hyx : y = x
              · subst hyx; simp [q2]
              · simp [hyx]
          · intro m hm
            have : s.pc = .popping m := hm
            rw [hpc] at this
            cases this
            exact hn
  | woke e =>
    cases hst : s.stop with
    | true =>
      simp only [loopStep, hpc, hst, if_true]
      refine ⟨?_, hh, by simp, hsd, by simp [hst]⟩
      refine .quiet ?_ (by simp [hst]) ?_
      · intro y q hy
        rw [held_iff] at hy ⊢
        rcases hy with hy | hy | hy | hy
        · exact Or.inl hy
        · exact Or.inr (Or.inl hy)
        · cases hy
        · exact Or.inr (Or.inr (Or.inr hy))
      · intro y
        simp only [hc]; omega
    | false =>
      cases e with
      | none =>
        simp only [loopStep, hpc, hst, Bool.false_eq_true, if_false]
        exact ⟨effect_same rfl rfl (by simp [hpc]) (fun _ => rfl), hh, by simp, hsd, by simp⟩
      | some e =>
        obtain ⟨f1, f2, f3, f4, f5⟩ := file_effect (s := s) (e := e) (chan' := s.chan)
          (pc' := .draining) hh (Or.inr ⟨rfl, hpc, rfl⟩)
        have e1 : loopStep s = ({ (file s e).1 with pc := .draining }, (file s e).2) := by
          simp [loopStep, hpc, hst]
        rw [e1]
        exact ⟨f1, f2, by simp, f3.trans hsd, by simp⟩
  | draining =>
    cases hch : s.chan with
    | nil =>
      simp only [loopStep, hpc, hch]
      exact ⟨effect_same rfl hch.symm (by simp [hpc]) (fun _ => rfl), hh, by simp, hsd, by simp⟩
    | cons e rest =>
      obtain ⟨f1, f2, f3, f4, f5⟩ := file_effect (s := s) (e := e) (chan' := rest)
          (pc' := .draining) hh (Or.inl ⟨hch, hpc, rfl⟩)
      have e1 : loopStep s = file { s with chan := rest } e := by
        simp [loopStep, hpc, hch]
      have e2 : (file { s with chan := rest } e).1.pc = .draining := by
        simp only [file]; split <;> exact hpc
      have e3 : { (file { s with chan := rest } e).1 with pc := .draining }
          = (file { s with chan := rest } e).1 := by rw [← e2]
      rw [e3] at f1
      rw [e1]
      exact ⟨f1, f2, by simp [e2], f3.trans hsd, by simp [e2]⟩

theorem step_effect {s : State α} (hb : Base s) (e : Ev α) :
    Effect s (step s e).1 (step s e).2 ∧ Base (step s e).1 := by
  have hb0 := hb
  obtain ⟨hh, hn, hsd, hal⟩ := hb
  cases e with
  | tick d =>
    simp only [step]
    split
    · refine ⟨effect_same rfl rfl (by simp) (fun _ => rfl), hh, ?_, hsd, hal⟩
      intro n h
      have := hn n h
      simp only
      linarith
    · exact ⟨effect_same rfl rfl (by simp) (fun _ => rfl), hb0⟩
  | base o =>
    by_cases ho : o = .shutDown
    · subst ho
      exact ⟨effect_same rfl rfl (by simp [step, shutDown]) (fun _ => rfl), hh, hn, hsd,
        by simp [step, shutDown]⟩
    · have e : step s (.base o) = ({ s with core := (WorkQueue.step s.core o).1 }, []) := by
        cases o <;> first | rfl | exact absurd rfl ho
      rw [e]
      exact ⟨effect_same rfl rfl (by simp) (fun _ => rfl), hh, hn, (core_sd ho).trans hsd, hal⟩
  | shutDown =>
    exact ⟨effect_same rfl rfl (by simp [step, shutDown]) (fun _ => rfl), hh, hn, hsd,
      by simp [step, shutDown]⟩
  | addAfter x d =>
    simp only [step, addAfter, hsd, Bool.false_eq_true, if_false]
    split
    · exact ⟨effect_same rfl rfl (by simp) (fun _ => rfl), hh, hn, (add_sd x).trans hsd, hal⟩
    · rename_i hd
      refine ⟨.called x d (not_le.1 hd) ?_ ?_, hh, hn, hsd, hal⟩
      · intro y r
        rw [held_iff, held_iff]
        simp only [List.mem_append, List.mem_singleton, Prod.mk.injEq]
        tauto
      · intro y
        simp only [hc, List.countP_append, List.countP_singleton]
        by_cases hyx : y = x
        · subst hyx; simp; omega
        · simp [hyx, Ne.symm hyx]
  | putDone i =>
    simp only [step]
    cases hi : s.puts[i]? with
    | none => exact ⟨effect_same rfl rfl (by simp) (fun _ => rfl), hb0⟩
    | some e =>
      simp only
      split
      · refine ⟨?_, hh, hn, hsd, hal⟩
        have hlt : i < s.puts.length := by
          rw [List.getElem?_eq_some_iff] at hi; exact hi.1
        have hpe : s.puts[i] = e := by
          rw [List.getElem?_eq_some_iff] at hi; exact hi.2
        have hperm : (e :: s.puts.eraseIdx i).Perm s.puts := by
          rw [← hpe]; exact List.getElem_cons_eraseIdx_perm hlt
        have hh : ∀ x r, Held { s with puts := s.puts.eraseIdx i, chan := s.chan ++ [e] } x r
            ↔ Held s x r := by
          intro x r
          rw [held_iff, held_iff]
          rw [← hperm.mem_iff]
          simp only [List.mem_append, List.mem_cons, List.mem_nil_iff, or_false]
          tauto
        refine .quiet (fun x r => (hh x r).1) (fun _ x r h => ⟨r, le_refl _, (hh x r).2 h⟩) ?_
        intro x
        have := hperm.countP_eq (fun e => e.1 = x)
        simp only [List.countP_cons] at this
        simp only [hc, List.countP_append, List.countP_singleton]
        omega
      · exact ⟨effect_same rfl rfl (by simp) (fun _ => rfl), hb0⟩
  | putCancel i =>
    simp only [step]
    split
    · rename_i hst
      refine ⟨.quiet ?_ (by simp [hst]) ?_, hh, hn, hsd, hal⟩
      · intro y q hy
        rw [held_iff] at hy ⊢
        rcases hy with hy | hy
        · exact Or.inl (List.mem_of_mem_eraseIdx hy)
        · exact Or.inr hy
      · intro y
        have := (List.eraseIdx_sublist (l := s.puts) (k := i)).countP_le (p := fun e => e.1 = y)
        simp only [hc]; omega
    · exact ⟨effect_same rfl rfl (by simp) (fun _ => rfl), hb0⟩
  | wake w =>
    simp only [step, wakeStep]
    cases hpc : s.pc with
    | sleeping timer =>
      simp only
      cases w with
      | stop =>
        simp only; split
        · exact ⟨effect_same rfl rfl (by simp [hpc]) (fun _ => rfl), hh, by simp, hsd, by simp⟩
        · exact ⟨effect_same rfl rfl (by simp) (fun _ => rfl), hb0⟩
      | heartbeat =>
        exact ⟨effect_same rfl rfl (by simp [hpc]) (fun _ => rfl), hh, by simp, hsd, by simp⟩
      | timer =>
        simp only; split
        · split
          · exact ⟨effect_same rfl rfl (by simp [hpc]) (fun _ => rfl), hh, by simp, hsd, by simp⟩
          · exact ⟨effect_same rfl rfl (by simp) (fun _ => rfl), hb0⟩
        · exact ⟨effect_same rfl rfl (by simp) (fun _ => rfl), hb0⟩
      | item =>
        simp only
        cases hch : s.chan with
        | nil => exact ⟨effect_same rfl rfl (by simp) (fun _ => rfl), hb0⟩
        | cons e rest =>
          refine ⟨?_, hh, by simp, hsd, by simp⟩
          have hh : ∀ x r, Held { s with chan := rest, pc := .woke (some e) } x r ↔ Held s x r := by
            intro x r
            rw [held_iff, held_iff]
            simp only [hch, hpc, List.mem_cons, Pc.woke.injEq, Option.some.injEq, reduceCtorEq,
              false_or]
            constructor
            · rintro (h | h | h | h) <;> simp [h]
            · rintro (h | (h | h) | h) <;> simp [h]
          refine .quiet (fun x r => (hh x r).1) (fun _ x r h => ⟨r, le_refl _, (hh x r).2 h⟩) ?_
          intro x
          simp only [hc, hch, hpc, List.countP_cons]
          by_cases h : e.1 = x <;> simp [h] <;> omega
    | _ => simp only; exact ⟨effect_same rfl rfl (by simp) (fun _ => rfl), hb0⟩
  | loop => exact loop_effect hb0

theorem base_exec {s : State α} (h : Base s) (es : List (Ev α)) : Base (exec s es) := by
  induction es generalizing s with
  | nil => exact h
  | cons e es ih => exact ih (step_effect h e).2

theorem exec_append (s : State α) (as bs : List (Ev α)) :
    exec s (as ++ bs) = exec (exec s as) bs := by
  induction as generalizing s with
  | nil => rfl
  | cons a as ih => exact ih _

theorem logOf_append (s : State α) (as bs : List (Ev α)) :
    logOf s (as ++ bs) = logOf s as ++ logOf (exec s as) bs := by
  induction as generalizing s with
  | nil => rfl
  | cons a as ih => simp [logOf, exec, ih]

end Aiok8s.DelayQueue
