import Verif.Spec.FakeWatcher
import Mathlib.Data.List.Nodup
import Mathlib.Data.List.Induction
/-! # The invariant of the fake watcher when nothing is cancelled -/
set_option linter.unusedSimpArgs false
namespace Aiok8s.FakeWatcher
open Spec
variable {V : Type}

/-- Where the event of the holder of the lock is. -/
inductive Phase (V : Type) where
  | idle
  | put (i : Nat) (v : V)
  | taken (i : Nat) (v : V) (r : Nat)
  | back (i : Nat) (v : V)

namespace Phase
def holder : Phase V → Option Nat
  | idle => none
  | put i _ => some i
  | taken i _ _ => some i
  | back i _ => some i

def queue : Phase V → Queue V
  | idle => ⟨[], 0⟩
  | put _ v => ⟨[v], 1⟩
  | taken _ _ _ => ⟨[], 1⟩
  | back _ _ => ⟨[], 0⟩

def joiner : Phase V → Option (Nat × V)
  | idle => none
  | put i v => some (i, v)
  | taken i v _ => some (i, v)
  | back i v => some (i, v)

def reader : Phase V → Option (Nat × V)
  | taken _ v r => some (r, v)
  | _ => none

/-- Received, but `action` has not returned. -/
def half : Phase V → Option (V × Nat)
  | back i v => some (v, i)
  | _ => none
end Phase

/-- `V` can be found by unification. -/
abbrev userAt (s : State V) (i : Nat) : Option (User V) := s.users[i]?

abbrev readerAt (s : State V) (r : Nat) : Option (Reader V) := s.readers[r]?

structure Inv (cs : List (Option V)) (s : State V) (ph : Phase V) : Prop where
  mutex : s.mutex = ph.holder
  queue : s.queues s.gen = ph.queue
  old : ∀ q, q ≠ s.gen → (s.queues q).items = []
  joining : ∀ i v, userAt s i = some (.joining v) ↔ ph.joiner = some (i, v)
  got : ∀ r v, (∃ q t, readerAt s r = some (.waiting q t (some v))) ↔ ph.reader = some (r, v)
  noOrphan : ∀ r q g, readerAt s r ≠ some (.orphan q g)
  noFailed : ∀ r, readerAt s r ≠ some .failed
  task : ∀ r q t g, readerAt s r = some (.waiting q t g) → q ≤ s.gen ∧ t ≤ s.gen
  fired : s.stopped = true → s.fired = s.gen + 1
  len : s.users.length = cs.length
  arg : ∀ i v, userAt s i = some (.sending v) ∨ userAt s i = some (.joining v) ∨ userAt s i = some (.sent v) →
    cs[i]? = some (some v)

theorem inv_init : Inv ([] : List (Option V)) (init : State V) .idle := by
  constructor <;> simp [init, Phase.holder, Phase.queue, Phase.joiner, Phase.reader, userAt, readerAt]

/-- What a step adds to the dialogue. -/
def Moves (ph : Phase V) (log : List (Log V)) (ph' : Phase V) : Prop :=
  (dialogue log = [] ∧ ph'.half = ph.half) ∨
  (∃ i v, dialogue log = [.got v] ∧ ph.half = none ∧ ph'.half = some (v, i) ∧ ph.joiner = some (i, v)) ∨
  ∃ i v, dialogue log = [.sent i] ∧ ph.half = some (v, i) ∧ ph'.half = none

/-- A new user that does not join. -/
theorem inv_user {cs : List (Option V)} {s : State V} {ph : Phase V} (h : Inv cs s ph) (u : User V)
    (c : Option V) (hu : (∃ v, u = .sending v ∧ c = some v) ∨ u = .resetting) :
    Inv (cs ++ [c]) { s with users := s.users ++ [u] } ph := by
  obtain ⟨h1, h2, h3, h4, h5, h6, h7, h8, h9, h10, h11⟩ := h
  refine ⟨h1, h2, h3, ?_, h5, h6, h7, h8, h9, by simp [h10], ?_⟩
  · intro i v
    rw [← h4]
    simp only [userAt, List.getElem?_append]
    by_cases hi : i < s.users.length
    · rw [if_pos hi]
    · rw [if_neg hi, List.getElem?_eq_none (Nat.le_of_not_lt hi)]
      rcases hu with ⟨w, rfl, -⟩ | rfl <;> cases hk : i - s.users.length <;> simp
  · intro i v hi
    simp only [userAt, List.getElem?_append] at hi
    rw [List.getElem?_append]
    by_cases hl : i < s.users.length
    · simp only [if_pos hl] at hi
      rw [if_pos (by omega)]
      exact h11 i v hi
    · simp only [if_neg hl] at hi
      rw [if_neg (by omega)]
      have : i - s.users.length = 0 := by
        by_contra hne
        have : (([u] : List (User V))[i - s.users.length]?) = none := List.getElem?_eq_none (by simp; omega)
        simp [this] at hi
      rw [this] at hi
      rw [show i - cs.length = 0 by omega]
      rcases hu with ⟨w, rfl, rfl⟩ | rfl
      · simp at hi ⊢
        exact hi
      · simp at hi

theorem inv_acquire {cs : List (Option V)} {s : State V} {ph : Phase V} (h : Inv cs s ph) (i : Nat) :
    ∃ ph', Inv cs (acquire s i).1 ph' ∧ Moves ph (acquire s i).2 ph' := by
  have stay : ∃ ph', Inv cs s ph' ∧ Moves ph [] ph' := ⟨ph, h, Or.inl ⟨rfl, rfl⟩⟩
  obtain ⟨h1, h2, h3, h4, h5, h6, h7, h8, h9, h10, h11⟩ := h
  unfold acquire
  cases hm : s.mutex with
  | some j => simpa only using stay
  | none =>
    have hph : ph = .idle := by
      rw [hm] at h1
      cases ph <;> simp [Phase.holder] at h1 ⊢
    subst hph
    cases hu : s.users[i]? with
    | none => simpa only using stay
    | some u =>
      have hi : i < s.users.length := by
        by_contra hn
        rw [List.getElem?_eq_none (Nat.le_of_not_lt hn)] at hu
        simp at hu
      cases u with
      | sending v =>
        refine ⟨.put i v, ⟨rfl, ?_, ?_, ?_, h5, h6, h7, h8, h9, ?_, ?_⟩, Or.inl ⟨rfl, rfl⟩⟩
        · simp only [setQueue, if_true, h2, Phase.queue, List.nil_append, Nat.zero_add]
        · intro q hq
          simp only [setQueue, if_neg hq]
          exact h3 q hq
        · intro j w
          simp only [userAt, List.getElem?_set, Phase.joiner]
          by_cases hj : i = j
          · subst hj
            simp [hi]
          · have := h4 j w
            simp only [userAt, Phase.joiner] at this
            simp [hj, this]
        · simp only [List.length_set, h10]
        · intro j w hj
          simp only [userAt, List.getElem?_set] at hj
          by_cases hij : i = j
          · subst hij
            simp [hi] at hj
            subst hj
            exact h11 i _ (Or.inl hu)
          · simp only [if_neg hij] at hj
            exact h11 j w hj
      | resetting =>
        refine ⟨.idle, ⟨rfl, ?_, ?_, ?_, h5, h6, h7, ?_, ?_, ?_, ?_⟩, Or.inl ⟨rfl, rfl⟩⟩
        · simp only [setQueue, if_true, Phase.queue]
        · intro q hq
          simp only [setQueue, if_neg hq]
          by_cases hg : q = s.gen
          · rw [hg, h2]; rfl
          · exact h3 q hg
        · intro j w
          simp only [userAt, List.getElem?_set, Phase.joiner]
          by_cases hj : i = j
          · subst hj
            simp [hi]
          · have := h4 j w
            simp only [userAt, Phase.joiner] at this
            simp [hj, this]
        · intro r q t g hr
          have := h8 r q t g hr
          simp only
          omega
        · intro hc
          simp at hc
        · simp only [List.length_set, h10]
        · intro j w hj
          simp only [userAt, List.getElem?_set] at hj
          by_cases hij : i = j
          · subst hij
            simp [hi] at hj
          · simp only [if_neg hij] at hj
            exact h11 j w hj
      | joining v => simpa only using stay
      | sent v => simpa only using stay
      | reset => simpa only using stay
      | cancelled => simpa only using stay

theorem inv_joined {cs : List (Option V)} {s : State V} {ph : Phase V} (h : Inv cs s ph) (i : Nat) :
    ∃ ph', Inv cs (joined s i).1 ph' ∧ Moves ph (joined s i).2 ph' := by
  have stay : ∃ ph', Inv cs s ph' ∧ Moves ph [] ph' := ⟨ph, h, Or.inl ⟨rfl, rfl⟩⟩
  obtain ⟨h1, h2, h3, h4, h5, h6, h7, h8, h9, h10, h11⟩ := h
  unfold joined
  cases hu : s.users[i]? with
  | none => simpa only using stay
  | some u =>
    have hi : i < s.users.length := by
      by_contra hn
      rw [List.getElem?_eq_none (Nat.le_of_not_lt hn)] at hu
      simp at hu
    cases u with
    | joining v =>
      have hj := (h4 i v).1 hu
      by_cases hz : (s.queues s.gen).unfinished = 0
      · simp only [hz, if_true]
        have hph : ph = .back i v := by
          rw [h2] at hz
          cases ph <;> simp [Phase.joiner, Phase.queue] at hj hz ⊢
          exact hj
        subst hph
        refine ⟨.idle, ⟨rfl, h2, h3, ?_, h5, h6, h7, h8, h9, ?_, ?_⟩, Or.inr (Or.inr ⟨i, v, rfl, rfl, rfl⟩)⟩
        · intro j w
          simp only [userAt, List.getElem?_set, Phase.joiner]
          by_cases hj : i = j
          · subst hj
            simp [hi]
          · have := h4 j w
            simp only [userAt, Phase.joiner, Option.some.injEq, Prod.mk.injEq, hj, false_and, iff_false] at this
            simp [hj, this]
        · simp only [List.length_set, h10]
        · intro j w hj
          simp only [userAt, List.getElem?_set] at hj
          by_cases hij : i = j
          · subst hij
            simp [hi] at hj
            subst hj
            exact h11 i _ (Or.inr (Or.inl hu))
          · simp only [if_neg hij] at hj
            exact h11 j w hj
      · simp only [hz, if_false]
        exact stay
    | sending v => simpa only using stay
    | resetting => simpa only using stay
    | sent v => simpa only using stay
    | reset => simpa only using stay
    | cancelled => simpa only using stay

/-- A reader that has not got anything is added. -/
theorem inv_next {cs : List (Option V)} {s : State V} {ph : Phase V} (h : Inv cs s ph) :
    ∃ ph', Inv cs (next s) ph' ∧ Moves ph [] ph' := by
  obtain ⟨h1, h2, h3, h4, h5, h6, h7, h8, h9, h10, h11⟩ := h
  have at_ : ∀ (x : Reader V) r, (s.readers ++ [x])[r]? =
      if r < s.readers.length then s.readers[r]? else if r = s.readers.length then some x else none := by
    intro x r
    rw [List.getElem?_append]
    by_cases hr : r < s.readers.length
    · simp [hr]
    · by_cases he : r = s.readers.length
      · simp [he]
      · rw [if_neg hr, if_neg hr, if_neg he]
        exact List.getElem?_eq_none (by simp; omega)
  have none_ : ∀ r, ¬ r < s.readers.length → s.readers[r]? = none := fun r hr => List.getElem?_eq_none (Nat.le_of_not_lt hr)
  unfold next
  cases hq : (s.queues s.gen).items with
  | nil =>
    refine ⟨ph, ⟨h1, h2, h3, h4, ?_, ?_, ?_, ?_, h9, h10, h11⟩, Or.inl ⟨rfl, rfl⟩⟩
    · intro r v
      rw [← h5]
      simp only [readerAt, at_]
      by_cases hr : r < s.readers.length
      · simp [hr]
      · rw [none_ r hr]
        by_cases he : r = s.readers.length <;> simp [hr, he]
    · intro r q g
      simp only [readerAt, at_]
      by_cases hr : r < s.readers.length
      · simpa [hr] using h6 r q g
      · by_cases he : r = s.readers.length <;> simp [hr, he]
    · intro r
      simp only [readerAt, at_]
      by_cases hr : r < s.readers.length
      · simpa [hr] using h7 r
      · by_cases he : r = s.readers.length <;> simp [hr, he]
    · intro r q t g hg
      simp only [readerAt, at_] at hg
      by_cases hr : r < s.readers.length
      · simp only [hr, if_true] at hg
        exact h8 r q t g hg
      · by_cases he : r = s.readers.length
        · simp [hr, he] at hg
          simp only
          omega
        · simp [hr, he] at hg
  | cons v rest =>
    have hph : ∃ i, ph = .put i v ∧ rest = [] := by
      rw [h2] at hq
      cases ph <;> simp [Phase.queue] at hq ⊢
      exact ⟨hq.1, hq.2.symm ▸ rfl⟩
    obtain ⟨i, rfl, rfl⟩ := hph
    refine ⟨.taken i v s.readers.length, ⟨h1, ?_, ?_, h4, ?_, ?_, ?_, ?_, h9, h10, h11⟩, Or.inl ⟨rfl, rfl⟩⟩
    · simp only [setQueue, if_true, h2, Phase.queue]
    · intro q hq
      simp only [setQueue, if_neg hq]
      exact h3 q hq
    · intro r w
      have h5' := h5 r w
      simp only [readerAt, Phase.reader, reduceCtorEq, iff_false] at h5'
      simp only [readerAt, at_, Phase.reader, Option.some.injEq, Prod.mk.injEq]
      by_cases hr : r < s.readers.length
      · simp only [hr, if_true, h5', false_iff]
        intro he
        omega
      · by_cases he : r = s.readers.length
        · simp [hr, he]
        · simp only [hr, he, if_false]
          simp
          intro hh
          exact absurd hh.symm he
    · intro r q g
      simp only [readerAt, at_]
      by_cases hr : r < s.readers.length
      · simpa [hr] using h6 r q g
      · by_cases he : r = s.readers.length <;> simp [hr, he]
    · intro r
      simp only [readerAt, at_]
      by_cases hr : r < s.readers.length
      · simpa [hr] using h7 r
      · by_cases he : r = s.readers.length <;> simp [hr, he]
    · intro r q t g hg
      simp only [readerAt, at_] at hg
      by_cases hr : r < s.readers.length
      · simp only [hr, if_true] at hg
        exact h8 r q t g hg
      · by_cases he : r = s.readers.length
        · simp [hr, he] at hg
          simp only
          omega
        · simp [hr, he] at hg

theorem lt_of_some {α : Type} {l : List α} {i : Nat} {x : α} (h : l[i]? = some x) : i < l.length := by
  by_contra hn
  rw [List.getElem?_eq_none (Nat.le_of_not_lt hn)] at h
  simp at h

theorem inv_take {cs : List (Option V)} {s : State V} {ph : Phase V} (h : Inv cs s ph) (r : Nat) :
    ∃ ph', Inv cs (take s r) ph' ∧ Moves ph [] ph' := by
  have stay : ∃ ph', Inv cs s ph' ∧ Moves ph [] ph' := ⟨ph, h, Or.inl ⟨rfl, rfl⟩⟩
  obtain ⟨h1, h2, h3, h4, h5, h6, h7, h8, h9, h10, h11⟩ := h
  unfold take
  cases hr : s.readers[r]? with
  | none => simpa only using stay
  | some x =>
    have hl := lt_of_some hr
    cases x with
    | waiting q t g =>
      cases g with
      | some v => simpa only using stay
      | none =>
        simp only
        cases hq : (s.queues q).items with
        | nil => simpa only using stay
        | cons v rest =>
          have hqg : q = s.gen := by
            by_contra hne
            rw [h3 q hne] at hq
            simp at hq
          subst hqg
          have hph : ∃ i, ph = .put i v ∧ rest = [] := by
            rw [h2] at hq
            cases ph <;> simp [Phase.queue] at hq ⊢
            exact ⟨hq.1, hq.2.symm ▸ rfl⟩
          obtain ⟨i, rfl, rfl⟩ := hph
          refine ⟨.taken i v r, ⟨h1, ?_, ?_, h4, ?_, ?_, ?_, ?_, h9, h10, h11⟩, Or.inl ⟨rfl, rfl⟩⟩
          · simp only [setQueue, if_true, h2, Phase.queue]
          · intro q hq
            simp only [setQueue, if_neg hq]
            exact h3 q hq
          · intro j w
            have h5' := h5 j w
            simp only [readerAt, Phase.reader, reduceCtorEq, iff_false] at h5'
            simp only [readerAt, List.getElem?_set, Phase.reader, Option.some.injEq, Prod.mk.injEq]
            by_cases hj : r = j
            · subst hj
              simp [hl]
            · simp only [hj, if_false, h5', false_and]
          · intro j q g
            simp only [readerAt, List.getElem?_set]
            by_cases hj : r = j
            · subst hj
              simp [hl]
            · simpa [hj] using h6 j q g
          · intro j
            simp only [readerAt, List.getElem?_set]
            by_cases hj : r = j
            · subst hj
              simp [hl]
            · simpa [hj] using h7 j
          · intro j q t' g hg
            simp only [readerAt, List.getElem?_set] at hg
            by_cases hj : r = j
            · subst hj
              simp [hl] at hg
              have := h8 _ _ _ _ hr
              simp only
              omega
            · simp only [if_neg hj] at hg
              exact h8 j q t' g hg
    | orphan q g => exact absurd hr (h6 r q g)
    | returned v => simpa only using stay
    | ended => simpa only using stay
    | failed => simpa only using stay

/-- A reader that has not got anything is changed into one that has not either. -/
theorem inv_setReader {cs : List (Option V)} {s : State V} {ph : Phase V} (h : Inv cs s ph) (r : Nat) (q t : Nat)
    (hr : s.readers[r]? = some (.waiting q t none)) (x : Reader V)
    (hx : x = .ended ∨ x = .waiting q s.gen none) : Inv cs { s with readers := s.readers.set r x } ph := by
  obtain ⟨h1, h2, h3, h4, h5, h6, h7, h8, h9, h10, h11⟩ := h
  have hl := lt_of_some hr
  refine ⟨h1, h2, h3, h4, ?_, ?_, ?_, ?_, h9, h10, h11⟩
  · intro j v
    rw [← h5]
    simp only [readerAt, List.getElem?_set]
    by_cases hj : r = j
    · subst hj
      rw [hr]
      rcases hx with rfl | rfl <;> simp [hl]
    · simp [hj]
  · intro j q g
    simp only [readerAt, List.getElem?_set]
    by_cases hj : r = j
    · subst hj
      rcases hx with rfl | rfl <;> simp [hl]
    · simpa [hj] using h6 j q g
  · intro j
    simp only [readerAt, List.getElem?_set]
    by_cases hj : r = j
    · subst hj
      rcases hx with rfl | rfl <;> simp [hl]
    · simpa [hj] using h7 j
  · intro j q' t' g hg
    simp only [readerAt, List.getElem?_set] at hg
    by_cases hj : r = j
    · subst hj
      have := h8 _ _ _ _ hr
      rcases hx with rfl | rfl
      · simp [hl] at hg
      · simp [hl] at hg
        simp only
        omega
    · simp only [if_neg hj] at hg
      exact h8 j q' t' g hg

theorem inv_wake {cs : List (Option V)} {s : State V} {ph : Phase V} (h : Inv cs s ph) (r : Nat) :
    ∃ ph', Inv cs (wake s r).1 ph' ∧ Moves ph (wake s r).2 ph' := by
  have stay : ∃ ph', Inv cs s ph' ∧ Moves ph [] ph' := ⟨ph, h, Or.inl ⟨rfl, rfl⟩⟩
  have hset := inv_setReader h
  obtain ⟨h1, h2, h3, h4, h5, h6, h7, h8, h9, h10, h11⟩ := h
  unfold wake
  cases hr : s.readers[r]? with
  | none => simpa only using stay
  | some x =>
    have hl := lt_of_some hr
    cases x with
    | waiting q t g =>
      cases g with
      | some v =>
        have hp := (h5 r v).1 ⟨q, t, hr⟩
        have hph : ∃ i, ph = .taken i v r := by
          cases ph <;> simp [Phase.reader] at hp ⊢
          exact ⟨hp.2, hp.1⟩
        obtain ⟨i, rfl⟩ := hph
        have hu : (s.queues s.gen).unfinished = 1 := by rw [h2]; rfl
        simp only [hu, Nat.one_ne_zero, if_false]
        refine ⟨.back i v, ⟨h1, ?_, ?_, h4, ?_, ?_, ?_, ?_, h9, h10, h11⟩,
          Or.inr (Or.inl ⟨i, v, rfl, rfl, rfl, rfl⟩)⟩
        · simp only [setQueue, if_true, h2, Phase.queue]
        · intro q hq
          simp only [setQueue, if_neg hq]
          exact h3 q hq
        · intro j w
          have h5' := h5 j w
          simp only [readerAt, Phase.reader, Option.some.injEq, Prod.mk.injEq] at h5'
          simp only [readerAt, List.getElem?_set, Phase.reader]
          by_cases hj : r = j
          · subst hj
            simp [hl]
          · simp only [hj, if_false, h5', false_and, reduceCtorEq]
        · intro j q g
          simp only [readerAt, List.getElem?_set]
          by_cases hj : r = j
          · subst hj
            simp [hl]
          · simpa [hj] using h6 j q g
        · intro j
          simp only [readerAt, List.getElem?_set]
          by_cases hj : r = j
          · subst hj
            simp [hl]
          · simpa [hj] using h7 j
        · intro j q t' g hg
          simp only [readerAt, List.getElem?_set] at hg
          by_cases hj : r = j
          · subst hj
            simp [hl] at hg
          · simp only [if_neg hj] at hg
            exact h8 j q t' g hg
      | none =>
        simp only
        by_cases hf : t < s.fired
        · by_cases hs : s.stopped = true
          · rw [if_pos hf, if_pos hs]
            exact ⟨ph, hset r q t hr .ended (Or.inl rfl), Or.inl ⟨rfl, rfl⟩⟩
          · rw [if_pos hf, if_neg hs]
            exact ⟨ph, hset r q t hr _ (Or.inr rfl), Or.inl ⟨rfl, rfl⟩⟩
        · simp only [hf, if_false]
          exact stay
    | orphan q g => simpa only using stay
    | returned v => simpa only using stay
    | ended => simpa only using stay
    | failed => simpa only using stay

theorem inv_step {cs : List (Option V)} {s : State V} {ph : Phase V} (h : Inv cs s ph) (e : Ev V)
    (hn : (∀ i, e ≠ .cancelUser i) ∧ ∀ r, e ≠ .cancelReader r) :
    ∃ ph', Inv (cs ++ calls [e]) (step s e).1 ph' ∧ Moves ph (step s e).2 ph' := by
  cases e with
  | send v => exact ⟨ph, inv_user h _ _ (Or.inl ⟨v, rfl, rfl⟩), Or.inl ⟨rfl, rfl⟩⟩
  | reset => exact ⟨ph, inv_user h _ _ (Or.inr rfl), Or.inl ⟨rfl, rfl⟩⟩
  | acquire i => simpa [calls, step] using inv_acquire h i
  | joined i => simpa [calls, step] using inv_joined h i
  | next => simpa [calls, step] using inv_next h
  | take r => simpa [calls, step] using inv_take h r
  | wake r => simpa [calls, step] using inv_wake h r
  | stop =>
    refine ⟨ph, ?_, Or.inl ⟨rfl, rfl⟩⟩
    obtain ⟨h1, h2, h3, h4, h5, h6, h7, h8, h9, h10, h11⟩ := h
    simp only [calls, List.filterMap_cons, List.filterMap_nil, List.append_nil]
    exact ⟨h1, h2, h3, h4, h5, h6, h7, h8, fun _ => rfl, h10, h11⟩
  | cancelUser i => exact absurd rfl (hn.1 i)
  | cancelReader r => exact absurd rfl (hn.2 r)

theorem exec_append (s : State V) (es fs : List (Ev V)) : exec s (es ++ fs) = exec (exec s es) fs := by
  induction es generalizing s with
  | nil => rfl
  | cons e es ih => exact ih _

theorem logOf_append (s : State V) (es fs : List (Ev V)) :
    logOf s (es ++ fs) = logOf s es ++ logOf (exec s es) fs := by
  induction es generalizing s with
  | nil => rfl
  | cons e es ih => simp only [List.cons_append, logOf, exec, ih, List.append_assoc]

/-- A call of `action` that has returned stays so. -/
theorem sent_stays (s : State V) (e : Ev V) (i : Nat) (v : V) (h : s.users[i]? = some (.sent v)) :
    (step s e).1.users[i]? = some (.sent v) := by
  have hl := lt_of_some h
  have set_ : ∀ j u, ¬ (∃ w, s.users[j]? = some (.sent w)) → (s.users.set j u)[i]? = some (.sent v) := by
    intro j u hj
    rw [List.getElem?_set]
    by_cases hij : j = i
    · subst hij
      exact absurd ⟨v, h⟩ hj
    · rw [if_neg hij, h]
  cases e with
  | send w => simp only [step]; rw [List.getElem?_append_left hl, h]
  | reset => simp only [step]; rw [List.getElem?_append_left hl, h]
  | acquire j =>
    simp only [step, acquire]
    split
    · rename_i hu; exact set_ j _ (by simp [hu])
    · rename_i hu; exact set_ j _ (by simp [hu])
    · exact h
  | joined j =>
    simp only [step, joined]
    split
    · rename_i hu
      split
      · exact set_ j _ (by simp [hu])
      · exact h
    · exact h
  | cancelUser j =>
    simp only [step, cancelUser]
    split
    · rename_i hu; exact set_ j _ (by simp [hu])
    · rename_i hu; exact set_ j _ (by simp [hu])
    · rename_i hu; exact set_ j _ (by simp [hu])
    · exact h
  | next => simp only [step, next]; split <;> exact h
  | take r => simp only [step, take]; split <;> (try split) <;> exact h
  | wake r =>
    simp only [step, wake]
    split
    · split
      · split <;> exact h
      · split
        · split <;> exact h
        · exact h
    · exact h
  | cancelReader r => simp only [step]; split <;> exact h
  | stop => exact h

end Aiok8s.FakeWatcher
