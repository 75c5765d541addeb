import Verif.Spec.Heapq
import Mathlib.Data.List.Perm.Basic
/-! # `heapq` keeps its invariant and gives the smallest entry -/
set_option linter.unusedSimpArgs false
namespace Aiok8s.Heapq
variable {E : Type}

/-- The same except for position `pos`, whose children are not smaller than its parent. -/
def Almost (lt : E → E → Bool) (l : List E) (pos : Nat) : Prop :=
  (∀ i (h : i < l.length), 0 < i → i ≠ pos → lt l[i] l[(i - 1) / 2] = false) ∧
  ∀ i (h : i < l.length), 0 < i → (_ : (i - 1) / 2 = pos) → 0 < pos → lt l[i] (l[(pos - 1) / 2]'(by omega)) = false

theorem set_swap (l : List E) (i j : Nat) (x : E) (hi : i < l.length) (hj : j < l.length) (hne : i ≠ j) :
    ((l.set i l[j]).set j x).Perm (l.set i x) := by
  have h := List.set_set_perm (as := l.set i x) (i := i) (j := j) (by simpa using hi) (by simpa using hj)
  simpa [List.getElem_set, hne, List.set_set] using h

variable {lt : E → E → Bool}

theorem siftdownLoop_spec (ho : Order lt) (new : E) : ∀ pos (heap : List E), pos < heap.length →
    Almost lt (heap.set pos new) pos →
    IsHeap lt (siftdownLoop lt new 0 heap pos) ∧
      (siftdownLoop lt new 0 heap pos).Perm (heap.set pos new) := by
  intro pos
  induction pos using Nat.strongRecOn with
  | _ pos ih =>
    intro heap hp ha
    rw [siftdownLoop]
    by_cases h0 : pos > 0
    · have hpp : (pos - 1) / 2 < heap.length := by omega
      rw [dif_pos h0, List.getElem?_eq_getElem hpp]
      simp only
      by_cases hl : lt new heap[(pos - 1) / 2] = true
      · rw [if_pos hl]
        have hne : pos ≠ (pos - 1) / 2 := by omega
        have hsw := set_swap heap pos ((pos - 1) / 2) new hp hpp hne
        have := ih ((pos - 1) / 2) (by omega) (heap.set pos heap[(pos - 1) / 2]) (by simpa using hpp) ?_
        · exact ⟨this.1, this.2.trans hsw⟩
        · obtain ⟨h1, h2⟩ := ha
          have up : ∀ i (h : i < heap.length), 0 < i → i ≠ pos → (i - 1) / 2 ≠ pos →
              lt heap[i] heap[(i - 1) / 2] = false := by
            intro i h hi hn hn'
            have := h1 i (by simpa using h) hi hn
            simpa [List.getElem_set, hn.symm, hn'.symm] using this
          have kid : ∀ i (h : i < heap.length), 0 < i → (i - 1) / 2 = pos →
              lt heap[i] heap[(pos - 1) / 2] = false := by
            intro i h hi hn
            have := h2 i (by simpa using h) hi hn h0
            have hne' : pos ≠ i := by omega
            simpa [List.getElem_set, hne, hne'] using this
          constructor
          · intro i h hi hn
            have h' : i < heap.length := by simpa using h
            simp only [List.getElem_set]
            rw [if_neg hn.symm]
            by_cases e1 : pos = i
            · subst e1
              rw [if_pos rfl, if_pos rfl]
              exact ho.asymm _ _ hl
            · rw [if_neg e1]
              by_cases e2 : (pos - 1) / 2 = (i - 1) / 2
              · rw [if_pos e2]
                have h3 := up i h' hi (Ne.symm e1) (by omega)
                refine ho.trans new heap[(pos - 1) / 2] _ (ho.asymm _ _ hl) ?_
                simpa only [e2] using h3
              · rw [if_neg e2]
                by_cases e3 : pos = (i - 1) / 2
                · rw [if_pos e3]
                  exact kid i h' hi e3.symm
                · rw [if_neg e3]
                  exact up i h' hi (Ne.symm e1) (Ne.symm e3)
          · intro i h hi hpar hpos
            have h' : i < heap.length := by simpa using h
            have hroot : lt heap[(pos - 1) / 2] heap[((pos - 1) / 2 - 1) / 2] = false :=
              up _ hpp hpos hne.symm (by omega)
            simp only [List.getElem_set]
            rw [if_neg (show (pos - 1) / 2 ≠ i by omega),
              if_neg (show (pos - 1) / 2 ≠ ((pos - 1) / 2 - 1) / 2 by omega),
              if_neg (show pos ≠ ((pos - 1) / 2 - 1) / 2 by omega)]
            by_cases e1 : pos = i
            · rw [if_pos e1]
              exact hroot
            · rw [if_neg e1]
              refine ho.trans _ _ _ hroot ?_
              have h3 := up i h' hi (Ne.symm e1) (by omega)
              simpa only [hpar] using h3
      · rw [if_neg hl]
        refine ⟨?_, List.Perm.refl _⟩
        intro i h hi
        by_cases e1 : i = pos
        · subst e1
          have hne : i ≠ (i - 1) / 2 := by omega
          simpa [List.getElem_set, hne] using hl
        · exact ha.1 i h hi e1
    · rw [dif_neg h0]
      have : pos = 0 := by omega
      subst this
      exact ⟨fun i h hi => ha.1 i h hi (by omega), List.Perm.refl _⟩

theorem siftdown_spec (ho : Order lt) (heap : List E) (pos : Nat) (hp : pos < heap.length)
    (ha : Almost lt heap pos) :
    IsHeap lt (siftdown lt heap 0 pos) ∧ (siftdown lt heap 0 pos).Perm heap := by
  have hset : heap.set pos heap[pos] = heap := by
    simp
  rw [siftdown, List.getElem?_eq_getElem hp]
  have := siftdownLoop_spec ho heap[pos] pos heap hp (by rw [hset]; exact ha)
  rw [hset] at this
  exact this

theorem heappush_spec (ho : Order lt) (heap : List E) (x : E) (hh : IsHeap lt heap) :
    IsHeap lt (heappush lt heap x) ∧ (heappush lt heap x).Perm (x :: heap) := by
  have := siftdown_spec ho (heap ++ [x]) ((heap ++ [x]).length - 1) (by simp) ?_
  · exact ⟨this.1, this.2.trans (List.perm_append_singleton x heap)⟩
  · constructor
    · intro i h hi hn
      have h' : i < heap.length := by simp at h hn; omega
      rw [List.getElem_append_left h', List.getElem_append_left (by omega)]
      exact hh i h' hi
    · intro i h hi hpar hpos
      simp at h hpar
      omega

/-- The invariant of the loop of `_siftup`: right but for what is at `pos`. -/
def Hole (lt : E → E → Bool) (l : List E) (pos : Nat) : Prop :=
  (∀ i (h : i < l.length), 0 < i → i ≠ pos → (i - 1) / 2 ≠ pos → lt l[i] l[(i - 1) / 2] = false) ∧
  ∀ i (h : i < l.length), 0 < i → (_ : (i - 1) / 2 = pos) → 0 < pos → lt l[i] (l[(pos - 1) / 2]'(by omega)) = false

theorem smallerChild_spec (ho : Order lt) (heap : List E) (pos : Nat) (h : 2 * pos + 1 < heap.length) :
    ∃ hc : smallerChild lt heap (2 * pos + 1) < heap.length,
      (smallerChild lt heap (2 * pos + 1) = 2 * pos + 1 ∨ smallerChild lt heap (2 * pos + 1) = 2 * pos + 2) ∧
      ∀ i (hi : i < heap.length), 0 < i → (i - 1) / 2 = pos →
        i = smallerChild lt heap (2 * pos + 1) ∨ lt heap[i] heap[smallerChild lt heap (2 * pos + 1)] = false := by
  by_cases h2 : 2 * pos + 2 < heap.length
  · cases hl : lt heap[2 * pos + 1] heap[2 * pos + 2] with
    | true =>
      have e : smallerChild lt heap (2 * pos + 1) = 2 * pos + 1 := by
        simp [smallerChild, List.getElem?_eq_getElem h, List.getElem?_eq_getElem h2, hl]
      simp only [e]
      refine ⟨h, Or.inl trivial, ?_⟩
      intro i hi hpos hpar
      rcases (show i = 2 * pos + 1 ∨ i = 2 * pos + 2 by omega) with rfl | rfl
      · exact Or.inl rfl
      · exact Or.inr (ho.asymm _ _ hl)
    | false =>
      have e : smallerChild lt heap (2 * pos + 1) = 2 * pos + 2 := by
        simp [smallerChild, List.getElem?_eq_getElem h, List.getElem?_eq_getElem h2, hl]
      simp only [e]
      refine ⟨h2, Or.inr trivial, ?_⟩
      intro i hi hpos hpar
      rcases (show i = 2 * pos + 1 ∨ i = 2 * pos + 2 by omega) with rfl | rfl
      · exact Or.inr hl
      · exact Or.inl rfl
  · have e : smallerChild lt heap (2 * pos + 1) = 2 * pos + 1 := by
      simp [smallerChild, List.getElem?_eq_getElem h, List.getElem?_eq_none (show heap.length ≤ 2 * pos + 1 + 1 by omega)]
    simp only [e]
    refine ⟨h, Or.inl trivial, ?_⟩
    intro i hi hpos hpar
    exact Or.inl (by omega)

theorem siftupLoop_spec (ho : Order lt) (new : E) : ∀ m pos (heap : List E), heap.length - pos ≤ m →
    pos < heap.length → Hole lt heap pos →
    (siftupLoop lt heap pos).2 < (siftupLoop lt heap pos).1.length ∧
    Almost lt ((siftupLoop lt heap pos).1.set (siftupLoop lt heap pos).2 new) (siftupLoop lt heap pos).2 ∧
    ((siftupLoop lt heap pos).1.set (siftupLoop lt heap pos).2 new).Perm (heap.set pos new) := by
  intro m
  induction m with
  | zero => intro pos heap hm hp; omega
  | succ m ih =>
    intro pos heap hm hp hh
    rw [siftupLoop]
    by_cases h : 2 * pos + 1 < heap.length
    · obtain ⟨hc, hcc, hmin⟩ := smallerChild_spec ho heap pos h
      rw [dif_pos h, List.getElem?_eq_getElem hc]
      simp only
      generalize smallerChild lt heap (2 * pos + 1) = c at hc hcc hmin
      have hne : pos ≠ c := by omega
      have hpc : (c - 1) / 2 = pos := by omega
      have := ih c (heap.set pos heap[c]) (by simp only [List.length_set]; omega) (by simpa using hc) ?_
      · exact ⟨this.1, this.2.1, this.2.2.trans (set_swap heap pos c new hp hc hne)⟩
      · obtain ⟨h1, h2⟩ := hh
        constructor
        · intro i hi hi0 hic hpar
          have hi' : i < heap.length := by simpa using hi
          simp only [List.getElem_set]
          by_cases e1 : pos = i
          · subst e1
            rw [if_pos rfl, if_neg (show pos ≠ (pos - 1) / 2 by omega)]
            exact h2 c hc (by omega) hpc hi0
          · rw [if_neg e1]
            by_cases e2 : pos = (i - 1) / 2
            · rw [if_pos e2]
              exact (hmin i hi' hi0 e2.symm).resolve_left hic
            · rw [if_neg e2]
              exact h1 i hi' hi0 (Ne.symm e1) (Ne.symm e2)
        · intro i hi hi0 hpar hc0
          have hi' : i < heap.length := by simpa using hi
          simp only [List.getElem_set]
          rw [if_neg (show pos ≠ i by omega), if_pos (show pos = (c - 1) / 2 by omega)]
          have := h1 i hi' hi0 (by omega) (by omega)
          simpa only [hpar] using this
    · rw [dif_neg h]
      refine ⟨hp, ⟨?_, ?_⟩, List.Perm.refl _⟩
      · intro i hi hi0 hn
        have hi' : i < heap.length := by simpa using hi
        simp only [List.getElem_set]
        rw [if_neg (Ne.symm hn), if_neg (show pos ≠ (i - 1) / 2 by omega)]
        exact hh.1 i hi' hi0 hn (by omega)
      · intro i hi hi0 hpar hpos
        have hi' : i < heap.length := by simpa using hi
        omega

theorem siftup_spec (ho : Order lt) (heap : List E) (hp : 0 < heap.length) (hh : Hole lt heap 0) :
    IsHeap lt (siftup lt heap 0) ∧ (siftup lt heap 0).Perm heap := by
  rw [siftup, List.getElem?_eq_getElem hp]
  have h1 := siftupLoop_spec ho heap[0] heap.length 0 heap (by omega) hp hh
  have h2 := siftdown_spec ho ((siftupLoop lt heap 0).1.set (siftupLoop lt heap 0).2 heap[0])
    (siftupLoop lt heap 0).2 (by simpa using h1.1) h1.2.1
  refine ⟨h2.1, h2.2.trans ?_⟩
  have := h1.2.2
  rwa [show heap.set 0 heap[0] = heap by simp] at this

theorem heappop_spec (ho : Order lt) (top : E) (rest : List E) (hh : IsHeap lt (top :: rest)) :
    IsHeap lt (heappop lt (top :: rest)).1 ∧ (heappop lt (top :: rest)).2 = some top ∧
      (heappop lt (top :: rest)).1.Perm rest := by
  rcases List.eq_nil_or_concat rest with rfl | ⟨init, last, rfl⟩
  · refine ⟨?_, rfl, List.Perm.refl _⟩
    intro i h
    simp [heappop] at h
  · simp only [List.concat_eq_append] at hh ⊢
    have e : heappop lt (top :: (init ++ [last])) = (siftup lt (last :: init) 0, some top) := by
      have h1 : (top :: (init ++ [last])).getLast? = some last := by
        rw [← List.cons_append, List.getLast?_append]; rfl
      have h2 : (top :: (init ++ [last])).dropLast = top :: init := by
        rw [← List.cons_append, List.dropLast_concat]
      simp only [heappop, h1, h2]
    rw [e]
    have := siftup_spec ho (last :: init) (by simp) ?_
    · exact ⟨this.1, rfl, this.2.trans (List.perm_append_singleton last init).symm⟩
    · constructor
      · intro i hi hi0 hne hpar
        obtain ⟨j, rfl⟩ : ∃ j, i = j + 1 := ⟨i - 1, by omega⟩
        obtain ⟨k, hk⟩ : ∃ k, (j + 1 - 1) / 2 = k + 1 := ⟨(j + 1 - 1) / 2 - 1, by omega⟩
        simp only [List.length_cons] at hi
        have := hh (j + 1) (by simp; omega) hi0
        simp only [hk, List.getElem_cons_succ] at this ⊢
        rwa [List.getElem_append_left (by omega), List.getElem_append_left (by omega)] at this
      · intro i hi hi0 hpar hpos
        omega

theorem root_least (ho : Order lt) (l : List E) (hh : IsHeap lt l) (h0 : 0 < l.length) :
    ∀ i (h : i < l.length), 0 < i → lt l[i] l[0] = false := by
  intro i
  induction i using Nat.strongRecOn with
  | _ i ih =>
    intro h hi
    by_cases hz : (i - 1) / 2 = 0
    · have := hh i h hi
      simpa only [hz] using this
    · exact ho.trans _ _ _ (ih _ (by omega) (by omega) (by omega)) (hh i h hi)

theorem heappush_nil (x : E) : heappush lt [] x = [x] := by
  simp [heappush, siftdown, siftdownLoop]

theorem heappop_one (x : E) : heappop lt [x] = ([], some x) := rfl

end Aiok8s.Heapq
