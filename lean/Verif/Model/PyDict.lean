/-!
# Python `dict` and `set`

A Python `dict` is modelled by its list of items in insertion order.  Assigning to a present
key keeps its place, assigning to a new key appends (CPython 3.7 language guarantee, CPython
3.6 implementation), deleting removes.  A Python `set` is modelled by a list of its elements;
only membership is ever observed in the properties (the iteration order of a Python set is
unspecified), `PySet.add` never creates duplicates.
-/
namespace Aiok8s

/-- A Python `dict` as its item list in insertion order. -/
abbrev PyDict (K V : Type) := List (K × V)

namespace PyDict
variable {K V : Type} [DecidableEq K]

/-- `d.get(k)`. -/
def get? : PyDict K V → K → Option V
  | [], _ => none
  | (k', v) :: d, k => if k' = k then some v else get? d k

/-- `d[k] = v`. -/
def set : PyDict K V → K → V → PyDict K V
  | [], k, v => [(k, v)]
  | (k', v') :: d, k, v => if k' = k then (k', v) :: d else (k', v') :: set d k v

/-- `del d[k]` for a present key (no effect for an absent one; the callers in the models
check presence first, because Python raises `KeyError` there). -/
def del : PyDict K V → K → PyDict K V
  | [], _ => []
  | (k', v) :: d, k => if k' = k then d else (k', v) :: del d k

/-- `list(d)`. -/
def keys (d : PyDict K V) : List K := d.map Prod.fst

/-- `list(d.values())`. -/
def values (d : PyDict K V) : List V := d.map Prod.snd

/-- `k in d`. -/
def has (d : PyDict K V) (k : K) : Bool := (get? d k).isSome

/-- Every `dict` has distinct keys. -/
def WF (d : PyDict K V) : Prop := (keys d).Nodup

@[simp] theorem get?_nil (k : K) : get? ([] : PyDict K V) k = none := rfl
omit [DecidableEq K] in
@[simp] theorem keys_nil : keys ([] : PyDict K V) = [] := rfl
omit [DecidableEq K] in
@[simp] theorem keys_cons (p : K × V) (d : PyDict K V) : keys (p :: d) = p.1 :: keys d := rfl
omit [DecidableEq K] in
theorem WF_nil : WF ([] : PyDict K V) := List.nodup_nil

theorem get?_cons (k' : K) (v : V) (d : PyDict K V) (k : K) :
    get? ((k', v) :: d) k = if k' = k then some v else get? d k := rfl

theorem get?_eq_none {d : PyDict K V} {k : K} : get? d k = none ↔ k ∉ keys d := by
  induction d with
  | nil => simp
  | cons p d ih =>
    obtain ⟨k', v⟩ := p
    by_cases h : k' = k
    · simp [get?, h]
    · simp [get?, h, ih, Ne.symm h]

theorem get?_isSome {d : PyDict K V} {k : K} : (get? d k).isSome ↔ k ∈ keys d := by
  rw [← Decidable.not_iff_not, ← get?_eq_none]
  cases get? d k <;> simp

theorem has_iff {d : PyDict K V} {k : K} : has d k = true ↔ k ∈ keys d := get?_isSome

theorem get?_set (d : PyDict K V) (k j : K) (v : V) :
    get? (set d k v) j = if k = j then some v else get? d j := by
  induction d with
  | nil => simp [set, get?]
  | cons p d ih =>
    obtain ⟨k', v'⟩ := p
    by_cases h : k' = k
    · subst h
      by_cases h2 : k' = j <;> simp [set, get?, h2]
    · by_cases h2 : k' = j
      · subst h2
        simp [set, get?, h, Ne.symm h]
      · simp [set, get?, h, h2, ih]

@[simp] theorem get?_set_self (d : PyDict K V) (k : K) (v : V) : get? (set d k v) k = some v := by
  simp [get?_set]

theorem keys_set (d : PyDict K V) (k : K) (v : V) :
    keys (set d k v) = if k ∈ keys d then keys d else keys d ++ [k] := by
  induction d with
  | nil => simp [set]
  | cons p d ih =>
    obtain ⟨k', v'⟩ := p
    by_cases h : k' = k
    · simp [set, h]
    · simp only [set, h, if_false, keys_cons, ih, List.mem_cons, Ne.symm h, false_or]
      split <;> simp

theorem mem_keys_set {d : PyDict K V} {k j : K} {v : V} :
    j ∈ keys (set d k v) ↔ j = k ∨ j ∈ keys d := by
  rw [keys_set]
  split
  · constructor
    · exact Or.inr
    · rintro (rfl | h) <;> assumption
  · simp [or_comm]

theorem WF_set {d : PyDict K V} (h : WF d) (k : K) (v : V) : WF (set d k v) := by
  unfold WF at *
  rw [keys_set]
  split
  · exact h
  · rename_i hk
    rw [List.nodup_append]
    exact ⟨h, by simp, by rintro a ha b hb rfl; simp at hb; exact hk (hb ▸ ha)⟩

theorem keys_del (d : PyDict K V) (k : K) : keys (del d k) = (keys d).erase k := by
  induction d with
  | nil => simp [del]
  | cons p d ih =>
    obtain ⟨k', v'⟩ := p
    by_cases h : k' = k
    · simp [del, h]
    · simp [del, h, ih]

theorem WF_del {d : PyDict K V} (h : WF d) (k : K) : WF (del d k) := by
  unfold WF at *
  rw [keys_del]; exact h.erase k

theorem mem_keys_del {d : PyDict K V} (h : WF d) {k j : K} :
    j ∈ keys (del d k) ↔ j ≠ k ∧ j ∈ keys d := by
  rw [keys_del]; exact h.mem_erase_iff

theorem get?_del {d : PyDict K V} (h : WF d) (k j : K) :
    get? (del d k) j = if k = j then none else get? d j := by
  induction d with
  | nil => simp [del]
  | cons p d ih =>
    obtain ⟨k', v'⟩ := p
    have hd : WF d := (List.nodup_cons.1 h).2
    have hk : k' ∉ keys d := (List.nodup_cons.1 h).1
    by_cases h1 : k' = k
    · subst h1
      by_cases h2 : k' = j
      · subst h2; simp [del, get?_eq_none, hk]
      · simp [del, get?_cons, h2]
    · by_cases h2 : k' = j
      · subst h2; simp [del, h1, get?_cons, Ne.symm h1]
      · simp [del, h1, get?_cons, h2, ih hd]

theorem get?_mem {d : PyDict K V} {k : K} {v : V} (h : get? d k = some v) : (k, v) ∈ d := by
  induction d with
  | nil => simp at h
  | cons p d ih =>
    obtain ⟨k', v'⟩ := p
    by_cases hk : k' = k
    · simp [get?, hk] at h; simp [hk, h]
    · simp [get?, hk] at h; simp [ih h]

theorem mem_get? {d : PyDict K V} (hw : WF d) {k : K} {v : V} (h : (k, v) ∈ d) :
    get? d k = some v := by
  induction d with
  | nil => simp at h
  | cons p d ih =>
    obtain ⟨k', v'⟩ := p
    have hd : WF d := (List.nodup_cons.1 hw).2
    have hk : k' ∉ keys d := (List.nodup_cons.1 hw).1
    rcases List.mem_cons.1 h with h | h
    · cases h; simp [get?]
    · have : k' ≠ k := by
        rintro rfl
        exact hk (List.mem_map.2 ⟨(k', v), h, rfl⟩)
      simp [get?, this, ih hd h]

theorem mem_values {d : PyDict K V} (hw : WF d) {v : V} :
    v ∈ values d ↔ ∃ k, get? d k = some v := by
  simp only [values, List.mem_map, Prod.exists, exists_eq_right]
  exact ⟨fun ⟨k, h⟩ => ⟨k, mem_get? hw h⟩, fun ⟨k, h⟩ => ⟨k, get?_mem h⟩⟩

theorem del_of_not_mem {d : PyDict K V} {k : K} (h : k ∉ keys d) : del d k = d := by
  induction d with
  | nil => rfl
  | cons p d ih =>
    obtain ⟨k', v'⟩ := p
    simp at h
    simp [del, Ne.symm h.1, ih h.2]

/-- Two dictionaries with the same key order and the same lookups are the same. -/
theorem ext_of {d e : PyDict K V} (hd : WF d) (hk : keys d = keys e)
    (hg : ∀ k, get? d k = get? e k) : d = e := by
  induction d generalizing e with
  | nil => cases e with
    | nil => rfl
    | cons p e => simp at hk
  | cons p d ih =>
    cases e with
    | nil => simp at hk
    | cons q e =>
      obtain ⟨k, v⟩ := p
      obtain ⟨k2, v2⟩ := q
      simp at hk
      obtain ⟨rfl, hk⟩ := hk
      have hv := hg k
      simp [get?] at hv
      subst hv
      congr 1
      have hkd : k ∉ keys d := (List.nodup_cons.1 hd).1
      apply ih (List.nodup_cons.1 hd).2 hk
      intro j
      by_cases hj : k = j
      · subst hj
        rw [get?_eq_none.2 hkd, get?_eq_none.2 (hk ▸ hkd)]
      · have := hg j
        simpa [get?, hj] using this

end PyDict

namespace PySet
variable {α : Type} [DecidableEq α]

/-- `s.add(x)`. -/
def add (s : List α) (x : α) : List α := if x ∈ s then s else s ++ [x]

/-- `s.remove(x)` for a present element (Python raises `KeyError` otherwise; callers check). -/
def remove (s : List α) (x : α) : List α := s.filter (· ≠ x)

@[simp] theorem mem_add {s : List α} {x y : α} : y ∈ add s x ↔ y = x ∨ y ∈ s := by
  unfold add
  split
  · constructor
    · exact Or.inr
    · rintro (rfl | h) <;> assumption
  · simp [or_comm]

@[simp] theorem mem_remove {s : List α} {x y : α} : y ∈ remove s x ↔ y ≠ x ∧ y ∈ s := by
  simp [remove, and_comm]

theorem nodup_add {s : List α} (h : s.Nodup) (x : α) : (add s x).Nodup := by
  unfold add
  split
  · exact h
  · rename_i hx
    rw [List.nodup_append]
    exact ⟨h, by simp, by rintro a ha b hb rfl; simp at hb; exact hx (hb ▸ ha)⟩

theorem nodup_remove {s : List α} (h : s.Nodup) (x : α) : (remove s x).Nodup :=
  h.filter _

end PySet
end Aiok8s
