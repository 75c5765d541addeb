import Verif.Spec.Store
import Mathlib.Data.List.Nodup
import Mathlib.Data.List.Count
import Mathlib.Data.List.Perm.Basic
/-!
# Lemmas for the store (C17-C20)
-/
set_option linter.unusedSimpArgs false
set_option linter.unusedSectionVars false
namespace Aiok8s.Store
open Spec
variable {K O N V : Type} [DecidableEq K] [DecidableEq N] [DecidableEq V]

/-- `idx` holds exactly the pairs of `S`, without empty or repeating sets. -/
structure Ex (idx : Index V K) (S : V → K → Prop) : Prop where
  wf : idx.WF
  good : ∀ v s, idx.get? v = some s → s ≠ [] ∧ s.Nodup
  mem : ∀ v k, k ∈ (idx.get? v).getD [] ↔ S v k

theorem Ex.congr {idx : Index V K} {S T : V → K → Prop} (h : Ex idx S)
    (e : ∀ v k, S v k ↔ T v k) : Ex idx T :=
  ⟨h.wf, h.good, fun v k => (h.mem v k).trans (e v k)⟩

theorem ex_nil : Ex ([] : Index V K) (fun _ _ => False) :=
  ⟨PyDict.WF_nil, by simp, by simp⟩

theorem ex_addValues (key : K) (vs : List V) : ∀ {idx : Index V K} {S : V → K → Prop}, Ex idx S →
    Ex (addValues key idx vs) (fun v k => S v k ∨ (k = key ∧ v ∈ vs)) := by
  induction vs with
  | nil => intro idx S h; exact h.congr (by simp)
  | cons v vs ih =>
    intro idx S h
    rw [addValues]
    have h1 : Ex (idx.set v (PySet.add ((idx.get? v).getD []) key))
        (fun w k => S w k ∨ (k = key ∧ w = v)) := by
      refine ⟨PyDict.WF_set h.wf _ _, ?_, ?_⟩
      · intro w s hs
        rw [PyDict.get?_set] at hs
        split at hs
        · simp only [Option.some.injEq] at hs
          subst hs
          refine ⟨?_, PySet.nodup_add ?_ _⟩
          · intro h0
            have : key ∈ PySet.add ((idx.get? v).getD []) key := by simp
            rw [h0] at this; simp at this
          · cases hg : idx.get? v with
            | none => simp
            | some s => exact (h.good v s hg).2
        · exact h.good w s hs
      · intro w k
        rw [PyDict.get?_set]
        by_cases hw : v = w
        · subst hw
          simp [h.mem v k, or_comm]
        · simp [hw, Ne.symm hw, h.mem w k]
    refine (ih h1).congr ?_
    intro w k
    simp only [List.mem_cons]
    tauto

theorem ex_deleteValues (key : K) (vs : List V) : ∀ {idx : Index V K} {S : V → K → Prop},
    Ex idx S → (∀ v ∈ vs, S v key ∨ ∀ k, ¬ S v k) →
    (∀ v, 2 ≤ vs.count v → ∀ k, S v k → k = key) →
    (deleteValues key idx vs).2 = true ∧
    Ex (deleteValues key idx vs).1 (fun v k => S v k ∧ ¬ (k = key ∧ v ∈ vs)) := by
  induction vs with
  | nil => intro idx S h _ _; exact ⟨rfl, h.congr (by simp)⟩
  | cons v vs ih =>
    intro idx S h h1 h2
    rw [deleteValues]
    have hdup : ∀ w, 2 ≤ vs.count w → ∀ k, S w k → k = key := by
      intro w hw k
      apply h2 w
      rw [List.count_cons]; omega
    cases hg : idx.get? v with
    | none =>
      have hn : ∀ k, ¬ S v k := by
        intro k hk
        have := (h.mem v k).2 hk
        simp [hg] at this
      obtain ⟨a, b⟩ := ih h (fun w hw => h1 w (by simp [hw])) hdup
      refine ⟨a, b.congr ?_⟩
      intro w k
      by_cases hw : w = v
      · subst hw; simp [hn]
      · simp [hw]
    | some s =>
      obtain ⟨hs, hs2⟩ := h.good v s hg
      have hmem : ∀ k, k ∈ s ↔ S v k := by
        intro k; have := h.mem v k; simpa [hg] using this
      have hkey : key ∈ s := by
        rw [hmem]
        rcases h1 v (by simp) with h3 | h3
        · exact h3
        · exfalso
          cases s with
          | nil => exact hs rfl
          | cons a s => exact h3 a ((hmem a).1 (by simp))
      simp only [hs, hkey, if_true, if_false]
      have h3 : Ex (if PySet.remove s key = [] then idx.del v else idx.set v (PySet.remove s key))
          (fun w k => S w k ∧ ¬ (k = key ∧ w = v)) := by
        split
        · rename_i he
          refine ⟨PyDict.WF_del h.wf _, ?_, ?_⟩
          · intro w t ht
            rw [PyDict.get?_del h.wf] at ht
            split at ht
            · simp at ht
            · exact h.good w t ht
          · intro w k
            rw [PyDict.get?_del h.wf]
            by_cases hw : v = w
            · subst hw
              have : k ∉ PySet.remove s key := by simp [he]
              simp [hmem] at this
              simp only [if_true, Option.getD_none, List.not_mem_nil, false_iff]
              rintro ⟨hk, hne⟩
              exact hne ⟨by_contra fun hne => this hne hk, by trivial⟩
            · simp [hw, Ne.symm hw, h.mem w k]
        · rename_i he
          refine ⟨PyDict.WF_set h.wf _ _, ?_, ?_⟩
          · intro w t ht
            rw [PyDict.get?_set] at ht
            split at ht
            · simp only [Option.some.injEq] at ht
              subst ht
              exact ⟨he, PySet.nodup_remove hs2 _⟩
            · exact h.good w t ht
          · intro w k
            rw [PyDict.get?_set]
            by_cases hw : v = w
            · subst hw
              simp [hmem, and_comm]
            · simp [hw, Ne.symm hw, h.mem w k]
      obtain ⟨a, b⟩ := ih h3 (by
        intro w hw
        by_cases hwv : w = v
        · subst hwv
          right
          intro k ⟨hk, hne⟩
          apply hne
          refine ⟨h2 w ?_ k hk, rfl⟩
          have := List.count_pos_iff.2 hw
          simp only [List.count_cons_self]; omega
        · rcases h1 w (by simp [hw]) with h4 | h4
          · left; exact ⟨h4, by simp [hwv]⟩
          · right; intro k hk; exact h4 k hk.1) (by
        intro w hw k hk
        exact hdup w hw k hk.1)
      refine ⟨a, b.congr ?_⟩
      intro w k
      simp only [List.mem_cons]
      tauto

/-- A value whose set holds others but not `key` makes `set_.remove(key)` raise. -/
theorem deleteValues_missing (key : K) (v : V) (k0 : K) (vs : List V) :
    ∀ {idx : Index V K} {S : V → K → Prop}, Ex idx S → v ∈ vs → S v k0 → ¬ S v key →
    (deleteValues key idx vs).2 = false := by
  induction vs with
  | nil => intro idx S _ h; simp at h
  | cons w vs ih =>
    intro idx S h hv h0 hk
    rw [deleteValues]
    by_cases hw : w = v
    · subst hw
      cases hg : idx.get? w with
      | none => have := (h.mem w k0).2 h0; simp [hg] at this
      | some s =>
        have hmem : ∀ k, k ∈ s ↔ S w k := by
          intro k; have := h.mem w k; simpa [hg] using this
        have h1 : key ∉ s := by rw [hmem]; exact hk
        have h2 : s ≠ [] := (h.good w s hg).1
        simp [h1, h2]
    · have hv' : v ∈ vs := by simpa [Ne.symm hw] using hv
      cases hg : idx.get? w with
      | none => exact ih h hv' h0 hk
      | some s =>
        obtain ⟨hs, hs2⟩ := h.good w s hg
        simp only [hs, if_false]
        split
        · have hmem : ∀ k, k ∈ s ↔ S w k := by
            intro k; have := h.mem w k; simpa [hg] using this
          have h3 : Ex (if PySet.remove s key = [] then idx.del w
              else idx.set w (PySet.remove s key))
              (fun u k => S u k ∧ ¬ (k = key ∧ u = w)) := by
            have := (ex_deleteValues key [w] h (by
              intro u hu
              simp at hu; subst hu
              left
              rw [← hmem]; assumption) (by
              intro u hu
              have : List.count u [w] ≤ 1 := List.count_le_length
              omega)).2
            simp only [deleteValues, hg, hs, if_false, ‹key ∈ s›, if_true, List.mem_singleton]
              at this
            exact this
          refine ih h3 hv' ⟨h0, ?_⟩ ?_
          · rintro ⟨-, rfl⟩; exact hw rfl
          · intro h4; exact hk h4.1
        · rfl

theorem deleteValues_dup (key : K) (v : V) (k0 : K) (hk0 : k0 ≠ key) (vs : List V) :
    ∀ {idx : Index V K} {S : V → K → Prop}, Ex idx S → 2 ≤ vs.count v → S v k0 →
    (deleteValues key idx vs).2 = false := by
  induction vs with
  | nil => intro idx S _ h; simp at h
  | cons w vs ih =>
    intro idx S h hv h0
    rw [deleteValues]
    cases hg : idx.get? w with
    | none =>
      have hw : w ≠ v := by
        rintro rfl
        have := (h.mem w k0).2 h0; simp [hg] at this
      refine ih h ?_ h0
      simpa [List.count_cons, hw] using hv
    | some s =>
      obtain ⟨hs, hs2⟩ := h.good w s hg
      simp only [hs, if_false]
      split
      · have hmem : ∀ k, k ∈ s ↔ S w k := by
          intro k; have := h.mem w k; simpa [hg] using this
        have h3 : Ex (if PySet.remove s key = [] then idx.del w
            else idx.set w (PySet.remove s key))
            (fun u k => S u k ∧ ¬ (k = key ∧ u = w)) := by
          have := (ex_deleteValues key [w] h (by
            intro u hu
            simp at hu; subst hu
            left
            rw [← hmem]; assumption) (by
            intro u hu
            have : List.count u [w] ≤ 1 := List.count_le_length
            omega)).2
          simp only [deleteValues, hg, hs, if_false, ‹key ∈ s›, if_true, List.mem_singleton]
            at this
          exact this
        by_cases hw : w = v
        · subst hw
          refine deleteValues_missing key w k0 vs h3 ?_ ⟨h0, ?_⟩ ?_
          · simp only [List.count_cons_self] at hv
            exact List.count_pos_iff.1 (by omega)
          · rintro ⟨rfl, -⟩; exact hk0 rfl
          · intro h4; exact h4.2 ⟨rfl, rfl⟩
        · refine ih h3 ?_ ⟨h0, ?_⟩
          · simpa [List.count_cons, hw] using hv
          · rintro ⟨rfl, -⟩; exact hk0 rfl
      · rfl

/-! ## The loops over the index functions -/

/-- The index called `n`, or an empty one. -/
def at' (ix : PyDict N (Index V K)) (n : N) : Index V K := (ix.get? n).getD []

theorem at'_set (ix : PyDict N (Index V K)) (n m : N) (i : Index V K) :
    at' (ix.set n i) m = if n = m then i else at' ix m := by
  simp only [at', PyDict.get?_set]
  split <;> rfl

theorem addToIndices_spec (obj : O) (key : K) : ∀ (fs : PyDict N (IndexFunc O V))
    (ix : PyDict N (Index V K)) (S : N → V → K → Prop), fs.WF → Total fs →
    (∀ n ∈ fs.keys, Ex (at' ix n) (S n)) →
    (addToIndices obj key fs ix).2 = none ∧
    (∀ n, n ∉ fs.keys → (addToIndices obj key fs ix).1.get? n = ix.get? n) ∧
    (∀ n f, (n, f) ∈ fs → Ex (at' (addToIndices obj key fs ix).1 n)
      (fun v k => S n v k ∨ (k = key ∧ Yields f obj v))) := by
  intro fs
  induction fs with
  | nil => intro ix S _ _ _; simp [addToIndices]
  | cons p fs ih =>
    intro ix S hw ht hE
    obtain ⟨n, f⟩ := p
    obtain ⟨hn, hw'⟩ := List.nodup_cons.1 hw
    obtain ⟨vs, hvs⟩ := ht (n, f) (by simp) obj
    simp only at hvs hn
    have hy : ∀ v, Yields f obj v ↔ v ∈ vs := by
      intro v; simp [Yields, hvs]
    simp only [addToIndices, hvs]
    have hE1 : Ex (addValues key ((ix.get? n).getD []) vs)
        (fun v k => S n v k ∨ (k = key ∧ v ∈ vs)) := ex_addValues key vs (hE n (by simp))
    obtain ⟨a, b, c⟩ := ih (ix.set n (addValues key ((ix.get? n).getD []) vs)) S hw'
      (fun q hq => ht q (by simp [hq])) (by
        intro m hm
        have : n ≠ m := fun h => hn (h ▸ hm)
        rw [at'_set]; simp only [this, if_false]
        exact hE m (by simp [hm]))
    refine ⟨a, ?_, ?_⟩
    · intro m hm
      simp only [PyDict.keys_cons, List.mem_cons, not_or] at hm
      rw [b m hm.2, PyDict.get?_set]
      simp [Ne.symm hm.1]
    · intro m g hg
      rcases List.mem_cons.1 hg with h | h
      · cases h
        have : at' (addToIndices obj key fs (ix.set n (addValues key ((ix.get? n).getD []) vs))).1 n
            = addValues key ((ix.get? n).getD []) vs := by
          simp [at', b n hn]
        rw [this]
        exact hE1.congr (by intro v k; rw [hy])
      · exact c m g h

/-- What `_delete_from_indices` needs to get through. -/
def CanDelete (key : K) (S : V → K → Prop) (vs : List V) : Prop :=
  ∀ v, 2 ≤ vs.count v → ∀ k, S v k → k = key

theorem deleteFromIndices_spec (obj : O) (key : K) : ∀ (fs : PyDict N (IndexFunc O V))
    (ix : PyDict N (Index V K)) (S : N → V → K → Prop), fs.WF → Total fs →
    (∀ n ∈ fs.keys, Ex (at' ix n) (S n)) →
    (∀ n f, (n, f) ∈ fs → ∀ v, Yields f obj v → S n v key) →
    (∀ n f vs, (n, f) ∈ fs → f obj = some vs → CanDelete key (S n) vs) →
    (deleteFromIndices obj key fs ix).2 = none ∧
    (∀ n, n ∉ fs.keys → (deleteFromIndices obj key fs ix).1.get? n = ix.get? n) ∧
    (∀ n f, (n, f) ∈ fs → Ex (at' (deleteFromIndices obj key fs ix).1 n)
      (fun v k => S n v k ∧ ¬ (k = key ∧ Yields f obj v))) := by
  intro fs
  induction fs with
  | nil => intro ix S _ _ _ _ _; simp [deleteFromIndices]
  | cons p fs ih =>
    intro ix S hw ht hE hin hcan
    obtain ⟨n, f⟩ := p
    obtain ⟨hn, hw'⟩ := List.nodup_cons.1 hw
    obtain ⟨vs, hvs⟩ := ht (n, f) (by simp) obj
    simp only at hvs hn
    have hy : ∀ v, Yields f obj v ↔ v ∈ vs := by
      intro v; simp [Yields, hvs]
    simp only [deleteFromIndices, hvs]
    cases hg : ix.get? n with
    | none =>
      have hno : ∀ v k, ¬ S n v k := by
        intro v k hk
        have := ((hE n (by simp)).mem v k).2 hk
        simp [at', hg] at this
      obtain ⟨a, b, c⟩ := ih ix S hw' (fun q hq => ht q (by simp [hq]))
        (fun m hm => hE m (by simp [hm])) (fun m g h => hin m g (by simp [h]))
        (fun m g ws h => hcan m g ws (by simp [h]))
      refine ⟨a, ?_, ?_⟩
      · intro m hm
        simp only [PyDict.keys_cons, List.mem_cons, not_or] at hm
        exact b m hm.2
      · intro m g hm
        rcases List.mem_cons.1 hm with h | h
        · cases h
          have : at' (deleteFromIndices obj key fs ix).1 n = at' ix n := by simp [at', b n hn]
          rw [this]
          refine (hE n (by simp)).congr ?_
          intro v k
          simp [hno v k]
        · exact c m g h
    | some idx =>
      have hidx : at' ix n = idx := by simp [at', hg]
      have hEn := hE n (by simp)
      rw [hidx] at hEn
      obtain ⟨d1, d2⟩ := ex_deleteValues key vs hEn
        (fun v hv => Or.inl (hin n f (by simp) v ((hy v).2 hv)))
        (hcan n f vs (by simp) hvs)
      simp only [d1, if_true]
      obtain ⟨a, b, c⟩ := ih (ix.set n (deleteValues key idx vs).1) S hw'
        (fun q hq => ht q (by simp [hq])) (by
          intro m hm
          have : n ≠ m := fun h => hn (h ▸ hm)
          rw [at'_set]; simp only [this, if_false]
          exact hE m (by simp [hm])) (fun m g h => hin m g (by simp [h]))
        (fun m g ws h => hcan m g ws (by simp [h]))
      refine ⟨a, ?_, ?_⟩
      · intro m hm
        simp only [PyDict.keys_cons, List.mem_cons, not_or] at hm
        rw [b m hm.2, PyDict.get?_set]
        simp [Ne.symm hm.1]
      · intro m g hm
        rcases List.mem_cons.1 hm with h | h
        · cases h
          have : at' (deleteFromIndices obj key fs (ix.set n (deleteValues key idx vs).1)).1 n
              = (deleteValues key idx vs).1 := by
            simp [at', b n hn]
          rw [this]
          exact d2.congr (by intro v k; rw [hy])
        · exact c m g h

/-- If some index function repeats a value that another key shares, `_delete_from_indices`
raises. -/
theorem deleteFromIndices_raises (obj : O) (key : K) (n0 : N) (f0 : IndexFunc O V) (vs0 : List V)
    (v0 : V) (k0 : K) (hk0 : k0 ≠ key) : ∀ (fs : PyDict N (IndexFunc O V))
    (ix : PyDict N (Index V K)) (S : N → V → K → Prop), fs.WF → Total fs →
    (∀ n ∈ fs.keys, Ex (at' ix n) (S n)) →
    (n0, f0) ∈ fs → f0 obj = some vs0 → 2 ≤ vs0.count v0 → S n0 v0 k0 →
    (deleteFromIndices obj key fs ix).2 = some .keyError := by
  intro fs
  induction fs with
  | nil => intro ix S _ _ _ h; simp at h
  | cons p fs ih =>
    intro ix S hw ht hE hin h1 h2 h3
    obtain ⟨n, f⟩ := p
    obtain ⟨hn, hw'⟩ := List.nodup_cons.1 hw
    obtain ⟨vs, hvs⟩ := ht (n, f) (by simp) obj
    simp only at hvs hn
    simp only [deleteFromIndices, hvs]
    have hEn := hE n (by simp)
    by_cases hnn : n0 = n
    · subst hnn
      have hff : f0 = f := by
        rcases List.mem_cons.1 hin with h | h
        · cases h; rfl
        · exact absurd (List.mem_map.2 ⟨(n0, f0), h, rfl⟩) hn
      subst hff
      rw [h1] at hvs; cases hvs
      cases hg : ix.get? n0 with
      | none =>
        have := (hEn.mem v0 k0).2 h3
        simp [at', hg] at this
      | some idx =>
        have hidx : at' ix n0 = idx := by simp [at', hg]
        rw [hidx] at hEn
        simp [deleteValues_dup key v0 k0 hk0 vs0 hEn h2 h3]
    · have hin' : (n0, f0) ∈ fs := by
        rcases List.mem_cons.1 hin with h | h
        · cases h; exact absurd rfl hnn
        · exact h
      cases hg : ix.get? n with
      | none =>
        exact ih ix S hw' (fun q hq => ht q (by simp [hq]))
          (fun m hm => hE m (by simp [hm])) hin' h1 h2 h3
      | some idx =>
        simp only
        split
        · refine ih _ S hw' (fun q hq => ht q (by simp [hq])) ?_ hin' h1 h2 h3
          intro m hm
          have : n ≠ m := fun h => hn (h ▸ hm)
          rw [at'_set]; simp only [this, if_false]
          exact hE m (by simp [hm])
        · rfl

end Aiok8s.Store
namespace Aiok8s.Store
open Spec
variable {K O N V : Type} [DecidableEq K] [DecidableEq N] [DecidableEq V]

/-! ## Invariant and simulation -/

/-- Items and book agree. -/
structure Sim (b : Book K O) (items : PyDict K O) : Prop where
  wf : items.WF
  order : b.order = items.keys
  val : ∀ k, b.val k = items.get? k

theorem Sim.empty : Sim (Book.empty : Book K O) [] := ⟨PyDict.WF_nil, rfl, fun _ => rfl⟩

theorem Sim.put {b : Book K O} {d : PyDict K O} (h : Sim b d) (k : K) (o : O) :
    Sim (b.put k o) (d.set k o) := by
  refine ⟨PyDict.WF_set h.wf _ _, ?_, ?_⟩
  · simp only [Book.put, PyDict.keys_set, h.order]
  · intro j
    simp only [Book.put, PyDict.get?_set, h.val, eq_comm]

theorem Sim.drop {b : Book K O} {d : PyDict K O} (h : Sim b d) (k : K) :
    Sim (b.drop k) (d.del k) := by
  refine ⟨PyDict.WF_del h.wf _, ?_, ?_⟩
  · simp only [Book.drop, PyDict.keys_del, h.order]
    rw [List.Nodup.erase_eq_filter h.wf]
    congr 1
    funext j
    by_cases hj : j = k <;> simp [hj]
  · intro j
    simp only [Book.drop, PyDict.get?_del h.wf, h.val, eq_comm]

/-- The index part of a state is exact for the given contents. -/
structure Exact (indexers : PyDict N (IndexFunc O V)) (ix : PyDict N (Index V K))
    (val : K → Option O) : Prop where
  out : ∀ n, n ∉ indexers.keys → ix.get? n = none
  ex : ∀ n f, (n, f) ∈ indexers →
    Ex (at' ix n) (fun v k => ∃ o, val k = some o ∧ Yields f o v)

private theorem uniq {fs : PyDict N (IndexFunc O V)} (hw : fs.WF) {n : N} {f g : IndexFunc O V}
    (h1 : (n, f) ∈ fs) (h2 : (n, g) ∈ fs) : f = g := by
  have := PyDict.mem_get? hw h1
  rw [PyDict.mem_get? hw h2] at this
  exact (Option.some.inj this).symm

private theorem mem_of_keys {fs : PyDict N (IndexFunc O V)} {n : N} (h : n ∈ fs.keys) :
    ∃ f, (n, f) ∈ fs := by
  obtain ⟨p, hp, rfl⟩ := List.mem_map.1 h
  exact ⟨p.2, hp⟩

theorem exact_add {fs : PyDict N (IndexFunc O V)} (hw : fs.WF) (ht : Total fs)
    {ix : PyDict N (Index V K)} {val : K → Option O} (hE : Exact fs ix val) (key : K) (obj : O)
    (hnew : val key = none) :
    (addToIndices obj key fs ix).2 = none ∧
    Exact fs (addToIndices obj key fs ix).1 (fun j => if j = key then some obj else val j) := by
  obtain ⟨a, b, c⟩ := addToIndices_spec obj key fs ix
    (fun n v k => ∃ f o, (n, f) ∈ fs ∧ val k = some o ∧ Yields f o v) hw ht (by
      intro n hn
      obtain ⟨f, hf⟩ := mem_of_keys hn
      refine (hE.ex n f hf).congr ?_
      intro v k
      constructor
      · rintro ⟨o, h1, h2⟩; exact ⟨f, o, hf, h1, h2⟩
      · rintro ⟨g, o, hg, h1, h2⟩; exact ⟨o, h1, uniq hw hg hf ▸ h2⟩)
  refine ⟨a, fun n hn => by rw [b n hn, hE.out n hn], ?_⟩
  intro n f hf
  refine (c n f hf).congr ?_
  intro v k
  by_cases hk : k = key
  · subst hk; simp [hnew]
  · simp only [hk, false_and, or_false, if_false]
    constructor
    · rintro ⟨g, o, hg, h1, h2⟩; exact ⟨o, h1, uniq hw hg hf ▸ h2⟩
    · rintro ⟨o, h1, h2⟩; exact ⟨f, o, hf, h1, h2⟩

theorem exact_delete {fs : PyDict N (IndexFunc O V)} (hw : fs.WF) (ht : Total fs)
    {ix : PyDict N (Index V K)} {b : Book K O} (hE : Exact fs ix b.val) (key : K) (obj : O)
    (hold : b.val key = some obj) (hc : ¬ b.Clash fs key) :
    (deleteFromIndices obj key fs ix).2 = none ∧
    Exact fs (deleteFromIndices obj key fs ix).1 (fun j => if j = key then none else b.val j) := by
  obtain ⟨a, b', c⟩ := deleteFromIndices_spec obj key fs ix
    (fun n v k => ∃ f o, (n, f) ∈ fs ∧ b.val k = some o ∧ Yields f o v) hw ht (by
      intro n hn
      obtain ⟨f, hf⟩ := mem_of_keys hn
      refine (hE.ex n f hf).congr ?_
      intro v k
      constructor
      · rintro ⟨o, h1, h2⟩; exact ⟨f, o, hf, h1, h2⟩
      · rintro ⟨g, o, hg, h1, h2⟩; exact ⟨o, h1, uniq hw hg hf ▸ h2⟩) (by
      intro n f hf v hv
      exact ⟨f, obj, hf, hold, hv⟩) (by
      intro n f vs hf hvs v hv k hk
      obtain ⟨g, o', hg, h1, h2⟩ := hk
      by_contra hne
      exact hc ⟨obj, n, f, vs, v, k, o', hold, hf, hvs, hv, hne, h1, uniq hw hg hf ▸ h2⟩)
  refine ⟨a, fun n hn => by rw [b' n hn, hE.out n hn], ?_⟩
  intro n f hf
  refine (c n f hf).congr ?_
  intro v k
  by_cases hk : k = key
  · subst hk
    simp only [if_true, true_and]
    constructor
    · rintro ⟨⟨g, o, hg, h1, h2⟩, h3⟩
      rw [hold] at h1; cases h1
      exact absurd (uniq hw hg hf ▸ h2) h3
    · rintro ⟨o, h1, h2⟩; simp at h1
  · simp only [hk, false_and, if_false, not_false_eq_true, and_true]
    constructor
    · rintro ⟨g, o, hg, h1, h2⟩; exact ⟨o, h1, uniq hw hg hf ▸ h2⟩
    · rintro ⟨o, h1, h2⟩; exact ⟨f, o, hf, h1, h2⟩

theorem delete_raises {fs : PyDict N (IndexFunc O V)} (hw : fs.WF) (ht : Total fs)
    {ix : PyDict N (Index V K)} {b : Book K O} (hE : Exact fs ix b.val) (key : K) (obj : O)
    (hold : b.val key = some obj) (hc : b.Clash fs key) :
    (deleteFromIndices obj key fs ix).2 = some .keyError := by
  obtain ⟨o, n, f, vs, v, j, o', h1, h2, h3, h4, h5, h6, h7⟩ := hc
  rw [hold] at h1; cases h1
  exact deleteFromIndices_raises obj key n f vs v j h5 fs ix
    (fun n v k => ∃ f o, (n, f) ∈ fs ∧ b.val k = some o ∧ Yields f o v) hw ht (by
      intro n hn
      obtain ⟨f, hf⟩ := mem_of_keys hn
      refine (hE.ex n f hf).congr ?_
      intro v k
      constructor
      · rintro ⟨o, h1, h2⟩; exact ⟨f, o, hf, h1, h2⟩
      · rintro ⟨g, o, hg, h1, h2⟩; exact ⟨o, h1, uniq hw hg hf ▸ h2⟩) h2 h3 h4
    ⟨f, o', h2, h6, h7⟩

/-- The invariant of a store whose contents are `b`. -/
structure Inv (b : Book K O) (s : State K O N V) : Prop where
  sim : Sim b s.items
  wfx : s.indexers.WF
  total : Total s.indexers
  exact : Exact s.indexers s.indices b.val

theorem inv_init {fs : PyDict N (IndexFunc O V)} (hw : fs.WF) (ht : Total fs) :
    Inv (Book.empty : Book K O) (init fs) := by
  refine ⟨Sim.empty, hw, ht, ⟨fun _ _ => rfl, ?_⟩⟩
  intro n f _
  exact ex_nil.congr (by simp [Book.empty])

theorem inv_put {b : Book K O} {s : State K O N V} (h : Inv b s) (key : K) (obj : O)
    (hc : ¬ b.Clash s.indexers key) :
    (put s key obj).2 = none ∧ Inv (b.put key obj) (put s key obj).1 := by
  have hval := h.sim.val key
  simp only [put]
  cases hg : s.items.get? key with
  | none =>
    rw [hg] at hval
    obtain ⟨a, c⟩ := exact_add h.wfx h.total h.exact key obj hval
    exact ⟨a, h.sim.put key obj, h.wfx, h.total, c⟩
  | some o =>
    rw [hg] at hval
    obtain ⟨a, c⟩ := exact_delete h.wfx h.total h.exact key o hval hc
    simp only [updateIndices]
    cases hd : deleteFromIndices o key s.indexers s.indices with
    | mk ix e =>
      rw [hd] at a c
      simp only at a c
      subst a
      obtain ⟨a, d⟩ := exact_add h.wfx h.total c key obj (by simp)
      refine ⟨a, h.sim.put key obj, h.wfx, h.total, ?_⟩
      convert d using 2
      rename_i j
      by_cases hj : j = key <;> simp [hj, Book.put]

theorem put_raises {b : Book K O} {s : State K O N V} (h : Inv b s) (key : K) (obj : O)
    (hc : b.Clash s.indexers key) : (put s key obj).2 = some .keyError := by
  obtain ⟨o, ho⟩ : ∃ o, b.val key = some o := by
    obtain ⟨o, n, f, vs, v, j, o', h1, -⟩ := hc
    exact ⟨o, h1⟩
  have hr := delete_raises h.wfx h.total h.exact key o ho hc
  rw [h.sim.val] at ho
  simp only [put, ho, updateIndices]
  cases hd : deleteFromIndices o key s.indexers s.indices with
  | mk ix e =>
    rw [hd] at hr
    simp only at hr
    subst hr
    rfl

theorem inv_del {b : Book K O} {s : State K O N V} (h : Inv b s) (key : K)
    (hc : ¬ b.Clash s.indexers key) :
    (delete s key).2 = none ∧ Inv (b.drop key) (delete s key).1 := by
  have hval := h.sim.val key
  simp only [delete]
  cases hg : s.items.get? key with
  | none =>
    rw [hg] at hval
    have hk : key ∉ s.items.keys := PyDict.get?_eq_none.1 hg
    refine ⟨rfl, ?_, h.wfx, h.total, ?_⟩
    · have := h.sim.drop key
      rwa [PyDict.del_of_not_mem hk] at this
    · have : (b.drop key).val = b.val := by
        funext j
        by_cases hj : j = key
        · subst hj; simp [Book.drop, hval]
        · simp [Book.drop, hj]
      rw [this]; exact h.exact
  | some o =>
    rw [hg] at hval
    obtain ⟨a, c⟩ := exact_delete h.wfx h.total h.exact key o hval hc
    cases hd : deleteFromIndices o key s.indexers s.indices with
    | mk ix e =>
      rw [hd] at a c
      simp only at a c
      subst a
      simp only [hd]
      exact ⟨trivial, h.sim.drop key, h.wfx, h.total, c⟩

theorem del_raises {b : Book K O} {s : State K O N V} (h : Inv b s) (key : K)
    (hc : b.Clash s.indexers key) : (delete s key).2 = some .keyError := by
  obtain ⟨o, ho⟩ : ∃ o, b.val key = some o := by
    obtain ⟨o, n, f, vs, v, j, o', h1, -⟩ := hc
    exact ⟨o, h1⟩
  have hr := delete_raises h.wfx h.total h.exact key o ho hc
  rw [h.sim.val] at ho
  simp only [delete, ho]
  cases hd : deleteFromIndices o key s.indexers s.indices with
  | mk ix e =>
    rw [hd] at hr
    simp only at hr
    subst hr
    rfl

theorem exact_indexAll {fs : PyDict N (IndexFunc O V)} (hw : fs.WF) (ht : Total fs)
    (items : PyDict K O) : ∀ {ix : PyDict N (Index V K)} {val : K → Option O},
    items.WF → Exact fs ix val → (∀ k ∈ items.keys, val k = none) →
    (indexAll fs items ix).2 = none ∧
    Exact fs (indexAll fs items ix).1
      (fun j => match items.get? j with | some o => some o | none => val j) := by
  induction items with
  | nil => intro ix val _ hE _; exact ⟨rfl, hE⟩
  | cons p rest ih =>
    intro ix val hwi hE hno
    obtain ⟨k, o⟩ := p
    obtain ⟨hk, hwr⟩ := List.nodup_cons.1 hwi
    simp only at hk
    obtain ⟨a, c⟩ := exact_add hw ht hE k o (hno k (by simp))
    simp only [indexAll]
    cases hd : addToIndices o k fs ix with
    | mk ix' e =>
      rw [hd] at a c
      simp only at a c
      subst a
      obtain ⟨a2, c2⟩ := ih hwr c (by
        intro j hj
        have : j ≠ k := fun h => hk (h ▸ hj)
        simp only [this, if_false]
        exact hno j (by simp [hj]))
      refine ⟨a2, ?_⟩
      simp only
      convert c2 using 2
      rename_i j
      by_cases hj : k = j
      · subst hj
        have : PyDict.get? rest k = none := PyDict.get?_eq_none.2 hk
        simp [PyDict.get?_cons, this]
      · simp only [PyDict.get?_cons, hj, if_false, Ne.symm hj]

theorem inv_replace {b c : Book K O} {s : State K O N V} (h : Inv b s) {items : PyDict K O}
    (hc : Sim c items) :
    (replaceItems s items).2 = none ∧ Inv c (replaceItems s items).1 := by
  obtain ⟨a, e⟩ := exact_indexAll (K := K) h.wfx h.total items (ix := []) (val := fun _ => none)
    hc.wf ⟨fun _ _ => rfl, fun n f _ => ex_nil.congr (by simp)⟩ (fun _ _ => rfl)
  refine ⟨a, hc, h.wfx, h.total, ?_⟩
  simp only [replaceItems]
  convert e using 2
  rename_i j
  rw [hc.val j]
  cases items.get? j <;> rfl

theorem buildItems_spec (key : O → Option K) (os : List O) : ∀ (b : Book K O) (d : PyDict K O),
    Sim b d →
    (os.all (fun o => (key o).isSome) = true → ∃ items, buildItems key os d = some items ∧
      Sim (os.foldl (fun b o => match key o with | some k => b.put k o | none => b) b) items) ∧
    (os.all (fun o => (key o).isSome) = false → buildItems key os d = none) := by
  induction os with
  | nil => intro b d h; exact ⟨fun _ => ⟨d, rfl, h⟩, by simp⟩
  | cons o os ih =>
    intro b d h
    simp only [buildItems, List.all_cons, List.foldl_cons]
    cases hk : key o with
    | none => simp
    | some k =>
      obtain ⟨h1, h2⟩ := ih (b.put k o) (d.set k o) (h.put k o)
      simp only [Option.isSome_some, Bool.true_and]
      exact ⟨h1, h2⟩

theorem addIndexers_indexers (s : State K O N V) (new : PyDict N (IndexFunc O V)) :
    (addIndexers s new).1 = s := by
  simp only [addIndexers]
  split
  · rfl
  · split
    · rfl
    · rename_i h1 h2
      simp only [ne_eq, not_not] at h2
      have hsub : ∀ (l acc : List N), l.foldl PySet.add acc = [] → l = [] ∧ acc = [] := by
        intro l
        induction l with
        | nil => intro acc h; exact ⟨rfl, h⟩
        | cons x l ih =>
          intro acc h
          have := (ih _ h).2
          have hx : x ∈ PySet.add acc x := by simp
          rw [this] at hx; simp at hx
      obtain ⟨ha, hb⟩ := hsub _ _ h2
      have : new = [] := by
        cases new with
        | nil => rfl
        | cons p new => simp [PyDict.keys] at ha
      subst this
      cases s; rfl

theorem put_indexers (s : State K O N V) (k : K) (o : O) : (put s k o).1.indexers = s.indexers := rfl

theorem delete_indexers (s : State K O N V) (k : K) : (delete s k).1.indexers = s.indexers := by
  simp only [delete]
  split
  · rfl
  · split <;> rfl

theorem ret_fst (r : State K O N V × Option Exc) : (ret r).1 = r.1 := by
  obtain ⟨s, e⟩ := r
  cases e <;> rfl

theorem step_indexers (key : O → Option K) (s : State K O N V) (o : Op K O N V) :
    (step key s o).1.indexers = s.indexers := by
  cases o <;> simp only [step] <;> (try split) <;>
    simp only [ret_fst, put_indexers, delete_indexers, addIndexers_indexers, replaceItems]

/-- The condition of `Clean` for one call. -/
def Ok (key : O → Option K) (fs : PyDict N (IndexFunc O V)) (b : Book K O) :
    Op K O N V → Prop
  | .add x | .update x | .delete x => ∀ k, key x = some k → ¬ b.Clash fs k
  | _ => True

theorem clean_cons (key : O → Option K) (fs : PyDict N (IndexFunc O V)) (b : Book K O)
    (o : Op K O N V) (os : List (Op K O N V)) :
    Clean key fs b (o :: os) ↔ Ok key fs b o ∧ Clean key fs (b.step key o) os := by
  cases o <;> rfl

theorem inv_step {key : O → Option K} {b : Book K O} {s : State K O N V} (h : Inv b s)
    (o : Op K O N V) (hc : Ok key s.indexers b o) :
    Inv (b.step key o) (step key s o).1 ∧
    ∀ a, b.answer key o = some a → (step key s o).2 = a := by
  have hput : ∀ x, (∀ k, key x = some k → ¬ b.Clash s.indexers k) →
      Inv (match key x with | some k => b.put k x | none => b)
        (match key x with
          | none => (s, Out.raised Exc.storeKeyError)
          | some k => ret (put s k x) : State K O N V × Out K O V).1 ∧
      ∀ a, (if (key x).isSome then some .ok else some (.raised .storeKeyError)) = some a →
      (match key x with
          | none => (s, Out.raised Exc.storeKeyError)
          | some k => ret (put s k x) : State K O N V × Out K O V).2 = a := by
    intro x hx
    cases hk : key x with
    | none => exact ⟨h, by simp⟩
    | some k =>
      obtain ⟨a, c⟩ := inv_put h k x (hx k hk)
      simp only
      cases hp : put s k x with
      | mk s' e =>
        rw [hp] at a c
        simp only at a
        subst a
        exact ⟨c, by simp [ret]⟩
  cases o with
  | add x => exact hput x hc
  | update x => exact hput x hc
  | delete x =>
    simp only [Book.step, step, Book.answer]
    cases hk : key x with
    | none => exact ⟨h, by simp⟩
    | some k =>
      obtain ⟨a, c⟩ := inv_del h k (hc k hk)
      simp only
      cases hp : delete s k with
      | mk s' e =>
        rw [hp] at a c
        simp only at a
        subst a
        exact ⟨c, by simp [ret]⟩
  | replace os =>
    obtain ⟨h1, h2⟩ := buildItems_spec key os Book.empty [] Sim.empty
    simp only [Book.step, step, Book.answer]
    cases ha : os.all (fun o => (key o).isSome) with
    | false =>
      rw [h2 ha]
      exact ⟨h, by simp⟩
    | true =>
      obtain ⟨items, h3, h4⟩ := h1 ha
      rw [h3]
      obtain ⟨a, c⟩ := inv_replace h h4
      simp only
      cases hp : replaceItems s items with
      | mk s' e =>
        rw [hp] at a c
        simp only at a
        subst a
        exact ⟨c, by simp [ret]⟩
  | list =>
    refine ⟨h, ?_⟩
    intro a ha
    simp only [Book.answer, Option.some.injEq] at ha
    subst ha
    simp only [step, Out.objs.injEq, Book.objects, h.sim.order]
    have := h.sim.wf
    have hv : b.val = s.items.get? := funext h.sim.val
    rw [hv]
    clear hc h hput hv
    generalize s.items = d at this
    have key : ∀ d e : PyDict K O, d.WF → e.WF → (∀ p ∈ d, p ∈ e) →
        d.values = d.keys.filterMap e.get? := by
      intro d
      induction d with
      | nil => intro e _ _ _; rfl
      | cons p d ih =>
        intro e hd he hs
        obtain ⟨k, o⟩ := p
        have : e.get? k = some o := PyDict.mem_get? he (hs _ (by simp))
        simp only [PyDict.keys_cons, List.filterMap_cons, this]
        rw [← ih e (List.nodup_cons.1 hd).2 he (fun p hp => hs p (by simp [hp]))]
        rfl
    exact key d d this this (fun _ h => h)
  | listKeys =>
    refine ⟨h, ?_⟩
    intro a ha
    simp only [Book.answer, Option.some.injEq] at ha
    subst ha
    simp only [step, h.sim.order]
  | get x =>
    simp only [Book.step, step, Book.answer]
    cases hk : key x with
    | none => exact ⟨h, by simp⟩
    | some k => exact ⟨h, by simp [h.sim.val]⟩
  | getByKey k => exact ⟨h, by simp [Book.answer, step, h.sim.val]⟩
  | resync => exact ⟨h, by simp [Book.answer, step]⟩
  | index n o => exact ⟨h, by simp [Book.answer]⟩
  | indexKeys n v => exact ⟨h, by simp [Book.answer]⟩
  | listIndexFuncValues n => exact ⟨h, by simp [Book.answer]⟩
  | byIndex n v => exact ⟨h, by simp [Book.answer]⟩
  | addIndexers new =>
    refine ⟨?_, by simp [Book.answer]⟩
    simp only [Book.step, step, ret_fst, addIndexers_indexers]
    exact h

theorem inv_exec (key : O → Option K) (os : List (Op K O N V)) : ∀ {b : Book K O}
    {s : State K O N V}, Inv b s → Clean key s.indexers b os →
    Inv (os.foldl (Book.step key) b) (exec key s os) := by
  induction os with
  | nil => intro b s h _; exact h
  | cons o os ih =>
    intro b s h hc
    rw [clean_cons] at hc
    obtain ⟨h1, h2⟩ := hc
    simp only [List.foldl_cons, exec]
    refine ih (inv_step h o h1).1 ?_
    rw [step_indexers]
    exact h2

theorem exec_indexers (key : O → Option K) (os : List (Op K O N V)) : ∀ (s : State K O N V),
    (exec key s os).indexers = s.indexers := by
  induction os with
  | nil => intro s; rfl
  | cons o os ih => intro s; rw [exec, ih, step_indexers]

theorem good_total {fs : PyDict N (IndexFunc O V)} (h : Good fs) : Total fs :=
  fun p hp o => let ⟨vs, h1, _⟩ := h p hp o; ⟨vs, h1⟩

theorem good_no_clash {fs : PyDict N (IndexFunc O V)} (h : Good fs) (b : Book K O) (k : K) :
    ¬ b.Clash fs k := by
  rintro ⟨o, n, f, vs, v, j, o', h1, h2, h3, h4, -⟩
  obtain ⟨ws, h5, h6⟩ := h (n, f) h2 o
  simp only at h5
  rw [h3] at h5; cases h5
  have := List.nodup_iff_count_le_one.1 h6 v
  omega

theorem good_clean (key : O → Option K) {fs : PyDict N (IndexFunc O V)} (h : Good fs)
    (os : List (Op K O N V)) : ∀ b : Book K O, Clean key fs b os := by
  induction os with
  | nil => intro b; trivial
  | cons o os ih =>
    intro b
    rw [clean_cons]
    refine ⟨?_, ih _⟩
    cases o <;> simp only [Ok] <;> intro k _ <;> exact good_no_clash h b k

/-! ## Queries -/

theorem lookupAll_eq (items : PyDict K O) (ks : List K) (h : ∀ k ∈ ks, k ∈ items.keys) :
    lookupAll items ks = some (ks.filterMap items.get?) := by
  induction ks with
  | nil => rfl
  | cons k ks ih =>
    have hk := PyDict.get?_isSome.2 (h k (by simp))
    obtain ⟨o, ho⟩ := Option.isSome_iff_exists.1 hk
    simp [lookupAll, ho, ih (fun j hj => h j (by simp [hj]))]

theorem mem_unionSets (idx : Index V K) (vs : List V) : ∀ (acc : List K) (k : K),
    k ∈ unionSets idx vs acc ↔ k ∈ acc ∨ ∃ v ∈ vs, k ∈ (idx.get? v).getD [] := by
  have hf : ∀ (l acc : List K) (k : K), k ∈ l.foldl PySet.add acc ↔ k ∈ acc ∨ k ∈ l := by
    intro l
    induction l with
    | nil => simp
    | cons x l ih => intro acc k; simp only [List.foldl_cons, ih, PySet.mem_add, List.mem_cons]; tauto
  induction vs with
  | nil => intro acc k; simp [unionSets]
  | cons v vs ih =>
    intro acc k
    simp only [unionSets, ih, hf, List.mem_cons, exists_eq_or_imp]
    tauto

theorem nodup_unionSets (idx : Index V K) (vs : List V) : ∀ (acc : List K), acc.Nodup →
    (unionSets idx vs acc).Nodup := by
  have hf : ∀ (l acc : List K), acc.Nodup → (l.foldl PySet.add acc).Nodup := by
    intro l
    induction l with
    | nil => intro acc h; exact h
    | cons x l ih => intro acc h; exact ih _ (PySet.nodup_add h x)
  induction vs with
  | nil => intro acc h; exact h
  | cons v vs ih => intro acc h; exact ih _ (hf _ _ h)

theorem mem_returnKeySet (idx : Index V K) (vs : List V) (k : K) :
    k ∈ returnKeySet idx vs ↔ ∃ v ∈ vs, k ∈ (idx.get? v).getD [] := by
  unfold returnKeySet
  split
  · simp
  · rw [mem_unionSets]; simp

theorem nodup_returnKeySet {idx : Index V K} {S : V → K → Prop} (h : Ex idx S) (vs : List V) :
    (returnKeySet idx vs).Nodup := by
  unfold returnKeySet
  split
  · rename_i v
    cases hg : idx.get? v with
    | none => simp
    | some s => exact (h.good v s hg).2
  · exact nodup_unionSets _ _ _ List.nodup_nil

/-- A duplicate-free list of exactly the keys with `P` is a permutation of `keysWhere`, and
looking it up gives `objectsWhere`. -/
theorem lookup_where {b : Book K O} {items : PyDict K O} (h : Sim b items) (P : O → Bool)
    (ks : List K) (hn : ks.Nodup) (hm : ∀ k, k ∈ ks ↔ ∃ o, b.val k = some o ∧ P o = true) :
    ks.Perm (b.keysWhere P) ∧
    ∃ os, lookupAll items ks = some os ∧ os.Perm (b.objectsWhere P) := by
  have hin : ∀ k, k ∈ ks → k ∈ items.keys := by
    intro k hk
    obtain ⟨o, ho, -⟩ := (hm k).1 hk
    rw [h.val] at ho
    exact PyDict.get?_isSome.1 (by simp [ho])
  have hp : ks.Perm (b.keysWhere P) := by
    have hk : (b.keysWhere P).Nodup := (h.order ▸ h.wf : b.order.Nodup).filter _
    rw [List.perm_ext_iff_of_nodup hn hk]
    intro k
    rw [hm k, Book.keysWhere, List.mem_filter, h.order]
    constructor
    · rintro ⟨o, ho, hP⟩
      refine ⟨hin k ((hm k).2 ⟨o, ho, hP⟩), ?_⟩
      simp [ho, hP]
    · rintro ⟨-, h2⟩
      cases hv : b.val k with
      | none => simp [hv] at h2
      | some o => exact ⟨o, rfl, by simpa [hv] using h2⟩
  refine ⟨hp, _, lookupAll_eq items ks hin, ?_⟩
  refine (hp.filterMap _).trans ?_
  apply List.Perm.of_eq
  rw [Book.keysWhere, Book.objectsWhere, Book.objects, ← funext h.val, List.filterMap_filter,
    List.filter_filterMap]
  congr 1
  funext k
  cases b.val k <;> simp [Option.filter]

end Aiok8s.Store
