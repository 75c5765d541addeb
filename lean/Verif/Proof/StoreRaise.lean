import Verif.Spec.StoreRaise
import Verif.Proof.Store
/-!
# Lemmas for the store when index functions raise (C84)
-/
namespace Aiok8s.Store
open Spec
variable {K O N V : Type} [DecidableEq K] [DecidableEq N] [DecidableEq V]

/-- The index `n` lists the key `k` under the value `v`. -/
def Has (ix : PyDict N (Index V K)) (n : N) (v : V) (k : K) : Prop :=
  k ∈ ((at' ix n).get? v).getD []

/-- The index `n` has no empty or repeating sets. -/
def Fine (ix : PyDict N (Index V K)) (n : N) : Prop := Ex (at' ix n) (Has ix n)

theorem fine_of {ix : PyDict N (Index V K)} {n : N} {S : V → K → Prop} (h : Ex (at' ix n) S) :
    Fine ix n := ⟨h.wf, h.good, fun _ _ => Iff.rfl⟩

theorem has_of {ix : PyDict N (Index V K)} {n : N} {S : V → K → Prop} (h : Ex (at' ix n) S) (v : V)
    (k : K) : Has ix n v k ↔ S v k := h.mem v k

theorem fine_congr {ix ix1 : PyDict N (Index V K)} {n : N} (h : at' ix1 n = at' ix n) (hF : Fine ix n) :
    Fine ix1 n := by
  have h1 : Ex (at' ix1 n) (Has ix n) := by
    rw [h]
    exact hF
  exact fine_of h1

/-- The indices list `key` for `obj` up to some index function and not from there on. -/
def Prefix (obj : O) (key : K) (ix : PyDict N (Index V K)) : PyDict N (IndexFunc O V) → Prop
  | [] => True
  | (n, f) :: fs =>
    ((∃ vs, f obj = some vs ∧ ∀ v, Has ix n v key ↔ v ∈ vs) ∧ Prefix obj key ix fs) ∨
      ∀ m ∈ PyDict.keys ((n, f) :: fs), ∀ v, ¬ Has ix m v key

/-- The indices list `key` for `obj`. -/
def Full (obj : O) (key : K) (ix : PyDict N (Index V K)) (fs : PyDict N (IndexFunc O V)) : Prop :=
  ∀ n f, (n, f) ∈ fs → ∃ vs, f obj = some vs ∧ ∀ v, Has ix n v key ↔ v ∈ vs

theorem prefix_none {obj : O} {key : K} {ix : PyDict N (Index V K)} :
    ∀ {fs : PyDict N (IndexFunc O V)}, (∀ m ∈ fs.keys, ∀ v, ¬ Has ix m v key) → Prefix obj key ix fs
  | [], _ => trivial
  | (_, _) :: _, h => Or.inr h

theorem full_prefix {obj : O} {key : K} {ix : PyDict N (Index V K)} :
    ∀ {fs : PyDict N (IndexFunc O V)}, Full obj key ix fs → Prefix obj key ix fs
  | [], _ => trivial
  | (n, f) :: _, h => Or.inl ⟨h n f (by simp), full_prefix fun m g hm => h m g (by simp [hm])⟩

theorem prefix_congr {obj : O} {key : K} {ix ix' : PyDict N (Index V K)} :
    ∀ {fs : PyDict N (IndexFunc O V)}, (∀ n ∈ fs.keys, ∀ v, Has ix' n v key ↔ Has ix n v key) →
      Prefix obj key ix fs → Prefix obj key ix' fs
  | [], _, _ => trivial
  | (n, f) :: fs, h, hp => by
    rcases hp with ⟨⟨vs, h1, h2⟩, h3⟩ | h0
    · exact Or.inl ⟨⟨vs, h1, fun v => (h n (by simp) v).trans (h2 v)⟩,
        prefix_congr (fun m hm => h m (by simp [hm])) h3⟩
    · exact Or.inr fun m hm v hh => h0 m hm v ((h m hm v).1 hh)

theorem full_congr {obj : O} {key : K} {ix ix' : PyDict N (Index V K)}
    {fs : PyDict N (IndexFunc O V)} (h : ∀ n ∈ fs.keys, ∀ v, Has ix' n v key ↔ Has ix n v key)
    (hf : Full obj key ix fs) : Full obj key ix' fs := by
  intro n f hm
  obtain ⟨vs, h1, h2⟩ := hf n f hm
  exact ⟨vs, h1, fun v => (h n (List.mem_map.2 ⟨(n, f), hm, rfl⟩) v).trans (h2 v)⟩

/-- What is listed is right. -/
theorem prefix_sound {obj : O} {key : K} {ix : PyDict N (Index V K)} :
    ∀ {fs : PyDict N (IndexFunc O V)}, Prefix obj key ix fs → ∀ n f, (n, f) ∈ fs → ∀ v,
      Has ix n v key → Yields f obj v
  | [], _, _, _, h, _, _ => by simp at h
  | (m, g) :: fs, hp, n, f, hm, v, hv => by
    rcases hp with ⟨⟨vs, h1, h2⟩, h3⟩ | h0
    · rcases List.mem_cons.1 hm with h | h
      · cases h
        exact ⟨vs, h1, (h2 v).1 hv⟩
      · exact prefix_sound h3 n f h v hv
    · exact absurd hv (h0 n (List.mem_map.2 ⟨(n, f), hm, rfl⟩) v)

theorem has_set (ix : PyDict N (Index V K)) (n m : N) (i : Index V K) (v : V) (k : K) :
    Has (ix.set n i) m v k ↔ if n = m then k ∈ (i.get? v).getD [] else Has ix m v k := by
  unfold Has
  rw [at'_set]
  split <;> rfl

/-- Deleting a key that is not listed changes nothing. -/
theorem deleteValues_absent (key : K) : ∀ (vs : List V) {idx : Index V K} {S : V → K → Prop},
    Ex idx S → (∀ v, ¬ S v key) → (deleteValues key idx vs).1 = idx
  | [], idx, S, _, _ => rfl
  | v :: vs, idx, S, h, hn => by
    rw [deleteValues]
    cases hg : idx.get? v with
    | none => exact deleteValues_absent key vs h hn
    | some set =>
      have h1 := (h.good v set hg).1
      have h2 : key ∉ set := by
        intro hk
        apply hn v
        rw [← h.mem v key, hg]
        exact hk
      simp [h1, h2]

theorem has_same {ix : PyDict N (Index V K)} {n : N} {idx : Index V K} (hg : ix.get? n = some idx)
    (m : N) : at' (ix.set n idx) m = at' ix m := by
  rw [at'_set]
  split
  · rename_i h
    subst h
    simp [at', hg]
  · rfl

/-- `_delete_from_indices` removes the key from all indices, also if it raises. -/
theorem delete_all {obj : O} {key : K} : ∀ (fs : PyDict N (IndexFunc O V)) (ix : PyDict N (Index V K)),
    fs.WF → Distinct fs → (∀ n ∈ fs.keys, Fine ix n) → Prefix obj key ix fs →
    (∀ n ∈ fs.keys, Fine (deleteFromIndices obj key fs ix).1 n) ∧
    (∀ n ∈ fs.keys, ∀ v k, Has (deleteFromIndices obj key fs ix).1 n v k ↔ Has ix n v k ∧ k ≠ key) ∧
    (∀ n, n ∉ fs.keys → at' (deleteFromIndices obj key fs ix).1 n = at' ix n) ∧
    (∀ n, n ∉ fs.keys → ix.get? n = none → (deleteFromIndices obj key fs ix).1.get? n = none) ∧
    (Full obj key ix fs → (deleteFromIndices obj key fs ix).2 = none) := by
  intro fs
  induction fs with
  | nil => intro ix _ _ _ _; simp [deleteFromIndices]
  | cons p fs ih =>
    intro ix hw hd hF hp
    obtain ⟨n, f⟩ := p
    obtain ⟨hn, hw'⟩ := List.nodup_cons.1 hw
    have hd' : Distinct fs := fun q hq => hd q (by simp [hq])
    simp only at hn
    have hall : (∀ m ∈ PyDict.keys ((n, f) :: fs), ∀ v, ¬ Has ix m v key) →
        (∀ m ∈ PyDict.keys ((n, f) :: fs), ∀ v k, Has ix m v k ↔ Has ix m v k ∧ k ≠ key) := by
      intro h0 m hm v k
      constructor
      · intro hh
        refine ⟨hh, ?_⟩
        rintro rfl
        exact h0 m hm v hh
      · exact fun hh => hh.1
    cases hf : f obj with
    | none =>
      simp only [deleteFromIndices, hf]
      have h0 : ∀ m ∈ PyDict.keys ((n, f) :: fs), ∀ v, ¬ Has ix m v key := by
        rcases hp with ⟨⟨vs, h1, -⟩, -⟩ | h0
        · rw [hf] at h1; cases h1
        · exact h0
      refine ⟨hF, hall h0, by intros; trivial, fun _ _ h => h, ?_⟩
      intro hfull
      obtain ⟨vs, h1, -⟩ := hfull n f (by simp)
      rw [hf] at h1; cases h1
    | some vs =>
      -- the rest of the work, given what the first index has become
      have rest : ∀ ix1 : PyDict N (Index V K), Fine ix1 n →
          (∀ v k, Has ix1 n v k ↔ Has ix n v k ∧ k ≠ key) →
          (∀ m, m ≠ n → at' ix1 m = at' ix m) →
          (∀ m, m ≠ n → ix.get? m = none → ix1.get? m = none) →
          ((∀ m ∈ PyDict.keys ((n, f) :: fs), Fine (deleteFromIndices obj key fs ix1).1 m) ∧
          (∀ m ∈ PyDict.keys ((n, f) :: fs), ∀ v k,
            Has (deleteFromIndices obj key fs ix1).1 m v k ↔ Has ix m v k ∧ k ≠ key) ∧
          (∀ m, m ∉ PyDict.keys ((n, f) :: fs) →
            at' (deleteFromIndices obj key fs ix1).1 m = at' ix m) ∧
          (∀ m, m ∉ PyDict.keys ((n, f) :: fs) → ix.get? m = none →
            (deleteFromIndices obj key fs ix1).1.get? m = none) ∧
          (Full obj key ix ((n, f) :: fs) → (deleteFromIndices obj key fs ix1).2 = none)) := by
        intro ix1 hF1 hH1 hat hget
        have hat' : ∀ m ∈ PyDict.keys fs, m ≠ n := fun m hm h => hn (h ▸ hm)
        have hsame : ∀ m ∈ PyDict.keys fs, ∀ v k, Has ix1 m v k ↔ Has ix m v k := by
          intro m hm v k
          unfold Has
          rw [hat m (hat' m hm)]
        have hp' : Prefix obj key ix1 fs := by
          refine prefix_congr (fun m hm v => hsame m hm v key) ?_
          rcases hp with ⟨-, h⟩ | h
          · exact h
          · exact prefix_none fun m hm => h m (by simp [hm])
        obtain ⟨a, b, c, d, e⟩ := ih ix1 hw' hd' (fun m hm => fine_congr (hat m (hat' m hm)) (hF m (by simp [hm]))) hp'
        refine ⟨?_, ?_, ?_, ?_, ?_⟩
        · intro m hm
          simp only [PyDict.keys_cons, List.mem_cons] at hm
          by_cases hmn : m = n
          · subst hmn
            unfold Fine at hF1 ⊢
            rw [c m hn]
            exact ⟨hF1.wf, hF1.good, fun v k => by unfold Has; rw [c m hn]⟩
          · exact a m (hm.resolve_left hmn)
        · intro m hm v k
          simp only [PyDict.keys_cons, List.mem_cons] at hm
          by_cases hmn : m = n
          · subst hmn
            rw [← hH1]
            unfold Has
            rw [c m hn]
          · rw [b m (hm.resolve_left hmn), hsame m (hm.resolve_left hmn)]
        · intro m hm
          simp only [PyDict.keys_cons, List.mem_cons, not_or] at hm
          rw [c m hm.2, hat m hm.1]
        · intro m hm hg
          simp only [PyDict.keys_cons, List.mem_cons, not_or] at hm
          exact d m hm.2 (hget m hm.1 hg)
        · intro hfull
          refine e (full_congr (fun m hm v => hsame m hm v key) ?_)
          intro m g hm
          exact hfull m g (by simp [hm])
      simp only [deleteFromIndices, hf]
      cases hg : ix.get? n with
      | none =>
        have hno : ∀ v k, ¬ Has ix n v k := by
          intro v k
          simp [Has, at', hg]
        exact rest ix (hF n (by simp)) (fun v k => by simp [hno v k]) (fun _ _ => rfl) (fun _ _ h => h)
      | some idx =>
        have hidx : at' ix n = idx := by simp [at', hg]
        have hEn : Ex idx (Has ix n) := by
          have := hF n (by simp)
          unfold Fine at this
          rwa [hidx] at this
        simp only
        rcases hp with ⟨⟨ws, h1, h2⟩, h3⟩ | h0
        · rw [hf] at h1
          cases h1
          have hnd := hd (n, f) (by simp) obj vs hf
          obtain ⟨d1, d2⟩ := ex_deleteValues key vs hEn (fun v hv => Or.inl ((h2 v).2 hv)) (by
            intro v hv
            have := List.nodup_iff_count_le_one.1 hnd v
            omega)
          simp only [d1, if_true]
          have hset : at' (ix.set n (deleteValues key idx vs).1) n = (deleteValues key idx vs).1 := by
            rw [at'_set, if_pos rfl]
          rw [← hset] at d2
          refine rest _ (fine_of d2) ?_ ?_ ?_
          · intro v k
            rw [has_of d2]
            constructor
            · rintro ⟨k1, k2⟩
              refine ⟨k1, ?_⟩
              rintro rfl
              exact k2 ⟨rfl, (h2 v).1 k1⟩
            · rintro ⟨k1, k2⟩
              exact ⟨k1, fun h => k2 h.1⟩
          · intro m hm
            rw [at'_set, if_neg (Ne.symm hm)]
          · intro m hm h
            rw [PyDict.get?_set, if_neg (Ne.symm hm)]
            exact h
        · have hno : ∀ v, ¬ Has ix n v key := h0 n (by simp)
          have hdv := deleteValues_absent key vs hEn hno
          have hsame : ∀ m, at' (ix.set n (deleteValues key idx vs).1) m = at' ix m := by
            intro m
            rw [hdv]
            exact has_same hg m
          have hhas : ∀ m v k, Has (ix.set n (deleteValues key idx vs).1) m v k ↔ Has ix m v k := by
            intro m v k
            unfold Has
            rw [hsame]
          have hfine : ∀ m, Fine ix m → Fine (ix.set n (deleteValues key idx vs).1) m := by
            intro m h
            unfold Fine at h ⊢
            rw [hsame]
            exact ⟨h.wf, h.good, fun v k => by unfold Has; rw [hsame]⟩
          have hgm : ∀ m, m ≠ n → ix.get? m = none →
              (ix.set n (deleteValues key idx vs).1).get? m = none := by
            intro m hm h
            rw [PyDict.get?_set, if_neg (Ne.symm hm)]
            exact h
          split
          · refine rest _ (hfine n (hF n (by simp))) ?_ (fun m _ => hsame m) hgm
            intro v k
            rw [hhas]
            exact hall h0 n (by simp) v k
          · rename_i hfalse
            refine ⟨fun m hm => hfine m (hF m hm), ?_, fun m _ => hsame m, ?_, ?_⟩
            · intro m hm v k
              rw [hhas]
              exact hall h0 m hm v k
            · intro m hm h
              simp only [PyDict.keys_cons, List.mem_cons, not_or] at hm
              exact hgm m hm.1 h
            · intro hfull
              exfalso
              obtain ⟨ws, h1, h2⟩ := hfull n f (by simp)
              rw [hf] at h1
              cases h1
              cases vs with
              | nil => simp [deleteValues] at hfalse
              | cons v vs => exact hno v ((h2 v).2 (by simp))

/-- `_update_indices` lists the key up to the first function that raises. -/
theorem add_prefix {obj : O} {key : K} : ∀ (fs : PyDict N (IndexFunc O V)) (ix : PyDict N (Index V K)),
    fs.WF → (∀ n ∈ fs.keys, Fine ix n) → (∀ n ∈ fs.keys, ∀ v, ¬ Has ix n v key) →
    (∀ n ∈ fs.keys, Fine (addToIndices obj key fs ix).1 n) ∧
    (∀ n ∈ fs.keys, ∀ v k, k ≠ key → (Has (addToIndices obj key fs ix).1 n v k ↔ Has ix n v k)) ∧
    (∀ n, n ∉ fs.keys → (addToIndices obj key fs ix).1.get? n = ix.get? n) ∧
    Prefix obj key (addToIndices obj key fs ix).1 fs ∧
    ((addToIndices obj key fs ix).2 = none → Full obj key (addToIndices obj key fs ix).1 fs) ∧
    (Returns fs obj → (addToIndices obj key fs ix).2 = none) := by
  intro fs
  induction fs with
  | nil => intro ix _ _ _; simp [addToIndices, Prefix, Full]
  | cons p fs ih =>
    intro ix hw hF hno
    obtain ⟨n, f⟩ := p
    obtain ⟨hn, hw'⟩ := List.nodup_cons.1 hw
    simp only at hn
    cases hf : f obj with
    | none =>
      simp only [addToIndices, hf]
      refine ⟨hF, by intros; trivial, by intros; trivial, prefix_none hno, by simp, ?_⟩
      intro hr
      obtain ⟨vs, h⟩ := hr (n, f) (by simp)
      simp only [hf] at h
      cases h
    | some vs =>
      simp only [addToIndices, hf]
      have hE1 : Ex (addValues key ((ix.get? n).getD []) vs)
          (fun v k => Has ix n v k ∨ (k = key ∧ v ∈ vs)) := ex_addValues key vs (hF n (by simp))
      have hne : ∀ m ∈ PyDict.keys fs, n ≠ m := fun m hm h => hn (h ▸ hm)
      have hat : ∀ m ∈ PyDict.keys fs, at' (ix.set n (addValues key ((ix.get? n).getD []) vs)) m = at' ix m := by
        intro m hm
        rw [at'_set, if_neg (hne m hm)]
      have hhas : ∀ m ∈ PyDict.keys fs, ∀ v k,
          Has (ix.set n (addValues key ((ix.get? n).getD []) vs)) m v k ↔ Has ix m v k := by
        intro m hm v k
        unfold Has
        rw [hat m hm]
      obtain ⟨a, b, c, d, e, g⟩ := ih (ix.set n (addValues key ((ix.get? n).getD []) vs)) hw' (fun m hm => fine_congr (hat m hm) (hF m (by simp [hm]))) (by
          intro m hm v
          rw [hhas m hm]
          exact hno m (by simp [hm]) v)
      have hatn : at' (addToIndices obj key fs (ix.set n (addValues key ((ix.get? n).getD []) vs))).1 n
          = addValues key ((ix.get? n).getD []) vs := by
        simp [at', c n hn]
      rw [← hatn] at hE1
      have hfirst : ∀ v, Has (addToIndices obj key fs
          (ix.set n (addValues key ((ix.get? n).getD []) vs))).1 n v key ↔ v ∈ vs := by
        intro v
        rw [has_of hE1]
        simp [hno n (by simp) v]
      refine ⟨?_, ?_, ?_, Or.inl ⟨⟨vs, hf, hfirst⟩, d⟩, ?_, ?_⟩
      · intro m hm
        simp only [PyDict.keys_cons, List.mem_cons] at hm
        by_cases hmn : m = n
        · subst hmn
          exact fine_of hE1
        · exact a m (hm.resolve_left hmn)
      · intro m hm v k hk
        simp only [PyDict.keys_cons, List.mem_cons] at hm
        by_cases hmn : m = n
        · subst hmn
          rw [has_of hE1]
          simp [hk]
        · rw [b m (hm.resolve_left hmn) v k hk, hhas m (hm.resolve_left hmn)]
      · intro m hm
        simp only [PyDict.keys_cons, List.mem_cons, not_or] at hm
        rw [c m hm.2, PyDict.get?_set, if_neg (Ne.symm hm.1)]
      · intro hnone m g' hm
        rcases List.mem_cons.1 hm with h | h
        · cases h
          exact ⟨vs, hf, hfirst⟩
        · exact e hnone m g' h
      · intro hr
        exact g fun q hq => hr q (by simp [hq])

/-- What holds of the store, although index functions raise. -/
structure RInv (s : State K O N V) : Prop where
  wfx : s.indexers.WF
  wf : s.items.WF
  out : ∀ n, n ∉ s.indexers.keys → s.indices.get? n = none
  fine : ∀ n ∈ s.indexers.keys, Fine s.indices n
  pre : ∀ k o, s.items.get? k = some o → Prefix o k s.indices s.indexers
  gone : ∀ k, s.items.get? k = none → ∀ n ∈ s.indexers.keys, ∀ v, ¬ Has s.indices n v k

theorem at'_none {ix : PyDict N (Index V K)} {n : N} (h : ix.get? n = none) : at' ix n = [] := by
  simp [at', h]

theorem rinv_init {fs : PyDict N (IndexFunc O V)} (hw : fs.WF) : RInv (init fs : State K O N V) := by
  have h0 : ∀ n : N, at' ([] : PyDict N (Index V K)) n = [] := fun n => rfl
  refine ⟨hw, PyDict.WF_nil, fun _ _ => rfl, ?_, ?_, ?_⟩
  · intro n _
    exact fine_of (S := fun _ _ => False) (by
      show Ex (at' ([] : PyDict N (Index V K)) n) _
      rw [h0]
      exact ex_nil)
  · intro k o h
    simp [init] at h
  · intro k _ n _ v
    simp [Has, init, h0]

/-- After `put`: the invariant, the other keys as before, and this key listed in full if it returned. -/
theorem rinv_put {s : State K O N V} (h : RInv s) (hd : Distinct s.indexers) (key : K) (obj : O) :
    RInv (put s key obj).1 ∧
    (∀ k, k ≠ key → ∀ n ∈ s.indexers.keys, ∀ v,
      (Has (put s key obj).1.indices n v k ↔ Has s.indices n v k)) ∧
    ((put s key obj).2 = none → Full obj key (put s key obj).1.indices s.indexers) := by
  -- from indices without this key on
  have addP : ∀ ix : PyDict N (Index V K), (∀ n, n ∉ s.indexers.keys → ix.get? n = none) →
      (∀ n ∈ s.indexers.keys, Fine ix n) →
      (∀ n ∈ s.indexers.keys, ∀ v k, Has ix n v k ↔ Has s.indices n v k ∧ k ≠ key) →
      ∀ r : PyDict N (Index V K) × Option Exc,
      (r = addToIndices obj key s.indexers ix ∨ (∃ e, r = (ix, some e))) →
      RInv { s with items := s.items.set key obj, indices := r.1 } ∧
      (∀ k, k ≠ key → ∀ n ∈ s.indexers.keys, ∀ v, (Has r.1 n v k ↔ Has s.indices n v k)) ∧
      (r.2 = none → Full obj key r.1 s.indexers) := by
    intro ix hout hfine hhas r hr
    have hno : ∀ n ∈ s.indexers.keys, ∀ v, ¬ Has ix n v key := by
      intro n hn v hh
      exact ((hhas n hn v key).1 hh).2 rfl
    have key3 : (∀ n, n ∉ s.indexers.keys → r.1.get? n = none) ∧ (∀ n ∈ s.indexers.keys, Fine r.1 n) ∧
        (∀ k, k ≠ key → ∀ n ∈ s.indexers.keys, ∀ v, (Has r.1 n v k ↔ Has s.indices n v k)) ∧
        Prefix obj key r.1 s.indexers ∧ (r.2 = none → Full obj key r.1 s.indexers) := by
      rcases hr with rfl | ⟨e, rfl⟩
      · obtain ⟨a, b, c, d, e, -⟩ := add_prefix (obj := obj) s.indexers ix h.wfx hfine hno
        refine ⟨fun n hn => by rw [c n hn]; exact hout n hn, a, ?_, d, e⟩
        intro k hk n hn v
        rw [b n hn v k hk, hhas n hn]
        simp [hk]
      · refine ⟨hout, hfine, ?_, prefix_none hno, by simp⟩
        intro k hk n hn v
        rw [hhas n hn]
        simp [hk]
    obtain ⟨k1, k2, k3, k4, k5⟩ := key3
    refine ⟨⟨h.wfx, PyDict.WF_set h.wf _ _, k1, k2, ?_, ?_⟩, k3, k5⟩
    · intro k o hk
      simp only [PyDict.get?_set] at hk
      by_cases hkk : key = k
      · subst hkk
        simp only [if_true, Option.some.injEq] at hk
        subst hk
        exact k4
      · simp only [hkk, if_false] at hk
        exact prefix_congr (fun n hn v => k3 k (Ne.symm hkk) n hn v) (h.pre k o hk)
    · intro k hk n hn v
      simp only [PyDict.get?_set] at hk
      by_cases hkk : key = k
      · subst hkk
        simp at hk
      · simp only [hkk, if_false] at hk
        rw [k3 k (Ne.symm hkk) n hn v]
        exact h.gone k hk n hn v
  cases ho : s.items.get? key with
  | none =>
    have := addP s.indices h.out h.fine (by
      intro n hn v k
      constructor
      · intro hh
        refine ⟨hh, ?_⟩
        rintro rfl
        exact h.gone k ho n hn v hh
      · exact fun hh => hh.1) (updateIndices s.indexers s.indices (s.items.get? key) obj key)
      (Or.inl (by rw [ho]; rfl))
    exact this
  | some o =>
    obtain ⟨a, b, c, d, -⟩ := delete_all (obj := o) (key := key) s.indexers s.indices h.wfx hd h.fine
      (h.pre key o ho)
    have hout : ∀ n, n ∉ s.indexers.keys →
        (deleteFromIndices o key s.indexers s.indices).1.get? n = none :=
      fun n hn => d n hn (h.out n hn)
    have := addP (deleteFromIndices o key s.indexers s.indices).1 hout a b
      (updateIndices s.indexers s.indices (s.items.get? key) obj key) (by
        rw [ho]
        simp only [updateIndices]
        cases hx : deleteFromIndices o key s.indexers s.indices with
        | mk ix e =>
          cases e with
          | none => exact Or.inl rfl
          | some e => exact Or.inr ⟨e, rfl⟩)
    exact this

/-- After `delete`. -/
theorem rinv_delete {s : State K O N V} (h : RInv s) (hd : Distinct s.indexers) (key : K) :
    RInv (delete s key).1 ∧
    (∀ k, k ≠ key → (delete s key).1.items.get? k = s.items.get? k ∧ ∀ n ∈ s.indexers.keys, ∀ v,
      (Has (delete s key).1.indices n v k ↔ Has s.indices n v k)) ∧
    ((delete s key).2 = none → (delete s key).1.items.get? key = none) := by
  unfold delete
  cases ho : s.items.get? key with
  | none => exact ⟨h, fun _ _ => ⟨rfl, fun _ _ _ => Iff.rfl⟩, fun _ => ho⟩
  | some o =>
    obtain ⟨a, b, c, d, -⟩ := delete_all (obj := o) (key := key) s.indexers s.indices h.wfx hd h.fine
      (h.pre key o ho)
    have hout : ∀ n, n ∉ s.indexers.keys →
        (deleteFromIndices o key s.indexers s.indices).1.get? n = none :=
      fun n hn => d n hn (h.out n hn)
    have hoth : ∀ k, k ≠ key → ∀ n ∈ s.indexers.keys, ∀ v,
        (Has (deleteFromIndices o key s.indexers s.indices).1 n v k ↔ Has s.indices n v k) := by
      intro k hk n hn v
      rw [b n hn]
      simp [hk]
    have hno : ∀ n ∈ s.indexers.keys, ∀ v,
        ¬ Has (deleteFromIndices o key s.indexers s.indices).1 n v key := by
      intro n hn v hh
      exact ((b n hn v key).1 hh).2 rfl
    dsimp only
    cases hx : deleteFromIndices o key s.indexers s.indices with
    | mk ix e =>
      rw [hx] at a hout hoth hno
      simp only at a hout hoth hno
      cases e with
      | some e =>
        refine ⟨⟨h.wfx, h.wf, hout, a, ?_, ?_⟩, fun k hk => ⟨rfl, hoth k hk⟩, by simp⟩
        · intro k o' hk
          by_cases hkk : k = key
          · subst hkk
            exact prefix_none hno
          · exact prefix_congr (fun n hn v => hoth k hkk n hn v) (h.pre k o' hk)
        · intro k hk n hn v
          by_cases hkk : k = key
          · subst hkk
            exact hno n hn v
          · rw [hoth k hkk n hn v]
            exact h.gone k hk n hn v
      | none =>
        have hget : ∀ k, k ≠ key → (s.items.del key).get? k = s.items.get? k := by
          intro k hk
          rw [PyDict.get?_del h.wf, if_neg (Ne.symm hk)]
        refine ⟨⟨h.wfx, PyDict.WF_del h.wf _, hout, a, ?_, ?_⟩, fun k hk => ⟨hget k hk, hoth k hk⟩, ?_⟩
        · intro k o' hk
          by_cases hkk : k = key
          · subst hkk
            simp [PyDict.get?_del h.wf] at hk
          · rw [hget k hkk] at hk
            exact prefix_congr (fun n hn v => hoth k hkk n hn v) (h.pre k o' hk)
        · intro k hk n hn v
          by_cases hkk : k = key
          · subst hkk
            exact hno n hn v
          · rw [hget k hkk] at hk
            rw [hoth k hkk n hn v]
            exact h.gone k hk n hn v
        · intro _
          simp [PyDict.get?_del h.wf]

/-- The loop of `replace`. -/
theorem rinv_indexAll {fs : PyDict N (IndexFunc O V)} (hw : fs.WF) :
    ∀ (items : PyDict K O) (ix : PyDict N (Index V K)), items.WF →
    (∀ n, n ∉ fs.keys → ix.get? n = none) → (∀ n ∈ fs.keys, Fine ix n) →
    (∀ k ∈ items.keys, ∀ n ∈ fs.keys, ∀ v, ¬ Has ix n v k) →
    (∀ n, n ∉ fs.keys → (indexAll fs items ix).1.get? n = none) ∧
    (∀ n ∈ fs.keys, Fine (indexAll fs items ix).1 n) ∧
    (∀ k, k ∉ items.keys → ∀ n ∈ fs.keys, ∀ v,
      (Has (indexAll fs items ix).1 n v k ↔ Has ix n v k)) ∧
    (∀ k o, (k, o) ∈ items → Prefix o k (indexAll fs items ix).1 fs ∧
      ((indexAll fs items ix).2 = none → Full o k (indexAll fs items ix).1 fs)) ∧
    ((∀ k o, (k, o) ∈ items → Returns fs o) → (indexAll fs items ix).2 = none) := by
  intro items
  induction items with
  | nil =>
    intro ix _ hout hF _
    exact ⟨hout, hF, fun _ _ _ _ _ => Iff.rfl, by simp, fun _ => rfl⟩
  | cons p rest ih =>
    intro ix hwi hout hF hno
    obtain ⟨k, o⟩ := p
    obtain ⟨hk, hwr⟩ := List.nodup_cons.1 hwi
    simp only at hk
    obtain ⟨a, b, c, d, e, g⟩ := add_prefix (obj := o) fs ix hw hF (hno k (by simp))
    simp only [indexAll]
    cases hx : addToIndices o k fs ix with
    | mk ix1 ex =>
      rw [hx] at a b c d e g
      simp only at a b c d e g
      have hout1 : ∀ n, n ∉ fs.keys → ix1.get? n = none := fun n hn => by rw [c n hn]; exact hout n hn
      have hne : ∀ j ∈ PyDict.keys rest, j ≠ k := fun j hj h => hk (h ▸ hj)
      have hno1 : ∀ j ∈ PyDict.keys rest, ∀ n ∈ fs.keys, ∀ v, ¬ Has ix1 n v j := by
        intro j hj n hn v
        rw [b n hn v j (hne j hj)]
        exact hno j (by simp [hj]) n hn v
      cases ex with
      | some ex =>
        refine ⟨hout1, a, ?_, ?_, ?_⟩
        · intro j hj n hn v
          simp only [PyDict.keys_cons, List.mem_cons, not_or] at hj
          exact b n hn v j hj.1
        · intro j o' hj
          rcases List.mem_cons.1 hj with h | h
          · cases h
            exact ⟨d, by simp⟩
          · exact ⟨prefix_none (hno1 j (List.mem_map.2 ⟨(j, o'), h, rfl⟩)), by simp⟩
        · intro hr
          have := g (hr k o (by simp))
          cases this
      | none =>
        obtain ⟨a2, b2, c2, d2, e2⟩ := ih ix1 hwr hout1 a hno1
        refine ⟨a2, b2, ?_, ?_, ?_⟩
        · intro j hj n hn v
          simp only [PyDict.keys_cons, List.mem_cons, not_or] at hj
          rw [c2 j hj.2 n hn v, b n hn v j hj.1]
        · intro j o' hj
          rcases List.mem_cons.1 hj with h | h
          · cases h
            exact ⟨prefix_congr (fun n hn v => c2 k hk n hn v) d,
              fun _ => full_congr (fun n hn v => c2 k hk n hn v) (e rfl)⟩
          · exact d2 j o' h
        · intro hr
          exact e2 fun j o' hj => hr j o' (by simp [hj])

theorem rinv_replace {s : State K O N V} (h : RInv s) {items : PyDict K O} (hwi : items.WF) :
    RInv (replaceItems s items).1 ∧
    ((replaceItems s items).2 = none → ∀ k o, items.get? k = some o →
      Full o k (replaceItems s items).1.indices s.indexers) ∧
    ((∀ k o, (k, o) ∈ items → Returns s.indexers o) → (replaceItems s items).2 = none) := by
  have h0 := rinv_init (K := K) h.wfx
  obtain ⟨a, b, c, d, e⟩ := rinv_indexAll h.wfx items [] hwi (fun _ _ => rfl) h0.fine
    (fun k _ n hn v => h0.gone k rfl n hn v)
  refine ⟨⟨h.wfx, hwi, a, b, ?_, ?_⟩, ?_, e⟩
  · intro k o hk
    exact (d k o (PyDict.get?_mem hk)).1
  · intro k hk n hn v
    have := c k (PyDict.get?_eq_none.1 hk) n hn v
    show ¬ Has (indexAll s.indexers items []).1 n v k
    rw [this]
    exact h0.gone k rfl n hn v
  · intro hn k o hk
    exact (d k o (PyDict.get?_mem hk)).2 hn

theorem buildItems_wf (key : O → Option K) : ∀ (os : List O) (d items : PyDict K O), d.WF →
    buildItems key os d = some items → items.WF
  | [], d, items, hd, h => by
    simp only [buildItems, Option.some.injEq] at h
    subst h
    exact hd
  | o :: os, d, items, hd, h => by
    simp only [buildItems] at h
    split at h
    · cases h
    · exact buildItems_wf key os _ items (PyDict.WF_set hd _ _) h

theorem buildItems_none (key : O → Option K) : ∀ (os : List O) (d : PyDict K O),
    (os.all (fun o => (key o).isSome) = true ↔ ∃ items, buildItems key os d = some items)
  | [], d => by simp [buildItems]
  | o :: os, d => by
    simp only [buildItems, List.all_cons]
    cases hk : key o with
    | none => simp
    | some k =>
      simp only [Option.isSome_some, Bool.true_and]
      exact buildItems_none key os _

theorem buildItems_mem (key : O → Option K) : ∀ (os : List O) (d items : PyDict K O), d.WF →
    buildItems key os d = some items → ∀ k o, (k, o) ∈ items → o ∈ os ∨ (k, o) ∈ d
  | [], d, items, _, h => by
    simp only [buildItems, Option.some.injEq] at h
    subst h
    exact fun k o h => Or.inr h
  | x :: os, d, items, hd, h => by
    simp only [buildItems] at h
    split at h
    · cases h
    · rename_i j hj
      intro k o hm
      rcases buildItems_mem key os _ items (PyDict.WF_set hd _ _) h k o hm with h1 | h1
      · exact Or.inl (by simp [h1])
      · have := PyDict.mem_get? (PyDict.WF_set hd j x) h1
        rw [PyDict.get?_set] at this
        split at this
        · cases this
          exact Or.inl (by simp)
        · exact Or.inr (PyDict.get?_mem this)

/-- The invariant together with the keys whose last write has returned. -/
structure RKeys (s : State K O N V) (ok : K → Bool) : Prop extends RInv s where
  full : ∀ k o, ok k = true → s.items.get? k = some o → Full o k s.indices s.indexers

theorem ret_returned (r : State K O N V × Option Exc) :
    (returned (ret r).2 = true ↔ r.2 = none) := by
  obtain ⟨s, e⟩ := r
  cases e <;> simp [ret, returned]

theorem rkeys_put {s : State K O N V} {ok : K → Bool} (h : RKeys s ok) (hd : Distinct s.indexers)
    (k : K) (o : O) :
    RKeys (ret (put s k o)).1
      (fun j => if some k = some j then returned (ret (put s k o)).2 else ok j) := by
  rw [ret_fst]
  obtain ⟨a, b, c⟩ := rinv_put h.toRInv hd k o
  refine ⟨a, ?_⟩
  intro j o' hj hg
  by_cases hk : k = j
  · subst hk
    simp only [if_true] at hj
    have hg' : o' = o := by
      simp only [put, PyDict.get?_set_self, Option.some.injEq] at hg
      exact hg.symm
    subst hg'
    exact c ((ret_returned _).1 hj)
  · simp only [Option.some.injEq, hk, if_false] at hj
    have hg' : s.items.get? j = some o' := by
      simp only [put, PyDict.get?_set, hk, if_false] at hg
      exact hg
    exact full_congr (fun n hn v => b j (Ne.symm hk) n hn v) (h.full j o' hj hg')

theorem rkeys_delete {s : State K O N V} {ok : K → Bool} (h : RKeys s ok) (hd : Distinct s.indexers)
    (k : K) :
    RKeys (ret (delete s k)).1
      (fun j => if some k = some j then returned (ret (delete s k)).2 else ok j) := by
  rw [ret_fst]
  obtain ⟨a, b, c⟩ := rinv_delete h.toRInv hd k
  refine ⟨a, ?_⟩
  intro j o' hj hg
  by_cases hk : k = j
  · subst hk
    simp only [if_true] at hj
    rw [c ((ret_returned _).1 hj)] at hg
    cases hg
  · simp only [Option.some.injEq, hk, if_false] at hj
    rw [(b j (Ne.symm hk)).1] at hg
    rw [delete_indexers]
    exact full_congr (fun n hn v => (b j (Ne.symm hk)).2 n hn v) (h.full j o' hj hg)

theorem rkeys_step (key : O → Option K) {s : State K O N V} {ok : K → Bool} (h : RKeys s ok)
    (hd : Distinct s.indexers) (op : Op K O N V) :
    RKeys (step key s op).1 (fun k => okStep key k (ok k) (op, (step key s op).2)) := by
  have put' : ∀ o : O, RKeys (match key o with
      | none => (s, Out.raised Exc.storeKeyError)
      | some k => ret (put s k o)).1 (fun k => if key o = some k then returned (match key o with
      | none => (s, Out.raised Exc.storeKeyError)
      | some k => ret (put s k o)).2 else ok k) := by
    intro o
    cases hk : key o with
    | none => simpa using h
    | some k => exact rkeys_put h hd k o
  cases op with
  | add o => exact put' o
  | update o => exact put' o
  | delete o =>
    simp only [step, okStep]
    cases hk : key o with
    | none => simpa using h
    | some k => exact rkeys_delete h hd k
  | replace os =>
    simp only [step, okStep]
    cases hb : buildItems key os [] with
    | none =>
      have hall : os.all (fun o => (key o).isSome) ≠ true := by
        intro h1
        obtain ⟨items, h2⟩ := (buildItems_none key os []).1 h1
        rw [hb] at h2
        cases h2
      simpa [hall] using h
    | some items =>
      have hall : os.all (fun o => (key o).isSome) = true := (buildItems_none key os []).2 ⟨items, hb⟩
      rw [ret_fst]
      obtain ⟨a, b, -⟩ := rinv_replace h.toRInv (buildItems_wf key os [] items PyDict.WF_nil hb)
      refine ⟨a, ?_⟩
      intro j o hj hg
      rw [if_pos hall] at hj
      exact b ((ret_returned _).1 hj) j o hg
  | addIndexers new =>
    simp only [step, okStep, ret_fst]
    rw [addIndexers_indexers]
    exact h
  | get o =>
    simp only [step, okStep]
    cases key o <;> exact h
  | _ => exact h

theorem rkeys_exec (key : O → Option K) (os : List (Op K O N V)) : ∀ {s : State K O N V} {ok : K → Bool},
    RKeys s ok → Distinct s.indexers →
    RKeys (exec key s os) (fun k => (trace key s os).foldl (okStep key k) (ok k)) := by
  induction os with
  | nil => intro s ok h _; exact h
  | cons o os ih =>
    intro s ok h hd
    exact ih (rkeys_step key h hd o) (by rw [step_indexers]; exact hd)

theorem rkeys_reach (key : O → Option K) {fs : PyDict N (IndexFunc O V)} (hw : fs.WF) (hd : Distinct fs)
    (os : List (Op K O N V)) :
    RKeys (exec key (init fs) os) (fun k => lastOk key k (trace key (init fs) os)) :=
  rkeys_exec key os ⟨rinv_init hw, fun k o _ h => by simp [init] at h⟩ hd

/-- The map is the one of the calls that have had an effect, whatever the index functions do. -/
theorem sim_step (key : O → Option K) {s : State K O N V} {b : Book K O} (h : Sim b s.items)
    (op : Op K O N V) :
    Sim (if effective (op, (step key s op).2) then b.step key op else b) (step key s op).1.items := by
  cases op with
  | add o =>
    simp only [effective, step, Book.step, if_true]
    cases key o with
    | none => exact h
    | some k => rw [ret_fst]; exact h.put k o
  | update o =>
    simp only [effective, step, Book.step, if_true]
    cases key o with
    | none => exact h
    | some k => rw [ret_fst]; exact h.put k o
  | delete o =>
    simp only [effective, step, Book.step]
    obtain hk | ⟨k, hk⟩ : key o = none ∨ ∃ k, key o = some k := by cases key o <;> simp
    · simpa [hk] using h
    · simp only [hk]
      rw [ret_fst]
      simp only [ret_returned, delete]
      cases hg : s.items.get? k with
      | none =>
        have hd := h.drop k
        rw [PyDict.del_of_not_mem (PyDict.get?_eq_none.1 hg)] at hd
        simpa using hd
      | some o' =>
        dsimp only
        obtain ⟨ix, e, hx⟩ : ∃ ix e, deleteFromIndices o' k s.indexers s.indices = (ix, e) := ⟨_, _, rfl⟩
        cases e with
        | none => simpa [hx] using h.drop k
        | some e => simpa [hx] using h
  | replace os =>
    simp only [effective, step, Book.step, if_true]
    obtain ⟨h1, h2⟩ := buildItems_spec key os Book.empty [] Sim.empty
    by_cases hall : os.all (fun o => (key o).isSome) = true
    · obtain ⟨items, h3, h4⟩ := h1 hall
      simp only [h3, ret_fst, hall, if_true]
      exact h4
    · simp only [h2 (by simpa using hall), hall]
      exact h
  | addIndexers new =>
    simp only [effective, step, Book.step, ret_fst, if_true]
    rw [addIndexers_indexers]
    exact h
  | get o =>
    simp only [effective, step, Book.step, if_true]
    cases key o <;> exact h
  | _ => exact h

theorem Sim.values {b : Book K O} {d : PyDict K O} (h : Sim b d) : d.values = b.objects := by
  have key : ∀ d e : PyDict K O, d.WF → e.WF → (∀ p ∈ d, p ∈ e) →
      d.values = d.keys.filterMap e.get? := by
    intro d
    induction d with
    | nil => intro e _ _ _; rfl
    | cons p d ih =>
      intro e hd he hs
      obtain ⟨k, o⟩ := p
      have : e.get? k = some o := PyDict.mem_get? he (hs _ (by simp))
      simp only [PyDict.keys_cons, List.filterMap_cons, this]
      rw [← ih e (List.nodup_cons.1 hd).2 he (fun p hp => hs p (by simp [hp]))]
      rfl
  rw [Book.objects, h.order, funext h.val]
  exact key d d h.wf h.wf fun _ h => h

theorem sim_exec (key : O → Option K) (os : List (Op K O N V)) : ∀ {s : State K O N V} {b : Book K O},
    Sim b s.items →
    Sim ((((trace key s os).filter effective).map Prod.fst).foldl (Book.step key) b)
      (exec key s os).items := by
  induction os with
  | nil => intro s b h; exact h
  | cons o os ih =>
    intro s b h
    have h1 := sim_step key h o
    have h2 := ih h1
    simp only [trace, List.filter_cons]
    split
    · rename_i he
      rw [if_pos he] at h2
      exact h2
    · rename_i he
      rw [if_neg he] at h2
      exact h2

end Aiok8s.Store
