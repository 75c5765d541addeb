import Verif.Spec.IndexedInformer
import Verif.Proof.StoreRaise
import Verif.Proof.SharedInformer
/-!
# Lemmas for the shared informer with its indexer (C85)
-/
set_option linter.unusedSectionVars false
namespace Aiok8s.Store
open Spec
variable {K O N V : Type} [DecidableEq K] [DecidableEq N] [DecidableEq V]

/-- What is stored under `k` is listed in full. -/
def FullAt (s : State K O N V) (k : K) : Prop :=
  ∀ o, s.items.get? k = some o → Full o k s.indices s.indexers

theorem put_ok {s : State K O N V} (h : RInv s) (hd : Distinct s.indexers) {k : K}
    (hf : FullAt s k) {o : O} (hr : Returns s.indexers o) : (put s k o).2 = none := by
  simp only [put, updateIndices]
  cases ho : s.items.get? k with
  | none =>
    exact (add_prefix (obj := o) s.indexers s.indices h.wfx h.fine (h.gone k ho)).2.2.2.2.2 hr
  | some old =>
    obtain ⟨a, b, -, -, e⟩ := delete_all (obj := old) (key := k) s.indexers s.indices h.wfx hd h.fine
      (h.pre k old ho)
    have e := e (hf old ho)
    dsimp only
    cases hx : deleteFromIndices old k s.indexers s.indices with
    | mk ix ex =>
      rw [hx] at a b e
      dsimp only at a b e
      subst e
      exact (add_prefix (obj := o) s.indexers ix h.wfx a
        (fun n hn v hh => ((b n hn v k).1 hh).2 rfl)).2.2.2.2.2 hr

theorem delete_ok {s : State K O N V} (h : RInv s) (hd : Distinct s.indexers) {k : K}
    (hf : FullAt s k) : (delete s k).2 = none := by
  simp only [delete]
  cases ho : s.items.get? k with
  | none => rfl
  | some old =>
    obtain ⟨-, -, -, -, e⟩ := delete_all (obj := old) (key := k) s.indexers s.indices h.wfx hd h.fine
      (h.pre k old ho)
    have e := e (hf old ho)
    dsimp only
    cases hx : deleteFromIndices old k s.indexers s.indices with
    | mk ix ex =>
      rw [hx] at e
      dsimp only at e
      subst e
      rfl

theorem deleteFromIndices_stuck {o : O} {k : K} : ∀ (fs : PyDict N (IndexFunc O V))
    (ix : PyDict N (Index V K)), (∃ p ∈ fs, p.2 o = none) → (deleteFromIndices o k fs ix).2 ≠ none
  | [], _, h => by obtain ⟨p, hp, -⟩ := h; simp at hp
  | (n, f) :: fs, ix, h => by
    simp only [deleteFromIndices]
    cases hf : f o with
    | none => simp
    | some vs =>
      have h' : ∃ p ∈ fs, p.2 o = none := by
        obtain ⟨p, hp, hn⟩ := h
        rcases List.mem_cons.1 hp with rfl | hp
        · exact absurd (hf.symm.trans hn) (by simp)
        · exact ⟨p, hp, hn⟩
      dsimp only
      cases ix.get? n with
      | none => exact deleteFromIndices_stuck fs ix h'
      | some idx =>
        dsimp only
        split
        · exact deleteFromIndices_stuck fs _ h'
        · simp

theorem put_stuck {s : State K O N V} {k : K} {old : O} (ho : s.items.get? k = some old)
    (hx : ∃ p ∈ s.indexers, p.2 old = none) (o : O) : (put s k o).2 ≠ none := by
  simp only [put, updateIndices, ho]
  have := deleteFromIndices_stuck (k := k) s.indexers s.indices hx
  cases h : deleteFromIndices old k s.indexers s.indices with
  | mk ix ex =>
    rw [h] at this
    cases ex with
    | none => exact absurd rfl this
    | some e => simp

theorem delete_stuck {s : State K O N V} {k : K} {old : O} (ho : s.items.get? k = some old)
    (hx : ∃ p ∈ s.indexers, p.2 old = none) :
    (delete s k).2 ≠ none ∧ (delete s k).1.items = s.items := by
  simp only [delete, ho]
  have := deleteFromIndices_stuck (k := k) s.indexers s.indices hx
  cases h : deleteFromIndices old k s.indexers s.indices with
  | mk ix ex =>
    rw [h] at this
    cases ex with
    | none => exact absurd rfl this
    | some e => simp

theorem put_items (s : State K O N V) (k : K) (o : O) : (put s k o).1.items = s.items.set k o := rfl

theorem delete_items {s : State K O N V} {k : K} (h : (delete s k).2 = none) :
    (delete s k).1.items = s.items.del k := by
  unfold delete at h ⊢
  cases ho : s.items.get? k with
  | none => exact (PyDict.del_of_not_mem (PyDict.get?_eq_none.1 ho)).symm
  | some old =>
    rw [ho] at h
    dsimp only at h ⊢
    cases hx : deleteFromIndices old k s.indexers s.indices with
    | mk ix ex =>
      rw [hx] at h
      cases ex with
      | none => rfl
      | some e => simp at h

/-- A deletion removes the object or changes nothing in the map. -/
theorem delete_get {s : State K O N V} (k : K) :
    (delete s k).1.items = s.items ∨ (delete s k).1.items = s.items.del k := by
  unfold delete
  cases ho : s.items.get? k with
  | none => exact Or.inl rfl
  | some old =>
    dsimp only
    cases hx : deleteFromIndices old k s.indexers s.indices with
    | mk ix ex =>
      cases ex with
      | none => exact Or.inr rfl
      | some e => exact Or.inl rfl

end Aiok8s.Store

namespace Aiok8s.IndexedInformer
open Aiok8s.DeltaFifo (Obj Delta Deltas DType keyOf)
open Aiok8s.DeltaFifo.Spec (Entry merge pendingOf entries resyncs)
open Aiok8s.Informer (Note nextDeltas viewOf after okFrom Fit opOf)
open Aiok8s.Informer.Spec (View see Sensible AllSensible)
open Aiok8s.SharedInformer (Ev receive)
open Aiok8s.SharedInformer.Spec (view Ev.selects)
open Aiok8s.Store (RInv Full FullAt Has IndexFunc)
open Aiok8s.Store.Spec (Distinct Returns)
open Spec
variable {K O N V : Type} [DecidableEq K] [DecidableEq N] [DecidableEq V]

/-! ## `handle_deltas` -/

/-- Keys other than `j` are left alone. -/
structure Keeps (key : O → Option K) (j : K) (ix ix' : Store.State K (Obj K O) N V) : Prop where
  rinv : RInv ix'
  fs : ix'.indexers = ix.indexers
  own : ∀ k x, ix'.items.get? k = some x → keyOf key x = some k
  other : ∀ k, k ≠ j → ix'.items.get? k = ix.items.get? k
  listed : ∀ k, k ≠ j → ∀ n ∈ ix.indexers.keys, ∀ v, (Has ix'.indices n v k ↔ Has ix.indices n v k)

theorem Keeps.full {key : O → Option K} {j k : K} {ix ix' : Store.State K (Obj K O) N V}
    (h : Keeps key j ix ix') (hk : k ≠ j) (hf : FullAt ix k) : FullAt ix' k := by
  intro o ho
  rw [h.other k hk] at ho
  rw [h.fs]
  exact Store.full_congr (fun n hn v => h.listed k hk n hn v) (hf o ho)

theorem keeps_put {key : O → Option K} {ix : Store.State K (Obj K O) N V} (hr : RInv ix)
    (hd : Distinct ix.indexers) (ho : ∀ k x, ix.items.get? k = some x → keyOf key x = some k)
    {j : K} {x : Obj K O} (hx : keyOf key x = some j) : Keeps key j ix (Store.put ix j x).1 := by
  obtain ⟨a, b, -⟩ := Store.rinv_put hr hd j x
  refine ⟨a, rfl, ?_, ?_, b⟩
  · intro k y hy
    rw [Store.put_items, PyDict.get?_set] at hy
    split at hy
    · rename_i h; subst h; cases hy; exact hx
    · exact ho k y hy
  · intro k hk
    rw [Store.put_items, PyDict.get?_set, if_neg (Ne.symm hk)]

theorem keeps_delete {key : O → Option K} {ix : Store.State K (Obj K O) N V} (hr : RInv ix)
    (hd : Distinct ix.indexers) (ho : ∀ k x, ix.items.get? k = some x → keyOf key x = some k) (j : K) :
    Keeps key j ix (Store.delete ix j).1 := by
  obtain ⟨a, b, -⟩ := Store.rinv_delete hr hd j
  refine ⟨a, Store.delete_indexers _ _, ?_, fun k hk => (b k hk).1, fun k hk => (b k hk).2⟩
  intro k x hx
  rcases Store.delete_get (s := ix) j with h | h
  · rw [h] at hx; exact ho k x hx
  · rw [h, PyDict.get?_del hr.wf] at hx
    split at hx
    · cases hx
    · exact ho k x hx

theorem keeps_apply {key : O → Option K} {ix : Store.State K (Obj K O) N V} (hr : RInv ix)
    (hd : Distinct ix.indexers) (ho : ∀ k x, ix.items.get? k = some x → keyOf key x = some k)
    {d : Delta K O} {j : K} (hj : keyOf key d.object = some j) :
    Keeps key j ix (applyOne key ix d).1 ∧
    ∀ n, (applyOne key ix d).2 = some n → keyOf key (subject n) = some j := by
  simp only [applyOne, hj]
  split
  · have := keeps_delete hr hd ho j
    cases hx : Store.delete ix j with
    | mk ix' e =>
      rw [hx] at this
      cases e with
      | none => exact ⟨this, by rintro n ⟨⟩; exact hj⟩
      | some e => exact ⟨this, by simp⟩
  · have := keeps_put hr hd ho hj
    cases hx : Store.put ix j d.object with
    | mk ix' e =>
      rw [hx] at this
      cases e with
      | none =>
        refine ⟨this, ?_⟩
        cases ix.items.get? j <;> (rintro n ⟨⟩; exact hj)
      | some e => exact ⟨this, by simp⟩

theorem Keeps.trans {key : O → Option K} {j : K} {a b c : Store.State K (Obj K O) N V}
    (h1 : Keeps key j a b) (h2 : Keeps key j b c) : Keeps key j a c :=
  ⟨h2.rinv, h2.fs.trans h1.fs, h2.own, fun k hk => (h2.other k hk).trans (h1.other k hk),
    fun k hk n hn v => (h2.listed k hk n (by rw [h1.fs]; exact hn) v).trans (h1.listed k hk n hn v)⟩

theorem keeps_handle {key : O → Option K} {j : K} (ds : Deltas K O) :
    ∀ {ix : Store.State K (Obj K O) N V}, RInv ix → Distinct ix.indexers →
    (∀ k x, ix.items.get? k = some x → keyOf key x = some k) →
    (∀ d ∈ ds, keyOf key d.object = some j) →
    Keeps key j ix (handleDeltas key ix ds).1 ∧
    ∀ n ∈ (handleDeltas key ix ds).2.1, keyOf key (subject n.1) = some j := by
  induction ds with
  | nil =>
    intro ix hr hd ho _
    exact ⟨⟨hr, rfl, ho, fun _ _ => rfl, fun _ _ _ _ _ => Iff.rfl⟩, by simp [handleDeltas]⟩
  | cons d ds ih =>
    intro ix hr hd ho hk
    obtain ⟨h1, h2⟩ := keeps_apply hr hd ho (hk d (by simp))
    simp only [handleDeltas]
    cases hx : applyOne key ix d with
    | mk ix' e =>
      rw [hx] at h1 h2
      cases e with
      | none => exact ⟨h1, by simp⟩
      | some n =>
        obtain ⟨h3, h4⟩ := ih h1.rinv (by rw [h1.fs]; exact hd) h1.own (fun e he => hk e (by simp [he]))
        refine ⟨h1.trans h3, ?_⟩
        intro m hm
        rcases List.mem_cons.1 hm with rfl | hm
        · exact h2 n rfl
        · exact h4 m hm

/-- Without an exception the indexer is a map. -/
theorem apply_good {key : O → Option K} {ix : Store.State K (Obj K O) N V} (hr : RInv ix)
    (hd : Distinct ix.indexers) {d : Delta K O} {j : K} (hj : keyOf key d.object = some j)
    (hf : FullAt ix j) (hret : d.type ≠ .deleted → Returns ix.indexers d.object) :
    ∃ ix' n, applyOne key ix d = (ix', some n) ∧
      Informer.applyOne key ix.items d = some (ix'.items, n) ∧ FullAt ix' j := by
  simp only [applyOne, Informer.applyOne, hj]
  by_cases ht : d.type = .deleted
  · simp only [ht, if_true]
    have h1 := Store.delete_ok hr hd hf
    have h2 := Store.delete_items h1
    have h3 := (Store.rinv_delete hr hd j).2.2 h1
    cases hx : Store.delete ix j with
    | mk ix' e =>
      rw [hx] at h1 h2 h3
      dsimp only at h1 h2 h3
      subst h1
      refine ⟨ix', _, rfl, by rw [h2], ?_⟩
      intro o ho
      rw [h3] at ho
      cases ho
  · simp only [ht, if_false]
    have h1 := Store.put_ok hr hd hf (hret ht)
    have h2 := (Store.rinv_put hr hd j d.object).2.2 h1
    have h3 := Store.put_items ix j d.object
    have h4 := Store.put_indexers ix j d.object
    cases hx : Store.put ix j d.object with
    | mk ix' e =>
      rw [hx] at h1 h2 h3 h4
      dsimp only at h1 h2 h3 h4
      subst h1
      have h5 : FullAt ix' j := by
        intro o ho
        rw [h3, PyDict.get?_set_self] at ho
        cases ho
        rw [h4]
        exact h2
      cases ix.items.get? j with
      | none => exact ⟨ix', _, rfl, by rw [h3], h5⟩
      | some old => exact ⟨ix', _, rfl, by rw [h3], h5⟩

theorem handle_good {key : O → Option K} {j : K} (ds : Deltas K O) :
    ∀ {ix : Store.State K (Obj K O) N V}, RInv ix → Distinct ix.indexers →
    (∀ k x, ix.items.get? k = some x → keyOf key x = some k) →
    (∀ d ∈ ds, keyOf key d.object = some j) → FullAt ix j →
    (∀ d ∈ ds, d.type ≠ .deleted → Returns ix.indexers d.object) →
    (handleDeltas key ix ds).2.2 = true ∧
    (handleDeltas key ix ds).1.items = (SharedInformer.handleDeltas key ix.items ds).1 ∧
    (handleDeltas key ix ds).2.1 = (SharedInformer.handleDeltas key ix.items ds).2 ∧
    FullAt (handleDeltas key ix ds).1 j := by
  induction ds with
  | nil => intro ix _ _ _ _ hf _; exact ⟨rfl, rfl, rfl, hf⟩
  | cons d ds ih =>
    intro ix hr hd ho hk hf hret
    obtain ⟨h1, -⟩ := keeps_apply hr hd ho (hk d (by simp))
    obtain ⟨ix', n, h2, h3, h4⟩ := apply_good hr hd (hk d (by simp)) hf (hret d (by simp))
    rw [h2] at h1
    obtain ⟨a, b, c, e⟩ := ih h1.rinv (by rw [h1.fs]; exact hd) h1.own (fun e he => hk e (by simp [he])) h4
      (fun e he => by rw [h1.fs]; exact hret e (by simp [he]))
    dsimp only at a b c e
    simp only [handleDeltas, h2, SharedInformer.handleDeltas, h3]
    exact ⟨a, b, by rw [c], e⟩

/-- As long as something is stored on which a function raises, nothing happens. -/
theorem handle_stuck {key : O → Option K} {j : K} {o : Obj K O} :
    ∀ {ds : Deltas K O} {ix : Store.State K (Obj K O) N V}, ds ≠ [] →
    (∀ d ∈ ds, keyOf key d.object = some j) → ix.items.get? j = some o →
    (∃ p ∈ ix.indexers, p.2 o = none) →
    (∀ d ∈ ds, d.type ≠ .deleted → d.object = o) →
    (handleDeltas key ix ds).1.items.get? j = some o ∧ (handleDeltas key ix ds).2.1 = [] ∧
    (handleDeltas key ix ds).2.2 = false
  | [], _, h, _, _, _, _ => absurd rfl h
  | d :: ds, ix, _, hk, ho, hx, hs => by
    simp only [handleDeltas, applyOne, hk d (by simp)]
    by_cases ht : d.type = .deleted
    · simp only [ht, if_true]
      have h1 := Store.delete_stuck ho hx
      cases hy : Store.delete ix j with
      | mk ix' e =>
        rw [hy] at h1
        cases e with
        | none => exact absurd rfl h1.1
        | some e =>
          dsimp only at h1 ⊢
          rw [h1.2]
          exact ⟨ho, rfl, rfl⟩
    · simp only [ht, if_false]
      have h1 := Store.put_stuck ho hx d.object
      have h2 := Store.put_items ix j d.object
      cases hy : Store.put ix j d.object with
      | mk ix' e =>
        rw [hy] at h1 h2
        cases e with
        | none => exact absurd rfl h1
        | some e =>
          dsimp only at h2 ⊢
          rw [h2, PyDict.get?_set_self, hs d (by simp) ht]
          exact ⟨rfl, rfl, rfl⟩

/-! ## What is pending -/

/-- All pending objects satisfy `P`. -/
def Pend (P : K → Obj K O → Prop) (log : List (Entry K O)) : Prop :=
  ∀ k, ∀ d ∈ pendingOf k log, d.type ≠ .deleted → P k d.object

theorem pend_change {P : K → Obj K O → Prop} {log : List (Entry K O)} (h : Pend P log) (j : K)
    (d : Delta K O) (hd : d.type ≠ .deleted → P j d.object) :
    Pend P (log ++ [.change j d]) := by
  intro k e he ht
  rw [DeltaFifo.pendingOf_change] at he
  split at he
  · rename_i hj
    subst hj
    rcases Informer.merge_mem _ _ _ he with he | rfl
    · exact h j e he ht
    · exact hd ht
  · exact h k e he ht

theorem pend_changes {P : K → Obj K O → Prop} (es : List (Entry K O)) :
    ∀ {log : List (Entry K O)}, Pend P log →
    (∀ e ∈ es, ∃ j d, e = .change j d ∧ (d.type ≠ .deleted → P j d.object)) →
    Pend P (log ++ es) := by
  induction es with
  | nil => intro log h _; simpa using h
  | cons e es ih =>
    intro log h he
    obtain ⟨j, d, rfl, h1⟩ := he e (by simp)
    rw [List.append_cons]
    exact ih (pend_change h j d h1) (fun e' h' => he e' (by simp [h']))

theorem syncs_mem (key : O → Option K) (xs : List (Obj K O)) :
    ∀ e ∈ DeltaFifo.Spec.syncs key xs, ∃ k, ∃ x ∈ xs, e = .change k ⟨.sync, x⟩ ∧ keyOf key x = some k := by
  induction xs with
  | nil => simp [DeltaFifo.Spec.syncs]
  | cons x xs ih =>
    simp only [DeltaFifo.Spec.syncs]
    cases hk : keyOf key x with
    | none => simp
    | some k =>
      simp only [List.mem_cons]
      rintro e (rfl | he)
      · exact ⟨k, x, Or.inl rfl, rfl, hk⟩
      · obtain ⟨j, y, h1, h2⟩ := ih e he
        exact ⟨j, y, Or.inr h1, h2⟩

theorem resyncs_mem (key : O → Option K) (kn : DeltaFifo.Known K O) (log : List (Entry K O))
    (ks : List K) : ∀ done, ∀ e ∈ resyncs key kn log done ks,
    ∃ i k x, e = .change k ⟨.sync, x⟩ ∧ keyOf key x = some k ∧ kn.get i = some (some x) := by
  induction ks with
  | nil => simp [resyncs]
  | cons j ks ih =>
    intro done
    simp only [resyncs]
    split
    · rename_i x hx
      split
      · simp
      · rename_i id hid
        split
        · exact ih _
        · simp only [List.mem_cons]
          rintro e (rfl | he)
          · exact ⟨j, id, _, rfl, hid, hx⟩
          · exact ih _ e he
    · exact ih _

/-- A call on the queue. -/
theorem pend_entries {key : O → Option K} {P : K → Obj K O → Prop} {s : Informer.State K O}
    {log : List (Entry K O)} (h : Pend P log)
    (hown : ∀ k x, s.items.get? k = some x → keyOf key x = some k)
    (hst : ∀ k x, s.items.get? k = some x → P k x) (e : Informer.Ev K O) (o : DeltaFifo.Op K O)
    (out : DeltaFifo.Out K O) (ho : opOf s e = some o)
    (hadd : ∀ x, e = .add x → ∀ k, keyOf key x = some k → P k x)
    (hupd : ∀ x, e = .update x → ∀ k, keyOf key x = some k → P k x)
    (hrep : ∀ xs, e = .replace xs → ∀ x ∈ xs, ∀ k, keyOf key x = some k → P k x) :
    Pend P (log ++ entries key log (o, out)) := by
  cases e with
  | add x =>
    simp only [opOf, Option.some.injEq] at ho; subst ho
    simp only [entries]
    cases hk : keyOf key x with
    | none => simpa using h
    | some j => exact pend_change h j _ (fun _ => hadd x rfl j hk)
  | update x =>
    simp only [opOf, Option.some.injEq] at ho; subst ho
    simp only [entries]
    cases hk : keyOf key x with
    | none => simpa using h
    | some j => exact pend_change h j _ (fun _ => hupd x rfl j hk)
  | delete x =>
    simp only [opOf, Option.some.injEq] at ho; subst ho
    simp only [entries]
    cases hk : keyOf key x with
    | none => simpa using h
    | some j =>
      dsimp only
      split
      · simpa using h
      · exact pend_change h j _ (by simp)
  | replace xs =>
    simp only [opOf, Option.some.injEq] at ho; subst ho
    refine pend_changes _ h ?_
    intro e he
    simp only [entries, List.mem_append] at he
    rcases he with he | he
    · obtain ⟨j, x, h1, rfl, h2⟩ := syncs_mem key xs e he
      exact ⟨j, _, rfl, fun _ => hrep xs rfl x h1 j h2⟩
    · cases hks : DeltaFifo.Spec.keysOf key xs with
      | none => rw [hks] at he; simp at he
      | some keys =>
        rw [hks] at he
        simp only [DeltaFifo.Spec.vanished, List.mem_map, List.mem_filter] at he
        obtain ⟨j, -, rfl⟩ := he
        exact ⟨j, _, rfl, by simp⟩
  | resync =>
    simp only [opOf, Option.some.injEq] at ho; subst ho
    refine pend_changes _ h ?_
    intro e he
    obtain ⟨i, j, x, rfl, h1, h2⟩ := resyncs_mem key _ _ _ _ e he
    refine ⟨j, _, rfl, ?_⟩
    intro _
    have h3 : s.items.get? i = some x := by simpa [Informer.known] using h2
    have h4 := hown i x h3
    rw [h1] at h4
    cases h4
    exact hst _ x h3
  | pop h => simp [opOf] at ho

/-! ## One step -/

/-- What is known about queue and indexer, whatever the index functions do. -/
structure Base (key : O → Option K) (fs : PyDict N (IndexFunc (Obj K O) V)) (s : State K O N V)
    (log : List (Entry K O)) : Prop where
  inv : Informer.Inv key ⟨s.q, s.ix.items⟩ log
  fit : Fit s.ix.items log
  rinv : RInv s.ix
  fs : s.ix.indexers = fs

theorem base_init (key : O → Option K) {fs : PyDict N (IndexFunc (Obj K O) V)} (hw : fs.WF) :
    Base key fs (init fs) [] :=
  ⟨Informer.inv_init key, Informer.fit_init, Store.rinv_init hw, rfl⟩

theorem pop_cases {key : O → Option K} {fs : PyDict N (IndexFunc (Obj K O) V)} (hd : Distinct fs)
    {s : State K O N V} {log : List (Entry K O)} (h : Base key fs s log) :
    (s.q.queue = [] ∧ nextDeltas s.q = none ∧ pop key s = s) ∨
    (∃ k rest, s.q.queue = k :: rest ∧ pendingOf k log ≠ [] ∧
      nextDeltas s.q = some (pendingOf k log) ∧
      s.q.items.get? k = some (pendingOf k log) ∧
      (∀ d ∈ pendingOf k log, keyOf key d.object = some k) ∧
      pop key s = { s with
        q := { s.q with queue := rest, count := s.q.count - 1, items := s.q.items.del k }
        ix := (handleDeltas key s.ix (pendingOf k log)).1
        sent := distribute s (handleDeltas key s.ix (pendingOf k log)).2.1 } ∧
      Base key fs (pop key s) (log ++ [.popped k])) := by
  rcases DeltaFifo.pop_cases h.inv.sim .ok with ⟨h1, h2⟩ | ⟨k, rest, hq, hp, h2⟩
  · left
    have hn : nextDeltas s.q = none := by
      simp only [nextDeltas, h2]
      cases s.q.closed <;> rfl
    exact ⟨h1, hn, by simp only [pop, hn, h2]⟩
  · right
    have hn : nextDeltas s.q = some (pendingOf k log) := by
      simp only [nextDeltas, h2, DeltaFifo.finish]
    have hg : s.q.items.get? k = some (pendingOf k log) := by
      have := h.inv.sim.get k
      rw [if_neg hp] at this
      exact this
    have hpe : pop key s = { s with
        q := { s.q with queue := rest, count := s.q.count - 1, items := s.q.items.del k }
        ix := (handleDeltas key s.ix (pendingOf k log)).1
        sent := distribute s (handleDeltas key s.ix (pendingOf k log)).2.1 } := by
      simp only [pop, hn]
      rcases DeltaFifo.pop_cases h.inv.sim
          (if (handleDeltas key s.ix (pendingOf k log)).2.2 = true then .ok else .error) with
        ⟨h1, -⟩ | ⟨k', rest', hq', hp', h2'⟩
      · have := h1.symm.trans hq
        cases this
      · have := hq.symm.trans hq'
        injection this with ha hb
        subst ha hb
        rw [h2']
        cases (handleDeltas key s.ix (pendingOf k log)).2.2 <;> simp [DeltaFifo.finish]
    refine ⟨k, rest, hq, hp, hn, hg, h.inv.keyed k, hpe, ?_⟩
    rw [hpe]
    obtain ⟨h3, -⟩ := keeps_handle (pendingOf k log) h.rinv (by rw [h.fs]; exact hd) h.inv.own (h.inv.keyed k)
    have hsim := DeltaFifo.sim_step h.inv.sim (.pop .ok)
    simp only [DeltaFifo.step, h2, DeltaFifo.finish, entries] at hsim
    refine ⟨⟨hsim, h3.rinv.wf, h3.own, ?_⟩, ?_, h3.rinv, h3.fs.trans h.fs⟩
    · intro j d hjd
      rw [DeltaFifo.pendingOf_popped] at hjd
      split at hjd
      · simp at hjd
      · exact h.inv.keyed j d hjd
    · intro j
      rw [DeltaFifo.pendingOf_popped]
      split
      · exact trivial
      · rename_i hj
        dsimp only
        rw [h3.other j (Ne.symm hj)]
        exact h.fit j

/-- A step that is no pop: only the queue, the listeners and the flags change. -/
theorem step_cases {key : O → Option K} {fs : PyDict N (IndexFunc (Obj K O) V)}
    {s : State K O N V} {log : List (Entry K O)} (h : Base key fs s log) {P : K → Obj K O → Prop}
    (hP : Pend P log) (hst : ∀ k x, s.ix.items.get? k = some x → P k x) (e : Ev K O) (hp : e ≠ .pop)
    (hb : ∀ x ∈ brings e, ∀ k, keyOf key x = some k → P k x) :
    (step key s e).ix = s.ix ∧ ∃ log', Base key fs (step key s e) log' ∧ Pend P log' ∧
      (s.started = true → log' = log ++ match toInf e with
        | some e' => Informer.evEntries key ⟨s.q, s.ix.items⟩ log e'
        | none => []) := by
  have hq : ∀ (e' : Informer.Ev K O) (o : DeltaFifo.Op K O), opOf ⟨s.q, s.ix.items⟩ e' = some o →
      toInf e = some e' →
      (onQueue key s o).ix = s.ix ∧ ∃ log', Base key fs (onQueue key s o) log' ∧ Pend P log' ∧
      (s.started = true → log' = log ++ match toInf e with
        | some e' => Informer.evEntries key ⟨s.q, s.ix.items⟩ log e'
        | none => []) := by
    intro e' o ho hee
    unfold onQueue
    split
    · refine ⟨rfl, _, ⟨Informer.inv_call h.inv e' o ho, Informer.fit_entries h.fit e' o _ ho, h.rinv, h.fs⟩, ?_,
        ?_⟩
      on_goal 2 =>
        intro _
        simp only [hee]
        have he : Informer.evEntries key ⟨s.q, s.ix.items⟩ log e'
            = entries key log (o, (Informer.call key ⟨s.q, s.ix.items⟩ o).2.2) := by
          cases e' <;> simp_all [Informer.evEntries, Informer.step_op ho] <;> simp [opOf] at ho
        rw [he]
      refine pend_entries (s := ⟨s.q, s.ix.items⟩) hP h.inv.own hst e' o _ ho ?_ ?_ ?_
      · rintro x rfl
        cases e <;> simp only [toInf, Option.some.injEq, reduceCtorEq, Informer.Ev.add.injEq] at hee
        subst hee
        exact hb _ (by simp [brings])
      · rintro x rfl
        cases e <;> simp only [toInf, Option.some.injEq, reduceCtorEq, Informer.Ev.update.injEq] at hee
        subst hee
        exact hb _ (by simp [brings])
      · rintro xs rfl x hx
        cases e <;> simp only [toInf, Option.some.injEq, reduceCtorEq, Informer.Ev.replace.injEq] at hee
        subst hee
        exact hb _ (by simpa [brings] using hx)
    · rename_i hs
      exact ⟨rfl, log, h, hP, fun h => absurd h hs⟩
  cases e with
  | start => exact ⟨rfl, log, ⟨h.inv, h.fit, h.rinv, h.fs⟩, hP, fun _ => by simp [toInf]⟩
  | register => exact ⟨rfl, log, ⟨h.inv, h.fit, h.rinv, h.fs⟩, hP, fun _ => by simp [toInf]⟩
  | check due => exact ⟨rfl, log, ⟨h.inv, h.fit, h.rinv, h.fs⟩, hP, fun _ => by simp [toInf]⟩
  | pop => exact absurd rfl hp
  | add x => exact hq (.add x) _ rfl rfl
  | update x => exact hq (.update x) _ rfl rfl
  | delete x => exact hq (.delete x) _ rfl rfl
  | replace xs => exact hq (.replace xs) _ rfl rfl
  | resync => exact hq .resync _ rfl rfl

theorem pend_popped {P : K → Obj K O → Prop} {j : K} {log : List (Entry K O)} (h : Pend P log) :
    Pend P (log ++ [.popped j]) := by
  intro k d hd
  rw [DeltaFifo.pendingOf_popped] at hd
  split at hd
  · simp at hd
  · exact h k d hd

/-- Queue and indexer, with the keys `G` all of whose objects can be indexed. -/
structure Clean (key : O → Option K) (fs : PyDict N (IndexFunc (Obj K O) V)) (G : K → Prop)
    (s : State K O N V) (log : List (Entry K O)) : Prop where
  base : Base key fs s log
  pend : Pend (fun k x => G k → Returns fs x) log
  full : ∀ k, G k → FullAt s.ix k

theorem full_returns {s : State K O N V} {k : K} (hf : FullAt s.ix k) {x : Obj K O}
    (hx : s.ix.items.get? k = some x) : Returns s.ix.indexers x := by
  intro p hp
  obtain ⟨vs, h1, -⟩ := hf x hx p.1 p.2 hp
  exact ⟨vs, h1⟩

theorem clean_init (key : O → Option K) {fs : PyDict N (IndexFunc (Obj K O) V)} (hw : fs.WF)
    (G : K → Prop) : Clean key fs G (init fs) [] :=
  ⟨base_init key hw, by simp [Pend, pendingOf], by intro k _ o ho; simp [init, Store.init] at ho⟩

/-- What a pop does to such keys. -/
theorem clean_pop {key : O → Option K} {fs : PyDict N (IndexFunc (Obj K O) V)} (hd : Distinct fs)
    {G : K → Prop} {s : State K O N V} {log : List (Entry K O)} (h : Clean key fs G s log) :
    (s.q.queue = [] ∧ nextDeltas s.q = none ∧ pop key s = s) ∨
    (∃ j rest, s.q.queue = j :: rest ∧ pendingOf j log ≠ [] ∧
      nextDeltas s.q = some (pendingOf j log) ∧ s.q.items.get? j = some (pendingOf j log) ∧
      (∀ d ∈ pendingOf j log, keyOf key d.object = some j) ∧
      pop key s = { s with
        q := { s.q with queue := rest, count := s.q.count - 1, items := s.q.items.del j }
        ix := (handleDeltas key s.ix (pendingOf j log)).1
        sent := distribute s (handleDeltas key s.ix (pendingOf j log)).2.1 } ∧
      Clean key fs G (pop key s) (log ++ [.popped j]) ∧
      (∀ k, k ≠ j → (pop key s).ix.items.get? k = s.ix.items.get? k) ∧
      (∀ n ∈ (handleDeltas key s.ix (pendingOf j log)).2.1, keyOf key (subject n.1) = some j) ∧
      (G j → (handleDeltas key s.ix (pendingOf j log)).2.2 = true ∧
        (handleDeltas key s.ix (pendingOf j log)).1.items
          = (SharedInformer.handleDeltas key s.ix.items (pendingOf j log)).1 ∧
        (handleDeltas key s.ix (pendingOf j log)).2.1
          = (SharedInformer.handleDeltas key s.ix.items (pendingOf j log)).2)) := by
  obtain ⟨h1, h2, h3⟩ := h
  rcases pop_cases hd h1 with h4 | ⟨j, rest, a, b, c, d, e, f, g⟩
  · exact Or.inl h4
  · right
    obtain ⟨k1, k2⟩ := keeps_handle (pendingOf j log) h1.rinv (by rw [h1.fs]; exact hd) h1.inv.own e
    have hix : (pop key s).ix = (handleDeltas key s.ix (pendingOf j log)).1 := by rw [f]
    have hg : G j → _ := fun hG => handle_good (pendingOf j log) h1.rinv (by rw [h1.fs]; exact hd)
      h1.inv.own e (h3 j hG) (by rw [h1.fs]; exact fun d hd ht => h2 j d hd ht hG)
    refine ⟨j, rest, a, b, c, d, e, f, ⟨g, pend_popped h2, ?_⟩, ?_, k2, ?_⟩
    · intro k hG
      rw [hix]
      by_cases hk : k = j
      · subst hk
        exact (hg hG).2.2.2
      · exact k1.full hk (h3 k hG)
    · intro k hk
      rw [hix]
      exact k1.other k hk
    · intro hG
      obtain ⟨g1, g2, g3, -⟩ := hg hG
      exact ⟨g1, g2, g3⟩

theorem clean_step {key : O → Option K} {fs : PyDict N (IndexFunc (Obj K O) V)} (hd : Distinct fs)
    {G : K → Prop} {s : State K O N V} {log : List (Entry K O)} (h : Clean key fs G s log) (e : Ev K O)
    (hb : ∀ x ∈ brings e, ∀ k, keyOf key x = some k → G k → Returns fs x) :
    ∃ log', Clean key fs G (step key s e) log' := by
  by_cases hp : e = .pop
  · subst hp
    simp only [step]
    split
    · rcases clean_pop hd h with ⟨-, -, h1⟩ | ⟨j, rest, -, -, -, -, -, -, g, -⟩
      · rw [h1]; exact ⟨log, h⟩
      · exact ⟨_, g⟩
    · exact ⟨log, h⟩
  · obtain ⟨h1, log', h2, h3, -⟩ := step_cases h.base h.pend
      (fun k x hx hG => by rw [← h.base.fs]; exact full_returns (h.full k hG) hx) e hp hb
    exact ⟨log', h2, h3, by rw [h1]; exact h.full⟩

theorem clean_exec {key : O → Option K} {fs : PyDict N (IndexFunc (Obj K O) V)} (hd : Distinct fs)
    {G : K → Prop} (es : List (Ev K O)) : ∀ {s : State K O N V} {log : List (Entry K O)},
    Clean key fs G s log → (∀ k, G k → Only key k (Returns fs) es) →
    ∃ log', Clean key fs G (exec key s es) log' := by
  induction es with
  | nil => intro s log h _; exact ⟨log, h⟩
  | cons e es ih =>
    intro s log h ho
    obtain ⟨log', h'⟩ := clean_step hd h e (fun x hx k hk hG => ho k hG e (by simp) x hx hk)
    exact ih h' (fun k hG e' he => ho k hG e' (by simp [he]))

/-- Whatever the index functions do. -/
theorem base_exec {key : O → Option K} {fs : PyDict N (IndexFunc (Obj K O) V)} (hw : fs.WF)
    (hd : Distinct fs) (es : List (Ev K O)) : ∃ log, Base key fs (exec key (init fs) es) log := by
  obtain ⟨log, h⟩ := clean_exec hd es (clean_init key hw fun _ => False) (fun _ h => h.elim)
  exact ⟨log, h.base⟩

/-! ## What one listener knows about one key -/

theorem see_eq (key : O → Option K) (v : View K O) (n : Note K O) (k : K) :
    see key v n k = if keyOf key (subject n) = some k then
      (match n with | .onDelete _ => none | _ => some (subject n)) else v k := by
  cases n with
  | onAdd x | onUpdate old x | onDelete x =>
    simp only [see, subject]
    obtain hk | ⟨j, hk⟩ : keyOf key x = none ∨ ∃ j, keyOf key x = some j := by cases keyOf key x <;> simp
    · simp [hk]
    · by_cases hj : k = j
      · subst hj; simp [hk, Informer.Spec.View.put]
      · simp [hk, Informer.Spec.View.put, hj, Ne.symm hj]

theorem see_other {key : O → Option K} {k : K} {n : Note K O} (h : keyOf key (subject n) ≠ some k)
    (v : View K O) : see key v n k = v k := by
  rw [see_eq, if_neg h]

theorem see_congr {key : O → Option K} {k : K} (n : Note K O) {v w : View K O} (h : v k = w k) :
    see key v n k = see key w n k := by
  rw [see_eq, see_eq, h]

theorem foldl_other {key : O → Option K} {k : K} (ns : List (Note K O)) : ∀ v : View K O,
    (∀ n ∈ ns, keyOf key (subject n) ≠ some k) → ns.foldl (see key) v k = v k := by
  induction ns with
  | nil => intro v _; rfl
  | cons n ns ih =>
    intro v h
    rw [List.foldl_cons, ih _ (fun m hm => h m (by simp [hm])), see_other (h n (by simp))]

theorem foldl_filter {key : O → Option K} {k : K} (ns : List (Note K O)) : ∀ v w : View K O, v k = w k →
    ns.foldl (see key) v k = (ns.filter (about key k)).foldl (see key) w k := by
  induction ns with
  | nil => intro v w h; exact h
  | cons n ns ih =>
    intro v w h
    rw [List.filter_cons]
    by_cases ha : keyOf key (subject n) = some k
    · simp only [about, ha, decide_true, if_true, List.foldl_cons]
      exact ih _ _ (see_congr n h)
    · simp only [about, ha, decide_false, Bool.false_eq_true, if_false, List.foldl_cons]
      exact ih _ _ (by rw [see_other ha]; exact h)

theorem sensible_congr {key : O → Option K} {k : K} {n : Note K O} {v w : View K O} (h : v k = w k)
    (hn : keyOf key (subject n) = some k) (hs : Sensible key v n) : Sensible key w n := by
  cases n <;> simp only [subject] at hn <;> simp_all [Sensible]

theorem sensible_filter {key : O → Option K} {k : K} (ns : List (Note K O)) : ∀ v w : View K O,
    v k = w k → AllSensible key v ns → AllSensible key w (ns.filter (about key k)) := by
  induction ns with
  | nil => intro v w _ _; exact trivial
  | cons n ns ih =>
    intro v w h hs
    rw [List.filter_cons]
    by_cases ha : keyOf key (subject n) = some k
    · simp only [about, ha, decide_true, if_true]
      exact ⟨sensible_congr h ha hs.1, ih _ _ (see_congr n h) hs.2⟩
    · simp only [about, ha, decide_false, Bool.false_eq_true, if_false]
      exact ih _ _ (by rw [see_other ha]; exact h) hs.2

theorem distribute_get (s : State K O N V) (ns : List (Note K O × Bool)) (i : Nat) :
    (distribute s ns)[i]? = (s.sent[i]?).map fun l => l ++ receive (decide (i ∈ s.syncing)) ns := by
  simp [distribute, List.getElem?_mapIdx]

/-- What listener `i` knows about the key `k`. -/
structure Told (key : O → Option K) (k : K) (i : Nat) (s : State K O N V) : Prop where
  idle : s.started = false → s.ix.items = []
  syncing : i < s.sent.length → i ∈ s.syncing
  fresh : ∀ ns, s.sent[i]? = some ns → view key ns k = s.ix.items.get? k
  sensible : ∀ ns, s.sent[i]? = some ns →
    AllSensible key (fun _ => none) (ns.filter (about key k))

theorem told_init (key : O → Option K) (fs : PyDict N (IndexFunc (Obj K O) V)) (k : K) (i : Nat) :
    Told key k i (init fs) :=
  ⟨fun _ => rfl, by simp [init], by simp [init], by simp [init]⟩

theorem told_register {key : O → Option K} {fs : PyDict N (IndexFunc (Obj K O) V)} {k : K} {i : Nat}
    {s : State K O N V} {log : List (Entry K O)} (hB : Base key fs s log) (h : Told key k i s) :
    Told key k i (step key s .register) := by
  have hnew : ∀ ns, ns = (if s.started then s.ix.items.values.map Note.onAdd else []) →
      view key ns k = s.ix.items.get? k ∧ AllSensible key (fun _ => none) (ns.filter (about key k)) := by
    rintro ns rfl
    by_cases hs : s.started = true
    · simp only [hs, if_true]
      obtain ⟨h2, h3⟩ := SharedInformer.values_view s.ix.items (fun _ => none) hB.inv.wf hB.inv.own (by simp)
      refine ⟨?_, sensible_filter _ _ _ rfl h3⟩
      rw [view, h2 k]
      cases s.ix.items.get? k <;> rfl
    · have hs' : s.started = false := by simpa using hs
      simp only [hs', Bool.false_eq_true, if_false]
      rw [h.idle hs']
      exact ⟨rfl, trivial⟩
  have hget : ∀ ns, (step key s .register).sent[i]? = some ns → s.sent[i]? = some ns ∨
      ns = (if s.started then s.ix.items.values.map Note.onAdd else []) := by
    intro ns hns
    simp only [step] at hns
    rw [List.getElem?_append] at hns
    split at hns
    · exact Or.inl hns
    · rw [List.getElem?_singleton] at hns
      split at hns
      · simp only [Option.some.injEq] at hns; exact Or.inr hns.symm
      · simp at hns
  refine ⟨h.idle, ?_, ?_, ?_⟩
  · intro hlt
    simp only [step, List.length_append, List.length_singleton] at hlt
    simp only [step, List.mem_append, List.mem_singleton]
    by_cases hl : i < s.sent.length
    · exact Or.inl (h.syncing hl)
    · exact Or.inr (by omega)
  · intro ns hns
    rcases hget ns hns with h1 | h1
    · exact h.fresh ns h1
    · exact (hnew ns h1).1
  · intro ns hns
    rcases hget ns hns with h1 | h1
    · exact h.sensible ns h1
    · exact (hnew ns h1).2

theorem told_pop {key : O → Option K} {fs : PyDict N (IndexFunc (Obj K O) V)} (hd : Distinct fs) {G : K → Prop}
    {k : K} {i : Nat} {s : State K O N V} {log : List (Entry K O)} (hG : G k) (hc : Clean key fs G s log)
    (h : Told key k i s) (hst : s.started = true) : Told key k i (pop key s) := by
  rcases clean_pop hd hc with ⟨-, -, h1⟩ | ⟨j, rest, -, -, -, -, hk, hpe, -, hne, g2, heq⟩
  · rw [h1]; exact h
  · have hix : (pop key s).ix = (handleDeltas key s.ix (pendingOf j log)).1 := by rw [hpe]
    have hsent : ∀ ns, (pop key s).sent[i]? = some ns → ∃ l, s.sent[i]? = some l ∧
        ns = l ++ (handleDeltas key s.ix (pendingOf j log)).2.1.map Prod.fst := by
      intro ns hns
      rw [hpe] at hns
      dsimp only at hns
      rw [distribute_get, Option.map_eq_some_iff] at hns
      obtain ⟨l, hl, rfl⟩ := hns
      have hlt : i < s.sent.length := (List.getElem?_eq_some_iff.1 hl).1
      exact ⟨l, hl, by rw [decide_eq_true (h.syncing hlt), SharedInformer.receive_true]⟩
    have hsync : i < (pop key s).sent.length → i ∈ (pop key s).syncing := by
      rw [hpe]
      intro hlt
      simp only [distribute, List.length_mapIdx] at hlt
      exact h.syncing hlt
    have hidle : (pop key s).started = false → (pop key s).ix.items = [] := by
      rw [hpe]
      intro h0
      rw [hst] at h0
      cases h0
    by_cases hkj : k = j
    · subst hkj
      obtain ⟨-, g1, g2⟩ := heq hG
      have hview := SharedInformer.receive_view k true (pendingOf k log) s.ix.items hc.base.inv.wf hk (Or.inl rfl)
      rw [SharedInformer.receive_true, ← g2, ← g1, ← hix] at hview
      have hsens : AllSensible key (viewOf s.ix.items)
          ((handleDeltas key s.ix (pendingOf k log)).2.1.map Prod.fst) := by
        obtain ⟨n, a, b, c, ef, f, g1', g, l, m, o⟩ := Informer.process_spec (fun _ => .ok) k (pendingOf k log)
          s.ix.items 0 hc.base.inv.wf hk
        have := g (hc.base.fit k)
        rw [SharedInformer.process_eq k _ _ _ hk] at this
        rw [g2]
        exact this
      refine ⟨hidle, hsync, ?_, ?_⟩
      · intro ns hns
        obtain ⟨l, hl, rfl⟩ := hsent ns hns
        rw [SharedInformer.view_append, foldl_filter _ _ (viewOf s.ix.items) (h.fresh l hl),
          ← foldl_filter _ _ _ rfl, hview]
        rfl
      · intro ns hns
        obtain ⟨l, hl, rfl⟩ := hsent ns hns
        rw [List.filter_append]
        refine SharedInformer.sensible_append _ _ _ (h.sensible l hl) ?_
        refine sensible_filter _ (viewOf s.ix.items) _ ?_ hsens
        rw [← foldl_filter l _ _ rfl]
        exact (h.fresh l hl).symm
    · have g1 := hne k hkj
      have hno : ∀ n ∈ (handleDeltas key s.ix (pendingOf j log)).2.1.map Prod.fst,
          keyOf key (subject n) ≠ some k := by
        intro n hn
        obtain ⟨m, hm, rfl⟩ := List.mem_map.1 hn
        rw [g2 m hm]
        intro h0
        cases h0
        exact hkj rfl
      refine ⟨hidle, hsync, ?_, ?_⟩
      · intro ns hns
        obtain ⟨l, hl, rfl⟩ := hsent ns hns
        rw [SharedInformer.view_append, foldl_other _ _ hno, h.fresh l hl, g1]
      · intro ns hns
        obtain ⟨l, hl, rfl⟩ := hsent ns hns
        rw [List.filter_append]
        have : ((handleDeltas key s.ix (pendingOf j log)).2.1.map Prod.fst).filter (about key k) = [] := by
          rw [List.filter_eq_nil_iff]
          intro n hn
          simpa [about] using hno n hn
        rw [this, List.append_nil]
        exact h.sensible l hl

theorem told_step {key : O → Option K} {fs : PyDict N (IndexFunc (Obj K O) V)} (hd : Distinct fs) {G : K → Prop}
    {k : K} {i : Nat} {s : State K O N V} {log : List (Entry K O)} (hG : G k) (hc : Clean key fs G s log)
    (h : Told key k i s) (e : Ev K O) (hs : Ev.selects i e) : Told key k i (step key s e) := by
  have hq : ∀ o, Told key k i (onQueue key s o) := by
    intro o
    unfold onQueue
    split
    · exact ⟨h.idle, h.syncing, h.fresh, h.sensible⟩
    · exact h
  cases e with
  | start => exact ⟨by simp [step], h.syncing, h.fresh, h.sensible⟩
  | register => exact told_register hc.base h
  | check due =>
    refine ⟨h.idle, ?_, h.fresh, h.sensible⟩
    intro hlt
    simp only [step, List.mem_filter, List.mem_range]
    exact ⟨hlt, hs⟩
  | pop =>
    simp only [step]
    split
    · rename_i hst
      exact told_pop hd hG hc h hst
    · exact h
  | add x => exact hq _
  | update x => exact hq _
  | delete x => exact hq _
  | replace xs => exact hq _
  | resync => exact hq _

theorem told_exec {key : O → Option K} {fs : PyDict N (IndexFunc (Obj K O) V)} (hd : Distinct fs) {G : K → Prop}
    {k : K} {i : Nat} (hG : G k) (es : List (Ev K O)) : ∀ {s : State K O N V} {log : List (Entry K O)},
    Clean key fs G s log → Told key k i s → (∀ k, G k → Only key k (Returns fs) es) →
    (∀ e ∈ es, Ev.selects i e) → Told key k i (exec key s es) := by
  induction es with
  | nil => intro s log _ h _ _; exact h
  | cons e es ih =>
    intro s log hc h ho hs
    obtain ⟨log', h'⟩ := clean_step hd hc e (fun x hx k hk hG => ho k hG e (by simp) x hx hk)
    exact ih h' (told_step hd hG hc h e (hs e (by simp))) (fun k hG e' he => ho k hG e' (by simp [he]))
      (fun e' he => hs e' (by simp [he]))

/-! ## Without exceptions the indexer is a map -/

theorem plain_step {key : O → Option K} {fs : PyDict N (IndexFunc (Obj K O) V)} (hd : Distinct fs)
    {s : State K O N V} {log : List (Entry K O)} (hc : Clean key fs (fun _ => True) s log) (e : Ev K O) :
    plain (step key s e) = SharedInformer.step key (plain s) e := by
  have hq : ∀ (o : DeltaFifo.Op K O) (e' : Informer.Ev K O),
      Informer.step key ⟨s.q, s.ix.items⟩ e' = Informer.call key ⟨s.q, s.ix.items⟩ o →
      plain (onQueue key s o) = SharedInformer.onQueue key (plain s) e' := by
    intro o e' he
    simp only [onQueue, SharedInformer.onQueue, plain, he, Informer.call]
    split <;> simp_all
  cases e with
  | start => rfl
  | register => rfl
  | check due => rfl
  | add x => exact hq _ _ rfl
  | update x => exact hq _ _ rfl
  | delete x => exact hq _ _ rfl
  | replace xs => exact hq _ _ rfl
  | resync => exact hq _ _ rfl
  | pop =>
    simp only [step, SharedInformer.step]
    have hs : (plain s).started = s.started := rfl
    rw [hs]
    split
    · rcases clean_pop hd hc with ⟨-, hn, hp⟩ | ⟨j, rest, -, -, hn, -, -, -, -, -, -, heq⟩
      · rcases DeltaFifo.pop_cases hc.base.inv.sim .ok with ⟨-, h2⟩ | ⟨k, rest, hq, -, h2⟩
        · simp only [SharedInformer.pop, plain, hn, h2, hp]
        · simp [nextDeltas, h2, DeltaFifo.finish] at hn
      · obtain ⟨g1, g2, g3⟩ := heq trivial
        simp only [SharedInformer.pop, pop, plain, hn, g1, g2, g3, if_true]
        rfl
    · rfl

theorem plain_exec {key : O → Option K} {fs : PyDict N (IndexFunc (Obj K O) V)} (hd : Distinct fs)
    (es : List (Ev K O)) : ∀ {s : State K O N V} {log : List (Entry K O)},
    Clean key fs (fun _ => True) s log → (∀ k, Only key k (Returns fs) es) →
    plain (exec key s es) = SharedInformer.exec key (plain s) es := by
  induction es with
  | nil => intro s log _ _; rfl
  | cons e es ih =>
    intro s log hc ho
    obtain ⟨log', h'⟩ := clean_step hd hc e (fun x hx k hk _ => ho k e (by simp) x hx hk)
    simp only [exec, SharedInformer.exec]
    rw [ih h' (fun k e' he => ho k e' (by simp [he])), plain_step hd hc e]

theorem exec_append (key : O → Option K) (as bs : List (Ev K O)) : ∀ s : State K O N V,
    exec key s (as ++ bs) = exec key (exec key s as) bs := by
  induction as with
  | nil => intro s; rfl
  | cons a as ih => intro s; exact ih _

/-! ## Something stored on which a function raises -/

/-- The key is stuck with `o`. -/
structure Stuck (key : O → Option K) (fs : PyDict N (IndexFunc (Obj K O) V)) (k : K) (o : Obj K O)
    (s : State K O N V) (log : List (Entry K O)) : Prop where
  base : Base key fs s log
  pend : Pend (fun j x => j = k → x = o) log
  item : s.ix.items.get? k = some o

theorem stuck_step {key : O → Option K} {fs : PyDict N (IndexFunc (Obj K O) V)} (hd : Distinct fs) {k : K}
    {o : Obj K O} (hx : ∃ p ∈ fs, p.2 o = none) {s : State K O N V} {log : List (Entry K O)}
    (h : Stuck key fs k o s log) (e : Ev K O)
    (hb : ∀ x ∈ brings e, keyOf key x = some k → x = o) :
    (∃ log', Stuck key fs k o (step key s e) log') ∧
    ∀ (i : Nat) ns, s.sent[i]? = some ns → ∃ more, (step key s e).sent[i]? = some (ns ++ more) ∧
      ∀ n ∈ more, keyOf key (subject n) ≠ some k := by
  by_cases hp : e = .pop
  · subst hp
    simp only [step]
    split
    · rcases pop_cases hd h.base with ⟨-, -, h1⟩ | ⟨j, rest, a, b, c, d, f, hpe, g⟩
      · rw [h1]
        exact ⟨⟨log, h⟩, fun i ns hns => ⟨[], by simpa using hns, by simp⟩⟩
      · have hsub : (handleDeltas key s.ix (pendingOf j log)).1.items.get? k = some o ∧
            ∀ n ∈ (handleDeltas key s.ix (pendingOf j log)).2.1, keyOf key (subject n.1) ≠ some k := by
          by_cases hkj : j = k
          · subst hkj
            obtain ⟨h1, h2, -⟩ := handle_stuck b f h.item (by rw [h.base.fs]; exact hx)
              (fun d hd ht => h.pend j d hd ht rfl)
            exact ⟨h1, by rw [h2]; simp⟩
          · obtain ⟨k1, k2⟩ := keeps_handle (pendingOf j log) h.base.rinv (by rw [h.base.fs]; exact hd)
              h.base.inv.own f
            refine ⟨by rw [k1.other k (Ne.symm hkj)]; exact h.item, ?_⟩
            intro n hn h0
            rw [k2 n hn] at h0
            cases h0
            exact hkj rfl
        refine ⟨⟨_, g, pend_popped h.pend, by rw [hpe]; exact hsub.1⟩, ?_⟩
        intro i ns hns
        refine ⟨receive (decide (i ∈ s.syncing)) (handleDeltas key s.ix (pendingOf j log)).2.1, ?_, ?_⟩
        · rw [hpe]
          dsimp only
          rw [distribute_get, hns]
          rfl
        · intro n hn
          simp only [receive, List.mem_map, List.mem_filter] at hn
          obtain ⟨m, ⟨hm, -⟩, rfl⟩ := hn
          exact hsub.2 m hm
    · exact ⟨⟨log, h⟩, fun i ns hns => ⟨[], by simpa using hns, by simp⟩⟩
  · obtain ⟨h1, log', h2, h3, -⟩ := step_cases h.base h.pend (by
      rintro j x hj rfl
      rw [h.item] at hj
      exact (Option.some.inj hj).symm) e hp (by
      rintro x hx j hj rfl
      exact hb x hx hj)
    refine ⟨⟨log', h2, h3, by rw [h1]; exact h.item⟩, ?_⟩
    intro i ns hns
    refine ⟨[], ?_, by simp⟩
    rw [List.append_nil]
    have hlt : i < s.sent.length := (List.getElem?_eq_some_iff.1 hns).1
    cases e <;> simp only [step, onQueue] <;> try (split <;> exact hns)
    · exact absurd rfl hp
    · rw [List.getElem?_append_left hlt]; exact hns
    · exact hns
    · exact hns

theorem stuck_exec {key : O → Option K} {fs : PyDict N (IndexFunc (Obj K O) V)} (hd : Distinct fs) {k : K}
    {o : Obj K O} (hx : ∃ p ∈ fs, p.2 o = none) (es : List (Ev K O)) :
    ∀ {s : State K O N V} {log : List (Entry K O)}, Stuck key fs k o s log →
    Only key k (· = o) es →
    (exec key s es).ix.items.get? k = some o ∧
    ∀ (i : Nat) ns, s.sent[i]? = some ns → ∃ more, (exec key s es).sent[i]? = some (ns ++ more) ∧
      ∀ n ∈ more, keyOf key (subject n) ≠ some k := by
  induction es with
  | nil => intro s log h _; exact ⟨h.item, fun i ns hns => ⟨[], by simpa [exec] using hns, by simp⟩⟩
  | cons e es ih =>
    intro s log h ho
    obtain ⟨⟨log', h1⟩, h2⟩ := stuck_step hd hx h e (ho e (by simp))
    obtain ⟨h3, h4⟩ := ih h1 (fun e' he => ho e' (by simp [he]))
    refine ⟨h3, ?_⟩
    intro i ns hns
    obtain ⟨m1, h5, h6⟩ := h2 i ns hns
    obtain ⟨m2, h7, h8⟩ := h4 i _ h5
    refine ⟨m1 ++ m2, by rw [← List.append_assoc]; exact h7, ?_⟩
    intro n hn
    rcases List.mem_append.1 hn with hn | hn
    · exact h6 n hn
    · exact h8 n hn

/-! ## Convergence -/

theorem started_step {key : O → Option K} {s : State K O N V} (h : s.started = true) (e : Ev K O) :
    (step key s e).started = true := by
  cases e <;> simp only [step, onQueue, h, if_true]
  unfold pop
  split <;> exact h

/-- A step and what the indexer will have under a key of `G`. -/
theorem eventual_step {key : O → Option K} {fs : PyDict N (IndexFunc (Obj K O) V)} (hd : Distinct fs)
    {G : K → Prop} {s : State K O N V} {log : List (Entry K O)} (h : Clean key fs G s log)
    (hst : s.started = true) (e : Ev K O) (hn : SharedInformer.Spec.Ev.noList e)
    (hb : ∀ x ∈ brings e, ∀ k, keyOf key x = some k → G k → Returns fs x) {k : K} (hG : G k) :
    ∃ log', Clean key fs G (step key s e) log' ∧
      Informer.eventual (step key s e).ix.items log' k
        = (match toInf e with
          | some e' => Informer.Spec.watched key (Informer.eventual s.ix.items log) e'
          | none => Informer.eventual s.ix.items log) k := by
  by_cases hp : e = .pop
  · subst hp
    simp only [step, hst, if_true, toInf]
    rcases clean_pop hd h with ⟨-, -, h1⟩ | ⟨j, rest, -, -, -, -, hk, hpe, g, hne, -, heq⟩
    · rw [h1]; exact ⟨log, h, rfl⟩
    · refine ⟨_, g, ?_⟩
      simp only [Informer.eventual]
      rw [DeltaFifo.pendingOf_popped]
      by_cases hkj : j = k
      · subst hkj
        obtain ⟨-, g1, -⟩ := heq hG
        have hix : (pop key s).ix = (handleDeltas key s.ix (pendingOf j log)).1 := by rw [hpe]
        obtain ⟨n, a, b, c, ef, -, -, -, l, -, o⟩ := Informer.process_spec (fun _ => .ok) j (pendingOf j log)
          s.ix.items 0 h.base.inv.wf hk
        rw [SharedInformer.process_eq j _ _ _ hk] at ef l
        rw [if_pos rfl, hix, g1, ef, l rfl]
        simp [after]
      · rw [if_neg hkj, hne k (Ne.symm hkj)]
  · obtain ⟨h1, log', h2, h3, h4⟩ := step_cases h.base h.pend
      (fun k x hx hG => by rw [← h.base.fs]; exact full_returns (h.full k hG) hx) e hp hb
    refine ⟨log', ⟨h2, h3, by rw [h1]; exact h.full⟩, ?_⟩
    rw [h1, h4 hst]
    cases he : toInf e with
    | none => simp
    | some e' =>
      dsimp only
      have hn' : Informer.Spec.Ev.noList e' := by
        cases e <;> simp only [toInf, Option.some.injEq, reduceCtorEq] at he <;> subst he <;>
          first | trivial | exact hn
      have hne' : ∀ hd, e' ≠ .pop hd := by
        rintro hd rfl
        cases e <;> simp [toInf] at he
      have := Informer.eventual_step (s := ⟨s.q, s.ix.items⟩) h.base.inv k e' hn' (by
        cases e' <;> first | trivial | exact absurd rfl (hne' _))
      have hit : (Informer.step key ⟨s.q, s.ix.items⟩ e').1.items = s.ix.items := by
        cases e' <;> first | rfl | exact absurd rfl (hne' _)
      rw [hit] at this
      exact this

theorem eventual_exec {key : O → Option K} {fs : PyDict N (IndexFunc (Obj K O) V)} (hd : Distinct fs)
    {G : K → Prop} {k : K} (hG : G k) (es : List (Ev K O)) : ∀ {s : State K O N V}
    {log : List (Entry K O)}, Clean key fs G s log → s.started = true →
    (∀ e ∈ es, SharedInformer.Spec.Ev.noList e) → (∀ k, G k → Only key k (Returns fs) es) →
    ∃ log', Clean key fs G (exec key s es) log' ∧
      Informer.eventual (exec key s es).ix.items log' k
        = (es.filterMap toInf).foldl (Informer.Spec.watched key) (Informer.eventual s.ix.items log) k := by
  induction es with
  | nil => intro s log h _ _ _; exact ⟨log, h, rfl⟩
  | cons e es ih =>
    intro s log h hst hn ho
    obtain ⟨log1, h1, h2⟩ := eventual_step hd h hst e (hn e (by simp))
      (fun x hx k hk hG => ho k hG e (by simp) x hx hk) hG
    obtain ⟨log2, h3, h4⟩ := ih h1 (started_step hst e) (fun e' he => hn e' (by simp [he]))
      (fun k hG e' he => ho k hG e' (by simp [he]))
    refine ⟨log2, h3, ?_⟩
    show Informer.eventual (exec key (step key s e) es).ix.items log2 k = _
    rw [h4, List.filterMap_cons]
    cases he : toInf e with
    | none =>
      rw [he] at h2
      exact Informer.foldl_watched_congr key k _ _ _ h2
    | some e' =>
      rw [he] at h2
      exact Informer.foldl_watched_congr key k _ _ _ h2

end Aiok8s.IndexedInformer
