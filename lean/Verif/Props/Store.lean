import Verif.Proof.Store
import Mathlib.Data.List.Dedup
import Mathlib.Tactic.NormNum
/-!
# Properties C17-C20: the store and its indexes
(`aiok8s/cache/store.py`, `aiok8s/cache/thread_safe_store.py`)
-/
set_option linter.unusedSimpArgs false
set_option linter.unusedSectionVars false
namespace Aiok8s.Store
open Spec
variable {K O N V : Type} [DecidableEq K] [DecidableEq N] [DecidableEq V]

/-! ## C17 -/

/-- **C17.** After any history every call that concerns the map answers like the book kept with
the same calls. -/
theorem C17_store_is_map (key : O → Option K) (fs : PyDict N (IndexFunc O V)) (hw : fs.WF)
    (hg : Good fs) (os : List (Op K O N V)) (o : Op K O N V) (a : Out K O V)
    (ha : (Book.after key os).answer key o = some a) :
    (step key (exec key (init fs) os) o).2 = a := by
  have h := inv_exec key os (inv_init (K := K) hw (good_total hg)) (good_clean key hg os _)
  exact (inv_step h o (by
    have := good_clean key (fs := (exec key (init fs) os).indexers)
      (by rw [exec_indexers]; exact hg) [o] (Book.after key os)
    rw [clean_cons] at this
    exact this.1)).2 a ha

/-- **C17.** A failing key function raises `StoreKeyError` and changes nothing, whatever the
index functions do. -/
theorem C17_key_error_changes_nothing (key : O → Option K) (s : State K O N V) (o : O)
    (h : key o = none) (os : List O) (ho : o ∈ os) :
    step key s (.add o) = (s, .raised .storeKeyError) ∧
    step key s (.update o) = (s, .raised .storeKeyError) ∧
    step key s (.delete o) = (s, .raised .storeKeyError) ∧
    step key s (.get o) = (s, .raised .storeKeyError) ∧
    step key s (.replace os) = (s, .raised .storeKeyError) := by
  have := (buildItems_spec key os Book.empty [] Sim.empty).2 (by
    rw [List.all_eq_false]
    exact ⟨o, ho, by simp [h]⟩)
  simp [step, h, this]

/-- the index function used in the examples: an object is a pair (key, value list) -/
def exFs : PyDict Nat (IndexFunc (Nat × List Nat) Nat) := [(7, fun o => some o.2.dedup)]

/-- the key function used in the examples: keys from 100 on cannot be formed -/
def exKey (o : Nat × List Nat) : Option Nat := if o.1 < 100 then some o.1 else none

theorem exFs_good : Good exFs := by
  intro p hp o
  simp [exFs] at hp
  subst hp
  exact ⟨_, rfl, List.nodup_dedup _⟩

/-- non-vacuity: overwrite, delete, a failing key, replace with a repeated key -/
example : exFs.WF ∧ Good exFs ∧
    ((Book.after (N := Nat) (V := Nat) exKey [.add (1, [5]), .add (2, [5, 6]), .update (1, [6]), .delete (2, []),
      .add (100, [])] : Book Nat (Nat × List Nat)).answer exKey
        (.list : Op Nat (Nat × List Nat) Nat Nat)) = some (.objs [(1, [6])]) ∧
    (step exKey (exec exKey (init exFs) [.add (1, [5]), .replace [(3, [1]), (4, []), (3, [2])]])
      .list).2 = .objs [(3, [2]), (4, [])] :=
  ⟨List.nodup_singleton _, exFs_good, by decide, by decide⟩

/-! ## C18 -/

section
variable (key : O → Option K) (fs : PyDict N (IndexFunc O V)) (hw : fs.WF) (ht : Total fs)
  (os : List (Op K O N V)) (hc : Clean key fs Book.empty os)
include hw ht hc

private theorem the_inv : Inv (Book.after key os) (exec key (init fs) os) :=
  inv_exec key os (inv_init (K := K) hw ht) hc

private theorem set_nodup {idx : Index V K} {S : V → K → Prop} (h : Ex idx S) (v : V) :
    ((idx.get? v).getD []).Nodup := by
  cases hg : idx.get? v with
  | none => simp
  | some s => exact (h.good v s hg).2

private theorem query (n : N) (f : IndexFunc O V) (hf : fs.get? n = some f) (v : V) :
    let b := Book.after key os
    let s := exec key (init fs) os
    let set := (PyDict.get? ((s.indices.get? n).getD []) v).getD []
    set.Perm (b.keysWhere (fun o => decide (Yields f o v))) ∧
    ∃ l, lookupAll s.items set = some l ∧
      l.Perm (b.objectsWhere (fun o => decide (Yields f o v))) := by
  intro b s set
  have h := the_inv key fs hw ht os hc
  have hE := h.exact.ex n f (by rw [exec_indexers]; exact PyDict.get?_mem hf)
  exact lookup_where h.sim _ _ (set_nodup key fs hw ht os hc hE v) (by
    intro k
    rw [show (k ∈ set ↔ _) from hE.mem v k]
    simp [b])

private theorem query_index (n : N) (f : IndexFunc O V) (hf : fs.get? n = some f) (x : O)
    (vs : List V) (hx : f x = some vs) :
    ∃ l, index (exec key (init fs) os) n x = .objs l ∧
      l.Perm ((Book.after key os).objectsWhere (fun o => vs.any fun v => decide (Yields f o v))) := by
  have h := the_inv key fs hw ht os hc
  have hE := h.exact.ex n f (by rw [exec_indexers]; exact PyDict.get?_mem hf)
  obtain ⟨l, h1, h2⟩ := (lookup_where h.sim (fun o => vs.any fun v => decide (Yields f o v))
    (returnKeySet (at' (exec key (init fs) os).indices n) vs) (nodup_returnKeySet hE vs) (by
      intro k
      rw [mem_returnKeySet]
      simp only [hE.mem, List.any_eq_true, decide_eq_true_eq]
      constructor
      · rintro ⟨v, hv, o, h1, h2⟩; exact ⟨o, h1, v, hv, h2⟩
      · rintro ⟨o, h1, v, hv, h2⟩; exact ⟨v, hv, o, h1, h2⟩)).2
  have hi : (exec key (init fs) os).indexers.get? n = some f := by rw [exec_indexers]; exact hf
  simp only [at'] at h1
  simp only [index, hi, hx, h1]
  exact ⟨l, rfl, h2⟩

private theorem query_values (n : N) :
    ∃ vs, listIndexFuncValues (exec key (init fs) os) n = .vals vs ∧ vs.Nodup ∧
      ∀ v, v ∈ vs ↔ ∃ f, fs.get? n = some f ∧
        ∃ k o, (Book.after key os).val k = some o ∧ Yields f o v := by
  have h := the_inv key fs hw ht os hc
  refine ⟨_, rfl, ?_⟩
  cases hf : fs.get? n with
  | none =>
    have := h.exact.out n (by rw [exec_indexers]; exact PyDict.get?_eq_none.1 hf)
    simp [this]
  | some f =>
    have hE := h.exact.ex n f (by rw [exec_indexers]; exact PyDict.get?_mem hf)
    refine ⟨hE.wf, ?_⟩
    intro v
    simp only [Option.some.injEq, exists_eq_left']
    rw [show (v ∈ PyDict.keys ((PyDict.get? (exec key (init fs) os).indices n).getD []) ↔ _) from
      PyDict.get?_isSome.symm]
    constructor
    · intro hs
      obtain ⟨s, hs⟩ := Option.isSome_iff_exists.1 hs
      obtain ⟨h1, -⟩ := hE.good v s hs
      obtain ⟨k, hk⟩ : ∃ k, k ∈ s := by
        cases s with
        | nil => exact absurd rfl h1
        | cons k s => exact ⟨k, by simp⟩
      exact ⟨k, (hE.mem v k).1 (by simp only [at']; rw [hs]; exact hk)⟩
    · rintro ⟨k, hk⟩
      have := (hE.mem v k).2 hk
      simp only [at'] at this
      cases hg : PyDict.get? ((PyDict.get? (exec key (init fs) os).indices n).getD []) v with
      | none => rw [hg] at this; simp at this
      | some s => rfl

end

/-- **C18.** `by_index(n, v)` returns exactly the stored objects to which index function `n`
gives `v`, each once. -/
theorem C18_by_index (key : O → Option K) (fs : PyDict N (IndexFunc O V)) (hw : fs.WF)
    (hg : Good fs) (os : List (Op K O N V)) (n : N) (f : IndexFunc O V) (hf : fs.get? n = some f)
    (v : V) :
    ∃ l, (step key (exec key (init fs) os) (.byIndex n v)).2 = .objs l ∧
      l.Perm ((Book.after key os).objectsWhere (fun o => decide (Yields f o v))) := by
  obtain ⟨-, l, h1, h2⟩ := query key fs hw (good_total hg) os (good_clean key hg os _) n f hf v
  refine ⟨l, ?_, h2⟩
  have hi : (exec key (init fs) os).indexers.get? n = some f := by rw [exec_indexers]; exact hf
  simp only [step, byIndex, hi, h1]

/-- **C18.** `index_keys(n, v)` returns exactly their keys. -/
theorem C18_index_keys (key : O → Option K) (fs : PyDict N (IndexFunc O V)) (hw : fs.WF)
    (hg : Good fs) (os : List (Op K O N V)) (n : N) (f : IndexFunc O V) (hf : fs.get? n = some f)
    (v : V) :
    ∃ l, (step key (exec key (init fs) os) (.indexKeys n v)).2 = .keys l ∧
      l.Perm ((Book.after key os).keysWhere (fun o => decide (Yields f o v))) := by
  obtain ⟨h1, -⟩ := query key fs hw (good_total hg) os (good_clean key hg os _) n f hf v
  refine ⟨_, ?_, h1⟩
  have hi : (exec key (init fs) os).indexers.get? n = some f := by rw [exec_indexers]; exact hf
  simp only [step, indexKeys, hi]

/-- **C18.** `index(n, x)` returns exactly the stored objects that share a value with `x`. -/
theorem C18_index (key : O → Option K) (fs : PyDict N (IndexFunc O V)) (hw : fs.WF)
    (hg : Good fs) (os : List (Op K O N V)) (n : N) (f : IndexFunc O V) (hf : fs.get? n = some f)
    (x : O) :
    ∃ vs l, f x = some vs ∧ (step key (exec key (init fs) os) (.index n x)).2 = .objs l ∧
      l.Perm ((Book.after key os).objectsWhere (fun o => vs.any fun v => decide (Yields f o v))) := by
  obtain ⟨vs, hvs, -⟩ := hg (n, f) (PyDict.get?_mem hf) x
  obtain ⟨l, h1, h2⟩ := query_index key fs hw (good_total hg) os (good_clean key hg os _) n f hf x
    vs hvs
  exact ⟨vs, l, hvs, h1, h2⟩

/-- **C18.** `list_index_func_values(n)` returns exactly the values in use, each once. -/
theorem C18_list_index_func_values (key : O → Option K) (fs : PyDict N (IndexFunc O V))
    (hw : fs.WF) (hg : Good fs) (os : List (Op K O N V)) (n : N) :
    ∃ vs, (step key (exec key (init fs) os) (.listIndexFuncValues n)).2 = .vals vs ∧ vs.Nodup ∧
      ∀ v, v ∈ vs ↔ ∃ f, fs.get? n = some f ∧
        ∃ k o, (Book.after key os).val k = some o ∧ Yields f o v :=
  query_values key fs hw (good_total hg) os (good_clean key hg os _) n

/-- **C18.** Unknown index names raise `KeyError` (except for `list_index_func_values`, which
returns nothing). -/
theorem C18_unknown_name (key : O → Option K) (fs : PyDict N (IndexFunc O V)) (hw : fs.WF)
    (hg : Good fs) (os : List (Op K O N V)) (n : N) (hn : fs.get? n = none) (v : V) (x : O) :
    (step key (exec key (init fs) os) (.byIndex n v)).2 = .raised .keyError ∧
    (step key (exec key (init fs) os) (.indexKeys n v)).2 = .raised .keyError ∧
    (step key (exec key (init fs) os) (.index n x)).2 = .raised .keyError ∧
    (step key (exec key (init fs) os) (.listIndexFuncValues n)).2 = .vals [] := by
  have hi : (exec key (init fs) os).indexers.get? n = none := by rw [exec_indexers]; exact hn
  have h := inv_exec key os (inv_init (K := K) hw (good_total hg)) (good_clean key hg os _)
  have := h.exact.out n (by rw [exec_indexers]; exact PyDict.get?_eq_none.1 hn)
  simp only [step, byIndex, indexKeys, index, listIndexFuncValues, hi, this]
  simp

/-- non-vacuity: two objects share value 5, one moved away from it -/
example : exFs.WF ∧ Good exFs ∧
    (let s := exec exKey (init exFs) [.add (1, [5, 6]), .add (2, [5]), .add (3, [5]),
      .update (2, [8, 6]), .delete (3, [])]
    (step exKey s (.byIndex 7 5)).2 = .objs [(1, [5, 6])] ∧
    (step exKey s (.indexKeys 7 6)).2 = .keys [1, 2] ∧
    (step exKey s (.index 7 (9, [8, 5]))).2 = .objs [(2, [8, 6]), (1, [5, 6])] ∧
    (step exKey s (.listIndexFuncValues 7)).2 = .vals [5, 6, 8]) :=
  ⟨List.nodup_singleton _, exFs_good, by decide⟩

/-! ## C19 -/

/-- an index function that may return a value twice -/
def dupFs : PyDict Nat (IndexFunc (Nat × List Nat) Nat) := [(7, fun o => some o.2)]

theorem dupFs_total : Total dupFs := by
  intro p hp o
  simp [dupFs] at hp
  subst hp
  exact ⟨_, rfl⟩

/-- **C19, refuted.** Object 1 has value 5 twice and object 2 has it, too: deleting object 1
raises `KeyError` and leaves it in the store while `by_index` no longer finds it; updating it
raises, too, and leaves the new object unindexed. -/
theorem C19_refuted_repeated_value :
    let s := exec exKey (init dupFs) [.add (1, [5, 5]), .add (2, [5])]
    (step exKey s (.delete (1, []))).2 = .raised .keyError ∧
    (step exKey (exec exKey s [.delete (1, [])]) (.getByKey 1)).2 = .obj (some (1, [5, 5])) ∧
    (step exKey (exec exKey s [.delete (1, [])]) (.byIndex 7 5)).2 = .objs [(2, [5])] ∧
    (step exKey s (.update (1, [6]))).2 = .raised .keyError ∧
    (step exKey (exec exKey s [.update (1, [6])]) (.getByKey 1)).2 = .obj (some (1, [6])) ∧
    (step exKey (exec exKey s [.update (1, [6])]) (.byIndex 7 6)).2 = .objs [] := by decide

/-- **C19, partial.** For index functions that do not raise but may repeat values: as long as no
add, update or delete meets an old object with a repeated value that another stored object
shares (`Clean`), every call on the map answers like the book and the indexes are exact. -/
theorem C19_exact_partial (key : O → Option K) (fs : PyDict N (IndexFunc O V)) (hw : fs.WF)
    (ht : Total fs) (os : List (Op K O N V)) (hc : Clean key fs Book.empty os) (n : N)
    (f : IndexFunc O V) (hf : fs.get? n = some f) (v : V) :
    (∀ k, (step key (exec key (init fs) os) (.getByKey k)).2 = .obj ((Book.after key os).val k)) ∧
    ∃ l, (step key (exec key (init fs) os) (.byIndex n v)).2 = .objs l ∧
      l.Perm ((Book.after key os).objectsWhere (fun o => decide (Yields f o v))) := by
  have h := inv_exec key os (inv_init (K := K) hw ht) hc
  refine ⟨?_, ?_⟩
  · intro k; simp only [step, Book.after, h.sim.val]
  · obtain ⟨-, l, h1, h2⟩ := query key fs hw ht os hc n f hf v
    refine ⟨l, ?_, h2⟩
    have hi : (exec key (init fs) os).indexers.get? n = some f := by rw [exec_indexers]; exact hf
    simp only [step, byIndex, hi, h1]

/-- **C19, partial.** Exactly when a delete (or an add/update over an old object) raises. -/
theorem C19_raises_iff_clash_partial (key : O → Option K) (fs : PyDict N (IndexFunc O V))
    (hw : fs.WF) (ht : Total fs) (os : List (Op K O N V)) (hc : Clean key fs Book.empty os) (x : O)
    (k : K) (hk : key x = some k) :
    ((step key (exec key (init fs) os) (.delete x)).2 = .raised .keyError ↔
      (Book.after key os).Clash fs k) ∧
    ((step key (exec key (init fs) os) (.delete x)).2 = .ok ↔
      ¬ (Book.after key os).Clash fs k) ∧
    ((step key (exec key (init fs) os) (.update x)).2 = .raised .keyError ↔
      (Book.after key os).Clash fs k) ∧
    ((step key (exec key (init fs) os) (.update x)).2 = .ok ↔
      ¬ (Book.after key os).Clash fs k) := by
  have h : Inv (Book.after key os) (exec key (init fs) os) :=
    inv_exec key os (inv_init (K := K) hw ht) hc
  have hi : (exec key (init fs) os).indexers = fs := by rw [exec_indexers]; rfl
  have hr : ∀ r : State K O N V × Option Exc, r.2 = none → (ret r).2 = .ok := by
    rintro ⟨s, e⟩ he; simp only at he; subst he; rfl
  have hr2 : ∀ r : State K O N V × Option Exc, r.2 = some .keyError →
      (ret r).2 = .raised .keyError := by
    rintro ⟨s, e⟩ he; simp only at he; subst he; rfl
  simp only [step, hk]
  by_cases hcl : (Book.after key os).Clash fs k
  · rw [hr2 _ (del_raises h k (by rw [hi]; exact hcl)),
      hr2 _ (put_raises h k x (by rw [hi]; exact hcl))]
    simp [hcl]
  · rw [hr _ (inv_del h k (by rw [hi]; exact hcl)).1,
      hr _ (inv_put h k x (by rw [hi]; exact hcl)).1]
    simp [hcl]

/-- non-vacuity: repeated values that nobody shares are harmless, and a clash is reachable -/
example : dupFs.WF ∧ Total dupFs ∧
    Clean (K := Nat) exKey dupFs Book.empty [.add (1, [5, 5]), .update (1, [5, 6, 6])] ∧
    Clean (K := Nat) exKey dupFs Book.empty [.add (1, [5, 5]), .add (2, [5])] ∧
    (Book.after (K := Nat) (N := Nat) (V := Nat) exKey [.add (1, [5, 5]), .add (2, [5])]).Clash
      dupFs 1 := by
  refine ⟨List.nodup_singleton _, dupFs_total, ?_, ?_, ?_⟩
  · refine ⟨?_, ?_, trivial⟩
    · rintro k - ⟨o, n, f, vs, v, j, o', h1, -⟩
      simp [Book.empty] at h1
    · rintro k - ⟨o, n, f, vs, v, j, o', h1, -, -, -, h5, h6, -⟩
      simp only [Book.step, exKey, Book.put, Book.empty] at h1 h6
      norm_num at h1 h6
      exact h5 (h6.1.trans h1.1.symm)
  · refine ⟨?_, ?_, trivial⟩
    · rintro k - ⟨o, n, f, vs, v, j, o', h1, -⟩
      simp [Book.empty] at h1
    · rintro k - ⟨o, n, f, vs, v, j, o', h1, -, -, -, h5, h6, -⟩
      simp only [Book.step, exKey, Book.put, Book.empty] at h1 h6
      norm_num at h1 h6
      exact h5 (h6.1.trans h1.1.symm)
  · exact ⟨(1, [5, 5]), 7, _, [5, 5], 5, 2, (2, [5]), by decide, List.mem_singleton.2 rfl, rfl, by decide,
      by decide, by decide, ⟨[5], rfl, by decide⟩⟩

/-! ## C20 -/

/-- **C20, refuted.** `add_indexers` raises for every non-empty table of new index functions,
even on an empty store without indexers: the code takes the union of the names instead of the
intersection. -/
theorem C20_refuted_always_conflict (key : O → Option K) (s : State K O N V)
    (new : PyDict N (IndexFunc O V)) (hn : new ≠ []) :
    ∃ e, step key s (.addIndexers new) = (s, .raised e) := by
  simp only [step, addIndexers]
  by_cases hi : s.items = []
  · have : new.keys.foldl PySet.add s.indexers.keys ≠ [] := by
      have hsub : ∀ (l acc : List N), l.foldl PySet.add acc = [] → l = [] ∧ acc = [] := by
        intro l
        induction l with
        | nil => intro acc h; exact ⟨rfl, h⟩
        | cons x l ih =>
          intro acc h
          have := (ih _ h).2
          have hx : x ∈ PySet.add acc x := by simp
          rw [this] at hx; simp at hx
      intro h
      have := (hsub _ _ h).1
      simp only [PyDict.keys, List.map_eq_nil_iff] at this
      exact hn this
    exact ⟨.conflict, by simp [hi, this, ret]⟩
  · exact ⟨.running, by simp [hi, ret]⟩

/-- **C20, partial.** The raising half of the property holds: on a non-empty store and on a name
conflict `add_indexers` raises and changes nothing. -/
theorem C20_raises_partial (key : O → Option K) (s : State K O N V)
    (new : PyDict N (IndexFunc O V)) :
    (s.items ≠ [] → step key s (.addIndexers new) = (s, .raised .running)) ∧
    (s.items = [] → (∃ n, n ∈ s.indexers.keys ∧ n ∈ new.keys) →
      step key s (.addIndexers new) = (s, .raised .conflict)) := by
  refine ⟨?_, ?_⟩
  · intro h; simp [step, addIndexers, h, ret]
  · rintro h ⟨n, h1, h2⟩
    have hne : new ≠ [] := by rintro rfl; simp [PyDict.keys] at h2
    obtain ⟨e, he⟩ := C20_refuted_always_conflict key s new hne
    simp only [step, addIndexers, h] at he ⊢
    simp only [ne_eq, not_true_eq_false, if_false] at he ⊢
    split at he
    · rename_i hu; simp [hu, ret]
    · simp [ret] at he

/-- **C20, refuted.** What is left of `add_indexers` does nothing: it returns only when the store is
empty, has no index functions and is given none, and never changes anything.  With index functions and
an empty table it raises too. -/
theorem C20_refuted_useless (key : O → Option K) (s : State K O N V) (new : PyDict N (IndexFunc O V)) :
    (step key s (.addIndexers new)).1 = s ∧
    ((step key s (.addIndexers new)).2 = .ok ↔ s.items = [] ∧ s.indexers = [] ∧ new = []) ∧
    (s.items = [] → s.indexers ≠ [] ∨ new ≠ [] →
      (step key s (.addIndexers new)).2 = .raised .conflict) := by
  have hsub : ∀ (l acc : List N), l.foldl PySet.add acc = [] → l = [] ∧ acc = [] := by
    intro l
    induction l with
    | nil => intro acc h; exact ⟨rfl, h⟩
    | cons x l ih =>
      intro acc h
      have := (ih _ h).2
      have hx : x ∈ PySet.add acc x := by simp
      rw [this] at hx; simp at hx
  have hk : ∀ d : PyDict N (IndexFunc O V), d.keys = [] → d = [] := by
    intro d h; simpa [PyDict.keys] using h
  by_cases hi : s.items = []
  · by_cases hu : new.keys.foldl PySet.add s.indexers.keys = []
    · have h2 := hsub _ _ hu
      have hn := hk _ h2.1
      have hx := hk _ h2.2
      subst hn
      simp [step, addIndexers, hi, ret, hx, dictUpdate, PyDict.keys]
      cases s; simp_all
    · have : ¬ (s.indexers = [] ∧ new = []) := by
        rintro ⟨h1, rfl⟩; simp [h1, PyDict.keys] at hu
      simp [step, addIndexers, hi, ret, hu]
      simpa using this
  · simp [step, addIndexers, hi, ret]

/-- non-vacuity: an empty store without indexers, one new index function; and a real conflict -/
example : (step exKey (init ([] : PyDict Nat (IndexFunc (Nat × List Nat) Nat)))
      (.addIndexers exFs)).2 = .raised .conflict ∧
    (init exFs : State Nat _ Nat Nat).items = [] ∧ 7 ∈ exFs.keys ∧
    (exec exKey (init exFs) [.add (1, [5])]).items ≠ [] := by
  refine ⟨by decide, rfl, by decide, by decide⟩

end Aiok8s.Store
