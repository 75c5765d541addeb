import Verif.Proof.StoreRaise
/-!
# Property C84: the store when index functions raise
(`aiok8s/cache/store.py`, `aiok8s/cache/thread_safe_store.py`)
-/
set_option linter.unusedSectionVars false
namespace Aiok8s.Store
open Spec
variable {K O N V : Type} [DecidableEq K] [DecidableEq N] [DecidableEq V]

/-! ## what is stored -/

/-- **C84 (part).** What `get_by_key`, `list` and `list_keys` answer is the map of all calls but the
`delete`s that have raised, whatever the index functions do. Missing of the full claim: an `add`, `update`
or `replace` that raises has changed the map. -/
theorem C84_map_partial (key : O → Option K) (fs : PyDict N (IndexFunc O V)) (os : List (Op K O N V))
    (k : K) :
    (step key (exec key (init fs) os) (.getByKey k)).2
      = .obj ((kept key (trace key (init fs) os)).val k) ∧
    (step key (exec key (init fs) os) .listKeys).2 = .keys (kept key (trace key (init fs) os)).order ∧
    (step key (exec key (init fs) os) .list).2 = .objs (kept key (trace key (init fs) os)).objects := by
  have h := sim_exec key os (s := init fs) (b := Book.empty) Sim.empty
  refine ⟨?_, ?_, ?_⟩
  · show Out.obj _ = _
    rw [← h.val]
    rfl
  · show Out.keys _ = _
    rw [← h.order]
    rfl
  · show Out.objs _ = _
    congr 1
    exact h.values

/-! ## what the indices answer -/

/-- **C84 (part).** After any history of calls, whichever of them have raised: a query of a known index does
not raise, lists no key twice, and every key that it lists is stored and has the value; `by_index` answers
the objects of `index_keys`. Missing of the full claim: `C84_refuted_atomic`. -/
theorem C84_sound_partial (key : O → Option K) (fs : PyDict N (IndexFunc O V)) (hw : fs.WF)
    (hd : Distinct fs) (os : List (Op K O N V)) (n : N) (f : IndexFunc O V) (hn : (n, f) ∈ fs) (v : V) :
    ∃ ks xs, (step key (exec key (init fs) os) (.indexKeys n v)).2 = .keys ks ∧ ks.Nodup ∧
      (step key (exec key (init fs) os) (.byIndex n v)).2 = .objs xs ∧
      List.Forall₂ (fun k x => Holds key (exec key (init fs) os) k x ∧ Yields f x v) ks xs := by
  have h := rkeys_reach key hw hd os
  have hx : (exec key (init fs) os).indexers = fs := exec_indexers key os (init fs)
  revert h hx
  generalize exec key (init fs) os = s
  intro h hx
  have hgn : s.indexers.get? n = some f := by rw [hx]; exact PyDict.mem_get? hw hn
  have hnk : n ∈ s.indexers.keys := by rw [hx]; exact List.mem_map.2 ⟨(n, f), hn, rfl⟩
  obtain ⟨ks, hks⟩ : ∃ ks, ks = ((at' s.indices n).get? v).getD [] := ⟨_, rfl⟩
  have hsound : ∀ k ∈ ks, ∃ x, s.items.get? k = some x ∧ Yields f x v := by
    intro k hk
    have hhas : Has s.indices n v k := by
      unfold Has
      rw [← hks]
      exact hk
    cases hg : s.items.get? k with
    | none => exact absurd hhas (h.gone k hg n hnk v)
    | some x => exact ⟨x, rfl, prefix_sound (h.pre k x hg) n f (by rw [hx]; exact hn) v hhas⟩
  have hnd : ks.Nodup := by
    rw [hks]
    cases hg : (at' s.indices n).get? v with
    | none => simp
    | some set => exact ((h.fine n hnk).good v set hg).2
  have hkey : ((s.indices.get? n).getD [] : Index V K) = at' s.indices n := rfl
  refine ⟨ks, ks.filterMap s.items.get?, ?_, hnd, ?_, ?_⟩
  · simp only [step, indexKeys, hgn, hkey, ← hks]
  · simp only [step, byIndex, hgn, hkey, ← hks]
    rw [lookupAll_eq s.items ks (by
      intro k hk
      obtain ⟨x, h1, -⟩ := hsound k hk
      exact List.mem_map.2 ⟨_, PyDict.get?_mem h1, rfl⟩)]
  · clear hnd hks
    induction ks with
    | nil => exact .nil
    | cons k ks ih =>
      obtain ⟨x, h1, h2⟩ := hsound k (by simp)
      rw [List.filterMap_cons_some h1]
      refine .cons ⟨?_, h2⟩ (ih fun j hj => hsound j (by simp [hj]))
      show Out.obj _ = _
      rw [h1]

/-- **C84 (part).** A key whose last write has returned is listed exactly under the values of its object,
whatever other writes have raised, before or after. Missing of the full claim: the keys whose last write
has raised. -/
theorem C84_settled_partial (key : O → Option K) (fs : PyDict N (IndexFunc O V)) (hw : fs.WF)
    (hd : Distinct fs) (os : List (Op K O N V)) (n : N) (f : IndexFunc O V) (hn : (n, f) ∈ fs) (v : V)
    (k : K) (hk : lastOk key k (trace key (init fs) os) = true) :
    ∃ ks, (step key (exec key (init fs) os) (.indexKeys n v)).2 = .keys ks ∧
      (k ∈ ks ↔ ∃ x, Holds key (exec key (init fs) os) k x ∧ Yields f x v) := by
  have h := rkeys_reach key hw hd os
  have hx : (exec key (init fs) os).indexers = fs := exec_indexers key os (init fs)
  have hfull := fun x => h.full k x hk
  revert h hx hfull
  generalize exec key (init fs) os = s
  intro h hx hfull
  have hgn : s.indexers.get? n = some f := by rw [hx]; exact PyDict.mem_get? hw hn
  have hnk : n ∈ s.indexers.keys := by rw [hx]; exact List.mem_map.2 ⟨(n, f), hn, rfl⟩
  refine ⟨((at' s.indices n).get? v).getD [], ?_, ?_⟩
  · simp only [step, indexKeys, hgn]
    rfl
  · show Has s.indices n v k ↔ ∃ x, Out.obj (s.items.get? k) = Out.obj (some x) ∧ _
    cases hg : s.items.get? k with
    | none => simp [h.gone k hg n hnk v]
    | some x =>
      obtain ⟨vs, h1, h2⟩ := hfull x hg n f (by rw [hx]; exact hn)
      rw [h2 v]
      constructor
      · exact fun hv => ⟨x, rfl, vs, h1, hv⟩
      · rintro ⟨y, hy, ws, h3, h4⟩
        cases hy
        rw [h1] at h3
        cases h3
        exact h4

/-- **C84 (part).** `replace` repairs: on objects with keys, on which all functions return, it returns and
after it every key is listed exactly under the values of its object. -/
theorem C84_replace_repairs (key : O → Option K) (fs : PyDict N (IndexFunc O V)) (hw : fs.WF)
    (hd : Distinct fs) (os : List (Op K O N V)) (xs : List O)
    (hk : ∀ x ∈ xs, (key x).isSome = true ∧ Returns fs x) :
    (step key (exec key (init fs) os) (.replace xs)).2 = .ok ∧
    ∀ k, lastOk key k (trace key (init fs) (os ++ [.replace xs])) = true := by
  have happ : ∀ (as : List (Op K O N V)) (s : State K O N V) b,
      trace key s (as ++ [b]) = trace key s as ++ [(b, (step key (exec key s as) b).2)] := by
    intro as
    induction as with
    | nil => intro s b; rfl
    | cons a as ih => intro s b; simp only [List.cons_append, trace, ih]; rfl
  have hall : xs.all (fun x => (key x).isSome) = true := by
    simp only [List.all_eq_true]
    exact fun x hx => (hk x hx).1
  have hok : (step key (exec key (init fs) os) (.replace xs)).2 = .ok := by
    have h := rkeys_reach key hw hd os
    obtain ⟨items, hb⟩ := (buildItems_none key xs []).1 hall
    obtain ⟨-, -, c⟩ := rinv_replace h.toRInv (buildItems_wf key xs [] items PyDict.WF_nil hb)
    have hr := c (by
      intro k o hm
      rw [exec_indexers]
      rcases buildItems_mem key xs [] items PyDict.WF_nil hb k o hm with h1 | h1
      · exact (hk o h1).2
      · simp at h1)
    simp only [step, hb]
    revert hr
    generalize replaceItems (exec key (init fs) os) items = r
    intro hr
    obtain ⟨s, e⟩ := r
    simp only at hr
    subst hr
    rfl
  refine ⟨hok, ?_⟩
  intro k
  rw [happ]
  simp only [lastOk, List.foldl_append, List.foldl_cons, List.foldl_nil, okStep, hall, if_true, hok,
    returned]

/-! ## the full claim is false -/

/-- index functions for the examples: the first raises on values from 50 on, the second on those from 90
on; an object is a pair (key, value) -/
def rFs : PyDict Nat (IndexFunc (Nat × Nat) Nat) :=
  [(7, fun o => if o.2 < 50 then some [o.2] else none), (8, fun o => if o.2 < 90 then some [o.1] else none)]

theorem rFs_wf : rFs.WF := by
  show List.Nodup _
  decide

theorem rFs_distinct : Distinct rFs := by
  intro p hp o vs h
  simp only [rFs, List.mem_cons, List.not_mem_nil, or_false] at hp
  rcases hp with rfl | rfl
  · simp only at h
    split at h <;> cases h
    simp
  · simp only at h
    split at h <;> cases h
    simp

/-- the key function of the examples -/
def rKey (o : Nat × Nat) : Option Nat := some o.1

/-- **C84 is false of the code**: a write that raises has an effect. The `add` raises, the object is
stored; the `update` raises, the new object is stored and the key has left the indices, also the one
whose function does not raise. -/
theorem C84_refuted_atomic :
    ((step rKey (exec rKey (init rFs) []) (.add (1, 60))).2
        = (.raised .indexFunc : Out Nat (Nat × Nat) Nat) ∧
      Holds rKey (exec rKey (init rFs) [.add (1, 60)]) 1 (1, 60)) ∧
    ((step rKey (exec rKey (init rFs) [.add (1, 5)]) (.update (1, 60))).2
        = (.raised .indexFunc : Out Nat (Nat × Nat) Nat) ∧
      Holds rKey (exec rKey (init rFs) [.add (1, 5), .update (1, 60)]) 1 (1, 60) ∧
      (step rKey (exec rKey (init rFs) [.add (1, 5)]) (.indexKeys 8 1)).2
        = (.keys [1] : Out Nat (Nat × Nat) Nat) ∧
      (step rKey (exec rKey (init rFs) [.add (1, 5), .update (1, 60)]) (.indexKeys 8 1)).2
        = (.keys [] : Out Nat (Nat × Nat) Nat) ∧
      Yields (fun o : Nat × Nat => if o.2 < 90 then some [o.1] else none) (1, 60) 1) := by
  refine ⟨⟨by decide, by unfold Holds; decide⟩, by decide, by unfold Holds; decide, by decide, by decide, ?_⟩
  exact ⟨[1], rfl, by simp⟩

/-- **C84 is false of the code**: an object on which some index function raises cannot be deleted; every
`delete` raises, and it is still there after any number of them. -/
theorem C84_refuted_undeletable (key : O → Option K) (s : State K O N V) (k : K) (o x : O) (n : N)
    (f : IndexFunc O V) (hn : (n, f) ∈ s.indexers) (hf : f o = none) (ho : Holds key s k o)
    (hx : key x = some k) (m : Nat) :
    Holds key (exec key s (List.replicate m (.delete x))) k o ∧
    ∃ e, (step key (exec key s (List.replicate m (.delete x))) (.delete x)).2 = .raised e := by
  have hraise : ∀ (fs : PyDict N (IndexFunc O V)) (ix : PyDict N (Index V K)), (n, f) ∈ fs →
      (deleteFromIndices o k fs ix).2 ≠ none := by
    intro fs
    induction fs with
    | nil => intro ix h; simp at h
    | cons p fs ih =>
      intro ix h
      obtain ⟨m, g⟩ := p
      rcases List.mem_cons.1 h with h | h
      · cases h
        simp [deleteFromIndices, hf]
      · simp only [deleteFromIndices]
        split
        · simp
        · split
          · exact ih _ h
          · split
            · exact ih _ h
            · simp
  have ho' : ∀ t : State K O N V, Holds key t k o ↔ t.items.get? k = some o := by
    intro t
    show Out.obj _ = Out.obj _ ↔ _
    simp
  have hdel : ∀ t : State K O N V, (n, f) ∈ t.indexers → t.items.get? k = some o →
      (delete t k).1.items = t.items ∧ (delete t k).1.indexers = t.indexers ∧
        (delete t k).2 ≠ none := by
    intro t ht h
    have hr := hraise t.indexers t.indices ht
    simp only [delete, h]
    revert hr
    generalize deleteFromIndices o k t.indexers t.indices = r
    intro hr
    obtain ⟨ix, e⟩ := r
    cases e with
    | none => exact absurd rfl hr
    | some e => exact ⟨rfl, rfl, by simp⟩
  induction m generalizing s with
  | zero =>
    refine ⟨ho, ?_⟩
    obtain ⟨-, -, h3⟩ := hdel s hn ((ho' s).1 ho)
    simp only [List.replicate_zero, exec, step, hx]
    revert h3
    generalize delete s k = r
    intro h3
    obtain ⟨t, e⟩ := r
    cases e with
    | none => exact absurd rfl h3
    | some e => exact ⟨e, rfl⟩
  | succ m ih =>
    obtain ⟨h1, h2, -⟩ := hdel s hn ((ho' s).1 ho)
    have hs : (step key s (.delete x)).1 = (delete s k).1 := by
      simp only [step, hx, ret_fst]
    have := ih (step key s (.delete x)).1 (by rw [hs, h2]; exact hn)
      ((ho' _).2 (by rw [hs, h1]; exact (ho' s).1 ho))
    exact this

/-- **C84 is false of the code**: the damage stays. Another object has the same value: after one `update`
that raised, every later `update` of the key raises, too, with an object on which all functions return. -/
theorem C84_refuted_forever (m : Nat) :
    (step rKey (exec rKey (init rFs)
      ([.add (1, 5), .add (2, 5), .update (1, 60)] ++ List.replicate (m + 1) (.update (1, 5))))
        (.update (1, 5))).2 = (.raised .keyError : Out Nat (Nat × Nat) Nat) := by
  have hsplit : ∀ (as bs : List (Op Nat (Nat × Nat) Nat Nat)) (s : State Nat (Nat × Nat) Nat Nat),
      exec rKey s (as ++ bs) = exec rKey (exec rKey s as) bs := by
    intro as
    induction as with
    | nil => intro bs s; rfl
    | cons a as ih => intro bs s; exact ih bs _
  have hfix : ∀ m, (exec rKey (init rFs)
      ([.add (1, 5), .add (2, 5), .update (1, 60)] ++ List.replicate (m + 1) (.update (1, 5)))).items
        = [(1, (1, 5)), (2, (2, 5))] ∧ (exec rKey (init rFs)
      ([.add (1, 5), .add (2, 5), .update (1, 60)] ++ List.replicate (m + 1) (.update (1, 5)))).indices
        = [(7, [(5, [2])]), (8, [(2, [2])])] ∧ (exec rKey (init rFs)
      ([.add (1, 5), .add (2, 5), .update (1, 60)] ++ List.replicate (m + 1) (.update (1, 5)))).indexers
        = rFs := by
    intro m
    induction m with
    | zero => exact ⟨by decide, by decide, rfl⟩
    | succ m ih =>
      obtain ⟨h1, h2, h3⟩ := ih
      rw [List.replicate_succ', ← List.append_assoc, hsplit]
      revert h1 h2 h3
      generalize exec rKey (init rFs)
        ([.add (1, 5), .add (2, 5), .update (1, 60)] ++ List.replicate (m + 1) (.update (1, 5))) = s
      obtain ⟨a, b, c⟩ := s
      intro h1 h2 h3
      simp only at h1 h2 h3
      subst h1 h2 h3
      exact ⟨by decide, by decide, rfl⟩
  obtain ⟨h1, h2, h3⟩ := hfix m
  revert h1 h2 h3
  generalize exec rKey (init rFs)
    ([.add (1, 5), .add (2, 5), .update (1, 60)] ++ List.replicate (m + 1) (.update (1, 5))) = s
  obtain ⟨a, b, c⟩ := s
  intro h1 h2 h3
  simp only at h1 h2 h3
  subst h1 h2 h3
  decide

/-! ## the hypotheses can be met -/

/-- a history in which an `update` and a `delete` raise: the key 1 is not settled, the key 2 is -/
example : rFs.WF ∧ Distinct rFs ∧
    lastOk rKey 1 (trace rKey (init rFs) [.add (1, 5), .add (2, 5), .update (1, 60), .delete (1, 0)]) = false ∧
    lastOk rKey 2 (trace rKey (init rFs) [.add (1, 5), .add (2, 5), .update (1, 60), .delete (1, 0)]) = true ∧
    (kept rKey (trace rKey (init rFs)
      [.add (1, 5), .add (2, 5), .update (1, 60), .delete (1, 0)])).objects = [(1, 60), (2, 5)] ∧
    (step rKey (exec rKey (init rFs) [.add (1, 5), .add (2, 5), .update (1, 60), .delete (1, 0)])
      (.byIndex 7 5)).2 = (.objs [(2, 5)] : Out Nat (Nat × Nat) Nat) :=
  ⟨rFs_wf, rFs_distinct, by decide, by decide, by decide, by decide⟩

/-- objects for `C84_replace_repairs` -/
example : ∀ x ∈ [(1, 5), (2, 5)], (rKey x).isSome = true ∧ Returns rFs x := by
  intro x hx
  refine ⟨rfl, ?_⟩
  intro p hp
  simp only [rFs, List.mem_cons, List.not_mem_nil, or_false] at hp hx
  rcases hx with rfl | rfl <;> rcases hp with rfl | rfl <;> exact ⟨_, rfl⟩

/-- a state for `C84_refuted_undeletable` -/
example : ∃ f, (7, f) ∈ (exec rKey (init rFs) [.add (1, 60)]).indexers ∧ f (1, 60) = none ∧
    Holds rKey (exec rKey (init rFs) [.add (1, 60)]) 1 (1, 60) :=
  ⟨_, List.mem_cons_self, rfl, by unfold Holds; decide⟩

end Aiok8s.Store
