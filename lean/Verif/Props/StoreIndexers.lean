import Verif.Spec.StoreIndexers
import Verif.Props.Store
import Verif.Proof.StoreRaise
/-!
# C107: index functions that are added later
-/
namespace Aiok8s.StoreIndexers
open Aiok8s Aiok8s.Store Aiok8s.Store.Spec Spec

variable {K O N V : Type} [DecidableEq K] [DecidableEq N] [DecidableEq V]

/-- The store is right. -/
private def Right (l : Ledger K O N V) (s : State K O N V) : Prop :=
  Inv l.book s ∧ Good s.indexers ∧ l.funcs = s.indexers.get?

private theorem good_set {fs : PyDict N (IndexFunc O V)} (hw : fs.WF) (h : Good fs) (n : N) (f : IndexFunc O V)
    (hf : Nice f) : Good (fs.set n f) := by
  rintro ⟨m, g⟩ hp o
  have h1 := PyDict.mem_get? (PyDict.WF_set hw n f) hp
  rw [PyDict.get?_set] at h1
  by_cases e : n = m
  · rw [if_pos e] at h1
    cases h1
    exact hf o
  · rw [if_neg e] at h1
    exact h (m, g) (PyDict.get?_mem h1) o

private theorem good_del {fs : PyDict N (IndexFunc O V)} (hw : fs.WF) (h : Good fs) (n : N) : Good (fs.del n) := by
  rintro ⟨m, g⟩ hp o
  have h1 := PyDict.mem_get? (PyDict.WF_del hw n) hp
  rw [PyDict.get?_del hw] at h1
  by_cases e : n = m
  · rw [if_pos e] at h1
    cases h1
  · rw [if_neg e] at h1
    exact h (m, g) (PyDict.get?_mem h1) o

private theorem right_call {key : O → Option K} {l : Ledger K O N V} {s : State K O N V} (h : Right l s)
    (o : Op K O N V) :
    Right (l.step key (.call o)) (step key s (.call o)) ∧
    ∀ a, l.book.answer key o = some a → (Store.step key s o).2 = a := by
  obtain ⟨h1, h2, h3⟩ := h
  have ho : Ok key s.indexers l.book o := by
    cases o <;> simp only [Ok] <;> intro k _ <;> exact good_no_clash h2 _ k
  obtain ⟨h4, h5⟩ := inv_step h1 o ho
  have hi := step_indexers key s o
  refine ⟨⟨h4, ?_, ?_⟩, h5⟩
  · show Good (Store.step key s o).1.indexers
    rw [hi]; exact h2
  · show l.funcs = (Store.step key s o).1.indexers.get?
    rw [hi]; exact h3

private theorem right_assign {key : O → Option K} {l : Ledger K O N V} {s : State K O N V} (h : Right l s) (n : N)
    (f : IndexFunc O V) (hf : Nice f) (he : l.book.order = []) :
    Right (l.step key (.assign n f)) (step key s (.assign n f)) := by
  obtain ⟨h1, h2, h3⟩ := h
  have hw := PyDict.WF_set h1.wfx n f
  have hg := good_set h1.wfx h2 n f hf
  have hnone : ∀ k, l.book.val k = none := by
    intro k
    rw [h1.sim.val, PyDict.get?_eq_none, ← h1.sim.order, he]
    simp
  refine ⟨⟨h1.sim, hw, good_total hg, ?_⟩, hg, ?_⟩
  · refine ⟨?_, ?_⟩
    · intro m hm
      refine h1.exact.out m fun hm' => hm ?_
      show m ∈ PyDict.keys (s.indexers.set n f)
      rw [PyDict.keys_set]
      split
      · exact hm'
      · exact List.mem_append_left _ hm'
    · intro m g hm
      have key : Ex (at' s.indices m) (fun v k => False) := by
        by_cases hk : m ∈ s.indexers.keys
        · obtain ⟨p, hp, hpm⟩ := List.mem_map.1 hk
          obtain ⟨m', g'⟩ := p
          subst hpm
          refine (h1.exact.ex m' g' hp).congr fun v k => ?_
          simp [hnone]
        · have := h1.exact.out m hk
          rw [at'_none this]
          exact ex_nil
      refine key.congr fun v k => ?_
      show False ↔ ∃ o, l.book.val k = some o ∧ Yields g o v
      simp [hnone]
  · funext m
    show (if m = n then some f else l.funcs m) = (s.indexers.set n f).get? m
    rw [PyDict.get?_set, h3]
    by_cases e : n = m
    · simp [e]
    · have e' : m ≠ n := fun x => e x.symm
      simp [e, e']

private theorem right_exec {key : O → Option K} : ∀ (as : List (Act K O N V)) (l : Ledger K O N V)
    (s : State K O N V), Right l s → AllNice as → Early key l as →
    Right (as.foldl (Ledger.step key) l) (exec key s as)
  | [], _, _, h, _, _ => h
  | .call o :: as, _, _, h, hn, he =>
    right_exec as _ _ (right_call h o).1 (fun n f hm => hn n f (List.mem_cons_of_mem _ hm)) he.2
  | .assign n f :: as, _, _, h, hn, he =>
    right_exec as _ _ (right_assign h n f (hn n f List.mem_cons_self) he.1)
      (fun n f hm => hn n f (List.mem_cons_of_mem _ hm)) he.2
  | .remove n :: _, _, _, _, _, he => absurd he.1 id

private theorem right_init {fs : PyDict N (IndexFunc O V)} (hw : fs.WF) (hg : Good fs) :
    Right (K := K) ⟨Book.empty, fs.get?⟩ (init fs) :=
  ⟨inv_init hw (good_total hg), hg, rfl⟩

private theorem byIndex_right {l : Ledger K O N V} {s : State K O N V} (h : Right l s) {n : N} {f : IndexFunc O V}
    (hf : l.funcs n = some f) (v : V) :
    ∃ os, byIndex s n v = .objs os ∧ os.Perm (l.book.objectsWhere fun o => decide (Yields f o v)) := by
  obtain ⟨h1, h2, h3⟩ := h
  rw [h3] at hf
  have hE := h1.exact.ex n f (PyDict.get?_mem hf)
  have hn : ((PyDict.get? (at' s.indices n) v).getD []).Nodup := by
    cases hc : PyDict.get? (at' s.indices n) v with
    | none => simp
    | some s => exact (hE.good v s hc).2
  obtain ⟨-, os, h4, h5⟩ := lookup_where h1.sim (fun o => decide (Yields f o v)) _ hn (by
    intro k
    rw [show (k ∈ _ ↔ _) from hE.mem v k]
    simp only [decide_eq_true_eq])
  refine ⟨os, ?_, h5⟩
  simp only [byIndex, hf]
  simp only [at'] at h4
  rw [h4]

/-- **C107 (part).** If functions are assigned to the dict only while nothing is stored, and none is removed, the
store behaves as if it had been made with the functions that are in it now: every call that concerns the map answers
like the book, and `by_index(n, v)` returns exactly the stored objects to which the function that is there now gives
`v`, each once.  Missing of the full claim: assignments while something is stored, and removals. -/
theorem C107_exact_partial (key : O → Option K) (fs : PyDict N (IndexFunc O V)) (hw : fs.WF) (hg : Good fs)
    (as : List (Act K O N V)) (hn : AllNice as) (he : Early key ⟨Book.empty, fs.get?⟩ as) :
    let l := Ledger.after key fs as
    let s := exec key (init fs) as
    (∀ o a, l.book.answer key o = some a → (Store.step key s o).2 = a) ∧
    (∀ n f, l.funcs n = some f → ∀ v, ∃ os, (Store.step key s (.byIndex n v)).2 = .objs os ∧
      os.Perm (l.book.objectsWhere fun o => decide (Yields f o v))) ∧
    (∀ n, l.funcs n = none → ∀ v, (Store.step key s (.byIndex n v)).2 = .raised .keyError) := by
  intro l s
  have h : Right l s := right_exec as _ _ (right_init hw hg) hn he
  refine ⟨fun o a ha => (right_call h o).2 a ha, fun n f hf v => byIndex_right h hf v, fun n hnn v => ?_⟩
  have : s.indexers.get? n = none := by rw [← h.2.2]; exact hnn
  simp only [Store.step, byIndex, this]

/-- A function assigned to an empty store, another replaced after everything was deleted. -/
private def exActs : List (Act Nat (Nat × List Nat) Nat Nat) :=
  [.assign 8 (fun o => some [o.1]), .call (.add (1, [5])), .call (.delete (1, [])),
    .assign 8 (fun o => some [o.1 + 1]), .call (.add (2, [5]))]

example : AllNice exActs ∧ Early exKey ⟨Book.empty, exFs.get?⟩ exActs ∧
    (Store.step exKey (exec exKey (init exFs) exActs) (.byIndex 8 3)).2 = .objs [(2, [5])] := by
  refine ⟨?_, ?_, by decide⟩
  · intro n f hm
    simp only [exActs, List.mem_cons, Act.assign.injEq, List.not_mem_nil, or_false, reduceCtorEq, false_or] at hm
    rcases hm with ⟨-, rfl⟩ | ⟨-, rfl⟩
    · exact fun o => ⟨_, rfl, by simp⟩
    · exact fun o => ⟨_, rfl, by simp⟩
  · simp [exActs, Early, Ledger.step, Book.step, Book.empty, exKey, Book.put, Book.drop]

/-! ### `replace` -/

private theorem funcs_exec {key : O → Option K} : ∀ (as : List (Act K O N V)) (l : Ledger K O N V)
    (s : State K O N V), s.indexers.WF → Good s.indexers → AllNice as → l.funcs = s.indexers.get? →
    (exec key s as).indexers.WF ∧ Good (exec key s as).indexers ∧
    (as.foldl (Ledger.step key) l).funcs = (exec key s as).indexers.get?
  | [], _, _, hw, hg, _, hf => ⟨hw, hg, hf⟩
  | .call o :: as, l, s, hw, hg, hn, hf => by
    have hi := step_indexers key s o
    exact funcs_exec as _ _ (by show (Store.step key s o).1.indexers.WF; rw [hi]; exact hw)
      (by show Good (Store.step key s o).1.indexers; rw [hi]; exact hg)
      (fun n f hm => hn n f (List.mem_cons_of_mem _ hm))
      (by show l.funcs = (Store.step key s o).1.indexers.get?; rw [hi]; exact hf)
  | .assign n f :: as, l, s, hw, hg, hn, hf =>
    funcs_exec as _ _ (PyDict.WF_set hw n f) (good_set hw hg n f (hn n f List.mem_cons_self))
      (fun n f hm => hn n f (List.mem_cons_of_mem _ hm)) (by
        funext m
        show (if m = n then some f else l.funcs m) = (s.indexers.set n f).get? m
        rw [PyDict.get?_set, hf]
        by_cases e : n = m
        · simp [e]
        · have e' : m ≠ n := fun x => e x.symm
          simp [e, e'])
  | .remove n :: as, l, s, hw, hg, hn, hf =>
    funcs_exec as _ _ (PyDict.WF_del hw n) (good_del hw hg n)
      (fun n f hm => hn n f (List.mem_cons_of_mem _ hm)) (by
        funext m
        show (if m = n then none else l.funcs m) = (s.indexers.del n).get? m
        rw [PyDict.get?_del hw, hf]
        by_cases e : n = m
        · simp [e]
        · have e' : m ≠ n := fun x => e x.symm
          simp [e, e'])

/-- **C107 (part).** `replace` repairs: whatever was assigned and removed before, a `replace` by objects with keys
returns, and after it every call answers as it should, by the functions that are in the dict, as long as functions are
assigned only while nothing is stored. -/
theorem C107_replace_repairs (key : O → Option K) (fs : PyDict N (IndexFunc O V)) (hw : fs.WF) (hg : Good fs)
    (bs cs : List (Act K O N V)) (xs : List O) (hk : ∀ x ∈ xs, (key x).isSome = true) (hn : AllNice (bs ++ cs))
    (he : Early key (Ledger.after key fs (bs ++ [.call (.replace xs)])) cs) :
    let l := Ledger.after key fs (bs ++ .call (.replace xs) :: cs)
    let s := exec key (init fs) (bs ++ .call (.replace xs) :: cs)
    (Store.step key (exec key (init fs) bs) (.replace xs)).2 = .ok ∧
    (∀ o a, l.book.answer key o = some a → (Store.step key s o).2 = a) ∧
    (∀ n f, l.funcs n = some f → ∀ v, ∃ os, (Store.step key s (.byIndex n v)).2 = .objs os ∧
      os.Perm (l.book.objectsWhere fun o => decide (Yields f o v))) := by
  intro l s
  have app : ∀ (as bs : List (Act K O N V)) (t : State K O N V),
      exec key t (as ++ bs) = exec key (exec key t as) bs := by
    intro as
    induction as with
    | nil => intro bs t; rfl
    | cons a as ih => intro bs t; exact ih bs _
  obtain ⟨h1, h2, h3⟩ := funcs_exec (key := key) bs ⟨Book.empty, fs.get?⟩ (init fs : State K O N V) hw hg
    (fun n f hm => hn n f (List.mem_append_left _ hm)) rfl
  have e1 : Ledger.after key fs (bs ++ [.call (.replace xs)])
      = (Ledger.after key fs bs).step key (.call (.replace xs)) := by simp [Ledger.after]
  have e2 : l = cs.foldl (Ledger.step key) ((Ledger.after key fs bs).step key (.call (.replace xs))) := by
    simp [l, Ledger.after]
  have e3 : s = exec key (step key (exec key (init fs) bs) (.call (.replace xs))) cs := by
    simp only [s, app]; rfl
  rw [e1] at he
  change (Ledger.after key fs bs).funcs = _ at h3
  revert he e2 e3 h1 h2 h3
  generalize Ledger.after key fs bs = l0
  generalize exec key (init fs : State K O N V) bs = s0
  intro he h1 h2 e2 e3 h3
  have hall : xs.all (fun x => (key x).isSome) = true := by simpa only [List.all_eq_true] using hk
  obtain ⟨items, hi, hs⟩ := (buildItems_spec key xs Book.empty [] Sim.empty).1 hall
  obtain ⟨a, e⟩ := exact_indexAll (K := K) h1 (good_total h2) items (ix := []) (val := fun _ => none)
    hs.wf ⟨fun _ _ => rfl, fun n f _ => ex_nil.congr (by simp)⟩ (fun _ _ => rfl)
  have hr : Right (l0.step key (.call (.replace xs))) (step key s0 (.call (.replace xs))) := by
    have hb : Sim (l0.step key (.call (.replace xs) : Act K O N V)).book items := by
      simp only [Ledger.step, Book.step, hall, if_true]
      exact hs
    have e4 : step key s0 (.call (.replace xs))
        = { s0 with items := items, indices := (indexAll s0.indexers items []).1 } := by
      simp only [step, Store.step, hi, ret_fst, replaceItems]
    rw [e4]
    refine ⟨⟨hb, h1, good_total h2, ?_⟩, h2, h3⟩
    have e' : (fun j => match items.get? j with | some o => some o | none => none)
        = (l0.step key (.call (.replace xs) : Act K O N V)).book.val := by
      funext j
      rw [hb.val]
      cases items.get? j <;> rfl
    rw [← e']
    exact e
  have h := right_exec cs _ _ hr (fun n f hm => hn n f (List.mem_append_right _ hm)) he
  rw [← e2, ← e3] at h
  refine ⟨?_, fun o a ha => (right_call h o).2 a ha, fun n f hf v => byIndex_right h hf v⟩
  simp only [Store.step, hi, replaceItems]
  revert a
  generalize indexAll s0.indexers items [] = r
  rintro a
  simp [ret, a]

/-- Assigned while an object is stored, then replaced. -/
example : (Store.step exKey (exec exKey (init exFs)
      ([.call (.add (1, [5])), .assign 8 (fun o : Nat × List Nat => some [o.1])] ++
        Act.call (.replace [(1, [6]), (3, [5])]) :: [])) (.byIndex 8 1)).2 = .objs [(1, [6])] := by
  decide

/-! ### What goes wrong -/

private theorem calls_exec (key : O → Option K) : ∀ (os : List (Op K O N V)) (s : State K O N V),
    exec key s (os.map .call) = Store.exec key s os
  | [], _ => rfl
  | _ :: os, _ => calls_exec key os _

/-- **C107 is false of the code**: a function that is assigned under a new name finds none of the objects that are
stored already. -/
theorem C107_refuted_missing (key : O → Option K) (fs : PyDict N (IndexFunc O V)) (hw : fs.WF) (hg : Good fs)
    (os : List (Op K O N V)) (n : N) (hn : fs.get? n = none) (f : IndexFunc O V) (v : V) :
    (Store.step key (exec key (init fs) (os.map .call ++ [.assign n f])) (.byIndex n v)).2 = .objs [] := by
  have app : ∀ (as bs : List (Act K O N V)) (t : State K O N V),
      exec key t (as ++ bs) = exec key (exec key t as) bs := by
    intro as
    induction as with
    | nil => intro bs t; rfl
    | cons a as ih => intro bs t; exact ih bs _
  rw [app, calls_exec]
  have h := inv_exec key os (inv_init (K := K) hw (good_total hg)) (good_clean key hg os _)
  have := h.exact.out n (by rw [exec_indexers]; exact PyDict.get?_eq_none.1 hn)
  simp [exec, step, getIndexers, Store.step, byIndex, PyDict.get?_set, this, lookupAll]

/-- An object is stored that has the value. -/
example : (Store.step exKey (exec exKey (init exFs)
      (([.add (1, [5])] : List (Op Nat (Nat × List Nat) Nat Nat)).map .call ++
        [.assign 8 (fun o : Nat × List Nat => some [o.1])])) .list).2 = .objs [(1, [5])] ∧
    Yields (fun o : Nat × List Nat => some [o.1]) (1, [5]) 1 :=
  ⟨by decide, [1], rfl, by simp⟩

/-- The index of `n` has the value of the object for others only. -/
private structure Stuck (n : N) (f : IndexFunc O V) (k : K) (o : O) (s : State K O N V) : Prop where
  wf : s.indexers.WF
  func : (n, f) ∈ s.indexers
  item : s.items.get? k = some o
  idx : ∃ S, Ex (at' s.indices n) S ∧ (∀ v, ¬ S v k) ∧ ∃ v k', Yields f o v ∧ S v k'

private theorem stuck_indices {n : N} {f : IndexFunc O V} {k : K} {o : O} {S : V → K → Prop} (hk : ∀ v, ¬ S v k)
    {v : V} {k' : K} (hy : Yields f o v) (hs : S v k') :
    ∀ (fs : PyDict N (IndexFunc O V)) (ix : PyDict N (Index V K)), fs.WF → (n, f) ∈ fs → Ex (at' ix n) S →
    at' (deleteFromIndices o k fs ix).1 n = at' ix n ∧ (deleteFromIndices o k fs ix).2 ≠ none := by
  intro fs
  induction fs with
  | nil => intro ix _ h; simp at h
  | cons p fs ih =>
    intro ix hw hm hE
    obtain ⟨m, g⟩ := p
    have hw' : m ∉ PyDict.keys fs ∧ PyDict.WF fs := by
      have : (m :: PyDict.keys fs).Nodup := hw
      exact List.nodup_cons.1 this
    simp only [deleteFromIndices]
    by_cases e : m = n
    · subst e
      have eg : g = f := by
        rcases List.mem_cons.1 hm with h | h
        · cases h; rfl
        · exact absurd (List.mem_map.2 ⟨_, h, rfl⟩) hw'.1
      subst eg
      obtain ⟨vs, h1, h2⟩ := hy
      simp only [h1]
      cases hi : ix.get? m with
      | none =>
        have : at' ix m = [] := at'_none hi
        rw [this] at hE
        have := (hE.mem v k').2 hs
        simp at this
      | some idx =>
        have hi' : at' ix m = idx := by simp [at', hi]
        rw [hi'] at hE
        have hd := deleteValues_missing k v k' vs hE h2 hs (hk v)
        have ha := deleteValues_absent k vs hE hk
        simp only [hd, Bool.false_eq_true, if_false]
        refine ⟨?_, by simp⟩
        rw [at'_set, if_pos rfl, ha, hi']
    · have hm' : (n, f) ∈ fs := by
        rcases List.mem_cons.1 hm with h | h
        · cases h; exact absurd rfl e
        · exact h
      split
      · exact ⟨rfl, by simp⟩
      · split
        · exact ih ix hw'.2 hm' hE
        · split
          · rename_i idx _ _
            have aux : ∀ i : Index V K, at' (deleteFromIndices o k fs (ix.set m i)).1 n = at' ix n ∧
                (deleteFromIndices o k fs (ix.set m i)).2 ≠ none := by
              intro i
              have := ih (ix.set m i) hw'.2 hm' (by rw [at'_set, if_neg e]; exact hE)
              rw [at'_set, if_neg e] at this
              exact this
            exact aux _
          · exact ⟨by rw [at'_set, if_neg e], by simp⟩

private theorem stuck_delete {n : N} {f : IndexFunc O V} {k : K} {o : O} {s : State K O N V} (h : Stuck n f k o s) :
    Stuck n f k o (delete s k).1 ∧ (delete s k).2 ≠ none := by
  obtain ⟨hw, hf, hi, S, hE, hk, v, k', hy, hs⟩ := h
  obtain ⟨h1, h2⟩ := stuck_indices hk hy hs s.indexers s.indices hw hf hE
  simp only [delete, hi]
  revert h1 h2
  generalize deleteFromIndices o k s.indexers s.indices = r
  intro h1 h2
  obtain ⟨ix, e⟩ := r
  cases e with
  | none => exact absurd rfl h2
  | some e => exact ⟨⟨hw, hf, hi, S, by simp only at h1; rw [h1]; exact hE, hk, v, k', hy, hs⟩, by simp⟩

/-- **C107 is false of the code**: a function is assigned under a new name while `o` is stored, and then another object
to which it gives one of the values of `o` is added: from then on `o` cannot be deleted.  Every `delete` of its key
raises, and it is still there after any number of them. -/
theorem C107_refuted_stuck (key : O → Option K) (fs : PyDict N (IndexFunc O V)) (hw : fs.WF) (hg : Good fs)
    (os : List (Op K O N V)) (n : N) (hn : fs.get? n = none) (f : IndexFunc O V) (hf : Nice f)
    (k k' : K) (o o' x : O) (v : V) (hk : (Book.after key os).val k = some o) (hk' : (Book.after key os).val k' = none)
    (ho' : key o' = some k') (hx : key x = some k) (hv : Yields f o v) (hv' : Yields f o' v) (m : Nat) :
    let s := exec key (init fs)
      (os.map .call ++ .assign n f :: .call (.add o') :: List.replicate m (.call (.delete x)))
    (Store.step key s (.getByKey k)).2 = .obj (some o) ∧ ∃ e, (Store.step key s (.delete x)).2 = .raised e := by
  intro s
  have app : ∀ (as bs : List (Act K O N V)) (t : State K O N V),
      exec key t (as ++ bs) = exec key (exec key t as) bs := by
    intro as
    induction as with
    | nil => intro bs t; rfl
    | cons a as ih => intro bs t; exact ih bs _
  have h := inv_exec key os (inv_init (K := K) hw (good_total hg)) (good_clean key hg os _)
  change Inv (Book.after key os) _ at h
  have hne : k ≠ k' := by
    intro e
    rw [e, hk'] at hk
    cases hk
  have hs : s = exec key (step key (step key (Store.exec key (init fs) os) (.assign n f)) (.call (.add o')))
      (List.replicate m (.call (.delete x))) := by
    simp only [s, app, calls_exec]; rfl
  have hix : (Store.exec key (init fs : State K O N V) os).indexers = fs := exec_indexers key os _
  have hout : (Store.exec key (init fs : State K O N V) os).indices.get? n = none :=
    h.exact.out n (by rw [hix]; exact PyDict.get?_eq_none.1 hn)
  revert h hs hix hout
  generalize Store.exec key (init fs : State K O N V) os = t
  intro h hs hix hout
  have start : Stuck n f k o (step key (step key t (.assign n f)) (.call (.add o'))) := by
    have hnone : t.items.get? k' = none := by rw [← h.sim.val]; exact hk'
    have hw2 : (t.indexers.set n f).WF := PyDict.WF_set h.wfx n f
    have hmem : (n, f) ∈ t.indexers.set n f := PyDict.get?_mem (by rw [PyDict.get?_set, if_pos rfl])
    have hgood : Good (t.indexers.set n f) := good_set h.wfx (by rw [hix]; exact hg) n f hf
    obtain ⟨-, -, hc⟩ := addToIndices_spec o' k' (t.indexers.set n f) t.indices
      (fun m v j => ∃ g y, (m, g) ∈ t.indexers ∧ m ≠ n ∧ (Book.after key os).val j = some y ∧ Yields g y v)
      hw2 (good_total hgood) (by
        intro m hm
        by_cases e : m = n
        · subst e
          rw [at'_none hout]
          exact ex_nil.congr (by simp)
        · have hm' : m ∈ t.indexers.keys := by
            rw [PyDict.keys_set] at hm
            split at hm
            · exact hm
            · rcases List.mem_append.1 hm with hm | hm
              · exact hm
              · simp only [List.mem_singleton] at hm
                exact absurd hm e
          obtain ⟨p, hp, hpm⟩ := List.mem_map.1 hm'
          obtain ⟨m', g⟩ := p
          subst hpm
          refine (h.exact.ex m' g hp).congr fun w j => ?_
          constructor
          · rintro ⟨y, h1, h2⟩
            exact ⟨g, y, hp, e, h1, h2⟩
          · rintro ⟨g', y, h1, -, h2, h3⟩
            have e1 := PyDict.mem_get? h.wfx hp
            rw [PyDict.mem_get? h.wfx h1] at e1
            cases e1
            exact ⟨y, h2, h3⟩)
    have hE := hc n f hmem
    have e : step key (step key t (.assign n f)) (.call (.add o'))
        = { t with items := t.items.set k' o', indexers := t.indexers.set n f,
                   indices := (addToIndices o' k' (t.indexers.set n f) t.indices).1 } := by
      simp only [step, getIndexers, Store.step, ho', ret_fst, put, hnone, updateIndices]
    rw [e]
    refine ⟨hw2, hmem, ?_, _, hE, ?_, v, k', hv, Or.inr ⟨rfl, hv'⟩⟩
    · rw [PyDict.get?_set, if_neg (fun e => hne e.symm), ← h.sim.val]
      exact hk
    · rintro w (⟨g, y, -, h1, -⟩ | ⟨h1, -⟩)
      · exact h1 rfl
      · exact hne h1
  have iter : ∀ (m : Nat) (t : State K O N V), Stuck n f k o t →
      Stuck n f k o (exec key t (List.replicate m (.call (.delete x)))) := by
    intro m
    induction m with
    | zero => intro t h; exact h
    | succ m ih =>
      intro t h
      refine ih _ ?_
      show Stuck n f k o (Store.step key t (.delete x)).1
      simp only [Store.step, hx, ret_fst]
      exact (stuck_delete h).1
  have fin : Stuck n f k o s := by rw [hs]; exact iter m _ start
  refine ⟨by simp only [Store.step, fin.item], ?_⟩
  have h2 := (stuck_delete fin).2
  simp only [Store.step, hx]
  revert h2
  generalize delete s k = r
  intro h2
  obtain ⟨t, e⟩ := r
  cases e with
  | none => exact absurd rfl h2
  | some e => exact ⟨e, rfl⟩

/-- Two objects with the value 5; the function is the one of `exFs` under another name. -/
example : exFs.get? 8 = none ∧ Nice (fun o : Nat × List Nat => some o.2.dedup) ∧
    (Book.after (N := Nat) (V := Nat) exKey [.add (1, [5])] : Book Nat (Nat × List Nat)).val 1 = some (1, [5]) ∧
    (Book.after (N := Nat) (V := Nat) exKey [.add (1, [5])] : Book Nat (Nat × List Nat)).val 2 = none ∧
    Yields (fun o : Nat × List Nat => some o.2.dedup) (1, [5]) 5 ∧
    Yields (fun o : Nat × List Nat => some o.2.dedup) (2, [5, 6]) 5 :=
  ⟨by decide, fun o => ⟨_, rfl, List.nodup_dedup _⟩, by decide, by decide, by decide, by decide⟩

/-- **C107 is false of the code**: a function is removed, an object deleted, the function put back: `by_index` raises
`KeyError` for a name that is there. -/
theorem C107_refuted_remove :
    (Store.step exKey (exec exKey (init exFs) [.call (.add (1, [5])), .remove 7, .call (.delete (1, [])),
      .assign 7 (fun o => some o.2.dedup)]) (.byIndex 7 5)).2 = .raised .keyError := by
  decide

end Aiok8s.StoreIndexers
