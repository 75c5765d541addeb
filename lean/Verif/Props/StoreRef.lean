import Verif.Spec.StoreRef
import Verif.Props.Store
import Verif.Proof.StoreRaise
/-!
# C89: objects that are changed in place
-/
namespace Aiok8s.StoreRef
open Aiok8s Aiok8s.Store Aiok8s.Store.Spec Spec

variable {R K O N V : Type} [DecidableEq R] [DecidableEq K] [DecidableEq N] [DecidableEq V]

private theorem view_keys (heap : R → O) (fs : PyDict N (IndexFunc O V)) :
    PyDict.keys (view heap fs) = fs.keys := by
  simp [view, PyDict.keys]

private theorem view_wf {heap : R → O} {fs : PyDict N (IndexFunc O V)} (h : fs.WF) :
    PyDict.WF (view heap fs) := by
  show (PyDict.keys (view heap fs)).Nodup
  rw [view_keys]
  exact h

private theorem mem_view {heap : R → O} {fs : PyDict N (IndexFunc O V)} {n : N} {g : IndexFunc R V} :
    (n, g) ∈ view heap fs ↔ ∃ f, (n, f) ∈ fs ∧ g = fun r => f (heap r) := by
  simp only [view, List.mem_map, Prod.mk.injEq, Prod.exists]
  constructor
  · rintro ⟨a, f, h, rfl, rfl⟩
    exact ⟨f, h, rfl⟩
  · rintro ⟨f, h, rfl⟩
    exact ⟨n, f, h, rfl, rfl⟩

private theorem view_good {heap : R → O} {fs : PyDict N (IndexFunc O V)} (h : Good fs) :
    Good (view heap fs) := by
  rintro ⟨n, g⟩ hp r
  obtain ⟨f, hf, rfl⟩ := mem_view.1 hp
  exact h (n, f) hf (heap r)

private theorem yields_view (f : IndexFunc O V) (heap : R → O) (r : R) (v : V) :
    Yields (fun r => f (heap r)) r v ↔ Yields f (heap r) v := Iff.rfl

/-- The store is right about the objects as they are. -/
private def Right (fs : PyDict N (IndexFunc O V)) (p : Page R K O) (w : World R K O N V) : Prop :=
  w.heap = p.heap ∧ Inv p.book { w.store with indexers := view p.heap fs }

private theorem right_init {fs : PyDict N (IndexFunc O V)} (hw : fs.WF) (hg : Good fs) (heap : R → O) :
    Right (K := K) fs ⟨heap, Book.empty⟩ (init heap fs) :=
  ⟨rfl, inv_init (view_wf hw) (good_total (view_good hg))⟩

private theorem right_call {key : O → Option K} {fs : PyDict N (IndexFunc O V)} (hg : Good fs)
    {p : Page R K O} {w : World R K O N V} (h : Right fs p w) (o : Op K R N V) :
    Right fs (p.step key (.call o)) (step key fs w (.call o)) ∧
    ∀ a, p.book.answer (fun r => key (p.heap r)) o = some a → (call key fs w o).2 = a := by
  obtain ⟨h1, h2⟩ := h
  have ho : Ok (fun r => key (p.heap r)) (view p.heap fs) p.book o := by
    cases o <;> simp only [Ok] <;> intro k _ <;> exact good_no_clash (view_good hg) _ k
  obtain ⟨h3, h4⟩ := inv_step h2 o ho
  refine ⟨⟨h1, ?_⟩, ?_⟩
  · show Inv (p.book.step (fun r => key (p.heap r)) o) _
    have hix := step_indexers (fun r => key (p.heap r)) { w.store with indexers := view p.heap fs } o
    convert h3 using 1
    simp only [step, call, h1]
    generalize Store.step (fun r => key (p.heap r)) { w.store with indexers := view p.heap fs } o = q at hix ⊢
    obtain ⟨⟨i, x, d⟩, a⟩ := q
    simp only at hix
    subst hix
    rfl
  · intro a ha
    have := h4 a ha
    simp only [call, h1]
    exact this

private theorem right_write {key : O → Option K} {fs : PyDict N (IndexFunc O V)} (hw : fs.WF) (hg : Good fs)
    {p : Page R K O} {w : World R K O N V} (h : Right fs p w) {r : R} {o : O}
    (hh : Harmless (N := N) (K := K) fs p (.write r o)) :
    Right fs (p.step key (.write r o : Act R K O N V)) (step key fs w (.write r o)) := by
  obtain ⟨h1, h2⟩ := h
  refine ⟨by simp only [step, Page.step, h1], ?_⟩
  refine ⟨h2.sim, view_wf hw, good_total (view_good hg), ?_⟩
  refine ⟨?_, ?_⟩
  · intro n hn
    refine h2.exact.out n ?_
    rw [view_keys] at hn ⊢
    exact hn
  · intro n g hm
    obtain ⟨f, hf, rfl⟩ := mem_view.1 hm
    refine (h2.exact.ex n _ (mem_view.2 ⟨f, hf, rfl⟩)).congr ?_
    intro v k
    refine exists_congr fun q => and_congr_right fun hq => ?_
    have hq' : p.book.val k = some q := hq
    show Yields f (p.heap q) v ↔ Yields f (if q = r then o else p.heap q) v
    split
    · rename_i e
      subst e
      exact (hh ⟨k, hq'⟩ n f hf v).symm
    · exact Iff.rfl

private theorem right_exec {key : O → Option K} {fs : PyDict N (IndexFunc O V)} (hw : fs.WF) (hg : Good fs) :
    ∀ (as : List (Act R K O N V)) (p : Page R K O) (w : World R K O N V), Right fs p w →
      AllHarmless key fs p as → Right fs (as.foldl (Page.step key) p) (exec key fs w as)
  | [], p, w, h, _ => h
  | .call o :: as, p, w, h, ha => right_exec hw hg as _ _ (right_call hg h o).1 ha.2
  | .write r o :: as, p, w, h, ha => right_exec hw hg as _ _ (right_write hw hg h ha.1) ha.2

private theorem byIndex_right {fs : PyDict N (IndexFunc O V)} {p : Page R K O}
    {w : World R K O N V} (h : Right fs p w) {n : N} {f : IndexFunc O V} (hf : (n, f) ∈ fs) (v : V) :
    ∃ l, byIndex { w.store with indexers := view p.heap fs } n v = .objs l ∧ l.Perm (p.having f v) := by
  obtain ⟨h1, h2⟩ := h
  have hm : (n, fun r => f (p.heap r)) ∈ view p.heap fs := mem_view.2 ⟨f, hf, rfl⟩
  have hE := h2.exact.ex n _ hm
  have hn : ((PyDict.get? (at' w.store.indices n) v).getD []).Nodup := by
    cases hc : PyDict.get? (at' w.store.indices n) v with
    | none => simp
    | some s => exact (hE.good v s hc).2
  obtain ⟨-, l, h3, h4⟩ := lookup_where h2.sim (fun r => decide (Yields f (p.heap r) v)) _ hn (by
    intro k
    rw [show (k ∈ _ ↔ _) from hE.mem v k]
    simp only [decide_eq_true_eq]
    exact Iff.rfl)
  refine ⟨l, ?_, h4⟩
  have hi : PyDict.get? (view p.heap fs) n = some fun r => f (p.heap r) := PyDict.mem_get? h2.wfx hm
  simp only [byIndex, hi]
  simp only [at'] at h3
  rw [h3]

/-- **C89 (part).** As long as every assignment is to an object that is not stored, or does not change the
index values of the object, the store behaves as it should: every call that concerns the map answers like the
book, and `by_index(n, v)` returns exactly the stored objects that have the value `v` now, each once. Missing
of the full claim: any other assignment. -/
theorem C89_exact_partial (key : O → Option K) (fs : PyDict N (IndexFunc O V)) (hw : fs.WF) (hg : Good fs)
    (heap : R → O) (as : List (Act R K O N V)) (hh : AllHarmless key fs ⟨heap, Book.empty⟩ as) :
    let p := Page.after key heap as
    let w := exec key fs (init heap fs) as
    (∀ o a, p.book.answer (fun r => key (p.heap r)) o = some a → (call key fs w o).2 = a) ∧
    (∀ n f, fs.get? n = some f → ∀ v,
      ∃ l, (call key fs w (.byIndex n v)).2 = .objs l ∧ l.Perm (p.having f v)) := by
  intro p w
  have h : Right fs p w := right_exec hw hg as _ _ (right_init hw hg heap) hh
  refine ⟨fun o a ha => (right_call hg h o).2 a ha, ?_⟩
  intro n f hf v
  obtain ⟨l, h1, h2⟩ := byIndex_right h (PyDict.get?_mem hf) v
  refine ⟨l, ?_, h2⟩
  have : w.heap = p.heap := h.1
  simp only [call, this]
  exact h1

private theorem exec_append (key : O → Option K) (fs : PyDict N (IndexFunc O V)) :
    ∀ (as bs : List (Act R K O N V)) (w : World R K O N V),
      exec key fs w (as ++ bs) = exec key fs (exec key fs w as) bs
  | [], _, _ => rfl
  | _ :: as, bs, _ => exec_append key fs as bs _

/-- **C89 (part).** `replace` repairs: whatever was changed in place before, and whatever raised, a `replace`
by objects with keys returns, and after it the store behaves as it should as long as the assignments that
follow are to objects that are not stored or do not change index values. -/
theorem C89_replace_repairs (key : O → Option K) (fs : PyDict N (IndexFunc O V)) (hw : fs.WF) (hg : Good fs)
    (heap : R → O) (bs cs : List (Act R K O N V)) (xs : List R)
    (hk : ∀ x ∈ xs, (key ((Page.after key heap bs).heap x)).isSome = true)
    (hh : AllHarmless key fs (Page.after key heap (bs ++ [.call (.replace xs)])) cs) :
    let p := Page.after key heap (bs ++ .call (.replace xs) :: cs)
    let w := exec key fs (init heap fs) (bs ++ .call (.replace xs) :: cs)
    (call key fs (exec key fs (init heap fs) bs) (.replace xs)).2 = .ok ∧
    (∀ o a, p.book.answer (fun r => key (p.heap r)) o = some a → (call key fs w o).2 = a) ∧
    (∀ n f, fs.get? n = some f → ∀ v,
      ∃ l, (call key fs w (.byIndex n v)).2 = .objs l ∧ l.Perm (p.having f v)) := by
  intro p w
  have hheap : ∀ (as : List (Act R K O N V)) (q : Page R K O) (x : World R K O N V), x.heap = q.heap →
      (exec key fs x as).heap = (as.foldl (Page.step key) q).heap := by
    intro as
    induction as with
    | nil => intro q x h; exact h
    | cons a as ih =>
      intro q x h
      refine ih _ _ ?_
      cases a with
      | call o => exact h
      | write r o => simp only [step, Page.step, h]
  have hb := hheap bs ⟨heap, Book.empty⟩ (init heap fs) rfl
  change _ = (Page.after key heap bs).heap at hb
  have hstep : Page.after key heap (bs ++ [.call (.replace xs)]) =
      (Page.after key heap bs).step key (.call (.replace xs) : Act R K O N V) := by
    simp [Page.after]
  have hp : p = cs.foldl (Page.step key) ((Page.after key heap bs).step key (.call (.replace xs) : Act R K O N V)) := by
    simp [p, Page.after]
  have hwx : w = exec key fs (step key fs (exec key fs (init heap fs) bs) (.call (.replace xs))) cs := by
    simp only [w, exec_append]
    rfl
  rw [hstep] at hh
  revert hb hk hh hp hwx
  generalize Page.after key heap bs = q
  generalize exec key fs (init heap fs) bs = x
  intro hk hh hb hp hwx
  have hall : xs.all (fun r => (key (q.heap r)).isSome) = true := by
    simpa only [List.all_eq_true] using hk
  -- the same `replace` on a new store
  have hnew := right_call (key := key) hg (right_init (K := K) hw hg q.heap) (.replace xs)
  have hsome : ∃ items, buildItems (fun r => key (q.heap r)) xs [] = some items := by
    have : ∀ (ys : List R) (d : PyDict K R), ys.all (fun r => (key (q.heap r)).isSome) = true →
        ∃ items, buildItems (fun r => key (q.heap r)) ys d = some items := by
      intro ys
      induction ys with
      | nil => intro d _; exact ⟨d, rfl⟩
      | cons y ys ih =>
        intro d h
        simp only [List.all_cons, Bool.and_eq_true] at h
        obtain ⟨k, hk⟩ := Option.isSome_iff_exists.1 h.1
        obtain ⟨i, hi⟩ := ih (d.set k y) h.2
        exact ⟨i, by simp only [buildItems, hk, hi]⟩
    exact this xs [] hall
  obtain ⟨items, hitems⟩ := hsome
  have hcall : (call key fs x (.replace xs)) = call key fs (init q.heap fs) (.replace xs) := by
    simp only [call, hb, Store.step, hitems, init, Store.init, replaceItems]
  have hright : Right fs (q.step key (.call (.replace xs) : Act R K O N V))
      (step key fs x (.call (.replace xs))) := by
    refine ⟨hb, ?_⟩
    have h1 := hnew.1.2
    simp only [step, hcall]
    have h2 : (Page.step key (⟨q.heap, Book.empty⟩ : Page R K O) (.call (.replace xs) : Act R K O N V)).book =
        (q.step key (.call (.replace xs) : Act R K O N V)).book := by
      simp only [Page.step, Book.step, hall, if_true]
    rw [← h2]
    exact h1
  have h := right_exec hw hg cs _ _ hright hh
  rw [← hp, ← hwx] at h
  refine ⟨?_, fun o a ha => (right_call hg h o).2 a ha, ?_⟩
  · rw [hcall]
    exact hnew.2 .ok (by simp only [Book.answer, hall, if_true])
  intro n f hf v
  obtain ⟨l, h1, h2⟩ := byIndex_right h (PyDict.get?_mem hf) v
  refine ⟨l, ?_, h2⟩
  have : w.heap = p.heap := h.1
  simp only [call, this]
  exact h1

/-- **C89 (part).** Whatever is assigned to the objects and whatever the index functions do, `get_by_key`,
`list` and `list_keys` answer the map of all calls but the `delete`s that have raised. -/
theorem C89_map_partial (key : O → Option K) (fs : PyDict N (IndexFunc O V))
    (heap : R → O) (as : List (Act R K O N V)) :
    let w := exec key fs (init heap fs) as
    let p := Page.kept key heap (trace key fs (init heap fs) as)
    w.heap = p.heap ∧ (∀ k, (call key fs w (.getByKey k)).2 = .obj (p.book.val k)) ∧
    (call key fs w .listKeys).2 = .keys p.book.order ∧ (call key fs w .list).2 = .objs p.book.objects := by
  intro w p
  have main : ∀ (as : List (Act R K O N V)) (p : Page R K O) (w : World R K O N V),
      w.heap = p.heap → Sim p.book w.store.items →
      (exec key fs w as).heap = ((trace key fs w as).foldl (Page.keep key) p).heap ∧
      Sim ((trace key fs w as).foldl (Page.keep key) p).book (exec key fs w as).store.items := by
    intro as
    induction as with
    | nil => intro p w h1 h2; exact ⟨h1, h2⟩
    | cons a as ih =>
      intro p w h1 h2
      cases a with
      | write r o =>
        refine ih (p.keep key (.write r o, none)) (step key fs w (.write r o)) ?_ h2
        simp only [step, Page.keep, Page.step, h1]
      | call o =>
        have h3 := sim_step (fun r => key (w.heap r)) (s := { w.store with indexers := view w.heap fs }) h2 o
        refine ih (p.keep key (.call o, some (call key fs w o).2)) (step key fs w (.call o)) ?_ ?_
        · show w.heap = _
          have : ∀ out, (p.keep key ((.call o : Act R K O N V), some out)).heap = p.heap := by
            intro out
            cases o with
            | delete r => cases out <;> rfl
            | _ => rfl
          rw [this, h1]
        · show Sim _ (Store.step _ _ o).1.items
          rw [h1] at h3
          simp only [call]
          rw [h1]
          have hout : ∀ (out : Out K R V),
              (p.keep key ((.call o : Act R K O N V), some out)).book =
              if effective (o, out) then p.book.step (fun r => key (p.heap r)) o else p.book := by
            intro out
            cases o with
            | delete r => cases out <;> rfl
            | _ => rfl
          rw [hout]
          exact h3
  obtain ⟨h1, h2⟩ := main as ⟨heap, Book.empty⟩ (init heap fs) rfl Sim.empty
  refine ⟨h1, fun k => ?_, ?_, ?_⟩
  · show Out.obj _ = _
    rw [← h2.val]
    rfl
  · show Out.keys _ = _
    rw [← h2.order]
    rfl
  · show Out.objs _ = _
    exact congrArg _ h2.values

/-- Deleting an object that has no values now leaves the indices alone. -/
private theorem delete_nothing {S O' : Type} [DecidableEq S] (obj : O') (key : S) :
    ∀ (fs : PyDict N (IndexFunc O' V)) (ix : PyDict N (Index V S)),
      (∀ p ∈ fs, p.2 obj = some []) → (∀ n ∈ fs.keys, True) →
      (deleteFromIndices obj key fs ix).2 = none ∧
      ∀ n, at' (deleteFromIndices obj key fs ix).1 n = at' ix n
  | [], ix, _, _ => ⟨rfl, fun _ => rfl⟩
  | (n, f) :: fs, ix, h, _ => by
    have hf : f obj = some [] := h (n, f) (by simp)
    have ih := fun ix => delete_nothing obj key fs ix (fun p hp => h p (by simp [hp])) (by simp)
    simp only [deleteFromIndices, hf]
    cases hg : ix.get? n with
    | none => exact ih ix
    | some idx =>
      simp only [deleteValues, if_true]
      obtain ⟨h1, h2⟩ := ih (ix.set n idx)
      refine ⟨h1, fun m => ?_⟩
      rw [h2 m, at'_set]
      split
      · rename_i e
        subst e
        simp [at', hg]
      · rfl

/-- **C89** is false of the code. In any store that is right so far, let an object that has the value `v` lose
all its index values by an assignment, and then be deleted. The deletion succeeds, and from then on
`by_index(n, v)` raises `KeyError`. -/
theorem C89_refuted_delete (key : O → Option K) (fs : PyDict N (IndexFunc O V)) (hw : fs.WF) (hg : Good fs)
    (heap : R → O) (as : List (Act R K O N V)) (hh : AllHarmless key fs ⟨heap, Book.empty⟩ as)
    (k : K) (r : R) (o : O) (n : N) (f : IndexFunc O V) (v : V)
    (hf : fs.get? n = some f) (hr : (Page.after key heap as).book.val k = some r)
    (hv : Yields f ((Page.after key heap as).heap r) v) (hk : key o = some k)
    (hnone : ∀ p ∈ fs, p.2 o = some []) :
    let w := exec key fs (init heap fs) (as ++ [.write r o])
    let w' := exec key fs (init heap fs) (as ++ [.write r o, .call (.delete r)])
    (call key fs w (.delete r)).2 = .ok ∧ (call key fs w' (.getByKey k)).2 = .obj none ∧
    (call key fs w' (.byIndex n v)).2 = .raised .keyError := by
  have happ := exec_append (R := R) key fs
  intro w w'
  have h : Right fs (Page.after key heap as) (exec key fs (init heap fs) as) :=
    right_exec hw hg as _ _ (right_init hw hg heap) hh
  simp only [w, w', happ]
  revert h hr hv
  generalize Page.after key heap as = p
  generalize exec key fs (init heap fs) as = x
  rintro hr hv ⟨h1, h2⟩
  obtain ⟨hp, st⟩ := x
  simp only at h1
  subst h1
  have hget : st.items.get? k = some r := by rw [← hr]; exact (h2.sim.val k).symm
  let heap' : R → O := fun q => if q = r then o else p.heap q
  have hr' : heap' r = o := if_pos rfl
  have hd := delete_nothing (V := V) r k (view heap' fs) st.indices (by
    rintro ⟨m, g⟩ hm
    obtain ⟨f', hf', rfl⟩ := mem_view.1 hm
    simp only [hr']
    exact hnone _ hf') (by simp)
  have hm : (n, fun q => f (p.heap q)) ∈ view p.heap fs := mem_view.2 ⟨f, PyDict.get?_mem hf, rfl⟩
  have hE := h2.exact.ex n _ hm
  have hin : k ∈ (PyDict.get? (at' st.indices n) v).getD [] := (hE.mem v k).2 ⟨r, hr, hv⟩
  cases hdi : deleteFromIndices r k (view heap' fs) st.indices with
  | mk ix e =>
    rw [hdi] at hd
    obtain ⟨rfl, hd⟩ := hd
    have hdel : Store.delete { st with indexers := view heap' fs } k =
        (⟨st.items.del k, view heap' fs, ix⟩, none) := by
      simp only [Store.delete, hget, hdi]
    have hcall : call key fs ⟨heap', st⟩ (.delete r) = (⟨st.items.del k, view heap' fs, ix⟩, .ok) := by
      simp only [call, Store.step, hr', hk, hdel, ret]
    have hitem : (st.items.del k).get? k = none := by
      rw [PyDict.get?_del h2.sim.wf]
      simp
    have hlook : ∀ ks : List K, k ∈ ks → lookupAll (st.items.del k) ks = none := by
      intro ks
      induction ks with
      | nil => simp
      | cons j ks ih =>
        intro hj
        rcases List.mem_cons.1 hj with rfl | hj
        · simp [lookupAll, hitem]
        · simp only [lookupAll, ih hj]
          cases (st.items.del k).get? j <;> rfl
    have hi : PyDict.get? (view heap' fs) n = some fun q => f (heap' q) :=
      PyDict.mem_get? (view_wf hw) (mem_view.2 ⟨f, PyDict.get?_mem hf, rfl⟩)
    refine ⟨by rw [show (exec key fs ⟨p.heap, st⟩ [.write r o]) = ⟨heap', st⟩ from rfl, hcall], ?_, ?_⟩
    · rw [show exec key fs ⟨p.heap, st⟩ [.write r o, .call (.delete r)] =
          ⟨heap', (call key fs ⟨heap', st⟩ (.delete r)).1⟩ from rfl, hcall]
      simp only [call, Store.step, hitem]
    · rw [show exec key fs ⟨p.heap, st⟩ [.write r o, .call (.delete r)] =
          ⟨heap', (call key fs ⟨heap', st⟩ (.delete r)).1⟩ from rfl, hcall]
      simp only [call, Store.step, byIndex, hi]
      rw [hlook _ (by have := hd n; simp only [at'] at this hin; rw [this]; exact hin)]

/-- `_delete_from_indices` raises if the object now has a value that others have and it had not. -/
private theorem delete_missing {S O' : Type} [DecidableEq S] (obj : O') (key : S) (n0 : N)
    (f0 : IndexFunc O' V) (v0 : V) (k0 : S) : ∀ (fs : PyDict N (IndexFunc O' V))
    (ix : PyDict N (Index V S)) (T : N → V → S → Prop), fs.WF → Total fs →
    (∀ n ∈ fs.keys, Ex (at' ix n) (T n)) →
    (n0, f0) ∈ fs → Yields f0 obj v0 → T n0 v0 k0 → ¬ T n0 v0 key →
    (deleteFromIndices obj key fs ix).2 = some .keyError := by
  intro fs
  induction fs with
  | nil => intro ix T _ _ _ h; simp at h
  | cons p fs ih =>
    intro ix T hw ht hE hin h1 h2 h3
    obtain ⟨n, f⟩ := p
    obtain ⟨hn, hw'⟩ := List.nodup_cons.1 hw
    obtain ⟨vs, hvs⟩ := ht (n, f) (by simp) obj
    simp only at hvs hn
    simp only [deleteFromIndices, hvs]
    have hEn := hE n (by simp [PyDict.keys])
    by_cases hnn : n0 = n
    · subst hnn
      have hff : f0 = f := by
        rcases List.mem_cons.1 hin with h | h
        · cases h; rfl
        · exact absurd (List.mem_map.2 ⟨(n0, f0), h, rfl⟩) hn
      subst hff
      obtain ⟨us, h4, h5⟩ := h1
      rw [h4] at hvs; cases hvs
      cases hg : ix.get? n0 with
      | none =>
        have := (hEn.mem v0 k0).2 h2
        simp [at', hg] at this
      | some idx =>
        have hidx : at' ix n0 = idx := by simp [at', hg]
        rw [hidx] at hEn
        simp [deleteValues_missing key v0 k0 _ hEn h5 h2 h3]
    · have hin' : (n0, f0) ∈ fs := by
        rcases List.mem_cons.1 hin with h | h
        · cases h; exact absurd rfl hnn
        · exact h
      cases hg : ix.get? n with
      | none =>
        exact ih ix T hw' (fun q hq => ht q (by simp [hq]))
          (fun m hm => hE m (List.mem_cons_of_mem _ hm)) hin' h1 h2 h3
      | some idx =>
        simp only
        split
        · refine ih _ T hw' (fun q hq => ht q (by simp [hq])) ?_ hin' h1 h2 h3
          intro m hm
          have : n ≠ m := fun h => hn (h ▸ hm)
          rw [at'_set]; simp only [this, if_false]
          exact hE m (List.mem_cons_of_mem _ hm)
        · rfl

/-- **C89** is false of the code. In any store that is right so far, let an object be given a value that it had
not and that another stored object has. Then `update` and `delete` of the object raise `KeyError`. -/
theorem C89_refuted_update (key : O → Option K) (fs : PyDict N (IndexFunc O V)) (hw : fs.WF) (hg : Good fs)
    (heap : R → O) (as : List (Act R K O N V)) (hh : AllHarmless key fs ⟨heap, Book.empty⟩ as)
    (k j : K) (r q : R) (o : O) (n : N) (f : IndexFunc O V) (v : V)
    (hf : fs.get? n = some f) (hr : (Page.after key heap as).book.val k = some r)
    (hq : (Page.after key heap as).book.val j = some q)
    (hvq : Yields f ((Page.after key heap as).heap q) v)
    (hv : ¬ Yields f ((Page.after key heap as).heap r) v) (hk : key o = some k) (hvo : Yields f o v) :
    let w := exec key fs (init heap fs) (as ++ [.write r o])
    (call key fs w (.update r)).2 = .raised .keyError ∧
    (call key fs w (.delete r)).2 = .raised .keyError := by
  have happ := exec_append (R := R) key fs
  intro w
  have h : Right fs (Page.after key heap as) (exec key fs (init heap fs) as) :=
    right_exec hw hg as _ _ (right_init hw hg heap) hh
  simp only [w, happ]
  revert h hr hv hq hvq
  generalize Page.after key heap as = p
  generalize exec key fs (init heap fs) as = x
  rintro hr hq hvq hv ⟨h1, h2⟩
  obtain ⟨hp, st⟩ := x
  simp only at h1
  subst h1
  have hget : st.items.get? k = some r := by rw [← hr]; exact (h2.sim.val k).symm
  let heap' : R → O := fun q => if q = r then o else p.heap q
  have hr' : heap' r = o := if_pos rfl
  have hm : (n, fun q => f (heap' q)) ∈ view heap' fs := mem_view.2 ⟨f, PyDict.get?_mem hf, rfl⟩
  have hd := delete_missing (V := V) r k n _ v j (view heap' fs) st.indices
    (fun n v k => ∃ f q, (n, f) ∈ fs ∧ p.book.val k = some q ∧ Yields f (p.heap q) v)
    (view_wf hw) (good_total (view_good hg)) (by
      intro m hm
      rw [view_keys] at hm
      obtain ⟨⟨m', g⟩, hg', rfl⟩ := List.mem_map.1 hm
      refine (h2.exact.ex m' _ (mem_view.2 ⟨g, hg', rfl⟩)).congr ?_
      intro u i
      constructor
      · rintro ⟨x, h3, h4⟩
        exact ⟨g, x, hg', h3, h4⟩
      · rintro ⟨g2, x, hg2, h3, h4⟩
        have e1 := PyDict.mem_get? hw hg'
        rw [PyDict.mem_get? hw hg2] at e1
        cases e1
        exact ⟨x, h3, h4⟩) hm (by rw [yields_view, hr']; exact hvo)
    ⟨f, q, PyDict.get?_mem hf, hq, hvq⟩ (by
      rintro ⟨g, x, hg', h3, h4⟩
      rw [hr] at h3
      cases h3
      have e1 := PyDict.mem_get? hw hg'
      rw [hf] at e1
      cases e1
      exact hv h4)
  have hw' : exec key fs ⟨p.heap, st⟩ [.write r o] = ⟨heap', st⟩ := rfl
  rw [hw']
  constructor
  · simp only [call, Store.step, hr', hk, put, hget, updateIndices]
    cases hdi : deleteFromIndices r k (view heap' fs) st.indices with
    | mk ix e =>
      rw [hdi] at hd
      simp only at hd
      subst hd
      rfl
  · simp only [call, Store.step, hr', hk, Store.delete, hget]
    cases hdi : deleteFromIndices r k (view heap' fs) st.indices with
    | mk ix e =>
      rw [hdi] at hd
      simp only at hd
      subst hd
      rfl

/-- Two objects, 10 and 20; 10 has the value 5, 20 has 6. -/
private def exHeap (r : Nat) : Nat × List Nat := if r = 10 then (1, [5]) else (2, [6])

/-- Both are stored, 20 after a change; a third is changed before it is stored and after it is deleted. -/
private def exActs : List (Act Nat Nat (Nat × List Nat) Nat Nat) :=
  [.call (.add 10), .call (.add 20), .write 20 (2, [6, 6]), .write 30 (3, [5]), .call (.add 30),
    .call (.delete 30), .write 30 (3, [6])]

/-- The hypotheses of `C89_exact_partial`, `C89_refuted_delete` and `C89_refuted_update` are met. -/
example : PyDict.WF exFs ∧ Good exFs ∧ AllHarmless exKey exFs ⟨exHeap, Book.empty⟩ exActs ∧
    PyDict.get? exFs 7 = some (fun o => some o.2.dedup) ∧
    (Page.after exKey exHeap exActs).book.val 1 = some 10 ∧
    (Page.after exKey exHeap exActs).book.val 2 = some 20 ∧
    (Page.after exKey exHeap exActs).heap 10 = (1, [5]) ∧
    (Page.after exKey exHeap exActs).heap 20 = (2, [6, 6]) ∧
    (call exKey exFs (exec exKey exFs (init exHeap exFs) exActs) (.byIndex 7 5)).2 = .objs [10] ∧
    (call exKey exFs (exec exKey exFs (init exHeap exFs) (exActs ++ [.write 10 (1, []), .call (.delete 10)]))
      (.byIndex 7 5)).2 = .raised .keyError ∧
    (call exKey exFs (exec exKey exFs (init exHeap exFs) (exActs ++ [.write 10 (1, [6])]))
      (.update 10)).2 = .raised .keyError := by
  refine ⟨List.nodup_singleton _, exFs_good, ?_, rfl, by decide, by decide, by decide, by decide, by decide,
    by decide, by decide⟩
  refine ⟨trivial, trivial, ?_, ?_, trivial, trivial, ?_, trivial⟩
  · intro _ n f hf v
    simp only [exFs, List.mem_singleton, Prod.mk.injEq] at hf
    obtain ⟨-, rfl⟩ := hf
    simp [Yields, Page.step, exHeap]
  · rintro ⟨k, hk⟩
    exfalso
    revert hk
    simp [Page.step, Book.step, Book.empty, Book.put, exKey, exHeap]
    split <;> (try split) <;> simp
  · rintro ⟨k, hk⟩
    exfalso
    revert hk
    simp [Page.step, Book.step, Book.empty, Book.put, Book.drop, exKey, exHeap]
    split <;> (try split) <;> (try split) <;> simp

/-- 10 has lost its value behind the back of the store, its deletion has made `by_index` raise; then the
objects are replaced. -/
private def exBroken : List (Act Nat Nat (Nat × List Nat) Nat Nat) :=
  [.call (.add 10), .call (.add 20), .write 10 (1, []), .call (.delete 10), .write 20 (2, [5]),
    .call (.update 20)]

/-- The hypotheses of `C89_replace_repairs` are met after a run that has left the store broken, and
`C89_map_partial` holds for it. -/
example : (∀ x ∈ [10, 20], (exKey ((Page.after exKey exHeap exBroken).heap x)).isSome = true) ∧
    AllHarmless exKey exFs (Page.after exKey exHeap (exBroken ++ [.call (.replace [10, 20])]))
      [.write 30 (3, [5])] ∧
    (call exKey exFs (exec exKey exFs (init exHeap exFs) exBroken) (.byIndex 7 5)).2 = .raised .keyError ∧
    (call exKey exFs (exec exKey exFs (init exHeap exFs) exBroken) .listKeys).2 = .keys [2] ∧
    (call exKey exFs (exec exKey exFs (init exHeap exFs) (exBroken ++ [.call (.replace [10, 20])]))
      (.byIndex 7 5)).2 = .objs [20] := by
  refine ⟨by decide, ⟨?_, trivial⟩, by decide, by decide, by decide⟩
  rintro ⟨k, hk⟩
  exfalso
  revert hk
  simp [Page.after, exBroken, Page.step, Book.step, Book.empty, Book.put, Book.drop, exKey, exHeap]
  split <;> (try split) <;> simp

end Aiok8s.StoreRef
