import Verif.Proof.IndexedInformer
/-!
# C85: index functions that raise inside the shared informer
-/
namespace Aiok8s.IndexedInformer
open Aiok8s.DeltaFifo (Obj keyOf)
open Aiok8s.Informer (Note)
open Aiok8s.Informer.Spec (AllSensible target)
open Aiok8s.SharedInformer (Ev)
open Aiok8s.SharedInformer.Spec (view Ev.selects Ev.noList)
open Aiok8s.Store (IndexFunc)
open Aiok8s.Store.Spec (Distinct Returns Yields)
open Spec

section
variable {K O N V : Type} [DecidableEq K] [DecidableEq N] [DecidableEq V]

/-- **C85** as long as every object that comes in can be indexed: queue, stored objects and what each listener
was sent are those of the shared informer whose indexer is a map (so `C34` and the others hold of it). -/
theorem C85_plain (key : O → Option K) (fs : PyDict N (IndexFunc (Obj K O) V)) (hw : fs.WF)
    (hd : Distinct fs) (es : List (Ev K O)) (ho : ∀ k, Only key k (Returns fs) es) :
    plain (exec key (init fs) es) = SharedInformer.exec key SharedInformer.init es :=
  plain_exec hd es (clean_init key hw _) ho

/-- **C85** for a key all of whose objects can be indexed, whatever happens with the others: a listener that
every check finds due knows what is stored under the key, and each notification about the key made sense to it
when it came. -/
theorem C85_isolated_partial (key : O → Option K) (fs : PyDict N (IndexFunc (Obj K O) V)) (hw : fs.WF)
    (hd : Distinct fs) (es : List (Ev K O)) (k : K) (ho : Only key k (Returns fs) es) (i : Nat)
    (hs : ∀ e ∈ es, Ev.selects i e) (ns : List (Note K O))
    (hns : (exec key (init fs) es).sent[i]? = some ns) :
    view key ns k = (exec key (init fs) es).ix.items.get? k ∧
    AllSensible key (fun _ => none) (ns.filter (about key k)) := by
  have h := told_exec (G := (· = k)) hd rfl es (clean_init key hw _) (told_init key fs k i)
    (by rintro _ rfl; exact ho) hs
  exact ⟨h.fresh ns hns, h.sensible ns hns⟩

/-- **C85** for such a key: the indices list it exactly under the values of what is stored. -/
theorem C85_index_partial (key : O → Option K) (fs : PyDict N (IndexFunc (Obj K O) V)) (hw : fs.WF)
    (hd : Distinct fs) (es : List (Ev K O)) (k : K) (ho : Only key k (Returns fs) es) (n : N)
    (f : IndexFunc (Obj K O) V) (hf : (n, f) ∈ fs) (v : V) :
    ∃ ks, Store.indexKeys (exec key (init fs) es).ix n v = .keys ks ∧
      (k ∈ ks ↔ ∃ o, (exec key (init fs) es).ix.items.get? k = some o ∧ Yields f o v) := by
  obtain ⟨log, h⟩ := clean_exec (G := (· = k)) hd es (clean_init key hw _) (by rintro _ rfl; exact ho)
  have hg : (exec key (init fs) es).ix.indexers.get? n = some f := by
    rw [h.base.fs]
    exact PyDict.mem_get? hw hf
  have hm : n ∈ (exec key (init fs) es).ix.indexers.keys := by
    rw [h.base.fs]
    exact List.mem_map.2 ⟨(n, f), hf, rfl⟩
  refine ⟨_, by simp only [Store.indexKeys, hg]; rfl, ?_⟩
  show Store.Has (exec key (init fs) es).ix.indices n v k ↔ _
  constructor
  · intro hh
    cases hi : (exec key (init fs) es).ix.items.get? k with
    | none => exact absurd hh (h.base.rinv.gone k hi n hm v)
    | some o =>
      obtain ⟨vs, h1, h2⟩ := h.full k rfl o hi n f (by rw [h.base.fs]; exact hf)
      exact ⟨o, rfl, vs, h1, (h2 v).1 hh⟩
  · rintro ⟨o, hi, vs, h1, h2⟩
    obtain ⟨ws, h3, h4⟩ := h.full k rfl o hi n f (by rw [h.base.fs]; exact hf)
    rw [h1] at h3
    cases h3
    exact (h4 v).2 h2

/-- **C85** for such a key: after the first list, once nothing is pending, the list and the watch events say what
is stored under it, although rounds of the processing loop failed for other keys. -/
theorem C85_converges_partial (key : O → Option K) (fs : PyDict N (IndexFunc (Obj K O) V)) (hw : fs.WF)
    (hd : Distinct fs) (xs : List (Obj K O)) (hx : ∀ x ∈ xs, (keyOf key x).isSome) (es : List (Ev K O))
    (hn : ∀ e ∈ es, Ev.noList e) (k : K) (ho : Only key k (Returns fs) (.start :: .replace xs :: es))
    (hq : (exec key (init fs) (.start :: .replace xs :: es)).q.queue = []) :
    (exec key (init fs) (.start :: .replace xs :: es)).ix.items.get? k
      = target key (.replace xs :: es.filterMap toInf) k := by
  have hc0 : Clean key fs (· = k) (step key (init fs) .start : State K O N V) [] := by
    have := clean_init key hw (· = k)
    exact ⟨⟨this.base.inv, this.base.fit, this.base.rinv, this.base.fs⟩, this.pend, this.full⟩
  obtain ⟨h1, log1, h2, h3, h4⟩ := step_cases hc0.base hc0.pend
    (fun j x hx hG => by rw [← hc0.base.fs]; exact full_returns (hc0.full j hG) hx) (.replace xs) (by simp)
    (by rintro x hx j hj rfl; exact ho _ (by simp) x hx hj)
  have hc1 : Clean key fs (· = k) (step key (step key (init fs) .start) (.replace xs) : State K O N V) log1 :=
    ⟨h2, h3, by rw [h1]; exact hc0.full⟩
  have hs1 : (step key (step key (init fs) .start) (.replace xs) : State K O N V).started = true := rfl
  obtain ⟨log2, h5, h6⟩ := eventual_exec (G := (· = k)) (k := k) hd rfl es hc1 hs1 hn
    (by rintro _ rfl e he; exact ho e (by simp [he]))
  have h7 := Informer.eventual_drained (s := ⟨_, _⟩) h5.base.inv hq k
  have h8 := Informer.eventual_replace (s := ⟨DeltaFifo.init, []⟩) (Informer.inv_init key) xs hx k (by
    constructor
    · rintro - ⟨d, h, -⟩
      simp [Informer.Spec.pending, DeltaFifo.init] at h
    · intro h
      simp [Informer.Spec.pending, DeltaFifo.init] at h)
  have h9 : Informer.eventual (step key (step key (init fs) .start) (.replace xs) : State K O N V).ix.items log1 k
      = Informer.Spec.listed key xs k := by
    rw [← h8, h4 rfl]
    rfl
  show (exec key _ es).ix.items.get? k = _
  dsimp only at h7
  rw [← h7]
  refine Eq.trans h6 ?_
  exact Informer.foldl_watched_congr key k _ _ _ h9

/-- **C85**: a round of the processing loop takes the first key from the queue and leaves the rest, whether
something raises or not. -/
theorem C85_progress (key : O → Option K) (fs : PyDict N (IndexFunc (Obj K O) V)) (hw : fs.WF)
    (hd : Distinct fs) (es : List (Ev K O)) (hst : (exec key (init fs) es).started = true) (k : K)
    (rest : List K) (hq : (exec key (init fs) es).q.queue = k :: rest) :
    (exec key (init fs) (es ++ [.pop])).q.queue = rest ∧
    (∀ j, (exec key (init fs) (es ++ [.pop])).q.items.get? j
      = if j = k then none else (exec key (init fs) es).q.items.get? j) ∧
    (∀ j, j ≠ k → (exec key (init fs) (es ++ [.pop])).ix.items.get? j
      = (exec key (init fs) es).ix.items.get? j) := by
  obtain ⟨log, h⟩ := clean_exec (G := fun _ => False) hd es (clean_init key hw _) (fun _ h => h.elim)
  rw [exec_append]
  simp only [exec, step, hst, if_true]
  rcases clean_pop hd h with ⟨h1, -⟩ | ⟨j, rest', h1, -, -, -, -, hpe, -, hne, -⟩
  · rw [hq] at h1; cases h1
  · have h2 := hq.symm.trans h1
    injection h2 with ha hb
    subst ha hb
    refine ⟨by rw [hpe], ?_, hne⟩
    intro j
    rw [hpe]
    dsimp only
    rw [PyDict.get?_del h.base.inv.sim.wf]
    simp only [eq_comm]

/-- **C85** is false for the other keys: once something is stored under `k` on which an index function raises and
nothing is pending for `k`, then whatever deletions come, and whatever happens to the other keys, it stays stored
and no listener hears about `k` any more, until another object comes in for `k`. -/
theorem C85_refuted_stuck (key : O → Option K) (fs : PyDict N (IndexFunc (Obj K O) V)) (hw : fs.WF)
    (hd : Distinct fs) (es : List (Ev K O)) (k : K) (o : Obj K O) (n : N) (f : IndexFunc (Obj K O) V)
    (hf : (n, f) ∈ fs) (hx : f o = none)
    (hi : (exec key (init fs) es).ix.items.get? k = some o)
    (hq : (exec key (init fs) es).q.items.get? k = none)
    (es' : List (Ev K O)) (ho : Only key k (· = o) es') :
    (exec key (init fs) (es ++ es')).ix.items.get? k = some o ∧
    ∀ (i : Nat) ns, (exec key (init fs) es).sent[i]? = some ns →
      ∃ more, (exec key (init fs) (es ++ es')).sent[i]? = some (ns ++ more) ∧
        ∀ m ∈ more, about key k m = false := by
  obtain ⟨log, h⟩ := base_exec (key := key) hw hd es
  have hp : DeltaFifo.Spec.pendingOf k log = [] := by
    have := h.inv.sim.get k
    dsimp only at this
    rw [hq] at this
    by_contra hc
    rw [if_neg hc] at this
    cases this
  have hstuck : Stuck key fs k o (exec key (init fs) es) log := by
    refine ⟨h, ?_, hi⟩
    rintro _ d hd' _ rfl
    rw [hp] at hd'
    simp at hd'
  rw [exec_append]
  obtain ⟨h1, h2⟩ := stuck_exec hd ⟨(n, f), hf, hx⟩ es' hstuck ho
  refine ⟨h1, ?_⟩
  intro i ns hns
  obtain ⟨more, h3, h4⟩ := h2 i ns hns
  exact ⟨more, h3, fun m hm => by simpa [about] using h4 m hm⟩

end

/-! ## Concrete programs -/

/-- Objects: a key and a version. -/
private def ky : Nat × Nat → Option Nat := fun o => some o.1

/-- One index, by version; it raises for versions from 50 on. -/
private def ixf : PyDict Nat (IndexFunc (Obj Nat (Nat × Nat)) Nat) :=
  [(7, fun o => match o with
    | .real (_, v) => if 50 ≤ v then none else some [v]
    | _ => some [])]

private theorem ixf_wf : ixf.WF := by unfold PyDict.WF; decide

private theorem ixf_distinct : Distinct ixf := by
  intro p hp o vs h
  simp only [ixf, List.mem_singleton] at hp
  subst hp
  dsimp only at h
  split at h
  · split at h
    · cases h
    · cases h; simp
  · cases h; simp

/-- a list with an object that cannot be indexed and one that can -/
private def hist : List (Ev Nat (Nat × Nat)) :=
  [.start, .register, .replace [.real (1, 60), .real (2, 5)], .pop, .pop]

/-- **C85** is false: an object is stored of which the listener was told nothing. -/
theorem C85_refuted_untold :
    (exec ky (init ixf) hist).ix.items.get? 1 = some (.real (1, 60)) ∧
    (exec ky (init ixf) hist).sent[0]? = some [.onAdd (.real (2, 5))] ∧
    (exec ky (init ixf) hist).q.queue = [] := by decide

/-- **C85** is false: the deletion of the object is lost, for the indexer and for the listener, and a listener that
registers now is told that it exists. -/
theorem C85_refuted_deleted :
    (exec ky (init ixf) (hist ++ [.delete (.real (1, 60)), .pop, .register])).ix.items.get? 1
      = some (.real (1, 60)) ∧
    (exec ky (init ixf) (hist ++ [.delete (.real (1, 60)), .pop, .register])).sent
      = [[.onAdd (.real (2, 5))], [.onAdd (.real (1, 60)), .onAdd (.real (2, 5))]] ∧
    (exec ky (init ixf) (hist ++ [.delete (.real (1, 60)), .pop, .register])).q.queue = [] := by decide

/-- **C85** is false: when objects that can be indexed come, the first one replaces the stored one unnoticed, and
the second one is an update of an object the listener never saw. -/
theorem C85_refuted_update :
    (exec ky (init ixf) (hist ++ [.update (.real (1, 3)), .pop, .update (.real (1, 4)), .pop])).sent
      = [[.onAdd (.real (2, 5)), .onUpdate (.real (1, 3)) (.real (1, 4))]] := by decide

/-! ## the hypotheses can be met -/

private theorem only2 (es : List (Ev Nat (Nat × Nat))) (h : ∀ e ∈ es, ∀ x ∈ brings e, keyOf ky x = some 2 →
    x = .real (2, 5) ∨ x = .real (2, 6)) : Only ky 2 (Returns ixf) es := by
  intro e he x hx hk p hp
  simp only [ixf, List.mem_singleton] at hp
  subst hp
  rcases h e he x hx hk with rfl | rfl <;> exact ⟨_, rfl⟩

/-- for the theorems about a good key beside a bad one -/
example : ixf.WF ∧ Distinct ixf ∧
    Only ky 2 (Returns ixf) (hist ++ [.update (.real (2, 6)), .update (.real (1, 3)), .check fun _ => true, .pop]) ∧
    (∀ e ∈ hist ++ [.update (.real (2, 6)), .update (.real (1, 3)), .check fun _ => true, .pop],
      Ev.selects 0 e) ∧
    (exec ky (init ixf)
      (hist ++ [.update (.real (2, 6)), .update (.real (1, 3)), .check fun _ => true, .pop])).sent[0]?
      = some [.onAdd (.real (2, 5)), .onUpdate (.real (2, 5)) (.real (2, 6))] := by
  refine ⟨ixf_wf, ixf_distinct, only2 _ ?_, ?_, by decide⟩
  · simp [hist, brings, keyOf, ky]
  · simp [hist, Ev.selects]

/-- for `C85_converges_partial` -/
example : (exec ky (init ixf) [.start, .replace [.real (1, 60), .real (2, 5)], .pop, .update (.real (2, 6)), .pop,
      .resync, .pop, .pop]).q.queue = [] ∧
    (exec ky (init ixf) [.start, .replace [.real (1, 60), .real (2, 5)], .pop, .update (.real (2, 6)), .pop,
      .resync, .pop, .pop]).ix.items.get? 2 = some (.real (2, 6)) := by decide

/-- for `C85_progress`: the first key cannot be indexed -/
example : (exec ky (init ixf) (hist.take 3)).started = true ∧
    (exec ky (init ixf) (hist.take 3)).q.queue = [1, 2] := by decide

/-- for `C85_refuted_stuck` -/
example : (7, (fun o => match o with
      | .real (_, v) => if 50 ≤ v then none else some [v]
      | _ => some [] : IndexFunc (Obj Nat (Nat × Nat)) Nat)) ∈ ixf ∧
    (exec ky (init ixf) hist).ix.items.get? 1 = some (.real (1, 60)) ∧
    (exec ky (init ixf) hist).q.items.get? 1 = none ∧
    Only ky 1 (· = .real (1, 60)) [.delete (.real (1, 60)), .pop, .update (.real (1, 60)), .pop, .replace [], .pop] := by
  refine ⟨by simp [ixf], by decide, by decide, ?_⟩
  simp [Only, brings]

/-- for `C85_plain` -/
example : ∀ k, Only ky k (Returns ixf) [.start, .register, .add (.real (2, 5)), .pop, .delete (.real (2, 5)), .pop] := by
  intro k e he x hx _ p hp
  simp only [ixf, List.mem_singleton] at hp
  subst hp
  simp only [List.mem_cons, List.not_mem_nil, or_false] at he
  rcases he with rfl | rfl | rfl | rfl | rfl | rfl <;> simp [brings] at hx
  subst hx
  exact ⟨_, rfl⟩

end Aiok8s.IndexedInformer
