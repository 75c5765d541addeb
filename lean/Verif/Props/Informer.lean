import Verif.Proof.Informer
/-!
# C29-C33: the informer

Histories are arbitrary lists of reflector calls, resyncs and pops; in every pop the handler may
end each call in any way.
-/
namespace Aiok8s.Informer
open Aiok8s.DeltaFifo (Obj Delta Deltas DType Known Outcome keyOf)
open Aiok8s.DeltaFifo.Spec (pendingOf)
open Spec
variable {K O : Type} [DecidableEq K]

/-- The log of a history from the beginning. -/
private theorem inv (key : O → Option K) (es : List (Ev K O)) :
    ∃ log, Inv key (exec key init es) log := ⟨_, (inv_exec es (inv_init key)).1⟩

/-! ## C29 -/

/-- **C29**: replaying the notifications gives the store, for every history and every handler. -/
theorem C29_replay (key : O → Option K) (es : List (Ev K O)) (k : K) :
    ((notes key init es).foldl (see key) fun _ => none) k = (exec key init es).items.get? k :=
  congrFun (inv_exec es (inv_init key)).2.1 k

/-- **C29**: additions are of absent objects and updates come with the object delivered last,
for every history and every handler. -/
theorem C29_coherent (key : O → Option K) (es : List (Ev K O)) :
    AllCoherent key (fun _ => none) (notes key init es) :=
  (inv_exec es (inv_init key)).2.2

/-- **C29**, as long as the handler does not raise `RequeueError`: every notification makes
sense, in particular deletions are of present objects.  Missing: handlers that raise
`RequeueError` (see below). -/
theorem C29_sensible_partial (key : O → Option K) (es : List (Ev K O))
    (h : ∀ e ∈ es, Ev.noRequeue e) :
    AllSensible key (fun _ => none) (notes key init es) :=
  fit_exec es (inv_init key) fit_init h

/-- A key function for examples: an object is a pair of key and content. -/
private abbrev exKey : Nat × Nat → Option Nat := fun o => some o.1

private abbrev allOk : Nat → Outcome := fun _ => .ok

/-- **C29** is false for a handler that raises `RequeueError` in `on_delete`: the deletion is
put back and delivered again for an object that is absent. -/
theorem C29_refuted_requeue :
    ¬ ∀ es : List (Ev Nat (Nat × Nat)), AllSensible exKey (fun _ => none) (notes exKey init es) := by
  intro h
  have := h [.add (.real (1, 0)), .pop allOk, .delete (.real (1, 0)),
    .pop fun _ => .requeue false, .pop allOk]
  have hn : notes exKey init [.add (.real (1, 0)), .pop allOk, .delete (.real (1, 0)),
    .pop fun _ => .requeue false, .pop allOk]
    = [.onAdd (.real (1, 0)), .onDelete (.real (1, 0)), .onDelete (.real (1, 0))] := by decide
  rw [hn] at this
  obtain ⟨-, -, ⟨k, hk, h1⟩, -⟩ := this
  have hk' : k = 1 := by
    have : some 1 = some k := hk
    simpa using this.symm
  subst hk'
  exact h1 (by decide)

/-- A history with a failing handler, a relist and a resync; it meets the hypotheses. -/
private def exHist : List (Ev Nat (Nat × Nat)) :=
  [.replace [.real (1, 0), .real (2, 0)], .pop allOk, .update (.real (1, 1)), .resync,
    .pop fun _ => .error, .add (.real (3, 0)), .replace [.real (1, 2)], .pop allOk, .pop allOk,
    .pop allOk, .pop allOk, .resync, .pop allOk]

example : (∀ e ∈ exHist, Ev.noRequeue e) ∧
    notes exKey init exHist = [.onAdd (.real (1, 0)), .onAdd (.real (2, 0)),
      .onUpdate (.real (1, 0)) (.real (1, 1)), .onUpdate (.real (1, 1)) (.real (1, 2)),
      .onAdd (.real (3, 0)), .onDelete (.goneWith 2 (.real (2, 0))),
      .onUpdate (.real (1, 2)) (.real (1, 2))] := by
  refine ⟨?_, by decide⟩
  intro e he
  simp only [exHist, List.mem_cons, List.not_mem_nil, or_false] at he
  rcases he with rfl | rfl | rfl | rfl | rfl | rfl | rfl | rfl | rfl | rfl | rfl | rfl | rfl <;>
    simp [Ev.noRequeue]

/-! ## C31: convergence after a list -/

/-- **C31** for the moments at which it is true, key by key, and with handlers failing where it
does no harm.  Whatever happened before (with any handler), if a list comes at a moment clean for
`k`, then after any watch events, resyncs and pops, once the queue is drained the store has under
`k` what the list and the events say.  Missing: lists at other moments (false, see below). -/
theorem C31_converges_partial (key : O → Option K) (before after : List (Ev K O))
    (xs : List (Obj K O)) (hx : ∀ x ∈ xs, (keyOf key x).isSome) (k : K)
    (hc : CleanAt key (exec key init before) xs k)
    (hn : ∀ e ∈ after, Ev.noList e)
    (ha : AllCarefulAt key k (exec key init (before ++ [.replace xs])) after)
    (hd : Drained (exec key init (before ++ .replace xs :: after))) :
    (exec key init (before ++ .replace xs :: after)).items.get? k
      = target key (before ++ .replace xs :: after) k := by
  obtain ⟨log, h⟩ := inv key before
  have e1 : exec key init (before ++ .replace xs :: after)
      = exec key (step key (exec key init before) (.replace xs)).1 after := by
    rw [exec_append]; rfl
  have e2 : exec key init (before ++ [.replace xs])
      = (step key (exec key init before) (.replace xs)).1 := by
    rw [exec_append]; rfl
  rw [e1] at hd ⊢
  rw [e2] at ha
  have h' := (inv_step h (.replace xs)).1
  rw [← eventual_drained (inv_exec after h').1 hd k, eventual_exec k after h' hn ha]
  simp only [target, List.foldl_append, List.foldl_cons]
  exact foldl_watched_congr key k after _ _ (eventual_replace h xs hx k hc)

/-- Successful pops as many as there are keys pending. -/
private def drainAll (s : State K O) : List (Ev K O) :=
  List.replicate s.q.queue.length (.pop fun _ => .ok)

private theorem careful_pops (key : O → Option K) (k : K) (n : Nat) : ∀ s : State K O,
    AllCarefulAt key k s (List.replicate n (.pop fun _ => .ok)) := by
  induction n with
  | zero => intro s; trivial
  | succ n ih => intro s; exact ⟨fun _ => ⟨by simp, by simp⟩, ih _⟩

private theorem noList_pops (n : Nat) :
    ∀ e ∈ List.replicate n (.pop (K := K) (O := O) fun _ => .ok), Ev.noList e := by
  intro e he; rw [List.mem_replicate] at he; rw [he.2]; trivial

private theorem target_pops (key : O → Option K) (n : Nat) (v : View K O) :
    (List.replicate n (.pop fun _ => .ok)).foldl (watched key) v = v := by
  induction n with
  | zero => rfl
  | succ n ih => rw [List.replicate_succ, List.foldl_cons]; exact ih

/-- **C31**: the list alone, at a clean moment: when as many pops have succeeded as there are keys
pending, nothing is pending and the store has exactly the listed objects. -/
theorem C31_list_partial (key : O → Option K) (before : List (Ev K O))
    (xs : List (Obj K O)) (hx : ∀ x ∈ xs, (keyOf key x).isSome)
    (hc : ∀ k, CleanAt key (exec key init before) xs k) (n : Nat)
    (hn : (exec key init (before ++ [.replace xs])).q.queue.length ≤ n) :
    let s := exec key init (before ++ .replace xs :: List.replicate n (.pop fun _ => .ok))
    Drained s ∧ ∀ k, s.items.get? k = listed key xs k := by
  intro s
  have e1 : s = exec key (exec key init (before ++ [.replace xs]))
      (List.replicate n (.pop fun _ => .ok)) := by
    rw [← exec_append, List.append_assoc]; rfl
  obtain ⟨log, h⟩ := inv key (before ++ [.replace xs])
  have hd : Drained s := by rw [e1]; exact drains n h hn
  refine ⟨hd, fun k => ?_⟩
  rw [C31_converges_partial key before _ xs hx k (hc k) (noList_pops n) (careful_pops key k n _) hd]
  simp only [target, List.foldl_append, List.foldl_cons, watched, target_pops]

/-- **C31** is false in general (first way): an object that was added and vanished again before
the relist, without having been processed, is not in the list but gets into the store. -/
theorem C31_refuted_ghost : ∃ (before : List (Ev Nat (Nat × Nat))) (xs : List (Obj Nat (Nat × Nat)))
    (n : Nat),
    let s := exec exKey init (before ++ .replace xs :: List.replicate n (.pop allOk))
    Drained s ∧ (∀ x ∈ xs, (keyOf exKey x).isSome) ∧
      s.items.get? 2 = some (.real (2, 0)) ∧ listed exKey xs 2 = none :=
  ⟨[.replace [.real (1, 0)], .pop allOk, .add (.real (2, 0))], [.real (1, 0)], 2, rfl,
    by decide, by decide, by decide⟩

/-- **C31** is false in general (second way): an object that was deleted and made again is in the
list, but while its deletion is pending the list's `Sync` is dropped and the store loses it. -/
theorem C31_refuted_lost : ∃ (before : List (Ev Nat (Nat × Nat))) (xs : List (Obj Nat (Nat × Nat)))
    (n : Nat),
    let s := exec exKey init (before ++ .replace xs :: List.replicate n (.pop allOk))
    Drained s ∧ (∀ x ∈ xs, (keyOf exKey x).isSome) ∧
      s.items.get? 1 = none ∧ listed exKey xs 1 = some (.real (1, 7)) :=
  ⟨[.replace [.real (1, 0)], .pop allOk, .delete (.real (1, 0))], [.real (1, 7)], 1, rfl,
    by decide, by decide, by decide⟩

/-- A list at a clean moment: one key pending and stored, one pending for deletion and not
listed, one stored and vanished. -/
private def exBefore : List (Ev Nat (Nat × Nat)) :=
  [.replace [.real (1, 0), .real (2, 0), .real (3, 0)], .pop allOk, .pop allOk, .pop allOk,
    .update (.real (1, 1)), .delete (.real (2, 0))]

example : (∀ k, CleanAt exKey (exec exKey init exBefore) [.real (1, 2), .real (4, 0)] k) ∧
    (exec exKey init (exBefore ++ .replace [.real (1, 2), .real (4, 0)] ::
      List.replicate 4 (.pop allOk))).items = [(1, .real (1, 2)), (4, .real (4, 0))] := by
  have hq : (exec exKey init exBefore).q.items =
    [(1, [⟨.updated, .real (1, 1)⟩]), (2, [⟨.deleted, .real (2, 0)⟩])] := by decide
  refine ⟨?_, by decide⟩
  intro k
  simp only [CleanAt, NewestDeleted, pending, hq]
  constructor
  · rintro ⟨x, hx, hk⟩
    simp only [List.mem_cons, List.not_mem_nil, or_false] at hx
    rcases hx with rfl | rfl
    · have : k = 1 := by
        have : some 1 = some k := hk
        simpa using this.symm
      subst this
      rintro ⟨d, h1, h2⟩
      simp [PyDict.get?] at h1
      subst h1
      simp at h2
    · have : k = 4 := by
        have : some 4 = some k := hk
        simpa using this.symm
      subst this
      rintro ⟨d, h1, h2⟩
      simp [PyDict.get?] at h1
  · intro h1 h2
    by_cases hk1 : k = 1
    · subst hk1; exact absurd rfl (h2 (.real (1, 2)) (by simp))
    · by_cases hk2 : k = 2
      · subst hk2; right; exact ⟨_, rfl, rfl⟩
      · exfalso
        apply h1
        simp [PyDict.get?, Ne.symm hk1, Ne.symm hk2]

/-! ## C30: convergence of an informer that lists once -/

/-- **C30**: one initial list, then any watch events, resyncs and pops with a handler that does
not fail: once the queue is drained the store is the watched state. -/
theorem C30_converges (key : O → Option K) (xs : List (Obj K O))
    (hx : ∀ x ∈ xs, (keyOf key x).isSome) (es : List (Ev K O)) (hn : ∀ e ∈ es, Ev.noList e)
    (ho : ∀ e ∈ es, Ev.handlerOk e) (hd : Drained (exec key init (.replace xs :: es))) (k : K) :
    (exec key init (.replace xs :: es)).items.get? k = target key (.replace xs :: es) k := by
  refine C31_converges_partial key [] es xs hx k ?_ hn ?_ hd
  · refine ⟨?_, ?_⟩
    · rintro - ⟨d, h1, -⟩
      simp [pending, exec, init, DeltaFifo.init, PyDict.get?] at h1
    · intro h1
      simp [pending, exec, init, DeltaFifo.init, PyDict.get?] at h1
  · generalize exec key init _ = s
    clear hd hn
    induction es generalizing s with
    | nil => trivial
    | cons e es ih =>
      refine ⟨?_, ih (fun e' h' => ho e' (by simp [h'])) _⟩
      have := ho e (by simp)
      cases e with
      | pop h =>
        intro _
        exact ⟨fun i c => by rw [this i]; simp, fun i _ => this i⟩
      | _ => trivial

/-- **C30**: and draining takes only as many successful pops as keys are pending, in every
reachable state. -/
theorem C30_drains (key : O → Option K) (es : List (Ev K O)) (n : Nat)
    (hn : (exec key init es).q.queue.length ≤ n) :
    Drained (exec key init (es ++ List.replicate n (.pop fun _ => .ok))) := by
  obtain ⟨log, h⟩ := inv key es
  rw [exec_append]
  exact drains n h hn

example : ∃ es : List (Ev Nat (Nat × Nat)), (∀ e ∈ es, Ev.noList e) ∧ (∀ e ∈ es, Ev.handlerOk e) ∧
    Drained (exec exKey init (.replace [.real (1, 0), .real (2, 0)] :: es)) ∧
    (exec exKey init (.replace [.real (1, 0), .real (2, 0)] :: es)).items
      = [(1, .real (1, 5)), (3, .real (3, 0))] := by
  refine ⟨[.pop allOk, .update (.real (1, 5)), .resync, .delete (.real (2, 0)), .pop allOk,
    .add (.real (3, 0)), .pop allOk, .pop allOk], ?_, ?_, rfl, by decide⟩ <;>
  · intro e he
    simp only [List.mem_cons, List.not_mem_nil, or_false] at he
    rcases he with rfl | rfl | rfl | rfl | rfl | rfl | rfl | rfl <;>
      simp [Ev.noList, Ev.handlerOk]

/-! ## C32: resync -/

/-- **C32**: in every reachable state a resync leaves the store alone and calls nobody; for a
stored object with nothing pending it queues exactly one `Sync` with the stored object; what is
pending for other keys stays as it was. -/
theorem C32_queues (key : O → Option K) (es : List (Ev K O)) (k : K) :
    let s := exec key init es
    let t := (step key s .resync).1
    t.items = s.items ∧ (step key s .resync).2.1 = [] ∧
    (∀ x, s.items.get? k = some x → pending s k = [] → pending t k = [⟨.sync, x⟩]) ∧
    (s.items.get? k = none ∨ pending s k ≠ [] → pending t k = pending s k) := by
  intro s t
  obtain ⟨log, h⟩ := inv key es
  have h' := (inv_step h .resync).1
  have hp := resync_pending h k
  refine ⟨rfl, rfl, ?_, ?_⟩
  · intro x hx hs
    rw [pending, h.sim.getD] at hs
    rw [pending, h'.sim.getD, hp, hx]
    simp only [hs, if_true]
  · intro hc
    rw [pending, h.sim.getD] at hc
    rw [pending, pending, h'.sim.getD, h.sim.getD, hp]
    rcases hc with hc | hc
    · have hc' : (exec key init es).items.get? k = none := hc
      simp only [hc']
    · cases (exec key init es).items.get? k with
      | none => rfl
      | some x => simp only [hc, if_false]

/-- **C32**: processing a `Sync` of the stored object leaves the store as it is and notifies
`on_update(x, x)`, however the handler ends. -/
theorem C32_repeats (key : O → Option K) (es : List (Ev K O)) (k : K) (x : Obj K O)
    (hx : (exec key init es).items.get? k = some x)
    (hq : (exec key init es).q.queue.head? = some k)
    (hp : pending (exec key init es) k = [⟨.sync, x⟩]) (h : Nat → Outcome) :
    let r := step key (exec key init es) (.pop h)
    r.1.items = (exec key init es).items ∧ r.2.1 = [.onUpdate x x] := by
  obtain ⟨log, hi⟩ := inv key es
  rw [pending, hi.sim.getD] at hp
  intro r
  rcases pop_spec hi h with ⟨h1, -⟩ | ⟨j, rest, e, r', hq', -, -, rfl, h2, h3, -⟩
  · rw [h1] at hq; simp at hq
  · rw [hq'] at hq
    simp only [List.head?_cons, Option.some.injEq] at hq
    subst hq
    have hk : keyOf key x = some j := hi.own j x hx
    have hset : (exec key init es).items.set j x = (exec key init es).items := by
      refine PyDict.ext_of (PyDict.WF_set hi.wf _ _) ?_ ?_
      · rw [PyDict.keys_set, if_pos (PyDict.get?_isSome.1 (by rw [hx]; rfl))]
      · intro i
        rw [PyDict.get?_set]
        split
        · rename_i hji; rw [← hji, hx]
        · rfl
    have e1 : r.1.items = _ := congrArg State.items h2
    have e2 : r.2.1 = _ := h3
    rw [e1, e2, hp]
    simp only [process, applyOne, hk, hx, hset]
    by_cases hh : h 0 = .ok <;> simp [hh]

example : let s := exec exKey init [.replace [.real (1, 0), .real (2, 0)], .pop allOk, .pop allOk,
      .resync]
    s.items.get? 1 = some (.real (1, 0)) ∧ s.q.queue.head? = some 1 ∧
      pending s 1 = [⟨.sync, .real (1, 0)⟩] := by decide

/-! ## C33: failing handlers -/

/-- **C33** is false: a handler that raises on the first of several pending changes of an object
makes the loop drop the others; nothing is pending any more and the store is stale. -/
theorem C33_refuted : ∃ (es : List (Ev Nat (Nat × Nat))),
    (∀ e ∈ es, Ev.noList e) ∧ (∀ e ∈ es, Ev.noRequeue e) ∧
    Drained (exec exKey init (.replace [] :: es)) ∧
    (exec exKey init (.replace [] :: es)).items.get? 1 = some (.real (1, 0)) ∧
    target exKey (.replace [] :: es) 1 = some (.real (1, 1)) := by
  refine ⟨[.add (.real (1, 0)), .update (.real (1, 1)), .pop fun _ => .error], ?_, ?_, rfl,
    by decide, by decide⟩ <;>
  · intro e he
    simp only [List.mem_cons, List.not_mem_nil, or_false] at he
    rcases he with rfl | rfl | rfl <;> simp [Ev.noList, Ev.noRequeue]

/-- **C33**, what is true: failures in the last call of each pop do no harm, and failures while
other keys are processed do not matter at all.  Missing: failures before the last change of a
batch. -/
theorem C33_last_partial (key : O → Option K) (xs : List (Obj K O))
    (hx : ∀ x ∈ xs, (keyOf key x).isSome) (es : List (Ev K O)) (hn : ∀ e ∈ es, Ev.noList e) (k : K)
    (hc : AllCarefulAt key k (exec key init [.replace xs]) es)
    (hd : Drained (exec key init (.replace xs :: es))) :
    (exec key init (.replace xs :: es)).items.get? k = target key (.replace xs :: es) k := by
  refine C31_converges_partial key [] es xs hx k ?_ hn hc hd
  refine ⟨?_, ?_⟩
  · rintro - ⟨d, h1, -⟩
    simp [pending, exec, init, DeltaFifo.init, PyDict.get?] at h1
  · intro h1
    simp [pending, exec, init, DeltaFifo.init, PyDict.get?] at h1

/-- **C33**, what is true: the damage lasts only until the next watch event of the object.
Whatever handlers did before, if no pop after the latest event of `k` fails halfway through the
changes of `k`, then once the queue is drained the store is right about `k`. -/
theorem C33_heals_partial (key : O → Option K) (before after : List (Ev K O)) (e : Ev K O) (k : K)
    (he : eventKey key e = some k) (hn : ∀ e ∈ after, Ev.noList e)
    (hc : AllCarefulAt key k (exec key init (before ++ [e])) after)
    (hd : Drained (exec key init (before ++ e :: after))) :
    (exec key init (before ++ e :: after)).items.get? k = target key (before ++ e :: after) k := by
  obtain ⟨log, h⟩ := inv key before
  have e1 : exec key init (before ++ e :: after)
      = exec key (step key (exec key init before) e).1 after := by
    rw [exec_append]; rfl
  have e2 : exec key init (before ++ [e]) = (step key (exec key init before) e).1 := by
    rw [exec_append]; rfl
  rw [e1] at hd ⊢
  rw [e2] at hc
  have h' := (inv_step h e).1
  rw [← eventual_drained (inv_exec after h').1 hd k, eventual_exec k after h' hn hc]
  simp only [target, List.foldl_append, List.foldl_cons]
  apply foldl_watched_congr key k after
  cases e with
  | add x | update x | delete x =>
    rw [eventual_event]
    all_goals first | trivial | simp only [eventKey] at he
    all_goals first | simp only [ne_eq, reduceCtorEq, not_false_eq_true, implies_true] | skip
    simp only [watched, he, View.put, if_true]
  | replace xs => simp [eventKey] at he
  | resync => simp [eventKey] at he
  | pop h => simp [eventKey] at he

/-- A history with a failure halfway and a later event that heals it, and a last-call failure. -/
example : let before : List (Ev Nat (Nat × Nat)) := [.add (.real (1, 0)), .update (.real (1, 1)),
      .pop fun _ => .error]
    let after : List (Ev Nat (Nat × Nat)) := [.update (.real (1, 3)),
      .pop fun i => if i = 1 then .error else .ok]
    AllCarefulAt exKey 1 (exec exKey init (before ++ [.update (.real (1, 2))])) after ∧
    (exec exKey init (before ++ [.update (.real (1, 2))] ++ after)).items = [(1, .real (1, 3))] := by
  refine ⟨⟨trivial, ?_, trivial⟩, by decide⟩
  intro _
  refine ⟨?_, ?_⟩
  · intro i c
    show (if i = 1 then Outcome.error else .ok) ≠ _
    split <;> simp
  · intro i hi
    have : i + 1 < 2 := hi
    show (if i = 1 then Outcome.error else .ok) = _
    rw [if_neg (by omega)]

end Aiok8s.Informer
