import Verif.Proof.SharedInformer
/-!
# C34: every handler of a shared informer knows the cache
-/
namespace Aiok8s.SharedInformer
open Aiok8s.DeltaFifo (Obj Delta DType keyOf)
open Aiok8s.DeltaFifo.Spec (pendingOf)
open Aiok8s.Informer (Note)
open Aiok8s.Informer.Spec (AllSensible Drained)
open Spec
variable {K O : Type} [DecidableEq K]

/-- A key function for examples. -/
private abbrev exKey : Nat × Nat → Option Nat := fun o => some o.1

/-- **C34** is false: after a check found only one of two handlers due, a relist (its changes are
`Sync`s) reaches only that one; the other goes on believing in the old object, with nothing left
to process. -/
theorem C34_refuted : ∃ es : List (Ev Nat (Nat × Nat)),
    let s := exec exKey init es
    s.inf.q.queue = [] ∧ s.inf.items = [(1, .real (1, 1))] ∧
    ∃ ns, s.sent[1]? = some ns ∧ view exKey ns 1 = some (.real (1, 0)) := by
  refine ⟨[.register, .register, .start, .replace [.real (1, 0)], .pop, .check (fun i => i = 0),
    .resync, .pop, .replace [.real (1, 1)], .pop], rfl, rfl, _, rfl, rfl⟩

/-- **C34**, a handler that every check finds due (for example because there is no resync): at any
time, whenever it was registered, replaying what it was sent gives the indexer.  Missing: handlers
that some check left out, see `C34_refuted`. -/
theorem C34_due_partial (key : O → Option K) (es : List (Ev K O)) (i : Nat)
    (hs : ∀ e ∈ es, Ev.selects i e) (ns : List (Note K O))
    (h : (exec key init es).sent[i]? = some ns) (k : K) :
    view key ns k = (exec key init es).inf.items.get? k :=
  congrFun ((served_exec es (good_init key) (fun _ => rfl) (served_init key i) hs).fresh ns h) k

/-- **C34**, for such a handler also every single notification makes sense: additions of absent
objects, updates with the object sent last, deletions of present objects. -/
theorem C34_sensible_partial (key : O → Option K) (es : List (Ev K O)) (i : Nat)
    (hs : ∀ e ∈ es, Ev.selects i e) (ns : List (Note K O))
    (h : (exec key init es).sent[i]? = some ns) : AllSensible key (fun _ => none) ns :=
  (served_exec es (good_init key) (fun _ => rfl) (served_init key i) hs).sensible ns h

/-- **C34**, whatever the checks find due: as long as there is no list once handlers may be left
out and the earlier lists are processed by then, replaying what any handler was sent gives the
indexer.  Missing: lists after that moment, see `C34_refuted`. -/
theorem C34_nolist_partial (key : O → Option K) (before after : List (Ev K O))
    (hs : ∀ i, ∀ e ∈ before, Ev.selects i e)
    (hd : Drained (exec key init before).inf) (hn : ∀ e ∈ after, Ev.noList e)
    (i : Nat) (ns : List (Note K O))
    (h : (exec key init (before ++ after)).sent[i]? = some ns) (k : K) :
    view key ns k = (exec key init (before ++ after)).inf.items.get? k := by
  rw [exec_append] at h ⊢
  have hg := good_exec before (good_init key)
  have hc : Calm key (exec key init before) := by
    obtain ⟨log, h1, -⟩ := hg
    refine ⟨log, h1, ?_, fun i => (served_exec before (good_init key) (fun _ => rfl)
      (served_init key i) (hs i)).fresh⟩
    intro j
    have : pendingOf j log = [] := by
      by_contra hne
      have := (h1.sim.mem j).2 hne
      rw [← h1.sim.queue, hd] at this
      simp at this
    rw [this]
    exact ⟨by simp, by simp⟩
  obtain ⟨log, -, -, h3⟩ := calm_exec after (idle_exec before fun _ => rfl) hg hc hn
  exact congrFun (h3 i ns h) k

/-- The informer's own part does what the plain informer does, so C29 to C32 carry over: whenever
nothing but the queue and pops is concerned, the state is the plain informer's. -/
theorem C34_same_cache (key : O → Option K) (es : List (Ev K O)) (e : Ev K O)
    (b : Informer.Ev K O) (hst : (exec key init es).started = true)
    (he : match e with
      | .add x => b = .add x
      | .update x => b = .update x
      | .delete x => b = .delete x
      | .replace xs => b = .replace xs
      | .resync => b = .resync
      | .pop => b = .pop fun _ => .ok
      | _ => False) :
    (exec key init (es ++ [e])).inf = (Informer.step key (exec key init es).inf b).1 := by
  rw [exec_append]
  simp only [exec]
  obtain ⟨log, h1, -⟩ := good_exec es (good_init key)
  cases e with
  | add x | update x | delete x | replace xs | resync =>
    subst he; simp only [step, onQueue, hst, if_true]
  | pop =>
    subst he
    simp only [step, hst, if_true]
    rcases pop_inf h1 with ⟨-, h2, h3, -⟩ | ⟨k, -, -, -, h2, -⟩
    · rw [h2]; exact h3.symm
    · rw [h2]
  | _ => exact he.elim

/-- Three handlers, the last registered late; lists, events and a resync. -/
example : ∃ (before after : List (Ev Nat (Nat × Nat))),
    (∀ i, ∀ e ∈ before, Ev.selects i e) ∧ Drained (exec exKey init before).inf ∧
    (∀ e ∈ after, Ev.noList e) ∧
    (exec exKey init (before ++ after)).sent =
      [[.onAdd (.real (1, 0)), .onAdd (.real (2, 0)), .onUpdate (.real (1, 0)) (.real (1, 5)),
          .onDelete (.real (2, 0))],
        [.onAdd (.real (1, 0)), .onAdd (.real (2, 0)), .onUpdate (.real (1, 0)) (.real (1, 0)),
          .onUpdate (.real (1, 0)) (.real (1, 5)), .onUpdate (.real (2, 0)) (.real (2, 0)),
          .onDelete (.real (2, 0))],
        [.onAdd (.real (1, 5)), .onAdd (.real (2, 0)), .onDelete (.real (2, 0))]] ∧
    (exec exKey init (before ++ after)).inf.items = [(1, .real (1, 5))] := by
  refine ⟨[.register, .register, .start, .replace [.real (1, 0), .real (2, 0)], .pop, .pop],
    [.check (fun i => i = 1), .resync, .update (.real (1, 5)), .pop, .register,
      .delete (.real (2, 0)), .check (fun i => i = 1), .pop], ?_, rfl, ?_, by decide, by decide⟩
  · intro i e he
    simp only [List.mem_cons, List.not_mem_nil, or_false] at he
    rcases he with rfl | rfl | rfl | rfl | rfl | rfl <;> trivial
  · intro e he
    simp only [List.mem_cons, List.not_mem_nil, or_false] at he
    rcases he with rfl | rfl | rfl | rfl | rfl | rfl | rfl | rfl <;> trivial

end Aiok8s.SharedInformer
