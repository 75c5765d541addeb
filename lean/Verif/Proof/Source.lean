import Verif.Spec.Source
import Verif.Proof.SharedInformer
/-!
# What holds of the reflector's objects holds of those that reach the handlers
-/
set_option linter.unusedSimpArgs false
namespace Aiok8s.Source
open Aiok8s.DeltaFifo (Delta Deltas DType keyOf)
open Aiok8s.Informer (Note)
open Aiok8s.Source.Spec
variable {K O : Type} [DecidableEq K] {G : DeltaFifo.Obj K O → Prop}

theorem mem_set {V : Type} {d : PyDict K V} {k : K} {v : V} {p : K × V} (h : p ∈ d.set k v) :
    p ∈ d ∨ p = (k, v) := by
  induction d with
  | nil => simpa [PyDict.set] using h
  | cons a d ih =>
    obtain ⟨j, u⟩ := a
    simp only [PyDict.set] at h
    split at h
    · rename_i hj
      rcases List.mem_cons.1 h with h | h
      · right; rw [h]; simp [hj]
      · left; exact List.mem_cons_of_mem _ h
    · rcases List.mem_cons.1 h with h | h
      · left; rw [h]; simp
      · rcases ih h with h | h
        · left; exact List.mem_cons_of_mem _ h
        · exact Or.inr h

theorem mem_del {V : Type} {d : PyDict K V} {k : K} {p : K × V} (h : p ∈ d.del k) : p ∈ d := by
  induction d with
  | nil => simp [PyDict.del] at h
  | cons a d ih =>
    obtain ⟨j, u⟩ := a
    simp only [PyDict.del] at h
    split at h
    · exact List.mem_cons_of_mem _ h
    · rcases List.mem_cons.1 h with h | h
      · rw [h]; simp
      · exact List.mem_cons_of_mem _ (ih h)

/-- A delta that brings an object brings a good one. -/
def DReal (G : DeltaFifo.Obj K O → Prop) (d : Delta K O) : Prop := d.type ≠ .deleted → G d.object

def QReal (G : DeltaFifo.Obj K O → Prop) (q : DeltaFifo.State K O) : Prop := ∀ p ∈ q.items, ∀ d ∈ p.2, DReal G d

def IReal (G : DeltaFifo.Obj K O → Prop) (items : PyDict K (DeltaFifo.Obj K O)) : Prop := ∀ p ∈ items, G p.2

theorem mem_dedup {ds : Deltas K O} {d : Delta K O} (h : d ∈ DeltaFifo.dedupDeltas ds) : d ∈ ds := by
  simp only [DeltaFifo.dedupDeltas] at h
  split at h
  · rename_i a b rest hr
    split at h
    · rename_i out ho
      have hout : out = a ∨ out = b := by
        simp only [DeltaFifo.isDup] at ho
        split at ho
        · cases ho
        · split at ho
          · cases ho; exact Or.inl rfl
          · cases ho; exact Or.inr rfl
      have hm : ∀ e ∈ a :: b :: rest, e ∈ ds := by
        intro e he; rw [← hr] at he; simpa using he
      simp only [List.reverse_cons, List.mem_append, List.mem_reverse, List.mem_singleton] at h
      rcases h with h | h
      · exact hm d (by simp [h])
      · rcases hout with h' | h'
        · exact hm d (by simp [h, h'])
        · exact hm d (by simp [h, h'])
    · exact h
  · exact h

theorem real_queueAction {key : O → Option K} {s : DeltaFifo.State K O} {t : DType} {x : DeltaFifo.Obj K O}
    (h : QReal G s) (hx : DReal G (⟨t, x⟩ : Delta K O)) : QReal G (DeltaFifo.queueAction key s t x).1 := by
  simp only [DeltaFifo.queueAction]
  split
  · exact h
  · rename_i k _
    split
    · exact h
    · split
      · intro p hp d hd
        rcases mem_set hp with hp | hp
        · exact h p hp d hd
        · subst hp
          have := mem_dedup hd
          rcases List.mem_append.1 this with hm | hm
          · cases hg : s.items.get? k with
            | none => rw [hg] at hm; cases hm
            | some ds =>
              rw [hg] at hm
              exact h _ (PyDict.get?_mem hg) d hm
          · rw [List.mem_singleton.1 hm]; exact hx
      · intro p hp
        exact h p (mem_del hp)

theorem real_syncAll {key : O → Option K} (xs : List (DeltaFifo.Obj K O)) :
    ∀ {s : DeltaFifo.State K O}, QReal G s → (∀ x ∈ xs, G x) → QReal G (DeltaFifo.syncAll key s xs).1 := by
  induction xs with
  | nil => intro s h _; exact h
  | cons x xs ih =>
    intro s h hx
    simp only [DeltaFifo.syncAll]
    split
    · exact h
    · have := ih (real_queueAction (key := key) (t := .sync) h (fun _ => hx x (by simp)))
        (fun y hy => hx y (by simp [hy]))
      split <;> · rename_i heq; rw [heq] at this; exact this

theorem real_deleteKnown {key : O → Option K} (kn : DeltaFifo.Known K O) (keys ks : List K) :
    ∀ {s : DeltaFifo.State K O}, QReal G s → QReal G (DeltaFifo.deleteKnown key kn keys s ks).1 := by
  induction ks with
  | nil => intro s h; exact h
  | cons k ks ih =>
    intro s h
    simp only [DeltaFifo.deleteKnown]
    split
    · exact ih h
    · exact ih (real_queueAction h (fun hc => absurd rfl hc))

theorem real_resyncKeys {key : O → Option K} {items : PyDict K (DeltaFifo.Obj K O)} (hi : IReal G items)
    (ks : List K) : ∀ {s : DeltaFifo.State K O}, QReal G s →
      QReal G (DeltaFifo.resyncKeys key (Informer.known items) s ks).1 := by
  induction ks with
  | nil => intro s h; exact h
  | cons k ks ih =>
    intro s h
    simp only [DeltaFifo.resyncKeys]
    split
    · exact ih h
    · exact ih h
    · rename_i x hx
      split
      · exact h
      · split
        · exact ih h
        · refine ih (real_queueAction h fun _ => ?_)
          simp only [Informer.known, Option.some.injEq] at hx
          exact hi _ (PyDict.get?_mem hx)

theorem real_popLoop (q : DeltaFifo.State K O) (l : List K) : ∀ n : Nat, QReal G q →
    QReal G (DeltaFifo.popLoop q .ok l n).1 ∧
    ∀ k ds r m, (DeltaFifo.popLoop q .ok l n).2 = .popped k ds r m → ∀ d ∈ ds, DReal G d := by
  induction l with
  | nil =>
    intro n h
    simp only [DeltaFifo.popLoop]
    refine ⟨h, fun k ds r m hp => ?_⟩
    split at hp <;> cases hp
  | cons k l ih =>
    intro n h
    simp only [DeltaFifo.popLoop]
    split
    · exact ih _ h
    · rename_i ds hd
      refine ⟨fun p hp => h p (mem_del hp), fun k' ds' r m hp d hdm => ?_⟩
      simp only [DeltaFifo.finish, DeltaFifo.Out.popped.injEq] at hp
      obtain ⟨rfl, rfl, -, -⟩ := hp
      exact h _ (PyDict.get?_mem hd) d hdm

/-- What a notification brings is real. -/
def NReal (G : DeltaFifo.Obj K O → Prop) : Note K O → Prop
  | .onAdd x => G x
  | .onUpdate _ x => G x
  | .onDelete _ => True

theorem real_handleDeltas {key : O → Option K} (ds : Deltas K O) : ∀ {items : PyDict K (DeltaFifo.Obj K O)},
    IReal G items → (∀ d ∈ ds, DReal G d) →
    IReal G (SharedInformer.handleDeltas key items ds).1 ∧
    ∀ n ∈ (SharedInformer.handleDeltas key items ds).2, NReal G n.1 := by
  induction ds with
  | nil => intro items hi _; exact ⟨hi, by simp [SharedInformer.handleDeltas]⟩
  | cons d ds ih =>
    intro items hi hd
    simp only [SharedInformer.handleDeltas]
    split
    · exact ⟨hi, by simp⟩
    · rename_i items' n heq
      have hset : d.type ≠ .deleted → ∀ k, IReal G (items.set k d.object) := by
        intro ht k p hp
        rcases mem_set hp with hp | hp
        · exact hi p hp
        · rw [hp]; exact hd d (by simp) ht
      have h2 : IReal G items' ∧ NReal G n := by
        simp only [Informer.applyOne] at heq
        split at heq
        · cases heq
        · split at heq
          · cases heq
            exact ⟨fun p hp => hi p (mem_del hp), trivial⟩
          · rename_i ht
            split at heq <;> cases heq
            · exact ⟨hset ht _, hd d (by simp) ht⟩
            · exact ⟨hset ht _, hd d (by simp) ht⟩
      obtain ⟨h3, h4⟩ := ih h2.1 (fun e he => hd e (by simp [he]))
      refine ⟨h3, fun m hm => ?_⟩
      rcases List.mem_cons.1 hm with rfl | hm
      · exact h2.2
      · exact h4 m hm

/-- Everything that was handed out is real. -/
structure SReal (G : DeltaFifo.Obj K O → Prop) (s : SharedInformer.State K O) : Prop where
  q : QReal G s.inf.q
  items : IReal G s.inf.items
  sent : ∀ ns ∈ s.sent, ∀ n ∈ ns, NReal G n

theorem real_step {key : O → Option K} {s : SharedInformer.State K O} (h : SReal G s)
    (e : SharedInformer.Ev K O) (he : EvAll G e) : SReal G (SharedInformer.step key s e) := by
  have onq : ∀ ev, QReal G (Informer.step key s.inf ev).1.q → (Informer.step key s.inf ev).1.items = s.inf.items →
      SReal G (SharedInformer.onQueue key s ev) := by
    intro ev h1 h2
    simp only [SharedInformer.onQueue]
    split
    · exact ⟨h1, by rw [h2]; exact h.items, h.sent⟩
    · exact h
  cases e with
  | start => exact ⟨h.q, h.items, h.sent⟩
  | check due => exact ⟨h.q, h.items, h.sent⟩
  | register =>
    refine ⟨h.q, h.items, fun ns hns n hn => ?_⟩
    rcases List.mem_append.1 hns with hns | hns
    · exact h.sent ns hns n hn
    · rw [List.mem_singleton] at hns
      subst hns
      split at hn
      · obtain ⟨x, hx, rfl⟩ := List.mem_map.1 hn
        obtain ⟨p, hp, rfl⟩ := List.mem_map.1 hx
        exact h.items p hp
      · cases hn
  | pop =>
    simp only [SharedInformer.step]
    split
    · obtain ⟨hp1, hp2⟩ := real_popLoop s.inf.q s.inf.q.queue 0 h.q
      simp only [SharedInformer.pop]
      split
      · exact ⟨hp1, h.items, h.sent⟩
      · rename_i ds hds
        have hds' : ∀ d ∈ ds, DReal G d := by
          simp only [Informer.nextDeltas] at hds
          split at hds
          · rename_i heq; cases hds; exact hp2 _ _ _ _ heq
          · cases hds
        obtain ⟨h1, h2⟩ := real_handleDeltas (key := key) ds h.items hds'
        refine ⟨hp1, h1, fun ns hns n hn => ?_⟩
        simp only [SharedInformer.distribute, List.mem_mapIdx] at hns
        obtain ⟨i, hi, rfl⟩ := hns
        rcases List.mem_append.1 hn with hn | hn
        · exact h.sent _ (List.getElem_mem hi) n hn
        · simp only [SharedInformer.receive, List.mem_map, List.mem_filter] at hn
          obtain ⟨m, ⟨hm, -⟩, rfl⟩ := hn
          exact h2 m hm
    · exact h
  | add x => exact onq _ (real_queueAction (s := { s.inf.q with populated := true }) h.q fun _ => he) rfl
  | update x => exact onq _ (real_queueAction (s := { s.inf.q with populated := true }) h.q fun _ => he) rfl
  | delete x =>
    refine onq _ ?_ rfl
    simp only [Informer.step, Informer.call, DeltaFifo.step, DeltaFifo.delete]
    split
    · exact h.q
    · split
      · exact h.q
      · exact real_queueAction (s := { s.inf.q with populated := true }) h.q fun hc => absurd rfl hc
  | replace xs =>
    refine onq _ ?_ rfl
    have hs := real_syncAll (key := key) xs h.q he
    simp only [Informer.step, Informer.call, DeltaFifo.step, DeltaFifo.replace]
    split
    · rename_i heq; rw [heq] at hs; exact hs
    · rename_i heq; rw [heq] at hs
      exact real_deleteKnown _ _ _ hs
  | resync =>
    refine onq _ ?_ rfl
    exact real_resyncKeys h.items _ h.q

theorem real_exec {key : O → Option K} (es : List (SharedInformer.Ev K O)) :
    ∀ {s : SharedInformer.State K O}, SReal G s → (∀ e ∈ es, EvAll G e) →
      SReal G (SharedInformer.exec key s es) := by
  induction es with
  | nil => intro s h _; exact h
  | cons e es ih =>
    intro s h he
    exact ih (real_step h e (he e (by simp))) (fun e he' => he e (by simp [he']))

theorem real_init : SReal G (SharedInformer.init : SharedInformer.State K O) := by
  refine ⟨?_, ?_, ?_⟩
  · intro p hp; cases hp
  · intro p hp; cases hp
  · intro p hp; cases hp

end Aiok8s.Source
