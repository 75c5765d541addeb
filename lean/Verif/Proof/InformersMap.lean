import Verif.Spec.InformersMap
/-! # Invariants of the informers map -/
set_option linter.unusedSectionVars false
namespace Aiok8s.InformersMap
open Aiok8s
variable {G : Type} [DecidableEq G]

structure Inv (s : State G) : Prop where
  wf : s.map.WF
  bound : ∀ g i, s.map.get? g = some i → i < s.made
  inj : ∀ g h i, s.map.get? g = some i → s.map.get? h = some i → g = h
  found : ∀ c g i b, s.tasks c = .looked g (some i) b → s.map.get? g = some i
  given : ∀ c g i, given (s.tasks c) = some (g, i) → s.map.get? g = some i
  ret : ∀ c g i, s.tasks c = .returned g i true → i ∈ s.synced
  run : ∀ i ∈ s.synced, i ∈ s.running
  runb : ∀ i ∈ s.running, i < s.made

theorem inv_init : Inv (init : State G) := by
  constructor <;> simp [init, PyDict.WF, given, PyDict.keys]

theorem inv_setPc {s : State G} (h : Inv s) (c : Nat) (p : Pc G)
    (h1 : ∀ g i b, p = .looked g (some i) b → s.map.get? g = some i)
    (h2 : ∀ g i, InformersMap.given p = some (g, i) → s.map.get? g = some i)
    (h3 : ∀ g i, p = .returned g i true → i ∈ s.synced) : Inv (s.setPc c p) := by
  refine ⟨h.wf, h.bound, h.inj, ?_, ?_, ?_, h.run, h.runb⟩
  · intro d g i b hd
    simp only [State.setPc] at hd ⊢
    split at hd
    · exact h1 g i b hd
    · exact h.found d g i b hd
  · intro d g i hd
    simp only [State.setPc] at hd ⊢
    split at hd
    · exact h2 g i hd
    · exact h.given d g i hd
  · intro d g i hd
    simp only [State.setPc] at hd ⊢
    split at hd
    · exact h3 g i hd
    · exact h.ret d g i hd

theorem inv_add {s : State G} (h : Inv s) (g : G) :
    Inv (addInformer s g).1 ∧ (addInformer s g).1.map.get? g = some (addInformer s g).2 := by
  simp only [addInformer]
  split
  · rename_i i hi; exact ⟨h, hi⟩
  · rename_i hn
    have keep : ∀ j i, s.map.get? j = some i → (s.map.set g s.made).get? j = some i := by
      intro j i hj
      rw [PyDict.get?_set]
      split
      · rename_i he
        first
          | (subst he; rw [hn] at hj; cases hj)
          | skip
      · exact hj
    refine ⟨⟨PyDict.WF_set h.wf _ _, ?_, ?_, ?_, ?_, h.ret, h.run, ?_⟩, by simp⟩
    · intro j i hj
      rw [PyDict.get?_set] at hj
      split at hj
      · cases hj; exact Nat.lt_succ_self _
      · exact Nat.lt_succ_of_lt (h.bound j i hj)
    · intro a b i ha hb
      rw [PyDict.get?_set] at ha hb
      split at ha <;> split at hb
      · rename_i h1 h2; rw [← h1, ← h2]
      · cases ha; exact absurd (h.bound b _ hb) (Nat.lt_irrefl _)
      · cases hb; exact absurd (h.bound a _ ha) (Nat.lt_irrefl _)
      · exact h.inj a b i ha hb
    · intro c j i b hc; exact keep j i (h.found c j i b hc)
    · intro c j i hc; exact keep j i (h.given c j i hc)
    · intro i hi; exact Nat.lt_succ_of_lt (h.runb i hi)

theorem inv_step {s : State G} (h : Inv s) (e : Ev G) : Inv (step s e) := by
  cases e with
  | call c g =>
    simp only [step]
    split
    · exact inv_setPc h c _ (by simp) (by simp [InformersMap.given]) (by simp)
    · exact inv_setPc h c _ (by simp) (by simp [InformersMap.given]) (by simp)
    · exact h
  | look c =>
    simp only [step]
    split
    · refine inv_setPc h c _ ?_ (by simp [InformersMap.given]) (by simp)
      intro g' i b he
      simp only [Pc.looked.injEq] at he
      obtain ⟨rfl, hi, -⟩ := he
      exact hi
    · exact h
  | make c =>
    simp only [step]
    split
    · rename_i g found started hc
      have hr : Inv (orAdd s g found).1 ∧ (orAdd s g found).1.map.get? g = some (orAdd s g found).2 := by
        cases found with
        | some i => exact ⟨h, h.found c g i started hc⟩
        | none => exact inv_add h g
      generalize orAdd s g found = r at hr
      obtain ⟨h1, h2⟩ := hr
      split
      · refine inv_setPc h1 c _ (by simp) ?_ (by simp)
        intro g' i he
        simp only [InformersMap.given, Option.some.injEq, Prod.mk.injEq] at he
        obtain ⟨rfl, rfl⟩ := he
        exact h2
      · rename_i hns
        refine inv_setPc h1 c _ (by simp) ?_ ?_
        · intro g' i he
          simp only [InformersMap.given, Option.some.injEq, Prod.mk.injEq] at he
          obtain ⟨rfl, rfl⟩ := he
          exact h2
        · intro g' i he
          simp only [Pc.returned.injEq] at he
          obtain ⟨rfl, rfl, rfl⟩ := he
          simpa using hns
    · exact h
  | poll c =>
    simp only [step]
    split
    · rename_i g i hc
      split
      · rename_i hs
        refine inv_setPc h c _ (by simp) ?_ ?_
        · intro g' i' he
          simp only [InformersMap.given, Option.some.injEq, Prod.mk.injEq] at he
          obtain ⟨rfl, rfl⟩ := he
          exact h.given c g i (by rw [hc]; rfl)
        · intro g' i' he
          simp only [Pc.returned.injEq] at he
          obtain ⟨rfl, rfl, -⟩ := he
          exact hs
      · exact h
    · exact h
  | start =>
    refine ⟨h.wf, h.bound, h.inj, h.found, h.given, h.ret, ?_, ?_⟩
    · intro i hi
      exact List.mem_append_left _ (h.run i hi)
    · intro i hi
      rcases List.mem_append.1 hi with hi | hi
      · exact h.runb i hi
      · obtain ⟨g, hg⟩ := (PyDict.mem_values h.wf).1 hi
        exact h.bound g i hg
  | sync i =>
    simp only [step]
    split
    · rename_i hi
      refine ⟨h.wf, h.bound, h.inj, h.found, h.given, ?_, ?_, h.runb⟩
      · intro c g j hc
        exact List.mem_cons_of_mem _ (h.ret c g j hc)
      · intro j hj
        rcases List.mem_cons.1 hj with rfl | hj
        · exact hi
        · exact h.run j hj
    · exact h

theorem inv_exec (es : List (Ev G)) : ∀ {s : State G}, Inv s → Inv (exec s es) := by
  induction es with
  | nil => intro s h; exact h
  | cons e es ih => intro s h; exact ih (inv_step h e)

theorem map_setPc (s : State G) (c : Nat) (p : Pc G) : (s.setPc c p).map = s.map := rfl

theorem map_step (s : State G) (e : Ev G) (g : G) (i : Nat) (h : s.map.get? g = some i) :
    (step s e).map.get? g = some i := by
  have hadd : ∀ j, (addInformer s j).1.map.get? g = some i := by
    intro j
    simp only [addInformer]
    split
    · exact h
    · rename_i hn
      show (s.map.set j s.made).get? g = some i
      rw [PyDict.get?_set]
      split
      · rename_i he
        subst he
        rw [hn] at h
        cases h
      · exact h
  cases e with
  | call c g => simp only [step]; split <;> exact h
  | look c => simp only [step]; split <;> exact h
  | poll c =>
    simp only [step]; split
    · split <;> exact h
    · exact h
  | start => exact h
  | sync i => simp only [step]; split <;> exact h
  | make c =>
    simp only [step]
    split
    · rename_i g' found started _
      have hor : (orAdd s g' found).1.map.get? g = some i := by
        cases found with
        | some j => exact h
        | none => exact hadd g'
      split <;> exact hor
    · exact h

theorem map_exec (es : List (Ev G)) (g : G) (i : Nat) : ∀ s : State G, s.map.get? g = some i →
    (exec s es).map.get? g = some i := by
  induction es with
  | nil => intro s h; exact h
  | cons e es ih => intro s h; exact ih _ (map_step s e g i h)

theorem exec_append (as bs : List (Ev G)) : ∀ s : State G, exec s (as ++ bs) = exec (exec s as) bs := by
  induction as with
  | nil => intro s; rfl
  | cons a as ih => intro s; exact ih _

theorem running_exec (es : List (Ev G)) (i : Nat) : ∀ s : State G, i ∈ s.running →
    i ∈ (exec s es).running := by
  induction es with
  | nil => intro s h; exact h
  | cons e es ih =>
    intro s h
    apply ih
    cases e with
    | call c g => simp only [step]; split <;> exact h
    | look c => simp only [step]; split <;> exact h
    | poll c =>
      simp only [step]; split
      · split <;> exact h
      · exact h
    | start => exact List.mem_append_left _ h
    | sync i => simp only [step]; split <;> exact h
    | make c =>
      simp only [step]
      split
      · rename_i g' found started _
        have hor : (orAdd s g' found).1.running = s.running := by
          cases found with
          | some j => rfl
          | none => simp only [orAdd, addInformer]; split <;> rfl
        rw [← hor] at h
        split <;> exact h
      · exact h

end Aiok8s.InformersMap
