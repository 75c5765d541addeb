import Verif.Spec.Reflector
/-!
# Lemmas about the reflector
-/
set_option linter.unusedSimpArgs false
set_option linter.unusedSectionVars false
namespace Aiok8s.Reflector
open Spec
variable {O G : Type} [DecidableEq G]

theorem onEvent_spec (A : Access O G) (e : Event O) :
    (onEvent A e = .raised ∧ Fatal A e) ∨
    (onEvent A e = .skipped ∧ ¬ Fatal A e ∧ ¬ Wanted A e) ∨
    (∃ v, onEvent A e = .accepted v ∧ ¬ Fatal A e ∧ Wanted A e ∧ A.version e.object = some v) := by
  unfold onEvent check Fatal Wanted
  cases h1 : e.type <;> cases h2 : A.isExpected e.object <;> cases h3 : A.expected <;>
    cases h5 : A.isObject e.object <;> cases h6 : A.version e.object <;>
    first
    | (simp [h1, h2, h3, h5, h6]; done)
    | (rename_i g; cases h4 : A.gvk e.object with
        | none => simp [h1, h2, h3, h4, h5, h6]
        | some g' =>
          by_cases hg : g = g'
          · subst hg; simp [h1, h2, h3, h4, h5, h6]
          · have hg' : g' ≠ g := fun h => hg h.symm
            simp [h1, h2, h3, h4, h5, h6, hg, hg'])
    | (rename_i g _; cases h4 : A.gvk e.object with
        | none => simp [h1, h2, h3, h4, h5, h6]
        | some g' =>
          by_cases hg : g = g'
          · subst hg; simp [h1, h2, h3, h4, h5, h6]
          · have hg' : g' ≠ g := fun h => hg h.symm
            simp [h1, h2, h3, h4, h5, h6, hg, hg'])

theorem getLastD_append' {α : Type} (xs ys : List α) (d : α) :
    (xs ++ ys).getLastD d = ys.getLastD (xs.getLastD d) := by
  induction xs generalizing d with
  | nil => simp
  | cons x xs ih =>
    rw [List.cons_append, List.getLastD_cons, List.getLastD_cons, ih]

theorem accepted_cons_fatal {A : Access O G} {e : Event O} (h : Fatal A e) (es : List (Event O)) :
    accepted A (e :: es) = [] := by
  simp [accepted, h]

theorem accepted_cons_skip {A : Access O G} {e : Event O} (h : ¬ Fatal A e) (hw : ¬ Wanted A e)
    (es : List (Event O)) : accepted A (e :: es) = accepted A es := by
  simp [accepted, h, hw]

theorem accepted_cons_take {A : Access O G} {e : Event O} (h : ¬ Fatal A e) (hw : Wanted A e)
    (es : List (Event O)) : accepted A (e :: es) = e :: accepted A es := by
  simp [accepted, h, hw]

theorem storeCall_eq (e : Event O) : storeCall e = (change e).toList := by
  unfold storeCall change
  cases e.type <;> rfl

/-- How the loop ends when no event is fatal. -/
def normalEnd (n : Nat) : StreamEnd → Ended
  | .closed short => if short && n == 0 then .raised else .returned
  | .raises => .stuck
  | .resyncFails => .raised
  | .open => .open

theorem watchLoop_spec (A : Access O G) (end_ : StreamEnd) (es : List (Event O)) (v l : String)
    (n : Nat) :
    (watchLoop A v l n end_ es).calls = (accepted A es).filterMap change ∧
    (watchLoop A v l n end_ es).version = (versions A es).getLastD v ∧
    (watchLoop A v l n end_ es).last = (versions A es).getLastD l ∧
    ((∃ e ∈ es, Fatal A e) → (watchLoop A v l n end_ es).ended = .raised) ∧
    ((∀ e ∈ es, ¬ Fatal A e) →
      (watchLoop A v l n end_ es).ended = normalEnd (n + (accepted A es).length) end_) := by
  induction es generalizing v l n with
  | nil => cases end_ <;> simp [watchLoop, atEnd, accepted, versions, normalEnd]
  | cons e es ih =>
    rw [watchLoop]
    rcases onEvent_spec A e with ⟨h, hf⟩ | ⟨h, hf, hw⟩ | ⟨w, h, hf, hw, hv⟩
    · rw [h]
      simp only [versions, accepted_cons_fatal hf]
      refine ⟨rfl, rfl, rfl, fun _ => by first | rfl | trivial, fun hn => absurd hf (hn e (by simp))⟩
    · rw [h]
      obtain ⟨i1, i2, i3, i4, i5⟩ := ih v l n
      simp only [versions, accepted_cons_skip hf hw] at *
      refine ⟨i1, i2, i3, ?_, fun hn => i5 fun x hx => hn x (by simp [hx])⟩
      rintro ⟨x, hx, hfx⟩
      rcases List.mem_cons.1 hx with rfl | hx
      · exact absurd hfx hf
      · exact i4 ⟨x, hx, hfx⟩
    · rw [h]
      obtain ⟨i1, i2, i3, i4, i5⟩ := ih w w (n + 1)
      simp only [versions, accepted_cons_take hf hw] at *
      refine ⟨?_, ?_, ?_, ?_, ?_⟩
      · rw [i1, storeCall_eq, List.filterMap_cons]
        cases change e <;> simp
      · rw [i2, List.filterMap_cons, hv, List.getLastD_cons]
      · rw [i3, List.filterMap_cons, hv, List.getLastD_cons]
      · rintro ⟨x, hx, hfx⟩
        rcases List.mem_cons.1 hx with rfl | hx
        · exact absurd hfx hf
        · exact i4 ⟨x, hx, hfx⟩
      · intro hn
        rw [i5 fun x hx => hn x (by simp [hx]), List.length_cons]
        congr 1
        omega

theorem ended_returned {A : Access O G} {es : List (Event O)} {v l : String} {e : StreamEnd} :
    (watchLoop A v l 0 e es).ended = .returned ↔ Normal A (.stream es e) := by
  obtain ⟨-, -, -, i4, i5⟩ := watchLoop_spec A e es v l 0
  by_cases h : ∀ x ∈ es, ¬ Fatal A x
  · rw [i5 h]
    cases e with
    | closed short =>
      cases short with
      | false => simp [normalEnd, Normal]; exact h
      | true =>
        have hl : (accepted A es).length = 0 ↔ accepted A es = [] := List.length_eq_zero_iff
        simp only [normalEnd, Normal, Bool.true_and, beq_iff_eq, Nat.zero_add, hl]
        split
        · rename_i h0; simp [h0]
        · rename_i h0; simp only [true_iff]; exact ⟨h, fun _ => h0⟩
    | raises => simp [normalEnd, Normal]
    | resyncFails => simp [normalEnd, Normal]
    | «open» => simp [normalEnd, Normal]
  · have h' : ∃ x ∈ es, Fatal A x := by
      by_cases hc : ∃ x ∈ es, Fatal A x
      · exact hc
      · exact absurd (fun x hx hf => hc ⟨x, hx, hf⟩) h
    rw [i4 h']
    refine ⟨fun h => by simp at h, fun hn => ?_⟩
    exfalso
    cases e <;> simp only [Normal] at hn
    exact h hn.1

/-- The loop over watches when the first one is normal. -/
theorem watchAll_normal {A : Access O G} {w : Watch O} (h : Normal A w) (v l : String)
    (ws : List (Watch O)) :
    (watchAll A v l (w :: ws)).calls =
      .watch v :: ((accepted A (events w)).filterMap change ++
        (watchAll A ((versions A (events w)).getLastD v) ((versions A (events w)).getLastD l)
          ws).calls) ∧
    (watchAll A v l (w :: ws)).last =
      (watchAll A ((versions A (events w)).getLastD v) ((versions A (events w)).getLastD l)
        ws).last ∧
    (watchAll A v l (w :: ws)).status =
      (watchAll A ((versions A (events w)).getLastD v) ((versions A (events w)).getLastD l)
        ws).status := by
  cases w with
  | fails => simp [Normal] at h
  | stream es e =>
    obtain ⟨i1, i2, i3, -, -⟩ := watchLoop_spec A e es v l 0
    rw [watchAll]
    simp only [ended_returned.2 h, i1, i2, i3, events]
    refine ⟨?_, ?_, ?_⟩ <;> first | rfl | trivial

/-- The loop over watches when the first one is not normal. -/
theorem watchAll_last {A : Access O G} {w : Watch O} (h : ¬ Normal A w) (v l : String)
    (ws : List (Watch O)) :
    (watchAll A v l (w :: ws)).calls = .watch v :: (accepted A (events w)).filterMap change ∧
    (watchAll A v l (w :: ws)).last = (versions A (events w)).getLastD l := by
  cases w with
  | fails => simp [watchAll, events, accepted, versions]
  | stream es e =>
    obtain ⟨i1, i2, i3, -, -⟩ := watchLoop_spec A e es v l 0
    have hne : (watchLoop A v l 0 e es).ended ≠ .returned := fun hr => h (ended_returned.1 hr)
    rw [watchAll]
    cases hr : (watchLoop A v l 0 e es).ended <;> simp only [hr, i1, i3, events] <;>
      first | exact absurd hr hne | (refine ⟨?_, ?_⟩ <;> first | rfl | trivial)

theorem watches_append (a b : List (Call O)) : watches (a ++ b) = watches a ++ watches b := by
  simp [watches]

theorem watches_changes (es : List (Event O)) : watches (es.filterMap change) = [] := by
  induction es with
  | nil => rfl
  | cons e es ih =>
    rw [List.filterMap_cons]
    unfold change at *
    cases e.type <;> simp [watches] at * <;> exact ih

theorem onStore_changes (es : List (Event O)) :
    onStore (es.filterMap change) = es.filterMap change := by
  induction es with
  | nil => rfl
  | cons e es ih =>
    rw [List.filterMap_cons]
    unfold change at *
    cases e.type <;> simp only [onStore, List.filter_cons] at * <;> simp only [ih] <;> simp

theorem onStore_append (a b : List (Call O)) : onStore (a ++ b) = onStore a ++ onStore b := by
  simp [onStore]

theorem seen_cons (A : Access O G) (w : Watch O) (ws : List (Watch O)) :
    seen A (w :: ws) = versions A (events w) ++ seen A ws := by
  simp [seen]

theorem normal_cons {A : Access O G} {w : Watch O} (h : Normal A w) (ws : List (Watch O)) :
    normal A (w :: ws) = w :: normal A ws := by
  simp [normal, h]

theorem normal_cons_not {A : Access O G} {w : Watch O} (h : ¬ Normal A w) (ws : List (Watch O)) :
    normal A (w :: ws) = [] := by
  simp [normal, h]

theorem made_cons {A : Access O G} {w : Watch O} (h : Normal A w) (ws : List (Watch O)) :
    made A (w :: ws) = w :: made A ws := by
  simp [made, normal_cons h]

theorem made_cons_not {A : Access O G} {w : Watch O} (h : ¬ Normal A w) (ws : List (Watch O)) :
    made A (w :: ws) = [w] := by
  simp [made, normal_cons_not h]

theorem watchAll_watches (A : Access O G) (ws : List (Watch O)) (v l : String) :
    watches (watchAll A v l ws).calls =
      (List.range ((normal A ws).length + 1)).map fun i => (seen A (ws.take i)).getLastD v := by
  induction ws generalizing v l with
  | nil => simp [watchAll, normal, watches, seen, List.range_succ]
  | cons w ws ih =>
    by_cases h : Normal A w
    · rw [(watchAll_normal h v l ws).1, normal_cons h, List.length_cons, List.range_succ_eq_map,
        List.map_cons, List.map_map]
      have : watches (Call.watch v :: ((accepted A (events w)).filterMap change ++
          (watchAll A ((versions A (events w)).getLastD v) ((versions A (events w)).getLastD l)
          ws).calls)) = v :: watches (watchAll A ((versions A (events w)).getLastD v)
            ((versions A (events w)).getLastD l) ws).calls := by
        rw [← List.singleton_append, watches_append, watches_append, watches_changes]
        rfl
      rw [this, ih]
      rw [List.cons.injEq]
      refine ⟨by simp [seen], List.map_congr_left fun i _ => ?_⟩
      simp only [Function.comp_apply, List.take_succ_cons, seen_cons, getLastD_append']
    · rw [(watchAll_last h v l ws).1, normal_cons_not h]
      have : watches (Call.watch v :: (accepted A (events w)).filterMap change) = [v] := by
        rw [← List.singleton_append, watches_append, watches_changes]
        rfl
      rw [this]
      simp [List.range_succ, seen]

theorem watchAll_onStore (A : Access O G) (ws : List (Watch O)) (v l : String) :
    onStore (watchAll A v l ws).calls =
      (made A ws).flatMap fun w => (accepted A (events w)).filterMap change := by
  induction ws generalizing v l with
  | nil => simp [watchAll, made, onStore]
  | cons w ws ih =>
    by_cases h : Normal A w
    · rw [(watchAll_normal h v l ws).1, made_cons h, List.flatMap_cons, ← List.singleton_append,
        onStore_append, onStore_append, onStore_changes, ih]
      rfl
    · rw [(watchAll_last h v l ws).1, made_cons_not h, ← List.singleton_append, onStore_append,
        onStore_changes]
      simp [onStore]

theorem watchAll_lastVersion (A : Access O G) (ws : List (Watch O)) (v l : String) :
    (watchAll A v l ws).last = (seen A (made A ws)).getLastD l := by
  induction ws generalizing v l with
  | nil => simp [watchAll, made, seen]
  | cons w ws ih =>
    by_cases h : Normal A w
    · rw [(watchAll_normal h v l ws).2.1, made_cons h, ih, seen_cons, getLastD_append']
    · rw [(watchAll_last h v l ws).2, made_cons_not h, seen_cons]
      simp [seen]

theorem listAndWatch_last (A : Access O G) (l : String) (s : Script O) :
    (listAndWatch A l s).last = (learnt A s).getLastD l := by
  cases s with
  | listFails => rfl
  | replaceFails items v => rfl
  | listed items v ws =>
    rw [learnt, List.getLastD_cons]
    exact watchAll_lastVersion A ws v v

theorem final_cons {A : Access O G} {w : Watch O} (h : Normal A w) (ws : List (Watch O)) :
    final A (w :: ws) = final A ws := by
  simp [final, h]

theorem final_cons_not {A : Access O G} {w : Watch O} (h : ¬ Normal A w) (ws : List (Watch O)) :
    final A (w :: ws) = some w := by
  simp [final, h]

theorem not_exists_fatal {A : Access O G} {es : List (Event O)} (h : ¬ ∃ x ∈ es, Fatal A x) :
    ∀ x ∈ es, ¬ Fatal A x := fun x hx hf => h ⟨x, hx, hf⟩

/-- How the loop over watches ends. -/
theorem watchAll_status (A : Access O G) (ws : List (Watch O)) (v l : String) :
    (watchAll A v l ws).status = match final A ws with
      | none => .open
      | some .fails => .ended
      | some (.stream es e) =>
        if ∃ x ∈ es, Fatal A x then .ended
        else match e with
          | .closed _ => .ended
          | .raises => .stuck
          | .resyncFails => .ended
          | .open => .open := by
  induction ws generalizing v l with
  | nil => rfl
  | cons w ws ih =>
    by_cases h : Normal A w
    · rw [(watchAll_normal h v l ws).2.2, ih, final_cons h]
    · rw [final_cons_not h]
      cases w with
      | fails => rfl
      | stream es e =>
        obtain ⟨-, -, -, i4, i5⟩ := watchLoop_spec A e es v l 0
        have hne : (watchLoop A v l 0 e es).ended ≠ .returned := fun hr => h (ended_returned.1 hr)
        by_cases hf : ∃ x ∈ es, Fatal A x
        · rw [watchAll]
          simp only [i4 hf, if_pos hf]
        · have hk := i5 (not_exists_fatal hf)
          simp only [if_neg hf]
          rw [watchAll]
          cases e with
          | closed short =>
            have hr : (watchLoop A v l 0 (.closed short) es).ended = .raised := by
              rw [hk] at hne ⊢
              simp only [normalEnd] at hne ⊢
              split
              · rfl
              · rename_i hs; rw [if_neg hs] at hne; exact absurd rfl hne
            simp only [hr]
          | raises => simp only [hk, normalEnd]
          | resyncFails => simp only [hk, normalEnd]
          | «open» => simp only [hk, normalEnd]

theorem watchAll_ended {A : Access O G} {ws : List (Watch O)} (v l : String) :
    (watchAll A v l ws).status = .ended ↔
      ∃ w ∈ final A ws, Over w ∨ ∃ e ∈ events w, Fatal A e := by
  rw [watchAll_status]
  cases final A ws with
  | none => simp
  | some w =>
    cases w with
    | fails => simp [Over]
    | stream es e =>
      by_cases hf : ∃ x ∈ es, Fatal A x
      · simp only [if_pos hf, true_iff]
        exact ⟨_, rfl, Or.inr hf⟩
      · simp only [if_neg hf]
        have hf' : ¬ ∃ x ∈ events (Watch.stream es e), Fatal A x := hf
        constructor
        · intro h
          refine ⟨_, rfl, Or.inl ?_⟩
          cases e <;> simp [Over] at h ⊢
        · rintro ⟨w, hw, ho⟩
          cases hw
          rcases ho with ho | ho
          · cases e <;> simp [Over] at ho ⊢
          · exact absurd ho hf'

theorem listAndWatch_ended {A : Access O G} {l : String} {s : Script O} :
    (listAndWatch A l s).status = .ended ↔ Finished A s := by
  cases s with
  | listFails => simp [listAndWatch, Finished]
  | replaceFails items v => simp [listAndWatch, Finished]
  | listed items v ws => exact watchAll_ended v v

theorem run_cons_ended {A : Access O G} {l : String} {s : Script O}
    (h : (listAndWatch A l s).status = .ended) (ss : List (Script O)) :
    (run A l (s :: ss)).calls = (listAndWatch A l s).calls ++
      (run A (listAndWatch A l s).last ss).calls ∧
    (run A l (s :: ss)).last = (run A (listAndWatch A l s).last ss).last ∧
    (run A l (s :: ss)).status = (run A (listAndWatch A l s).last ss).status := by
  rw [run]
  simp only [h]
  refine ⟨?_, ?_, ?_⟩ <;> first | rfl | trivial

theorem run_cons_other {A : Access O G} {l : String} {s : Script O}
    (h : (listAndWatch A l s).status ≠ .ended) (ss : List (Script O)) :
    run A l (s :: ss) = listAndWatch A l s := by
  rw [run]
  cases hs : (listAndWatch A l s).status <;> simp only [hs]
  exact absurd hs h

end Aiok8s.Reflector
