import Verif.Proof.DelayHeap
import Mathlib.Order.MinMax
/-!
# Property C12: the delay heap (`aiok8s/workqueue/delaying_queue.py`, `_WaitForPriorityQueue`)
-/
set_option linter.unusedSimpArgs false
namespace Aiok8s.DelayHeap
variable {P α : Type} [LinearOrder P] [DecidableEq α]

/-- **C12.** Every history of the lazy-deletion heap is a history of the table of earliest
deadlines. -/
theorem C12_refines_table (os : List (Op P α)) :
    trace (init : Heap P α) os = Table.trace [] os :=
  sim_trace sim_init os

private theorem deadline_append_self {t : Table P α} {x : α} {p : P} (h : t.deadline x = none) :
    Table.deadline (t ++ [(x, p)]) x = some p := by
  simp only [Table.deadline, List.find?_append, Option.map_eq_none_iff] at h ⊢
  simp [h]

private theorem deadline_append_other {t : Table P α} {x y : α} {p : P} (h : x ≠ y) :
    Table.deadline (t ++ [(x, p)]) y = t.deadline y := by
  simp [Table.deadline, List.find?_append, h]

private theorem deadline_drop_self (t : Table P α) (x : α) : (t.drop x).deadline x = none := by
  simp [Table.deadline, Table.drop]

private theorem deadline_drop_other {t : Table P α} {x y : α} (h : x ≠ y) :
    (t.drop x).deadline y = t.deadline y := by
  simp only [Table.deadline, Table.drop, List.find?_filter]
  congr 2
  funext e
  by_cases he : e.1 = y
  · simp [he, Ne.symm h]
  · simp [he]

private theorem best_mem {t : Table P α} {e : α × P} (h : t.best = some e) :
    e ∈ t ∧ ∀ f ∈ t, e.2 ≤ f.2 := by
  induction t generalizing e with
  | nil => simp [Table.best] at h
  | cons g t ih =>
    simp only [Table.best] at h
    cases hb : Table.best t with
    | none =>
      rw [hb] at h
      have := best_none hb
      subst this
      simp only [Option.some.injEq] at h
      subst h; simp
    | some f =>
      rw [hb] at h
      obtain ⟨h1, h2⟩ := ih hb
      simp only at h
      split at h
      · rename_i hlt
        simp only [Option.some.injEq] at h
        subst h
        refine ⟨by simp [h1], ?_⟩
        intro a ha
        rcases List.mem_cons.1 ha with rfl | ha
        · exact le_of_lt hlt
        · exact h2 a ha
      · rename_i hlt
        simp only [Option.some.injEq] at h
        subst h
        refine ⟨by simp, ?_⟩
        intro a ha
        rcases List.mem_cons.1 ha with rfl | ha
        · exact le_refl _
        · exact le_trans (not_lt.1 hlt) (h2 a ha)

private theorem nodup_step {t : Table P α} (h : (t.map Prod.fst).Nodup) (o : Op P α) :
    ((t.step o).1.map Prod.fst).Nodup := by
  have hdrop : ∀ x, ((t.drop x).map Prod.fst).Nodup := fun x =>
    h.sublist (List.Sublist.map _ List.filter_sublist)
  cases o with
  | len => exact h
  | peek => simp only [Table.step]; split <;> exact h
  | pop =>
    simp only [Table.step]; split
    · exact h
    · exact hdrop _
  | insert x p =>
    simp only [Table.step]
    split
    · rename_i hd
      rw [List.map_append, List.nodup_append]
      refine ⟨h, by simp, ?_⟩
      intro a ha b hb hab
      simp only [List.map_cons, List.map_nil, List.mem_singleton] at hb
      subst hb hab
      obtain ⟨e, he, rfl⟩ := List.mem_map.1 ha
      simp only [Table.deadline, Option.map_eq_none_iff, List.find?_eq_none] at hd
      exact hd e he (by simp)
    · split
      · exact h
      · rw [List.map_append, List.nodup_append]
        refine ⟨hdrop x, by simp, ?_⟩
        intro a ha b hb hab
        simp only [List.map_cons, List.map_nil, List.mem_singleton] at hb
        subst hb hab
        obtain ⟨e, he, he'⟩ := List.mem_map.1 ha
        simp [Table.drop, he'] at he

private theorem deadline_mem {t : Table P α} (hn : (t.map Prod.fst).Nodup) {e : α × P}
    (h : e ∈ t) : t.deadline e.1 = some e.2 := by
  induction t with
  | nil => simp at h
  | cons g t ih =>
    simp only [List.map_cons, List.nodup_cons] at hn
    simp only [Table.deadline, List.find?_cons] at ih ⊢
    rcases List.mem_cons.1 h with rfl | h
    · simp
    · have : g.1 ≠ e.1 := by
        intro hge
        exact hn.1 (hge ▸ List.mem_map.2 ⟨e, h, rfl⟩)
      simp only [this, decide_false]
      exact ih hn.2 h

private theorem deadline_earliest (os : List (Op P α)) (x : α) : ∀ t : Table P α,
    (os.foldl (fun t o => (t.step o).1) t).deadline x
      = earliestAsked x (t.trace os) (t.deadline x) := by
  induction os with
  | nil => intro t; rfl
  | cons o os ih =>
    intro t
    simp only [List.foldl_cons, Table.trace]
    rw [ih]
    cases o with
    | len => rfl
    | peek =>
      simp only [Table.step]
      split <;> rfl
    | pop =>
      simp only [Table.step]
      cases hb : Table.best t with
      | none => rfl
      | some e =>
        simp only [earliestAsked]
        congr 1
        by_cases h : e.1 = x
        · subst h; simp [deadline_drop_self]
        · simp [h, deadline_drop_other h]
    | insert y p =>
      simp only [earliestAsked]
      congr 1
      simp only [Table.step]
      by_cases hy : y = x
      · subst hy
        cases hd : t.deadline y with
        | none => simp [deadline_append_self hd]
        | some q =>
          by_cases hqp : q ≤ p
          · simp [hqp, hd]
          · simp [hqp, deadline_append_self (deadline_drop_self t y), min_eq_right (le_of_lt (not_le.1 hqp))]
      · simp only [hy, if_false]
        cases hd : t.deadline y with
        | none => simp [deadline_append_other hy]
        | some q =>
          by_cases hqp : q ≤ p
          · simp [hqp]
          · simp [hqp, deadline_append_other hy, deadline_drop_other hy]

/-- **C12.** What `pop` hands out after any history: an item whose earliest deadline asked for
(since it was last handed out) is at most that of every other item that is waiting. -/
theorem C12_pop_earliest (os : List (Op P α)) (h : List (Op P α × Out P α)) (x : α)
    (hx : trace (init : Heap P α) (os ++ [.pop]) = h ++ [(.pop, .item x)]) :
    ∃ p, earliestAsked x h none = some p ∧
      ∀ y q, earliestAsked y h none = some q → p ≤ q := by
  rw [C12_refines_table] at hx
  have happ : ∀ (t : Table P α) (as bs : List (Op P α)), t.trace (as ++ bs)
      = t.trace as ++ Table.trace (as.foldl (fun t o => (t.step o).1) t) bs := by
    intro t as
    induction as generalizing t with
    | nil => intro bs; rfl
    | cons a as ih => intro bs; simp [Table.trace, ih]
  rw [happ] at hx
  obtain ⟨h1, h2⟩ := List.append_inj' hx (by simp [Table.trace])
  subst h1
  generalize ht : os.foldl (fun (t : Table P α) o => (t.step o).1) ([] : Table P α) = t at h2
  have hn : (t.map Prod.fst).Nodup := by
    subst ht
    have : ∀ (os : List (Op P α)) (t : Table P α), (t.map Prod.fst).Nodup →
        ((os.foldl (fun t o => (t.step o).1) t).map Prod.fst).Nodup := by
      intro os
      induction os with
      | nil => intro t h; exact h
      | cons o os ih => intro t h; exact ih _ (nodup_step h o)
    exact this os [] (by simp)
  have hde : ∀ y, Table.deadline t y = earliestAsked y (Table.trace [] os) none := by
    intro y
    rw [← ht]
    exact deadline_earliest os y []
  cases hb : Table.best t with
  | none => simp [Table.trace, Table.step, hb] at h2
  | some e =>
    simp only [Table.trace, Table.step, hb, List.cons.injEq, Prod.mk.injEq, Out.item.injEq,
      true_and, and_true] at h2
    subst h2
    obtain ⟨h3, h4⟩ := best_mem hb
    refine ⟨e.2, ?_, ?_⟩
    · rw [← hde]; exact deadline_mem hn h3
    · intro y q hy
      rw [← hde] at hy
      simp only [Table.deadline, Option.map_eq_some_iff] at hy
      obtain ⟨f, hf, rfl⟩ := hy
      exact h4 f (List.mem_of_find?_eq_some hf)

/-- non-vacuity: item 1 is asked for at 9, then earlier at 3, then later at 7 -/
example : trace (init : Heap Nat Nat)
    [.insert 1 9, .insert 2 5, .insert 3 3, .insert 1 3, .insert 1 7, .len, .peek, .pop, .pop,
     .pop, .pop]
    = [(.insert 1 9, .ok), (.insert 2 5, .ok), (.insert 3 3, .ok), (.insert 1 3, .ok),
       (.insert 1 7, .ok), (.len, .num 3), (.peek, .prio 3), (.pop, .item 3), (.pop, .item 1),
       (.pop, .item 2), (.pop, .keyError)] := by decide +kernel

end Aiok8s.DelayHeap
