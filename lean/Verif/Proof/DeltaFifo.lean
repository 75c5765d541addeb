import Verif.Spec.DeltaFifo
import Mathlib.Data.List.Nodup
import Mathlib.Data.List.Induction
/-!
# Lemmas for `DeltaFIFO` (C23-C28)
-/
set_option linter.unusedSimpArgs false
set_option linter.unusedSectionVars false
namespace Aiok8s.DeltaFifo
open Spec
variable {K O : Type} [DecidableEq K]

/-! ## Facts about logs -/

theorem pendingOf_append (k : K) (log l : List (Entry K O)) : pendingOf k (log ++ l) =
    l.foldl (pendStep k) (pendingOf k log) := by
  simp only [pendingOf, List.foldl_append]

theorem pendingOf_change (k j : K) (d : Delta K O) (log : List (Entry K O)) :
    pendingOf k (log ++ [.change j d]) = if j = k then merge (pendingOf k log) d
      else pendingOf k log := by
  simp [pendingOf_append, pendStep]

theorem pendingOf_popped (k j : K) (log : List (Entry K O)) :
    pendingOf k (log ++ [.popped j]) = if j = k then [] else pendingOf k log := by
  simp [pendingOf_append, pendStep]

theorem pendingOf_putBack (k j : K) (b : Deltas K O) (log : List (Entry K O)) :
    pendingOf k (log ++ [.putBack j b]) = if j = k ∧ pendingOf k log = [] then b
      else pendingOf k log := by
  simp [pendingOf_append, pendStep]

theorem orderOf_change (j : K) (d : Delta K O) (log : List (Entry K O)) :
    orderOf (log ++ [.change j d]) = if j ∈ orderOf log then orderOf log
      else orderOf log ++ [j] := by
  rw [orderOf, List.foldl_append]; rfl

theorem orderOf_popped (j : K) (log : List (Entry K O)) :
    orderOf (log ++ [.popped j]) = (orderOf log).filter (· ≠ j) := by
  rw [orderOf, List.foldl_append]; rfl

theorem orderOf_putBack (j : K) (b : Deltas K O) (log : List (Entry K O)) :
    orderOf (log ++ [.putBack j b]) = if j ∈ orderOf log then orderOf log
      else orderOf log ++ [j] := by
  rw [orderOf, List.foldl_append]; rfl

theorem merge_ne_nil (ds : Deltas K O) (d : Delta K O) : merge ds d ≠ [] := by
  unfold merge
  cases h : ds.getLast? with
  | none => simp
  | some l =>
    simp only
    split
    · intro h0; simp [h0] at h
    · split <;> simp

/-- Merging keeps the newest change one of the two. -/
theorem merge_getLast (ds : Deltas K O) (d : Delta K O) :
    (merge ds d).getLast? = some d ∨ (merge ds d).getLast? = ds.getLast? := by
  unfold merge
  cases h : ds.getLast? with
  | none => simp
  | some l =>
    simp only
    split
    · right; exact h
    · split
      · cases hl : l.object <;> simp
      · simp

theorem dedup_append (ds : Deltas K O) (d : Delta K O)
    (h : ¬ (d.type = .sync ∧ ∃ l, ds.getLast? = some l ∧ l.type = .deleted)) :
    dedupDeltas (ds ++ [d]) = merge ds d := by
  rcases List.eq_nil_or_concat ds with rfl | ⟨ds, l, rfl⟩
  · simp [dedupDeltas, merge]
  · simp only [List.concat_eq_append, List.getLast?_append, List.getLast?_singleton,
      Option.some_or, Option.some.injEq, exists_eq_left'] at h
    simp only [dedupDeltas, merge, List.concat_eq_append, List.reverse_append, List.reverse_cons,
      List.reverse_nil, List.nil_append, List.singleton_append, List.cons_append,
      List.getLast?_append, List.getLast?_singleton, Option.some_or]
    by_cases h1 : l.type = .deleted
    · by_cases h2 : d.type = .sync
      · exact absurd ⟨h2, h1⟩ h
      · by_cases h3 : d.type = .deleted
        · cases ho : l.object <;> simp [isDup, h1, h3, ho, isMarker]
        · simp [isDup, h1, h2, h3]
    · simp [isDup, h1]

/-- The keys due are ordered by age, oldest first, and are those with an age. -/
theorem order_age (log : List (Entry K O)) :
    (orderOf log).Pairwise (fun a b => age b log < age a log) ∧
    ∀ k, k ∈ orderOf log ↔ 0 < age k log := by
  induction log using List.reverseRecOn with
  | nil => simp [orderOf, age]
  | append_singleton log e ih =>
    obtain ⟨h1, h2⟩ := ih
    have put : ∀ j : K, (∀ k, age k (log ++ [e]) = if j = k ∨ 0 < age k log then age k log + 1
        else 0) → orderOf (log ++ [e]) = (if j ∈ orderOf log then orderOf log
        else orderOf log ++ [j]) →
        (orderOf (log ++ [e])).Pairwise (fun a b => age b (log ++ [e]) < age a (log ++ [e])) ∧
        ∀ k, k ∈ orderOf (log ++ [e]) ↔ 0 < age k (log ++ [e]) := by
      intro j ha ho
      have hp : (orderOf log).Pairwise (fun a b => age b (log ++ [e]) < age a (log ++ [e])) := by
        refine List.Pairwise.imp_of_mem ?_ h1
        intro a b hma hmb hab
        rw [ha, ha]
        simp only [(h2 a).1 hma, (h2 b).1 hmb, or_true, if_true]
        omega
      rw [ho]
      split
      · rename_i hj
        refine ⟨hp, ?_⟩
        intro k
        rw [h2, ha]
        have hj := (h2 j).1 hj
        by_cases hjk : j = k
        · subst hjk; simp [hj]
        · by_cases hk : 0 < age k log <;> simp [hk, hjk]
      · rename_i hj
        refine ⟨?_, ?_⟩
        · rw [List.pairwise_append]
          refine ⟨hp, by simp, ?_⟩
          intro a hma b hmb
          simp only [List.mem_singleton] at hmb
          subst hmb
          rw [ha, ha]
          have h3 := (h2 a).1 hma
          have h4 : age b log = 0 := by
            have := mt (h2 b).2 hj; omega
          simp only [h3, or_true, if_true, h4, true_or]
          omega
        · intro k
          rw [List.mem_append, h2, ha]
          by_cases hjk : j = k
          · subst hjk; simp
          · by_cases hk : 0 < age k log <;> simp [hk, hjk, Ne.symm hjk]
    cases e with
    | change j d =>
      apply put j
      · intro k
        rw [age, List.foldl_append]; rfl
      · exact orderOf_change j d log
    | putBack j b =>
      apply put j
      · intro k
        rw [age, List.foldl_append]; rfl
      · exact orderOf_putBack j b log
    | popped j =>
      have ha : ∀ k, age k (log ++ [.popped j]) = if j = k then 0 else if 0 < age k log
          then age k log + 1 else 0 := by
        intro k
        rw [age, List.foldl_append]; rfl
      rw [orderOf_popped]
      refine ⟨?_, ?_⟩
      · refine List.Pairwise.imp_of_mem ?_ (h1.filter _)
        intro a b hma hmb hab
        rw [ha, ha]
        simp only [List.mem_filter, decide_eq_true_eq] at hma hmb
        simp only [Ne.symm hma.2, Ne.symm hmb.2, if_false, (h2 a).1 hma.1, (h2 b).1 hmb.1, if_true]
        omega
      · intro k
        simp only [List.mem_filter, decide_eq_true_eq]
        rw [h2, ha]
        by_cases hjk : j = k
        · subst hjk; simp
        · by_cases hk : 0 < age k log <;> simp [hk, hjk, Ne.symm hjk]

/-! ## Simulation -/

/-- The state shows what the log says. -/
structure Sim (key : O → Option K) (s : State K O) (log : List (Entry K O)) : Prop where
  wf : s.items.WF
  queue : s.queue = s.items.keys
  order : orderOf log = s.queue
  get : ∀ k, s.items.get? k = if pendingOf k log = [] then none else some (pendingOf k log)
  newest : ∀ k d, (pendingOf k log).getLast? = some d → keyOf key d.object = some k

theorem sim_init (key : O → Option K) : Sim key (init : State K O) [] :=
  ⟨PyDict.WF_nil, rfl, rfl, fun _ => rfl, by simp [pendingOf]⟩

/-- Populated flag, counter and closed flag do not matter. -/
theorem Sim.congr {key : O → Option K} {s t : State K O} {log : List (Entry K O)}
    (h : Sim key s log) (h1 : t.items = s.items) (h2 : t.queue = s.queue) : Sim key t log :=
  ⟨h1 ▸ h.wf, by rw [h1, h2]; exact h.queue, by rw [h2]; exact h.order,
    by rw [h1]; exact h.get, h.newest⟩

theorem Sim.mem {key : O → Option K} {s : State K O} {log : List (Entry K O)}
    (h : Sim key s log) (k : K) : k ∈ s.items.keys ↔ pendingOf k log ≠ [] := by
  rw [← PyDict.get?_isSome, h.get]
  split <;> simp_all

theorem Sim.getD {key : O → Option K} {s : State K O} {log : List (Entry K O)}
    (h : Sim key s log) (k : K) : (s.items.get? k).getD [] = pendingOf k log := by
  rw [h.get]
  split <;> simp_all

theorem Sim.has {key : O → Option K} {s : State K O} {log : List (Entry K O)}
    (h : Sim key s log) (k : K) : s.items.has k = !decide (pendingOf k log = []) := by
  rw [PyDict.has, h.get]
  split <;> simp_all

/-- Writing a nonempty list under a key is an entry in the log that makes it pending. -/
theorem sim_set {key : O → Option K} {s : State K O} {log : List (Entry K O)}
    (h : Sim key s log) (k : K) (ds : Deltas K O) (e : Entry K O)
    (ho : orderOf (log ++ [e]) = if k ∈ orderOf log then orderOf log else orderOf log ++ [k])
    (hp : ∀ j, pendingOf j (log ++ [e]) = if k = j then ds else pendingOf j log)
    (hds : ds ≠ []) (hn : ∀ d, ds.getLast? = some d → keyOf key d.object = some k) :
    Sim key ({ s with
          queue := if s.items.has k then s.queue else s.queue ++ [k]
          items := s.items.set k ds } : State K O) (log ++ [e]) := by
  have hk : (if s.items.has k then s.queue else s.queue ++ [k]) = (s.items.set k ds).keys := by
    rw [PyDict.keys_set, h.queue]
    by_cases hm : k ∈ s.items.keys
    · rw [if_pos (PyDict.has_iff.2 hm), if_pos hm]
    · rw [if_neg (fun h2 => hm (PyDict.has_iff.1 h2)), if_neg hm]
  refine ⟨PyDict.WF_set h.wf _ _, hk, ?_, ?_, ?_⟩
  · rw [ho, h.order]
    simp only
    rw [h.queue]
    by_cases hm : k ∈ s.items.keys
    · rw [if_pos (PyDict.has_iff.2 hm), if_pos hm]
    · rw [if_neg (fun h2 => hm (PyDict.has_iff.1 h2)), if_neg hm]
  · intro j
    simp only
    rw [PyDict.get?_set, hp]
    by_cases hj : k = j
    · simp [hj, hds]
    · simp only [hj, if_false, h.get]
  · intro j d hd
    rw [hp] at hd
    by_cases hj : k = j
    · subst hj; simp only [if_true] at hd; exact hn d hd
    · simp only [hj, if_false] at hd; exact h.newest j d hd

theorem sim_queueAction {key : O → Option K} {s : State K O} {log : List (Entry K O)}
    (h : Sim key s log) (t : DType) (x : Obj K O) (k : K) (hk : keyOf key x = some k) :
    (queueAction key s t x).2 = true ∧
    Sim key (queueAction key s t x).1 (log ++ [.change k ⟨t, x⟩]) := by
  have hw : willBeDeleted s k = true ↔
      ∃ l, (pendingOf k log).getLast? = some l ∧ l.type = .deleted := by
    simp only [willBeDeleted, h.get]
    by_cases hp : pendingOf k log = []
    · simp [hp]
    · simp only [hp, if_false]
      cases hl : (pendingOf k log).getLast? with
      | none => simp at hl; exact absurd hl hp
      | some l => simp
  simp only [queueAction, hk]
  by_cases hc : t = .sync ∧ willBeDeleted s k = true
  · simp only [if_pos hc, true_and]
    obtain ⟨ht, hd⟩ := hc
    obtain ⟨l, hl, hl2⟩ := hw.1 hd
    have hm : merge (pendingOf k log) ⟨t, x⟩ = pendingOf k log := by
      simp [merge, hl, hl2, ht]
    have hp : ∀ j, pendingOf j (log ++ [.change k ⟨t, x⟩]) = pendingOf j log := by
      intro j
      rw [pendingOf_change]
      split
      · rename_i e; subst e; exact hm
      · rfl
    have hin : k ∈ orderOf log := by
      rw [h.order, h.queue, h.mem]
      intro h0; simp [h0] at hl
    refine ⟨h.wf, h.queue, ?_, ?_, ?_⟩
    · rw [orderOf_change]; simp only [hin, if_true]; exact h.order
    · intro j; rw [hp]; exact h.get j
    · intro j d hd; rw [hp] at hd; exact h.newest j d hd
  · simp only [if_neg hc]
    have hd : dedupDeltas ((s.items.get? k).getD [] ++ [⟨t, x⟩]) = merge (pendingOf k log) ⟨t, x⟩ := by
      rw [h.getD]
      apply dedup_append
      simp only
      rintro ⟨h1, h2⟩
      exact hc ⟨h1, hw.2 h2⟩
    rw [hd]
    simp only [ne_eq, merge_ne_nil, not_false_eq_true, if_true, true_and]
    refine sim_set h k _ _ (orderOf_change k _ log) ?_ (merge_ne_nil _ _) ?_
    · intro j
      rw [pendingOf_change]
      by_cases hj : k = j
      · subst hj; simp
      · simp [hj]
    · intro d hd
      rcases merge_getLast (pendingOf k log) ⟨t, x⟩ with h1 | h1
      · rw [h1] at hd; cases hd; exact hk
      · rw [h1] at hd; exact h.newest k d hd

/-- `queueAction` touches nothing but items and queue. -/
theorem queueAction_rest (key : O → Option K) (s : State K O) (t : DType) (x : Obj K O) :
    (queueAction key s t x).1.populated = s.populated ∧
    (queueAction key s t x).1.count = s.count ∧
    (queueAction key s t x).1.closed = s.closed := by
  simp only [queueAction]
  split
  · simp
  · split
    · simp
    · split <;> simp

theorem queueAction_none (key : O → Option K) (s : State K O) (t : DType) (x : Obj K O)
    (h : keyOf key x = none) : queueAction key s t x = (s, false) := by
  simp [queueAction, h]

theorem keysOf_cons (key : O → Option K) (x : Obj K O) (xs : List (Obj K O)) :
    keysOf key (x :: xs) = match keyOf key x with
      | none => none
      | some k => (keysOf key xs).map (k :: ·) := by
  simp only [keysOf, List.mapM_cons]
  cases keyOf key x with
  | none => rfl
  | some k => cases List.mapM (keyOf key) xs <;> rfl

theorem sim_syncAll {key : O → Option K} (xs : List (Obj K O)) : ∀ {s : State K O}
    {log : List (Entry K O)}, Sim key s log →
    Sim key (syncAll key s xs).1 (log ++ syncs key xs) ∧
    (syncAll key s xs).2 = keysOf key xs ∧
    (syncAll key s xs).1.populated = s.populated ∧
    (syncAll key s xs).1.count = s.count ∧
    (syncAll key s xs).1.closed = s.closed := by
  induction xs with
  | nil => intro s log h; simp [syncAll, syncs, keysOf, h]
  | cons x xs ih =>
    intro s log h
    rw [keysOf_cons]
    simp only [syncAll, syncs]
    cases hk : keyOf key x with
    | none => simp [h]
    | some k =>
      obtain ⟨-, h1⟩ := sim_queueAction h .sync x k hk
      obtain ⟨h2, h3, h4, h5, h6⟩ := ih h1
      obtain ⟨r1, r2, r3⟩ := queueAction_rest key s .sync x
      simp only
      rw [← h3]
      cases hs : syncAll key (queueAction key s .sync x).1 xs with
      | mk s' ks =>
        rw [hs] at h2 h4 h5 h6
        simp only at h2 h4 h5 h6
        rw [List.append_assoc] at h2
        cases ks with
        | none => exact ⟨h2, rfl, h4.trans r1, h5.trans r2, h6.trans r3⟩
        | some ks => exact ⟨h2, rfl, h4.trans r1, h5.trans r2, h6.trans r3⟩

theorem sim_deleteKnown {key : O → Option K} (kn : Known K O) (keys ks : List K) :
    ∀ {s : State K O} {log : List (Entry K O)}, Sim key s log →
    Sim key (deleteKnown key kn keys s ks).1 (log ++ (ks.filter (· ∉ keys)).map fun k =>
      .change k ⟨.deleted, marker k (knownState kn k)⟩) ∧
    (deleteKnown key kn keys s ks).2 = (ks.filter (· ∉ keys)).length ∧
    (deleteKnown key kn keys s ks).1.populated = s.populated ∧
    (deleteKnown key kn keys s ks).1.count = s.count ∧
    (deleteKnown key kn keys s ks).1.closed = s.closed := by
  induction ks with
  | nil => intro s log h; simp [deleteKnown, h]
  | cons k ks ih =>
    intro s log h
    simp only [deleteKnown]
    by_cases hk : k ∈ keys
    · simp only [hk, if_true, List.filter_cons, not_true_eq_false, decide_false]
      exact ih h
    · simp only [hk, if_false, List.filter_cons, not_false_eq_true, decide_true, if_true,
        List.map_cons, List.length_cons]
      have hm : knownMarker kn k = marker k (knownState kn k) := by
        simp only [knownState, knownMarker]
        rcases kn.get k with _ | (_ | o) <;> rfl
      simp only [hm]
      have hkk : keyOf key (marker k (knownState kn k)) = some k := by
        cases knownState kn k <;> rfl
      obtain ⟨-, h1⟩ := sim_queueAction h .deleted _ k hkk
      obtain ⟨r1, r2, r3⟩ := queueAction_rest key s .deleted (marker k (knownState kn k))
      obtain ⟨a, b, c, d, e⟩ := ih h1
      rw [List.append_assoc] at a
      exact ⟨a, by rw [b], c.trans r1, d.trans r2, e.trans r3⟩

theorem sim_deletePending {key : O → Option K} (keys : List K) (log0 : List (Entry K O))
    (rest : List (K × Deltas K O)) :
    ∀ {s : State K O} {log : List (Entry K O)}, Sim key s log →
    (∀ p ∈ rest, p.1 ∉ keys → p.2 ≠ [] ∧ pendingOf p.1 log0 = p.2) →
    Sim key (deletePending key keys s rest).1
      (log ++ ((rest.map Prod.fst).filter (· ∉ keys)).map fun k =>
      .change k ⟨.deleted, marker k (pendingState k log0)⟩) ∧
    (deletePending key keys s rest).2 = ((rest.map Prod.fst).filter (· ∉ keys)).length ∧
    (deletePending key keys s rest).1.populated = s.populated ∧
    (deletePending key keys s rest).1.count = s.count ∧
    (deletePending key keys s rest).1.closed = s.closed := by
  induction rest with
  | nil => intro s log h _; simp [deletePending, h]
  | cons p rest ih =>
    intro s log h hp
    obtain ⟨k, old⟩ := p
    simp only [deletePending, List.map_cons]
    by_cases hk : k ∈ keys
    · simp only [hk, if_true, List.filter_cons, not_true_eq_false, decide_false]
      exact ih h (fun p hp2 => hp p (by simp [hp2]))
    · simp only [hk, if_false, List.filter_cons, not_false_eq_true, decide_true, if_true,
        List.map_cons, List.length_cons]
      obtain ⟨ho, hpe⟩ := hp (k, old) (by simp) hk
      simp only at ho hpe
      have hm : pendingMarker k old = marker k (pendingState k log0) := by
        simp only [pendingState, hpe, pendingMarker]
        cases old.getLast? <;> rfl
      simp only [hm]
      have hkk : keyOf key (marker k (pendingState k log0)) = some k := by
        cases pendingState k log0 <;> rfl
      obtain ⟨-, h1⟩ := sim_queueAction h .deleted _ k hkk
      obtain ⟨r1, r2, r3⟩ := queueAction_rest key s .deleted (marker k (pendingState k log0))
      obtain ⟨a, b, c, d, e⟩ := ih h1 (fun p hp2 => hp p (by simp [hp2]))
      rw [List.append_assoc] at a
      exact ⟨a, by rw [b], c.trans r1, d.trans r2, e.trans r3⟩

theorem pendingOf_syncs_other (key : O → Option K) (k : K) (xs : List (Obj K O)) :
    ∀ (log : List (Entry K O)), (∀ x ∈ xs, keyOf key x ≠ some k) →
    pendingOf k (log ++ syncs key xs) = pendingOf k log := by
  induction xs with
  | nil => intro log _; simp [syncs]
  | cons x xs ih =>
    intro log h
    simp only [syncs]
    cases hk : keyOf key x with
    | none => simp
    | some j =>
      have hj : j ≠ k := fun e => h x (by simp) (by rw [hk, e])
      simp only
      rw [List.append_cons, ih _ (fun y hy => h y (by simp [hy])), pendingOf_change]
      simp [hj]

theorem keysOf_mem (key : O → Option K) (xs : List (Obj K O)) : ∀ keys,
    keysOf key xs = some keys → ∀ k, k ∈ keys ↔ ∃ x ∈ xs, keyOf key x = some k := by
  induction xs with
  | nil => intro keys h; simp [keysOf] at h; subst h; simp
  | cons x xs ih =>
    intro keys h k
    rw [keysOf_cons] at h
    cases hx : keyOf key x with
    | none => simp [hx] at h
    | some j =>
      simp only [hx, Option.map_eq_some_iff] at h
      obtain ⟨ks, h1, rfl⟩ := h
      simp [ih ks h1 k, hx, eq_comm]

theorem orderOf_syncs (key : O → Option K) (keys : List K) (xs : List (Obj K O)) :
    ∀ (log : List (Entry K O)), (∀ x ∈ xs, ∀ k, keyOf key x = some k → k ∈ keys) →
    (orderOf (log ++ syncs key xs)).filter (· ∉ keys) = (orderOf log).filter (· ∉ keys) := by
  induction xs with
  | nil => intro log _; simp [syncs]
  | cons x xs ih =>
    intro log h
    simp only [syncs]
    cases hk : keyOf key x with
    | none => simp
    | some j =>
      have hj : j ∈ keys := h x (by simp) j hk
      simp only
      rw [List.append_cons, ih _ (fun y hy => h y (by simp [hy])), orderOf_change]
      split
      · rfl
      · simp [List.filter_append, hj]

theorem sim_replace {key : O → Option K} {s : State K O} {log : List (Entry K O)}
    (h : Sim key s log) (kn : Option (Known K O)) (xs : List (Obj K O)) (out : Out K O) :
    Sim key (replace key s kn xs).1 (log ++ entries key log (.replace kn xs, out)) ∧
    (replace key s kn xs).1.closed = s.closed ∧
    (keysOf key xs = none → (replace key s kn xs).2 = .keyFunc ∧
      (replace key s kn xs).1.populated = s.populated ∧ (replace key s kn xs).1.count = s.count) ∧
    (∀ keys, keysOf key xs = some keys → (replace key s kn xs).2 = .ok ∧
      (replace key s kn xs).1.populated = true ∧
      (replace key s kn xs).1.count = if s.populated then s.count else
        xs.length + (vanished kn log keys).length) := by
  obtain ⟨h1, h2, h3, h4, h5⟩ := sim_syncAll xs h
  simp only [replace, entries]
  cases hs : syncAll key s xs with
  | mk s' r =>
    rw [hs] at h1 h2 h3 h4 h5
    simp only at h1 h2 h3 h4 h5
    rw [← h2]
    cases r with
    | none =>
      simp only [List.append_nil]
      exact ⟨h1, h5, fun _ => ⟨trivial, h3, h4⟩, fun keys hk => by simp at hk⟩
    | some keys =>
      have hkm := keysOf_mem key xs keys h2.symm
      have hv : ∃ r : State K O × Nat, deleteVanished key kn keys s' = r ∧
          Sim key r.1 (log ++ (syncs key xs ++ vanished kn log keys)) ∧
          r.2 = (vanished kn log keys).length ∧ r.1.populated = s'.populated ∧
          r.1.count = s'.count ∧ r.1.closed = s'.closed := by
        refine ⟨_, rfl, ?_⟩
        cases kn with
        | some kn =>
          obtain ⟨a, b, c, d, e⟩ := sim_deleteKnown kn keys kn.keys h1
          rw [List.append_assoc] at a
          exact ⟨a, b.trans (by simp [vanished]), c, d, e⟩
        | none =>
          obtain ⟨a, b, c, d, e⟩ := sim_deletePending keys log s'.items h1 (by
            intro p hp hpk
            have hg := PyDict.mem_get? h1.wf (k := p.1) (v := p.2) hp
            rw [h1.get] at hg
            have hsame : pendingOf p.1 (log ++ syncs key xs) = pendingOf p.1 log :=
              pendingOf_syncs_other key p.1 xs log (fun x hx hxk =>
                hpk ((hkm p.1).2 ⟨x, hx, hxk⟩))
            rw [hsame] at hg
            split at hg
            · simp at hg
            · rename_i hne
              simp only [Option.some.injEq] at hg
              exact ⟨hg ▸ hne, hg⟩)
          have hf : (s'.items.map Prod.fst).filter (· ∉ keys) = (orderOf log).filter (· ∉ keys) := by
            rw [← orderOf_syncs key keys xs log (fun x hx k hk => (hkm k).2 ⟨x, hx, hk⟩),
              h1.order, h1.queue]
            rfl
          rw [List.append_assoc, hf] at a
          rw [hf] at b
          exact ⟨a, b.trans (by simp [vanished]), c, d, e⟩
      obtain ⟨r, hr, a, b, c, d, e⟩ := hv
      simp only [hr]
      refine ⟨a.congr rfl rfl, e.trans h5, by simp, ?_⟩
      intro keys' hk'
      cases hk'
      refine ⟨by trivial, by trivial, ?_⟩
      rw [c, h3, d, h4, b]

theorem sim_resyncKeys {key : O → Option K} (kn : Known K O) (log0 : List (Entry K O))
    (ks : List K) : ∀ {s : State K O} {log : List (Entry K O)} (done : List K), Sim key s log →
    (∀ id, pendingOf id log ≠ [] ↔ pendingOf id log0 ≠ [] ∨ id ∈ done) →
    Sim key (resyncKeys key kn s ks).1 (log ++ resyncs key kn log0 done ks) ∧
    (resyncKeys key kn s ks).1.populated = s.populated ∧
    (resyncKeys key kn s ks).1.count = s.count ∧
    (resyncKeys key kn s ks).1.closed = s.closed := by
  induction ks with
  | nil => intro s log done h _; simp [resyncKeys, resyncs, h]
  | cons k ks ih =>
    intro s log done h hd
    simp only [resyncKeys, resyncs]
    rcases hg : kn.get k with _ | (_ | o)
    · exact ih done h hd
    · exact ih done h hd
    · simp only
      cases hk : keyOf key o with
      | none => simp [h]
      | some id =>
        simp only [h.getD]
        by_cases hp : pendingOf id log = []
        · have hp0 : ¬ (pendingOf id log0 ≠ [] ∨ id ∈ done) := by
            rw [← hd]; simp [hp]
          simp only [hp, ne_eq, not_true_eq_false, if_false]
          rw [if_neg hp0]
          obtain ⟨-, h1⟩ := sim_queueAction h .sync o id hk
          obtain ⟨r1, r2, r3⟩ := queueAction_rest key s .sync o
          obtain ⟨a, c, d, e⟩ := ih (id :: done) h1 (by
            intro j
            rw [pendingOf_change]
            by_cases hj : id = j
            · subst hj
              simp [merge_ne_nil]
            · simp [hj, hd j, Ne.symm hj])
          rw [List.append_assoc] at a
          exact ⟨a, c.trans r1, d.trans r2, e.trans r3⟩
        · simp only [hp, ne_eq, not_false_eq_true, if_true]
          rw [if_pos ((hd id).1 hp)]
          exact ih done h hd

/-! ## Pop -/

theorem pop_cases {key : O → Option K} {s : State K O} {log : List (Entry K O)}
    (h : Sim key s log) (r : Outcome) :
    (s.queue = [] ∧ popLoop s r s.queue 0 = (s, if s.closed then .closedError else .blocked)) ∨
    (∃ k rest, s.queue = k :: rest ∧ pendingOf k log ≠ [] ∧
      popLoop s r s.queue 0 = finish { s with
        queue := rest
        count := s.count - 1
        items := s.items.del k } k (pendingOf k log) 0 r) := by
  cases hq : s.queue with
  | nil =>
    left
    refine ⟨by trivial, ?_⟩
    simp only [popLoop, Nat.sub_zero]
    obtain ⟨items, queue, populated, count, closed⟩ := s
    simp only at hq
    subst hq
    rfl
  | cons k rest =>
    right
    have hm : k ∈ s.items.keys := by rw [← h.queue, hq]; simp
    have hp := (h.mem k).1 hm
    refine ⟨k, rest, rfl, hp, ?_⟩
    have hg := h.get k
    simp only [hp, if_false] at hg
    simp only [popLoop, hg]

theorem sim_popped {key : O → Option K} {s : State K O} {log : List (Entry K O)}
    (h : Sim key s log) {k : K} {rest : List K} (hq : s.queue = k :: rest) (c : Nat) :
    Sim key ({ s with
        queue := rest
        count := c
        items := s.items.del k } : State K O) (log ++ [.popped k]) := by
  have hn : (k :: rest).Nodup := by rw [← hq, h.queue]; exact h.wf
  refine ⟨PyDict.WF_del h.wf _, ?_, ?_, ?_, ?_⟩
  · simp only
    rw [PyDict.keys_del, ← h.queue, hq]
    simp
  · rw [orderOf_popped, h.order, hq]
    simp only [List.nodup_cons] at hn
    rw [List.filter_cons]
    simp only [ne_eq, not_true_eq_false, decide_false]
    rw [List.filter_eq_self.2]
    · rfl
    · intro j hj
      simp only [decide_eq_true_eq]
      rintro rfl
      exact hn.1 hj
  · intro j
    simp only
    rw [PyDict.get?_del h.wf, pendingOf_popped]
    split
    · simp
    · exact h.get j
  · intro j d hd
    rw [pendingOf_popped] at hd
    split at hd
    · simp at hd
    · exact h.newest j d hd

theorem sim_putBack {key : O → Option K} {s : State K O} {log : List (Entry K O)}
    (h : Sim key s log) (k : K) (ds : Deltas K O) (hds : ds ≠ [])
    (hn : ∀ d, ds.getLast? = some d → keyOf key d.object = some k) :
    Sim key (addIfNotPresent s k ds) (log ++ [.putBack k ds]) := by
  simp only [addIfNotPresent]
  by_cases hp : pendingOf k log = []
  · have hh : s.items.has k = false := by rw [h.has, hp]; simp
    simp only [hh]
    have := sim_set h k ds (.putBack k ds) (orderOf_putBack k ds log) (by
      intro j
      rw [pendingOf_putBack]
      by_cases hj : k = j
      · subst hj; simp [hp]
      · simp [hj]) hds hn
    simp only [hh] at this
    exact this.congr rfl rfl
  · have hh : s.items.has k = true := by rw [h.has]; simp [hp]
    simp only [hh, if_true]
    have hpj : ∀ j, pendingOf j (log ++ [.putBack k ds]) = pendingOf j log := by
      intro j
      rw [pendingOf_putBack]
      split
      · rename_i e; obtain ⟨rfl, e⟩ := e; exact absurd e hp
      · rfl
    have hin : k ∈ orderOf log := by rw [h.order, h.queue, h.mem]; exact hp
    refine ⟨h.wf, h.queue, ?_, ?_, ?_⟩
    · rw [orderOf_putBack]; simp only [hin, if_true]; exact h.order
    · intro j; rw [hpj]; exact h.get j
    · intro j d hd; rw [hpj] at hd; exact h.newest j d hd

theorem sim_step {key : O → Option K} {s : State K O} {log : List (Entry K O)}
    (h : Sim key s log) (o : Op K O) :
    Sim key (step key s o).1 (log ++ entries key log (o, (step key s o).2)) := by
  have hpop : Sim key ({ s with populated := true } : State K O) log := h.congr rfl rfl
  cases o with
  | add x =>
    simp only [step, entries]
    cases hk : keyOf key x with
    | none => rw [queueAction_none _ _ _ _ hk]; simpa using hpop
    | some k => exact (sim_queueAction hpop .added x k hk).2
  | update x =>
    simp only [step, entries]
    cases hk : keyOf key x with
    | none => rw [queueAction_none _ _ _ _ hk]; simpa using hpop
    | some k => exact (sim_queueAction hpop .updated x k hk).2
  | delete kn x =>
    simp only [step, entries, delete]
    cases hk : keyOf key x with
    | none => simpa using h
    | some k =>
      simp only
      have hskip : skipDelete { s with populated := true } kn k = true ↔
          (isKnown kn k = false ∧ pendingOf k log = []) := by
        simp only [skipDelete, isKnown, h.has]
        cases kn with
        | none => simp
        | some kn =>
          simp only
          rcases kn.get k with _ | (_ | o) <;> simp
      by_cases hs : skipDelete { s with populated := true } kn k = true
      · rw [if_pos hs, if_pos (hskip.1 hs)]
        simpa using hpop
      · rw [if_neg hs, if_neg (fun hc => hs (hskip.2 hc))]
        exact (sim_queueAction hpop .deleted x k hk).2
  | list => simpa [step, entries] using h
  | listKeys => simpa [step, entries] using h
  | get x =>
    simp only [step, entries, List.append_nil]
    cases keyOf key x <;> exact h
  | getByKey k => simpa [step, entries] using h
  | replace kn xs => exact (sim_replace h kn xs _).1
  | resync kn =>
    cases kn with
    | none => simpa [step, entries, resync] using h
    | some kn =>
      exact (sim_resyncKeys kn log kn.keys [] h (by simp)).1
  | pop r =>
    simp only [step]
    rcases pop_cases h r with ⟨-, h2⟩ | ⟨k, rest, hq, hp, h2⟩
    · rw [h2]
      have : entries key log (.pop r, if s.closed then .closedError else .blocked) = [] := by
        cases r <;> split <;> rfl
      rw [this]
      simpa using h
    · rw [h2]
      have h3 := sim_popped h hq (s.count - 1)
      have hb : Sim key (addIfNotPresent { s with
        queue := rest
        count := s.count - 1
        items := s.items.del k } k (pendingOf k log))
        (log ++ [.popped k, .putBack k (pendingOf k log)]) := by
        have := sim_putBack h3 k (pendingOf k log) hp (h.newest k)
        rwa [List.append_assoc] at this
      cases r with
      | ok => exact h3
      | error => exact h3
      | cancelled => exact h3
      | requeue c => cases c <;> exact hb
  | addIfNotPresent ds =>
    simp only [step, entries]
    cases hl : ds.getLast? with
    | none => simpa using h
    | some d =>
      simp only
      cases hk : keyOf key d.object with
      | none => simpa using h
      | some k =>
        refine sim_putBack h k ds ?_ ?_
        · intro h0; simp [h0] at hl
        · intro d' hd'; rw [hl] at hd'; cases hd'; exact hk
  | hasSynced => simpa [step, entries] using h
  | close => simpa [step, entries] using h.congr (t := { s with closed := true }) rfl rfl
  | isClosed => simpa [step, entries] using h

theorem sim_exec (key : O → Option K) (os : List (Op K O)) : ∀ {s : State K O}
    {log : List (Entry K O)}, Sim key s log →
    Sim key (exec key s os)
      ((trace key s os).foldl (fun log e => log ++ entries key log e) log) := by
  induction os with
  | nil => intro s log h; exact h
  | cons o os ih => intro s log h; exact ih (sim_step h o)

theorem exec_append (key : O → Option K) (as bs : List (Op K O)) : ∀ s : State K O,
    exec key s (as ++ bs) = exec key (exec key s as) bs := by
  induction as with
  | nil => intro s; rfl
  | cons a as ih => intro s; exact ih _

theorem trace_append (key : O → Option K) (as bs : List (Op K O)) : ∀ s : State K O,
    trace key s (as ++ bs) = trace key s as ++ trace key (exec key s as) bs := by
  induction as with
  | nil => intro s; rfl
  | cons a as ih => intro s; simp [trace, exec, ih]

/-- The log after a history and one more call. -/
theorem logOf_snoc (key : O → Option K) (h : List (Op K O × Out K O)) (e : Op K O × Out K O) :
    logOf key (h ++ [e]) = logOf key h ++ entries key (logOf key h) e := by
  simp [logOf, List.foldl_append]

theorem handed_append (a b : List (Op K O × Out K O)) : handed (a ++ b) = handed a ++ handed b := by
  induction a with
  | nil => rfl
  | cons e a ih =>
    obtain ⟨o, r⟩ := e
    cases r <;> simp [handed, ih]

/-! ## What is pending after a list -/

theorem pendingOf_changes (k : K) (f : K → Delta K O) (ks : List K) :
    ∀ l : List (Entry K O), ks.Nodup →
    pendingOf k (l ++ ks.map fun j => .change j (f j)) =
      if k ∈ ks then merge (pendingOf k l) (f k) else pendingOf k l := by
  induction ks with
  | nil => intro l _; simp
  | cons j ks ih =>
    intro l hn
    rw [List.nodup_cons] at hn
    rw [List.map_cons, List.append_cons, ih _ hn.2, pendingOf_change]
    by_cases hj : j = k
    · subst hj; simp [hn.1]
    · simp [hj, Ne.symm hj]

theorem pendingOf_syncs (key : O → Option K) (k : K) (xs : List (Obj K O)) :
    ∀ l : List (Entry K O), (∀ x ∈ xs, (keyOf key x).isSome) →
    pendingOf k (l ++ syncs key xs) = (xs.filter fun x => keyOf key x = some k).foldl
      (fun ds x => merge ds ⟨.sync, x⟩) (pendingOf k l) := by
  induction xs with
  | nil => intro l _; simp [syncs]
  | cons x xs ih =>
    intro l h
    obtain ⟨j, hj⟩ := Option.isSome_iff_exists.1 (h x (by simp))
    simp only [syncs, hj]
    rw [List.append_cons, ih _ (fun y hy => h y (by simp [hy])), pendingOf_change]
    by_cases hjk : j = k
    · subst hjk; simp [hj]
    · simp [hj, hjk]

theorem keysOf_isSome (key : O → Option K) (xs : List (Obj K O)) 
    (h : ∀ x ∈ xs, (keyOf key x).isSome) : ∃ keys, keysOf key xs = some keys := by
  induction xs with
  | nil => exact ⟨[], rfl⟩
  | cons x xs ih =>
    obtain ⟨j, hj⟩ := Option.isSome_iff_exists.1 (h x (by simp))
    obtain ⟨ks, hks⟩ := ih (fun y hy => h y (by simp [hy]))
    exact ⟨j :: ks, by rw [keysOf_cons, hj, hks]; rfl⟩

/-- What is pending after `replace` with a store. -/
theorem pendingOf_replace_known (key : O → Option K) (log : List (Entry K O)) (kn : Known K O)
    (xs : List (Obj K O)) (hx : ∀ x ∈ xs, (keyOf key x).isSome) (hn : kn.keys.Nodup) (k : K)
    (out : Out K O) :
    pendingOf k (log ++ entries key log (.replace (some kn) xs, out)) =
      if ∃ x ∈ xs, keyOf key x = some k then
        (xs.filter fun x => keyOf key x = some k).foldl (fun ds x => merge ds ⟨.sync, x⟩)
          (pendingOf k log)
      else if k ∈ kn.keys then
        merge (pendingOf k log) ⟨.deleted, marker k (knownState kn k)⟩
      else pendingOf k log := by
  obtain ⟨keys, hk⟩ := keysOf_isSome key xs hx
  have hm := keysOf_mem key xs keys hk k
  simp only [entries, hk, vanished]
  rw [← List.append_assoc, pendingOf_changes k _ _ _ (hn.filter _), pendingOf_syncs key k xs _ hx]
  simp only [List.mem_filter, decide_eq_true_eq]
  by_cases hl : ∃ x ∈ xs, keyOf key x = some k
  · rw [if_pos hl, if_neg (fun h => h.2 (hm.2 hl))]
  · have he : (xs.filter fun x => keyOf key x = some k) = [] := by
      rw [List.filter_eq_nil_iff]
      intro x hx2 hx3
      exact hl ⟨x, hx2, by simpa using hx3⟩
    rw [if_neg hl, he]
    simp only [List.foldl_nil, mt hm.1 hl, not_false_eq_true, and_true]

/-- What is pending after `delete`. -/
theorem pendingOf_delete (key : O → Option K) (log : List (Entry K O)) (kn : Option (Known K O))
    (x : Obj K O) (k : K) (hk : keyOf key x = some k) (j : K) (out : Out K O) :
    pendingOf j (log ++ entries key log (.delete kn x, out)) =
      if j = k ∧ (isKnown kn k = true ∨ pendingOf k log ≠ [])
      then merge (pendingOf k log) ⟨.deleted, x⟩ else pendingOf j log := by
  simp only [entries, hk]
  by_cases hc : isKnown kn k = false ∧ pendingOf k log = []
  · rw [if_pos hc, if_neg]
    · simp
    · rintro ⟨-, h | h⟩
      · rw [hc.1] at h; simp at h
      · exact h hc.2
  · rw [if_neg hc, pendingOf_change]
    have hc' : isKnown kn k = true ∨ pendingOf k log ≠ [] := by
      by_contra h
      simp only [not_or, ne_eq, Bool.not_eq_true, not_not] at h
      exact hc h
    by_cases hj : k = j
    · subst hj; simp [hc']
    · simp [hj, Ne.symm hj]

/-- The Syncs of a `resync` from a store that holds every object under its own key. -/
theorem resyncs_eq (key : O → Option K) (kn : Known K O) (log : List (Entry K O))
    (f : K → Obj K O) (ks : List K) : ∀ done : List K,
    (∀ k ∈ ks, kn.get k = some (some (f k)) ∧ keyOf key (f k) = some k) → ks.Nodup →
    (∀ k ∈ ks, k ∉ done) →
    resyncs key kn log done ks =
      (ks.filter fun k => pendingOf k log = []).map fun k => .change k ⟨.sync, f k⟩ := by
  induction ks with
  | nil => intro done _ _ _; rfl
  | cons k ks ih =>
    intro done hk hn hd
    rw [List.nodup_cons] at hn
    obtain ⟨h1, h2⟩ := hk k (by simp)
    have h3 : ∀ j ∈ ks, kn.get j = some (some (f j)) ∧ keyOf key (f j) = some j :=
      fun j hj => hk j (by simp [hj])
    simp only [resyncs, h1, h2]
    by_cases hp : pendingOf k log = []
    · simp only [hp, ne_eq, not_true_eq_false, hd k (by simp), or_self, if_false,
        List.filter_cons, decide_true, if_true, List.map_cons]
      rw [ih (k :: done) h3 hn.2 (by
        intro j hj
        simp only [List.mem_cons, not_or]
        exact ⟨fun e => hn.1 (e ▸ hj), hd j (by simp [hj])⟩)]
    · simp only [hp, ne_eq, not_false_eq_true, true_or, if_true, List.filter_cons, decide_false]
      exact ih done h3 hn.2 (fun j hj => hd j (by simp [hj]))

/-! ## Notifications -/

theorem queueAction_quiet {key : O → Option K} {s : State K O} {t : DType} {x : Obj K O}
    (h : queueActionNotifies key s t x = false) : (queueAction key s t x).1.queue = s.queue := by
  simp only [queueActionNotifies, queueAction] at h ⊢
  cases hk : keyOf key x with
  | none => rfl
  | some k =>
    simp only [hk] at h ⊢
    by_cases hc : t = .sync ∧ willBeDeleted s k = true
    · simp only [if_pos hc]
    · simp only [if_neg hc, Bool.not_eq_false', List.isEmpty_iff] at h ⊢
      simp only [h, ne_eq, not_true_eq_false, if_false]

theorem syncAll_quiet {key : O → Option K} (xs : List (Obj K O)) : ∀ {s : State K O},
    syncAllNotifies key s xs = false → (syncAll key s xs).1.queue = s.queue ∧
      (syncAll key s xs).1.closed = s.closed := by
  induction xs with
  | nil => intro s _; exact ⟨rfl, rfl⟩
  | cons x xs ih =>
    intro s h
    simp only [syncAllNotifies, syncAll] at h ⊢
    cases hk : keyOf key x with
    | none => exact ⟨rfl, rfl⟩
    | some k =>
      simp only [hk, Bool.or_eq_false_iff] at h ⊢
      obtain ⟨h1, h2⟩ := ih h.2
      have h3 := queueAction_quiet h.1
      have h4 := (queueAction_rest key s .sync x).2.2
      cases hs : syncAll key (queueAction key s .sync x).1 xs with
      | mk s' r =>
        rw [hs] at h1 h2
        cases r <;> exact ⟨h1.trans h3, h2.trans h4⟩

theorem deleteKnown_quiet {key : O → Option K} (kn : Known K O) (keys ks : List K) :
    ∀ {s : State K O}, deleteKnownNotifies key kn keys s ks = false →
      (deleteKnown key kn keys s ks).1.queue = s.queue ∧
      (deleteKnown key kn keys s ks).1.closed = s.closed := by
  induction ks with
  | nil => intro s _; exact ⟨rfl, rfl⟩
  | cons k ks ih =>
    intro s h
    simp only [deleteKnownNotifies, deleteKnown] at h ⊢
    by_cases hk : k ∈ keys
    · simp only [hk, if_true] at h ⊢; exact ih h
    · simp only [hk, if_false, Bool.or_eq_false_iff] at h ⊢
      obtain ⟨h1, h2⟩ := ih h.2
      exact ⟨h1.trans (queueAction_quiet h.1), h2.trans (queueAction_rest _ _ _ _).2.2⟩

theorem deletePending_quiet {key : O → Option K} (keys : List K) (rest : List (K × Deltas K O)) :
    ∀ {s : State K O}, deletePendingNotifies key keys s rest = false →
      (deletePending key keys s rest).1.queue = s.queue ∧
      (deletePending key keys s rest).1.closed = s.closed := by
  induction rest with
  | nil => intro s _; exact ⟨rfl, rfl⟩
  | cons p rest ih =>
    intro s h
    obtain ⟨k, old⟩ := p
    simp only [deletePendingNotifies, deletePending] at h ⊢
    by_cases hk : k ∈ keys
    · simp only [hk, if_true] at h ⊢; exact ih h
    · simp only [hk, if_false, Bool.or_eq_false_iff] at h ⊢
      obtain ⟨h1, h2⟩ := ih h.2
      exact ⟨h1.trans (queueAction_quiet h.1), h2.trans (queueAction_rest _ _ _ _).2.2⟩

theorem resync_quiet {key : O → Option K} (kn : Known K O) (ks : List K) :
    ∀ {s : State K O}, resyncNotifies key kn s ks = false →
      (resyncKeys key kn s ks).1.queue = s.queue ∧
      (resyncKeys key kn s ks).1.closed = s.closed := by
  induction ks with
  | nil => intro s _; exact ⟨rfl, rfl⟩
  | cons k ks ih =>
    intro s h
    simp only [resyncNotifies, resyncKeys] at h ⊢
    rcases hg : kn.get k with _ | (_ | o)
    · simp only [hg] at h ⊢; exact ih h
    · simp only [hg] at h ⊢; exact ih h
    · simp only [hg] at h ⊢
      cases hk : keyOf key o with
      | none => exact ⟨rfl, rfl⟩
      | some id =>
        simp only [hk] at h ⊢
        by_cases hp : ((s.items.get? id).getD []) = []
        · simp only [hp, ne_eq, not_true_eq_false, if_false, Bool.or_eq_false_iff] at h ⊢
          obtain ⟨h1, h2⟩ := ih h.2
          exact ⟨h1.trans (queueAction_quiet h.1), h2.trans (queueAction_rest _ _ _ _).2.2⟩
        · simp only [hp, ne_eq, not_false_eq_true, if_true] at h ⊢
          exact ih h

theorem replace_quiet {key : O → Option K} (kn : Option (Known K O)) (xs : List (Obj K O))
    {s : State K O} (h : replaceNotifies key s kn xs = false) :
    (replace key s kn xs).1.queue = s.queue ∧ (replace key s kn xs).1.closed = s.closed := by
  simp only [replaceNotifies, Bool.or_eq_false_iff, replace] at h ⊢
  obtain ⟨h1, h2⟩ := syncAll_quiet xs h.1
  cases hs : syncAll key s xs with
  | mk s' r =>
    rw [hs] at h1 h2
    have h := h.2
    rw [hs] at h
    cases r with
    | none => exact ⟨h1, h2⟩
    | some keys =>
      cases kn with
      | none =>
        obtain ⟨a, b⟩ := deletePending_quiet keys s'.items h
        exact ⟨a.trans h1, b.trans h2⟩
      | some kn =>
        obtain ⟨a, b⟩ := deleteKnown_quiet kn keys kn.keys h
        exact ⟨a.trans h1, b.trans h2⟩

/-! ## What a call does to the flags -/

/-- Every call but the first `replace` keeps the counter in step with the pops. -/
theorem count_step {key : O → Option K} {s : State K O} {log : List (Entry K O)}
    (h : Sim key s log) (hp : s.populated = true) (o : Op K O) :
    (step key s o).1.populated = true ∧
    (step key s o).1.count = s.count - (handed [(o, (step key s o).2)]).length := by
  have hq : ∀ t x, (queueAction key { s with populated := true } t x).1.populated = true ∧
      (queueAction key { s with populated := true } t x).1.count = s.count := fun t x =>
    ⟨(queueAction_rest _ _ _ _).1, (queueAction_rest _ _ _ _).2.1⟩
  have ha : ∀ (s : State K O) k ds, (addIfNotPresent s k ds).populated = true ∧
      (addIfNotPresent s k ds).count = s.count := by
    intro s k ds
    simp only [addIfNotPresent]
    split <;> exact ⟨rfl, rfl⟩
  cases o with
  | add x =>
    simp only [step]
    split <;> simpa [handed] using hq _ _
  | update x =>
    simp only [step]
    split <;> simpa [handed] using hq _ _
  | delete kn x =>
    simp only [step, delete]
    cases keyOf key x with
    | none => simp [handed, hp]
    | some k =>
      simp only
      split
      · simp [handed]
      · simpa [handed] using hq _ _
  | list => simp only [step]; split <;> simp [handed, hp]
  | listKeys => simp [step, handed, hp]
  | get x => simp only [step]; cases keyOf key x <;> simp [handed, hp, getByKey]
  | getByKey k => simp [step, handed, hp, getByKey]
  | replace kn xs =>
    simp only [step]
    obtain ⟨-, -, h1, h2⟩ := sim_replace h kn xs .ok
    cases hk : keysOf key xs with
    | none =>
      obtain ⟨a, b, c⟩ := h1 hk
      rw [a, b, c]; simp [handed, hp]
    | some keys =>
      obtain ⟨a, b, c⟩ := h2 keys hk
      rw [a, b, c]; simp [handed, hp]
  | resync kn =>
    cases kn with
    | none => simp [step, resync, handed, hp]
    | some kn =>
      obtain ⟨-, a, b, -⟩ := sim_resyncKeys (key := key) kn log kn.keys [] h (by simp)
      have hout : (resyncKeys key kn s kn.keys).2 = .ok ∨
          (resyncKeys key kn s kn.keys).2 = .keyFunc := by
        generalize kn.keys = ks
        clear a b h hp hq
        induction ks generalizing s with
        | nil => exact Or.inl rfl
        | cons k ks ih =>
          simp only [resyncKeys]
          split
          · exact ih
          · exact ih
          · split
            · exact Or.inr rfl
            · split
              · exact ih
              · exact ih
      simp only [step, resync]
      rw [a, b]
      rcases hout with h | h <;> simp [h, handed, hp]
  | pop r =>
    simp only [step]
    rcases pop_cases h r with ⟨-, h2⟩ | ⟨k, rest, hq, hp', h2⟩
    · rw [h2]
      split <;> simp [handed, hp]
    · rw [h2]
      cases r with
      | ok => simp [finish, handed, hp]
      | error => simp [finish, handed, hp]
      | cancelled => simp [finish, handed, hp]
      | requeue c => cases c <;> simpa [finish, handed] using ha _ _ _
  | addIfNotPresent ds =>
    simp only [step]
    cases ds.getLast? with
    | none => simp [handed, hp]
    | some d =>
      simp only
      cases keyOf key d.object with
      | none => simp [handed, hp]
      | some k => simpa [handed] using ha _ _ _
  | hasSynced => simp [step, handed, hp]
  | close => simp [step, handed, hp]
  | isClosed => simp [step, handed, hp]

theorem count_exec {key : O → Option K} (os : List (Op K O)) : ∀ {s : State K O}
    {log : List (Entry K O)}, Sim key s log → s.populated = true →
    (exec key s os).populated = true ∧
    (exec key s os).count = s.count - (handed (trace key s os)).length := by
  induction os with
  | nil => intro s log _ hp; simp [exec, trace, handed, hp]
  | cons o os ih =>
    intro s log h hp
    obtain ⟨h1, h2⟩ := count_step h hp o
    obtain ⟨h3, h4⟩ := ih (sim_step h o) h1
    refine ⟨h3, ?_⟩
    have e : trace key s (o :: os) = [(o, (step key s o).2)] ++ trace key (step key s o).1 os := rfl
    rw [e, handed_append, List.length_append]
    simp only [exec]
    rw [h4, h2]; omega

/-- The queue only loses its first entry, to `pop`, and only grows at the end. -/
theorem queue_step {key : O → Option K} {s : State K O} {log : List (Entry K O)}
    (h : Sim key s log) (o : Op K O) :
    ∃ more, handed [(o, (step key s o).2)] ++ (step key s o).1.queue = s.queue ++ more := by
  have grow : ∀ (l : List (Entry K O)) (log : List (Entry K O)),
      (∀ e ∈ l, ∀ k, e ≠ .popped k) → ∃ more, orderOf (log ++ l) = orderOf log ++ more := by
    intro l
    induction l with
    | nil => intro log _; exact ⟨[], by simp⟩
    | cons e l ih =>
      intro log hl
      obtain ⟨m, hm⟩ := ih (log ++ [e]) (fun e he => hl e (by simp [he]))
      rw [List.append_assoc] at hm
      have : ∃ m1, orderOf (log ++ [e]) = orderOf log ++ m1 := by
        cases e with
        | change j d =>
          rw [orderOf_change]; split
          · exact ⟨[], by simp⟩
          · exact ⟨_, rfl⟩
        | putBack j d =>
          rw [orderOf_putBack]; split
          · exact ⟨[], by simp⟩
          · exact ⟨_, rfl⟩
        | popped j => exact absurd rfl (hl _ (by simp) j)
      obtain ⟨m1, hm1⟩ := this
      exact ⟨m1 ++ m, by rw [List.singleton_append] at hm; rw [hm, hm1, List.append_assoc]⟩
  have h1 := sim_step h o
  by_cases hpo : ∃ r, o = .pop r
  · obtain ⟨r, rfl⟩ := hpo
    simp only [step]
    rcases pop_cases h r with ⟨-, h2⟩ | ⟨k, rest, hq, hp', h2⟩
    · rw [h2]
      refine ⟨[], ?_⟩
      split <;> simp [handed]
    · rw [h2, hq]
      cases r with
      | ok => exact ⟨[], by simp [finish, handed]⟩
      | error => exact ⟨[], by simp [finish, handed]⟩
      | cancelled => exact ⟨[], by simp [finish, handed]⟩
      | requeue c =>
        have : ∀ (s : State K O) k ds, ∃ more, (addIfNotPresent s k ds).queue = s.queue ++ more := by
          intro s k ds
          simp only [addIfNotPresent]
          split
          · exact ⟨[], by simp⟩
          · exact ⟨_, rfl⟩
        obtain ⟨m, hm⟩ := this { s with
          queue := rest
          count := s.count - 1
          items := s.items.del k } k (pendingOf k log)
        cases c <;> exact ⟨m, by simp [finish, handed, hm]⟩
  · have hno : ∀ e ∈ entries key log (o, (step key s o).2), ∀ k, e ≠ .popped k := by
      have hsync : ∀ xs : List (Obj K O), ∀ e ∈ syncs key xs, ∀ k, e ≠ .popped k := by
        intro xs
        induction xs with
        | nil => simp [syncs]
        | cons x xs ih =>
          simp only [syncs]
          cases keyOf key x with
          | none => simp
          | some j => simp only [List.mem_cons]; rintro e (rfl | he) k; simp; exact ih e he k
      have hres : ∀ (kn : Known K O) ks done, ∀ e ∈ resyncs key kn log done ks,
          ∀ k, e ≠ .popped k := by
        intro kn ks
        induction ks with
        | nil => simp [resyncs]
        | cons j ks ih =>
          intro done
          simp only [resyncs]
          split
          · split
            · simp
            · split
              · exact ih _
              · simp only [List.mem_cons]; rintro e (rfl | he) k; simp; exact ih _ e he k
          · exact ih _
      intro e he k
      cases o with
      | pop r => exact absurd ⟨r, rfl⟩ hpo
      | add x => simp only [entries] at he; split at he <;> simp at he; subst he; simp
      | update x => simp only [entries] at he; split at he <;> simp at he; subst he; simp
      | delete kn x =>
        simp only [entries] at he
        split at he
        · simp at he
        · split at he
          · simp at he
          · simp at he; subst he; simp
      | list => simp [entries] at he
      | listKeys => simp [entries] at he
      | get x => simp [entries] at he
      | getByKey x => simp [entries] at he
      | hasSynced => simp [entries] at he
      | close => simp [entries] at he
      | isClosed => simp [entries] at he
      | replace kn xs =>
        simp only [entries, List.mem_append] at he
        rcases he with he | he
        · exact hsync xs e he k
        · split at he
          · simp at he
          · cases kn <;> simp only [vanished, List.mem_map] at he <;>
              obtain ⟨j, -, rfl⟩ := he <;> simp
      | resync kn =>
        cases kn with
        | none => simp [entries] at he
        | some kn => exact hres kn _ _ e he k
      | addIfNotPresent ds =>
        simp only [entries] at he
        split at he
        · simp at he
        · split at he
          · simp at he
          · simp at he; subst he; simp
    have hh : handed [(o, (step key s o).2)] = [] := by
      rcases hr : (step key s o).2 with _ | _ | _ | _ | _ | _ | _ | _ | ⟨k, ds, r, n⟩ | _ | _
      all_goals try rfl
      exfalso
      cases o with
      | pop r => exact hpo ⟨r, rfl⟩
      | add x => simp only [step] at hr; split at hr <;> simp at hr
      | update x => simp only [step] at hr; split at hr <;> simp at hr
      | delete kn x =>
        simp only [step, delete] at hr
        split at hr
        · simp at hr
        · split at hr <;> simp at hr
      | list => simp only [step] at hr; split at hr <;> simp at hr
      | listKeys => simp [step] at hr
      | get x => simp only [step] at hr; split at hr <;> simp [getByKey] at hr
      | getByKey x => simp [step, getByKey] at hr
      | hasSynced => simp [step] at hr
      | close => simp [step] at hr
      | isClosed => simp [step] at hr
      | replace kn xs =>
        simp only [step, replace] at hr
        split at hr <;> simp at hr
      | resync kn =>
        cases kn with
        | none => simp [step, resync] at hr
        | some kn =>
          simp only [step, resync] at hr
          clear hno h1 h
          generalize kn.keys = ks at hr
          induction ks generalizing s with
          | nil => simp [resyncKeys] at hr
          | cons j ks ih =>
            simp only [resyncKeys] at hr
            split at hr
            · exact ih hr
            · exact ih hr
            · split at hr
              · simp at hr
              · split at hr <;> exact ih hr
      | addIfNotPresent ds =>
        simp only [step] at hr
        split at hr
        · simp at hr
        · split at hr <;> simp at hr
    rw [hh, List.nil_append, ← h1.order, ← h.order]
    exact grow _ _ hno

theorem queue_exec {key : O → Option K} (os : List (Op K O)) : ∀ {s : State K O}
    {log : List (Entry K O)}, Sim key s log →
    ∃ more, handed (trace key s os) ++ (exec key s os).queue = s.queue ++ more := by
  induction os with
  | nil => intro s log _; exact ⟨[], by simp [trace, exec, handed]⟩
  | cons o os ih =>
    intro s log h
    obtain ⟨m1, h1⟩ := queue_step h o
    obtain ⟨m2, h2⟩ := ih (sim_step h o)
    have e : trace key s (o :: os) = [(o, (step key s o).2)] ++ trace key (step key s o).1 os := rfl
    refine ⟨m1 ++ m2, ?_⟩
    rw [e, handed_append, List.append_assoc]
    simp only [exec]
    rw [h2, ← List.append_assoc, h1, List.append_assoc]

end Aiok8s.DeltaFifo
