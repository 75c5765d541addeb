import Verif.Spec.Informer
import Verif.Proof.DeltaFifo
/-!
# Lemmas for the informer (C29-C33)
-/
set_option linter.unusedSimpArgs false
set_option linter.unusedSectionVars false
namespace Aiok8s.Informer
open Aiok8s.DeltaFifo (Obj Delta Deltas DType Known Outcome keyOf)
open Aiok8s.DeltaFifo.Spec (Entry merge pendingOf entries syncs keysOf vanished resyncs marker
  knownState isKnown)
open Spec
variable {K O : Type} [DecidableEq K]

/-! ## Pending deltas applied to the store -/

/-- What a list of deltas makes of an entry of the store. -/
def after (v : Option (Obj K O)) (ds : Deltas K O) : Option (Obj K O) :=
  ds.foldl (fun _ d => if d.type = .deleted then none else some d.object) v

/-- Deletions only of what is present. -/
def okFrom : Bool → Deltas K O → Prop
  | _, [] => True
  | b, d :: ds => if d.type = .deleted then b = true ∧ okFrom false ds else okFrom true ds

theorem after_append (v : Option (Obj K O)) (ds es : Deltas K O) :
    after v (ds ++ es) = after (after v ds) es := by
  simp [after, List.foldl_append]

theorem after_snoc (v : Option (Obj K O)) (ds : Deltas K O) (d : Delta K O) :
    after v (ds ++ [d]) = if d.type = .deleted then none else some d.object := by
  simp [after, List.foldl_append]

theorem after_last_deleted (v : Option (Obj K O)) (ds : Deltas K O) (l : Delta K O)
    (h : ds.getLast? = some l) (hd : l.type = .deleted) : after v ds = none := by
  rcases List.eq_nil_or_concat ds with rfl | ⟨ds, d, rfl⟩
  · simp at h
  · simp only [List.concat_eq_append, List.getLast?_append, List.getLast?_singleton,
      Option.some_or, Option.some.injEq] at h
    subst h
    rw [List.concat_eq_append, after_snoc, if_pos hd]

/-- The newest pending change is a deletion. -/
def Doomed (ds : Deltas K O) : Prop := ∃ l, ds.getLast? = some l ∧ l.type = .deleted

open Classical in
theorem after_merge (v : Option (Obj K O)) (ds : Deltas K O) (d : Delta K O) :
    after v (merge ds d) = if d.type = .deleted then none else
      if d.type = .sync ∧ Doomed ds then none else some d.object := by
  unfold merge
  cases hl : ds.getLast? with
  | none =>
    have hnd : ¬ Doomed ds := by rintro ⟨l, h, -⟩; rw [hl] at h; simp at h
    simp [after, hnd]
  | some l =>
    simp only
    by_cases h1 : l.type = .deleted
    · have hd : Doomed ds := ⟨l, hl, h1⟩
      by_cases h2 : d.type = .sync
      · simp only [h1, h2, and_self, if_true, hd]
        rw [after_last_deleted v ds l hl h1]; simp
      · by_cases h3 : d.type = .deleted
        · simp only [h1, h3, and_true, reduceCtorEq, if_false, if_true, and_false]
          rw [after_snoc]
          cases l.object <;> simp [h1, h3]
        · simp only [h1, h2, h3, and_false, if_false, after_snoc, false_and]
    · have hd : ¬ Doomed ds := by
        rintro ⟨l', h, h'⟩; rw [hl] at h; cases h; exact h1 h'
      simp only [h1, false_and, if_false, after_snoc, hd, and_false]

theorem merge_mem (ds : Deltas K O) (d e : Delta K O) (h : e ∈ merge ds d) : e ∈ ds ∨ e = d := by
  unfold merge at h
  cases hl : ds.getLast? with
  | none => rw [hl] at h; simp at h; exact Or.inr h
  | some l =>
    rw [hl] at h
    simp only at h
    have hlm : l ∈ ds := List.mem_of_getLast? hl
    split at h
    · exact Or.inl h
    · split at h
      · simp only [List.mem_append, List.mem_singleton] at h
        rcases h with h | h
        · exact Or.inl ((List.dropLast_sublist ds).subset h)
        · cases ho : l.object <;> simp only [ho] at h
          · exact Or.inl (h ▸ hlm)
          · exact Or.inr h
          · exact Or.inr h
      · simpa using h

theorem okFrom_append (ds es : Deltas K O) : ∀ (v : Option (Obj K O)),
    okFrom v.isSome (ds ++ es) ↔ okFrom v.isSome ds ∧ okFrom (after v ds).isSome es := by
  induction ds with
  | nil => intro v; simp [okFrom, after]
  | cons d ds ih =>
    intro v
    have : after v (d :: ds) = after (if d.type = .deleted then none else some d.object) ds := rfl
    simp only [List.cons_append, okFrom, this]
    by_cases hd : d.type = .deleted
    · have := ih none
      simp only [Option.isSome_none] at this
      simp only [hd, if_true, this, and_assoc]
    · have := ih (some d.object)
      simp only [Option.isSome_some] at this
      simp only [hd, if_false, this]

theorem okFrom_merge (v : Option (Obj K O)) (ds : Deltas K O) (d : Delta K O)
    (h : okFrom v.isSome ds) (hd : d.type = .deleted → ds = [] → v.isSome = true) :
    okFrom v.isSome (merge ds d) := by
  unfold merge
  rcases List.eq_nil_or_concat ds with rfl | ⟨ds, l, rfl⟩
  · simp only [List.getLast?_nil, okFrom]
    by_cases h1 : d.type = .deleted
    · simp [h1, hd h1 rfl]
    · simp [h1]
  · simp only [List.concat_eq_append, List.getLast?_append, List.getLast?_singleton,
      Option.some_or, List.dropLast_concat] at h ⊢
    by_cases h1 : l.type = .deleted
    · by_cases h2 : d.type = .sync
      · simp only [h1, h2, and_self, if_true]; exact h
      · by_cases h3 : d.type = .deleted
        · simp only [h1, h2, h3, and_false, and_self, if_false, if_true, reduceCtorEq]
          rw [okFrom_append] at h ⊢
          refine ⟨h.1, ?_⟩
          have := h.2
          simp only [okFrom, h1, if_true] at this
          cases l.object <;> simp [okFrom, h1, h3, this.1]
        · simp only [h1, h2, h3, and_false, if_false]
          rw [okFrom_append]
          exact ⟨h, by simp [okFrom, h3]⟩
    · simp only [h1, false_and, if_false]
      rw [okFrom_append]
      refine ⟨h, ?_⟩
      rw [after_snoc, if_neg h1]
      by_cases h3 : d.type = .deleted <;> simp [okFrom, h3]

/-! ## Invariant -/

/-- The pending deltas of every key belong to it. -/
def Keyed (key : O → Option K) (log : List (Entry K O)) : Prop :=
  ∀ k, ∀ d ∈ pendingOf k log, keyOf key d.object = some k

/-- The pending deltas of every key delete only what is present. -/
def Fit (items : PyDict K (Obj K O)) (log : List (Entry K O)) : Prop :=
  ∀ k, okFrom (items.get? k).isSome (pendingOf k log)

structure Inv (key : O → Option K) (s : State K O) (log : List (Entry K O)) : Prop where
  sim : DeltaFifo.Sim key s.q log
  wf : s.items.WF
  own : ∀ k x, s.items.get? k = some x → keyOf key x = some k
  keyed : Keyed key log

theorem inv_init (key : O → Option K) : Inv key (init : State K O) [] :=
  ⟨DeltaFifo.sim_init key, PyDict.WF_nil, by simp [init], by simp [Keyed, pendingOf]⟩

theorem fit_init : Fit (init : State K O).items [] := by
  intro k; simp [pendingOf, okFrom]

/-- Changes under their own keys. -/
def OwnChanges (key : O → Option K) (es : List (Entry K O)) : Prop :=
  ∀ e ∈ es, ∃ k d, e = .change k d ∧ keyOf key d.object = some k

theorem keyed_change {key : O → Option K} {log : List (Entry K O)}
    (h : Keyed key log) (k : K) (d : Delta K O) (hk : keyOf key d.object = some k) :
    Keyed key (log ++ [.change k d]) := by
  intro j e he
  rw [DeltaFifo.pendingOf_change] at he
  split at he
  · rename_i hj
    subst hj
    rcases merge_mem _ _ _ he with he | rfl
    · exact h k e he
    · exact hk
  · exact h j e he

theorem keyed_changes {key : O → Option K} (es : List (Entry K O)) : ∀ {log : List (Entry K O)},
    Keyed key log → OwnChanges key es → Keyed key (log ++ es) := by
  induction es with
  | nil => intro log h _; simpa using h
  | cons e es ih =>
    intro log h he
    obtain ⟨k, d, rfl, h1⟩ := he e (by simp)
    rw [List.append_cons]
    exact ih (keyed_change h k d h1) (fun e' h' => he e' (by simp [h']))

theorem fit_change {items : PyDict K (Obj K O)} {log : List (Entry K O)}
    (h : Fit items log) (k : K) (d : Delta K O)
    (hd : d.type = .deleted → pendingOf k log ≠ [] ∨ (items.get? k).isSome = true) :
    Fit items (log ++ [.change k d]) := by
  intro j
  rw [DeltaFifo.pendingOf_change]
  split
  · rename_i hj
    subst hj
    refine okFrom_merge _ _ _ (h k) ?_
    intro h1 h2
    rcases hd h1 with h3 | h3
    · exact absurd h2 h3
    · exact h3
  · exact h j

/-- Changes whose deletions are of stored keys. -/
def FitChanges (items : PyDict K (Obj K O)) (es : List (Entry K O)) : Prop :=
  ∀ e ∈ es, ∃ k d, e = .change k d ∧ (d.type = .deleted → (items.get? k).isSome = true)

theorem fit_changes {items : PyDict K (Obj K O)} (es : List (Entry K O)) :
    ∀ {log : List (Entry K O)}, Fit items log → FitChanges items es → Fit items (log ++ es) := by
  induction es with
  | nil => intro log h _; simpa using h
  | cons e es ih =>
    intro log h he
    obtain ⟨k, d, rfl, h2⟩ := he e (by simp)
    rw [List.append_cons]
    exact ih (fit_change h k d (fun hd => Or.inr (h2 hd))) (fun e' h' => he e' (by simp [h']))

theorem syncs_form (key : O → Option K) (xs : List (Obj K O)) :
    ∀ e ∈ syncs key xs, ∃ k x, e = .change k ⟨.sync, x⟩ ∧ keyOf key x = some k := by
  induction xs with
  | nil => simp [syncs]
  | cons x xs ih =>
    simp only [syncs]
    cases hk : keyOf key x with
    | none => simp
    | some k =>
      simp only [List.mem_cons]
      rintro e (rfl | he)
      · exact ⟨k, x, rfl, hk⟩
      · exact ih e he

theorem resyncs_form (key : O → Option K) (kn : Known K O) (log : List (Entry K O))
    (ks : List K) : ∀ done, ∀ e ∈ resyncs key kn log done ks,
    ∃ k x, e = .change k ⟨.sync, x⟩ ∧ keyOf key x = some k := by
  induction ks with
  | nil => simp [resyncs]
  | cons j ks ih =>
    intro done
    simp only [resyncs]
    split
    · rename_i x hx
      split
      · simp
      · rename_i id hid
        split
        · exact ih _
        · simp only [List.mem_cons]
          rintro e (rfl | he)
          · exact ⟨id, _, rfl, hid⟩
          · exact ih _ e he
    · exact ih _

/-- The queue operation of an event other than a pop. -/
def opOf (s : State K O) : Ev K O → Option (DeltaFifo.Op K O)
  | .add x => some (.add x)
  | .update x => some (.update x)
  | .delete x => some (.delete (some (known s.items)) x)
  | .replace xs => some (.replace (some (known s.items)) xs)
  | .resync => some (.resync (some (known s.items)))
  | .pop _ => none

theorem step_op {key : O → Option K} {s : State K O} {e : Ev K O} {o : DeltaFifo.Op K O}
    (h : opOf s e = some o) : step key s e = call key s o := by
  cases e <;> simp_all [opOf, step] <;> subst h <;> rfl

theorem own_entries {key : O → Option K} {s : State K O} (log : List (Entry K O))
    (e : Ev K O) (o : DeltaFifo.Op K O) (out : DeltaFifo.Out K O) (ho : opOf s e = some o) :
    OwnChanges key (entries key log (o, out)) := by
  cases e with
  | add x =>
    simp only [opOf, Option.some.injEq] at ho; subst ho
    simp only [entries]
    cases hk : keyOf key x with
    | none => simp [OwnChanges]
    | some k => simpa [OwnChanges] using hk
  | update x =>
    simp only [opOf, Option.some.injEq] at ho; subst ho
    simp only [entries]
    cases hk : keyOf key x with
    | none => simp [OwnChanges]
    | some k => simpa [OwnChanges] using hk
  | delete x =>
    simp only [opOf, Option.some.injEq] at ho; subst ho
    simp only [entries]
    cases hk : keyOf key x with
    | none => simp [OwnChanges]
    | some k =>
      simp only
      by_cases hc : isKnown (some (known s.items)) k = false ∧ pendingOf k log = []
      · rw [if_pos hc]; simp [OwnChanges]
      · rw [if_neg hc]; simpa [OwnChanges] using hk
  | replace xs =>
    simp only [opOf, Option.some.injEq] at ho; subst ho
    intro e he
    simp only [entries, List.mem_append] at he
    rcases he with he | he
    · obtain ⟨k, x, rfl, hk⟩ := syncs_form key xs e he
      exact ⟨k, _, rfl, hk⟩
    · cases hks : keysOf key xs with
      | none => rw [hks] at he; simp at he
      | some keys =>
        rw [hks] at he
        simp only [vanished, List.mem_map, List.mem_filter] at he
        obtain ⟨k, ⟨hk, -⟩, rfl⟩ := he
        refine ⟨k, _, rfl, ?_⟩
        cases knownState (known s.items) k <;> rfl
  | resync =>
    simp only [opOf, Option.some.injEq] at ho; subst ho
    intro e he
    obtain ⟨k, x, rfl, hk⟩ := resyncs_form key _ _ _ _ e he
    exact ⟨k, _, rfl, hk⟩
  | pop h => simp [opOf] at ho

theorem fit_entries {key : O → Option K} {s : State K O} {log : List (Entry K O)}
    (h : Fit s.items log) (e : Ev K O) (o : DeltaFifo.Op K O) (out : DeltaFifo.Out K O)
    (ho : opOf s e = some o) : Fit s.items (log ++ entries key log (o, out)) := by
  cases e with
  | add x =>
    simp only [opOf, Option.some.injEq] at ho; subst ho
    simp only [entries]
    cases hk : keyOf key x with
    | none => simpa using h
    | some k => exact fit_change h k _ (by simp)
  | update x =>
    simp only [opOf, Option.some.injEq] at ho; subst ho
    simp only [entries]
    cases hk : keyOf key x with
    | none => simpa using h
    | some k => exact fit_change h k _ (by simp)
  | delete x =>
    simp only [opOf, Option.some.injEq] at ho; subst ho
    simp only [entries]
    cases hk : keyOf key x with
    | none => simpa using h
    | some k =>
      simp only
      by_cases hc : isKnown (some (known s.items)) k = false ∧ pendingOf k log = []
      · rw [if_pos hc]; simpa using h
      · rw [if_neg hc]
        refine fit_change h k _ ?_
        intro _
        by_contra hcon
        apply hc
        simp only [not_or, ne_eq, not_not] at hcon
        exact ⟨by simpa [isKnown, known] using hcon.2, hcon.1⟩
  | replace xs =>
    simp only [opOf, Option.some.injEq] at ho; subst ho
    refine fit_changes _ h ?_
    intro e he
    simp only [entries, List.mem_append] at he
    rcases he with he | he
    · obtain ⟨k, x, rfl, -⟩ := syncs_form key xs e he
      exact ⟨k, _, rfl, by simp⟩
    · cases hks : keysOf key xs with
      | none => rw [hks] at he; simp at he
      | some keys =>
        rw [hks] at he
        simp only [vanished, List.mem_map, List.mem_filter] at he
        obtain ⟨k, ⟨hk, -⟩, rfl⟩ := he
        exact ⟨k, _, rfl, fun _ => PyDict.get?_isSome.2 hk⟩
  | resync =>
    simp only [opOf, Option.some.injEq] at ho; subst ho
    refine fit_changes _ h ?_
    intro e he
    obtain ⟨k, x, rfl, -⟩ := resyncs_form key _ _ _ _ e he
    exact ⟨k, _, rfl, by simp⟩
  | pop h => simp [opOf] at ho

theorem inv_call {key : O → Option K} {s : State K O} {log : List (Entry K O)}
    (h : Inv key s log) (e : Ev K O) (o : DeltaFifo.Op K O) (ho : opOf s e = some o) :
    Inv key (call key s o).1 (log ++ entries key log (o, (call key s o).2.2)) :=
  ⟨DeltaFifo.sim_step h.sim o, h.wf, h.own, keyed_changes _ h.keyed (own_entries log e o _ ho)⟩

/-! ## Processing -/

/-- A view equal to the store. -/
def viewOf (items : PyDict K (Obj K O)) : View K O := fun k => items.get? k

theorem applyOne_spec {key : O → Option K} {items : PyDict K (Obj K O)} (hw : items.WF)
    {d : Delta K O} {k : K} (hk : keyOf key d.object = some k) :
    ∃ items' n, applyOne key items d = some (items', n) ∧ items'.WF ∧
      (∀ j, items'.get? j = if j = k then (if d.type = .deleted then none else some d.object)
        else items.get? j) ∧
      see key (viewOf items) n = viewOf items' ∧
      Coherent key (viewOf items) n ∧
      ((d.type = .deleted → (items.get? k).isSome = true) → Sensible key (viewOf items) n) := by
  simp only [applyOne, hk]
  by_cases hd : d.type = .deleted
  · simp only [hd, if_true]
    have hg : ∀ j, (items.del k).get? j = if j = k then none else items.get? j := by
      intro j
      rw [PyDict.get?_del hw]
      simp only [eq_comm]
    refine ⟨_, _, rfl, PyDict.WF_del hw _, hg, ?_, ⟨k, hk⟩, ?_⟩
    · funext j
      simp only [see, hk, View.put, viewOf, hg]
    · intro h
      have h := h trivial
      refine ⟨k, hk, ?_⟩
      intro h0
      simp only [viewOf] at h0
      rw [h0] at h; simp at h
  · simp only [hd, if_false]
    have hg : ∀ j, (items.set k d.object).get? j = if j = k then some d.object
        else items.get? j := by
      intro j
      rw [PyDict.get?_set]
      simp only [eq_comm]
    cases ho : items.get? k with
    | some old =>
      refine ⟨_, _, rfl, PyDict.WF_set hw _ _, hg, ?_, ⟨k, hk, ho⟩, ?_⟩
      · funext j
        simp only [see, hk, View.put, viewOf, hg]
      · intro _; exact ⟨k, hk, ho⟩
    | none =>
      refine ⟨_, _, rfl, PyDict.WF_set hw _ _, hg, ?_, ⟨k, hk, ho⟩, ?_⟩
      · funext j
        simp only [see, hk, View.put, viewOf, hg]
      · intro _; exact ⟨k, hk, ho⟩

theorem process_spec {key : O → Option K} (h : Nat → Outcome) (k : K) (ds : Deltas K O) :
    ∀ (items : PyDict K (Obj K O)) (i : Nat), items.WF →
    (∀ d ∈ ds, keyOf key d.object = some k) →
    ∃ n, n ≤ ds.length ∧
    (process key h items ds i).1.WF ∧
    (∀ j, j ≠ k → (process key h items ds i).1.get? j = items.get? j) ∧
    (process key h items ds i).1.get? k = after (items.get? k) (ds.take n) ∧
    (process key h items ds i).2.1.foldl (see key) (viewOf items)
      = viewOf (process key h items ds i).1 ∧
    AllCoherent key (viewOf items) (process key h items ds i).2.1 ∧
    (okFrom (items.get? k).isSome ds →
      AllSensible key (viewOf items) (process key h items ds i).2.1) ∧
    ((process key h items ds i).2.2 = .ok → n = ds.length) ∧
    (∀ c, (process key h items ds i).2.2 = .requeue c → ∃ j, h j = .requeue c) ∧
    ((∀ j, j + 1 < i + ds.length → h j = .ok) → n = ds.length) := by
  induction ds with
  | nil =>
    intro items i hw _
    exact ⟨0, by simp, hw, fun _ _ => rfl, rfl, rfl, trivial, fun _ => trivial, fun _ => rfl,
      fun c hc => by simp [process] at hc, fun _ => rfl⟩
  | cons d ds ih =>
    intro items i hw hk
    obtain ⟨items', note, h1, h2, h3, h4, hc5, h5⟩ := applyOne_spec hw (hk d (by simp))
    have hsens : okFrom (items.get? k).isSome (d :: ds) → Sensible key (viewOf items) note := by
      intro hok
      apply h5
      intro hd
      simp only [okFrom, hd, if_true] at hok
      exact hok.1
    have hok' : okFrom (items.get? k).isSome (d :: ds) → okFrom (items'.get? k).isSome ds := by
      intro hok
      rw [h3]
      simp only [okFrom] at hok
      by_cases hd : d.type = .deleted
      · simp only [hd, if_true] at hok ⊢; exact hok.2
      · simp only [hd, if_false, if_true] at hok ⊢; exact hok
    simp only [process, h1]
    by_cases hh : h i = .ok
    · simp only [hh, if_true]
      obtain ⟨n, a, b, c, e, f, g1, g, l, m, o⟩ := ih items' (i + 1) h2
        (fun e he => hk e (by simp [he]))
      refine ⟨n + 1, by simpa using a, b, ?_, ?_, ?_, ?_, ?_, ?_, m, ?_⟩
      · intro j hj
        rw [c j hj, h3, if_neg hj]
      · rw [e, h3]
        simp [after]
      · simp only [List.foldl_cons, h4, f]
      · exact ⟨hc5, by rw [h4]; exact g1⟩
      · intro hok
        exact ⟨hsens hok, by rw [h4]; exact g (hok' hok)⟩
      · intro hc; simp [l hc]
      · intro hc
        rw [o (fun j hj => hc j (by simp only [List.length_cons]; omega))]
        simp
    · simp only [hh, if_false]
      refine ⟨1, by simp, h2, ?_, ?_, ?_, ?_, ?_, ?_, ?_, ?_⟩
      · intro j hj; rw [h3, if_neg hj]
      · rw [h3]; simp [after]
      · simp [h4]
      · exact ⟨hc5, trivial⟩
      · exact fun hok => ⟨hsens hok, trivial⟩
      · exact fun hc => hc.elim
      · exact fun c hc => ⟨i, hc⟩
      · intro hc
        cases ds with
        | nil => rfl
        | cons e ds => exact absurd (hc i (by simp)) hh

/-- What a round of the processing loop does. -/
theorem pop_spec {key : O → Option K} {s : State K O} {log : List (Entry K O)}
    (h : Inv key s log) (hd : Nat → Outcome) :
    (s.q.queue = [] ∧ pop key hd s = (s, [], if s.q.closed then .closedError else .blocked)) ∨
    (∃ k rest e r, s.q.queue = k :: rest ∧ pendingOf k log ≠ [] ∧
      nextDeltas s.q = some (pendingOf k log) ∧
      r = process key hd s.items (pendingOf k log) 0 ∧
      (pop key hd s).1 = ⟨(DeltaFifo.step key s.q (.pop r.2.2)).1, r.1⟩ ∧
      (pop key hd s).2.1 = r.2.1 ∧
      (pop key hd s).2.2 = (DeltaFifo.step key s.q (.pop r.2.2)).2 ∧
      (DeltaFifo.step key s.q (.pop r.2.2)).2 = .popped k (pendingOf k log) e 0) := by
  rcases DeltaFifo.pop_cases h.sim .ok with ⟨h1, h2⟩ | ⟨k, rest, hq, hp, h2⟩
  · left
    refine ⟨h1, ?_⟩
    have hn : nextDeltas s.q = none := by
      simp only [nextDeltas, h2]
      cases s.q.closed <;> rfl
    simp only [pop, hn, h2]
  · right
    have hn : nextDeltas s.q = some (pendingOf k log) := by
      simp only [nextDeltas, h2, DeltaFifo.finish]
    rcases DeltaFifo.pop_cases h.sim (process key hd s.items (pendingOf k log) 0).2.2 with
      ⟨h1, -⟩ | ⟨k', rest', hq', hp', h2'⟩
    · rw [hq] at h1; simp at h1
    · rw [hq] at hq'
      simp only [List.cons.injEq] at hq'
      obtain ⟨rfl, rfl⟩ := hq'
      have : ∃ e, (DeltaFifo.step key s.q
          (.pop (process key hd s.items (pendingOf k log) 0).2.2)).2
          = .popped k (pendingOf k log) e 0 := by
        simp only [DeltaFifo.step, h2']
        cases (process key hd s.items (pendingOf k log) 0).2.2 with
        | requeue c => cases c <;> exact ⟨_, rfl⟩
        | ok => exact ⟨_, rfl⟩
        | error => exact ⟨_, rfl⟩
        | cancelled => exact ⟨_, rfl⟩
      obtain ⟨e, he⟩ := this
      exact ⟨k, rest, e, _, hq, hp, hn, rfl, by simp only [pop, hn, DeltaFifo.step],
        by simp only [pop, hn], by simp only [pop, hn, DeltaFifo.step], he⟩

/-- The log entries of an event. -/
def evEntries (key : O → Option K) (s : State K O) (log : List (Entry K O)) (e : Ev K O) :
    List (Entry K O) :=
  match e with
  | .pop h => match nextDeltas s.q with
    | none => []
    | some ds => entries key log (.pop (process key h s.items ds 0).2.2, (step key s e).2.2)
  | e => match opOf s e with
    | none => []
    | some o => entries key log (o, (step key s e).2.2)

theorem inv_step {key : O → Option K} {s : State K O} {log : List (Entry K O)}
    (h : Inv key s log) (e : Ev K O) :
    Inv key (step key s e).1 (log ++ evEntries key s log e) ∧
    (step key s e).2.1.foldl (see key) (viewOf s.items) = viewOf (step key s e).1.items ∧
    AllCoherent key (viewOf s.items) (step key s e).2.1 := by
  by_cases hop : ∃ o, opOf s e = some o
  · obtain ⟨o, ho⟩ := hop
    have he : evEntries key s log e = entries key log (o, (call key s o).2.2) := by
      cases e <;> simp_all [evEntries, step_op ho] <;> simp [opOf] at ho
    rw [he, step_op ho]
    exact ⟨inv_call h e o ho, rfl, trivial⟩
  · cases e with
    | pop hd =>
      rcases pop_spec h hd with ⟨h1, h2⟩ | ⟨k, rest, e, r, hq, hp, hn, rfl, h2, h3, h4, h5⟩
      · have hn : nextDeltas s.q = none := by
          rcases DeltaFifo.pop_cases h.sim .ok with ⟨-, h2⟩ | ⟨k, rest, hq, -⟩
          · simp only [nextDeltas, h2]; cases s.q.closed <;> rfl
          · rw [h1] at hq; simp at hq
        simp only [evEntries, hn, step, h2]
        exact ⟨by simpa using h, rfl, trivial⟩
      · simp only [evEntries, hn, step]
        rw [h3, h4, h2]
        obtain ⟨n, a, b, c, ef, f, g1, g, l, m, o⟩ := process_spec hd k (pendingOf k log) s.items 0
          h.wf (h.keyed k)
        refine ⟨⟨DeltaFifo.sim_step h.sim _, b, ?_, ?_⟩, f, g1⟩
        · intro j x hx
          by_cases hj : j = k
          · subst hj
            rw [ef] at hx
            rcases List.eq_nil_or_concat ((pendingOf j log).take n) with h0 | ⟨ds, d, h0⟩
            · rw [h0] at hx
              exact h.own j x hx
            · rw [h0, List.concat_eq_append, after_snoc] at hx
              split at hx
              · simp at hx
              · simp only [Option.some.injEq] at hx
                subst hx
                refine h.keyed j d ?_
                have : d ∈ (pendingOf j log).take n := by rw [h0]; simp
                exact List.mem_of_mem_take this
          · rw [c j hj] at hx
            exact h.own j x hx
        · rw [h5]
          have hpop : Keyed key (log ++ [.popped k]) := by
            intro j d hjd
            rw [DeltaFifo.pendingOf_popped] at hjd
            split at hjd
            · simp at hjd
            · exact h.keyed j d hjd
          rcases hro : (process key hd s.items (pendingOf k log) 0).2.2 with _ | c | _ | _
          · exact hpop
          · simp only [entries]
            rw [List.append_cons]
            intro j d hjd
            rw [DeltaFifo.pendingOf_putBack] at hjd
            split at hjd
            · rename_i hj
              rw [← hj.1]
              exact h.keyed k d hjd
            · exact hpop j d hjd
          · exact hpop
          · exact hpop
    | _ => exact absurd ⟨_, rfl⟩ hop

/-- A pop without `RequeueError`. -/
theorem pop_norequeue {key : O → Option K} {s : State K O} {log : List (Entry K O)}
    (h : Inv key s log) (hd : Nat → Outcome) (hr : ∀ i c, hd i ≠ .requeue c) :
    (s.q.queue = [] ∧ step key s (.pop hd) = (s, [], if s.q.closed then .closedError else .blocked)
      ∧ evEntries key s log (.pop hd) = []) ∨
    (∃ k, s.q.queue.head? = some k ∧ pendingOf k log ≠ [] ∧
      evEntries key s log (.pop hd) = [.popped k] ∧
      (step key s (.pop hd)).1.items = (process key hd s.items (pendingOf k log) 0).1 ∧
      (step key s (.pop hd)).2.1 = (process key hd s.items (pendingOf k log) 0).2.1) := by
  rcases pop_spec h hd with ⟨h1, h2⟩ | ⟨k, rest, e, r, hq, hp, hn, rfl, h2, h3, h4, h5⟩
  · left
    refine ⟨h1, h2, ?_⟩
    have hn : nextDeltas s.q = none := by
      rcases DeltaFifo.pop_cases h.sim .ok with ⟨-, h2⟩ | ⟨k, rest, hq, -⟩
      · simp only [nextDeltas, h2]; cases s.q.closed <;> rfl
      · rw [h1] at hq; simp at hq
    simp only [evEntries, hn]
  · right
    refine ⟨k, by rw [hq]; rfl, hp, ?_, by simp only [step]; rw [h2], h3⟩
    simp only [evEntries, hn, step]
    rw [h4, h5]
    obtain ⟨n, a, b, c, ef, f, g1, g, l, m, o⟩ := process_spec hd k (pendingOf k log) s.items 0
      h.wf (h.keyed k)
    rcases hro : (process key hd s.items (pendingOf k log) 0).2.2 with _ | c | _ | _
    · rfl
    · obtain ⟨j, hj⟩ := m c hro
      exact absurd hj (hr j c)
    · rfl
    · rfl

theorem fit_step {key : O → Option K} {s : State K O} {log : List (Entry K O)}
    (h : Inv key s log) (hf : Fit s.items log) (e : Ev K O) (hr : Ev.noRequeue e) :
    Fit (step key s e).1.items (log ++ evEntries key s log e) ∧
    AllSensible key (viewOf s.items) (step key s e).2.1 := by
  by_cases hop : ∃ o, opOf s e = some o
  · obtain ⟨o, ho⟩ := hop
    have he : evEntries key s log e = entries key log (o, (call key s o).2.2) := by
      cases e <;> simp_all [evEntries, step_op ho] <;> simp [opOf] at ho
    rw [he, step_op ho]
    exact ⟨fit_entries hf e o _ ho, trivial⟩
  · cases e with
    | pop hd =>
      rcases pop_norequeue h hd hr with ⟨-, h2, h3⟩ | ⟨k, -, hp, h2, h3, h4⟩
      · rw [h2, h3]
        exact ⟨by simpa using hf, trivial⟩
      · obtain ⟨n, a, b, c, ef, f, g1, g, l, m, o⟩ := process_spec hd k (pendingOf k log) s.items 0
          h.wf (h.keyed k)
        rw [h2, h3, h4]
        refine ⟨?_, g (hf k)⟩
        intro j
        rw [DeltaFifo.pendingOf_popped]
        split
        · trivial
        · rename_i hj
          rw [c j (Ne.symm hj)]
          exact hf j
    | _ => exact absurd ⟨_, rfl⟩ hop

/-- The log of a history. -/
def evLog (key : O → Option K) (s : State K O) (log : List (Entry K O)) :
    List (Ev K O) → List (Entry K O)
  | [] => log
  | e :: es => evLog key (step key s e).1 (log ++ evEntries key s log e) es

theorem inv_exec {key : O → Option K} (es : List (Ev K O)) : ∀ {s : State K O}
    {log : List (Entry K O)}, Inv key s log →
    Inv key (exec key s es) (evLog key s log es) ∧
    (notes key s es).foldl (see key) (viewOf s.items) = viewOf (exec key s es).items ∧
    AllCoherent key (viewOf s.items) (notes key s es) := by
  induction es with
  | nil => intro s log h; exact ⟨h, rfl, trivial⟩
  | cons e es ih =>
    intro s log h
    obtain ⟨h1, h2, h3⟩ := inv_step h e
    obtain ⟨h4, h5, h6⟩ := ih h1
    refine ⟨h4, ?_, ?_⟩
    · simp only [notes, List.foldl_append, h2, exec]
      exact h5
    · simp only [notes]
      have : ∀ (a : List (Note K O)) (v : View K O), AllCoherent key v a →
          ∀ b, AllCoherent key (a.foldl (see key) v) b → AllCoherent key v (a ++ b) := by
        intro a
        induction a with
        | nil => intro v _ b hb; exact hb
        | cons n a ih => intro v ha b hb; exact ⟨ha.1, ih _ ha.2 b hb⟩
      exact this _ _ h3 _ (by rw [h2]; exact h6)

theorem fit_exec {key : O → Option K} (es : List (Ev K O)) : ∀ {s : State K O}
    {log : List (Entry K O)}, Inv key s log → Fit s.items log → (∀ e ∈ es, Ev.noRequeue e) →
    AllSensible key (viewOf s.items) (notes key s es) := by
  induction es with
  | nil => intro s log _ _ _; trivial
  | cons e es ih =>
    intro s log h hf hr
    obtain ⟨h1, h2, -⟩ := inv_step h e
    obtain ⟨h3, h4⟩ := fit_step h hf e (hr e (by simp))
    have := ih h1 h3 (fun e' h' => hr e' (by simp [h']))
    simp only [notes]
    have app : ∀ (a : List (Note K O)) (v : View K O), AllSensible key v a →
        ∀ b, AllSensible key (a.foldl (see key) v) b → AllSensible key v (a ++ b) := by
      intro a
      induction a with
      | nil => intro v _ b hb; exact hb
      | cons n a ih => intro v ha b hb; exact ⟨ha.1, ih _ ha.2 b hb⟩
    exact app _ _ h4 _ (by rw [h2]; exact this)

/-! ## Convergence -/

/-- What the store will have under `k` when the pending changes have been applied. -/
def eventual (items : PyDict K (Obj K O)) (log : List (Entry K O)) : View K O :=
  fun k => after (items.get? k) (pendingOf k log)

theorem known_get (items : PyDict K (Obj K O)) (k : K) :
    isKnown (some (known items)) k = (items.get? k).isSome := rfl

theorem after_merge_strong (v : Option (Obj K O)) (ds : Deltas K O) (d : Delta K O)
    (h : d.type ≠ .sync) :
    after v (merge ds d) = if d.type = .deleted then none else some d.object := by
  classical
  rw [after_merge]
  simp only [h, false_and, if_false]

theorem watched_congr (key : O → Option K) (k : K) (v w : View K O) (h : v k = w k) (e : Ev K O) :
    watched key v e k = watched key w e k := by
  cases e with
  | replace xs => rfl
  | resync => exact h
  | pop _ => exact h
  | add x | update x | delete x =>
    simp only [watched]
    cases keyOf key x with
    | none => exact h
    | some j => simp only [View.put, h]

theorem foldl_watched_congr (key : O → Option K) (k : K) (es : List (Ev K O)) :
    ∀ v w : View K O, v k = w k → es.foldl (watched key) v k = es.foldl (watched key) w k := by
  induction es with
  | nil => intro v w h; exact h
  | cons e es ih => intro v w h; exact ih _ _ (watched_congr key k v w h e)

/-- A pop of something else leaves `j` alone. -/
theorem pop_other {key : O → Option K} {s : State K O} {log : List (Entry K O)}
    (h : Inv key s log) (hd : Nat → Outcome) (j : K) (hj : s.q.queue.head? ≠ some j) :
    (step key s (.pop hd)).1.items.get? j = s.items.get? j ∧
    pendingOf j (log ++ evEntries key s log (.pop hd)) = pendingOf j log := by
  rcases pop_spec h hd with ⟨h1, h2⟩ | ⟨k, rest, e, r, hq, hp, hn, rfl, h2, h3, h4, h5⟩
  · have hn : nextDeltas s.q = none := by
      rcases DeltaFifo.pop_cases h.sim .ok with ⟨-, h2⟩ | ⟨k, rest, hq, -⟩
      · simp only [nextDeltas, h2]; cases s.q.closed <;> rfl
      · rw [h1] at hq; simp at hq
    simp only [evEntries, hn, step, h2, List.append_nil, and_self]
  · have hjk : k ≠ j := by rintro rfl; rw [hq] at hj; exact hj rfl
    obtain ⟨n, a, b, c, ef, f, g1, g, l, m, o⟩ := process_spec hd k (pendingOf k log) s.items 0
      h.wf (h.keyed k)
    simp only [evEntries, hn, step]
    rw [h4, h5, h2]
    refine ⟨c j (Ne.symm hjk), ?_⟩
    rcases hro : (process key hd s.items (pendingOf k log) 0).2.2 with _ | c | _ | _
    · simp only [entries]; rw [DeltaFifo.pendingOf_popped, if_neg hjk]
    · simp only [entries]
      rw [List.append_cons, DeltaFifo.pendingOf_putBack, if_neg (fun hc => hjk hc.1),
        DeltaFifo.pendingOf_popped, if_neg hjk]
    · simp only [entries]; rw [DeltaFifo.pendingOf_popped, if_neg hjk]
    · simp only [entries]; rw [DeltaFifo.pendingOf_popped, if_neg hjk]

/-- A careful pop does not change what the store will have. -/
theorem eventual_pop {key : O → Option K} {s : State K O} {log : List (Entry K O)}
    (h : Inv key s log) (hd : Nat → Outcome) (j : K) (hc : CarefulAt j s (.pop hd)) :
    eventual (step key s (.pop hd)).1.items (log ++ evEntries key s log (.pop hd)) j
      = eventual s.items log j := by
  by_cases hj : s.q.queue.head? = some j
  · obtain ⟨hc1, hc2⟩ := hc hj
    simp only [eventual]
    rcases pop_norequeue h hd hc1 with ⟨h1, h2, h3⟩ | ⟨k, hk, hp, h2, h3, h4⟩
    · rw [h1] at hj; simp at hj
    · rw [hk] at hj
      simp only [Option.some.injEq] at hj
      subst hj
      obtain ⟨n, a, b, c, ef, f, g1, g, l, m, o⟩ := process_spec hd k (pendingOf k log) s.items 0
        h.wf (h.keyed k)
      rw [h2, h3, DeltaFifo.pendingOf_popped]
      simp only [if_true]
      rw [ef, o]
      · simp [after]
      · intro i hi
        refine hc2 i ?_
        rw [pending, h.sim.getD]
        omega
  · obtain ⟨h1, h2⟩ := pop_other h hd j hj
    simp only [eventual, h1, h2]

theorem resync_pending {key : O → Option K} {s : State K O} {log : List (Entry K O)}
    (h : Inv key s log) (j : K) :
    pendingOf j (log ++ evEntries key s log .resync) =
      match s.items.get? j with
      | none => pendingOf j log
      | some x => if pendingOf j log = [] then [⟨.sync, x⟩] else pendingOf j log := by
  simp only [evEntries, opOf, step, call, entries]
  have hf : ∀ k ∈ (known s.items).keys, ∃ x, (known s.items).get k = some (some x) ∧
      keyOf key x = some k := by
    intro k hk
    obtain ⟨x, hx⟩ := Option.isSome_iff_exists.1 (PyDict.get?_isSome.2 hk)
    exact ⟨x, by simp only [known, hx], h.own k x hx⟩
  have hrs := DeltaFifo.resyncs_eq key (known s.items) log
    (fun k => (s.items.get? k).getD (.gone k)) (known s.items).keys []
    (by
      intro k hk
      obtain ⟨x, hx, hx2⟩ := hf k hk
      simp only [known, Option.some.injEq] at hx
      simp only [known, hx, Option.getD_some, hx2, and_self]) h.wf (by simp)
  rw [hrs, DeltaFifo.pendingOf_changes j (fun k => ⟨.sync, (s.items.get? k).getD (.gone k)⟩) _ _
    (List.Nodup.filter _ (show (known s.items).keys.Nodup from h.wf))]
  simp only [List.mem_filter, decide_eq_true_eq]
  cases hg : s.items.get? j with
  | none =>
    have : j ∉ (known s.items).keys := by
      intro hc
      have := PyDict.get?_isSome.2 hc
      rw [hg] at this; simp at this
    simp only [this, false_and, if_false]
  | some x =>
    have : j ∈ (known s.items).keys := PyDict.get?_isSome.1 (by rw [hg]; rfl)
    simp only [this, true_and, Option.getD_some]
    by_cases hp : pendingOf j log = []
    · simp [hp, merge]
    · simp [hp]

/-- A watch event decides what the store will have. -/
theorem eventual_event {key : O → Option K} {s : State K O} {log : List (Entry K O)}
    (e : Ev K O) (he : ∀ h, e ≠ .pop h) (hn : Ev.noList e) (hr : e ≠ .resync) :
    eventual (step key s e).1.items (log ++ evEntries key s log e)
      = watched key (eventual s.items log) e := by
  cases e with
  | add x =>
    funext j
    simp only [evEntries, opOf, step, call, entries, watched, eventual]
    cases hk : keyOf key x with
    | none => simp only [List.append_nil, eventual]
    | some k =>
      simp only [DeltaFifo.pendingOf_change, View.put]
      by_cases hj : k = j
      · subst hj
        simp only [if_true]
        rw [after_merge_strong _ _ _ (by simp)]; rfl
      · simp only [hj, Ne.symm hj, if_false, eventual]
  | update x =>
    funext j
    simp only [evEntries, opOf, step, call, entries, watched, eventual]
    cases hk : keyOf key x with
    | none => simp only [List.append_nil, eventual]
    | some k =>
      simp only [DeltaFifo.pendingOf_change, View.put]
      by_cases hj : k = j
      · subst hj
        simp only [if_true]
        rw [after_merge_strong _ _ _ (by simp)]; rfl
      · simp only [hj, Ne.symm hj, if_false, eventual]
  | delete x =>
    funext j
    simp only [evEntries, opOf, step, call, watched, eventual]
    cases hk : keyOf key x with
    | none => simp only [entries, hk, List.append_nil, eventual]
    | some k =>
      rw [DeltaFifo.pendingOf_delete key log _ x k hk j]
      simp only [View.put, known_get]
      by_cases hj : j = k
      · subst hj
        simp only [true_and, if_true]
        split
        · rw [after_merge_strong _ _ _ (by simp)]; rfl
        · rename_i hcon
          simp only [not_or, Bool.not_eq_true, Option.isSome_eq_false_iff, Option.isNone_iff_eq_none,
            ne_eq, not_not] at hcon
          rw [hcon.1, hcon.2]; rfl
      · simp only [hj, false_and, if_false, eventual]
  | replace xs => exact hn.elim
  | resync => exact absurd rfl hr
  | pop hd => exact absurd rfl (he hd)

/-- The effect of an event other than a list on what the store will have under `k`. -/
theorem eventual_step {key : O → Option K} {s : State K O} {log : List (Entry K O)}
    (h : Inv key s log) (k : K) (e : Ev K O) (hn : Ev.noList e) (hc : CarefulAt k s e) :
    eventual (step key s e).1.items (log ++ evEntries key s log e) k
      = watched key (eventual s.items log) e k := by
  cases e with
  | pop hd => exact eventual_pop h hd k hc
  | resync =>
    simp only [eventual, watched]
    rw [resync_pending h k]
    show after (s.items.get? k) _ = _
    cases hg : s.items.get? k with
    | none => rfl
    | some x =>
      simp only
      by_cases hp : pendingOf k log = []
      · rw [if_pos hp, hp]; simp [after]
      · rw [if_neg hp]
  | replace xs => exact hn.elim
  | add x => rw [eventual_event _ (by simp) hn (by simp)]
  | update x => rw [eventual_event _ (by simp) hn (by simp)]
  | delete x => rw [eventual_event _ (by simp) hn (by simp)]

theorem eventual_exec {key : O → Option K} (k : K) (es : List (Ev K O)) : ∀ {s : State K O}
    {log : List (Entry K O)}, Inv key s log → (∀ e ∈ es, Ev.noList e) → AllCarefulAt key k s es →
    eventual (exec key s es).items (evLog key s log es) k
      = es.foldl (watched key) (eventual s.items log) k := by
  induction es with
  | nil => intro s log _ _ _; rfl
  | cons e es ih =>
    intro s log h hn hc
    simp only [exec, evLog, List.foldl_cons]
    rw [ih (inv_step h e).1 (fun e' h' => hn e' (by simp [h'])) hc.2]
    exact foldl_watched_congr key k es _ _ (eventual_step h k e (hn e (by simp)) hc.1)

theorem doomed_iff {key : O → Option K} {s : State K O} {log : List (Entry K O)}
    (h : Inv key s log) (k : K) : NewestDeleted s k ↔ Doomed (pendingOf k log) := by
  simp only [NewestDeleted, Doomed, pending, h.sim.getD]

theorem not_doomed_sync (ds : Deltas K O) (x : Obj K O) (h : ¬ Doomed ds) :
    ¬ Doomed (merge ds ⟨.sync, x⟩) := by
  unfold merge
  cases hl : ds.getLast? with
  | none => rintro ⟨l, h1, h2⟩; simp at h1; subst h1; simp at h2
  | some l =>
    have hd : l.type ≠ .deleted := fun hd => h ⟨l, hl, hd⟩
    simp only [hd, false_and, if_false]
    rintro ⟨l, h1, h2⟩
    simp at h1; subst h1; simp at h2

/-- Of the listed objects with a key the last counts. -/
theorem after_syncs (v : Option (Obj K O)) (xs : List (Obj K O)) : ∀ ds : Deltas K O,
    ¬ Doomed ds →
    after v (xs.foldl (fun ds x => merge ds ⟨.sync, x⟩) ds) =
      xs.foldl (fun _ x => some x) (after v ds) := by
  classical
  induction xs with
  | nil => intro ds _; rfl
  | cons x xs ih =>
    intro ds hd
    simp only [List.foldl_cons]
    rw [ih _ (not_doomed_sync ds x hd), after_merge]
    simp [hd]

/-- Step of `listed`. -/
theorem listed_eq (key : O → Option K) (k : K) (xs : List (Obj K O)) : ∀ v : View K O,
    (xs.foldl (listStep key) v) k =
    (xs.filter fun x => keyOf key x = some k).foldl (fun _ x => some x) (v k) := by
  induction xs with
  | nil => intro v; rfl
  | cons x xs ih =>
    intro v
    simp only [List.foldl_cons]
    rw [ih]
    cases hk : keyOf key x with
    | none => simp [hk, listStep]
    | some j =>
      by_cases hj : j = k
      · subst hj; simp [hk, View.put, listStep]
      · simp [hk, View.put, hj, Ne.symm hj, listStep]

theorem foldl_last (xs : List (Obj K O)) (h : xs ≠ []) : ∀ u v : Option (Obj K O),
    xs.foldl (fun _ x => some x) u = xs.foldl (fun _ x => some x) v := by
  cases xs with
  | nil => exact absurd rfl h
  | cons x xs => intro u v; rfl

/-- A list at a clean moment sets the eventual state. -/
theorem eventual_replace {key : O → Option K} {s : State K O} {log : List (Entry K O)}
    (h : Inv key s log) (xs : List (Obj K O)) (hx : ∀ x ∈ xs, (keyOf key x).isSome)
    (k : K) (hc : CleanAt key s xs k) :
    eventual (step key s (.replace xs)).1.items (log ++ evEntries key s log (.replace xs)) k
      = listed key xs k := by
  classical
  simp only [evEntries, opOf, eventual]
  simp only [step, call]
  rw [DeltaFifo.pendingOf_replace_known key log (known s.items) xs hx h.wf, listed, listed_eq]
  by_cases hl : ∃ x ∈ xs, keyOf key x = some k
  · rw [if_pos hl]
    have hnd := hc.1 hl
    obtain ⟨x, h1, h2⟩ := hl
    rw [doomed_iff h] at hnd
    rw [after_syncs _ _ _ hnd]
    apply foldl_last
    intro he
    rw [List.filter_eq_nil_iff] at he
    exact he x h1 (by simpa using h2)
  · rw [if_neg hl]
    have he : (xs.filter fun x => keyOf key x = some k) = [] := by
      rw [List.filter_eq_nil_iff]
      intro x hx2 hx3
      exact hl ⟨x, hx2, by simpa using hx3⟩
    rw [he]
    simp only [List.foldl_nil]
    by_cases hs : k ∈ (known s.items).keys
    · rw [if_pos hs, after_merge_strong _ _ _ (by simp)]; rfl
    · rw [if_neg hs]
      have hs' : s.items.get? k = none := by
        by_contra hcon
        exact hs (PyDict.get?_isSome.1 (Option.isSome_iff_ne_none.2 hcon))
      by_cases hp : pendingOf k log = []
      · rw [hp, hs']; rfl
      · have := hc.2 (by rw [pending, h.sim.getD]; exact hp)
          (fun x h1 h2 => hl ⟨x, h1, h2⟩)
        rcases this with h1 | h1
        · exact absurd hs' h1
        · rw [doomed_iff h] at h1
          obtain ⟨l, h2, h3⟩ := h1
          rw [after_last_deleted _ _ _ h2 h3]

/-- With nothing pending the store is the eventual state. -/
theorem eventual_drained {key : O → Option K} {s : State K O} {log : List (Entry K O)}
    (h : Inv key s log) (hd : Drained s) (k : K) : eventual s.items log k = s.items.get? k := by
  have : pendingOf k log = [] := by
    by_contra hc
    have := (h.sim.mem k).2 hc
    rw [← h.sim.queue, hd] at this
    simp at this
  rw [eventual, this]; rfl

theorem pop_ok_queue {key : O → Option K} {s : State K O} {log : List (Entry K O)}
    (h : Inv key s log) : (step key s (.pop fun _ => .ok)).1.q.queue = s.q.queue.tail := by
  have h' := (inv_step h (.pop fun _ => .ok)).1
  rcases pop_norequeue h (fun _ => .ok) (by simp) with ⟨h1, h2, h3⟩ | ⟨k, hk, hp, h2, -⟩
  · rw [h2, h1]; rfl
  · rw [h2] at h'
    have h3 := h'.sim.order
    rw [DeltaFifo.orderOf_popped, h.sim.order] at h3
    rw [← h3]
    have hnd : s.q.queue.Nodup := by rw [h.sim.queue]; exact h.sim.wf
    cases hq : s.q.queue with
    | nil => rw [hq] at hk; simp at hk
    | cons j rest =>
      rw [hq] at hk hnd
      simp only [List.head?_cons, Option.some.injEq] at hk
      subst hk
      rw [List.nodup_cons] at hnd
      simp only [List.tail_cons, List.filter_cons, ne_eq, not_true_eq_false, decide_false]
      simp only [Bool.false_eq_true, if_false]
      rw [List.filter_eq_self]
      intro a ha
      have : a ≠ j := by rintro rfl; exact hnd.1 ha
      simpa using this

/-- As many successful pops as there are pending keys drain the queue. -/
theorem drains {key : O → Option K} (n : Nat) : ∀ {s : State K O} {log : List (Entry K O)},
    Inv key s log → s.q.queue.length ≤ n →
    Drained (exec key s (List.replicate n (.pop fun _ => .ok))) := by
  induction n with
  | zero =>
    intro s log h hn
    simp only [List.replicate_zero, exec]
    exact List.eq_nil_of_length_eq_zero (by omega)
  | succ n ih =>
    intro s log h hn
    rw [List.replicate_succ]
    refine ih (inv_step h (.pop fun _ => .ok)).1 ?_
    rw [pop_ok_queue h, List.length_tail]
    omega

theorem exec_append {key : O → Option K} (as bs : List (Ev K O)) : ∀ s : State K O,
    exec key s (as ++ bs) = exec key (exec key s as) bs := by
  induction as with
  | nil => intro s; rfl
  | cons a as ih => intro s; exact ih _

end Aiok8s.Informer
