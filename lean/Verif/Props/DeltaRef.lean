import Verif.Spec.DeltaRef
import Mathlib.Order.Basic
import Mathlib.Order.Nat
/-!
# C112: the DeltaFIFO and its callers do not change each other's lists
-/
set_option linter.unusedSimpArgs false
set_option linter.unusedSectionVars false
namespace Aiok8s.DeltaRef
open DeltaFifo (Obj DType Delta Deltas Known Outcome PopEnd keyOf dedupDeltas knownMarker pendingMarker)
open Spec
variable {K O : Type} [DecidableEq K]

/-! ## Dictionaries of addresses and of lists -/

private def deref (h : Nat → Deltas K O) (d : PyDict K Nat) : PyDict K (Deltas K O) := d.map fun p => (p.1, h p.2)

private theorem deref_get (h : Nat → Deltas K O) (d : PyDict K Nat) (k : K) :
    (deref h d).get? k = (d.get? k).map h := by
  induction d with
  | nil => rfl
  | cons p d ih =>
    obtain ⟨k', r⟩ := p
    by_cases hk : k' = k
    · simp [deref, PyDict.get?, hk]
    · simpa [deref, PyDict.get?, hk] using ih

private theorem deref_has (h : Nat → Deltas K O) (d : PyDict K Nat) (k : K) : (deref h d).has k = d.has k := by
  simp [PyDict.has, deref_get]

private theorem deref_del (h : Nat → Deltas K O) (d : PyDict K Nat) (k : K) :
    deref h (d.del k) = (deref h d).del k := by
  induction d with
  | nil => rfl
  | cons p d ih =>
    obtain ⟨k', r⟩ := p
    by_cases hk : k' = k
    · simp [deref, PyDict.del, hk]
    · simpa [deref, PyDict.del, hk] using ih

private theorem deref_set (h : Nat → Deltas K O) (d : PyDict K Nat) (k : K) (r : Nat) :
    deref h (d.set k r) = (deref h d).set k (h r) := by
  induction d with
  | nil => rfl
  | cons p d ih =>
    obtain ⟨k', r'⟩ := p
    by_cases hk : k' = k
    · simp [deref, PyDict.set, hk]
    · simpa [deref, PyDict.set, hk] using ih

private theorem deref_keys (h : Nat → Deltas K O) (d : PyDict K Nat) : (deref h d).keys = d.keys := by
  simp [deref, PyDict.keys]

private theorem deref_values (h : Nat → Deltas K O) (d : PyDict K Nat) : (deref h d).values = d.values.map h := by
  simp [deref, PyDict.values]

private theorem deref_congr {h h' : Nat → Deltas K O} {d : PyDict K Nat} (hh : ∀ p ∈ d, h' p.2 = h p.2) :
    deref h' d = deref h d := by
  unfold deref
  exact List.map_congr_left fun p hp => by rw [hh p hp]

private theorem mem_del {d : PyDict K Nat} {k : K} {p : K × Nat} (h : p ∈ d.del k) : p ∈ d := by
  induction d with
  | nil => simp [PyDict.del] at h
  | cons q d ih =>
    obtain ⟨k', r⟩ := q
    by_cases hk : k' = k
    · simp only [PyDict.del, hk, if_true] at h
      exact List.mem_cons_of_mem _ h
    · simp only [PyDict.del, hk, if_false] at h
      rcases List.mem_cons.1 h with h | h
      · exact h ▸ List.mem_cons_self
      · exact List.mem_cons_of_mem _ (ih h)

private theorem mem_set {d : PyDict K Nat} {k : K} {r : Nat} {p : K × Nat} (h : p ∈ d.set k r) :
    p ∈ d ∨ p = (k, r) := by
  induction d with
  | nil => exact Or.inr (by simpa [PyDict.set] using h)
  | cons q d ih =>
    obtain ⟨k', r'⟩ := q
    by_cases hk : k' = k
    · simp only [PyDict.set, hk, if_true] at h
      rcases List.mem_cons.1 h with h | h
      · exact Or.inr h
      · exact Or.inl (List.mem_cons_of_mem _ h)
    · simp only [PyDict.set, hk, if_false] at h
      rcases List.mem_cons.1 h with h | h
      · exact Or.inl (h ▸ List.mem_cons_self)
      · rcases ih h with h | h
        · exact Or.inl (List.mem_cons_of_mem _ h)
        · exact Or.inr h

/-! ## The queue with values -/

/-- The same queue with the lists as values. -/
private def view (s : State K O) : DeltaFifo.State K O :=
  ⟨deref s.heap s.items, s.queue, s.populated, s.count, s.closed⟩

private theorem names_of_keyOf {key : O → Option K} {ds : Deltas K O} {d : Delta K O} {k : K}
    (h1 : ds.getLast? = some d) (h2 : keyOf key d.object = some k) : Names key ds k := by
  refine ⟨d, h1, ?_⟩
  cases ho : d.object <;> rw [ho] at h2 <;> simp only [keyOf, Option.some.injEq] at h2 <;> exact h2

private theorem keyOf_of_names {key : O → Option K} {ds : Deltas K O} {k : K} (h : Names key ds k) :
    ∃ d, ds.getLast? = some d ∧ keyOf key d.object = some k := by
  obtain ⟨d, h1, h2⟩ := h
  refine ⟨d, h1, ?_⟩
  cases ho : d.object <;> rw [ho] at h2 <;> simp only at h2 <;> simp [keyOf, h2]

private theorem names_unique {key : O → Option K} {ds : Deltas K O} {k k' : K} (h : Names key ds k)
    (h' : Names key ds k') : k = k' := by
  obtain ⟨d, h1, h2⟩ := keyOf_of_names h
  obtain ⟨d', h1', h2'⟩ := keyOf_of_names h'
  rw [h1, Option.some.injEq] at h1'
  subst h1'
  rw [h2, Option.some.injEq] at h2'
  exact h2'

/-- The newest delta of the combined list is the new one or the newest of the old list. -/
private theorem dedup_last (ds : Deltas K O) (a : Delta K O) :
    (dedupDeltas (ds ++ [a])).getLast? = some a ∨
      ∃ b, ds.getLast? = some b ∧ (dedupDeltas (ds ++ [a])).getLast? = some b := by
  rcases List.eq_nil_or_concat ds with rfl | ⟨ds, b, rfl⟩
  · exact Or.inl rfl
  · simp only [dedupDeltas, List.concat_eq_append, List.reverse_append, List.reverse_cons, List.reverse_nil,
      List.nil_append, List.cons_append]
    cases hd : DeltaFifo.isDup a b with
    | none => exact Or.inl (by simp)
    | some out =>
      have : out = a ∨ out = b := by
        simp only [DeltaFifo.isDup] at hd
        split at hd
        · cases hd
        · split at hd <;> simp only [Option.some.injEq] at hd
          · exact Or.inl hd.symm
          · exact Or.inr hd.symm
      rcases this with rfl | rfl
      · exact Or.inl (by simp)
      · exact Or.inr ⟨out, by simp, by simp⟩

/-- What holds of the queue. -/
private structure Good (key : O → Option K) (s : State K O) : Prop where
  lt : ∀ p ∈ s.items, p.2 < s.next
  named : ∀ p ∈ s.items, Names key (s.heap p.2) p.1
  blank : ∀ r, s.next ≤ r → s.heap r = []
  wf : s.items.WF

/-- What the queue's own calls do to the lists. -/
private structure Grow (s s' : State K O) : Prop where
  le : s.next ≤ s'.next
  keep : ∀ r, r < s.next → s'.heap r = s.heap r
  from_ : ∀ p ∈ s'.items, p ∈ s.items ∨ s.next ≤ p.2

private theorem Grow.refl (s : State K O) : Grow s s := ⟨le_rfl, fun _ _ => rfl, fun _ h => Or.inl h⟩

private theorem Grow.trans {a b c : State K O} (h : Grow a b) (g : Grow b c) : Grow a c :=
  ⟨h.le.trans g.le, fun r hr => (g.keep r (hr.trans_le h.le)).trans (h.keep r hr), fun p hp => by
    rcases g.from_ p hp with hp | hp
    · exact h.from_ p hp
    · exact Or.inr (h.le.trans hp)⟩

private theorem lookup_view (s : State K O) (k : K) : (view s).items.get? k = lookup s k := deref_get _ _ _

private theorem has_view (s : State K O) (k : K) : (view s).items.has k = s.items.has k := deref_has _ _ _

private theorem willBeDeleted_view (s : State K O) (k : K) : DeltaFifo.willBeDeleted (view s) k = willBeDeleted s k := by
  unfold DeltaFifo.willBeDeleted willBeDeleted
  rw [lookup_view]
  rfl

/-- Making the new list of a key. -/
private theorem put_good {key : O → Option K} {s : State K O} (h : Good key s) {k : K} {new : Deltas K O} {q : List K}
    (hn : Names key new k) :
    Good key { alloc s new with queue := q, items := s.items.set k s.next } ∧
    Grow s { alloc s new with queue := q, items := s.items.set k s.next } ∧
    view { alloc s new with queue := q, items := s.items.set k s.next } =
      { view s with queue := q, items := (view s).items.set k new } := by
  refine ⟨⟨?_, ?_, ?_, PyDict.WF_set h.wf k s.next⟩, ⟨Nat.le_succ _, ?_, ?_⟩, ?_⟩
  · intro p hp
    show p.2 < s.next + 1
    rcases mem_set hp with hp | rfl
    · exact Nat.lt_succ_of_lt (h.lt p hp)
    · exact Nat.lt_succ_self _
  · intro p hp
    show Names key (if p.2 = s.next then new else s.heap p.2) p.1
    rcases mem_set hp with hp | rfl
    · rw [if_neg (Nat.ne_of_lt (h.lt p hp))]
      exact h.named p hp
    · simpa using hn
  · intro r hr
    show (if r = s.next then new else s.heap r) = []
    have hr : s.next + 1 ≤ r := hr
    rw [if_neg (by omega)]
    exact h.blank r (by omega)
  · intro r hr
    show (if r = s.next then new else s.heap r) = s.heap r
    rw [if_neg (by omega)]
  · intro p hp
    rcases mem_set hp with hp | rfl
    · exact Or.inl hp
    · exact Or.inr le_rfl
  · have h1 : deref (alloc s new).heap s.items = deref s.heap s.items :=
      deref_congr fun p hp => by
        show (if p.2 = s.next then new else s.heap p.2) = s.heap p.2
        rw [if_neg (Nat.ne_of_lt (h.lt p hp))]
    have h2 : (alloc s new).heap s.next = new := by simp [alloc]
    simp only [view, deref_set, h1, h2]
    rfl

private theorem queueAction_ok {key : O → Option K} {s : State K O} (h : Good key s) (t : DType) (x : Obj K O) :
    Good key (queueAction key s t x).1 ∧ Grow s (queueAction key s t x).1 ∧
    DeltaFifo.queueAction key (view s) t x = (view (queueAction key s t x).1, (queueAction key s t x).2) := by
  cases hk : keyOf key x with
  | none =>
    simp only [queueAction, DeltaFifo.queueAction, hk]
    exact ⟨h, Grow.refl s, trivial⟩
  | some k =>
    simp only [queueAction, DeltaFifo.queueAction, hk, willBeDeleted_view, lookup_view, has_view]
    by_cases hc : t = .sync ∧ willBeDeleted s k = true
    · simp only [hc, and_self, if_true]
      exact ⟨h, Grow.refl s, trivial⟩
    · simp only [if_neg hc]
      have hnames : Names key (dedupDeltas ((lookup s k).getD [] ++ [⟨t, x⟩])) k := by
        rcases dedup_last ((lookup s k).getD []) ⟨t, x⟩ with h1 | ⟨b, h1, h2⟩
        · exact names_of_keyOf h1 hk
        · unfold lookup at h1
          cases hg : s.items.get? k with
          | none => rw [hg] at h1; simp at h1
          | some r =>
            rw [hg] at h1
            obtain ⟨d, h3, h4⟩ := keyOf_of_names (h.named _ (PyDict.get?_mem hg))
            simp only [Option.map_some, Option.getD_some, h3, Option.some.injEq] at h1
            subst h1
            exact names_of_keyOf h2 h4
      have hne : dedupDeltas ((lookup s k).getD [] ++ [⟨t, x⟩]) ≠ [] := by
        obtain ⟨d, h1, -⟩ := hnames
        intro h0
        rw [h0] at h1
        simp at h1
      simp only [if_pos hne, ne_eq, hne, not_false_eq_true, if_true]
      obtain ⟨h1, h2, h3⟩ := put_good (q := if s.items.has k = true then s.queue else s.queue ++ [k]) h hnames
      refine ⟨h1, h2, ?_⟩
      rw [h3]
      rfl

private theorem syncAll_ok {key : O → Option K} (xs : List (Obj K O)) : ∀ {s : State K O}, Good key s →
    Good key (syncAll key s xs).1 ∧ Grow s (syncAll key s xs).1 ∧
    DeltaFifo.syncAll key (view s) xs = (view (syncAll key s xs).1, (syncAll key s xs).2) := by
  induction xs with
  | nil => intro s h; exact ⟨h, Grow.refl s, rfl⟩
  | cons x xs ih =>
    intro s h
    cases hk : keyOf key x with
    | none =>
      simp only [syncAll, DeltaFifo.syncAll, hk]
      exact ⟨h, Grow.refl s, trivial⟩
    | some k =>
      obtain ⟨h1, g1, e1⟩ := queueAction_ok h .sync x
      obtain ⟨h2, g2, e2⟩ := ih h1
      simp only [syncAll, DeltaFifo.syncAll, hk, e1, e2]
      cases hr : syncAll key (queueAction key s .sync x).1 xs with
      | mk s' ks =>
        rw [hr] at h2 g2
        cases ks with
        | none => exact ⟨h2, g1.trans g2, rfl⟩
        | some ks => exact ⟨h2, g1.trans g2, rfl⟩

private theorem deletePending_ok {key : O → Option K} (keys : List K) (rest : List (K × Nat)) :
    ∀ {s : State K O} (old : Nat → Deltas K O), Good key s → (∀ p ∈ rest, p.2 < s.next) →
    (∀ p ∈ rest, s.heap p.2 = old p.2) →
    Good key (deletePending key keys s rest).1 ∧ Grow s (deletePending key keys s rest).1 ∧
    DeltaFifo.deletePending key keys (view s) (deref old rest) =
      (view (deletePending key keys s rest).1, (deletePending key keys s rest).2) := by
  induction rest with
  | nil => intro s old h _ _; exact ⟨h, Grow.refl s, rfl⟩
  | cons p rest ih =>
    intro s old h hl ho
    obtain ⟨k, r⟩ := p
    have hl' : ∀ p ∈ rest, p.2 < s.next := fun p hp => hl p (List.mem_cons_of_mem _ hp)
    have ho' : ∀ p ∈ rest, s.heap p.2 = old p.2 := fun p hp => ho p (List.mem_cons_of_mem _ hp)
    by_cases hk : k ∈ keys
    · simp only [deletePending, deref, List.map_cons, DeltaFifo.deletePending, hk, if_true]
      exact ih old h hl' ho'
    · have hr : s.heap r = old r := ho (k, r) List.mem_cons_self
      obtain ⟨h1, g1, e1⟩ := queueAction_ok h .deleted (pendingMarker k (s.heap r))
      obtain ⟨h2, g2, e2⟩ := ih old h1 (fun p hp => (hl' p hp).trans_le g1.le)
        (fun p hp => (g1.keep _ (hl' p hp)).trans (ho' p hp))
      simp only [deletePending, deref, List.map_cons, DeltaFifo.deletePending, hk, if_false]
      refine ⟨h2, g1.trans g2, ?_⟩
      simp only [deref] at e2
      simp only [← hr, e1, e2]

private theorem deleteKnown_ok {key : O → Option K} (kn : Known K O) (keys rest : List K) :
    ∀ {s : State K O}, Good key s →
    Good key (deleteKnown key kn keys s rest).1 ∧ Grow s (deleteKnown key kn keys s rest).1 ∧
    DeltaFifo.deleteKnown key kn keys (view s) rest =
      (view (deleteKnown key kn keys s rest).1, (deleteKnown key kn keys s rest).2) := by
  induction rest with
  | nil => intro s h; exact ⟨h, Grow.refl s, rfl⟩
  | cons k rest ih =>
    intro s h
    by_cases hk : k ∈ keys
    · simp only [deleteKnown, DeltaFifo.deleteKnown, hk, if_true]
      exact ih h
    · obtain ⟨h1, g1, e1⟩ := queueAction_ok h .deleted (knownMarker kn k)
      obtain ⟨h2, g2, e2⟩ := ih h1
      simp only [deleteKnown, DeltaFifo.deleteKnown, hk, if_false, e1, e2]
      exact ⟨h2, g1.trans g2, trivial⟩

private theorem resyncKeys_ok {key : O → Option K} (kn : Known K O) (rest : List K) :
    ∀ {s : State K O}, Good key s →
    Good key (resyncKeys key kn s rest).1 ∧ Grow s (resyncKeys key kn s rest).1 ∧
    ∃ o, (resyncKeys key kn s rest).2 = .plain o ∧
      DeltaFifo.resyncKeys key kn (view s) rest = (view (resyncKeys key kn s rest).1, o) := by
  induction rest with
  | nil => intro s h; exact ⟨h, Grow.refl s, .ok, rfl, rfl⟩
  | cons k rest ih =>
    intro s h
    cases hg : kn.get k with
    | none => simp only [resyncKeys, DeltaFifo.resyncKeys, hg]; exact ih h
    | some ox =>
      cases ox with
      | none => simp only [resyncKeys, DeltaFifo.resyncKeys, hg]; exact ih h
      | some x =>
        cases hk : keyOf key x with
        | none =>
          simp only [resyncKeys, DeltaFifo.resyncKeys, hg, hk]
          exact ⟨h, Grow.refl s, .keyFunc, rfl, rfl⟩
        | some id =>
          simp only [resyncKeys, DeltaFifo.resyncKeys, hg, hk, lookup_view]
          by_cases hc : (lookup s id).getD [] ≠ []
          · simp only [if_pos hc]
            exact ih h
          · simp only [if_neg hc]
            obtain ⟨h1, g1, e1⟩ := queueAction_ok h .sync x
            obtain ⟨h2, g2, o, e2, e3⟩ := ih h1
            rw [e1]
            exact ⟨h2, g1.trans g2, o, e2, e3⟩

/-- What an own call of the queue with an answer without lists does. -/
private def Plain (key : O → Option K) (s : State K O) (r : State K O × Out K O)
    (v : DeltaFifo.State K O × DeltaFifo.Out K O) : Prop :=
  Good key r.1 ∧ Grow s r.1 ∧ ∃ o, r.2 = .plain o ∧ v = (view r.1, o)

private theorem good_fields {key : O → Option K} {s : State K O} (h : Good key s) (q : List K) (p : Bool) (c : Nat)
    (cl : Bool) : Good key { s with queue := q, populated := p, count := c, closed := cl } :=
  ⟨h.lt, h.named, h.blank, h.wf⟩

private theorem grow_fields {s s' : State K O} (h : Grow s s') (q : List K) (p : Bool) (c : Nat)
    (cl : Bool) : Grow s { s' with queue := q, populated := p, count := c, closed := cl } :=
  ⟨h.le, h.keep, h.from_⟩

private theorem action_ok {key : O → Option K} {s : State K O} (h : Good key s) (t : DType) (x : Obj K O) :
    let r := queueAction key { s with populated := true } t x
    let v := DeltaFifo.queueAction key { view s with populated := true } t x
    Good key r.1 ∧ Grow s r.1 ∧ v = (view r.1, r.2) := by
  obtain ⟨h1, g1, e1⟩ := queueAction_ok (good_fields h s.queue true s.count s.closed) t x
  exact ⟨h1, ⟨g1.le, g1.keep, g1.from_⟩, e1⟩

private theorem delete_ok {key : O → Option K} {s : State K O} (h : Good key s) (kn : Option (Known K O)) (x : Obj K O) :
    Plain key s (delete key s kn x) (DeltaFifo.delete key (view s) kn x) := by
  cases hk : keyOf key x with
  | none =>
    simp only [Plain, delete, DeltaFifo.delete, hk]
    exact ⟨h, Grow.refl s, _, rfl, rfl⟩
  | some k =>
    have hskip : DeltaFifo.skipDelete { view s with populated := true } kn k =
        skipDelete { s with populated := true } kn k := by
      unfold DeltaFifo.skipDelete skipDelete
      rw [show ({ view s with populated := true } : DeltaFifo.State K O).items.has k = s.items.has k from has_view s k]
      rfl
    simp only [Plain, delete, DeltaFifo.delete, hk, hskip]
    by_cases hc : skipDelete { s with populated := true } kn k = true
    · simp only [hc, if_true]
      exact ⟨good_fields h s.queue true s.count s.closed, grow_fields (Grow.refl s) s.queue true s.count s.closed, _,
        rfl, rfl⟩
    · simp only [hc, if_false, Bool.false_eq_true]
      obtain ⟨h1, g1, e1⟩ := action_ok h .deleted x
      refine ⟨h1, g1, _, rfl, ?_⟩
      rw [e1]

private theorem replace_ok {key : O → Option K} {s : State K O} (h : Good key s) (kn : Option (Known K O))
    (xs : List (Obj K O)) : Plain key s (replace key s kn xs) (DeltaFifo.replace key (view s) kn xs) := by
  obtain ⟨h1, g1, e1⟩ := syncAll_ok xs h
  simp only [Plain, replace, DeltaFifo.replace, e1]
  cases hr : syncAll key s xs with
  | mk s1 ks =>
    rw [hr] at h1 g1
    cases ks with
    | none => exact ⟨h1, g1, _, rfl, rfl⟩
    | some ks =>
      have key2 : Good key (deleteVanished key kn ks s1).1 ∧ Grow s1 (deleteVanished key kn ks s1).1 ∧
          DeltaFifo.deleteVanished key kn ks (view s1) =
            (view (deleteVanished key kn ks s1).1, (deleteVanished key kn ks s1).2) := by
        cases kn with
        | none => exact deletePending_ok ks s1.items s1.heap h1 h1.lt (fun _ _ => rfl)
        | some kn => exact deleteKnown_ok kn ks kn.keys h1
      obtain ⟨h2, g2, e2⟩ := key2
      simp only [e2]
      exact ⟨good_fields h2 _ _ _ _, grow_fields (g1.trans g2) _ _ _ _, _, rfl, rfl⟩

private theorem resync_ok {key : O → Option K} {s : State K O} (h : Good key s) (kn : Option (Known K O)) :
    Plain key s (resync key s kn) (DeltaFifo.resync key (view s) kn) := by
  cases kn with
  | none => exact ⟨h, Grow.refl s, _, rfl, rfl⟩
  | some kn => exact resyncKeys_ok kn kn.keys h

private theorem addIfNotPresent_ok {key : O → Option K} {s : State K O} (h : Good key s) {k : K} {r : Nat}
    (hr : r < s.next) (hn : Names key (s.heap r) k) :
    Good key (addIfNotPresent s k r) ∧
    (∀ p ∈ (addIfNotPresent s k r).items, p ∈ s.items ∨ p = (k, r)) ∧
    (addIfNotPresent s k r).heap = s.heap ∧ (addIfNotPresent s k r).next = s.next ∧
    view (addIfNotPresent s k r) = DeltaFifo.addIfNotPresent (view s) k (s.heap r) := by
  unfold addIfNotPresent DeltaFifo.addIfNotPresent
  rw [has_view]
  by_cases hk : s.items.has k = true
  · simp only [hk, if_true]
    exact ⟨good_fields h _ _ _ _, fun p hp => Or.inl hp, trivial, trivial, rfl⟩
  · simp only [hk, if_false, Bool.false_eq_true]
    refine ⟨⟨?_, ?_, h.blank, PyDict.WF_set h.wf k r⟩, fun p hp => mem_set hp, trivial, trivial, ?_⟩
    · intro p hp
      rcases mem_set hp with hp | rfl
      · exact h.lt p hp
      · exact hr
    · intro p hp
      rcases mem_set hp with hp | rfl
      · exact h.named p hp
      · exact hn
    · simp only [view, deref_set]

/-- The queue together with whose lists are whose. -/
private structure Inv (key : O → Option K) (s : State K O) (m : Nat → Bool) : Prop where
  good : Good key s
  held : ∀ p ∈ s.items, m p.2 = false
  bound : ∀ r, m r = true → r < s.next

private theorem Inv.grow {key : O → Option K} {s s' : State K O} {m : Nat → Bool} (h : Inv key s m) (hg : Good key s')
    (g : Grow s s') : Inv key s' m := by
  refine ⟨hg, fun p hp => ?_, fun r hr => (h.bound r hr).trans_le g.le⟩
  rcases g.from_ p hp with hp | hp
  · exact h.held p hp
  · cases hm : m p.2 with
    | false => rfl
    | true => exact absurd (h.bound _ hm) (by omega)

/-- What a step does, as the callers see it. -/
private def Ok (key : O → Option K) (s : State K O) (m : Nat → Bool) (e : Ev K O) (r : State K O × Out K O)
    (v : DeltaFifo.State K O × DeltaFifo.Out K O) : Prop :=
  Inv key r.1 (fun a => mineStep m a (e, r.2)) ∧ v.1 = view r.1 ∧ answerOf r.1.heap r.2 = some v.2

private theorem ok_plain {key : O → Option K} {s : State K O} {m : Nat → Bool} (h : Inv key s m) {e : Ev K O}
    (he : ∀ o a, mineStep m a (e, .plain o) = m a) {r : State K O × Out K O}
    {v : DeltaFifo.State K O × DeltaFifo.Out K O} (hp : Plain key s r v) : Ok key s m e r v := by
  obtain ⟨h1, g1, o, h2, rfl⟩ := hp
  refine ⟨?_, rfl, ?_⟩
  · rw [h2]
    simp only [he]
    exact h.grow h1 g1
  · rw [h2]; rfl

private theorem mine_plain (m : Nat → Bool) {e : Ev K O} (he : ∀ r, e ≠ .addIfNotPresent r) (o : DeltaFifo.Out K O)
    (a : Nat) : mineStep m a (e, .plain o) = m a := by
  cases e with
  | addIfNotPresent r => exact absurd rfl (he r)
  | pop c => cases c <;> cases o <;> rfl
  | _ => cases o <;> rfl

private theorem pop_ok {key : O → Option K} {s : State K O} {m : Nat → Bool} (h : Inv key s m) (o : Outcome) :
    ∀ (q : List K) (n : Nat), Ok key s m (.pop o) (popLoop s o q n) (DeltaFifo.popLoop (view s) o q n) := by
  intro q
  induction q with
  | nil =>
    intro n
    refine ok_plain h (mine_plain m (by intro _ h; cases h))
      ⟨good_fields h.good [] s.populated (s.count - n) s.closed, grow_fields (Grow.refl s) _ _ _ _, _, rfl, rfl⟩
  | cons k q ih =>
    intro n
    cases hg : s.items.get? k with
    | none =>
      have hv : (view s).items.get? k = none := by rw [lookup_view]; simp [lookup, hg]
      simp only [popLoop, DeltaFifo.popLoop, hg, hv]
      exact ih (n + 1)
    | some r =>
      have hv : (view s).items.get? k = some (s.heap r) := by rw [lookup_view]; simp [lookup, hg]
      simp only [popLoop, DeltaFifo.popLoop, hg, hv]
      have hmem := PyDict.get?_mem hg
      have hr : r < s.next := h.good.lt _ hmem
      have hn : Names key (s.heap r) k := h.good.named _ hmem
      have hd : Good key { s with queue := q, count := s.count - (n + 1), items := s.items.del k } :=
        ⟨fun p hp => h.good.lt p (mem_del hp), fun p hp => h.good.named p (mem_del hp), h.good.blank,
          PyDict.WF_del h.good.wf k⟩
      have hne : ∀ p ∈ s.items.del k, p.2 ≠ r := by
        intro p hp hpr
        have h1 := h.good.named p (mem_del hp)
        rw [hpr] at h1
        have h2 : p.1 = k := names_unique h1 hn
        have h3 : p.1 ∈ (s.items.del k).keys := List.mem_map.2 ⟨p, hp, rfl⟩
        exact ((PyDict.mem_keys_del h.good.wf).1 h3).1 h2
      have hview : view { s with queue := q, count := s.count - (n + 1), items := s.items.del k } =
          { view s with queue := q, count := s.count - (n + 1), items := (view s).items.del k } := by
        simp only [view, deref_del]
      have out1 : Inv key { s with queue := q, count := s.count - (n + 1), items := s.items.del k }
          (fun a => if r = a then true else m a) := by
        refine ⟨hd, fun p hp => ?_, fun a ha => ?_⟩
        · simp only [if_neg (Ne.symm (hne p hp))]
          exact h.held p (mem_del hp)
        · by_cases hra : r = a
          · exact hra ▸ hr
          · simp only [if_neg hra] at ha
            exact h.bound a ha
      have out2 : Inv key (addIfNotPresent { s with queue := q, count := s.count - (n + 1), items := s.items.del k } k r)
          (fun a => if r = a then false else m a) ∧
          view (addIfNotPresent { s with queue := q, count := s.count - (n + 1), items := s.items.del k } k r) =
          DeltaFifo.addIfNotPresent
            { view s with queue := q, count := s.count - (n + 1), items := (view s).items.del k } k (s.heap r) ∧
          (addIfNotPresent { s with queue := q, count := s.count - (n + 1), items := s.items.del k } k r).heap = s.heap := by
        obtain ⟨h1, h2, h3, h4, h5⟩ := addIfNotPresent_ok hd hr hn
        refine ⟨⟨h1, fun p hp => ?_, fun a ha => ?_⟩, by rw [h5, hview], h3⟩
        · by_cases hra : r = p.2
          · simp only [if_pos hra]
          · simp only [if_neg hra]
            rcases h2 p hp with hp | rfl
            · exact h.held p (mem_del hp)
            · exact absurd rfl hra
        · rw [h4]
          by_cases hra : r = a
          · simp only [if_pos hra] at ha
            cases ha
          · simp only [if_neg hra] at ha
            exact h.bound a ha
      cases o with
      | ok => exact ⟨out1, hview.symm, rfl⟩
      | cancelled => exact ⟨out1, hview.symm, rfl⟩
      | error => exact ⟨out1, hview.symm, rfl⟩
      | requeue c =>
        obtain ⟨o1, o2, o3⟩ := out2
        cases c with
        | false =>
          refine ⟨o1, o2.symm, ?_⟩
          simp only [finish, answerOf, o3, DeltaFifo.finish]
        | true =>
          refine ⟨o1, o2.symm, ?_⟩
          simp only [finish, answerOf, o3, DeltaFifo.finish]

private theorem alloc_grow {key : O → Option K} {s : State K O} (h : Good key s) (ds : Deltas K O) :
    Good key (alloc s ds) ∧ Grow s (alloc s ds) ∧ view (alloc s ds) = view s := by
  have hk : ∀ r, r < s.next → (alloc s ds).heap r = s.heap r := by
    intro r hr
    show (if r = s.next then ds else s.heap r) = s.heap r
    rw [if_neg (by omega)]
  refine ⟨⟨fun p hp => Nat.lt_succ_of_lt (h.lt p hp), fun p hp => ?_, fun r hr => ?_, h.wf⟩,
    ⟨Nat.le_succ _, hk, fun p hp => Or.inl hp⟩, ?_⟩
  · rw [hk _ (h.lt p hp)]
    exact h.named p hp
  · have hr : s.next + 1 ≤ r := hr
    show (if r = s.next then ds else s.heap r) = []
    rw [if_neg (by omega)]
    exact h.blank r (by omega)
  · have : deref (alloc s ds).heap s.items = deref s.heap s.items := deref_congr fun p hp => hk _ (h.lt p hp)
    simp only [view]
    rw [show (alloc s ds).items = s.items from rfl, this]
    rfl

private theorem alloc_inv {key : O → Option K} {s : State K O} {m : Nat → Bool} (h : Inv key s m) (ds : Deltas K O) :
    Inv key (alloc s ds) (fun a => if s.next = a then true else m a) := by
  obtain ⟨h1, g1, -⟩ := alloc_grow h.good ds
  refine ⟨h1, fun p hp => ?_, fun a ha => ?_⟩
  · have hp : p ∈ s.items := hp
    have := h.good.lt p hp
    simp only [if_neg (show s.next ≠ p.2 by omega)]
    exact h.held p hp
  · show a < s.next + 1
    by_cases hra : s.next = a
    · omega
    · simp only [if_neg hra] at ha
      exact Nat.lt_succ_of_lt (h.bound a ha)

private theorem getByKey_ok {key : O → Option K} {s : State K O} {m : Nat → Bool} (h : Inv key s m) (k : K) {e : Ev K O} 
    (he : ∀ o a, mineStep m a (e, .list o) = match o with | none => m a | some r => if r = a then true else m a) :
    Ok key s m e (getByKey s k) (view s, DeltaFifo.getByKey (view s) k) := by
  have hv : DeltaFifo.getByKey (view s) k = .deltas ((s.items.get? k).map s.heap) := by
    unfold DeltaFifo.getByKey
    rw [lookup_view]
    rfl
  rw [hv]
  cases hg : s.items.get? k with
  | none =>
    rw [show getByKey s k = (s, .list none) by simp only [getByKey, hg]]
    refine ⟨?_, rfl, rfl⟩
    simp only [he]
    exact h
  | some r =>
    obtain ⟨d, hd, -⟩ := h.good.named _ (PyDict.get?_mem hg)
    simp only at hd
    cases hh : s.heap r with
    | nil => rw [hh] at hd; simp at hd
    | cons d0 ds =>
      obtain ⟨-, -, hw⟩ := alloc_grow h.good (d0 :: ds)
      rw [show getByKey s k = (alloc s (d0 :: ds), .list (some s.next)) by simp only [getByKey, hg, hh]]
      refine ⟨?_, hw.symm, ?_⟩
      · simp only [he]
        exact alloc_inv h (d0 :: ds)
      · simp [answerOf, alloc, hh]

private theorem get_ok {key : O → Option K} {s : State K O} {m : Nat → Bool} (h : Inv key s m) (x : Obj K O) {e : Ev K O}
    (he : ∀ o a, mineStep m a (e, .list o) = match o with | none => m a | some r => if r = a then true else m a)
    (he' : ∀ o a, mineStep m a (e, .plain o) = m a) :
    Ok key s m e (match keyOf key x with | none => (s, .plain .keyFunc) | some k => getByKey s k)
      (DeltaFifo.step key (view s) (.get x)) := by
  simp only [DeltaFifo.step]
  cases hk : keyOf key x with
  | none => exact ok_plain h he' ⟨h.good, Grow.refl s, _, rfl, rfl⟩
  | some k => exact getByKey_ok h k he

private theorem step_ok {key : O → Option K} {s : State K O} {m : Nat → Bool} (h : Inv key s m) (e : Ev K O)
    (hw : ∀ r ds, e = .write r ds → m r = true) :
    match callOf s.heap e with
    | none => Inv key (step key s e).1 (fun a => mineStep m a (e, (step key s e).2)) ∧
        view (step key s e).1 = view s ∧ answerOf (step key s e).1.heap (step key s e).2 = none
    | some c => Ok key s m e (step key s e) (DeltaFifo.step key (view s) c) := by
  cases e with
  | make ds => exact ⟨alloc_inv h ds, (alloc_grow h.good ds).2.2, rfl⟩
  | write r ds =>
    have hm := hw r ds rfl
    have hne : ∀ p ∈ s.items, p.2 ≠ r := by
      intro p hp hr
      have := h.held p hp
      rw [hr, hm] at this
      cases this
    refine ⟨⟨⟨h.good.lt, fun p hp => ?_, fun a ha => ?_, h.good.wf⟩, h.held, h.bound⟩, ?_, rfl⟩
    · show Names key (if p.2 = r then ds else s.heap p.2) p.1
      rw [if_neg (hne p hp)]
      exact h.good.named p hp
    · show (if a = r then ds else s.heap a) = []
      have ha : s.next ≤ a := ha
      have := h.bound r hm
      rw [if_neg (by omega)]
      exact h.good.blank a ha
    · have : deref (fun r' => if r' = r then ds else s.heap r') s.items = deref s.heap s.items :=
        deref_congr fun p hp => if_neg (hne p hp)
      simp only [step, view, this]
  | add x =>
    obtain ⟨h1, g1, e1⟩ := action_ok h.good .added x
    exact ok_plain h (mine_plain m (by intro _ h; cases h)) ⟨h1, g1, _, rfl, by simp only [DeltaFifo.step]; rw [e1]; rfl⟩
  | update x =>
    obtain ⟨h1, g1, e1⟩ := action_ok h.good .updated x
    exact ok_plain h (mine_plain m (by intro _ h; cases h)) ⟨h1, g1, _, rfl, by simp only [DeltaFifo.step]; rw [e1]; rfl⟩
  | delete kn x => exact ok_plain h (mine_plain m (by intro _ h; cases h)) (delete_ok h.good kn x)
  | list =>
    refine ok_plain h (mine_plain m (by intro _ h; cases h)) ⟨h.good, Grow.refl s, _, rfl, ?_⟩
    simp only [DeltaFifo.step]
    rw [show (view s).items.values = s.items.values.map s.heap from deref_values _ _]
    rfl
  | listKeys =>
    refine ok_plain h (mine_plain m (by intro _ h; cases h)) ⟨h.good, Grow.refl s, _, rfl, ?_⟩
    simp only [DeltaFifo.step]
    rw [show (view s).items.keys = s.items.keys from deref_keys _ _]
    rfl
  | get a =>
    cases a with
    | obj x =>
      exact get_ok h x (fun o a => by cases o <;> rfl) (mine_plain m (by intro _ h; cases h))
    | list r =>
      cases hl : (s.heap r).getLast? with
      | none =>
        simp only [callOf, hl, Option.map_none, step, get]
        exact ⟨h, trivial, rfl⟩
      | some d =>
        simp only [callOf, hl, Option.map_some, step, get]
        exact get_ok h d.object (fun o a => by cases o <;> rfl) (mine_plain m (by intro _ h; cases h))
  | getByKey k => exact getByKey_ok h k (fun o a => by cases o <;> rfl)
  | replace kn xs => exact ok_plain h (mine_plain m (by intro _ h; cases h)) (replace_ok h.good kn xs)
  | resync kn => exact ok_plain h (mine_plain m (by intro _ h; cases h)) (resync_ok h.good kn)
  | pop o => exact pop_ok h o s.queue 0
  | addIfNotPresent r =>
    simp only [callOf, step, DeltaFifo.step]
    cases hl : (s.heap r).getLast? with
    | none => exact ⟨h, rfl, rfl⟩
    | some d =>
      cases hk : keyOf key d.object with
      | none =>
        simp only [hk]
        exact ⟨h, rfl, rfl⟩
      | some k =>
        simp only [hk]
        have hr : r < s.next := by
          by_contra hc
          rw [h.good.blank r (by omega)] at hl
          simp at hl
        obtain ⟨h1, h2, h3, h4, h5⟩ := addIfNotPresent_ok h.good hr (names_of_keyOf hl hk)
        refine ⟨⟨h1, fun p hp => ?_, fun a ha => ?_⟩, h5.symm, rfl⟩
        · simp only [mineStep]
          by_cases hra : r = p.2
          · simp only [if_pos hra]
          · simp only [if_neg hra]
            rcases h2 p hp with hp | rfl
            · exact h.held p hp
            · exact absurd rfl hra
        · simp only [h4]
          simp only [mineStep] at ha
          by_cases hra : r = a
          · simp only [if_pos hra] at ha
            cases ha
          · simp only [if_neg hra] at ha
            exact h.bound a ha
  | hasSynced => exact ok_plain h (mine_plain m (by intro _ h; cases h)) ⟨h.good, Grow.refl s, _, rfl, rfl⟩
  | close =>
    exact ok_plain h (mine_plain m (by intro _ h; cases h))
      ⟨good_fields h.good s.queue s.populated s.count true, grow_fields (Grow.refl s) _ _ _ _, _, rfl, rfl⟩
  | isClosed => exact ok_plain h (mine_plain m (by intro _ h; cases h)) ⟨h.good, Grow.refl s, _, rfl, rfl⟩

private theorem exec_append (key : O → Option K) (a b : List (Ev K O)) :
    ∀ s : State K O, exec key s (a ++ b) = exec key (exec key s a) b := by
  induction a with
  | nil => intro s; rfl
  | cons e a ih => intro s; exact ih _

private theorem trace_append (key : O → Option K) (a b : List (Ev K O)) :
    ∀ s : State K O, trace key s (a ++ b) = trace key s a ++ trace key (exec key s a) b := by
  induction a with
  | nil => intro s; rfl
  | cons e a ih => intro s; simp only [List.cons_append, trace, exec, ih]

private theorem init_inv (key : O → Option K) : Inv key (init : State K O) (fun _ => false) :=
  ⟨⟨nofun, nofun, fun _ _ => rfl, PyDict.WF_nil⟩, nofun, nofun⟩

/-- Histories in which only the callers' own lists are changed, from any point on. -/
private theorem run_ok {key : O → Option K} (es : List (Ev K O)) :
    ∀ (a : List (Ev K O)), Polite key (a ++ es) →
      Inv key (exec key init a) (mine (trace key init a)) →
      Inv key (exec key init (a ++ es)) (mine (trace key init (a ++ es))) ∧
      answers key (exec key init a) es = valueAnswers key (view (exec key init a)) (calls key (exec key init a) es) := by
  induction es with
  | nil => intro a _ h; simpa [answers, calls, valueAnswers] using h
  | cons e es ih =>
    intro a hp h
    have hstep := step_ok h e (fun r ds he => hp a r ds es (by rw [he]))
    have hx : exec key init (a ++ [e]) = (step key (exec key init a) e).1 := exec_append key a [e] init
    have hm : mine (trace key init (a ++ [e])) =
        fun b => mineStep (mine (trace key init a)) b (e, (step key (exec key init a) e).2) := by
      rw [trace_append]
      simp only [mine, List.foldl_append]
      rfl
    have hi := ih (a ++ [e]) (by simpa using hp)
    rw [hx, hm, List.append_assoc, List.singleton_append] at hi
    cases hc : callOf (exec key init a).heap e with
    | none =>
      rw [hc] at hstep
      obtain ⟨h1, h2, h3⟩ := hstep
      obtain ⟨i1, i2⟩ := hi h1
      refine ⟨i1, ?_⟩
      simp only [answers, calls, hc, h3, Option.toList_none, List.nil_append, i2, h2]
    | some c =>
      rw [hc] at hstep
      obtain ⟨h1, h2, h3⟩ := hstep
      obtain ⟨i1, i2⟩ := hi h1
      refine ⟨i1, ?_⟩
      simp only [answers, calls, hc, h3, Option.toList_some, List.singleton_append, valueAnswers, i2, h2]

/-- **C112**, what is left: as long as the callers change only lists that are theirs (that they made, got from `get` or
`get_by_key`, or got from `pop` without putting them back, and have not given to `add_if_not_present` since), all
answers are those of a queue that takes and gives the lists as values. -/
theorem C112_values_partial (key : O → Option K) (es : List (Ev K O)) (hp : Polite key es) :
    answers key init es = valueAnswers key DeltaFifo.init (calls key init es) :=
  (run_ok es [] hp (init_inv key)).2

/-- What every call leaves as it was. -/
private structure Low (s s' : State K O) : Prop where
  le : s.next ≤ s'.next
  keep : ∀ r, r < s.next → s'.heap r = s.heap r
  blank : (∀ r, s.next ≤ r → s.heap r = []) → ∀ r, s'.next ≤ r → s'.heap r = []
  lt : (∀ p ∈ s.items, p.2 < s.next) → ∀ p ∈ s'.items, p.2 < s'.next

private theorem Low.refl (s : State K O) : Low s s := ⟨le_rfl, fun _ _ => rfl, fun h => h, fun h => h⟩

private theorem Low.trans {a b c : State K O} (h : Low a b) (g : Low b c) : Low a c :=
  ⟨h.le.trans g.le, fun r hr => (g.keep r (hr.trans_le h.le)).trans (h.keep r hr), fun hb => g.blank (h.blank hb),
    fun hl => g.lt (h.lt hl)⟩

private theorem low_fields {s s' : State K O} (h : Low s s') (q : List K) (p : Bool) (c : Nat) (cl : Bool) :
    Low s { s' with queue := q, populated := p, count := c, closed := cl } :=
  ⟨h.le, h.keep, h.blank, h.lt⟩

private theorem alloc_low (s : State K O) (ds : Deltas K O) : Low s (alloc s ds) := by
  refine ⟨Nat.le_succ _, fun r hr => ?_, fun hb r hr => ?_, fun hl p hp => Nat.lt_succ_of_lt (hl p hp)⟩
  · show (if r = s.next then ds else s.heap r) = s.heap r
    rw [if_neg (by omega)]
  · have hr : s.next + 1 ≤ r := hr
    show (if r = s.next then ds else s.heap r) = []
    rw [if_neg (by omega)]
    exact hb r (by omega)

private theorem queueAction_low (key : O → Option K) (s : State K O) (t : DType) (x : Obj K O) :
    Low s (queueAction key s t x).1 := by
  unfold queueAction
  split
  · exact Low.refl s
  · rename_i k _
    split
    · exact Low.refl s
    · simp only
      split
      · have := alloc_low s (dedupDeltas ((lookup s k).getD [] ++ [⟨t, x⟩]))
        refine ⟨this.le, this.keep, this.blank, fun hl p hp => ?_⟩
        show p.2 < s.next + 1
        rcases mem_set hp with hp | rfl
        · exact Nat.lt_succ_of_lt (hl p hp)
        · exact Nat.lt_succ_self _
      · exact ⟨le_rfl, fun _ _ => rfl, fun h => h, fun hl p hp => hl p (mem_del hp)⟩

private theorem syncAll_low (key : O → Option K) (xs : List (Obj K O)) :
    ∀ s : State K O, Low s (syncAll key s xs).1 := by
  induction xs with
  | nil => intro s; exact Low.refl s
  | cons x xs ih =>
    intro s
    simp only [syncAll]
    split
    · exact Low.refl s
    · have h1 := queueAction_low key s .sync x
      have h2 := ih (queueAction key s .sync x).1
      split <;> rename_i he <;> rw [he] at h2 <;> exact h1.trans h2

private theorem deletePending_low (key : O → Option K) (keys : List K) (rest : List (K × Nat)) :
    ∀ s : State K O, Low s (deletePending key keys s rest).1 := by
  induction rest with
  | nil => intro s; exact Low.refl s
  | cons p rest ih =>
    intro s
    obtain ⟨k, r⟩ := p
    simp only [deletePending]
    split
    · exact ih s
    · exact (queueAction_low key s .deleted _).trans (ih _)

private theorem deleteKnown_low (key : O → Option K) (kn : Known K O) (keys rest : List K) :
    ∀ s : State K O, Low s (deleteKnown key kn keys s rest).1 := by
  induction rest with
  | nil => intro s; exact Low.refl s
  | cons k rest ih =>
    intro s
    simp only [deleteKnown]
    split
    · exact ih s
    · exact (queueAction_low key s .deleted _).trans (ih _)

private theorem resyncKeys_low (key : O → Option K) (kn : Known K O) (rest : List K) :
    ∀ s : State K O, Low s (resyncKeys key kn s rest).1 ∧ ∃ o, (resyncKeys key kn s rest).2 = .plain o := by
  induction rest with
  | nil => intro s; exact ⟨Low.refl s, _, rfl⟩
  | cons k rest ih =>
    intro s
    simp only [resyncKeys]
    split
    · exact ih s
    · exact ih s
    · split
      · exact ⟨Low.refl s, _, rfl⟩
      · split
        · exact ih s
        · exact ⟨(queueAction_low key s .sync _).trans (ih _).1, (ih _).2⟩

/-- The list in an answer. -/
private def named : Out K O → Option Nat
  | .made r => some r
  | .list r => r
  | .popped _ r _ _ => some r
  | _ => none

/-- A step other than a change by a caller, from a state without dangling addresses. -/
private def Tidy (s : State K O) (r : State K O × Out K O) : Prop :=
  Low s r.1 ∧ ∀ a, named r.2 = some a → a < r.1.next

private theorem addIfNotPresent_low {s : State K O} (k : K) {r : Nat} (hr : r < s.next) :
    Low s (addIfNotPresent s k r) := by
  unfold addIfNotPresent
  split
  · exact low_fields (Low.refl s) _ _ _ _
  · refine ⟨le_rfl, fun _ _ => rfl, fun h => h, fun hl p hp => ?_⟩
    rcases mem_set hp with hp | rfl
    · exact hl p hp
    · exact hr

private theorem pop_tidy {s : State K O} (hl : ∀ p ∈ s.items, p.2 < s.next) (o : Outcome) (q : List K) :
    ∀ n, Tidy s (popLoop s o q n) := by
  induction q with
  | nil => intro n; exact ⟨low_fields (Low.refl s) _ _ _ _, nofun⟩
  | cons k q ih =>
    intro n
    simp only [popLoop]
    split
    · exact ih (n + 1)
    · rename_i r hg
      have hr := hl _ (PyDict.get?_mem hg)
      have h1 : Low s { s with queue := q, count := s.count - (n + 1), items := s.items.del k } :=
        ⟨le_rfl, fun _ _ => rfl, fun h => h, fun hl p hp => hl p (mem_del hp)⟩
      have h2 := h1.trans (addIfNotPresent_low (s := { s with queue := q, count := s.count - (n + 1), items := s.items.del k })
        k hr)
      cases o with
      | ok => exact ⟨h1, by rintro a ⟨⟩; exact hr⟩
      | cancelled => exact ⟨h1, by rintro a ⟨⟩; exact hr⟩
      | error => exact ⟨h1, by rintro a ⟨⟩; exact hr⟩
      | requeue c =>
        cases c <;> exact ⟨h2, by rintro a ⟨⟩; exact (show r < s.next from hr).trans_le h2.le⟩

private theorem getByKey_tidy {s : State K O} (hl : ∀ p ∈ s.items, p.2 < s.next) (k : K) : Tidy s (getByKey s k) := by
  unfold getByKey
  split
  · exact ⟨Low.refl s, nofun⟩
  · rename_i r hg
    split
    · exact ⟨Low.refl s, by rintro a ⟨⟩; exact hl _ (PyDict.get?_mem hg)⟩
    · exact ⟨alloc_low s _, by rintro a ⟨⟩; exact Nat.lt_succ_self _⟩

private theorem step_tidy (key : O → Option K) {s : State K O} (hl : ∀ p ∈ s.items, p.2 < s.next)
    (hb : ∀ r, s.next ≤ r → s.heap r = []) (e : Ev K O) (he : ∀ r ds, e ≠ .write r ds) : Tidy s (step key s e) := by
  cases e with
  | make ds => exact ⟨alloc_low s ds, by rintro a ⟨⟩; exact Nat.lt_succ_self _⟩
  | write r ds => exact absurd rfl (he r ds)
  | add x =>
    have := queueAction_low key { s with populated := true } .added x
    exact ⟨⟨this.le, this.keep, this.blank, this.lt⟩, nofun⟩
  | update x =>
    have := queueAction_low key { s with populated := true } .updated x
    exact ⟨⟨this.le, this.keep, this.blank, this.lt⟩, nofun⟩
  | delete kn x =>
    simp only [step, delete]
    split
    · exact ⟨Low.refl s, nofun⟩
    · split
      · exact ⟨low_fields (Low.refl s) _ _ _ _, nofun⟩
      · have := queueAction_low key { s with populated := true } .deleted x
        exact ⟨⟨this.le, this.keep, this.blank, this.lt⟩, nofun⟩
  | list => exact ⟨Low.refl s, nofun⟩
  | listKeys => exact ⟨Low.refl s, nofun⟩
  | get a =>
    cases a with
    | obj x =>
      simp only [step, get]
      split
      · exact ⟨Low.refl s, nofun⟩
      · exact getByKey_tidy hl _
    | list r =>
      simp only [step, get]
      split
      · exact ⟨Low.refl s, nofun⟩
      · split
        · exact ⟨Low.refl s, nofun⟩
        · exact getByKey_tidy hl _
  | getByKey k => exact getByKey_tidy hl k
  | replace kn xs =>
    have h1 := syncAll_low key xs s
    simp only [step, replace]
    split
    · rename_i s1 hs
      rw [hs] at h1
      exact ⟨h1, nofun⟩
    · rename_i s1 ks hs
      rw [hs] at h1
      have h2 : Low s1 (deleteVanished key kn ks s1).1 := by
        cases kn with
        | none => exact deletePending_low key ks s1.items s1
        | some kn => exact deleteKnown_low key kn ks kn.keys s1
      exact ⟨low_fields (h1.trans h2) _ _ _ _, nofun⟩
  | resync kn =>
    cases kn with
    | none => exact ⟨Low.refl s, nofun⟩
    | some kn =>
      obtain ⟨h1, o, h2⟩ := resyncKeys_low key kn kn.keys s
      refine ⟨h1, ?_⟩
      intro a ha
      rw [show (step key s (.resync (some kn))).2 = .plain o from h2] at ha
      cases ha
  | pop o => exact pop_tidy hl o s.queue 0
  | addIfNotPresent r =>
    simp only [step]
    split
    · exact ⟨Low.refl s, nofun⟩
    · rename_i d hd
      split
      · exact ⟨Low.refl s, nofun⟩
      · have hr : r < s.next := by
          by_contra hc
          rw [hb r (by omega)] at hd
          simp at hd
        exact ⟨addIfNotPresent_low _ hr, nofun⟩
  | hasSynced => exact ⟨Low.refl s, nofun⟩
  | close => exact ⟨low_fields (Low.refl s) _ _ _ _, nofun⟩
  | isClosed => exact ⟨Low.refl s, nofun⟩

private theorem seen_named {tr : List (Ev K O × Out K O)} {r : Nat}
    (hr : ∃ p ∈ tr, p.2 = .made r ∨ p.2 = .list (some r) ∨ ∃ k x n, p.2 = .popped k r x n) :
    ∃ p ∈ tr, named p.2 = some r := by
  obtain ⟨p, hp, h | h | ⟨k, x, n, h⟩⟩ := hr <;> exact ⟨p, hp, by rw [h]; rfl⟩

private theorem run_tidy (key : O → Option K) (es : List (Ev K O)) : ∀ (a : List (Ev K O)), Held key (a ++ es) →
    ((∀ p ∈ (exec key init a).items, p.2 < (exec key init a).next) ∧
      (∀ r, (exec key init a).next ≤ r → (exec key init a).heap r = []) ∧
      ∀ p ∈ trace key init a, ∀ r, named p.2 = some r → r < (exec key init a).next) →
    (∀ p ∈ (exec key init (a ++ es)).items, p.2 < (exec key init (a ++ es)).next) ∧
      (∀ r, (exec key init (a ++ es)).next ≤ r → (exec key init (a ++ es)).heap r = []) ∧
      ∀ p ∈ trace key init (a ++ es), ∀ r, named p.2 = some r → r < (exec key init (a ++ es)).next := by
  induction es with
  | nil => intro a _ h; simpa using h
  | cons e es ih =>
    intro a hp h
    rw [show a ++ e :: es = (a ++ [e]) ++ es by simp] at hp ⊢
    refine ih (a ++ [e]) hp ?_
    obtain ⟨h1, h2, h3⟩ := h
    have hx : exec key init (a ++ [e]) = (step key (exec key init a) e).1 := exec_append key a [e] init
    have ht : trace key init (a ++ [e]) = trace key init a ++ [(e, (step key (exec key init a) e).2)] :=
      trace_append key a [e] init
    rw [hx, ht]
    by_cases hw : ∃ r ds, e = .write r ds
    · obtain ⟨r, ds, rfl⟩ := hw
      obtain ⟨p, hp, hn⟩ := seen_named (hp a r ds es (by simp))
      have hr := h3 p hp r hn
      refine ⟨h1, fun b hb => ?_, fun q hq b hb => ?_⟩
      · show (if b = r then ds else (exec key init a).heap b) = []
        have hb : (exec key init a).next ≤ b := hb
        rw [if_neg (by omega)]
        exact h2 b hb
      · rcases List.mem_append.1 hq with hq | hq
        · exact h3 q hq b hb
        · rw [List.mem_singleton.1 hq] at hb
          cases hb
    · obtain ⟨t1, t2⟩ := step_tidy key h1 h2 e (fun r ds he => hw ⟨r, ds, he⟩)
      refine ⟨t1.lt h1, t1.blank h2, fun q hq b hb => ?_⟩
      rcases List.mem_append.1 hq with hq | hq
      · exact (h3 q hq b hb).trans_le t1.le
      · rw [List.mem_singleton.1 hq] at hb
        exact t2 b hb

/-- **C112**: the queue changes no list: after any call the lists that callers made or were given contain what they
contained before, whatever the callers did with their lists. -/
theorem C112_kept (key : O → Option K) (es : List (Ev K O)) (hh : Held key es) (e : Ev K O)
    (he : ∀ r ds, e ≠ .write r ds) (r : Nat)
    (hr : ∃ p ∈ trace key init es, p.2 = .made r ∨ p.2 = .list (some r) ∨ ∃ k x n, p.2 = .popped k r x n) :
    (step key (exec key init es) e).1.heap r = (exec key init es).heap r := by
  obtain ⟨h1, h2, h3⟩ := run_tidy key es [] hh ⟨nofun, fun _ _ => rfl, nofun⟩
  obtain ⟨p, hp, hn⟩ := seen_named hr
  exact (step_tidy key h1 h2 e he).1.keep r (h3 p hp r hn)

private theorem pop_mem {s : State K O} {o : Outcome} {k : K} {r : Nat} {x : PopEnd} {m : Nat} (q : List K) :
    ∀ n, (popLoop s o q n).2 = .popped k r x m → (k, r) ∈ s.items := by
  induction q with
  | nil => intro n h; simp [popLoop] at h
  | cons j q ih =>
    intro n h
    simp only [popLoop] at h
    split at h
    · exact ih (n + 1) h
    · rename_i r' hg
      have hm := PyDict.get?_mem hg
      cases o with
      | requeue c => cases c <;> simp only [finish, Out.popped.injEq] at h <;> rw [← h.1, ← h.2.1] <;> exact hm
      | _ => simp only [finish, Out.popped.injEq] at h; rw [← h.1, ← h.2.1]; exact hm

/-- **C112**: the list that `pop` hands over names the key it was kept under, so that with it `get` and
`add_if_not_present` come to the same key (as long as the callers change only lists that are theirs). -/
theorem C112_names_partial (key : O → Option K) (es : List (Ev K O)) (hp : Polite key es) (o : Outcome) (k : K) (r : Nat)
    (x : PopEnd) (n : Nat) (h : (step key (exec key init es) (.pop o)).2 = .popped k r x n) :
    Names key ((exec key init es).heap r) k :=
  (run_ok es [] hp (init_inv key)).1.good.named _ (pop_mem _ 0 h)

/-! ## Lists that the queue has kept -/

/-- A caller gives a list to `add_if_not_present` and changes it afterwards. -/
private def given : List (Ev Nat Nat) :=
  [.make [⟨.added, .real 7⟩], .addIfNotPresent 0, .write 0 [⟨.added, .real 8⟩], .pop .ok]

/-- The caller of `pop` empties the list it returned, which is also in the queue again. -/
private def requeued : List (Ev Nat Nat) := [.add (.real 7), .pop (.requeue false), .write 0 [], .list]

private theorem split_at {es a b : List (Ev Nat Nat)} {r : Nat} {ds : Deltas Nat Nat} (n : Nat)
    (h : es = a ++ .write r ds :: b) (hn : ∀ i, (∃ r ds, es[i]? = some (.write r ds)) → i = n) :
    a = es.take n ∧ es[n]? = some (.write r ds) := by
  have h1 : es[a.length]? = some (.write r ds) := by rw [h]; simp
  have h2 := hn a.length ⟨r, ds, h1⟩
  refine ⟨?_, h2 ▸ h1⟩
  rw [h, ← h2]
  simp

private theorem only_two (es : List (Ev Nat Nat)) {e0 e1 e2 e3 : Ev Nat Nat} (h : es = [e0, e1, e2, e3])
    (h0 : ∀ r ds, e0 ≠ .write r ds) (h1 : ∀ r ds, e1 ≠ .write r ds) (h3 : ∀ r ds, e3 ≠ .write r ds) :
    ∀ i, (∃ r ds, es[i]? = some (.write r ds)) → i = 2 := by
  rintro i ⟨r, ds, hi⟩
  subst h
  match i, hi with
  | 0, hi => exact absurd (by simpa using hi) (h0 r ds)
  | 1, hi => exact absurd (by simpa using hi) (h1 r ds)
  | 2, _ => rfl
  | 3, hi => exact absurd (by simpa using hi) (h3 r ds)
  | n + 4, hi => simp at hi

/-- **C112 is false.**  A list that the queue has kept can be changed by the caller who gave it, or who was given it: then
`pop` hands over a list about another key, and `list` raises. -/
theorem C112_refuted : ¬ (∀ (key : Nat → Option Nat) (es : List (Ev Nat Nat)), Held key es →
      answers key init es = valueAnswers key DeltaFifo.init (calls key init es)) ∧
    (Held some given ∧ answers some init given = [.ok, .popped 7 [⟨.added, .real 8⟩] .returned 0]) ∧
    (Held some requeued ∧
      answers some init requeued = [.ok, .popped 7 [⟨.added, .real 7⟩] .returned 0, .attributeError]) := by
  have h1 : Held some given := by
    intro a r ds b h
    obtain ⟨ha, hr⟩ := split_at 2 h (only_two _ rfl nofun nofun nofun)
    simp only [given, List.getElem?_cons_succ, List.getElem?_cons_zero, Option.some.injEq, Ev.write.injEq] at hr
    refine ⟨(.make [⟨.added, .real 7⟩], .made 0), ?_, Or.inl (by rw [← hr.1])⟩
    rw [ha]
    simp [given, trace, step, init]
  have h2 : Held some requeued := by
    intro a r ds b h
    obtain ⟨ha, hr⟩ := split_at 2 h (only_two _ rfl nofun nofun nofun)
    simp only [requeued, List.getElem?_cons_succ, List.getElem?_cons_zero, Option.some.injEq, Ev.write.injEq] at hr
    refine ⟨(.pop (.requeue false), .popped 7 0 .returned 0), ?_, Or.inr (Or.inr ⟨7, .returned, 0, by rw [← hr.1]⟩)⟩
    rw [ha]
    refine List.mem_cons_of_mem _ ?_
    exact List.mem_cons_self
  refine ⟨fun hall => ?_, ⟨h1, by decide⟩, ⟨h2, by decide⟩⟩
  exact absurd (hall some given h1) (by decide)

/-- The hypotheses of the theorems: a caller changes a list it got from `get` and one that `pop` has given up; other
lists are put back by `pop` and given to `add_if_not_present`. -/
private def polite : List (Ev Nat Nat) :=
  [.add (.real 7), .update (.real 7), .getByKey 7, .write 2 [], .pop (.requeue false), .pop .ok, .write 1 [⟨.sync, .real 7⟩],
    .addIfNotPresent 1, .get (.list 1), .replace none [.real 9]]

private def politeFrom (m : Nat → Bool) : List (Ev Nat Nat × Out Nat Nat) → Bool
  | [] => true
  | (e, o) :: tr =>
    (match e with
      | .write r _ => m r
      | _ => true) && politeFrom (fun a => mineStep m a (e, o)) tr

private theorem polite_of (key : Nat → Option Nat) (a : List (Ev Nat Nat)) : ∀ (s : State Nat Nat) (m : Nat → Bool)
    (r : Nat) (ds : Deltas Nat Nat) (b : List (Ev Nat Nat)),
    politeFrom m (trace key s (a ++ .write r ds :: b)) = true →
    (trace key s a).foldl (fun m p r => mineStep m r p) m r = true := by
  induction a with
  | nil => intro s m r ds b h; simp only [List.nil_append, trace, politeFrom, Bool.and_eq_true] at h; exact h.1
  | cons e a ih =>
    intro s m r ds b h
    simp only [List.cons_append, trace, politeFrom, Bool.and_eq_true] at h
    exact ih _ _ r ds b h.2

example : Polite some polite := by
  intro a r ds b h
  refine polite_of some a init _ r ds b ?_
  rw [← h]
  decide

example : answers some init polite =
    [.ok, .ok, .deltas (some [⟨.added, .real 7⟩, ⟨.updated, .real 7⟩]),
      .popped 7 [⟨.added, .real 7⟩, ⟨.updated, .real 7⟩] .returned 0,
      .popped 7 [⟨.added, .real 7⟩, ⟨.updated, .real 7⟩] .returned 0, .ok, .deltas (some [⟨.sync, .real 7⟩]), .ok] ∧
    (mine (trace some init (polite.take 3)) 2 = true ∧ mine (trace some init (polite.take 6)) 1 = true) ∧
    mine (trace some init (polite.take 5)) 1 = false ∧ mine (trace some init (polite.take 8)) 1 = false := by decide

end Aiok8s.DeltaRef
