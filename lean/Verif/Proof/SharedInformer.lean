import Verif.Spec.SharedInformer
import Verif.Proof.Informer
/-!
# Lemmas for the shared informer (C34)
-/
set_option linter.unusedSimpArgs false
set_option linter.unusedSectionVars false
namespace Aiok8s.SharedInformer
open Aiok8s.DeltaFifo (Obj Delta Deltas DType keyOf)
open Aiok8s.DeltaFifo.Spec (Entry merge pendingOf entries)
open Aiok8s.Informer (Note applyOne nextDeltas process viewOf after okFrom Inv Fit evEntries)
open Aiok8s.Informer.Spec (View see Sensible AllSensible)
open Spec
variable {K O : Type} [DecidableEq K]

/-- `handle_deltas` is the informer's `process` with a handler that does not fail. -/
theorem process_eq {key : O → Option K} (k : K) (ds : Deltas K O) :
    ∀ (items : PyDict K (Obj K O)) (i : Nat), (∀ d ∈ ds, keyOf key d.object = some k) →
    process key (fun _ => .ok) items ds i =
      ((handleDeltas key items ds).1, (handleDeltas key items ds).2.map Prod.fst, .ok) := by
  induction ds with
  | nil => intro items i _; rfl
  | cons d ds ih =>
    intro items i h
    have hd := h d (by simp)
    have : ∃ r, applyOne key items d = some r := by
      simp only [applyOne, hd]
      by_cases h1 : d.type = .deleted
      · simp [h1]
      · simp only [h1, if_false]
        cases items.get? k <;> simp
    obtain ⟨⟨items', n⟩, hr⟩ := this
    simp only [process, handleDeltas, hr, if_true]
    rw [ih _ _ (fun e he => h e (by simp [he]))]
    simp

/-- The informer's event of a pop. -/
abbrev okPop : Informer.Ev K O := .pop fun _ => .ok

theorem pop_inf {key : O → Option K} {s : State K O} {log : List (Entry K O)}
    (h : Inv key s.inf log) :
    (s.inf.q.queue = [] ∧ pop key s = s ∧ (Informer.step key s.inf okPop).1 = s.inf ∧
      (Informer.step key s.inf okPop).2.1 = [] ∧ evEntries key s.inf log okPop = []) ∨
    (∃ k, s.inf.q.queue.head? = some k ∧ evEntries key s.inf log okPop = [.popped k] ∧
      (∀ d ∈ pendingOf k log, keyOf key d.object = some k) ∧
      pop key s = { s with
        inf := (Informer.step key s.inf okPop).1
        sent := distribute s (handleDeltas key s.inf.items (pendingOf k log)).2 } ∧
      (Informer.step key s.inf okPop).1.items = (handleDeltas key s.inf.items (pendingOf k log)).1 ∧
      (Informer.step key s.inf okPop).2.1 =
        (handleDeltas key s.inf.items (pendingOf k log)).2.map Prod.fst) := by
  rcases Informer.pop_spec h (fun _ => .ok) with
    ⟨h1, h2⟩ | ⟨k, rest, e, r, hq, hp, hn, rfl, h2, h3, h4, h5⟩
  · left
    have hn : nextDeltas s.inf.q = none := by
      rcases DeltaFifo.pop_cases h.sim .ok with ⟨-, h2⟩ | ⟨k, rest, hq, -⟩
      · simp only [nextDeltas, h2]; cases s.inf.q.closed <;> rfl
      · rw [h1] at hq; simp at hq
    have hl : (DeltaFifo.popLoop s.inf.q .ok s.inf.q.queue 0).1 = s.inf.q := by
      rcases DeltaFifo.pop_cases h.sim .ok with ⟨-, h2⟩ | ⟨k, rest, hq, -⟩
      · rw [h2]
      · rw [h1] at hq; simp at hq
    refine ⟨h1, ?_, ?_, ?_, ?_⟩
    · simp only [pop, hn, hl]
    · simp only [Informer.step, h2]
    · simp only [Informer.step, h2]
    · simp only [evEntries, hn]
  · right
    have hk := h.keyed k
    have hpe := process_eq k (pendingOf k log) s.inf.items 0 hk
    rw [hpe] at h2 h3 h4 h5
    refine ⟨k, by rw [hq]; rfl, ?_, hk, ?_, ?_, h3⟩
    · simp only [evEntries, hn, Informer.step]
      rw [h4, hpe, h5]
      rfl
    · simp only [pop, hn]
      simp only [Informer.step]
      rw [h2]
      rfl
    · simp only [Informer.step]
      rw [h2]

/-- Everybody who gets everything that matters stays up to date. -/
theorem receive_view {key : O → Option K} (k : K) (b : Bool) (ds : Deltas K O) :
    ∀ (items : PyDict K (Obj K O)), items.WF → (∀ d ∈ ds, keyOf key d.object = some k) →
    (b = true ∨ ∀ d ∈ ds, d.type ≠ .sync) →
    (receive b (handleDeltas key items ds).2).foldl (see key) (viewOf items)
      = viewOf (handleDeltas key items ds).1 := by
  induction ds with
  | nil => intro items _ _ _; rfl
  | cons d ds ih =>
    intro items hw hk hb
    obtain ⟨items', note, h1, h2, h3, h4, -, -⟩ := Informer.applyOne_spec hw (hk d (by simp))
    simp only [handleDeltas, h1]
    have hkeep : (!decide (d.type = .sync) || b) = true := by
      rcases hb with hb | hb
      · simp [hb]
      · simp [hb d (by simp)]
    have : receive b ((note, decide (d.type = .sync)) :: (handleDeltas key items' ds).2)
        = note :: receive b (handleDeltas key items' ds).2 := by
      simp only [receive, List.filter_cons, hkeep, if_true, List.map_cons]
    rw [this, List.foldl_cons, h4]
    refine ih items' h2 (fun e he => hk e (by simp [he])) ?_
    rcases hb with hb | hb
    · exact Or.inl hb
    · exact Or.inr fun e he => hb e (by simp [he])

/-- Deltas whose only Sync comes first and says what is stored. -/
def Repeats (items : PyDict K (Obj K O)) (k : K) (ds : Deltas K O) : Prop :=
  (∀ d ∈ ds.tail, d.type ≠ .sync) ∧
  (∀ d, ds.head? = some d → d.type = .sync → items.get? k = some d.object)

theorem receive_repeats {key : O → Option K} (k : K) (b : Bool) (ds : Deltas K O)
    (items : PyDict K (Obj K O)) (hw : items.WF) (hk : ∀ d ∈ ds, keyOf key d.object = some k)
    (hr : Repeats items k ds) :
    (receive b (handleDeltas key items ds).2).foldl (see key) (viewOf items)
      = viewOf (handleDeltas key items ds).1 := by
  by_cases hb : b = true ∨ ∀ d ∈ ds, d.type ≠ .sync
  · exact receive_view k b ds items hw hk hb
  · cases ds with
    | nil => rfl
    | cons d ds =>
      simp only [not_or, not_forall, Bool.not_eq_true] at hb
      obtain ⟨hb, -⟩ := hb
      subst hb
      by_cases hd : d.type = .sync
      · have hx := hr.2 d rfl hd
        obtain ⟨items', note, h1, h2, h3, h4, -, -⟩ := Informer.applyOne_spec hw (hk d (by simp))
        simp only [handleDeltas, h1]
        have hsame : viewOf items' = viewOf items := by
          funext j
          simp only [viewOf]
          rw [h3]
          split
          · rename_i hj; subst hj; rw [hx]; simp [hd]
          · rfl
        have : receive false ((note, decide (d.type = .sync)) :: (handleDeltas key items' ds).2)
            = receive false (handleDeltas key items' ds).2 := by
          simp [receive, List.filter_cons, hd]
        rw [this, ← hsame]
        exact receive_view k false ds items' h2 (fun e he => hk e (by simp [he]))
          (Or.inr fun e he => hr.1 e he)
      · exact receive_view k false (d :: ds) items hw hk (Or.inr (by
          intro e he
          rcases List.mem_cons.1 he with rfl | he
          · exact hd
          · exact hr.1 e he))

/-- Replaying the additions of everything stored. -/
theorem values_view {key : O → Option K} (items : PyDict K (Obj K O)) : ∀ v : View K O,
    items.WF → (∀ k x, items.get? k = some x → keyOf key x = some k) →
    (∀ k ∈ items.keys, v k = none) →
    (∀ j, (items.values.map Note.onAdd).foldl (see key) v j
      = match items.get? j with | some x => some x | none => v j) ∧
    AllSensible key v (items.values.map Note.onAdd) := by
  induction items with
  | nil => intro v _ _ _; exact ⟨fun j => rfl, trivial⟩
  | cons p items ih =>
    obtain ⟨k, x⟩ := p
    intro v hw ho hv
    have hw2 : k ∉ PyDict.keys items ∧ PyDict.WF items := by
      simpa [PyDict.WF, PyDict.keys] using hw
    have hkx : keyOf key x = some k := ho k x (by simp [PyDict.get?])
    have hsee : see key v (.onAdd x) = v.put k (some x) := by simp only [see, hkx]
    have hrest := ih (v.put k (some x)) hw2.2
      (by
        intro j y hy
        refine ho j y ?_
        have hjk : k ≠ j := by
          rintro rfl
          exact hw2.1 (PyDict.get?_isSome.1 (by rw [hy]; rfl))
        simpa [PyDict.get?, hjk] using hy)
      (by
        intro j hj
        have hjk : j ≠ k := by rintro rfl; exact hw2.1 hj
        simp only [View.put, hjk, if_false]
        exact hv j (by simp only [PyDict.keys, List.map_cons, List.mem_cons] at hj ⊢; exact Or.inr hj))
    refine ⟨?_, ?_⟩
    · intro j
      show ((PyDict.values items).map Note.onAdd).foldl (see key) (see key v (.onAdd x)) j = _
      rw [hsee, hrest.1 j]
      by_cases hjk : k = j
      · subst hjk
        have : PyDict.get? items k = none := by
          cases hg : PyDict.get? items k with
          | none => rfl
          | some y => exact absurd (PyDict.get?_isSome.1 (by rw [hg]; rfl)) hw2.1
        rw [this]
        simp [PyDict.get?, View.put]
      · simp [PyDict.get?, hjk, View.put, Ne.symm hjk]
    · exact ⟨⟨k, hkx, hv k (by simp [PyDict.keys])⟩, by rw [hsee]; exact hrest.2⟩

/-! ## Invariants -/

/-- What is known about queue and indexer. -/
def Good (key : O → Option K) (s : State K O) : Prop :=
  ∃ log, Inv key s.inf log ∧ Fit s.inf.items log

theorem good_inf {key : O → Option K} {s : State K O} (h : Good key s) (e : Informer.Ev K O)
    (hr : Informer.Spec.Ev.noRequeue e) {t : State K O}
    (ht : t.inf = (Informer.step key s.inf e).1) : Good key t := by
  obtain ⟨log, h1, h2⟩ := h
  exact ⟨_, ht ▸ (Informer.inv_step h1 e).1, ht ▸ (Informer.fit_step h1 h2 e hr).1⟩

theorem good_step {key : O → Option K} {s : State K O} (h : Good key s) (e : Ev K O) :
    Good key (step key s e) := by
  have hq : ∀ e : Informer.Ev K O, Informer.Spec.Ev.noRequeue e → Good key (onQueue key s e) := by
    intro e hr
    unfold onQueue
    split
    · exact good_inf h e hr rfl
    · exact h
  cases e with
  | start => exact h
  | register => exact h
  | check due => exact h
  | add x => exact hq _ trivial
  | update x => exact hq _ trivial
  | delete x => exact hq _ trivial
  | replace xs => exact hq _ trivial
  | resync => exact hq _ trivial
  | pop =>
    simp only [step]
    split
    · obtain ⟨log, h1, h2⟩ := h
      rcases pop_inf h1 with ⟨-, h3, -⟩ | ⟨k, -, -, -, h3, -⟩
      · rw [h3]; exact ⟨log, h1, h2⟩
      · exact good_inf ⟨log, h1, h2⟩ okPop (by intro i c; simp) (by rw [h3])
    · exact h

theorem good_init (key : O → Option K) : Good key (init : State K O) :=
  ⟨[], Informer.inv_init key, Informer.fit_init⟩

theorem good_exec {key : O → Option K} (es : List (Ev K O)) : ∀ {s : State K O}, Good key s →
    Good key (exec key s es) := by
  induction es with
  | nil => intro s h; exact h
  | cons e es ih => intro s h; exact ih (good_step h e)

/-- Before the start there is nothing. -/
def Idle (s : State K O) : Prop := s.started = false → s.inf.items = []

theorem idle_step {key : O → Option K} {s : State K O} (h : Idle s) (e : Ev K O) :
    Idle (step key s e) := by
  cases e with
  | start => intro h1; simp [step] at h1
  | register => exact h
  | check due => exact h
  | pop =>
    intro h1
    simp only [step] at h1 ⊢
    split
    · rename_i hs
      simp only [hs, if_true] at h1
      have : (pop key s).started = s.started := by
        unfold pop; dsimp only; split <;> rfl
      rw [this, hs] at h1; simp at h1
    · rename_i hs; exact h (by simpa using hs)
  | add x | update x | delete x | replace xs | resync =>
    intro h1
    simp only [step, onQueue] at h1 ⊢
    split
    · rename_i hs
      simp only [hs, if_true] at h1
      simp at h1
    · rename_i hs; exact h (by simpa using hs)

/-- Listener `i` is up to date and its notifications made sense. -/
def Fresh (key : O → Option K) (s : State K O) (i : Nat) : Prop :=
  ∀ ns, s.sent[i]? = some ns → view key ns = viewOf s.inf.items

theorem register_fresh {key : O → Option K} {s : State K O} (h : Good key s) (hi : Idle s) :
    view key (if s.started then s.inf.items.values.map Note.onAdd else []) = viewOf s.inf.items ∧
    AllSensible key (fun _ => none)
      (if s.started then s.inf.items.values.map Note.onAdd else []) := by
  obtain ⟨log, h1, -⟩ := h
  by_cases hs : s.started = true
  · simp only [hs, if_true]
    obtain ⟨h2, h3⟩ := values_view s.inf.items (fun _ => none) h1.wf h1.own (by simp)
    refine ⟨?_, h3⟩
    funext j
    rw [view, h2 j, viewOf]
    cases s.inf.items.get? j <;> rfl
  · have hs' : s.started = false := by simpa using hs
    simp only [hs', Bool.false_eq_true, if_false]
    rw [hi hs']
    exact ⟨rfl, trivial⟩

theorem view_append (key : O → Option K) (a b : List (Note K O)) :
    view key (a ++ b) = b.foldl (see key) (view key a) := by
  simp [view, List.foldl_append]

theorem sensible_append {key : O → Option K} (a : List (Note K O)) : ∀ (v : View K O) b,
    AllSensible key v a → AllSensible key (a.foldl (see key) v) b → AllSensible key v (a ++ b) := by
  induction a with
  | nil => intro v b _ hb; exact hb
  | cons n a ih => intro v b ha hb; exact ⟨ha.1, ih _ b ha.2 hb⟩

theorem sent_pop (s : State K O) (ns : List (Note K O × Bool)) (i : Nat) :
    (distribute s ns)[i]? = (s.sent[i]?).map fun l => l ++ receive (decide (i ∈ s.syncing)) ns := by
  simp [distribute, List.getElem?_mapIdx]

/-- What a listener that every check selects knows. -/
structure Served (key : O → Option K) (s : State K O) (i : Nat) : Prop where
  syncing : i < s.sent.length → i ∈ s.syncing
  fresh : ∀ ns, s.sent[i]? = some ns → view key ns = viewOf s.inf.items
  sensible : ∀ ns, s.sent[i]? = some ns → AllSensible key (fun _ => none) ns

theorem receive_true (ns : List (Note K O × Bool)) : receive true ns = ns.map Prod.fst := by
  simp [receive]

theorem served_step {key : O → Option K} {s : State K O} {i : Nat} (hg : Good key s)
    (hi : Idle s) (h : Served key s i) (e : Ev K O) (hs : Ev.selects i e) :
    Served key (step key s e) i := by
  have hq : ∀ e : Informer.Ev K O, (Informer.step key s.inf e).1.items = s.inf.items →
      Served key (onQueue key s e) i := by
    intro e hitems
    unfold onQueue
    split
    · exact ⟨h.syncing, fun ns hns => by rw [h.fresh ns hns]; simp only [hitems], h.sensible⟩
    · exact h
  cases e with
  | start => exact ⟨h.syncing, h.fresh, h.sensible⟩
  | register =>
    obtain ⟨h1, h2⟩ := register_fresh hg hi
    refine ⟨?_, ?_, ?_⟩
    · intro hlt
      simp only [step, List.length_append, List.length_singleton] at hlt
      simp only [step, List.mem_append, List.mem_singleton]
      by_cases hl : i < s.sent.length
      · exact Or.inl (h.syncing hl)
      · exact Or.inr (by omega)
    · intro ns hns
      simp only [step] at hns ⊢
      rw [List.getElem?_append] at hns
      split at hns
      · exact h.fresh ns hns
      · rw [List.getElem?_singleton] at hns
        split at hns
        · simp only [Option.some.injEq] at hns; rw [← hns]; exact h1
        · simp at hns
    · intro ns hns
      simp only [step] at hns ⊢
      rw [List.getElem?_append] at hns
      split at hns
      · exact h.sensible ns hns
      · rw [List.getElem?_singleton] at hns
        split at hns
        · simp only [Option.some.injEq] at hns; rw [← hns]; exact h2
        · simp at hns
  | check due =>
    refine ⟨?_, h.fresh, h.sensible⟩
    intro hlt
    simp only [step, List.mem_filter, List.mem_range]
    exact ⟨hlt, hs⟩
  | add x => exact hq _ rfl
  | update x => exact hq _ rfl
  | delete x => exact hq _ rfl
  | replace xs => exact hq _ rfl
  | resync => exact hq _ rfl
  | pop =>
    simp only [step]
    split
    · obtain ⟨log, h1, h2⟩ := hg
      rcases pop_inf h1 with ⟨-, h3, -⟩ | ⟨k, hk0, hev, hk, h3, h4, h5⟩
      · rw [h3]; exact h
      · rw [h3]
        have hst : ∀ ns, (distribute s (handleDeltas key s.inf.items (pendingOf k log)).2)[i]?
            = some ns → ∃ l, s.sent[i]? = some l ∧
            ns = l ++ (handleDeltas key s.inf.items (pendingOf k log)).2.map Prod.fst := by
          intro ns hns
          rw [sent_pop, Option.map_eq_some_iff] at hns
          obtain ⟨l, hl, rfl⟩ := hns
          have hlt : i < s.sent.length := (List.getElem?_eq_some_iff.1 hl).1
          refine ⟨l, hl, ?_⟩
          rw [decide_eq_true (h.syncing hlt), receive_true]
        refine ⟨?_, ?_, ?_⟩
        · intro hlt
          simp only [distribute, List.length_mapIdx] at hlt
          exact h.syncing hlt
        · intro ns hns
          obtain ⟨l, hl, rfl⟩ := hst ns hns
          rw [view_append, h.fresh l hl, ← receive_true]
          simp only [h4]
          exact receive_view k true _ _ h1.wf hk (Or.inl rfl)
        · intro ns hns
          obtain ⟨l, hl, rfl⟩ := hst ns hns
          refine sensible_append _ _ _ (h.sensible l hl) ?_
          have := h.fresh l hl
          rw [view] at this
          rw [this, ← h5]
          exact (Informer.fit_step h1 h2 okPop (by intro i c; simp)).2
    · exact h

theorem served_exec {key : O → Option K} {i : Nat} (es : List (Ev K O)) : ∀ {s : State K O},
    Good key s → Idle s → Served key s i → (∀ e ∈ es, Ev.selects i e) →
    Served key (exec key s es) i := by
  induction es with
  | nil => intro s _ _ h _; exact h
  | cons e es ih =>
    intro s hg hi h hs
    exact ih (good_step hg e) (idle_step hi e) (served_step hg hi h e (hs e (by simp)))
      (fun e' h' => hs e' (by simp [h']))

theorem idle_exec {key : O → Option K} (es : List (Ev K O)) : ∀ {s : State K O}, Idle s →
    Idle (exec key s es) := by
  induction es with
  | nil => intro s h; exact h
  | cons e es ih => intro s h; exact ih (idle_step h e)

theorem served_init (key : O → Option K) (i : Nat) : Served key (init : State K O) i :=
  ⟨by simp [init], by simp [init], by simp [init]⟩

/-! ## Without lists every Sync repeats -/

/-- Every pending Sync says what is stored. -/
def AllRepeat (s : State K O) (log : List (Entry K O)) : Prop :=
  ∀ k, Repeats s.inf.items k (pendingOf k log)

theorem repeats_merge {items : PyDict K (Obj K O)} {k : K} {ds : Deltas K O} {d : Delta K O}
    (h : Repeats items k ds) (hd : d.type ≠ .sync) : Repeats items k (merge ds d) := by
  unfold merge
  rcases List.eq_nil_or_concat ds with rfl | ⟨ds, l, rfl⟩
  · exact ⟨by simp, by simp [hd]⟩
  · simp only [List.concat_eq_append, List.getLast?_append, List.getLast?_singleton,
      Option.some_or, List.dropLast_concat] at h ⊢
    have happ : ∀ e : Delta K O, e.type ≠ .sync → Repeats items k ((ds ++ [l]) ++ [e]) := by
      intro e he
      constructor
      · intro x hx
        rw [List.tail_append_of_ne_nil (by simp), List.mem_append, List.mem_singleton] at hx
        rcases hx with hx | rfl
        · exact h.1 x hx
        · exact he
      · intro x hx hs
        rw [List.head?_append] at hx
        refine h.2 x ?_ hs
        cases hh : (ds ++ [l]).head? with
        | none => simp at hh
        | some y => rw [hh] at hx; simpa using hx
    split
    · exact h
    · split
      · rename_i h2
        have hkeep : ∀ e : Delta K O, e.type ≠ .sync → Repeats items k (ds ++ [e]) := by
          intro e he
          cases ds with
          | nil => exact ⟨by simp, by simp [he]⟩
          | cons a ds =>
            constructor
            · intro x hx
              simp only [List.cons_append, List.tail_cons, List.mem_append,
                List.mem_singleton] at hx
              rcases hx with hx | rfl
              · exact h.1 x (by simp [hx])
              · exact he
            · intro x hx hs
              exact h.2 x (by simpa using hx) hs
        cases l.object
        · exact hkeep l (by simp [h2.1])
        · exact hkeep d hd
        · exact hkeep d hd
      · exact happ d hd

theorem repeats_step {key : O → Option K} {s : State K O} {log : List (Entry K O)}
    (h1 : Inv key s.inf log) (h : AllRepeat s log) (e : Informer.Ev K O)
    (hn : Informer.Spec.Ev.noList e) (he : ∀ hd, e = .pop hd → e = okPop)
    {t : State K O} (ht : t.inf = (Informer.step key s.inf e).1) :
    AllRepeat t (log ++ evEntries key s.inf log e) := by
  cases e with
  | replace xs => exact hn.elim
  | resync =>
    intro k
    rw [Informer.resync_pending h1 k, ht]
    show Repeats s.inf.items k _
    cases hg : s.inf.items.get? k with
    | none => exact h k
    | some x =>
      simp only
      split
      · exact ⟨by simp, by
          intro d hd _
          simp only [List.head?_cons, Option.some.injEq] at hd
          rw [← hd, hg]⟩
      · exact h k
  | pop hd =>
    have := he hd rfl
    rw [this] at ht ⊢
    intro j
    rcases Informer.pop_norequeue h1 (fun _ => .ok) (by intro i c; simp) with
      ⟨-, h2, h3⟩ | ⟨k, hk0, hp, h2, h3, h4⟩
    · rw [h3, ht, h2]; simpa using h j
    · rw [h2, DeltaFifo.pendingOf_popped]
      split
      · exact ⟨by simp, by simp⟩
      · rename_i hjk
        have hoth := (Informer.pop_other h1 (fun _ => .ok) j (by
          rw [hk0]; simpa using hjk)).1
        refine ⟨(h j).1, fun d hd hs => ?_⟩
        rw [ht, hoth]
        exact (h j).2 d hd hs
  | add x =>
    intro k
    rw [ht]
    simp only [evEntries, Informer.opOf, Informer.step, Informer.call, entries]
    cases hk : keyOf key x with
    | none => simpa using h k
    | some j =>
      rw [DeltaFifo.pendingOf_change]
      split
      · rename_i hjk; subst hjk; exact repeats_merge (h j) (by simp)
      · exact h k
  | update x =>
    intro k
    rw [ht]
    simp only [evEntries, Informer.opOf, Informer.step, Informer.call, entries]
    cases hk : keyOf key x with
    | none => simpa using h k
    | some j =>
      rw [DeltaFifo.pendingOf_change]
      split
      · rename_i hjk; subst hjk; exact repeats_merge (h j) (by simp)
      · exact h k
  | delete x =>
    intro k
    rw [ht]
    simp only [evEntries, Informer.opOf, Informer.step, Informer.call]
    cases hk : keyOf key x with
    | none => simpa [entries, hk] using h k
    | some j =>
      rw [DeltaFifo.pendingOf_delete key log _ x j hk k]
      split
      · rename_i hjk
        obtain ⟨rfl, -⟩ := hjk
        exact repeats_merge (h k) (by simp)
      · exact h k

/-- Queue, indexer and listeners while there are no lists. -/
def Calm (key : O → Option K) (s : State K O) : Prop :=
  ∃ log, Inv key s.inf log ∧ AllRepeat s log ∧
    ∀ (i : Nat) ns, s.sent[i]? = some ns → view key ns = viewOf s.inf.items

theorem calm_step {key : O → Option K} {s : State K O} (hi : Idle s) (hg : Good key s)
    (h : Calm key s) (e : Ev K O) (hn : Ev.noList e) : Calm key (step key s e) := by
  have hq : ∀ e : Informer.Ev K O, Informer.Spec.Ev.noList e → (∀ hd, e ≠ .pop hd) →
      (Informer.step key s.inf e).1.items = s.inf.items → Calm key (onQueue key s e) := by
    intro e hl hp hitems
    obtain ⟨log, h1, h2, h3⟩ := h
    unfold onQueue
    split
    · exact ⟨_, (Informer.inv_step h1 e).1, repeats_step h1 h2 e hl (fun hd he => absurd he (hp hd)) rfl,
        fun i ns hns => by rw [h3 i ns hns]; simp only [hitems]⟩
    · exact ⟨log, h1, h2, h3⟩
  cases e with
  | start => exact h
  | check due => exact h
  | register =>
    obtain ⟨log, h1, h2, h3⟩ := h
    refine ⟨log, h1, h2, ?_⟩
    intro i ns hns
    simp only [step] at hns ⊢
    rw [List.getElem?_append] at hns
    split at hns
    · exact h3 i ns hns
    · rw [List.getElem?_singleton] at hns
      split at hns
      · simp only [Option.some.injEq] at hns; rw [← hns]; exact (register_fresh hg hi).1
      · simp at hns
  | add x => exact hq _ trivial (by simp) rfl
  | update x => exact hq _ trivial (by simp) rfl
  | delete x => exact hq _ trivial (by simp) rfl
  | replace xs => exact hn.elim
  | resync => exact hq _ trivial (by simp) rfl
  | pop =>
    simp only [step]
    split
    · obtain ⟨log, h1, h2, h3⟩ := h
      rcases pop_inf h1 with ⟨-, h4, -⟩ | ⟨k, hk0, hev, hk, h4, h5, h6⟩
      · rw [h4]; exact ⟨log, h1, h2, h3⟩
      · rw [h4]
        refine ⟨_, (Informer.inv_step h1 okPop).1,
          repeats_step h1 h2 okPop trivial (fun _ _ => rfl) rfl, ?_⟩
        intro i ns hns
        rw [sent_pop, Option.map_eq_some_iff] at hns
        obtain ⟨l, hl, rfl⟩ := hns
        rw [view_append, h3 i l hl]
        simp only [h5]
        exact receive_repeats k _ _ _ h1.wf hk (h2 k)
    · exact h

theorem calm_exec {key : O → Option K} (es : List (Ev K O)) : ∀ {s : State K O}, Idle s →
    Good key s → Calm key s → (∀ e ∈ es, Ev.noList e) → Calm key (exec key s es) := by
  induction es with
  | nil => intro s _ _ h _; exact h
  | cons e es ih =>
    intro s hi hg h hn
    exact ih (idle_step hi e) (good_step hg e) (calm_step hi hg h e (hn e (by simp)))
      (fun e' h' => hn e' (by simp [h']))

theorem exec_append (key : O → Option K) (as bs : List (Ev K O)) : ∀ s : State K O,
    exec key s (as ++ bs) = exec key (exec key s as) bs := by
  induction as with
  | nil => intro s; rfl
  | cons a as ih => intro s; exact ih _

end Aiok8s.SharedInformer
