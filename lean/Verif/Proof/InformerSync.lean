import Verif.Spec.InformerSync
import Verif.Proof.Informer
/-!
# Lemmas about informers seen in the middle of a pop
-/
set_option linter.unusedSimpArgs false
set_option linter.unusedSectionVars false
namespace Aiok8s.InformerSync
open Aiok8s.DeltaFifo (Obj Delta Deltas DType Outcome keyOf Sim)
open Aiok8s.DeltaFifo.Spec (Entry pendingOf orderOf entries merge)
open Aiok8s.Informer (Note applyOne known opOf)
open Spec
variable {K O : Type} [DecidableEq K]

theorem merge_head (a d : Delta K O) (tl : Deltas K O) (h : a.type ≠ .deleted) :
    ∃ tl', merge (a :: tl) d = a :: tl' := by
  simp only [merge]
  split
  · rename_i e; simp at e
  · rename_i l e
    split
    · exact ⟨tl, rfl⟩
    · split
      · rename_i hd
        cases tl with
        | nil =>
          simp at e
          subst e
          exact absurd hd.1 h
        | cons b tl => exact ⟨_, by rw [List.dropLast_cons₂]; rfl⟩
      · exact ⟨tl ++ [d], rfl⟩

theorem foldl_merge_head (a : Delta K O) (h : a.type ≠ .deleted) (xs : List (Obj K O)) :
    ∀ tl, ∃ tl', xs.foldl (fun ds x => merge ds ⟨.sync, x⟩) (a :: tl) = a :: tl' := by
  induction xs with
  | nil => intro tl; exact ⟨tl, rfl⟩
  | cons x xs ih =>
    intro tl
    obtain ⟨tl', h'⟩ := merge_head a ⟨.sync, x⟩ tl h
    simp only [List.foldl_cons, h']
    exact ih tl'

/-- The first object of a list, and the first delta after it. -/
theorem syncs_head (key : O → Option K) (xs : List (Obj K O)) (k : K) (x : Obj K O)
    (h : firstOf key xs k = some x) :
    ∃ tl, (xs.filter fun x => keyOf key x = some k).foldl
      (fun ds x => merge ds ⟨.sync, x⟩) [] = ⟨.sync, x⟩ :: tl := by
  have : ∃ ys, xs.filter (fun x => keyOf key x = some k) = x :: ys := by
    have hh : (xs.filter fun x => keyOf key x = some k).head? = some x := by
      rw [List.head?_filter]; exact h
    cases he : xs.filter (fun x => keyOf key x = some k) with
    | nil => rw [he] at hh; simp at hh
    | cons y ys => rw [he] at hh; simp at hh; exact ⟨ys, by rw [hh]⟩
  obtain ⟨ys, hy⟩ := this
  rw [hy]
  simp only [List.foldl_cons]
  exact foldl_merge_head ⟨.sync, x⟩ (by simp) ys []

/-- Changes and put-backs keep the order and the heads of what is pending. -/
theorem changes_keep (es : List (Entry K O)) (he : ∀ e ∈ es, ∀ k, e ≠ .popped k) :
    ∀ log : List (Entry K O),
    (∃ more, orderOf (log ++ es) = orderOf log ++ more) ∧
    ∀ k a tl, a.type ≠ .deleted → pendingOf k log = a :: tl →
      ∃ tl', pendingOf k (log ++ es) = a :: tl' := by
  induction es with
  | nil => intro log; exact ⟨⟨[], by simp⟩, fun k a tl _ h => ⟨tl, by simpa using h⟩⟩
  | cons e es ih =>
    intro log
    obtain ⟨⟨more, h1⟩, h2⟩ := ih (fun e' he' => he e' (by simp [he'])) (log ++ [e])
    rw [List.append_cons]
    cases e with
    | popped j => exact absurd rfl (he _ (by simp) j)
    | change j d =>
      rw [DeltaFifo.orderOf_change] at h1
      refine ⟨?_, ?_⟩
      · rw [h1]
        split
        · exact ⟨more, rfl⟩
        · exact ⟨[j] ++ more, by simp⟩
      · intro k a tl ha hp
        have : ∃ tl', pendingOf k (log ++ [.change j d]) = a :: tl' := by
          rw [DeltaFifo.pendingOf_change]
          split
          · rw [hp]; exact merge_head a d tl ha
          · exact ⟨tl, hp⟩
        obtain ⟨tl', h'⟩ := this
        exact h2 k a tl' ha h'
    | putBack j b =>
      rw [DeltaFifo.orderOf_putBack] at h1
      refine ⟨?_, ?_⟩
      · rw [h1]
        split
        · exact ⟨more, rfl⟩
        · exact ⟨[j] ++ more, by simp⟩
      · intro k a tl ha hp
        have : pendingOf k (log ++ [.putBack j b]) = a :: tl := by
          rw [DeltaFifo.pendingOf_putBack, hp]
          simp
        exact h2 k a tl ha this

/-- What is popped is in order to be put back. -/
def FlightOk (key : O → Option K) : Flight K O → Prop
  | .idle => True
  | .waiting k ds => ds ≠ [] ∧ ∀ d, ds.getLast? = some d → keyOf key d.object = some k
  | .calling k all _ => all ≠ [] ∧ ∀ d, all.getLast? = some d → keyOf key d.object = some k

/-- `rem` is what is left in the queue of the first list. -/
structure Inv (key : O → Option K) (xs : List (Obj K O)) (s : State K O) (ns : List (Note K O)) :
    Prop where
  populated : s.inf.q.populated = true
  flight : FlightOk key s.flight
  rest : ∃ log rem others, Sim key s.inf.q log ∧ orderOf log = rem ++ others ∧
    rem.length ≤ s.inf.q.count ∧
    ∀ k x, firstOf key xs k = some x →
      (k ∈ rem ∧ ∃ tl, pendingOf k log = ⟨.sync, x⟩ :: tl) ∨ (∃ n ∈ ns, Stored x n) ∨
      ∃ tl, s.flight = .waiting k (⟨.sync, x⟩ :: tl)

theorem count_call {key : O → Option K} {s : Informer.State K O} {log : List (Entry K O)}
    (h : Sim key s.q log) (hp : s.q.populated = true) (e : Informer.Ev K O)
    (o : DeltaFifo.Op K O) (ho : opOf s e = some o) :
    (DeltaFifo.step key s.q o).1.populated = true ∧
    (DeltaFifo.step key s.q o).1.count = s.q.count := by
  obtain ⟨h1, h2⟩ := DeltaFifo.count_step h hp o
  refine ⟨h1, ?_⟩
  have hq : ∀ t x, (DeltaFifo.queueAction key { s.q with populated := true } t x).1.count
      = s.q.count := fun t x => (DeltaFifo.queueAction_rest _ _ _ _).2.1
  cases e with
  | pop r => simp [opOf] at ho
  | add x => simp only [opOf, Option.some.injEq] at ho; subst ho; exact hq _ _
  | update x => simp only [opOf, Option.some.injEq] at ho; subst ho; exact hq _ _
  | delete x =>
    simp only [opOf, Option.some.injEq] at ho; subst ho
    simp only [DeltaFifo.step, DeltaFifo.delete]
    cases keyOf key x with
    | none => rfl
    | some k => simp only; split; rfl; exact hq _ _
  | replace xs =>
    simp only [opOf, Option.some.injEq] at ho; subst ho
    obtain ⟨-, -, h1, h2⟩ := DeltaFifo.sim_replace h (some (known s.items)) xs .ok
    simp only [DeltaFifo.step]
    cases hk : DeltaFifo.Spec.keysOf key xs with
    | none => exact (h1 hk).2.2
    | some keys => rw [(h2 keys hk).2.2]; simp [hp]
  | resync =>
    simp only [opOf, Option.some.injEq] at ho; subst ho
    obtain ⟨-, a, b, -⟩ := DeltaFifo.sim_resyncKeys (key := key) (known s.items) log
      (known s.items).keys [] h (by simp)
    first | exact a | exact b

/-- A call of the reflector. -/
theorem inv_call {key : O → Option K} {xs : List (Obj K O)} {s s' : State K O}
    {ns n : List (Note K O)} (h : Inv key xs s ns) (e : Informer.Ev K O)
    (he : ∀ r, e ≠ .pop r) (hs : call key s e = some (s', n)) : Inv key xs s' (ns ++ n) := by
  obtain ⟨hpop, hfl, log, rem, others, h1, h2, h3, h4⟩ := h
  have ⟨o, ho⟩ : ∃ o, opOf s.inf e = some o := by
    cases e <;> simp [opOf]
    rename_i r; exact he r rfl
  cases hf : s.flight with
  | idle =>
    simp only [call, hf, Option.some.injEq, Prod.mk.injEq] at hs
    obtain ⟨rfl, rfl⟩ := hs
    rw [Informer.step_op ho]
    have hs' := DeltaFifo.sim_step h1 o
    have hown := Informer.own_entries (key := key) log e o (DeltaFifo.step key s.inf.q o).2 ho
    obtain ⟨⟨more, hm⟩, hh⟩ := changes_keep (entries key log (o, (DeltaFifo.step key s.inf.q o).2))
      (fun e he k hc => by obtain ⟨k', d, hd, -⟩ := hown e he; rw [hd] at hc; simp at hc) log
    obtain ⟨hc1, hc2⟩ := count_call h1 hpop e o ho
    refine ⟨hc1, trivial, _, rem, others ++ more, hs', ?_, ?_, ?_⟩
    · rw [hm, h2, List.append_assoc]
    · exact hc2 ▸ h3
    · intro k x hx
      rcases h4 k x hx with ⟨hk, tl, hp⟩ | hn | ⟨tl, hw⟩
      · obtain ⟨tl', hp'⟩ := hh k _ tl (by simp) hp
        exact Or.inl ⟨hk, tl', hp'⟩
      · rw [List.append_nil]; exact Or.inr (Or.inl hn)
      · rw [hf] at hw; simp at hw
  | waiting k ds => simp [call, hf] at hs
  | calling k all rest => simp [call, hf] at hs

/-- What remains true while a pop is finished. -/
theorem rest_finish {key : O → Option K} {q : DeltaFifo.State K O} {log : List (Entry K O)}
    (h1 : Sim key q log) (hp : q.populated = true) {k : K} {all : Deltas K O} (ha : all ≠ [])
    (hl : ∀ d, all.getLast? = some d → keyOf key d.object = some k) (r : Outcome) :
    (DeltaFifo.finish q k all 0 r).1.populated = true ∧
    (DeltaFifo.finish q k all 0 r).1.count = q.count ∧
    ∃ es : List (Entry K O), (∀ e ∈ es, ∀ k, e ≠ .popped k) ∧
      Sim key (DeltaFifo.finish q k all 0 r).1 (log ++ es) := by
  have put : (DeltaFifo.addIfNotPresent q k all).populated = true ∧
      (DeltaFifo.addIfNotPresent q k all).count = q.count ∧
      ∃ es : List (Entry K O), (∀ e ∈ es, ∀ k, e ≠ .popped k) ∧
        Sim key (DeltaFifo.addIfNotPresent q k all) (log ++ es) := by
    refine ⟨?_, ?_, [.putBack k all], by simp, DeltaFifo.sim_putBack h1 k all ha hl⟩
    · simp only [DeltaFifo.addIfNotPresent]; split <;> rfl
    · simp only [DeltaFifo.addIfNotPresent]; split <;> rfl
  cases r with
  | ok | error | cancelled => exact ⟨hp, rfl, [], by simp, by rw [List.append_nil]; exact h1⟩
  | requeue c => cases c <;> exact put

/-- Finishing a pop of which everything tracked is stored. -/
theorem inv_finish {key : O → Option K} {xs : List (Obj K O)} {s : State K O}
    {ns : List (Note K O)} {k : K} {all : Deltas K O} (r : Outcome)
    (h : Inv key xs { s with flight := .calling k all [] } ns) :
    Inv key xs (finish s k all r) ns := by
  obtain ⟨hpop, hfl, log, rem, others, h1, h2, h3, h4⟩ := h
  obtain ⟨f1, f2, es, f3, f4⟩ := rest_finish h1 hpop hfl.1 hfl.2 r
  obtain ⟨⟨more, hm⟩, hh⟩ := changes_keep es f3 log
  refine ⟨f1, trivial, log ++ es, rem, others ++ more, f4, ?_, ?_, ?_⟩
  · rw [hm, h2, List.append_assoc]
  · exact f2 ▸ h3
  · intro k x hx
    rcases h4 k x hx with ⟨hk, tl, hp⟩ | hn | ⟨tl, hw⟩
    · obtain ⟨tl', hp'⟩ := hh k _ tl (by simp) hp
      exact Or.inl ⟨hk, tl', hp'⟩
    · exact Or.inr (Or.inl hn)
    · simp at hw

theorem applyOne_stored {key : O → Option K} {items items' : PyDict K (Obj K O)} {x : Obj K O}
    {n : Note K O} (h : applyOne key items ⟨.sync, x⟩ = some (items', n)) : Stored x n := by
  simp only [applyOne] at h
  split at h
  · simp at h
  · simp only [reduceCtorEq, if_false] at h
    split at h <;> simp only [Option.some.injEq, Prod.mk.injEq] at h <;> rw [← h.2] <;> rfl

theorem applyOne_some {key : O → Option K} (items : PyDict K (Obj K O)) {d : Delta K O} {k : K}
    (h : keyOf key d.object = some k) : ∃ r, applyOne key items d = some r := by
  simp only [applyOne, h]
  split
  · exact ⟨_, rfl⟩
  · split <;> exact ⟨_, rfl⟩

/-- The next delta. -/
theorem inv_advance {key : O → Option K} {xs : List (Obj K O)} {s : State K O}
    {ns : List (Note K O)} {k : K} {all rest : Deltas K O}
    (h : Inv key xs { s with flight := .calling k all rest } ns) :
    Inv key xs (advance key s k all rest).1 (ns ++ (advance key s k all rest).2) := by
  have hfin : ∀ r, Inv key xs (finish s k all r) ns := fun r => inv_finish r
    ⟨h.populated, h.flight, by
      obtain ⟨log, rem, others, h1, h2, h3, h4⟩ := h.rest
      refine ⟨log, rem, others, h1, h2, h3, fun k x hx => ?_⟩
      rcases h4 k x hx with hk | hn | ⟨tl, hw⟩
      · exact Or.inl hk
      · exact Or.inr (Or.inl hn)
      · simp at hw⟩
  cases rest with
  | nil => simpa [advance] using hfin .ok
  | cons d rest =>
    simp only [advance]
    cases ha : applyOne key s.inf.items d with
    | none => simpa using hfin .error
    | some r =>
      obtain ⟨items, n⟩ := r
      obtain ⟨hpop, hfl, log, rem, others, h1, h2, h3, h4⟩ := h
      refine ⟨hpop, hfl, log, rem, others, h1, h2, h3, fun k x hx => ?_⟩
      rcases h4 k x hx with hk | ⟨n, hn, hst⟩ | ⟨tl, hw⟩
      · exact Or.inl hk
      · exact Or.inr (Or.inl ⟨n, by simp [hn], hst⟩)
      · simp at hw

/-- Starting with deltas that wait. -/
theorem inv_start {key : O → Option K} {xs : List (Obj K O)} {s : State K O}
    {ns : List (Note K O)} {k : K} {ds : Deltas K O}
    (h : Inv key xs { s with flight := .waiting k ds } ns) :
    Inv key xs (advance key s k ds ds).1 (ns ++ (advance key s k ds ds).2) := by
  obtain ⟨hpop, hfl, log, rem, others, h1, h2, h3, h4⟩ := h
  by_cases hw : ∃ x tl, firstOf key xs k = some x ∧ ds = ⟨.sync, x⟩ :: tl
  · obtain ⟨x, tl, hx, rfl⟩ := hw
    have hkx : keyOf key x = some k := by
      have := List.find?_some hx
      simpa using this
    obtain ⟨⟨items, n⟩, ha⟩ := applyOne_some (key := key) s.inf.items (d := ⟨.sync, x⟩) hkx
    simp only [advance, ha]
    refine ⟨hpop, hfl, log, rem, others, h1, h2, h3, fun j y hy => ?_⟩
    rcases h4 j y hy with hk | ⟨n', hn, hst⟩ | ⟨tl', hw⟩
    · exact Or.inl hk
    · exact Or.inr (Or.inl ⟨n', by simp [hn], hst⟩)
    · simp only [Flight.waiting.injEq] at hw
      obtain ⟨rfl, hw⟩ := hw
      rw [hx] at hy
      simp only [Option.some.injEq] at hy
      subst hy
      exact Or.inr (Or.inl ⟨n, by simp, applyOne_stored ha⟩)
  · refine inv_advance ⟨hpop, hfl, log, rem, others, h1, h2, h3, fun j y hy => ?_⟩
    rcases h4 j y hy with hk | hn | ⟨tl', hw'⟩
    · exact Or.inl hk
    · exact Or.inr (Or.inl hn)
    · simp only [Flight.waiting.injEq] at hw'
      obtain ⟨rfl, hw'⟩ := hw'
      exact absurd ⟨y, tl', hy, hw'⟩ hw

/-- Taking an item off the queue. -/
theorem inv_take {key : O → Option K} {xs : List (Obj K O)} {s : State K O}
    {ns : List (Note K O)} (h : Inv key xs s ns) (hf : s.flight = .idle) :
    (s.inf.q.queue = [] ∧ DeltaFifo.popLoop s.inf.q .ok s.inf.q.queue 0
      = (s.inf.q, if s.inf.q.closed then .closedError else .blocked)) ∨
    ∃ q k ds, DeltaFifo.popLoop s.inf.q .ok s.inf.q.queue 0 = (q, .popped k ds .returned 0) ∧
      Inv key xs { s with inf := ⟨q, s.inf.items⟩, flight := .waiting k ds } ns := by
  obtain ⟨hpop, hfl, log, rem, others, h1, h2, h3, h4⟩ := h
  rcases DeltaFifo.pop_cases h1 .ok with h5 | ⟨k, rest, hq, hp, h5⟩
  · exact Or.inl h5
  · right
    refine ⟨_, k, _, h5, hpop, ⟨hp, h1.newest k⟩, log ++ [.popped k],
      rem.tail, if rem = [] then others.tail else others, DeltaFifo.sim_popped h1 hq _, ?_, ?_, ?_⟩
    · have := (DeltaFifo.sim_popped h1 hq 0).order
      rw [this]
      simp only
      rw [h1.order, hq] at h2
      cases rem with
      | nil => simp at h2; simp [← h2]
      | cons a rem => simp at h2; simp [h2]
    · simp only [List.length_tail]; omega
    · intro j y hy
      rcases h4 j y hy with ⟨hk, tl, hp'⟩ | hn | ⟨tl', hw'⟩
      · by_cases hjk : k = j
        · subst hjk; rw [hp']; exact Or.inr (Or.inr ⟨tl, rfl⟩)
        · left
          refine ⟨?_, tl, ?_⟩
          · rw [h1.order, hq] at h2
            cases rem with
            | nil => simp at hk
            | cons a rem =>
              simp at h2
              obtain ⟨rfl, -⟩ := h2
              simp at hk
              rcases hk with rfl | hk
              · exact absurd rfl hjk
              · exact hk
          · rw [DeltaFifo.pendingOf_popped, if_neg hjk]; exact hp'
      · exact Or.inr (Or.inl hn)
      · rw [hf] at hw'; simp at hw'

theorem Inv.eq {key : O → Option K} {xs : List (Obj K O)} {s t : State K O}
    {ns : List (Note K O)} (h : Inv key xs s ns) (h1 : t.inf.q = s.inf.q)
    (h2 : t.flight = s.flight) : Inv key xs t ns := by
  obtain ⟨hpop, hfl, hr⟩ := h
  exact ⟨h1 ▸ hpop, h2 ▸ hfl, by rw [h1, h2]; exact hr⟩

theorem inv_step {key : O → Option K} {xs : List (Obj K O)} {s s' : State K O}
    {ns n : List (Note K O)} (h : Inv key xs s ns) (a : Act K O)
    (hs : step key s a = some (s', n)) : Inv key xs s' (ns ++ n) := by
  cases a with
  | add x => exact inv_call h (.add x) (by simp) hs
  | update x => exact inv_call h (.update x) (by simp) hs
  | delete x => exact inv_call h (.delete x) (by simp) hs
  | replace xs => exact inv_call h (.replace xs) (by simp) hs
  | resync => exact inv_call h .resync (by simp) hs
  | begin =>
    cases hf : s.flight with
    | idle =>
      simp only [step, hf] at hs
      rcases inv_take h hf with ⟨-, h5⟩ | ⟨q, k, ds, h5, h6⟩
      · rw [h5] at hs
        cases hc : s.inf.q.closed <;>
          simp only [hc, if_true, Bool.false_eq_true, if_false, Option.some.injEq,
            Prod.mk.injEq] at hs <;>
          obtain ⟨rfl, rfl⟩ := hs <;> rw [List.append_nil] <;> exact h.eq rfl hf.symm
      · rw [h5] at hs
        simp only at hs
        split at hs
        · simp only [Option.some.injEq, Prod.mk.injEq] at hs
          obtain ⟨rfl, rfl⟩ := hs
          simpa using h6
        · simp only [Option.some.injEq] at hs
          have := inv_start (s := { s with inf := ⟨q, s.inf.items⟩ }) h6
          have e : ({ s with inf := ⟨q, s.inf.items⟩ } : State K O)
            = { inf := ⟨q, s.inf.items⟩, flight := .idle, block := s.block } := by rw [hf]
          rw [e, hs] at this
          exact this
    | waiting k ds => simp [step, hf] at hs
    | calling k all rest => simp [step, hf] at hs
  | proceed =>
    cases hf : s.flight with
    | waiting k ds =>
      simp only [step, hf] at hs
      split at hs
      · simp at hs
      · simp only [Option.some.injEq] at hs
        have := inv_start (s := s) (k := k) (ds := ds) (h.eq rfl hf.symm)
        rw [hs] at this
        exact this
    | idle => simp [step, hf] at hs
    | calling k all rest => simp [step, hf] at hs
  | handlerEnds r =>
    cases hf : s.flight with
    | calling k all rest =>
      simp only [step, hf] at hs
      split at hs
      · simp only [Option.some.injEq] at hs
        have := inv_advance (s := s) (k := k) (all := all) (rest := rest) (h.eq rfl hf.symm)
        rw [hs] at this
        exact this
      · simp only [Option.some.injEq, Prod.mk.injEq] at hs
        obtain ⟨rfl, rfl⟩ := hs
        have : Inv key xs { s with flight := .calling k all [] } ns := by
          obtain ⟨hpop, hfl, log, rem, others, h1, h2, h3, h4⟩ := h
          rw [hf] at hfl h4
          refine ⟨hpop, hfl, log, rem, others, h1, h2, h3, fun k x hx => ?_⟩
          rcases h4 k x hx with hk | hn | ⟨tl, hw⟩
          · exact Or.inl hk
          · exact Or.inr (Or.inl hn)
          · simp at hw
        simpa using inv_finish r this
    | idle => simp [step, hf] at hs
    | waiting k ds => simp [step, hf] at hs
  | lock =>
    simp only [step] at hs
    split at hs
    · simp at hs
    · split at hs
      · simp at hs
      · simp only [Option.some.injEq, Prod.mk.injEq] at hs
        obtain ⟨rfl, rfl⟩ := hs
        simpa using h.eq (t := { s with block := true }) rfl rfl
  | unlock =>
    simp only [step] at hs
    split at hs
    · simp only [Option.some.injEq, Prod.mk.injEq] at hs
      obtain ⟨rfl, rfl⟩ := hs
      simpa using h.eq (t := { s with block := false }) rfl rfl
    · simp at hs

theorem exec_cons {key : O → Option K} {s s' : State K O} {a : Act K O} {as : List (Act K O)}
    {ns : List (Note K O)} (h : exec key s (a :: as) = some (s', ns)) :
    ∃ s1 n ns', step key s a = some (s1, n) ∧ exec key s1 as = some (s', ns') ∧ ns = n ++ ns' := by
  simp only [exec] at h
  cases h1 : step key s a with
  | none => rw [h1] at h; simp at h
  | some r =>
    obtain ⟨s1, n⟩ := r
    rw [h1] at h
    simp only at h
    cases h2 : exec key s1 as with
    | none => rw [h2] at h; simp at h
    | some r =>
      obtain ⟨s2, ns'⟩ := r
      rw [h2] at h
      simp only [Option.some.injEq, Prod.mk.injEq] at h
      obtain ⟨rfl, rfl⟩ := h
      exact ⟨s1, n, ns', rfl, h2, rfl⟩

theorem inv_exec {key : O → Option K} {xs : List (Obj K O)} (as : List (Act K O)) :
    ∀ {s s' : State K O} {ns ms : List (Note K O)}, Inv key xs s ns →
    exec key s as = some (s', ms) → Inv key xs s' (ns ++ ms) := by
  induction as with
  | nil =>
    intro s s' ns ms h he
    simp only [exec, Option.some.injEq, Prod.mk.injEq] at he
    obtain ⟨rfl, rfl⟩ := he; simpa using h
  | cons a as ih =>
    intro s s' ns ms h he
    obtain ⟨s1, n, ns', h1, h2, rfl⟩ := exec_cons he
    rw [← List.append_assoc]
    exact ih (inv_step h a h1) h2

theorem orderOf_syncs_length (key : O → Option K) (xs : List (Obj K O)) :
    ∀ log : List (Entry K O),
    (orderOf (log ++ DeltaFifo.Spec.syncs key xs)).length ≤ (orderOf log).length + xs.length := by
  induction xs with
  | nil => intro log; simp [DeltaFifo.Spec.syncs]
  | cons x xs ih =>
    intro log
    simp only [DeltaFifo.Spec.syncs]
    cases keyOf key x with
    | none => simp
    | some k =>
      simp only
      rw [List.append_cons]
      have h1 := ih (log ++ [.change k ⟨.sync, x⟩])
      rw [DeltaFifo.orderOf_change] at h1
      simp only [List.length_cons]
      split at h1
      · omega
      · simp only [List.length_append, List.length_singleton] at h1; omega

/-- After the first list. -/
theorem inv_first {key : O → Option K} {xs : List (Obj K O)} {s : State K O}
    {n : List (Note K O)} (hx : ∀ x ∈ xs, (keyOf key x).isSome)
    (h : step key init (.replace xs) = some (s, n)) : Inv key xs s n := by
  simp only [step, call, init, Option.some.injEq, Prod.mk.injEq] at h
  obtain ⟨rfl, rfl⟩ := h
  obtain ⟨keys, hk⟩ := DeltaFifo.keysOf_isSome key xs hx
  obtain ⟨h0, -, -, h2⟩ := DeltaFifo.sim_replace (DeltaFifo.sim_init key)
    (some (known ([] : PyDict K (Obj K O)))) xs (.ok : DeltaFifo.Out K O)
  obtain ⟨a, b, c⟩ := h2 keys hk
  have hlog : entries key ([] : List (Entry K O))
      (.replace (some (known ([] : PyDict K (Obj K O)))) xs, (.ok : DeltaFifo.Out K O))
        = DeltaFifo.Spec.syncs key xs := by
    simp [entries, hk, DeltaFifo.Spec.vanished, known, PyDict.keys]
  refine ⟨?_, trivial, DeltaFifo.Spec.syncs key xs, orderOf (DeltaFifo.Spec.syncs key xs), [],
    ?_, by simp, ?_, ?_⟩
  · show (DeltaFifo.replace key DeltaFifo.init (some (known [])) xs).1.populated = true
    first | exact a | exact b | exact c
  · have := h0
    rw [List.nil_append, hlog] at this
    exact this
  · have := orderOf_syncs_length key xs []
    simp only [List.nil_append] at this
    have hc : (DeltaFifo.replace key DeltaFifo.init (some (known ([] : PyDict K (Obj K O)))) xs).1.count
        ≥ xs.length := by
      first | (rw [b]; simp [DeltaFifo.init]) | (rw [c]; simp [DeltaFifo.init])
    simp only [orderOf, List.foldl_nil, List.length_nil] at this
    have e : (Informer.step key (Informer.init : Informer.State K O) (.replace xs)).1.q
      = (DeltaFifo.replace key DeltaFifo.init (some (known ([] : PyDict K (Obj K O)))) xs).1 := rfl
    rw [e]
    simp only [orderOf]
    omega
  · intro k x hf
    left
    have hmem : k ∈ orderOf (DeltaFifo.Spec.syncs key xs) ∧
        ∃ tl, pendingOf k (DeltaFifo.Spec.syncs key xs) = ⟨.sync, x⟩ :: tl := by
      have hp := DeltaFifo.pendingOf_syncs key k xs [] hx
      rw [List.nil_append] at hp
      obtain ⟨tl, ht⟩ := syncs_head key xs k x hf
      have hp' : pendingOf k (DeltaFifo.Spec.syncs key xs) = ⟨.sync, x⟩ :: tl := by
        rw [hp]; exact ht
      refine ⟨?_, tl, hp'⟩
      rw [List.nil_append, hlog] at h0
      rw [h0.order, h0.queue, h0.mem, hp']
      simp
    exact hmem

theorem advance_stored {key : O → Option K} {s : State K O} {k j : K} {x : Obj K O}
    {all rest : Deltas K O} {n : Note K O} (hn : n ∈ (advance key s k all rest).2)
    (hs : Stored x n) (hx : keyOf key x = some j) :
    (advance key s k all rest).1.inf.items.get? j = some x := by
  cases rest with
  | nil => simp [advance] at hn
  | cons d rest =>
    simp only [advance] at hn ⊢
    cases ha : applyOne key s.inf.items d with
    | none => simp [ha] at hn
    | some r =>
      obtain ⟨items, n'⟩ := r
      simp only [ha, List.mem_singleton] at hn
      subst hn
      simp only [applyOne] at ha
      split at ha
      · simp at ha
      · rename_i i hi
        split at ha
        · simp only [Option.some.injEq, Prod.mk.injEq] at ha
          rw [← ha.2] at hs
          exact hs.elim
        · split at ha <;> simp only [Option.some.injEq, Prod.mk.injEq] at ha <;>
            obtain ⟨rfl, rfl⟩ := ha <;> simp only [Stored] at hs <;> subst hs <;>
            rw [hi, Option.some.injEq] at hx <;> subst hx <;> simp [PyDict.get?_set]

/-- When the handler is told, the object is in the store. -/
theorem step_stored {key : O → Option K} {s s' : State K O} {a : Act K O} {ns : List (Note K O)}
    (h : step key s a = some (s', ns)) {n : Note K O} {x : Obj K O} {j : K} (hn : n ∈ ns)
    (hs : Stored x n) (hx : keyOf key x = some j) : s'.inf.items.get? j = some x := by
  have hcall : ∀ e, call key s e = some (s', ns) → s'.inf.items.get? j = some x := by
    intro e he
    simp only [call] at he
    split at he
    · simp only [Option.some.injEq, Prod.mk.injEq] at he
      rw [← he.2] at hn; simp at hn
    · simp at he
  cases a with
  | add x => exact hcall _ h
  | update x => exact hcall _ h
  | delete x => exact hcall _ h
  | replace x => exact hcall _ h
  | resync => exact hcall _ h
  | lock | unlock | begin | proceed | handlerEnds r =>
    simp only [step] at h
    repeat' split at h
    all_goals try (simp at h; done)
    all_goals simp only [Option.some.injEq] at h
    all_goals first
      | (simp only [Prod.mk.injEq] at h; rw [← h.2] at hn; simp at hn; done)
      | (rw [show ns = _ from (congrArg Prod.snd h).symm] at hn
         rw [show s' = _ from (congrArg Prod.fst h).symm]
         exact advance_stored hn hs hx)

theorem exec_snoc {key : O → Option K} (as : List (Act K O)) (a : Act K O) :
    ∀ {s s1 s2 : State K O} {ns n : List (Note K O)}, exec key s as = some (s1, ns) →
    step key s1 a = some (s2, n) → exec key s (as ++ [a]) = some (s2, ns ++ n) := by
  induction as with
  | nil =>
    intro s s1 s2 ns n h1 h2
    simp only [exec, Option.some.injEq, Prod.mk.injEq] at h1
    obtain ⟨rfl, rfl⟩ := h1
    simp [exec, h2]
  | cons b as ih =>
    intro s s1 s2 ns n h1 h2
    obtain ⟨t, m, ns', h3, h4, rfl⟩ := exec_cons h1
    simp only [List.cons_append, exec, h3, ih h4 h2, List.append_assoc]

/-- A handler that was told shows that the object was in the store. -/
theorem wasStored {key : O → Option K} {x : Obj K O} {j : K} (hx : keyOf key x = some j)
    (as : List (Act K O)) : ∀ {pre : List (Act K O)} {s s' : State K O}
    {ns ms : List (Note K O)}, exec key init pre = some (s, ns) → exec key s as = some (s', ms) →
    (∃ n ∈ ms, Stored x n) → WasStored key (pre ++ as) j x := by
  induction as with
  | nil =>
    rintro pre s s' ns ms - h ⟨n, hn, -⟩
    simp only [exec, Option.some.injEq, Prod.mk.injEq] at h
    rw [← h.2] at hn; simp at hn
  | cons a as ih =>
    rintro pre s s' ns ms hp h ⟨n, hn, hs⟩
    obtain ⟨t, m, ms', h3, h4, rfl⟩ := exec_cons h
    have h5 := exec_snoc pre a hp h3
    rw [List.append_cons]
    rcases List.mem_append.1 hn with hn | hn
    · exact ⟨pre ++ [a], as, t, _, rfl, h5, step_stored h3 hn hs hx⟩
    · exact ih h5 h4 ⟨n, hn, hs⟩

end Aiok8s.InformerSync
