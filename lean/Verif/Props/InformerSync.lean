import Verif.Proof.InformerSync
/-!
# C38: `has_synced` means that the first list is in the cache
-/
set_option linter.unusedSimpArgs false
set_option linter.unusedSectionVars false
namespace Aiok8s.InformerSync
open Aiok8s.DeltaFifo (Obj Delta Deltas DType Outcome keyOf)
open Aiok8s.Informer (Note applyOne)
open Spec
variable {K O : Type} [DecidableEq K]

/-- A key function for examples. -/
private abbrev exKey : Nat × Nat → Option Nat := fun o => some o.1

/-- **C38** is false of the shared informer: while `add_event_handler` is busy telling a new
handler about the cache, `has_synced` is already true though an object of the first list is not in
the store. -/
theorem C38_refuted : ∃ (as : List (Act Nat (Nat × Nat))) (s : State Nat (Nat × Nat)),
    exec exKey init (.replace [.real (1, 0), .real (2, 0)] :: as)
      = some (s, [.onAdd (.real (1, 0))]) ∧
    hasSynced s = true ∧ s.inf.items.get? 2 = none :=
  ⟨[.begin, .handlerEnds .ok, .lock, .begin], _, rfl, rfl, rfl⟩

/-- **C38**, whatever happens after the first list (further calls, handlers that fail, put items
back or are cancelled, handlers registered meanwhile), looked at in any moment: if `has_synced` is
true, the first listed object of each key has been in the store, or it is the very next to
be put there, waiting for `add_event_handler` to finish.  Missing: the latter, see
`C38_refuted`. -/
theorem C38_shared_partial (key : O → Option K) (xs : List (Obj K O))
    (hx : ∀ x ∈ xs, (keyOf key x).isSome) (as : List (Act K O)) (s : State K O)
    (ns : List (Note K O)) (h : exec key init (.replace xs :: as) = some (s, ns))
    (hs : hasSynced s = true) (k : K) (x : Obj K O) (hf : firstOf key xs k = some x) :
    WasStored key (.replace xs :: as) k x ∨ ∃ tl, s.flight = .waiting k (⟨.sync, x⟩ :: tl) := by
  have hkx : keyOf key x = some k := by
    have := List.find?_some hf
    simpa using this
  have hexec := h
  obtain ⟨s1, n, ns', h1, h2, rfl⟩ := exec_cons h
  obtain ⟨-, -, log, rem, others, h3, h4, h5, h6⟩ := inv_exec as (inv_first hx h1) h2
  rcases h6 k x hf with ⟨hk, -⟩ | hn | hw
  · exfalso
    simp only [hasSynced, DeltaFifo.hasSynced, Bool.and_eq_true, beq_iff_eq] at hs
    rw [hs.2] at h5
    have : rem = [] := List.length_eq_zero_iff.1 (by omega)
    rw [this] at hk
    simp at hk
  · exact Or.inl (wasStored (pre := []) hkx _ rfl hexec hn)
  · exact Or.inr hw

private theorem noblock_step {key : O → Option K} {s s' : State K O} {a : Act K O}
    {n : List (Note K O)} (ha : a ≠ .lock) (hb : s.block = false)
    (hf : ∀ k ds, s.flight ≠ .waiting k ds) (h : step key s a = some (s', n)) :
    s'.block = false ∧ ∀ k ds, s'.flight ≠ .waiting k ds := by
  have hadv : ∀ (t : State K O) (k : K) (all rest : Deltas K O), t.block = false →
      (advance key t k all rest).1.block = false ∧
      ∀ k' ds', (advance key t k all rest).1.flight ≠ .waiting k' ds' := by
    intro t k all rest ht
    cases rest with
    | nil => exact ⟨ht, fun _ _ => by simp [advance, finish]⟩
    | cons d rest =>
      simp only [advance]
      split
      · exact ⟨ht, fun _ _ => by simp [finish]⟩
      · exact ⟨ht, fun _ _ => by simp⟩
  have hcall : ∀ e, call key s e = some (s', n) →
      s'.block = false ∧ ∀ k ds, s'.flight ≠ .waiting k ds := by
    intro e he
    cases hfl : s.flight with
    | idle =>
      simp only [call, hfl, Option.some.injEq, Prod.mk.injEq] at he
      obtain ⟨rfl, rfl⟩ := he
      exact ⟨hb, fun _ _ => by simp⟩
    | waiting k ds => simp [call, hfl] at he
    | calling k all rest => simp [call, hfl] at he
  cases a with
  | add x => exact hcall _ h
  | update x => exact hcall _ h
  | delete x => exact hcall _ h
  | replace x => exact hcall _ h
  | resync => exact hcall _ h
  | lock => exact absurd rfl ha
  | unlock => simp [step, hb] at h
  | begin =>
    cases hfl : s.flight with
    | idle =>
      simp only [step, hb, hfl] at h
      split at h
      · rename_i q k ds _ _ _
        simp only [Bool.false_eq_true, if_false, Option.some.injEq] at h
        have := hadv { inf := ⟨q, s.inf.items⟩, flight := .idle, block := false } k ds ds rfl
        rw [h] at this
        exact this
      · simp only [Option.some.injEq, Prod.mk.injEq] at h
        obtain ⟨rfl, rfl⟩ := h
        exact ⟨rfl, fun _ _ => by simp⟩
    | waiting k ds => exact absurd hfl (hf _ _)
    | calling k all rest => simp [step, hfl] at h
  | proceed =>
    cases hfl : s.flight with
    | waiting k ds => exact absurd hfl (hf _ _)
    | idle => simp [step, hfl] at h
    | calling k all rest => simp [step, hfl] at h
  | handlerEnds r =>
    simp only [step] at h
    split at h
    · rename_i k all rest _
      split at h
      · simp only [Option.some.injEq] at h
        have := hadv s k all rest hb
        rw [h] at this
        exact this
      · simp only [Option.some.injEq, Prod.mk.injEq] at h
        obtain ⟨rfl, rfl⟩ := h
        exact ⟨hb, fun _ _ => by simp [finish]⟩
    · simp at h

/-- **C38** for the plain informer, and for the shared one as long as no handler is registered
meanwhile: when `has_synced` is true, the first listed object of each key has been put into the
store. -/
theorem C38_plain_partial (key : O → Option K) (xs : List (Obj K O))
    (hx : ∀ x ∈ xs, (keyOf key x).isSome) (as : List (Act K O)) (hl : Act.lock ∉ as)
    (s : State K O) (ns : List (Note K O))
    (h : exec key init (.replace xs :: as) = some (s, ns))
    (hs : hasSynced s = true) (k : K) (x : Obj K O) (hf : firstOf key xs k = some x) :
    WasStored key (.replace xs :: as) k x := by
  rcases C38_shared_partial key xs hx as s ns h hs k x hf with hn | ⟨tl, hw⟩
  · exact hn
  · exfalso
    have gen : ∀ (bs : List (Act K O)) (t t' : State K O) (ms : List (Note K O)),
        Act.lock ∉ bs → t.block = false → (∀ k ds, t.flight ≠ .waiting k ds) →
        exec key t bs = some (t', ms) → ∀ k ds, t'.flight ≠ .waiting k ds := by
      intro bs
      induction bs with
      | nil =>
        intro t t' ms _ _ h2 h3
        simp only [exec, Option.some.injEq, Prod.mk.injEq] at h3
        obtain ⟨rfl, -⟩ := h3
        exact h2
      | cons b bs ih =>
        intro t t' ms h1 h2 h3 h4
        simp only [List.mem_cons, not_or] at h1
        obtain ⟨t1, n, ms', h5, h6, -⟩ := exec_cons h4
        obtain ⟨h7, h8⟩ := noblock_step (fun e => h1.1 e.symm) h2 h3 h5
        exact ih t1 t' ms' h1.2 h7 h8 h6
    exact gen (.replace xs :: as) init s ns (by simp [hl]) rfl (by simp [init]) h _ _ hw

/-- With different keys "the first object of its key" is every object. -/
theorem C38_distinct_partial (key : O → Option K) (xs : List (Obj K O))
    (hx : ∀ x ∈ xs, (keyOf key x).isSome) (hd : (xs.map (keyOf key)).Nodup)
    (as : List (Act K O)) (hl : Act.lock ∉ as) (s : State K O) (ns : List (Note K O))
    (h : exec key init (.replace xs :: as) = some (s, ns)) (hs : hasSynced s = true)
    (x : Obj K O) (hm : x ∈ xs) :
    ∃ k, keyOf key x = some k ∧ WasStored key (.replace xs :: as) k x := by
  obtain ⟨k, hk⟩ := Option.isSome_iff_exists.1 (hx x hm)
  refine ⟨k, hk, ?_⟩
  refine C38_plain_partial key xs hx as hl s ns h hs k x ?_
  clear h hx
  induction xs with
  | nil => simp at hm
  | cons y ys ih =>
    simp only [firstOf, List.find?_cons]
    simp only [List.map_cons, List.nodup_cons] at hd
    rcases List.mem_cons.1 hm with rfl | hm
    · simp [hk]
    · have : keyOf key y ≠ some k := fun hc => hd.1 (List.mem_map.2 ⟨x, hm, by rw [hc, hk]⟩)
      simp only [this, decide_false]
      exact ih hd.2 hm

private theorem advance_some {key : O → Option K} {items items' : PyDict K (Obj K O)}
    {d : Delta K O} {n : Note K O} (q : DeltaFifo.State K O) (f : Flight K O) (k : K)
    (all rest : Deltas K O) (h : applyOne key items d = some (items', n)) :
    advance key ⟨⟨q, items⟩, f, false⟩ k all (d :: rest)
      = (⟨⟨q, items'⟩, .calling k all rest, false⟩, [n]) := by
  simp only [advance, h]

/-- A pop that is not looked at in between is the pop of `Verif.Model.Informer`: the processing
loop's steps, with the handler's calls ending as `h` says, lead to the same queue, store and
calls. -/
theorem C38_refines (key : O → Option K) (s : Informer.State K O) (h : Nat → Outcome) :
    ∃ as : List (Act K O), exec key ⟨s, .idle, false⟩ (.begin :: as)
      = some (⟨(Informer.pop key h s).1, .idle, false⟩, (Informer.pop key h s).2.1) := by
  -- the calls from delta `i` on
  have loop : ∀ (rest : Deltas K O) (q : DeltaFifo.State K O) (items : PyDict K (Obj K O))
      (k : K) (all : Deltas K O) (i : Nat),
      ∃ as : List (Act K O), ∀ r, advance key ⟨⟨q, items⟩, .idle, false⟩ k all rest = r →
        exec key r.1 as = some
          (⟨⟨(DeltaFifo.finish q k all 0 (Informer.process key h items rest i).2.2).1,
              (Informer.process key h items rest i).1⟩, .idle, false⟩,
            (Informer.process key h items rest i).2.1.drop r.2.length) ∧
        r.2 <+: (Informer.process key h items rest i).2.1 := by
    intro rest
    induction rest with
    | nil =>
      intro q items k all i
      refine ⟨[], ?_⟩
      rintro r rfl
      exact ⟨rfl, List.prefix_refl _⟩
    | cons d rest ih =>
      intro q items k all i
      cases ha : applyOne key items d with
      | none =>
        refine ⟨[], ?_⟩
        rintro r rfl
        simp only [advance, ha, Informer.process]
        exact ⟨rfl, List.prefix_refl _⟩
      | some v =>
        obtain ⟨items', n⟩ := v
        by_cases ho : h i = .ok
        · obtain ⟨as, hr⟩ := ih q items' k all (i + 1)
          refine ⟨.handlerEnds .ok :: as, ?_⟩
          rintro r rfl
          rw [advance_some _ _ _ _ _ ha]
          simp only [Informer.process, ha, ho, if_true, exec, step]
          obtain ⟨h1, h2⟩ := hr _ rfl
          have hirr : ∀ fl, advance key (⟨⟨q, items'⟩, fl, false⟩ : State K O) k all rest
              = advance key ⟨⟨q, items'⟩, .idle, false⟩ k all rest := by
            intro fl
            cases rest with
            | nil => rfl
            | cons e rest => simp only [advance, finish]
          rw [hirr, h1]
          refine ⟨?_, by simp⟩
          obtain ⟨more, hm⟩ := h2
          simp only [List.length_singleton, List.drop_succ_cons, List.drop_zero]
          rw [← hm]
          simp
        · refine ⟨[.handlerEnds (h i)], ?_⟩
          rintro r rfl
          simp only [advance, ha, Informer.process, ho, if_false, exec, step, finish]
          exact ⟨rfl, List.prefix_refl _⟩
  have hfin : ∀ (q : DeltaFifo.State K O) k ds n r, (DeltaFifo.finish q k ds n r).1
      = (DeltaFifo.finish q k ds 0 r).1 := by
    intro q k ds n r
    cases r with
    | requeue c => cases c <;> rfl
    | _ => rfl
  have hpl : ∀ (qs : List K) (m : Nat),
      (∃ k ds q n, ∀ r, DeltaFifo.popLoop s.q r qs m = DeltaFifo.finish q k ds n r) ∨
      (∀ r, DeltaFifo.popLoop s.q r qs m = DeltaFifo.popLoop s.q .ok qs m ∧
        ∀ k ds e n, (DeltaFifo.popLoop s.q .ok qs m).2 ≠ .popped k ds e n) := by
    intro qs
    induction qs with
    | nil =>
      intro m
      right
      intro r
      refine ⟨rfl, fun k ds e n => ?_⟩
      simp only [DeltaFifo.popLoop]
      split <;> simp
    | cons k qs ih =>
      intro m
      simp only [DeltaFifo.popLoop]
      cases hg : s.q.items.get? k with
      | none => exact ih (m + 1)
      | some ds => exact Or.inl ⟨k, ds, _, _, fun r => rfl⟩
  rcases hpl s.q.queue 0 with ⟨k, ds, q, n, hq⟩ | hq
  · have hnd : Informer.nextDeltas s.q = some ds := by
      simp only [Informer.nextDeltas, hq, DeltaFifo.finish]
    obtain ⟨as, hr⟩ := loop ds q s.items k ds 0
    obtain ⟨h1, h2⟩ := hr _ rfl
    refine ⟨as, ?_⟩
    simp only [exec, step, hq, DeltaFifo.finish, Bool.false_eq_true, if_false, h1, Informer.pop,
      hnd, hfin]
    obtain ⟨more, hm⟩ := h2
    have e : ∀ a b : List (Note K O), a <+: b → a ++ b.drop a.length = b := by
      rintro a b ⟨c, rfl⟩; simp
    rw [e _ _ ⟨more, hm⟩]
    generalize (Informer.process key h s.items ds 0).2.2 = r
    cases r with
    | requeue c => cases c <;> rfl
    | _ => rfl
  · refine ⟨[], ?_⟩
    have hno := (hq .ok).2
    simp only [exec, step]
    cases hp : DeltaFifo.popLoop s.q .ok s.q.queue 0 with
    | mk q out =>
      rw [hp] at hno
      have hnd : Informer.nextDeltas s.q = none := by
        simp only [Informer.nextDeltas, hp]
      simp only [Informer.pop, hnd, hp]
      cases out with
      | popped k ds e n => exact absurd rfl (hno k ds e n)
      | _ => rfl

/-- A first list of three objects, a failing handler, an event in between:
`has_synced` is true only in the end. -/
example : ∃ (as : List (Act Nat (Nat × Nat))) (s : State Nat (Nat × Nat))
    (ns : List (Note Nat (Nat × Nat))),
    exec exKey init (.replace [.real (1, 0), .real (2, 0), .real (3, 0)] :: as) = some (s, ns) ∧
    Act.lock ∉ as ∧ hasSynced s = true ∧
    ns = [.onAdd (.real (1, 0)), .onAdd (.real (2, 0)), .onUpdate (.real (2, 0)) (.real (2, 5)),
      .onAdd (.real (3, 0))] ∧
    firstOf exKey [.real (1, 0), .real (2, 0), .real (3, 0)] 3 = some (.real (3, 0)) := by
  refine ⟨[.begin, .handlerEnds .error, .update (.real (2, 5)), .begin, .handlerEnds .ok,
    .handlerEnds .ok, .begin], _, _, rfl, ?_, rfl, rfl, by decide⟩
  simp

private theorem excl_step {key : O → Option K} {s s' : State K O} {a : Act K O}
    {n : List (Note K O)} (h : s.block = true → ∀ k all rest, s.flight ≠ .calling k all rest)
    (hs : step key s a = some (s', n)) :
    s'.block = true → ∀ k all rest, s'.flight ≠ .calling k all rest := by
  have hadv : ∀ (t : State K O) (k : K) (all rest : Deltas K O),
      (advance key t k all rest).1.block = t.block := by
    intro t k all rest
    cases rest with
    | nil => rfl
    | cons d rest =>
      simp only [advance]
      cases applyOne key t.inf.items d <;> rfl
  have hcall : ∀ e : Informer.Ev K O, call key s e = some (s', n) →
      s'.block = true → ∀ k all rest, s'.flight ≠ .calling k all rest := by
    intro e he
    simp only [call] at he
    cases hf : s.flight with
    | idle =>
      rw [hf] at he
      simp only [Option.some.injEq, Prod.mk.injEq] at he
      obtain ⟨rfl, -⟩ := he
      intro _ k all rest
      simp [hf]
    | _ => rw [hf] at he; cases he
  cases a with
  | add x => exact hcall _ hs
  | update x => exact hcall _ hs
  | delete x => exact hcall _ hs
  | replace xs => exact hcall _ hs
  | resync => exact hcall _ hs
  | begin =>
    simp only [step] at hs
    cases hf : s.flight with
    | idle =>
      rw [hf] at hs
      simp only at hs
      rcases hp : DeltaFifo.popLoop s.inf.q .ok s.inf.q.queue 0 with ⟨q, out⟩
      rw [hp] at hs
      cases out with
      | popped k ds e m =>
        simp only at hs
        by_cases hb : s.block = true
        · rw [if_pos hb] at hs
          simp only [Option.some.injEq, Prod.mk.injEq] at hs
          obtain ⟨rfl, -⟩ := hs
          intro _ k all rest
          simp
        · rw [if_neg hb] at hs
          simp only [Option.some.injEq] at hs
          have := hadv ⟨⟨q, s.inf.items⟩, .idle, s.block⟩ k ds ds
          rw [hs] at this
          intro hc
          exact absurd (this.symm.trans hc) hb
      | _ =>
        simp only [Option.some.injEq, Prod.mk.injEq] at hs
        obtain ⟨rfl, -⟩ := hs
        intro _ k all rest
        simp [hf]
    | _ => rw [hf] at hs; cases hs
  | proceed =>
    simp only [step] at hs
    cases hf : s.flight with
    | waiting k ds =>
      rw [hf] at hs
      simp only at hs
      by_cases hb : s.block = true
      · rw [if_pos hb] at hs; cases hs
      · rw [if_neg hb] at hs
        simp only [Option.some.injEq] at hs
        have := hadv s k ds ds
        rw [hs] at this
        intro hc
        exact absurd (this.symm.trans hc) hb
    | _ => rw [hf] at hs; cases hs
  | handlerEnds r =>
    simp only [step] at hs
    cases hf : s.flight with
    | calling k all rest =>
      have hb : ¬ s.block = true := fun hb => h hb _ _ _ hf
      rw [hf] at hs
      simp only at hs
      by_cases hr : r = .ok
      · rw [if_pos hr] at hs
        simp only [Option.some.injEq] at hs
        have := hadv s k all rest
        rw [hs] at this
        intro hc
        exact absurd (this.symm.trans hc) hb
      · rw [if_neg hr] at hs
        simp only [Option.some.injEq, Prod.mk.injEq] at hs
        obtain ⟨rfl, -⟩ := hs
        intro _ k all rest
        simp [finish]
    | _ => rw [hf] at hs; cases hs
  | lock =>
    simp only [step] at hs
    cases hf : s.flight with
    | calling k all rest => rw [hf] at hs; cases hs
    | _ =>
      rw [hf] at hs
      simp only at hs
      by_cases hb : s.block = true
      · rw [if_pos hb] at hs; cases hs
      · rw [if_neg hb] at hs
        simp only [Option.some.injEq, Prod.mk.injEq] at hs
        obtain ⟨rfl, -⟩ := hs
        intro _ k all rest
        simp [hf]
  | unlock =>
    simp only [step] at hs
    by_cases hb : s.block = true
    · rw [if_pos hb] at hs
      simp only [Option.some.injEq, Prod.mk.injEq] at hs
      obtain ⟨rfl, -⟩ := hs
      intro hc
      cases hc
    · rw [if_neg hb] at hs; cases hs

private theorem excl_exec {key : O → Option K} (as : List (Act K O)) :
    ∀ {s s' : State K O} {ns : List (Note K O)},
    (s.block = true → ∀ k all rest, s.flight ≠ .calling k all rest) →
    exec key s as = some (s', ns) →
    s'.block = true → ∀ k all rest, s'.flight ≠ .calling k all rest := by
  induction as with
  | nil =>
    intro s s' ns h he
    simp only [exec, Option.some.injEq, Prod.mk.injEq] at he
    rw [← he.1]; exact h
  | cons a as ih =>
    intro s s' ns h he
    obtain ⟨s1, n, ns', h1, h2, -⟩ := exec_cons he
    exact ih (excl_step h h1) h2

/-- **C38**: while `add_event_handler` holds the lock, nothing is handed to the handlers and
the store stays as it is, whatever happens; and a pop that waits for the lock goes on as soon as the lock
is free. -/
theorem C38_exclusive (key : O → Option K) (as : List (Act K O)) (s : State K O)
    (ns : List (Note K O)) (h : exec key init as = some (s, ns)) :
    (s.block = true → ∀ a s' n, step key s a = some (s', n) →
      n = [] ∧ s'.inf.items = s.inf.items) ∧
    (s.block = false → ∀ k ds, s.flight = .waiting k ds → (step key s .proceed).isSome) := by
  refine ⟨?_, ?_⟩
  · intro hb a s' n hs
    have hc := excl_exec as (by intro h0; cases h0) h hb
    have hcall : ∀ (e : Informer.Ev K O) (o : DeltaFifo.Op K O), Informer.opOf s.inf e = some o →
        call key s e = some (s', n) → n = [] ∧ s'.inf.items = s.inf.items := by
      intro e o ho he
      simp only [call] at he
      cases hf : s.flight with
      | idle =>
        rw [hf] at he
        simp only [Option.some.injEq, Prod.mk.injEq] at he
        obtain ⟨rfl, rfl⟩ := he
        refine ⟨rfl, ?_⟩
        simp only
        rw [Informer.step_op ho]
        rfl
      | _ => rw [hf] at he; cases he
    cases a with
    | add x => exact hcall _ _ rfl hs
    | update x => exact hcall _ _ rfl hs
    | delete x => exact hcall _ _ rfl hs
    | replace xs => exact hcall _ _ rfl hs
    | resync => exact hcall _ _ rfl hs
    | begin =>
      simp only [step] at hs
      cases hf : s.flight with
      | idle =>
        rw [hf] at hs
        simp only at hs
        rcases hp : DeltaFifo.popLoop s.inf.q .ok s.inf.q.queue 0 with ⟨q, out⟩
        rw [hp] at hs
        cases out with
        | popped k ds e m =>
          simp only at hs
          rw [if_pos hb] at hs
          simp only [Option.some.injEq, Prod.mk.injEq] at hs
          obtain ⟨rfl, rfl⟩ := hs
          exact ⟨rfl, rfl⟩
        | _ =>
          simp only [Option.some.injEq, Prod.mk.injEq] at hs
          obtain ⟨rfl, rfl⟩ := hs
          exact ⟨rfl, rfl⟩
      | _ => rw [hf] at hs; cases hs
    | proceed =>
      simp only [step] at hs
      cases hf : s.flight with
      | waiting k ds => rw [hf] at hs; simp only [hb, if_true] at hs; cases hs
      | _ => rw [hf] at hs; cases hs
    | handlerEnds r =>
      simp only [step] at hs
      cases hf : s.flight with
      | calling k all rest => exact absurd hf (hc _ _ _)
      | _ => simp [hf] at hs
    | lock =>
      simp only [step] at hs
      cases hf : s.flight with
      | calling k all rest => exact absurd hf (hc _ _ _)
      | _ => simp [hf, hb] at hs
    | unlock =>
      simp only [step, hb, if_true, Option.some.injEq, Prod.mk.injEq] at hs
      obtain ⟨rfl, rfl⟩ := hs
      exact ⟨rfl, rfl⟩
  · intro hb k ds hf
    simp [step, hf, hb]

/-- A pop that waits for the lock: nothing happens until it is released, then the handler is called. -/
example : ∃ (s : State Nat (Nat × Nat)) (t : State Nat (Nat × Nat)),
    exec exKey init [.replace [.real (1, 0)], .lock, .begin] = some (s, []) ∧ s.block = true ∧
    s.inf.items = [] ∧ s.flight = .waiting 1 [⟨.sync, .real (1, 0)⟩] ∧
    exec exKey s [.unlock, .proceed] = some (t, [.onAdd (.real (1, 0))]) ∧ t.block = false :=
  ⟨_, _, rfl, rfl, rfl, rfl, rfl, rfl⟩

end Aiok8s.InformerSync
