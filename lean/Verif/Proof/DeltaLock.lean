import Verif.Spec.DeltaLock
import Verif.Props.DeltaFifo
/-!
# Lemmas for the lock of `DeltaFIFO` (C91, C92)
-/
namespace Aiok8s.DeltaLock
open Spec
open Aiok8s.DeltaFifo (Obj Deltas Known Outcome Out Op keyOf)
variable {K O : Type} [DecidableEq K]

/-- A `pop` attempt is: take, then what comes after the callback. -/
theorem popLoop_eq (r : Outcome) (q : List K) : ∀ (s : DeltaFifo.State K O) (n : Nat),
    DeltaFifo.popLoop s r q n = match take s q n with
      | (s', some (k, ds, m)) => DeltaFifo.finish s' k ds m r
      | (s', none) => (s', if s.closed then .closedError else .blocked) := by
  induction q with
  | nil => intro s n; rfl
  | cons k q ih =>
    intro s n
    simp only [DeltaFifo.popLoop, take]
    cases s.items.get? k with
    | none => exact ih s (n + 1)
    | some ds => rfl

theorem take_closed (q : List K) : ∀ (s : DeltaFifo.State K O) (n : Nat), (take s q n).1.closed = s.closed := by
  induction q with
  | nil => intro s n; rfl
  | cons k q ih =>
    intro s n
    simp only [take]
    cases s.items.get? k with
    | none => exact ih s (n + 1)
    | some ds => rfl

theorem take_none (q : List K) : ∀ (s : DeltaFifo.State K O) (n : Nat), (take s q n).2 = none →
    (take s q n).1.queue = [] := by
  induction q with
  | nil => intro s n _; rfl
  | cons k q ih =>
    intro s n h
    simp only [take] at h ⊢
    cases hg : s.items.get? k with
    | none => rw [hg] at h; exact ih s (n + 1) h
    | some ds => rw [hg] at h; cases h

/-- The task holds the lock over an await. -/
def Holds : Status K O → Prop
  | .processing _ _ _ | .stuck _ _ _ _ => True
  | _ => False

/-- The calls that have ended explain the state. -/
structure Inv (key : O → Option K) (s : State K O) (h : List (Op K O × Out K O)) : Prop where
  seq : DeltaFifo.trace key DeltaFifo.init (h.map (·.1)) = h
  free : s.holder = none → s.core = DeltaFifo.exec key DeltaFifo.init (h.map (·.1))
  held : ∀ t, s.holder = some t → ∃ k ds n, (s.tasks t = .processing k ds n ∨ ∃ o, s.tasks t = .stuck k ds n o) ∧
    take (DeltaFifo.exec key DeltaFifo.init (h.map (·.1))) (DeltaFifo.exec key DeltaFifo.init (h.map (·.1))).queue 0 =
      (s.core, some (k, ds, n))
  only : ∀ t, Holds (s.tasks t) → s.holder = some t
  asleep : ∀ t, s.tasks t = .sleeping → s.core.queue = [] ∧ s.core.closed = false
  nosleep : ∀ t u, s.holder = some t → s.tasks u ≠ .sleeping
  locked : ∀ t o, s.tasks t = .waiting o → locks o = true ∧ refused key o = none

theorem inv_init (key : O → Option K) : Inv key (init : State K O) [] :=
  ⟨rfl, fun _ => rfl, by simp [init], by simp [init, Holds], by simp [init], by simp [init], by simp [init]⟩

theorem put_self (f : Nat → Status K O) (t : Nat) (x : Status K O) : put f t x t = x := by simp [put]

theorem put_other (f : Nat → Status K O) {t u : Nat} (x : Status K O) (h : u ≠ t) : put f t x u = f u := by
  simp [put, h]

theorem wake_eq {b : Bool} {f : Nat → Status K O} {u : Nat} {x : Status K O} (h : wake b f u = x)
    (hx : x ≠ .waking false) : f u = x ∧ (x = .sleeping → b = false) := by
  simp only [wake] at h
  cases b <;> cases hf : f u <;> rw [hf] at h <;> simp only at h <;> subst h <;> simp_all

theorem trace_snoc (key : O → Option K) (h : List (Op K O × Out K O)) (o : Op K O)
    (hs : DeltaFifo.trace key DeltaFifo.init (h.map (·.1)) = h) :
    let a := (DeltaFifo.step key (DeltaFifo.exec key DeltaFifo.init (h.map (·.1))) o).2
    DeltaFifo.trace key DeltaFifo.init ((h ++ [(o, a)]).map (·.1)) = h ++ [(o, a)] ∧
    DeltaFifo.exec key DeltaFifo.init ((h ++ [(o, a)]).map (·.1)) =
      (DeltaFifo.step key (DeltaFifo.exec key DeltaFifo.init (h.map (·.1))) o).1 := by
  intro a
  rw [List.map_append, DeltaFifo.trace_append, DeltaFifo.exec_append, hs]
  exact ⟨rfl, rfl⟩

theorem changes_append (a b : List (Seen K O)) : changes (a ++ b) = changes a ++ changes b := by
  induction a with
  | nil => rfl
  | cons e a ih => cases e <;> simp [changes, ih]

theorem inv_attempt {key : O → Option K} {s : State K O} {h : List (Op K O × Out K O)} (hi : Inv key s h) {t : Nat}
    (hh : s.holder = none) (ht : s.tasks t ≠ .sleeping) :
    Inv key (attempt s t).1 (h ++ changes (attempt s t).2) := by
  have hc := hi.free hh
  have ho : ∀ u, ¬ Holds (s.tasks u) := fun u hu => by have := hi.only u hu; rw [hh] at this; cases this
  have hp := popLoop_eq .ok s.core.queue s.core 0
  have hcl := take_closed s.core.queue s.core 0
  have hnq := take_none s.core.queue s.core 0
  have hsn := trace_snoc key h (.pop .ok) hi.seq
  rw [← hc] at hsn
  simp only [attempt]
  cases htk : take s.core s.core.queue 0 with
  | mk core got =>
    rw [htk] at hp hcl hnq
    cases got with
    | some x =>
      obtain ⟨k, ds, n⟩ := x
      simp only [changes, List.append_nil]
      have hno : ∀ u, s.tasks u ≠ .sleeping := by
        intro u hu
        have := (hi.asleep u hu).1
        rw [this] at htk
        cases htk
      refine ⟨hi.seq, by simp, ?_, ?_, ?_, ?_, ?_⟩
      · intro u hu
        simp only [Option.some.injEq] at hu
        subst hu
        exact ⟨k, ds, n, Or.inl (put_self _ _ _), by rw [← hc, htk]⟩
      · intro u hu
        by_cases hut : u = t
        · rw [hut]
        · simp only [put_other _ _ hut] at hu
          exact absurd hu (ho u)
      · intro u hu
        by_cases hut : u = t
        · subst hut; simp only [put_self] at hu; cases hu
        · simp only [put_other _ _ hut] at hu
          exact absurd hu (hno u)
      · intro v u _ hu
        by_cases hut : u = t
        · subst hut; simp only [put_self] at hu; cases hu
        · simp only [put_other _ _ hut] at hu
          exact absurd hu (hno u)
      · intro u o hu
        by_cases hut : u = t
        · subst hut; simp only [put_self] at hu; cases hu
        · simp only [put_other _ _ hut] at hu
          exact hi.locked u o hu
    | none =>
      simp only at hp hcl hnq ⊢
      have hq := hnq trivial
      have hstep : DeltaFifo.step key s.core (.pop .ok) = (core, if s.core.closed then .closedError else .blocked) := hp
      rw [hstep] at hsn
      have common : ∀ (x : Status K O) (a : Out K O), a = (if s.core.closed then .closedError else .blocked) →
          ¬ Holds x → (x = .sleeping → core.closed = false) → (∀ o, x ≠ .waiting o) →
          Inv key ⟨core, none, put s.tasks t x⟩ (h ++ [(.pop .ok, a)]) := by
        rintro x a rfl hx hxs hxw
        refine ⟨hsn.1, fun _ => hsn.2.symm, by simp, ?_, ?_, by simp, ?_⟩
        · intro u hu
          by_cases hut : u = t
          · subst hut; simp only [put_self] at hu; exact absurd hu hx
          · simp only [put_other _ _ hut] at hu
            exact absurd hu (ho u)
        · intro u hu
          by_cases hut : u = t
          · subst hut; simp only [put_self] at hu; exact ⟨hq, hxs hu⟩
          · simp only [put_other _ _ hut] at hu
            exact ⟨hq, hcl.trans (hi.asleep u hu).2⟩
        · intro u o hu
          by_cases hut : u = t
          · subst hut; simp only [put_self] at hu; exact absurd hu (hxw o)
          · simp only [put_other _ _ hut] at hu
            exact hi.locked u o hu
      by_cases hclosed : core.closed = true
      · rw [if_pos hclosed]
        exact common .idle _ (by rw [← hcl, if_pos hclosed]) (by simp [Holds]) (by simp) (by simp)
      · rw [if_neg hclosed]
        refine common .sleeping _ (by rw [← hcl, if_neg hclosed]) (by simp [Holds]) ?_ (by simp)
        intro _
        exact Bool.eq_false_iff.2 hclosed

theorem withKnown_pop {kn : Option (Known K O)} {o : Op K O} {r : Outcome} :
    withKnown kn o = .pop r → o = .pop r := by
  cases o <;> simp [withKnown]

/-- Changing only what a task does that neither holds the lock nor sleeps, before and after. -/
theorem inv_put {key : O → Option K} {s : State K O} {h : List (Op K O × Out K O)} (hi : Inv key s h) {t : Nat}
    {x : Status K O} (hx : Holds (s.tasks t) → False) (hx' : Holds x → False) (hs : x ≠ .sleeping)
    (hw : ∀ o, x = .waiting o → locks o = true ∧ refused key o = none) :
    Inv key { s with tasks := put s.tasks t x } h := by
  refine ⟨hi.seq, hi.free, ?_, ?_, ?_, ?_, ?_⟩
  · intro u hu
    obtain ⟨k, ds, n, h1, h2⟩ := hi.held u hu
    have hut : u ≠ t := by
      rintro rfl
      rcases h1 with h1 | ⟨o, h1⟩ <;> exact hx (by rw [h1]; trivial)
    exact ⟨k, ds, n, by simpa only [put_other _ _ hut] using h1, h2⟩
  · intro u hu
    by_cases hut : u = t
    · subst hut; simp only [put_self] at hu; exact absurd hu hx'
    · simp only [put_other _ _ hut] at hu; exact hi.only u hu
  · intro u hu
    by_cases hut : u = t
    · subst hut; simp only [put_self] at hu; exact absurd hu hs
    · simp only [put_other _ _ hut] at hu; exact hi.asleep u hu
  · intro v u hv hu
    by_cases hut : u = t
    · subst hut; simp only [put_self] at hu; exact absurd hu hs
    · simp only [put_other _ _ hut] at hu; exact hi.nosleep v u hv hu
  · intro u o hu
    by_cases hut : u = t
    · subst hut; simp only [put_self] at hu; exact hw o hu
    · simp only [put_other _ _ hut] at hu; exact hi.locked u o hu

/-- The callback goes on, or gets stuck. -/
theorem inv_hold {key : O → Option K} {s : State K O} {h : List (Op K O × Out K O)} (hi : Inv key s h) {t : Nat}
    {x : Status K O} {k : K} {ds : Deltas K O} {n : Nat}
    (hx : s.tasks t = .processing k ds n ∨ ∃ o, s.tasks t = .stuck k ds n o)
    (hx' : x = .processing k ds n ∨ ∃ o, x = .stuck k ds n o) :
    Inv key { s with tasks := put s.tasks t x } h := by
  have hh : Holds (s.tasks t) := by rcases hx with h | ⟨o, h⟩ <;> rw [h] <;> trivial
  have ht := hi.only t hh
  have hxs : x ≠ .sleeping ∧ ∀ o, x ≠ .waiting o := by rcases hx' with rfl | ⟨o, rfl⟩ <;> simp
  refine ⟨hi.seq, hi.free, ?_, ?_, ?_, ?_, ?_⟩
  · intro u hu
    simp only at hu
    rw [ht] at hu
    cases hu
    obtain ⟨k', ds', n', h1, h2⟩ := hi.held t ht
    have : k' = k ∧ ds' = ds ∧ n' = n := by
      rcases hx with hx | ⟨o, hx⟩ <;> rcases h1 with h1 | ⟨o', h1⟩ <;> rw [hx] at h1 <;> cases h1 <;> simp
    obtain ⟨rfl, rfl, rfl⟩ := this
    exact ⟨k', ds', n', by simpa only [put_self] using hx', h2⟩
  · intro u hu
    by_cases hut : u = t
    · rw [hut]; exact ht
    · simp only [put_other _ _ hut] at hu; exact hi.only u hu
  · intro u hu
    by_cases hut : u = t
    · subst hut; simp only [put_self] at hu; exact absurd hu hxs.1
    · simp only [put_other _ _ hut] at hu; exact hi.asleep u hu
  · intro v u hv hu
    by_cases hut : u = t
    · subst hut; simp only [put_self] at hu; exact absurd hu hxs.1
    · simp only [put_other _ _ hut] at hu; exact hi.nosleep v u hv hu
  · intro u o hu
    by_cases hut : u = t
    · subst hut; simp only [put_self] at hu; exact absurd hu (hxs.2 o)
    · simp only [put_other _ _ hut] at hu; exact hi.locked u o hu

theorem inv_step {key : O → Option K} {s : State K O} {h : List (Op K O × Out K O)} (hi : Inv key s h) {e : Ev K O}
    {s' : State K O} {seen : List (Seen K O)} (he : step key s e = some (s', seen)) :
    Inv key s' (h ++ changes seen) := by
  cases e with
  | call t o =>
    simp only [step] at he
    cases ht : s.tasks t with
    | idle =>
      simp only [ht] at he
      have hn : Holds (s.tasks t) → False := by rw [ht]; exact id
      by_cases hl : locks o = true
      · rw [if_pos hl] at he
        cases hr : refused key o with
        | some a => rw [hr] at he; cases he; simpa [changes] using hi
        | none =>
          rw [hr] at he
          cases he
          simp only [changes, List.append_nil]
          refine inv_put hi hn (by simp [Holds]) (by simp) ?_
          rintro o' h'
          cases h'
          exact ⟨hl, hr⟩
      · rw [if_neg hl] at he
        cases he
        simpa [changes] using hi
    | _ => simp [ht] at he
  | acquire t kn =>
    simp only [step] at he
    cases hh : s.holder with
    | some u => simp [hh] at he
    | none =>
      cases ht : s.tasks t with
      | waiting o =>
        have hnp : ∀ s' seen, (∀ r, o ≠ .pop r) → some (⟨(DeltaFifo.step key s.core (withKnown kn o)).1, none,
            put (wake (DeltaFifo.notifies key s.core (withKnown kn o)) s.tasks) t .idle⟩,
            [Seen.done t (withKnown kn o) (DeltaFifo.step key s.core (withKnown kn o)).2]) =
              some (s', seen) → Inv key s' (h ++ changes seen) := by
          intro s' seen hno hs
          cases hs
          simp only [changes]
          have hsn := trace_snoc key h (withKnown kn o) hi.seq
          rw [← hi.free hh] at hsn
          refine ⟨hsn.1, fun _ => hsn.2.symm, by simp, ?_, ?_, by simp, ?_⟩
          · intro u hu
            by_cases hut : u = t
            · subst hut; simp only [put_self] at hu; exact absurd hu id
            · simp only [put_other _ _ hut] at hu
              exfalso
              have : Holds (s.tasks u) := by
                cases hw : wake (DeltaFifo.notifies key s.core (withKnown kn o)) s.tasks u with
                | processing k ds n => rw [(wake_eq hw (by simp)).1]; trivial
                | stuck k ds n o => rw [(wake_eq hw (by simp)).1]; trivial
                | _ => rw [hw] at hu; exact absurd hu id
              have := hi.only u this
              rw [hh] at this
              cases this
          · intro u hu
            by_cases hut : u = t
            · subst hut; simp only [put_self] at hu; cases hu
            · simp only [put_other _ _ hut] at hu
              obtain ⟨h1, h2⟩ := wake_eq hu (by simp)
              have hn := h2 rfl
              have hpop : (DeltaFifo.machine key).isPop (withKnown kn o) = false := by
                cases o <;> first | rfl | exact absurd rfl (hno _)
              exact (DeltaFifo.lawful key).2 s.core (withKnown kn o) hpop (hi.asleep u h1) hn
          · intro u p hu
            by_cases hut : u = t
            · subst hut; simp only [put_self] at hu; cases hu
            · simp only [put_other _ _ hut] at hu
              exact hi.locked u p (wake_eq hu (by simp)).1
        cases o with
        | pop r =>
          simp only [hh, ht, Option.some.injEq] at he
          have := inv_attempt hi hh (t := t) (by rw [ht]; simp)
          rw [he] at this
          exact this
        | _ =>
          simp only [hh, ht] at he
          exact hnp _ _ (by simp) he
      | waking c =>
        cases c with
        | true =>
          simp only [hh, ht, Option.some.injEq, Prod.mk.injEq] at he
          obtain ⟨rfl, rfl⟩ := he
          simp only [changes, List.append_nil]
          have h' := inv_put (t := t) (x := .idle) hi (by rw [ht]; exact id) (by simp [Holds]) (by simp) (by simp)
          simpa only [hh] using h'
        | false =>
          simp only [hh, ht, Option.some.injEq] at he
          have := inv_attempt hi hh (t := t) (by rw [ht]; simp)
          rw [he] at this
          exact this
      | _ => simp [hh, ht] at he
  | finish t r =>
    simp only [step] at he
    cases ht : s.tasks t with
    | processing k ds n =>
      simp only [ht, Option.some.injEq, Prod.mk.injEq] at he
      obtain ⟨rfl, rfl⟩ := he
      have hh := hi.only t (by rw [ht]; trivial)
      obtain ⟨k', ds', n', h1, h2⟩ := hi.held t hh
      have : k' = k ∧ ds' = ds ∧ n' = n := by
        rcases h1 with h1 | ⟨o', h1⟩ <;> rw [ht] at h1 <;> cases h1; simp
      obtain ⟨rfl, rfl, rfl⟩ := this
      have hp := popLoop_eq r (DeltaFifo.exec key DeltaFifo.init (h.map (·.1))).queue
        (DeltaFifo.exec key DeltaFifo.init (h.map (·.1))) 0
      rw [h2] at hp
      have hstep : DeltaFifo.step key (DeltaFifo.exec key DeltaFifo.init (h.map (·.1))) (.pop r) =
        DeltaFifo.finish s.core k' ds' n' r := hp
      have hsn := trace_snoc key h (.pop r) hi.seq
      rw [hstep] at hsn
      simp only [changes]
      have hother : ∀ u, u ≠ t → ∀ x, wake (finishNotifies s.core k' r) s.tasks u = x → ¬ Holds x := by
        rintro u hut x hw hx
        have : Holds (s.tasks u) := by
          cases x with
          | processing k ds n => rw [(wake_eq hw (by simp)).1]; trivial
          | stuck k ds n o => rw [(wake_eq hw (by simp)).1]; trivial
          | _ => exact absurd hx id
        have := hi.only u this
        rw [hh] at this
        cases this
        exact hut rfl
      refine ⟨hsn.1, fun _ => hsn.2.symm, by simp, ?_, ?_, by simp, ?_⟩
      · intro u hu
        by_cases hut : u = t
        · subst hut; simp only [put_self] at hu; exact absurd hu id
        · simp only [put_other _ _ hut] at hu
          exact absurd hu (hother u hut _ rfl)
      · intro u hu
        by_cases hut : u = t
        · subst hut; simp only [put_self] at hu; cases hu
        · simp only [put_other _ _ hut] at hu
          exact absurd (wake_eq hu (by simp)).1 (hi.nosleep t u hh)
      · intro u p hu
        by_cases hut : u = t
        · subst hut; simp only [put_self] at hu; cases hu
        · simp only [put_other _ _ hut] at hu
          exact hi.locked u p (wake_eq hu (by simp)).1
    | _ => simp [ht] at he
  | inner t o =>
    simp only [step] at he
    cases ht : s.tasks t with
    | processing k ds n =>
      simp only [ht] at he
      by_cases hl : locks o = true
      · rw [if_pos hl] at he
        cases hr : refused key o with
        | some a => rw [hr] at he; cases he; simpa [changes] using hi
        | none =>
          rw [hr] at he
          cases he
          simp only [changes, List.append_nil]
          exact inv_hold hi (Or.inl ht) (Or.inr ⟨o, rfl⟩)
      · rw [if_neg hl] at he
        cases he
        simpa [changes] using hi
    | _ => simp [ht] at he
  | cancel t =>
    simp only [step] at he
    cases ht : s.tasks t with
    | waiting o =>
      simp only [ht, Option.some.injEq, Prod.mk.injEq] at he
      obtain ⟨rfl, rfl⟩ := he
      simp only [changes, List.append_nil]
      exact inv_put hi (by rw [ht]; exact id) (by simp [Holds]) (by simp) (by simp)
    | sleeping | waking c =>
      simp only [ht, Option.some.injEq, Prod.mk.injEq] at he
      obtain ⟨rfl, rfl⟩ := he
      simp only [changes, List.append_nil]
      exact inv_put hi (by rw [ht]; exact id) (by simp [Holds]) (by simp) (by simp)
    | stuck k ds n o =>
      simp only [ht, Option.some.injEq, Prod.mk.injEq] at he
      obtain ⟨rfl, rfl⟩ := he
      simp only [changes, List.append_nil]
      exact inv_hold hi (Or.inr ⟨o, ht⟩) (Or.inl rfl)
    | _ =>
      simp only [ht, Option.some.injEq, Prod.mk.injEq] at he
      obtain ⟨rfl, rfl⟩ := he
      simpa [changes] using hi

theorem inv_run {key : O → Option K} (es : List (Ev K O)) : ∀ {s s' : State K O} {seen : List (Seen K O)}
    {h : List (Op K O × Out K O)}, Inv key s h → run key s es = some (s', seen) → Inv key s' (h ++ changes seen) := by
  induction es with
  | nil => intro s s' seen h hi hr; cases hr; simpa [changes] using hi
  | cons e es ih =>
    intro s s' seen h hi hr
    simp only [run] at hr
    cases he : step key s e with
    | none => simp [he] at hr
    | some x =>
      obtain ⟨s1, seen1⟩ := x
      simp only [he] at hr
      cases hm : run key s1 es with
      | none => simp [hm] at hr
      | some y =>
        obtain ⟨s2, seen2⟩ := y
        simp only [hm, Option.some.injEq, Prod.mk.injEq] at hr
        obtain ⟨rfl, rfl⟩ := hr
        have := ih (inv_step hi he) hm
        rwa [List.append_assoc, ← changes_append] at this

end Aiok8s.DeltaLock
