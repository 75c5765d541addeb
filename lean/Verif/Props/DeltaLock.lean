import Verif.Proof.DeltaLock
/-!
# C91, C92: the lock of `DeltaFIFO`
-/
namespace Aiok8s.DeltaLock
open Spec
open Aiok8s.DeltaFifo (Obj Deltas Known Outcome Out Op keyOf)
variable {K O : Type} [DecidableEq K]

/-- The task is in the callback of a `pop`. -/
def InCallback (s : State K O) (t : Nat) : Prop :=
  ∃ k ds n, s.tasks t = .processing k ds n ∨ ∃ o, s.tasks t = .stuck k ds n o

/-! ## C91 -/

/-- **C91.** Whatever tasks call the queue in whatever order: the calls that took the lock, in the order in which
they ended, are answered as by a queue that is called by one task only; and if no callback is running the state is
the one they lead to. -/
theorem C91_one_at_a_time (key : O → Option K) (es : List (Ev K O)) (s : State K O) (seen : List (Seen K O))
    (h : run key init es = some (s, seen)) :
    DeltaFifo.trace key DeltaFifo.init ((changes seen).map (·.1)) = changes seen ∧
    ((∀ t, ¬ InCallback s t) → s.holder = none ∧
      s.core = DeltaFifo.exec key DeltaFifo.init ((changes seen).map (·.1))) := by
  have hi := inv_run es (inv_init key) h
  rw [List.nil_append] at hi
  refine ⟨hi.seq, fun hn => ?_⟩
  have hh : s.holder = none := by
    cases hh : s.holder with
    | none => rfl
    | some t =>
      obtain ⟨k, ds, n, h1, -⟩ := hi.held t hh
      exact absurd ⟨k, ds, n, h1⟩ (hn t)
  exact ⟨hh, hi.free hh⟩

/-- **C91.** While a callback runs, no other does, nobody gets the lock, and the state is the one in which its item
has just been taken: that of a `pop` whose callback has returned. -/
theorem C91_callback (key : O → Option K) (es : List (Ev K O)) (s : State K O) (seen : List (Seen K O))
    (h : run key init es = some (s, seen)) (t : Nat) (ht : InCallback s t) :
    (∀ u, InCallback s u → u = t) ∧ (∀ u kn, step key s (.acquire u kn) = none) ∧
    ∃ k ds n, (s.tasks t = .processing k ds n ∨ ∃ o, s.tasks t = .stuck k ds n o) ∧
      DeltaFifo.step key (DeltaFifo.exec key DeltaFifo.init ((changes seen).map (·.1))) (.pop .ok) =
        (s.core, .popped k ds .returned n) := by
  have hi := inv_run es (inv_init key) h
  rw [List.nil_append] at hi
  have hc : ∀ u, InCallback s u → s.holder = some u := by
    rintro u ⟨k, ds, n, h1⟩
    apply hi.only
    rcases h1 with h1 | ⟨o, h1⟩ <;> rw [h1] <;> trivial
  have hh := hc t ht
  refine ⟨fun u hu => ?_, fun u kn => ?_, ?_⟩
  · have := hc u hu
    rw [hh] at this
    cases this
    rfl
  · simp only [step, hh]
  · obtain ⟨k, ds, n, h1, h2⟩ := hi.held t hh
    refine ⟨k, ds, n, h1, ?_⟩
    have := popLoop_eq .ok (DeltaFifo.exec key DeltaFifo.init ((changes seen).map (·.1))).queue
      (DeltaFifo.exec key DeltaFifo.init ((changes seen).map (·.1))) 0
    rw [h2] at this
    exact this

private theorem read_only (key : O → Option K) (o : Op K O) (hl : locks o = false) (s : DeltaFifo.State K O) :
    (DeltaFifo.step key s o).1 = s := by
  cases o with
  | get x => simp only [DeltaFifo.step]; cases keyOf key x <;> rfl
  | list | listKeys | getByKey k | hasSynced | isClosed => rfl
  | _ => cases hl

private theorem refused_only (key : O → Option K) (o : Op K O) (a : Out K O) (hr : refused key o = some a)
    (s : DeltaFifo.State K O) : DeltaFifo.step key s o = (s, a) := by
  cases o with
  | delete kn x =>
    simp only [refused] at hr
    cases hk : keyOf key x with
    | none => simp only [hk, Option.isNone_none, if_true, Option.some.injEq] at hr; simp [DeltaFifo.step, DeltaFifo.delete, hk, hr]
    | some k => simp [hk] at hr
  | addIfNotPresent ds =>
    simp only [refused] at hr
    cases hd : ds.getLast? with
    | none => simp only [hd, Option.some.injEq] at hr; simp [DeltaFifo.step, hd, hr]
    | some d =>
      simp only [hd] at hr
      cases hk : keyOf key d.object with
      | none => simp only [hk, Option.isNone_none, if_true, Option.some.injEq] at hr; simp [DeltaFifo.step, hd, hk, hr]
      | some k => simp [hk] at hr
  | _ => cases hr

/-- **C91.** A call that ends without having taken the lock is one that changes nothing, and is answered as by the
queue after the calls so far, or, while a callback runs, after its `pop`, too. -/
theorem C91_reads (key : O → Option K) (es : List (Ev K O)) (s s' : State K O) (seen : List (Seen K O))
    (h : run key init es = some (s, seen)) (e : Ev K O) (out : List (Seen K O)) (he : step key s e = some (s', out))
    (t : Nat) (o : Op K O) (a : Out K O) (ho : .read t o a ∈ out ∨ .innerRead t o a ∈ out) :
    s' = s ∧ ∃ more, (more = [] ∧ (∀ u, ¬ InCallback s u) ∨ more = [.pop .ok] ∧ ∃ u, InCallback s u) ∧
      DeltaFifo.step key (DeltaFifo.exec key DeltaFifo.init ((changes seen).map (·.1) ++ more)) o =
        (DeltaFifo.exec key DeltaFifo.init ((changes seen).map (·.1) ++ more), a) := by
  have hs : s' = s ∧ DeltaFifo.step key s.core o = (s.core, a) := by
    cases e with
    | call u p =>
      simp only [step] at he
      cases hu : s.tasks u with
      | idle =>
        simp only [hu] at he
        by_cases hp : locks p = true
        · rw [if_pos hp] at he
          cases hr : refused key p with
          | some b =>
            rw [hr] at he; cases he
            simp only [List.mem_cons, reduceCtorEq, Seen.read.injEq, List.not_mem_nil, or_false, false_or] at ho
            obtain ⟨-, rfl, rfl⟩ := ho
            exact ⟨rfl, refused_only key o a hr _⟩
          | none => rw [hr] at he; cases he; simp at ho
        · rw [if_neg hp] at he
          cases he
          simp only [List.mem_cons, reduceCtorEq, Seen.read.injEq, List.not_mem_nil, or_false, false_or] at ho
          obtain ⟨-, rfl, rfl⟩ := ho
          exact ⟨rfl, Prod.ext (read_only key o (Bool.eq_false_iff.2 hp) _) rfl⟩
      | _ => simp [hu] at he
    | inner u p =>
      simp only [step] at he
      cases hu : s.tasks u with
      | processing k ds n =>
        simp only [hu] at he
        by_cases hp : locks p = true
        · rw [if_pos hp] at he
          cases hr : refused key p with
          | some b =>
            rw [hr] at he; cases he
            simp only [List.mem_cons, reduceCtorEq, Seen.innerRead.injEq, List.not_mem_nil, or_false, false_or] at ho
            obtain ⟨-, rfl, rfl⟩ := ho
            exact ⟨rfl, refused_only key o a hr _⟩
          | none => rw [hr] at he; cases he; simp at ho
        · rw [if_neg hp] at he
          cases he
          simp only [List.mem_cons, reduceCtorEq, Seen.innerRead.injEq, List.not_mem_nil, or_false, false_or] at ho
          obtain ⟨-, rfl, rfl⟩ := ho
          exact ⟨rfl, Prod.ext (read_only key o (Bool.eq_false_iff.2 hp) _) rfl⟩
      | _ => simp [hu] at he
    | acquire u kn =>
      exfalso
      have hat : .read t o a ∈ (attempt s u).2 ∨ .innerRead t o a ∈ (attempt s u).2 → False := by
        simp only [attempt]
        cases take s.core s.core.queue 0 with
        | mk core got =>
          cases got with
          | some x => simp
          | none => simp only; split <;> simp
      simp only [step] at he
      cases hh : s.holder with
      | some v => simp [hh] at he
      | none =>
        cases hu : s.tasks u with
        | waiting p =>
          cases p with
          | pop r =>
            simp only [hh, hu, Option.some.injEq] at he
            rw [he] at hat
            exact hat ho
          | _ => simp only [hh, hu] at he; cases he; simp at ho
        | waking c =>
          cases c with
          | true => simp only [hh, hu] at he; cases he; simp at ho
          | false =>
            simp only [hh, hu, Option.some.injEq] at he
            rw [he] at hat
            exact hat ho
        | _ => simp [hh, hu] at he
    | finish u r =>
      exfalso
      simp only [step] at he
      cases hu : s.tasks u with
      | processing k ds n => simp only [hu] at he; cases he; simp at ho
      | _ => simp [hu] at he
    | cancel u =>
      exfalso
      simp only [step] at he
      cases hu : s.tasks u <;> simp only [hu] at he <;> cases he <;> simp at ho
  refine ⟨hs.1, ?_⟩
  by_cases hc : ∃ u, InCallback s u
  · obtain ⟨u, hu⟩ := hc
    obtain ⟨-, -, k, ds, n, -, h3⟩ := C91_callback key es s seen h u hu
    refine ⟨[.pop .ok], Or.inr ⟨rfl, u, hu⟩, ?_⟩
    rw [DeltaFifo.exec_append]
    show DeltaFifo.step key (DeltaFifo.step key _ _).1 o = ((DeltaFifo.step key _ _).1, a)
    rw [h3]
    exact hs.2
  · have hn : ∀ u, ¬ InCallback s u := fun u hu => hc ⟨u, hu⟩
    refine ⟨[], Or.inl ⟨rfl, hn⟩, ?_⟩
    rw [List.append_nil, ← ((C91_one_at_a_time key es s seen h).2 hn).2]
    exact hs.2

private theorem incall_other {t : Nat} {x : Option (Op K O)} (seen : List (Seen K O)) (h : InCall t seen x)
    {u : Nat} (hu : u ≠ t) (e : Seen K O)
    (he : (∃ o, e = .called u o) ∨ (∃ o a, e = .done u o a) ∨ (∃ o a, e = .read u o a) ∨
      (∃ o a, e = .innerRead u o a) ∨ e = .slept u ∨ e = .cancelled u) : InCall t (seen ++ [e]) x := by
  rcases he with ⟨o, rfl⟩ | ⟨o, a, rfl⟩ | ⟨o, a, rfl⟩ | ⟨o, a, rfl⟩ | rfl | rfl <;>
    exact .other h (by simp [hu]) (by simp [hu]) (by simp [hu])

/-- Which call a task is in, as far as its status tells. -/
def At (seen : List (Seen K O)) (t : Nat) : Status K O → Prop
  | .idle => InCall t seen none
  | .waiting o => InCall t seen (some o)
  | _ => ∃ r, InCall t seen (some (.pop r))

private theorem at_other {seen : List (Seen K O)} {t u : Nat} (hu : u ≠ t) {x : Status K O} (h : At seen t x)
    (e : Seen K O) (he : (∃ o, e = .called u o) ∨ (∃ o a, e = .done u o a) ∨ (∃ o a, e = .read u o a) ∨
      (∃ o a, e = .innerRead u o a) ∨ e = .slept u ∨ e = .cancelled u) : At (seen ++ [e]) t x := by
  cases x with
  | idle => exact incall_other _ h hu e he
  | waiting o => exact incall_other _ h hu e he
  | _ => obtain ⟨r, h⟩ := h; exact ⟨r, incall_other _ h hu e he⟩

private theorem at_wake {seen : List (Seen K O)} {f : Nat → Status K O} (h : ∀ t, At seen t (f t)) (b : Bool) :
    ∀ t, At seen t (wake b f t) := by
  intro t
  have := h t
  simp only [wake]
  cases b with
  | false => exact this
  | true => cases hf : f t <;> rw [hf] at this <;> exact this

private theorem at_put {seen : List (Seen K O)} {f : Nat → Status K O} (h : ∀ t, At seen t (f t)) {u : Nat}
    {x : Status K O} {e : Seen K O} (hx : At (seen ++ [e]) u x)
    (he : (∃ o, e = .called u o) ∨ (∃ o a, e = .done u o a) ∨ (∃ o a, e = .read u o a) ∨
      (∃ o a, e = .innerRead u o a) ∨ e = .slept u ∨ e = .cancelled u) :
    ∀ t, At (seen ++ [e]) t (put f u x t) := by
  intro t
  by_cases ht : t = u
  · subst ht; rw [put_self]; exact hx
  · rw [put_other _ _ ht]; exact at_other (Ne.symm ht) (h t) e he

private theorem at_set {seen : List (Seen K O)} {f : Nat → Status K O} (h : ∀ t, At seen t (f t)) {u : Nat}
    {x : Status K O} (hx : At seen u x) : ∀ t, At seen t (put f u x t) := by
  intro t
  by_cases ht : t = u
  · subst ht; rw [put_self]; exact hx
  · rw [put_other _ _ ht]; exact h t

private theorem at_attempt {s : State K O} {seen : List (Seen K O)} (h : ∀ t, At seen t (s.tasks t)) {u : Nat}
    (hu : ∃ r, InCall u seen (some (.pop r))) :
    ∀ t, At (seen ++ (attempt s u).2) t ((attempt s u).1.tasks t) := by
  obtain ⟨r, hr⟩ := hu
  simp only [attempt]
  cases take s.core s.core.queue 0 with
  | mk core got =>
    cases got with
    | some x =>
      simp only [List.append_nil]
      exact at_set h ⟨r, hr⟩
    | none =>
      simp only
      split
      · exact at_put h (.done hr trivial) (Or.inr (Or.inl ⟨_, _, rfl⟩))
      · exact at_put h ⟨r, .slept hr⟩ (by simp)

private theorem at_step {key : O → Option K} {s s' : State K O} {seen out : List (Seen K O)}
    (h : ∀ t, At seen t (s.tasks t)) {e : Ev K O} (he : step key s e = some (s', out)) :
    ∀ t, At (seen ++ out) t (s'.tasks t) := by
  have same : ∀ (u : Nat) (e : Seen K O), At (seen ++ [e]) u (s.tasks u) →
      ((∃ o, e = .called u o) ∨ (∃ o a, e = .done u o a) ∨ (∃ o a, e = .read u o a) ∨
      (∃ o a, e = .innerRead u o a) ∨ e = .slept u ∨ e = .cancelled u) →
      ∀ t, At (seen ++ [e]) t (s.tasks t) := by
    intro u e hu he t
    by_cases ht : t = u
    · subst ht; exact hu
    · exact at_other (Ne.symm ht) (h t) e he
  cases e with
  | call u o =>
    simp only [step] at he
    cases hu : s.tasks u with
    | idle =>
      simp only [hu] at he
      have hi := h u
      rw [hu] at hi
      have both : ∀ a, ∀ t, At (seen ++ [.called u o, .read u o a]) t (s.tasks t) := by
        intro a t
        rw [show seen ++ [Seen.called u o, .read u o a] = (seen ++ [.called u o]) ++ [.read u o a] by simp]
        by_cases ht : t = u
        · subst ht; rw [hu]; exact .read (.called hi)
        · exact at_other (Ne.symm ht) (at_other (Ne.symm ht) (h t) _ (by simp)) _ (by simp)
      by_cases hl : locks o = true
      · rw [if_pos hl] at he
        cases hr : refused key o with
        | some a => rw [hr] at he; cases he; exact both a
        | none =>
          rw [hr] at he
          cases he
          exact at_put h (.called hi) (by simp)
      · rw [if_neg hl] at he
        cases he
        exact both _
    | _ => simp [hu] at he
  | acquire u kn =>
    simp only [step] at he
    cases hh : s.holder with
    | some v => simp [hh] at he
    | none =>
      have hi := h u
      cases hu : s.tasks u with
      | waiting o =>
        rw [hu] at hi
        have hn : ∀ (s' : State K O) (out : List (Seen K O)), Same o (withKnown kn o) → some ((⟨(DeltaFifo.step key s.core (withKnown kn o)).1, none,
            put (wake (DeltaFifo.notifies key s.core (withKnown kn o)) s.tasks) u .idle⟩ : State K O),
            [Seen.done u (withKnown kn o) (DeltaFifo.step key s.core (withKnown kn o)).2]) =
              some (s', out) → ∀ t, At (seen ++ out) t (s'.tasks t) := by
          intro s' out hs hq
          cases hq
          exact at_put (at_wake h _) (.done hi hs) (by simp)
        cases o with
        | pop r =>
          simp only [hh, hu, Option.some.injEq] at he
          have := at_attempt h (u := u) ⟨r, hi⟩
          rw [he] at this
          exact this
        | _ =>
          simp only [hh, hu] at he
          exact hn _ _ (by simp [Same, withKnown]) he
      | waking c =>
        rw [hu] at hi
        cases c with
        | true =>
          simp only [hh, hu, Option.some.injEq, Prod.mk.injEq] at he
          obtain ⟨rfl, rfl⟩ := he
          obtain ⟨r, hi⟩ := hi
          exact at_put h (.cancelled hi) (by simp)
        | false =>
          simp only [hh, hu, Option.some.injEq] at he
          have := at_attempt h hi
          rw [he] at this
          exact this
      | _ => simp [hh, hu] at he
  | finish u r =>
    simp only [step] at he
    have hi := h u
    cases hu : s.tasks u with
    | processing k ds n =>
      rw [hu] at hi
      simp only [hu, Option.some.injEq, Prod.mk.injEq] at he
      obtain ⟨rfl, rfl⟩ := he
      obtain ⟨r, hi⟩ := hi
      exact at_put (at_wake h _) (.done hi trivial) (by simp)
    | _ => simp [hu] at he
  | inner u o =>
    simp only [step] at he
    have hi := h u
    cases hu : s.tasks u with
    | processing k ds n =>
      rw [hu] at hi
      obtain ⟨r, hi⟩ := hi
      simp only [hu] at he
      by_cases hl : locks o = true
      · rw [if_pos hl] at he
        cases hr : refused key o with
        | some a =>
          rw [hr] at he; cases he
          exact same u _ (by rw [hu]; exact ⟨r, .innerRead hi⟩) (by simp)
        | none =>
          rw [hr] at he
          cases he
          simp only [List.append_nil]
          exact at_set h ⟨r, hi⟩
      · rw [if_neg hl] at he
        cases he
        exact same u _ (by rw [hu]; exact ⟨r, .innerRead hi⟩) (by simp)
    | _ => simp [hu] at he
  | cancel u =>
    simp only [step] at he
    have hi := h u
    cases hu : s.tasks u with
    | waiting o =>
      rw [hu] at hi
      simp only [hu, Option.some.injEq, Prod.mk.injEq] at he
      obtain ⟨rfl, rfl⟩ := he
      exact at_put h (.cancelled hi) (by simp)
    | sleeping | waking c | stuck k ds n o =>
      rw [hu] at hi
      simp only [hu, Option.some.injEq, Prod.mk.injEq] at he
      obtain ⟨rfl, rfl⟩ := he
      simp only [List.append_nil]
      exact at_set h hi
    | _ =>
      simp only [hu, Option.some.injEq, Prod.mk.injEq] at he
      obtain ⟨rfl, rfl⟩ := he
      simpa using h

/-- Events one after the other. -/
theorem run_cons {key : O → Option K} {s s' : State K O} {e : Ev K O} {es : List (Ev K O)} {seen : List (Seen K O)}
    (h : run key s (e :: es) = some (s', seen)) : ∃ s1 seen1 seen2, step key s e = some (s1, seen1) ∧
      run key s1 es = some (s', seen2) ∧ seen = seen1 ++ seen2 := by
  simp only [run] at h
  cases he : step key s e with
  | none => simp [he] at h
  | some x =>
    obtain ⟨s1, seen1⟩ := x
    simp only [he] at h
    cases hm : run key s1 es with
    | none => simp [hm] at h
    | some y =>
      obtain ⟨s2, seen2⟩ := y
      simp only [hm, Option.some.injEq, Prod.mk.injEq] at h
      obtain ⟨rfl, rfl⟩ := h
      exact ⟨s1, seen1, seen2, rfl, hm, rfl⟩

/-- **C91.** Every task gets for every call the answer to that call, once; while it is in one it waits for the lock
with it, or is in a `pop`. -/
theorem C91_answers_calls (key : O → Option K) (es : List (Ev K O)) (s : State K O) (seen : List (Seen K O))
    (h : run key init es = some (s, seen)) (t : Nat) : At seen t (s.tasks t) := by
  suffices H : ∀ (es : List (Ev K O)) (s0 : State K O) (seen0 : List (Seen K O)), (∀ t, At seen0 t (s0.tasks t)) →
      ∀ s seen, run key s0 es = some (s, seen) → ∀ t, At (seen0 ++ seen) t (s.tasks t) by
    have := H es init [] (fun t => .nil) s seen h t
    simpa using this
  intro es
  induction es with
  | nil => intro s0 seen0 h0 s seen hr; cases hr; simpa using h0
  | cons e es ih =>
    intro s0 seen0 h0 s seen hr
    obtain ⟨s1, seen1, seen2, he, hm, rfl⟩ := run_cons hr
    have := ih s1 (seen0 ++ seen1) (at_step h0 he) s seen2 hm
    rwa [List.append_assoc] at this

/-- **C91.** What `delete`, `replace` and `resync` go by is what the known objects answer when the call has the
lock. -/
theorem C91_known_now (key : O → Option K) (s s' : State K O) (t u : Nat) (kn kn' : Option (Known K O))
    (out : List (Seen K O)) (h : step key s (.acquire t kn) = some (s', out)) (o : Op K O) (a : Out K O)
    (ho : .done u o a ∈ out) : u = t ∧ ∀ x xs, (o = .delete kn' x ∨ o = .replace kn' xs ∨ o = .resync kn') → kn' = kn := by
  simp only [step] at h
  have hat : .done u o a ∈ (attempt s t).2 → u = t ∧ o = .pop .ok := by
    simp only [attempt]
    cases take s.core s.core.queue 0 with
    | mk core got =>
      cases got with
      | some x => simp
      | none => simp only; split <;> simp +contextual
  cases hh : s.holder with
  | some v => simp [hh] at h
  | none =>
    cases ht : s.tasks t with
    | waiting p =>
      cases p with
      | pop r =>
        simp only [hh, ht, Option.some.injEq] at h
        rw [h] at hat
        obtain ⟨h1, rfl⟩ := hat ho
        exact ⟨h1, by simp⟩
      | _ =>
        simp only [hh, ht] at h
        cases h
        simp only [withKnown, List.mem_cons, Seen.done.injEq, List.not_mem_nil, or_false] at ho
        obtain ⟨rfl, rfl, -⟩ := ho
        refine ⟨rfl, fun x xs hx => ?_⟩
        simp at hx
        try exact hx.1.symm
        try exact hx.symm
    | waking c =>
      cases c with
      | true => simp only [hh, ht] at h; cases h; simp at ho
      | false =>
        simp only [hh, ht, Option.some.injEq] at h
        rw [h] at hat
        obtain ⟨h1, rfl⟩ := hat ho
        exact ⟨h1, by simp⟩
    | _ => simp [hh, ht] at h

/-- **C91.** Nobody waits in vain: a task sleeps only while nothing is queued, the queue is open and no callback is
running; and while none is running every task that waits for the lock can get it. -/
theorem C91_nobody_forgotten (key : O → Option K) (es : List (Ev K O)) (s : State K O) (seen : List (Seen K O))
    (h : run key init es = some (s, seen)) (t : Nat) :
    (s.tasks t = .sleeping → s.core.queue = [] ∧ s.core.closed = false ∧ ∀ u, ¬ InCallback s u) ∧
    ((∀ u, ¬ InCallback s u) → ((∃ o, s.tasks t = .waiting o) ∨ ∃ c, s.tasks t = .waking c) →
      ∀ kn, (step key s (.acquire t kn)).isSome) ∧
    (∀ k ds n, s.tasks t = .processing k ds n → ∀ r, ∃ s' e, step key s (.finish t r) =
      some (s', [.done t (.pop r) (.popped k ds e n)]) ∧ ∀ u, ¬ InCallback s' u) := by
  have hi := inv_run es (inv_init key) h
  rw [List.nil_append] at hi
  refine ⟨fun hs => ?_, fun hn hw kn => ?_, fun k ds n hp r => ?_⟩
  · refine ⟨(hi.asleep t hs).1, (hi.asleep t hs).2, ?_⟩
    rintro u ⟨k, ds, n, h1⟩
    exact hi.nosleep u t (hi.only u (by rcases h1 with h1 | ⟨o, h1⟩ <;> rw [h1] <;> trivial)) hs
  · have hh := ((C91_one_at_a_time key es s seen h).2 hn).1
    rcases hw with ⟨o, ho⟩ | ⟨c, hc⟩
    · cases o <;> simp [step, hh, ho]
    · cases c <;> simp [step, hh, hc]
  · have hone := (C91_callback key es s seen h t ⟨k, ds, n, Or.inl hp⟩).1
    have hno : ∀ x, (∀ u, ¬ InCallback (⟨x, none, put (wake (finishNotifies s.core k r) s.tasks) t .idle⟩ : State K O) u)
        := by
      rintro x u ⟨k', ds', n', h1⟩
      by_cases hut : u = t
      · subst hut
        simp only [put_self] at h1
        rcases h1 with h1 | ⟨o, h1⟩ <;> cases h1
      · simp only [put_other _ _ hut] at h1
        refine hut (hone u ⟨k', ds', n', ?_⟩)
        rcases h1 with h1 | ⟨o, h1⟩
        · exact Or.inl (wake_eq h1 (by simp)).1
        · exact Or.inr ⟨o, (wake_eq h1 (by simp)).1⟩
    simp only [step, hp]
    cases r with
    | requeue c => cases c <;> exact ⟨_, _, rfl, hno _⟩
    | _ => exact ⟨_, _, rfl, hno _⟩

/-- The key function of the examples. -/
def exKey (o : Nat × Nat) : Option Nat := if o.1 < 100 then some o.1 else none

/-- A `pop` sleeps; an `add` waits for the lock, gets it and wakes it; a second `pop` is faster; while its callback
runs another `add` waits and a reader sees that nothing is pending; the callback asks for a retry, which wakes nobody;
in the end the first `pop` gets both changes. -/
example : ∃ s seen, run exKey init [.call 1 (.pop .ok), .acquire 1 none, .call 2 (.add (.real (5, 1))),
      .acquire 2 none, .call 3 (.pop .ok), .acquire 3 none, .call 2 (.update (.real (5, 2))),
      .call 4 (.getByKey 5), .finish 3 (.requeue false), .acquire 2 none, .acquire 1 none, .finish 1 .ok] =
        some (s, seen) ∧
    changes seen = [(.pop .ok, .blocked), (.add (.real (5, 1)), .ok),
      (.pop (.requeue false), .popped 5 [⟨.added, .real (5, 1)⟩] .returned 0), (.update (.real (5, 2)), .ok),
      (.pop .ok, .popped 5 [⟨.added, .real (5, 1)⟩, ⟨.updated, .real (5, 2)⟩] .returned 0)] ∧
    seen[7]? = some (.read 4 (.getByKey 5) (.deltas none)) := by
  refine ⟨_, _, rfl, rfl, rfl⟩

/-! ## C92 -/

private theorem stuck_step {key : O → Option K} {s s' : State K O} {t : Nat} {k : K} {ds : Deltas K O} {n : Nat}
    {o : Op K O} {e : Ev K O} {out : List (Seen K O)} (hs : s.tasks t = .stuck k ds n o) (hh : s.holder = some t)
    (ho : ∀ u, Holds (s.tasks u) → u = t) (hc : ¬ isCancel t e) (he : step key s e = some (s', out)) :
    s'.core = s.core ∧ s'.holder = some t ∧ s'.tasks t = .stuck k ds n o ∧ (∀ u, Holds (s'.tasks u) → u = t) ∧
    changes out = [] := by
  have hput : ∀ u (x : Status K O), u ≠ t → ¬ Holds x → put s.tasks u x t = .stuck k ds n o ∧
      ∀ v, Holds (put s.tasks u x v) → v = t := by
    intro u x hu hx
    refine ⟨by rw [put_other _ _ (Ne.symm hu), hs], fun v hv => ?_⟩
    by_cases hvu : v = u
    · subst hvu; rw [put_self] at hv; exact absurd hv hx
    · rw [put_other _ _ hvu] at hv; exact ho v hv
  have hne : ∀ u, s.tasks u = .idle ∨ (∃ o, s.tasks u = .waiting o) ∨ s.tasks u = .sleeping ∨
      (∃ c, s.tasks u = .waking c) → u ≠ t := by
    rintro u hu rfl
    rw [hs] at hu
    simp at hu
  cases e with
  | call u p =>
    simp only [step] at he
    cases hu : s.tasks u with
    | idle =>
      simp only [hu] at he
      by_cases hl : locks p = true
      · rw [if_pos hl] at he
        cases hr : refused key p with
        | some a => rw [hr] at he; cases he; exact ⟨rfl, hh, hs, ho, rfl⟩
        | none =>
          rw [hr] at he
          cases he
          obtain ⟨h1, h2⟩ := hput u (.waiting p) (hne u (Or.inl hu)) id
          exact ⟨rfl, hh, h1, h2, rfl⟩
      · rw [if_neg hl] at he
        cases he
        exact ⟨rfl, hh, hs, ho, rfl⟩
    | _ => simp [hu] at he
  | acquire u kn => simp [step, hh] at he
  | finish u r =>
    simp only [step] at he
    cases hu : s.tasks u with
    | processing k' ds' n' =>
      have := ho u (by rw [hu]; trivial)
      subst this
      rw [hs] at hu
      cases hu
    | _ => simp [hu] at he
  | inner u p =>
    simp only [step] at he
    cases hu : s.tasks u with
    | processing k' ds' n' =>
      have := ho u (by rw [hu]; trivial)
      subst this
      rw [hs] at hu
      cases hu
    | _ => simp [hu] at he
  | cancel u =>
    simp only [isCancel] at hc
    simp only [step] at he
    cases hu : s.tasks u with
    | waiting p =>
      simp only [hu, Option.some.injEq, Prod.mk.injEq] at he
      obtain ⟨rfl, rfl⟩ := he
      obtain ⟨h1, h2⟩ := hput u .idle hc id
      exact ⟨rfl, hh, h1, h2, rfl⟩
    | sleeping | waking c =>
      simp only [hu, Option.some.injEq, Prod.mk.injEq] at he
      obtain ⟨rfl, rfl⟩ := he
      obtain ⟨h1, h2⟩ := hput u (.waking true) hc id
      exact ⟨rfl, hh, h1, h2, rfl⟩
    | stuck k' ds' n' o' => exact absurd (ho u (by rw [hu]; trivial)) hc
    | _ =>
      simp only [hu, Option.some.injEq, Prod.mk.injEq] at he
      obtain ⟨rfl, rfl⟩ := he
      exact ⟨rfl, hh, hs, ho, rfl⟩

private theorem looks_iff (o : Op K O) : Looks o ↔ locks o = false := by
  constructor
  · intro h; cases h <;> rfl
  · intro h
    cases o <;> first | constructor | cases h

private theorem pointless_iff (key : O → Option K) (o : Op K O) : Pointless key o ↔ refused key o ≠ none := by
  constructor
  · intro h
    cases h with
    | delete kn x h => simp [refused, h]
    | addNothing => simp [refused]
    | addKey ds d h => simp [refused, h]
  · intro h
    cases o with
    | delete kn x =>
      refine .delete kn x ?_
      cases hk : keyOf key x with
      | none => rfl
      | some k => simp [refused, hk] at h
    | addIfNotPresent ds =>
      cases hl : ds.getLast? with
      | none => rw [List.getLast?_eq_none_iff.1 hl]; exact .addNothing
      | some d =>
        obtain ⟨l, rfl⟩ := List.getLast?_eq_some_iff.1 hl
        refine .addKey l d ?_
        cases hk : keyOf key d.object with
        | none => rfl
        | some k => simp [refused, hk] at h
    | _ => exact absurd rfl h

/-- **C92 is false** for every callback that calls a method which does not only look at the queue (and does not raise
at once): the call never returns.  Whatever happens afterwards, short of a cancellation of that task, the callback stays where it
is, the queue does not change any more, and no call of any task that takes the lock ends. -/
theorem C92_refuted_hangs (key : O → Option K) (es : List (Ev K O)) (s : State K O) (seen : List (Seen K O))
    (h : run key init es = some (s, seen)) (t : Nat) (k : K) (ds : Deltas K O) (n : Nat)
    (ht : s.tasks t = .processing k ds n) (o : Op K O) (hl : ¬ Looks o) (hr : ¬ Pointless key o) :
    ∃ s1, step key s (.inner t o) = some (s1, []) ∧
      ∀ es' s' seen', (∀ e ∈ es', ¬ isCancel t e) → run key s1 es' = some (s', seen') →
        s'.tasks t = .stuck k ds n o ∧ s'.core = s.core ∧ changes seen' = [] ∧
        (∀ u kn, step key s' (.acquire u kn) = none) ∧ ∀ r, step key s' (.finish t r) = none := by
  rw [looks_iff, Bool.not_eq_false] at hl
  rw [pointless_iff, not_not] at hr
  have hi := inv_run es (inv_init key) h
  rw [List.nil_append] at hi
  have hh := hi.only t (by rw [ht]; trivial)
  have ho : ∀ u, Holds (put s.tasks t (.stuck k ds n o) u) → u = t := by
    intro u hu
    by_cases hut : u = t
    · exact hut
    · rw [put_other _ _ hut] at hu
      have := hi.only u hu
      rw [hh] at this
      cases this
      rfl
  refine ⟨{ s with tasks := put s.tasks t (.stuck k ds n o) }, by simp [step, ht, hl, hr], ?_⟩
  have H : ∀ (es' : List (Ev K O)) (s1 : State K O), s1.tasks t = .stuck k ds n o → s1.holder = some t →
      (∀ u, Holds (s1.tasks u) → u = t) → ∀ s' seen', (∀ e ∈ es', ¬ isCancel t e) →
      run key s1 es' = some (s', seen') → s'.tasks t = .stuck k ds n o ∧ s'.core = s1.core ∧ changes seen' = [] ∧
        s'.holder = some t := by
    intro es'
    induction es' with
    | nil => intro s1 h1 h2 h3 s' seen' _ hr; cases hr; exact ⟨h1, rfl, rfl, h2⟩
    | cons e es' ih =>
      intro s1 h1 h2 h3 s' seen' hn hr
      obtain ⟨s2, seen1, seen2, he, hm, rfl⟩ := run_cons hr
      obtain ⟨c1, c2, c3, c4, c5⟩ := stuck_step h1 h2 h3 (hn e (List.mem_cons_self ..)) he
      obtain ⟨d1, d2, d3, d4⟩ := ih s2 c3 c2 c4 s' seen2 (fun x hx => hn x (List.mem_cons_of_mem _ hx)) hm
      exact ⟨d1, d2.trans c1, by rw [changes_append, c5, d3]; rfl, d4⟩
  intro es' s' seen' hn hrun
  obtain ⟨d1, d2, d3, d4⟩ := H es' { s with tasks := put s.tasks t (.stuck k ds n o) } (put_self _ _ _) hh ho s' seen' hn hrun
  exact ⟨d1, d2, d3, fun u kn => by simp [step, d4], fun r => by simp [step, d1]⟩

/-- **C92 (calls that only look).** They are answered at once, with what is pending without the item in the
callback's hands, and change nothing: the callback can end afterwards.

Partial: all other calls hang, see `C92_refuted_hangs`. -/
theorem C92_reads_partial (key : O → Option K) (es : List (Ev K O)) (s : State K O) (seen : List (Seen K O))
    (h : run key init es = some (s, seen)) (t : Nat) (k : K) (ds : Deltas K O) (n : Nat)
    (ht : s.tasks t = .processing k ds n) (o : Op K O) (hl : Looks o) :
    ∃ a, step key s (.inner t o) = some (s, [.innerRead t o a]) ∧
      a = (DeltaFifo.step key (DeltaFifo.exec key DeltaFifo.init ((changes seen).map (·.1) ++ [.pop .ok])) o).2 := by
  rw [looks_iff] at hl
  obtain ⟨-, -, k', ds', n', -, h3⟩ := C91_callback key es s seen h t ⟨k, ds, n, Or.inl ht⟩
  refine ⟨(DeltaFifo.step key s.core o).2, by simp only [step, ht, hl, Bool.false_eq_true, if_false], ?_⟩
  rw [DeltaFifo.exec_append]
  show _ = (DeltaFifo.step key (DeltaFifo.step key _ _).1 o).2
  rw [h3]

/-- **C92 (calls that cannot do anything).** They raise their exception at once and change nothing, too. -/
theorem C92_pointless_partial (key : O → Option K) (s : State K O) (t : Nat) (k : K) (ds : Deltas K O) (n : Nat)
    (ht : s.tasks t = .processing k ds n) (o : Op K O) (hl : Pointless key o) :
    ∃ a, step key s (.inner t o) = some (s, [.innerRead t o a]) ∧ a = (DeltaFifo.step key s.core o).2 ∧
      (a = .keyFunc ∨ a = .attributeError) := by
  cases hl with
  | delete kn x h =>
    exact ⟨.keyFunc, by simp [step, ht, locks, refused, h], by simp [DeltaFifo.step, DeltaFifo.delete, h], Or.inl rfl⟩
  | addNothing =>
    exact ⟨.attributeError, by simp [step, ht, locks, refused], by simp [DeltaFifo.step], Or.inr rfl⟩
  | addKey ds d h =>
    exact ⟨.keyFunc, by simp [step, ht, locks, refused, h], by simp [DeltaFifo.step, h], Or.inl rfl⟩

/-- **C92 (a cancellation helps).** If the task is cancelled while its callback hangs, the callback can end, and the
lock is free again.

Partial: without it it cannot, see `C92_refuted_hangs`. -/
theorem C92_cancelled_partial (key : O → Option K) (es : List (Ev K O)) (s : State K O) (seen : List (Seen K O))
    (h : run key init es = some (s, seen)) (t : Nat) (k : K) (ds : Deltas K O) (n : Nat) (o : Op K O)
    (ht : s.tasks t = .stuck k ds n o) (r : Outcome) :
    ∃ s' e, run key s [.cancel t, .finish t r] = some (s', [.done t (.pop r) (.popped k ds e n)]) ∧
      ∀ u, ¬ InCallback s' u := by
  have hstep : step key s (.cancel t) = some ({ s with tasks := put s.tasks t (.processing k ds n) }, []) := by
    simp [step, ht]
  have hrun : ∀ (es : List (Ev K O)) (s0 : State K O) (a : List (Seen K O)), run key s0 es = some (s, a) →
      run key s0 (es ++ [.cancel t]) = some ({ s with tasks := put s.tasks t (.processing k ds n) }, a) := by
    intro es
    induction es with
    | nil => intro s0 a h0; cases h0; simp [run, hstep]
    | cons e es ih =>
      intro s0 a h0
      obtain ⟨s1, seen1, seen2, he, hm, rfl⟩ := run_cons h0
      have := ih s1 seen2 hm
      simp only [List.cons_append, run, he, this]
  obtain ⟨s', e, h1, h2⟩ := (C91_nobody_forgotten key _ _ _ (hrun es init seen h) t).2.2 k ds n (put_self _ _ _) r
  exact ⟨s', e, by simp only [run, hstep, h1, List.nil_append, List.append_nil], h2⟩

/-- The callback of 1 has the item 5; it can look at the queue; then it calls `add`, and hangs: neither `close` of 2
nor the callback ends; after a cancellation both do. -/
example : ∃ s seen, run exKey init [.call 2 (.add (.real (5, 1))), .acquire 2 none, .call 1 (.pop .ok),
      .acquire 1 none, .inner 1 .listKeys] = some (s, seen) ∧
    (∃ ds, s.tasks 1 = .processing 5 ds 0) ∧ seen[3]? = some (.innerRead 1 .listKeys (.keys [])) ∧
    (∃ s' seen', run exKey s [.inner 1 (.add (.real (6, 1))), .call 2 .close, .cancel 1, .finish 1 .cancelled,
      .acquire 2 none] = some (s', seen') ∧ changes seen' =
        [(.pop .cancelled, .popped 5 [⟨.added, .real (5, 1)⟩] .cancelled 0), (.close, .ok)] ∧
      s'.core.items = []) ∧
    run exKey s [.inner 1 (.add (.real (6, 1))), .call 2 .close, .acquire 2 none] = none := by
  refine ⟨_, _, rfl, ⟨_, rfl⟩, rfl, ⟨_, _, rfl, rfl, rfl⟩, rfl⟩

/-- A callback that calls `add_if_not_present` without deltas goes on with the exception. -/
example : ∃ s seen, run exKey init [.call 2 (.add (.real (5, 1))), .acquire 2 none, .call 1 (.pop .ok),
      .acquire 1 none, .inner 1 (.addIfNotPresent []), .finish 1 .ok] = some (s, seen) ∧
    seen[3]? = some (.innerRead 1 (.addIfNotPresent []) .attributeError) ∧ s.tasks 1 = .idle := by
  refine ⟨_, _, rfl, rfl, rfl⟩

end Aiok8s.DeltaLock
