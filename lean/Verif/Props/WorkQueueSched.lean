import Verif.Model.WorkQueueSched
import Verif.Proof.WorkQueue
/-!
# Property C06: no lost wake-up (`aiok8s/workqueue/queue.py`)
-/
set_option linter.unusedSimpArgs false
namespace Aiok8s.WorkQueueSched
open Aiok8s
variable {α : Type} [DecidableEq α]

private def cntA (ws : List Waiter) : Nat := ws.countP fun w => !w.woken
private def cntW (ws : List Waiter) : Nat := ws.countP fun w => w.woken

private theorem notify_asleep (ws : List Waiter) : cntA (notify ws) = cntA ws - 1 := by
  induction ws with
  | nil => rfl
  | cons w ws ih =>
    cases hw : w.woken <;> simp_all [notify, cntA, List.countP_cons]

private theorem notify_woken (ws : List Waiter) :
    cntW (notify ws) = cntW ws + (if cntA ws = 0 then 0 else 1) := by
  induction ws with
  | nil => rfl
  | cons w ws ih =>
    cases hw : w.woken <;> simp_all [notify, cntW, cntA, List.countP_cons]
    split <;> omega

private theorem notifyAll_asleep (ws : List Waiter) : cntA (notifyAll ws) = 0 := by
  simp [cntA, notifyAll, List.countP_eq_zero]

private theorem erase_counts {ws : List Waiter} {w : Waiter} (h : w ∈ ws) (hw : w.woken = true) :
    cntA (ws.erase w) = cntA ws ∧ cntW (ws.erase w) + 1 = cntW ws := by
  have hp := (List.perm_cons_erase h)
  have h1 := hp.countP_eq (fun w => !w.woken)
  have h2 := hp.countP_eq (fun w => w.woken)
  simp only [List.countP_cons, hw] at h1 h2
  constructor
  · simpa [cntA] using h1.symm
  · simpa [cntW] using h2.symm

private theorem cancel_counts (ws : List Waiter) (t : Nat) :
    cntW ws ≤ cntW (ws.map fun w =>
        if w.task = t then { w with woken := true, cancelled := true } else w) ∧
    cntA (ws.map fun w =>
        if w.task = t then { w with woken := true, cancelled := true } else w) ≤ cntA ws := by
  induction ws with
  | nil => exact ⟨Nat.le_refl _, Nat.le_refl _⟩
  | cons w ws ih =>
    simp only [cntA, cntW, List.map_cons, List.countP_cons] at ih ⊢
    generalize List.map _ ws = l at ih ⊢
    by_cases ht : w.task = t
    · cases hw : w.woken <;> simp [ht, hw] <;> omega
    · cases hw : w.woken <;> simp [ht, hw] <;> omega

/-- The counting invariant. -/
private structure Good (s : Sched α) : Prop where
  awake : cntA s.waiters = 0 ∨ s.core.queue.length ≤ cntW s.waiters
  shut : s.core.shuttingDown = true → cntA s.waiters = 0

private theorem attempt_good {c : WorkQueue.State α} {ws : List Waiter} (t : Nat)
    (h : cntA ws = 0 ∨ c.queue.length ≤ cntW ws + 1)
    (h' : c.shuttingDown = true → cntA ws = 0) : Good (attempt ⟨c, ws⟩ t).1 := by
  obtain ⟨d, p, q, sd⟩ := c
  simp only at h h'
  cases q with
  | nil =>
    cases sd with
    | true => constructor <;> simp_all [attempt, WorkQueue.get]
    | false =>
      constructor
      · right; simp [attempt, WorkQueue.get]
      · simp [attempt, WorkQueue.get]
  | cons x q =>
    constructor
    · simp only [attempt, WorkQueue.get, List.length_cons] at h ⊢; omega
    · simpa [attempt, WorkQueue.get] using h'

/-- Cancelled waiters only matter when notifications are not passed on. -/
private def fine (passOn : Bool) (ws : List Waiter) : Prop :=
  passOn = true ∨ ∀ w ∈ ws, w.cancelled = false

private theorem notify_cancelled {ws : List Waiter} (h : ∀ w ∈ ws, w.cancelled = false) :
    ∀ w ∈ notify ws, w.cancelled = false := by
  induction ws with
  | nil => simpa [notify] using h
  | cons w ws ih =>
    simp only [notify]
    split
    · intro v hv
      rcases List.mem_cons.1 hv with rfl | hv
      · exact h _ (by simp)
      · exact ih (fun u hu => h u (by simp [hu])) v hv
    · intro v hv
      rcases List.mem_cons.1 hv with rfl | hv
      · exact h w (by simp)
      · exact h v (by simp [hv])

private theorem attempt_fine {passOn : Bool} {s : Sched α} (t : Nat) (h : fine passOn s.waiters) :
    fine passOn (attempt s t).1.waiters := by
  rcases h with h | h
  · exact Or.inl h
  · right
    simp only [attempt]
    split
    · intro w hw
      simp only [List.mem_append, List.mem_singleton] at hw
      rcases hw with hw | rfl
      · exact h w hw
      · rfl
    · exact h

private theorem step_good {passOn : Bool} {s : Sched α} (e : Ev α)
    (hc : passOn = true ∨ ∀ t, e ≠ .cancel t)
    (hf : fine passOn s.waiters) (h : Good s) :
    Good (step passOn s e).1 ∧ fine passOn (step passOn s e).1.waiters := by
  obtain ⟨⟨d, p, q, sd⟩, ws⟩ := s
  obtain ⟨h1, h2⟩ := h
  simp only at h1 h2 hf
  have na := notify_asleep ws
  have nw := notify_woken ws
  cases e with
  | add x =>
    constructor
    · cases sd with
      | true => constructor <;> simp_all [step, WorkQueue.add, addNotifies]
      | false =>
        by_cases hd : x ∈ d
        · constructor <;> simp_all [step, WorkQueue.add, addNotifies]
        · by_cases hp : x ∈ p
          · constructor <;> simp_all [step, WorkQueue.add, addNotifies]
          · constructor
            · simp only [step, WorkQueue.add, addNotifies, hd, hp, if_false, if_true,
                List.length_append, List.length_singleton, Bool.false_eq_true]
              split at nw <;> omega
            · simp [step, WorkQueue.add, hd, hp]
    · rcases hf with hf | hf
      · exact Or.inl hf
      · right
        simp only [step]
        split
        · exact notify_cancelled hf
        · exact hf
  | get t =>
    simp only [step]
    split
    · exact ⟨⟨h1, h2⟩, hf⟩
    · exact ⟨attempt_good t (by simp only; omega) h2, attempt_fine t hf⟩
  | done x =>
    constructor
    · by_cases hp : x ∈ p
      · by_cases hd : x ∈ d
        · constructor
          · simp only [step, WorkQueue.done, doneNotifies, hd, hp, if_false, if_true,
              List.length_append, List.length_singleton]
            split at nw <;> omega
          · intro hs
            have h3 := h2 (by simpa [step, WorkQueue.done, hd, hp] using hs)
            simp only [step, WorkQueue.done, doneNotifies, hd, hp, if_true, na]
            omega
        · constructor <;> simp_all [step, WorkQueue.done, doneNotifies]
      · constructor <;> simp_all [step, WorkQueue.done, doneNotifies]
    · rcases hf with hf | hf
      · exact Or.inl hf
      · right
        simp only [step]
        split
        · exact notify_cancelled hf
        · exact hf
  | shutDown =>
    refine ⟨⟨Or.inl (notifyAll_asleep ws), fun _ => notifyAll_asleep ws⟩, ?_⟩
    rcases hf with hf | hf
    · exact Or.inl hf
    · right
      intro w hw
      simp only [step, notifyAll, List.mem_map] at hw
      obtain ⟨v, hv, rfl⟩ := hw
      exact hf v hv
  | cancel t =>
    rcases hc with hc | hc
    · have := cancel_counts ws t
      refine ⟨⟨?_, ?_⟩, Or.inl hc⟩
      · simp only [step]; omega
      · intro hs
        have := h2 hs
        simp only [step]; omega
    · exact absurd rfl (hc t)
  | resume t =>
    simp only [step]
    split
    · exact ⟨⟨h1, h2⟩, hf⟩
    · rename_i w hw
      have hmem := List.mem_of_find?_eq_some hw
      have hwk := List.find?_some hw
      simp only [Bool.and_eq_true] at hwk
      obtain ⟨e1, e2⟩ := erase_counts hmem hwk.2
      have ef : fine passOn (ws.erase w) := by
        rcases hf with hf | hf
        · exact Or.inl hf
        · exact Or.inr fun v hv => hf v (List.mem_of_mem_erase hv)
      split
      · rename_i hcan
        have hp : passOn = true := by
          rcases hf with hf | hf
          · exact hf
          · rw [hf w hmem] at hcan; cases hcan
        have na' := notify_asleep (ws.erase w)
        have nw' := notify_woken (ws.erase w)
        refine ⟨⟨?_, ?_⟩, Or.inl hp⟩
        · simp only [hp, if_true]
          split at nw' <;> omega
        · intro hs
          have := h2 hs
          simp only [hp, if_true]; omega
      · refine ⟨attempt_good t ?_ ?_, attempt_fine t ef⟩
        · simp only; omega
        · intro hs; have := h2 hs; omega

private theorem exec_good {passOn : Bool} (es : List (Ev α))
    (hc : passOn = true ∨ ∀ t, .cancel t ∉ es) {s : Sched α}
    (hf : fine passOn s.waiters) (h : Good s) : Good (exec passOn s es) := by
  induction es generalizing s with
  | nil => exact h
  | cons e es ih =>
    have hc1 : passOn = true ∨ ∀ t, e ≠ .cancel t := by
      rcases hc with hc | hc
      · exact Or.inl hc
      · right; rintro t rfl; exact hc t (by simp)
    have hc2 : passOn = true ∨ ∀ t, Ev.cancel t ∉ es := by
      rcases hc with hc | hc
      · exact Or.inl hc
      · right; intro t ht; exact hc t (by simp [ht])
    obtain ⟨h1, h2⟩ := step_good e hc1 hf h
    exact ih hc2 h2 h1

/-- **C06.** With no cancelled `get` (or on CPython >= 3.13 even with cancellations), after any
steps of any number of tasks, at least `min(items waiting, tasks blocked in get)` of the
blocked tasks have been woken. -/
theorem C06_no_lost_wakeup (passOn : Bool) (es : List (Ev α))
    (hc : passOn = true ∨ ∀ t, Ev.cancel t ∉ es) :
    min (exec passOn init es).core.queue.length (exec passOn init es).waiters.length
      ≤ woken (exec passOn init es) := by
  have h := (exec_good (passOn := passOn) es hc (s := init)
    (Or.inr (by simp [init])) ⟨Or.inl rfl, fun _ => rfl⟩).awake
  have hl : ∀ ws : List Waiter, ws.length = cntA ws + cntW ws := by
    intro ws
    induction ws with
    | nil => rfl
    | cons w ws ih =>
      cases hw : w.woken <;> simp_all [cntA, cntW, List.countP_cons] <;> omega
  have := hl (exec passOn init es).waiters
  simp only [woken]
  simp only [cntW] at *
  omega

/-- **C06.** When no woken task is left to run, there are no waiting items or no blocked
consumers: the loop never idles with both. -/
theorem C06_idle_means_no_work (passOn : Bool) (es : List (Ev α))
    (hc : passOn = true ∨ ∀ t, Ev.cancel t ∉ es)
    (hidle : woken (exec passOn init es) = 0) :
    (exec passOn init es).core.queue = [] ∨ (exec passOn init es).waiters = [] := by
  have := C06_no_lost_wakeup passOn es hc
  rw [hidle] at this
  rcases Nat.le_zero.1 this |> Nat.min_eq_zero_iff.1 with h | h
  · exact Or.inl (List.length_eq_zero_iff.1 h)
  · exact Or.inr (List.length_eq_zero_iff.1 h)

/-- **C06.** After `shut_down` no task stays asleep in `get`. -/
theorem C06_shutdown_wakes_all (passOn : Bool) (es : List (Ev α))
    (hc : passOn = true ∨ ∀ t, Ev.cancel t ∉ es)
    (hs : (exec passOn (init : Sched α) es).core.shuttingDown = true) :
    asleep (exec passOn init es) = 0 :=
  (exec_good (passOn := passOn) es hc (s := init)
    (Or.inr (by simp [init])) ⟨Or.inl rfl, fun _ => rfl⟩).shut hs

/-- non-vacuity: two tasks asleep, one item added: one of the two is woken -/
example : let s := exec false (init : Sched Nat) [.get 1, .get 2, .add 7]
    s.core.queue = [7] ∧ s.waiters.length = 2 ∧ woken s = 1 := by decide
example : ∀ t, Ev.cancel t ∉ [(Ev.get 1 : Ev Nat), .get 2, .add 7, .shutDown, .resume 1] := by
  simp
example : (exec false (init : Sched Nat) [.get 1, .get 2, .shutDown]).core.shuttingDown = true := by
  decide
example : woken (exec false (init : Sched Nat) [.get 1, .get 2, .add 7, .resume 1]) = 0 := by
  decide

/-- **C06, the case left out.**  Before CPython 3.13, cancelling a `get` that has just been
woken loses the wake-up: an item waits, a consumer sleeps, nobody is woken. -/
theorem C06_cancelled_get_loses_wakeup :
    ∃ es : List (Ev Nat),
      (exec false init es).core.queue = [7] ∧ asleep (exec false init es) = 1 ∧
      woken (exec false init es) = 0 :=
  ⟨[.get 1, .get 2, .add 7, .cancel 1, .resume 1], by decide⟩

/-- **C04.** What the tasks do is a history of the reference queue, whatever the
interleaving. -/
theorem C04_tasks_refine_reference (passOn : Bool) (es : List (Ev α)) :
    log passOn (init : Sched α) es =
      WorkQueue.Ref.empty.trace ((log passOn (init : Sched α) es).map Prod.fst) := by
  have att : ∀ (s : Sched α) (t : Nat) (o : WorkQueue.Op α × WorkQueue.Out α),
      ((attempt s t).2 = none → (attempt s t).1.core = s.core) ∧
      ((attempt s t).2 = some o →
        o.2 = (WorkQueue.step s.core o.1).2 ∧
        (attempt s t).1.core = (WorkQueue.step s.core o.1).1) := by
    intro s t o
    obtain ⟨⟨d, p, q, sd⟩, ws⟩ := s
    cases q with
    | nil =>
      cases sd <;> simp [attempt, WorkQueue.get]
      rintro rfl; simp [WorkQueue.step, WorkQueue.get]
    | cons x q =>
      simp [attempt, WorkQueue.get]
      rintro rfl; simp [WorkQueue.step, WorkQueue.get]
  have one : ∀ (s : Sched α) (e : Ev α) (o : WorkQueue.Op α × WorkQueue.Out α),
      ((step passOn s e).2 = none → (step passOn s e).1.core = s.core) ∧
      ((step passOn s e).2 = some o →
        o.2 = (WorkQueue.step s.core o.1).2 ∧
        (step passOn s e).1.core = (WorkQueue.step s.core o.1).1) := by
    intro s e o
    cases e with
    | add x => simp only [step]; constructor <;> intro h <;> cases h; exact ⟨rfl, rfl⟩
    | done x => simp only [step]; constructor <;> intro h <;> cases h; exact ⟨rfl, rfl⟩
    | shutDown => simp only [step]; constructor <;> intro h <;> cases h; exact ⟨rfl, rfl⟩
    | cancel t => simp [step]
    | get t =>
      simp only [step]
      split
      · simp
      · exact att s t o
    | resume t =>
      simp only [step]
      split
      · simp
      · split
        · simp
        · exact att _ t o
  have main : ∀ (s : Sched α),
      log passOn s es = WorkQueue.trace s.core ((log passOn s es).map Prod.fst) := by
    induction es with
    | nil => intro s; rfl
    | cons e es ih =>
      intro s
      have h1 := one s e
      simp only [log]
      cases h : (step passOn s e).2 with
      | none =>
        have h3 := (h1 (.len, .ok)).1 h
        simp only [Option.toList_none, List.nil_append]
        rw [← h3]
        exact ih _
      | some o =>
        obtain ⟨h3, h4⟩ := (h1 o).2 h
        simp only [Option.toList_some, List.singleton_append, List.map_cons, WorkQueue.trace]
        rw [← h3, ← h4, ← ih]
  rw [← WorkQueue.sim_trace WorkQueue.sim_init]
  exact main init

end Aiok8s.WorkQueueSched
