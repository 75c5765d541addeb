import Verif.Spec.WorkQueueSched
/-!
# Property C97: tasks in `get` are served in the order of their calls (`aiok8s/workqueue/queue.py`)

False: `notify()` only makes the first waiting task run again later; a task that calls `get` before that takes
the item, and the woken task goes to the end of the line.
-/
set_option linter.unusedSimpArgs false
namespace Aiok8s.WorkQueueSched
open Aiok8s
variable {α : Type} [DecidableEq α]

private def passed (x : α) : List (Ev α) := [.add x, .get 1, .resume 0, .done x]

/-- **C97, refuted.** For every number `n` there is a run in which task 0 is the first to call `get`, `n` items
are added afterwards and task 0 is woken and runs `n` times, but another task, which calls later, is given all
`n` items and task 0 still waits. -/
theorem C97_refuted_overtaken (passOn : Bool) (x : α) (n : Nat) :
    ∃ es : List (Ev α),
      es.count (.add x) = n ∧ es.count (.resume 0) = n ∧
      callers passOn init es = 0 :: List.replicate n 1 ∧
      answers passOn init es = List.replicate n (1, .item x) ∧
      asleep (exec passOn init es) = 1 := by
  have hrun : ∀ n, ∃ es : List (Ev α), es.count (.add x) = n ∧ es.count (.resume 0) = n ∧
      callers passOn ⟨WorkQueue.init, [⟨0, false, false⟩]⟩ es = List.replicate n 1 ∧
      answers passOn ⟨WorkQueue.init, [⟨0, false, false⟩]⟩ es = List.replicate n (1, .item x) ∧
      exec passOn ⟨WorkQueue.init, [⟨0, false, false⟩]⟩ es = ⟨WorkQueue.init, [⟨0, false, false⟩]⟩ := by
    intro n
    induction n with
    | zero => exact ⟨[], rfl, rfl, rfl, rfl, rfl⟩
    | succ n ih =>
      obtain ⟨es, h1, h2, h3, h4, h5⟩ := ih
      refine ⟨passed x ++ es, ?_, ?_, ?_, ?_, ?_⟩
      · simp [passed, h1]
      · simp [passed, h2]
      · simp [passed, callers, step, WorkQueue.add, WorkQueue.init, addNotifies, notify, attempt, WorkQueue.get,
          PySet.add, PySet.remove, WorkQueue.done, doneNotifies]
        rw [List.replicate_succ]; exact congrArg _ h3
      · simp [passed, answers, step, WorkQueue.add, WorkQueue.init, addNotifies, notify, attempt, WorkQueue.get,
          PySet.add, PySet.remove, WorkQueue.done, doneNotifies]
        rw [List.replicate_succ]; exact congrArg _ h4
      · simp [passed, exec, step, WorkQueue.add, WorkQueue.init, addNotifies, notify, attempt, WorkQueue.get,
          PySet.add, PySet.remove, WorkQueue.done, doneNotifies]
        exact h5
  obtain ⟨es, h1, h2, h3, h4, h5⟩ := hrun n
  refine ⟨.get 0 :: es, by simpa using h1, by simpa using h2, ?_, ?_, ?_⟩
  · simp [callers, step, init, attempt, WorkQueue.get, WorkQueue.init]; exact h3
  · simp [answers, step, init, attempt, WorkQueue.get, WorkQueue.init]; exact h4
  · simp only [exec, step, init, attempt, WorkQueue.get, WorkQueue.init, List.map_nil, List.not_mem_nil, if_false,
      Bool.false_eq_true, List.nil_append]
    exact (congrArg asleep h5).trans rfl

/-- The line: first the woken tasks, of which there are no more than items, then those asleep. -/
private structure Line (s : Sched α) (A B : List Waiter) : Prop where
  split : s.waiters = A ++ B
  awake : ∀ w ∈ A, w.woken = true ∧ w.cancelled = false
  sleep : ∀ w ∈ B, w.woken = false ∧ w.cancelled = false
  items : s.core.shuttingDown = true ∨ A.length ≤ s.core.queue.length
  shut : s.core.shuttingDown = true → B = []
  need : B = [] ∨ s.core.queue.length ≤ A.length

private theorem notify_line {A B : List Waiter} (hA : ∀ w ∈ A, w.woken = true) (hB : ∀ w ∈ B, w.woken = false) :
    notify (A ++ B) = A ++ (match B with | [] => [] | b :: B => { b with woken := true } :: B) := by
  induction A with
  | nil =>
    cases B with
    | nil => rfl
    | cons b B => simp [notify, hB b (by simp)]
  | cons a A ih =>
    simp only [List.cons_append, notify, hA a (by simp), if_true]
    rw [ih (fun w hw => hA w (by simp [hw]))]

private theorem notified {c : WorkQueue.State α} {ws : List Waiter} {A B : List Waiter} {c' : WorkQueue.State α}
    (h : Line ⟨c, ws⟩ A B) (hq : c'.queue.length = c.queue.length + 1) (hs : c'.shuttingDown = c.shuttingDown) :
    (∃ A' B', Line ⟨c', notify ws⟩ A' B') ∧ (notify ws).map Waiter.task = ws.map Waiter.task := by
  obtain ⟨h1, h2, h3, h4, h5, h6⟩ := h
  simp only at h1 h2 h3 h4 h5 h6
  have hn := notify_line (fun w hw => (h2 w hw).1) (fun w hw => (h3 w hw).1)
  cases B with
  | nil =>
    rw [h1, hn]
    simp only [List.append_nil]
    refine ⟨⟨A, [], by simp, h2, by simp, ?_, by simp, by simp⟩, trivial⟩
    simp only [hs]
    rcases h4 with h4 | h4
    · exact .inl h4
    · right; omega
  | cons b B =>
    rw [h1, hn]
    refine ⟨⟨A ++ [{ b with woken := true }], B, by simp, ?_, fun w hw => h3 w (by simp [hw]), ?_, ?_, ?_⟩,
      by simp⟩
    · intro w hw
      rcases List.mem_append.1 hw with hw | hw
      · exact h2 w hw
      · rw [List.mem_singleton.1 hw]; exact ⟨rfl, (h3 b (by simp)).2⟩
    · simp only [hs, List.length_append, List.length_singleton, hq]
      rcases h4 with h4 | h4
      · exact .inl h4
      · right; omega
    · intro h; exact absurd (h5 (hs ▸ h)) (by simp)
    · rcases h6 with h6 | h6
      · cases h6
      · right; simp only [List.length_append, List.length_singleton, hq]; omega

/-- Nothing but the core's bookkeeping changes. -/
private theorem unchanged {c : WorkQueue.State α} {ws : List Waiter} {A B : List Waiter} {c' : WorkQueue.State α}
    (h : Line ⟨c, ws⟩ A B) (hq : c'.queue = c.queue) (hs : c'.shuttingDown = c.shuttingDown) :
    Line ⟨c', ws⟩ A B :=
  ⟨h.split, h.awake, h.sleep, by simpa only [hq, hs] using h.items, by simpa only [hs] using h.shut,
    by simpa only [hq] using h.need⟩

private theorem line_step (passOn : Bool) {s : Sched α} {A B : List Waiter} (h : Line s A B) (e : Ev α)
    (he : Orderly passOn s [e]) :
    (∃ A' B', Line (step passOn s e).1 A' B') ∧
    (answers passOn s [e]).map Prod.fst ++ (step passOn s e).1.waiters.map Waiter.task
      = s.waiters.map Waiter.task ++ callers passOn s [e] := by
  obtain ⟨c, ws⟩ := s
  cases e with
  | add x =>
    simp only [step, answers, callers, List.map_nil, List.nil_append, List.append_nil, addNotifies, WorkQueue.add]
    by_cases h1 : c.shuttingDown = true
    · simp only [h1, if_true, Bool.false_eq_true, if_false]; exact ⟨⟨A, B, h⟩, trivial⟩
    by_cases h2 : x ∈ c.dirty
    · simp only [h1, h2, if_true, Bool.false_eq_true, if_false]; exact ⟨⟨A, B, h⟩, trivial⟩
    by_cases h3 : x ∈ c.processing
    · simp only [h1, h2, h3, if_true, Bool.false_eq_true, if_false]
      exact ⟨⟨A, B, unchanged h rfl (by simp [h1])⟩, trivial⟩
    · simp only [h1, h2, h3, if_true, Bool.false_eq_true, if_false]
      exact notified h (by simp) (by simp [h1])
  | done x =>
    simp only [step, answers, callers, List.map_nil, List.nil_append, List.append_nil, doneNotifies, WorkQueue.done]
    by_cases h1 : x ∈ c.processing
    · by_cases h2 : x ∈ c.dirty
      · simp only [h1, h2, if_true]
        exact notified h (by simp) rfl
      · simp only [h1, h2, if_true, Bool.false_eq_true, if_false]
        exact ⟨⟨A, B, unchanged h rfl rfl⟩, trivial⟩
    · simp only [h1, Bool.false_eq_true, if_false]; exact ⟨⟨A, B, h⟩, trivial⟩
  | shutDown =>
    simp only [step, answers, callers, List.map_nil, List.nil_append, List.append_nil, notifyAll, WorkQueue.shutDown]
    refine ⟨⟨ws.map fun w => { w with woken := true }, [], by simp, ?_, by simp, .inl rfl, by simp, .inl rfl⟩, ?_⟩
    · intro w hw
      obtain ⟨v, hv, rfl⟩ := List.mem_map.1 hw
      refine ⟨rfl, ?_⟩
      rw [show ws = _ from h.split] at hv
      rcases List.mem_append.1 hv with hv | hv
      · exact (h.awake v hv).2
      · exact (h.sleep v hv).2
    · simp [Function.comp_def]
  | cancel t => exact absurd he.1 id
  | get t =>
    have hno : ∀ w ∈ ws, w.woken = false := he.1
    have hA : A = [] := by
      cases A with
      | nil => rfl
      | cons a A =>
        have h1 := (h.awake a (by simp)).1
        rw [hno a (by rw [show ws = _ from h.split]; simp)] at h1
        cases h1
    subst hA
    simp only [step, answers, callers]
    by_cases ht : t ∈ ws.map Waiter.task
    · simp only [ht, if_true, List.append_nil, List.map_nil, List.nil_append]
      exact ⟨⟨_, _, h⟩, trivial⟩
    · simp only [ht, if_false, List.append_nil, attempt, WorkQueue.get]
      cases hq : c.queue with
      | nil =>
        by_cases hs : c.shuttingDown = true
        · simp only [hs, if_true]
          have hB := h.shut hs
          subst hB
          have hw : ws = [] := h.split
          subst hw
          exact ⟨⟨_, _, h⟩, rfl⟩
        · simp only [hs, if_false, Bool.false_eq_true, List.map_nil, List.nil_append, List.map_append, List.map_cons]
          refine ⟨⟨[], B ++ [⟨t, false, false⟩], ?_, by simp, ?_, .inr (by simp), ?_, .inr ?_⟩, trivial⟩
          · rw [show ws = _ from h.split]; simp
          · intro w hw
            rcases List.mem_append.1 hw with hw | hw
            · exact h.sleep w hw
            · rw [List.mem_singleton.1 hw]; exact ⟨rfl, rfl⟩
          · intro h'; exact absurd h' hs
          · simp [hq]
      | cons x rest =>
        simp only
        have hB : B = [] := by
          rcases h.need with h | h
          · exact h
          · simp [hq] at h
        subst hB
        have hw : ws = [] := h.split
        subst hw
        exact ⟨⟨[], [], rfl, by simp, by simp, .inr (by simp), by simp, .inl rfl⟩, rfl⟩
  | resume t =>
    have hf : (ws.find? (fun w => w.woken)).map Waiter.task = some t := he.1
    rw [show ws = _ from h.split] at hf
    cases A with
    | nil =>
      exfalso
      obtain ⟨w, hw, -⟩ := Option.map_eq_some_iff.1 hf
      have h1 := List.find?_some hw
      have h2 := List.mem_of_find?_eq_some hw
      simp only [List.nil_append] at h2
      rw [(h.sleep w h2).1] at h1
      cases h1
    | cons a A =>
      obtain ⟨ha, hac⟩ := h.awake a (by simp)
      simp only [List.cons_append, List.find?_cons, ha, Option.map_some, Option.some.injEq] at hf
      have hfind : ws.find? (fun w => w.task == t && w.woken) = some a := by
        rw [show ws = _ from h.split]
        simp [List.find?_cons, ha, hf]
      have herase : ws.erase a = A ++ B := by rw [show ws = _ from h.split]; simp
      simp only [step, answers, callers, hfind, hac, Bool.false_eq_true, if_false, herase, attempt, WorkQueue.get,
        List.append_nil]
      have hmap : ws.map Waiter.task = t :: (A ++ B).map Waiter.task := by
        rw [show ws = _ from h.split]; simp [hf]
      rw [hmap]
      cases hq : c.queue with
      | nil =>
        by_cases hs : c.shuttingDown = true
        · simp only [hs, if_true]
          have hB := h.shut hs
          subst hB
          exact ⟨⟨A, [], rfl, fun w hw => h.awake w (by simp [hw]), by simp, .inl hs, by simp, .inl rfl⟩, rfl⟩
        · exfalso
          rcases h.items with h' | h'
          · exact hs h'
          · simp [hq] at h'
      | cons x rest =>
        simp only
        refine ⟨⟨A, B, rfl, fun w hw => h.awake w (by simp [hw]), h.sleep, ?_, h.shut, ?_⟩, rfl⟩
        · rcases h.items with h' | h'
          · exact .inl h'
          · right; simp only [hq, List.length_cons] at h'; simp only; omega
        · rcases h.need with h' | h'
          · exact .inl h'
          · right; simp only [hq, List.length_cons] at h'; simp only; omega

/-- **C97.** If no task calls `get` while a woken one has not run yet, woken tasks run in the order in which they
wait, and none is cancelled, then the calls of `get` return in the order in which they were made: those that
have returned, followed by those that wait, are all calls.  Missing: runs in which a task calls `get` between
the waking of another and its running. -/
theorem C97_in_order_partial (passOn : Bool) (es : List (Ev α)) (h : Orderly passOn init es) :
    (answers passOn init es).map Prod.fst ++ (exec passOn init es).waiters.map Waiter.task
      = callers passOn init es := by
  have key : ∀ (es : List (Ev α)) (s : Sched α) (A B : List Waiter), Line s A B → Orderly passOn s es →
      (answers passOn s es).map Prod.fst ++ (exec passOn s es).waiters.map Waiter.task
        = s.waiters.map Waiter.task ++ callers passOn s es := by
    intro es
    induction es with
    | nil => intro s A B _ _; simp [answers, callers, exec]
    | cons e es ih =>
      intro s A B hl ho
      obtain ⟨⟨A', B', hl'⟩, h1⟩ := line_step passOn hl e ⟨ho.1, trivial⟩
      have h2 := ih _ A' B' hl' ho.2
      have ha : answers passOn s (e :: es) = answers passOn s [e] ++ answers passOn (step passOn s e).1 es := by
        simp [answers]
      have hc : callers passOn s (e :: es) = callers passOn s [e] ++ callers passOn (step passOn s e).1 es := by
        simp [callers]
      rw [ha, hc, List.map_append, List.append_assoc]
      simp only [exec]
      rw [h2, ← List.append_assoc, h1, List.append_assoc]
  have := key es init [] [] ⟨rfl, by simp, by simp, .inr (by simp), by simp, .inl rfl⟩ h
  simpa [init] using this

/-- Three tasks come to wait, two items are added, and the woken tasks run; then a third item is added. -/
example : Orderly false (init : Sched Nat)
      [.get 1, .get 2, .get 3, .add 7, .add 8, .resume 1, .resume 2, .get 4, .add 9, .resume 3] ∧
    answers false (init : Sched Nat)
      [.get 1, .get 2, .get 3, .add 7, .add 8, .resume 1, .resume 2, .get 4, .add 9, .resume 3]
      = [(1, .item 7), (2, .item 8), (3, .item 9)] := by
  simp [Orderly, answers, step, init, WorkQueue.add, WorkQueue.init, addNotifies, notify, attempt, WorkQueue.get,
    PySet.add, PySet.remove, List.find?, List.erase]

end Aiok8s.WorkQueueSched
