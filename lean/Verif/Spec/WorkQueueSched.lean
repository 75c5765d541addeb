import Verif.Model.WorkQueueSched
/-!
# Specification vocabulary for the tasks in `get` of the work queue
-/
namespace Aiok8s.WorkQueueSched
variable {α : Type} [DecidableEq α]

/-- The tasks that call `get`, in the order of their calls. -/
def callers (passOn : Bool) (s : Sched α) : List (Ev α) → List Nat
  | [] => []
  | e :: es =>
    (match e with
      | .get t => if t ∈ s.waiters.map Waiter.task then [] else [t]
      | _ => []) ++ callers passOn (step passOn s e).1 es

/-- The tasks whose `get` returns, in that order, with what it returns. -/
def answers (passOn : Bool) (s : Sched α) : List (Ev α) → List (Nat × WorkQueue.Out α)
  | [] => []
  | e :: es =>
    (match e, (step passOn s e).2 with
      | .get t, some r => [(t, r.2)]
      | .resume t, some r => [(t, r.2)]
      | _, _ => []) ++ answers passOn (step passOn s e).1 es

/-- No task calls `get` while a woken one has not run yet, woken tasks run in the order in which they wait, and
none is cancelled. -/
def Orderly (passOn : Bool) (s : Sched α) : List (Ev α) → Prop
  | [] => True
  | e :: es =>
    (match e with
      | .get _ => ∀ w ∈ s.waiters, w.woken = false
      | .resume t => (s.waiters.find? (fun w => w.woken)).map Waiter.task = some t
      | .cancel _ => False
      | _ => True) ∧ Orderly passOn (step passOn s e).1 es

end Aiok8s.WorkQueueSched
