import Verif.Model.WorkQueue
/-!
# `aiok8s/workqueue/queue.py`: tasks sleeping in `self._cond.wait()`

The atomic calls are those of `Verif.Model.WorkQueue`; this file adds the tasks blocked in
`get` (line 56) and the wake-ups of lines 51, 69 and 74.

Facts about `asyncio.Condition` used here: `wait()` appends a future to `_waiters`, releases
the lock and awaits the future; `notify()` completes the first future in `_waiters` that is
not done; `notify_all()` completes all; the entry leaves `_waiters` when its task runs again.
Cancelling a sleeping task cancels its future, so `notify` skips it; cancelling a task whose
future is already completed makes the task raise when it runs again.  Before CPython 3.13 the
wake-up it had received is then lost; from 3.13 on `wait()` calls `notify(1)` when it leaves
with an exception.  `passOn` selects between the two.  The lock is never held while a task is
suspended, so re-acquiring it never waits.
-/
namespace Aiok8s.WorkQueueSched
open Aiok8s

/-- An entry of `self._cond._waiters`: a task in `get` at `queue.py` line 56. -/
structure Waiter where
  task : Nat
  /-- the future is completed (or cancelled): the task will run again -/
  woken : Bool
  /-- the task was cancelled and will raise when it runs again -/
  cancelled : Bool
deriving Repr, DecidableEq

/-- The queue of `queue.py` lines 29-36 with the waiters of `self._cond` (line 33). -/
structure Sched (α : Type) where
  core : WorkQueue.State α
  waiters : List Waiter
deriving Repr, DecidableEq

/-- `queue.py` lines 29-36. -/
def init {α : Type} : Sched α := ⟨WorkQueue.init, []⟩

/-- What the tasks and the event loop can do next. -/
inductive Ev (α : Type) where
  /-- some task runs `add(x)` -/
  | add (x : α)
  /-- task `t` calls `get()` -/
  | get (t : Nat)
  /-- some task runs `done(x)` -/
  | done (x : α)
  /-- some task runs `shut_down()` -/
  | shutDown
  /-- the event loop runs the woken task `t` again -/
  | resume (t : Nat)
  /-- somebody cancels task `t` while it is in `get` -/
  | cancel (t : Nat)
deriving Repr, DecidableEq

/-- `asyncio.Condition.notify(1)` as called in `queue.py` lines 51 and 69. -/
def notify : List Waiter → List Waiter
  | [] => []
  | w :: ws => if w.woken then w :: notify ws else { w with woken := true } :: ws

/-- `asyncio.Condition.notify_all()` as called in `queue.py` line 74. -/
def notifyAll (ws : List Waiter) : List Waiter := ws.map fun w => { w with woken := true }

variable {α : Type} [DecidableEq α]

/-- `queue.py` lines 41-51: does `add(x)` reach the `notify()` of line 51? -/
def addNotifies (s : WorkQueue.State α) (x : α) : Bool :=
  if s.shuttingDown then false
  else if x ∈ s.dirty then false
  else if x ∈ s.processing then false
  else true

/-- `queue.py` lines 64-69: does `done(x)` reach the `notify()` of line 69? -/
def doneNotifies (s : WorkQueue.State α) (x : α) : Bool :=
  if x ∈ s.processing then (if x ∈ s.dirty then true else false) else false

/-- `queue.py` lines 55-62: task `t`, holding the lock, is at the loop condition. -/
def attempt (s : Sched α) (t : Nat) : Sched α × Option (WorkQueue.Op α × WorkQueue.Out α) :=
  let r := WorkQueue.get s.core
  match r.2 with
  | .blocked => ({ s with waiters := s.waiters ++ [⟨t, false, false⟩] }, none)
  | o => ({ s with core := r.1 }, some (.get, o))

/-- One step; the second component is the call that took effect with its result, if any.
Moves that are impossible in the current state change nothing. -/
def step (passOn : Bool) (s : Sched α) :
    Ev α → Sched α × Option (WorkQueue.Op α × WorkQueue.Out α)
  | .add x =>
    (⟨WorkQueue.add s.core x,
      if addNotifies s.core x then notify s.waiters else s.waiters⟩, some (.add x, .ok))
  | .get t =>
    if t ∈ s.waiters.map Waiter.task then (s, none) else attempt s t
  | .done x =>
    (⟨(WorkQueue.done s.core x).1,
      if doneNotifies s.core x then notify s.waiters else s.waiters⟩,
      some (.done x, (WorkQueue.done s.core x).2))
  | .shutDown => (⟨WorkQueue.shutDown s.core, notifyAll s.waiters⟩, some (.shutDown, .ok))
  | .resume t =>
    match s.waiters.find? (fun w => w.task == t && w.woken) with
    | none => (s, none)
    | some w =>
      let rest := s.waiters.erase w
      if w.cancelled then
        ({ s with waiters := if passOn then notify rest else rest }, none)
      else attempt { s with waiters := rest } t
  | .cancel t =>
    ({ s with waiters := s.waiters.map fun w =>
        if w.task = t then { w with woken := true, cancelled := true } else w }, none)

/-- The state after a sequence of steps. -/
def exec (passOn : Bool) (s : Sched α) : List (Ev α) → Sched α
  | [] => s
  | e :: es => exec passOn (step passOn s e).1 es

/-- The calls that took effect, in order, with their results. -/
def log (passOn : Bool) (s : Sched α) : List (Ev α) → List (WorkQueue.Op α × WorkQueue.Out α)
  | [] => []
  | e :: es => (step passOn s e).2.toList ++ log passOn (step passOn s e).1 es

/-- How many tasks are blocked in `get` without having been woken. -/
def asleep (s : Sched α) : Nat := s.waiters.countP fun w => !w.woken

/-- How many tasks blocked in `get` have been woken and will run again. -/
def woken (s : Sched α) : Nat := s.waiters.countP fun w => w.woken

end Aiok8s.WorkQueueSched
