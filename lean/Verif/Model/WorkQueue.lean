import Verif.Model.PyDict
/-!
# `aiok8s/workqueue/queue.py`: class `Type`

Every method body runs under `self._cond`'s lock and contains no `await` that suspends while
the lock is held, except `self._cond.wait()` in `get`, which releases the lock.  So each call
is one atomic step, and a `get` is a sequence of atomic attempts, each of which either
finishes or goes (back) to sleep.  Here a sleeping attempt is the output `blocked`; the
sleeping and waking of tasks is modelled in `Verif.Model.WorkQueueSched`.
-/
namespace Aiok8s.WorkQueue

/-- `queue.py` lines 29-36: the attributes set by `Type.__init__`.  The clock and the update
period are stored but never read by the class and are left out. -/
structure State (α : Type) where
  /-- `self._dirty` (a set) -/
  dirty : List α
  /-- `self._processing` (a set) -/
  processing : List α
  /-- `self._queue` (a deque, left end first) -/
  queue : List α
  /-- `self._shutting_down` -/
  shuttingDown : Bool
deriving Repr, DecidableEq

/-- `queue.py` lines 29-36: a new queue. -/
def init {α : Type} : State α := ⟨[], [], [], false⟩

/-- The public calls (`queue.py` lines 38, 41, 53, 64, 71, 76). -/
inductive Op (α : Type) where
  | len
  | add (x : α)
  | get
  | done (x : α)
  | shutDown
  | isShuttingDown
deriving Repr, DecidableEq

/-- What a call returns or raises. -/
inductive Out (α : Type) where
  /-- returned `None` -/
  | ok
  /-- `len(q)` -/
  | num (n : Nat)
  /-- a boolean -/
  | flag (b : Bool)
  /-- `get()` returned `(x, False)` -/
  | item (x : α)
  /-- `get()` returned `(None, True)` -/
  | quit
  /-- `get()` went to sleep in `self._cond.wait()` -/
  | blocked
  /-- `done()` raised `KeyError` -/
  | keyError
deriving Repr, DecidableEq

variable {α : Type} [DecidableEq α]

/-- `queue.py` lines 38-39: `__len__`. -/
def len (s : State α) : Nat := s.queue.length

/-- `queue.py` lines 41-51: `add`.  (The `notify()` of line 51 is in `WorkQueueSched`.) -/
def add (s : State α) (x : α) : State α :=
  if s.shuttingDown then s
  else if x ∈ s.dirty then s
  else
    let s := { s with dirty := PySet.add s.dirty x }
    if x ∈ s.processing then s
    else { s with queue := s.queue ++ [x] }

/-- `queue.py` lines 53-62: one pass of `get` under the lock (line 55's loop condition is
evaluated once; `blocked` means the task is at line 56). -/
def get (s : State α) : State α × Out α :=
  match s.queue with
  | [] => if s.shuttingDown then (s, .quit) else (s, .blocked)
  | x :: rest =>
    ({ s with
        queue := rest
        processing := PySet.add s.processing x
        dirty := PySet.remove s.dirty x }, .item x)

/-- `queue.py` lines 64-69: `done`; `set.remove` raises `KeyError` for an absent item before
anything else happens. -/
def done (s : State α) (x : α) : State α × Out α :=
  if x ∈ s.processing then
    let s := { s with processing := PySet.remove s.processing x }
    if x ∈ s.dirty then ({ s with queue := s.queue ++ [x] }, .ok)
    else (s, .ok)
  else (s, .keyError)

/-- `queue.py` lines 71-74: `shut_down`. -/
def shutDown (s : State α) : State α := { s with shuttingDown := true }

/-- One call. -/
def step (s : State α) : Op α → State α × Out α
  | .len => (s, .num (len s))
  | .add x => (add s x, .ok)
  | .get => get s
  | .done x => done s x
  | .shutDown => (shutDown s, .ok)
  | .isShuttingDown => (s, .flag s.shuttingDown)

/-- The state after a sequence of calls. -/
def exec (s : State α) : List (Op α) → State α
  | [] => s
  | o :: os => exec (step s o).1 os

/-- The calls of a history together with what they returned. -/
def trace (s : State α) : List (Op α) → List (Op α × Out α)
  | [] => []
  | o :: os => (o, (step s o).2) :: trace (step s o).1 os

end Aiok8s.WorkQueue
