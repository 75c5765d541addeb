import Verif.Model.DeltaFifo
/-!
# The lock of `DeltaFIFO`

In `Verif.Model.DeltaFifo` every call is one step.  Here each call is taken apart: a task waits for the lock of
`self._cond`, a `pop` sleeps in `self._cond.wait()` or awaits its callback with the lock held, and any number of
tasks do so in any order (who gets the lock next is left open).  The callback may itself call methods of the queue.
The methods that take no lock (`list`, `list_keys`, `get`, `get_by_key`, `has_synced`, `is_closed`) can be called at
any moment.  `asyncio.Lock` is not reentrant: a task that waits for a lock it holds waits until it is cancelled.
-/
namespace Aiok8s.DeltaLock
open Aiok8s.DeltaFifo (Obj Deltas Known Outcome Out Op keyOf)

variable {K O : Type} [DecidableEq K]

/-- The calls that run under `async with self._cond` (`delta_fifo.py` lines 37, 42, 48, 79, 133, 141, 169, 176). -/
def locks : Op K O → Bool
  | .list | .listKeys | .get _ | .getByKey _ | .hasSynced | .isClosed => false
  | _ => true

/-- What `delete` and `add_if_not_present` raise before they ask for the lock (`delta_fifo.py` lines 47 and 166-168). -/
def refused (key : O → Option K) : Op K O → Option (Out K O)
  | .delete _ x => if (keyOf key x).isNone then some .keyFunc else none
  | .addIfNotPresent ds =>
    match ds.getLast? with
    | none => some .attributeError
    | some d => if (keyOf key d.object).isNone then some .keyFunc else none
  | _ => none

/-- `self._known_objects` is asked under the lock (`delta_fifo.py` lines 55, 102, 108, 136 and 220): what it answers
is known when the lock has been taken. -/
def withKnown (kn : Option (Known K O)) : Op K O → Op K O
  | .delete _ x => .delete kn x
  | .replace _ xs => .replace kn xs
  | .resync _ => .resync kn
  | o => o

/-- `delta_fifo.py` lines 142-152: `pop` until it has an item; `none`: the queue is empty.  The second argument is
`self._queue`, the third counts the entries without deltas. -/
def take (s : DeltaFifo.State K O) : List K → Nat → DeltaFifo.State K O × Option (K × Deltas K O × Nat)
  | [], skipped => ({ s with queue := [], count := s.count - skipped }, none)
  | k :: queue, skipped =>
    match s.items.get? k with
    | none => take s queue (skipped + 1)
    | some ds => ({ s with
        queue := queue
        count := s.count - (skipped + 1)
        items := s.items.del k }, some (k, ds, skipped))

/-- Where a task is. -/
inductive Status (K O : Type) where
  /-- not in a call -/
  | idle
  /-- waits for the lock at the beginning of a call -/
  | waiting (o : Op K O)
  /-- in `self._cond.wait()` (`delta_fifo.py` line 146), without the lock -/
  | sleeping
  /-- has been notified or cancelled there and waits for the lock again -/
  | waking (cancelled : Bool)
  /-- awaits `process(item)` (`delta_fifo.py` line 154) with the lock held -/
  | processing (k : K) (ds : Deltas K O) (skipped : Nat)
  /-- the callback waits for the lock, which its own task holds -/
  | stuck (k : K) (ds : Deltas K O) (skipped : Nat) (o : Op K O)

/-- The queue, who holds the lock over an await, and where the tasks are. -/
structure State (K O : Type) where
  core : DeltaFifo.State K O
  holder : Option Nat
  tasks : Nat → Status K O

/-- A new queue. -/
def init {K O : Type} : State K O := ⟨DeltaFifo.init, none, fun _ => .idle⟩

/-- What can happen. -/
inductive Ev (K O : Type) where
  /-- task `t` calls a method (the outcome given with `pop` is not looked at) -/
  | call (t : Nat) (o : Op K O)
  /-- task `t` gets the lock; what `self._known_objects` answers then -/
  | acquire (t : Nat) (kn : Option (Known K O))
  /-- the callback of the `pop` of task `t` ends -/
  | finish (t : Nat) (r : Outcome)
  /-- the callback of the `pop` of task `t` calls a method -/
  | inner (t : Nat) (o : Op K O)
  /-- task `t` is cancelled; a callback is free to end or to go on -/
  | cancel (t : Nat)

/-- What is seen from outside. -/
inductive Seen (K O : Type) where
  | called (t : Nat) (o : Op K O)
  /-- a call that took the lock returns or raises -/
  | done (t : Nat) (o : Op K O) (a : Out K O)
  /-- a call that takes no lock, or raises before it asks for it, returns or raises -/
  | read (t : Nat) (o : Op K O) (a : Out K O)
  /-- `pop` found nothing and goes to sleep -/
  | slept (t : Nat)
  /-- a callback of task `t` gets an answer -/
  | innerRead (t : Nat) (o : Op K O) (a : Out K O)
  /-- `CancelledError` from waiting for the lock or a notification -/
  | cancelled (t : Nat)

/-- Set the status of a task. -/
def put (f : Nat → Status K O) (t : Nat) (x : Status K O) : Nat → Status K O := fun u => if u = t then x else f u

/-- `self._cond.notify_all()` (`delta_fifo.py` lines 178, 198 and 214). -/
def wake (b : Bool) (f : Nat → Status K O) : Nat → Status K O := fun u =>
  match b, f u with
  | true, .sleeping => .waking false
  | _, x => x

/-- `delta_fifo.py` lines 142-154: an attempt of `pop`, with the lock. -/
def attempt (s : State K O) (t : Nat) : State K O × List (Seen K O) :=
  match take s.core s.core.queue 0 with
  | (core, some (k, ds, n)) => (⟨core, some t, put s.tasks t (.processing k ds n)⟩, [])
  | (core, none) =>
    if core.closed then (⟨core, none, put s.tasks t .idle⟩, [.done t (.pop .ok) .closedError])
    else (⟨core, none, put s.tasks t .sleeping⟩, [.slept t])

/-- `delta_fifo.py` lines 155-157 and 192-198: whether the end of a callback notifies. -/
def finishNotifies (s : DeltaFifo.State K O) (k : K) : Outcome → Bool
  | .requeue _ => !s.items.has k
  | _ => false

/-- One event; `none`: it cannot happen now (`delta_fifo.py` lines 36-190). -/
def step (key : O → Option K) (s : State K O) : Ev K O → Option (State K O × List (Seen K O))
  | .call t o =>
    match s.tasks t with
    | .idle =>
      if locks o then
        match refused key o with
        | some a => some (s, [.called t o, .read t o a])
        | none => some ({ s with tasks := put s.tasks t (.waiting o) }, [.called t o])
      else some (s, [.called t o, .read t o (DeltaFifo.step key s.core o).2])
    | _ => none
  | .acquire t kn =>
    match s.holder, s.tasks t with
    | none, .waiting (.pop _) | none, .waking false => some (attempt s t)
    | none, .waiting o =>
      let o := withKnown kn o
      let r := DeltaFifo.step key s.core o
      some (⟨r.1, none, put (wake (DeltaFifo.notifies key s.core o) s.tasks) t .idle⟩, [.done t o r.2])
    | none, .waking true => some ({ s with tasks := put s.tasks t .idle }, [.cancelled t])
    | _, _ => none
  | .finish t r =>
    match s.tasks t with
    | .processing k ds n =>
      let x := DeltaFifo.finish s.core k ds n r
      some (⟨x.1, none, put (wake (finishNotifies s.core k r) s.tasks) t .idle⟩, [.done t (.pop r) x.2])
    | _ => none
  | .inner t o =>
    match s.tasks t with
    | .processing k ds n =>
      if locks o then
        match refused key o with
        | some a => some (s, [.innerRead t o a])
        | none => some ({ s with tasks := put s.tasks t (.stuck k ds n o) }, [])
      else some (s, [.innerRead t o (DeltaFifo.step key s.core o).2])
    | _ => none
  | .cancel t =>
    match s.tasks t with
    | .waiting _ => some ({ s with tasks := put s.tasks t .idle }, [.cancelled t])
    | .sleeping | .waking _ => some ({ s with tasks := put s.tasks t (.waking true) }, [])
    | .stuck k ds n _ => some ({ s with tasks := put s.tasks t (.processing k ds n) }, [])
    | .idle | .processing _ _ _ => some (s, [])

/-- A sequence of events. -/
def run (key : O → Option K) (s : State K O) : List (Ev K O) → Option (State K O × List (Seen K O))
  | [] => some (s, [])
  | e :: es =>
    match step key s e with
    | none => none
    | some (s, seen) =>
      match run key s es with
      | none => none
      | some (s, more) => some (s, seen ++ more)

end Aiok8s.DeltaLock
