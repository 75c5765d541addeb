/-!
# `aiok8s/watch/watch.py`: class `FakeWatcher`

`reset` makes a new queue and a new stop task together; both have the number of resets before as their number.
`__anext__` starts a task for `self._result.get()` and waits for it or for the stop task of that moment.  A task
that waits for the event `_stopped` ends when it is set, also if it is cleared before the task runs.

Calls of `action` and `reset` (`users`) and of `__anext__` (`readers`) are numbered in the order in which they are
made.  The waiters for the lock may get it in any order (asyncio gives it to the first).  The first step of the
task for `get()` is taken together with the call of `__anext__`: it comes before `asyncio.wait` can return.
-/
namespace Aiok8s.FakeWatcher

/-- A queue: `asyncio.Queue` without bound; `unfinished` is its counter for `join`. -/
structure Queue (V : Type) where
  items : List V
  unfinished : Nat

/-- A call of `action` (lines 79-82) or `reset` (lines 61-65). -/
inductive User (V : Type) where
  /-- waits for the lock to put an event -/
  | sending (v : V)
  /-- has put it and is in `join` -/
  | joining (v : V)
  | sent (v : V)
  /-- waits for the lock to reset -/
  | resetting
  | reset
  | cancelled

/-- A call of `__anext__` (lines 37-48). -/
inductive Reader (V : Type) where
  /-- waits, for queue `q` and stop task `t`; `got` is the result of the task for `get()` -/
  | waiting (q t : Nat) (got : Option V)
  | returned (v : V)
  /-- `StopAsyncIteration` -/
  | ended
  /-- `ValueError` of `task_done` -/
  | failed
  /-- cancelled; the task for `get()` is still there -/
  | orphan (q : Nat) (got : Option V)

/-- Lines 28-32. -/
structure State (V : Type) where
  /-- `self._stopped` -/
  stopped : Bool
  /-- the number of `self._task` and `self._result` -/
  gen : Nat
  /-- the stop tasks below this number have ended -/
  fired : Nat
  queues : Nat → Queue V
  /-- the holder of `self._mutex` -/
  mutex : Option Nat
  users : List (User V)
  readers : List (Reader V)

/-- Lines 85-86: `new_fake`, and lines 28-32. -/
def init {V : Type} : State V := ⟨false, 0, 0, fun _ => ⟨[], 0⟩, none, [], []⟩

inductive Ev (V : Type) where
  /-- a call of `action` (`add`, `modify`, `delete`, `error`) -/
  | send (v : V)
  /-- a call of `reset` -/
  | reset
  /-- user `i` gets the lock -/
  | acquire (i : Nat)
  /-- the `join` of user `i` ends -/
  | joined (i : Nat)
  /-- user `i` is cancelled -/
  | cancelUser (i : Nat)
  /-- a call of `__anext__` -/
  | next
  /-- the task for `get()` of reader `r` takes an item -/
  | take (r : Nat)
  /-- `asyncio.wait` returns in reader `r` -/
  | wake (r : Nat)
  /-- reader `r` is cancelled -/
  | cancelReader (r : Nat)
  /-- `stop` -/
  | stop

/-- What callers see. -/
inductive Log (V : Type) where
  /-- the call of `action` number `i` returned -/
  | sent (i : Nat)
  /-- a call of `__anext__` returned `v` -/
  | got (v : V)
  /-- a call of `__anext__` raised `StopAsyncIteration` -/
  | ended
  /-- a call of `reset` returned -/
  | resetDone
deriving DecidableEq

variable {V : Type}

/-- Change queue `n`. -/
def setQueue (qs : Nat → Queue V) (n : Nat) (q : Queue V) : Nat → Queue V :=
  fun m => if m = n then q else qs m

/-- Lines 80-81 and 62-65: with the lock. -/
def acquire (s : State V) (i : Nat) : State V × List (Log V) :=
  match s.mutex, s.users[i]? with
  | none, some (.sending v) =>
    ({ s with
      mutex := some i
      queues := setQueue s.queues s.gen
        ⟨(s.queues s.gen).items ++ [v], (s.queues s.gen).unfinished + 1⟩
      users := s.users.set i (.joining v) }, [])
  | none, some .resetting =>
    ({ s with
      stopped := false
      gen := s.gen + 1
      queues := setQueue s.queues (s.gen + 1) ⟨[], 0⟩
      users := s.users.set i .reset }, [.resetDone])
  | _, _ => (s, [])

/-- Line 82: the end of `join`, and the lock is released. -/
def joined (s : State V) (i : Nat) : State V × List (Log V) :=
  match s.users[i]? with
  | some (.joining v) =>
    if (s.queues s.gen).unfinished = 0 then
      ({ s with mutex := none, users := s.users.set i (.sent v) }, [.sent i])
    else (s, [])
  | _ => (s, [])

/-- A `CancelledError` in `action` or `reset`; the lock is released. -/
def cancelUser (s : State V) (i : Nat) : State V :=
  match s.users[i]? with
  | some (.sending _) => { s with users := s.users.set i .cancelled }
  | some .resetting => { s with users := s.users.set i .cancelled }
  | some (.joining _) => { s with mutex := none, users := s.users.set i .cancelled }
  | _ => s

/-- Lines 38-41. -/
def next (s : State V) : State V :=
  match (s.queues s.gen).items with
  | [] => { s with readers := s.readers ++ [.waiting s.gen s.gen none] }
  | v :: rest =>
    { s with
      queues := setQueue s.queues s.gen ⟨rest, (s.queues s.gen).unfinished⟩
      readers := s.readers ++ [.waiting s.gen s.gen (some v)] }

/-- The task for `get()`. -/
def take (s : State V) (r : Nat) : State V :=
  match s.readers[r]? with
  | some (.waiting q t none) => match (s.queues q).items with
    | [] => s
    | v :: rest =>
      { s with
        queues := setQueue s.queues q ⟨rest, (s.queues q).unfinished⟩
        readers := s.readers.set r (.waiting q t (some v)) }
  | some (.orphan q none) => match (s.queues q).items with
    | [] => s
    | v :: rest =>
      { s with
        queues := setQueue s.queues q ⟨rest, (s.queues q).unfinished⟩
        readers := s.readers.set r (.orphan q (some v)) }
  | _ => s

/-- Lines 40-48. -/
def wake (s : State V) (r : Nat) : State V × List (Log V) :=
  match s.readers[r]? with
  | some (.waiting q t got) =>
    match got with
    | some v =>
      -- lines 43-45; `task_done` of the present queue
      if (s.queues s.gen).unfinished = 0 then ({ s with readers := s.readers.set r .failed }, [])
      else
        ({ s with
          queues := setQueue s.queues s.gen
            ⟨(s.queues s.gen).items, (s.queues s.gen).unfinished - 1⟩
          readers := s.readers.set r (.returned v) }, [.got v])
    | none =>
      if t < s.fired then
        -- lines 46-48
        if s.stopped then ({ s with readers := s.readers.set r .ended }, [.ended])
        else ({ s with readers := s.readers.set r (.waiting q s.gen none) }, [])
      else (s, [])
  | _ => (s, [])

/-- One step; a step that is not possible changes nothing. -/
def step (s : State V) : Ev V → State V × List (Log V)
  | .send v => ({ s with users := s.users ++ [.sending v] }, [])
  | .reset => ({ s with users := s.users ++ [.resetting] }, [])
  | .acquire i => acquire s i
  | .joined i => joined s i
  | .cancelUser i => (cancelUser s i, [])
  | .next => (next s, [])
  | .take r => (take s r, [])
  | .wake r => wake s r
  | .cancelReader r => match s.readers[r]? with
    | some (.waiting q _ got) => ({ s with readers := s.readers.set r (.orphan q got) }, [])
    | _ => (s, [])
  -- lines 56-58
  | .stop => ({ s with stopped := true, fired := s.gen + 1 }, [])

/-- The state after a sequence of steps. -/
def exec (s : State V) : List (Ev V) → State V
  | [] => s
  | e :: es => exec (step s e).1 es

/-- What callers see in a sequence of steps. -/
def logOf (s : State V) : List (Ev V) → List (Log V)
  | [] => []
  | e :: es => (step s e).2 ++ logOf (step s e).1 es

end Aiok8s.FakeWatcher
