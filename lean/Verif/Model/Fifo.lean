import Verif.Model.PyDict
import Verif.Model.Store
import Verif.Model.Monitor
/-!
# `aiok8s/cache/fifo.py`: class `FIFO`

The bodies under `self._lock` contain no suspending await except `self._cond.wait()`
(`process` is called synchronously), so a call is one atomic step and `pop` is a sequence of
atomic attempts.  A sleeping attempt is the answer `blocked`; tasks that sleep and wake up are
modelled in `Verif.Model.Monitor`.
-/
namespace Aiok8s.Fifo
open Aiok8s.Store (buildItems)

/-- `fifo.py` lines 34-42: the attributes of `FIFO` (lock, condition and key function left
out). -/
structure State (K O : Type) where
  /-- `self._items` -/
  items : PyDict K O
  /-- `self._queue` -/
  queue : List K
  /-- `self._populated` -/
  populated : Bool
  /-- `self._initial_population_count` -/
  count : Nat
  /-- `self._closed` -/
  closed : Bool
deriving DecidableEq, Repr

/-- `fifo.py` lines 34-42. -/
def init {K O : Type} : State K O := ⟨[], [], false, 0, false⟩

/-- How the callback of `pop` ends (`fifo.py` lines 124-131). -/
inductive Outcome where
  | ok
  /-- `RequeueError`, with or without `__cause__` -/
  | requeue (cause : Bool)
  /-- any other `Exception` -/
  | error
deriving DecidableEq, Repr

/-- Answers. -/
inductive Out (K O : Type) where
  | ok
  | keyError
  | storeKeyError
  | flag (b : Bool)
  | obj (o : Option O)
  | objs (os : List O)
  | keys (ks : List K)
  /-- `pop` handed `o` (queued under `k`) to the callback and returned it (`raised = false`) or
  raised `ProcessError(o)`; `dropped` entries were taken off the queue, the last being `k`'s -/
  | popped (k : K) (o : O) (raised : Bool) (dropped : Nat)
  /-- `FIFOClosedError` after taking `dropped` stale entries off the queue -/
  | closedError (dropped : Nat)
  /-- `pop` went to sleep after taking `dropped` stale entries off the queue -/
  | blocked (dropped : Nat)
deriving DecidableEq, Repr

variable {K O : Type} [DecidableEq K]

/-- `fifo.py` lines 49-54 (body of `add`, which `update`, lines 56-57, calls, too). -/
def add (s : State K O) (k : K) (o : O) : State K O :=
  { s with
    populated := true
    queue := if s.items.has k then s.queue else s.queue ++ [k]
    items := s.items.set k o }

/-- `fifo.py` lines 64-66 (body of `delete`): `populated` is set before `KeyError` is raised. -/
def delete (s : State K O) (k : K) : State K O × Out K O :=
  if s.items.has k then ({ s with populated := true, items := s.items.del k }, .ok)
  else ({ s with populated := true }, .keyError)

/-- `fifo.py` lines 92-100 (body of `replace`). -/
def replace (s : State K O) (items : PyDict K O) : State K O :=
  { s with
    populated := true
    count := if s.populated then s.count else items.length
    items := items
    queue := items.keys }

/-- `fifo.py` lines 102-109: `resync`. -/
def resync (s : State K O) : State K O :=
  { s with queue := s.queue ++ s.items.keys.filter (fun k => k ∉ s.queue) }

/-- `fifo.py` lines 153-159: `_add_if_not_present`. -/
def addIfNotPresent (s : State K O) (k : K) (o : O) : State K O :=
  if s.items.has k then { s with populated := true }
  else { s with
    populated := true
    queue := s.queue ++ [k]
    items := s.items.set k o }

/-- `fifo.py` lines 124-132: what happens after `process(item)`. -/
def finish (s : State K O) (k : K) (o : O) (dropped : Nat) : Outcome → State K O × Out K O
  | .ok => (s, .popped k o false dropped)
  | .requeue cause => (addIfNotPresent s k o, .popped k o cause dropped)
  | .error => (s, .popped k o true dropped)

/-- `fifo.py` lines 113-132: one attempt of `pop`, from line 114 until it returns, raises or
sleeps; the first argument is `self._queue`. -/
def popLoop (s : State K O) (outcome : Outcome) : List K → Nat → State K O × Out K O
  | [], dropped =>
    ({ s with queue := [], count := s.count - dropped },
      if s.closed then .closedError dropped else .blocked dropped)
  | k :: queue, dropped =>
    match s.items.get? k with
    | none => popLoop s outcome queue (dropped + 1)
    | some o =>
      finish { s with
        queue := queue
        count := s.count - (dropped + 1)
        items := s.items.del k } k o (dropped + 1) outcome

/-- The public calls of `FIFO` (`fifo.py` lines 44-151). -/
inductive Op (K O : Type) where
  | add (o : O)
  | update (o : O)
  | delete (o : O)
  | list
  | listKeys
  | get (o : O)
  | getByKey (k : K)
  | replace (os : List O)
  | resync
  /-- one attempt of `pop`; how the callback will end -/
  | pop (r : Outcome)
  | addIfNotPresent (o : O)
  | hasSynced
  | close
  | isClosed
deriving DecidableEq, Repr

/-- `fifo.py` lines 142-143: `has_synced`. -/
def hasSynced (s : State K O) : Bool := s.populated && s.count == 0

/-- One call; `key` is `self._key_func`, `none`: it raises. -/
def step (key : O → Option K) (s : State K O) : Op K O → State K O × Out K O
  | .add o | .update o =>
    match key o with
    | none => (s, .storeKeyError)
    | some k => (add s k o, .ok)
  | .delete o =>
    match key o with
    | none => (s, .storeKeyError)
    | some k => delete s k
  | .list => (s, .objs s.items.values)
  | .listKeys => (s, .keys s.items.keys)
  | .get o =>
    match key o with
    | none => (s, .storeKeyError)
    | some k => (s, .obj (s.items.get? k))
  | .getByKey k => (s, .obj (s.items.get? k))
  | .replace os =>
    match buildItems key os [] with
    | none => (s, .storeKeyError)
    | some items => (replace s items, .ok)
  | .resync => (resync s, .ok)
  | .pop r => popLoop s r s.queue 0
  | .addIfNotPresent o =>
    match key o with
    | none => (s, .storeKeyError)
    | some k => (addIfNotPresent s k o, .ok)
  | .hasSynced => (s, .flag (hasSynced s))
  | .close => ({ s with closed := true }, .ok)
  | .isClosed => (s, .flag s.closed)

/-- Whether a call executes `self._cond.notify_all()` (`fifo.py` lines 54, 99-100, 108-109, 148
and 159). -/
def notifies (key : O → Option K) (s : State K O) : Op K O → Bool
  | .add o | .update o => (key o).isSome
  | .replace os =>
    match buildItems key os [] with
    | none => false
    | some items => !items.isEmpty
  | .resync => !(resync s).queue.isEmpty
  | .addIfNotPresent o =>
    match key o with
    | none => false
    | some k => !s.items.has k
  | .close => true
  | .pop (.requeue _) =>
    match (popLoop s .ok s.queue 0).2 with
    | .popped _ _ _ _ => true
    | _ => false
  | _ => false

/-- The state after a sequence of calls. -/
def exec (key : O → Option K) (s : State K O) : List (Op K O) → State K O
  | [] => s
  | o :: os => exec key (step key s o).1 os

/-- The calls and their answers. -/
def trace (key : O → Option K) (s : State K O) : List (Op K O) → List (Op K O × Out K O)
  | [] => []
  | o :: os => (o, (step key s o).2) :: trace key (step key s o).1 os

/-- `FIFO` as a queue with blocked tasks (`fifo.py` lines 111-132 and the callers of
`notify_all`). -/
def machine (key : O → Option K) : Monitor.Machine (State K O) (Op K O) (Out K O) where
  step := step key
  notifies := notifies key
  isPop | .pop _ => true
        | _ => false
  isBlocked | .blocked _ => true
            | _ => false

end Aiok8s.Fifo
