import Verif.Model.WorkQueue
import Verif.Model.DelayHeap
import Mathlib.Algebra.Order.Ring.Rat
/-!
# `aiok8s/workqueue/delaying_queue.py`: class `_DelayingType`

A small-step model: clients, the clock and the delay loop (`_waiting_loop`) take turns in any
order.  The calls of the base class are the atomic calls of `Verif.Model.WorkQueue`.

Facts about asyncio used here: a `put` on a full queue (`maxsize=1000`) waits until there is
room; cancelling a `Queue.get()` whose wake-up is already under way leaves the item in the
queue; `asyncio.wait(..., FIRST_COMPLETED)` returns when at least one of its tasks is done.
-/
namespace Aiok8s.DelayQueue
open Aiok8s

/-- Where the delay loop is. -/
inductive Pc (α : Type) where
  /-- at the `while` of `delaying_queue.py` line 69 -/
  | top
  /-- in the inner loop of lines 72-78; the argument is the local `now` of line 70 -/
  | popping (now : ℚ)
  /-- in the `asyncio.wait` of line 89; the argument is the time at which the timer of
  line 85 fires, if one was created in this round -/
  | sleeping (timer : Option ℚ)
  /-- after line 97; the argument is the entry `wait_task` received, if it is done -/
  | woke (e : Option (α × ℚ))
  /-- in the loop of lines 110-115 -/
  | draining
  /-- returned -/
  | exited
deriving DecidableEq

/-- The state of a `_DelayingType` (`delaying_queue.py` lines 29-34) with its delay loop and the
pending `put`s of `add_after`. -/
structure State (α : Type) where
  /-- the attributes of the base class -/
  core : WorkQueue.State α
  /-- the reading of `self._clock` -/
  clock : ℚ
  /-- `self._stop_event` -/
  stop : Bool
  /-- `put`s started in `add_after` (lines 47-51) that have not completed -/
  puts : List (α × ℚ)
  /-- `self._waiting_for_add_queue` -/
  chan : List (α × ℚ)
  /-- `waiting_for_queue` (line 67) -/
  heap : DelayHeap.Heap ℚ α
  pc : Pc α

/-- `delaying_queue.py` lines 29-34 at clock reading `t`. -/
def init {α : Type} (t : ℚ) : State α := ⟨WorkQueue.init, t, false, [], [], DelayHeap.init, .top⟩

/-- What ended the `asyncio.wait` of `delaying_queue.py` line 89. -/
inductive Wake where
  /-- the stop event (line 91) -/
  | stop
  /-- the heartbeat ticker (line 92); the model lets it tick at any time -/
  | heartbeat
  /-- the timer (line 93) -/
  | timer
  /-- an entry in the channel (line 94), possibly together with others -/
  | item
deriving DecidableEq

/-- The moves. -/
inductive Ev (α : Type) where
  /-- time passes -/
  | tick (d : ℚ)
  /-- a call of the base class -/
  | base (o : WorkQueue.Op α)
  /-- `add_after(x, d)` up to its suspension -/
  | addAfter (x : α) (d : ℚ)
  /-- the pending `put` number `i` completes -/
  | putDone (i : Nat)
  /-- the pending `put` number `i` is cancelled (lines 55-57, after the stop event) -/
  | putCancel (i : Nat)
  /-- `shut_down()` -/
  | shutDown
  /-- the delay loop leaves its `asyncio.wait` -/
  | wake (w : Wake)
  /-- the delay loop takes its next step -/
  | loop
deriving DecidableEq

/-- Observable events: `add_after` accepted a delayed item; the delay loop called `add`. -/
inductive Log (α : Type) where
  | called (x : α) (d t : ℚ)
  | loopAdd (x : α) (t : ℚ)
deriving DecidableEq

variable {α : Type} [DecidableEq α]

/-- `delaying_queue.py` lines 105-108 (and 112-115): file or add a received entry. -/
def file (s : State α) (e : α × ℚ) : State α × List (Log α) :=
  if e.2 > s.clock then ({ s with heap := DelayHeap.insert s.heap e.1 e.2 }, [])
  else ({ s with core := WorkQueue.add s.core e.1 }, [.loopAdd e.1 s.clock])

/-- `delaying_queue.py` lines 69-115: the next step of `_waiting_loop`, which is not asleep. -/
def loopStep (s : State α) : State α × List (Log α) :=
  match s.pc with
  | .top =>
    -- lines 69-70
    if s.core.shuttingDown then ({ s with pc := .exited }, [])
    else ({ s with pc := .popping s.clock }, [])
  | .popping now =>
    -- line 72
    if s.heap.len ≠ 0 then
      -- line 73
      match DelayHeap.peek s.heap with
      | (heap, none) => ({ s with heap := heap, pc := .exited }, [])  -- KeyError ends the task
      | (heap, some ready) =>
        if ready > now then
          -- lines 74-75, 80-87
          ({ s with heap := heap, pc := .sleeping (some (s.clock + (ready - now))) }, [])
        else
          -- lines 77-78
          match DelayHeap.pop heap with
          | (heap, none) => ({ s with heap := heap, pc := .exited }, [])
          | (heap, some x) =>
            ({ s with heap := heap, core := WorkQueue.add s.core x }, [.loopAdd x s.clock])
    else ({ s with pc := .sleeping none }, [])
  | .sleeping _ => (s, [])
  | .woke e =>
    -- lines 101-108
    if s.stop then ({ s with pc := .exited }, [])
    else match e with
      | none => ({ s with pc := .top }, [])
      | some e => let r := file s e; ({ r.1 with pc := .draining }, r.2)
  | .draining =>
    -- lines 110-115
    match s.chan with
    | [] => ({ s with pc := .top }, [])
    | e :: rest => file { s with chan := rest } e
  | .exited => (s, [])

/-- `delaying_queue.py` lines 88-100: leave the `asyncio.wait`. -/
def wakeStep (s : State α) (w : Wake) : State α :=
  match s.pc with
  | .sleeping timer =>
    match w with
    | .stop => if s.stop then { s with pc := .woke none } else s
    | .heartbeat => { s with pc := .woke none }
    | .timer => match timer with
      | some f => if f ≤ s.clock then { s with pc := .woke none } else s
      | none => s
    | .item => match s.chan with
      | e :: rest => { s with chan := rest, pc := .woke (some e) }
      | [] => s
  | _ => s

/-- `delaying_queue.py` lines 36-57: `add_after` up to the point where it waits for its `put`. -/
def addAfter (s : State α) (x : α) (d : ℚ) : State α × List (Log α) :=
  if s.core.shuttingDown then (s, [])
  else if d ≤ 0 then ({ s with core := WorkQueue.add s.core x }, [])
  else ({ s with puts := s.puts ++ [(x, s.clock + d)] }, [.called x d s.clock])

/-- `delaying_queue.py` lines 59-63: `shut_down`.  Line 62 calls the method itself, which
returns at once because the event is set; the base class is never told. -/
def shutDown (s : State α) : State α := { s with stop := true }

/-- One move; impossible moves change nothing. -/
def step (s : State α) : Ev α → State α × List (Log α)
  | .tick d => (if 0 ≤ d then { s with clock := s.clock + d } else s, [])
  | .base .shutDown => (shutDown s, [])  -- overridden method
  | .base o => ({ s with core := (WorkQueue.step s.core o).1 }, [])
  | .addAfter x d => addAfter s x d
  | .putDone i => match s.puts[i]? with
    | some e => if s.chan.length < 1000 then
        ({ s with puts := s.puts.eraseIdx i, chan := s.chan ++ [e] }, [])
      else (s, [])
    | none => (s, [])
  | .putCancel i => (if s.stop then { s with puts := s.puts.eraseIdx i } else s, [])
  | .shutDown => (shutDown s, [])
  | .wake w => (wakeStep s w, [])
  | .loop => loopStep s

/-- The state after a sequence of moves. -/
def exec (s : State α) : List (Ev α) → State α
  | [] => s
  | e :: es => exec (step s e).1 es

/-- What was observed during a sequence of moves. -/
def logOf (s : State α) : List (Ev α) → List (Log α)
  | [] => []
  | e :: es => (step s e).2 ++ logOf (step s e).1 es

end Aiok8s.DelayQueue
