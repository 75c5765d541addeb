/-!
# `aiok8s/watch/mux.py`: the broadcaster

A step is what happens between two places where a task really waits.  The tasks are the loop of
the broadcaster, callers of `action`, `watch`, `watch_with_prefix`, `shutdown`, `stop`, and the
readers of the watchers.

Watchers are numbered as in the code (`_next_watcher`, in the order of registration); those that
were stopped stay in the list of the model, marked as no longer in `_watchers`.

A reader whose `__anext__` is cancelled while it waits leaves the task it waited for behind
(`asyncio.wait` does not cancel it, lines 164-168), as does a reader that got
`StopAsyncIteration` (line 174): `orphans` counts these tasks.  Each takes one event from the
queue of the watcher, which nobody will see, and without `task_done`.
-/
namespace Aiok8s.Mux

/-- Lines 19-21: `FullChannelBehavior`. -/
inductive Mode where
  | wait
  | drop
deriving DecidableEq, Repr

/-- Entries of `_incoming`. -/
inductive In (E : Type) where
  /-- line 74 -/
  | event (e : E)
  /-- lines 52, 70: a registration, with the prefix if it is `watch_with_prefix` -/
  | watch (p : Option (List E))
  /-- line 77: `None` -/
  | close
deriving DecidableEq, Repr

/-- Lines 152-158: a watcher; `maxsize` 0 is an unbounded queue. -/
structure Watcher (E : Type) where
  maxsize : Nat
  queue : List E
  /-- `_unfinished_tasks` of the queue -/
  unfinished : Nat
  stopped : Bool
  /-- it is in `_watchers` -/
  inMap : Bool
  /-- tasks left behind by readers -/
  orphans : Nat
  /-- what `__anext__` returned so far -/
  got : List E
  /-- `__anext__` raised `StopAsyncIteration` -/
  ended : Bool
deriving DecidableEq, Repr

/-- Where the loop (lines 109-119) is. -/
inductive Loop (E : Type) where
  /-- line 111 -/
  | idle
  /-- lines 132-139 for the first of these watchers, holding the lock -/
  | offer (e : E) (ids : List Nat)
  /-- line 190 in the task of line 135; the watchers after it -/
  | join (e : E) (id : Nat) (ids : List Nat)
  /-- after line 119 -/
  | closed
deriving DecidableEq, Repr

structure State (E : Type) where
  incoming : List (In E)
  watchers : List (Watcher E)
  loop : Loop E
deriving DecidableEq, Repr

inductive Act (E : Type) where
  /-- a caller puts an entry in `_incoming` (lines 74, 77, 89) -/
  | send (i : In E)
  /-- the loop takes an entry (line 111) -/
  | take
  /-- the put of line 188 succeeds -/
  | put
  /-- the watcher's `_stopped` ends the wait of line 133 -/
  | skip
  /-- `join` (line 190) returns -/
  | joined
  /-- `__anext__` returns an event -/
  | read (id : Nat)
  /-- `__anext__` raises `StopAsyncIteration` -/
  | readEnd (id : Nat)
  /-- a reader is cancelled inside `__anext__` -/
  | abandon (id : Nat)
  /-- a task left behind takes an event -/
  | orphan (id : Nat)
  /-- line 184, and `_stopped` is set -/
  | stop (id : Nat)
  /-- lines 97-101, when the lock is free -/
  | remove (id : Nat)
deriving DecidableEq, Repr

variable {E : Type}

/-- `Queue.full`. -/
def Watcher.full (w : Watcher E) : Bool := w.maxsize ≠ 0 && w.maxsize ≤ w.queue.length

/-- `Queue.put_nowait`, not full. -/
def Watcher.push (w : Watcher E) (e : E) : Watcher E :=
  { w with queue := w.queue ++ [e], unfinished := w.unfinished + 1 }

/-- Lines 24 and 34. -/
def incomingLength : Nat := 25

def init : State E := ⟨[], [], .idle⟩

/-- Lines 43-50 and 59-68: the new watcher; the puts of line 68 never wait since the queue is
longer than the prefix. -/
def newWatcher (len : Nat) : Option (List E) → Watcher E
  | none => ⟨len, [], 0, false, true, 0, [], false⟩
  | some p => ⟨max len (p.length + 1), p, p.length, false, true, 0, [], false⟩

/-- The numbers of the watchers in `_watchers`. -/
def registered (ws : List (Watcher E)) : List Nat :=
  (List.range ws.length).filter fun i => match ws[i]? with
    | some w => w.inMap
    | none => false

/-- Lines 124-130: one watcher in drop mode. -/
def offerDrop (e : E) (w : Watcher E) : Watcher E :=
  if w.inMap && !w.stopped && !w.full then w.push e else w

/-- Lines 132-141: go on with the next watchers. -/
def next (e : E) : List Nat → Loop E
  | [] => .idle
  | ids => .offer e ids

/-- Lines 104-107: `_close_all` for one watcher. -/
def closeOne (w : Watcher E) : Watcher E :=
  if w.inMap then { w with stopped := true, inMap := false } else w

/-- Lines 109-119: the loop takes an entry. -/
def onTake (mode : Mode) (len : Nat) (s : State E) : In E → State E
  | .close => { s with watchers := s.watchers.map closeOne, loop := .closed }
  | .watch p => { s with watchers := s.watchers ++ [newWatcher len p] }
  | .event e =>
    match mode with
    | .drop => { s with watchers := s.watchers.map (offerDrop e) }
    | .wait => { s with loop := next e (registered s.watchers) }

/-- Change a watcher. -/
def setW (s : State E) (i : Nat) (w : Watcher E) : State E :=
  { s with watchers := s.watchers.set i w }

/-- The lock is free. -/
def free : Loop E → Bool
  | .idle | .closed => true
  | _ => false

/-- The steps; `none`: not possible now. -/
def step (mode : Mode) (len : Nat) (s : State E) : Act E → Option (State E)
  | .send i =>
    if s.incoming.length < incomingLength then some { s with incoming := s.incoming ++ [i] }
    else none
  | .take =>
    match s.loop, s.incoming with
    | .idle, i :: is => some (onTake mode len { s with incoming := is } i)
    | _, _ => none
  | .put =>
    match s.loop with
    | .offer e (i :: ids) => (s.watchers[i]?).bind fun w =>
        if w.full then none
        else some { setW s i (w.push e) with
          loop := if w.maxsize = 0 then .join e i ids else next e ids }
    | _ => none
  | .skip =>
    match s.loop with
    | .offer e (i :: ids) => (s.watchers[i]?).bind fun w =>
        if w.stopped then some { s with loop := next e ids } else none
    | .join e i ids => (s.watchers[i]?).bind fun w =>
        if w.stopped then some { s with loop := next e ids } else none
    | _ => none
  | .joined =>
    match s.loop with
    | .join e i ids => (s.watchers[i]?).bind fun w =>
        if w.unfinished = 0 then some { s with loop := next e ids } else none
    | _ => none
  | .read i => (s.watchers[i]?).bind fun w =>
      match w.queue with
      | e :: q => some (setW s i { w with queue := q, got := w.got ++ [e], unfinished :=
          if w.maxsize = 0 then w.unfinished - 1 else w.unfinished })
      | [] => none
  | .readEnd i => (s.watchers[i]?).bind fun w =>
      if w.queue = [] ∧ w.stopped = true
      then some (setW s i { w with ended := true, orphans := w.orphans + 1 })
      else none
  | .abandon i => (s.watchers[i]?).bind fun w =>
      some (setW s i { w with orphans := w.orphans + 1 })
  | .orphan i => (s.watchers[i]?).bind fun w =>
      match w.queue, w.orphans with
      | _ :: q, n + 1 => some (setW s i { w with queue := q, orphans := n })
      | _, _ => none
  | .stop i => (s.watchers[i]?).bind fun w => some (setW s i { w with stopped := true })
  | .remove i => (s.watchers[i]?).bind fun w =>
      if w.stopped ∧ free s.loop = true then some (setW s i { w with inMap := false }) else none

/-- A run. -/
def exec (mode : Mode) (len : Nat) (s : State E) : List (Act E) → Option (State E)
  | [] => some s
  | a :: as => (step mode len s a).bind fun t => exec mode len t as

end Aiok8s.Mux
