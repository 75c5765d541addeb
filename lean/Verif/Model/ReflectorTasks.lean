import Verif.Model.Reflector
import Mathlib.Algebra.Order.Ring.Rat
/-!
# The tasks of `aiok8s/cache/reflector.py`: `run`, the resync task, the reader of the watch

`list_and_watch` starts a task that resyncs the store (lines 64-85), `_watch_handler` one that reads the
watch (lines 146-152) and one that waits for an error of the resync (line 155).  Everything between two
`await`s that may suspend is one action.  What the server and the store answer is part of the actions.

Simplified: `Queue.get` of line 155 that is cancelled ends at once (it has no effect); the resync task
makes its first step, which starts the timer (line 67), directly after line 85.  `asyncio.gather` with
`return_exceptions=True` (lines 111 and 248) waits for all its tasks, also if it is cancelled.  In
`_watch_handler` the reader may take any time to end after its cancellation; it ends.
-/
namespace Aiok8s.ReflectorTasks
open Aiok8s.Reflector

/-- How `_watch_handler` ends (lines 162-168, 233-238). -/
inductive How where
  /-- it returns; whether the watch lasted less than a second -/
  | again (short : Bool)
  /-- it raises because the watch was short and had no event (lines 234-238) -/
  | tooShort
  /-- an event raises -/
  | fatal
  /-- it raises the error of the resync task (line 163) -/
  | resyncErr
  | cancelled
deriving DecidableEq

/-- Where `run` is. -/
inductive Pc (O : Type) where
  /-- at line 51, or not called yet -/
  | sleeping
  /-- line 57 -/
  | listing
  /-- line 61 -/
  | replacing (items : List O) (version : String)
  /-- line 93 -/
  | opening
  /-- line 159 -/
  | waiting
  /-- lines 193-225: in a method of the store; the version of the event -/
  | storing (version : String)
  /-- line 248: the tasks of the watch are awaited -/
  | leavingWatch (h : How)
  /-- line 111: the resync task is awaited; whether `run` was cancelled -/
  | leaving (cancelled : Bool)
  /-- `run` has ended, cancelled -/
  | ended
deriving DecidableEq

/-- Where the task that reads the watch is (lines 148-152). -/
inductive Reader where
  | none
  | reading
  /-- it has returned or raised -/
  | ended
  /-- cancelled -/
  | stopping
deriving DecidableEq

/-- The task made at line 155. -/
inductive ErrTask where
  | none
  | waiting
  /-- it has an error -/
  | got
deriving DecidableEq

/-- Where the resync task is (lines 66-83). -/
inductive Resync where
  | none
  /-- line 70; the timer fires at `t`, `none`: never -/
  | waiting (t : Option ℚ)
  /-- line 74: in `store.resync` -/
  | running
  /-- it has ended -/
  | ended
  /-- cancelled -/
  | stopping
deriving DecidableEq

structure State (O : Type) where
  pc : Pc O
  /-- `options["resource_version"]` -/
  version : String
  /-- `_last_sync_resource_version` -/
  last : String
  /-- `event_count` -/
  count : Nat
  /-- `start` (line 144) -/
  start : ℚ
  reader : Reader
  /-- `event_queue` and the result of `event_task`; `none` is `None` -/
  queue : List (Option (Event O))
  errTask : ErrTask
  /-- `resync_error_queue` has an error -/
  error : Bool
  resync : Resync
  now : ℚ

/-- Lines 28-38: a new reflector. -/
def init {O : Type} : State O := ⟨.sleeping, "", "", 0, 0, .none, [], .none, false, .none, 0⟩

/-- What is seen from outside. -/
inductive Ev (O : Type) where
  /-- the server or the store is called -/
  | call (c : Call O)
  /-- the list or what it holds is not there (lines 57-60) -/
  | listFailed
  /-- `store.replace` has raised -/
  | replaceFailed
  /-- `store.replace` has returned at time `t` -/
  | replaced (t : ℚ)
  /-- there is no watch (line 96) -/
  | watchFailed
  /-- there is a watch -/
  | opened
  /-- the watch gives an event -/
  | read (e : Event O)
  /-- the loop takes an event (line 164) -/
  | took (e : Event O)
  /-- the watch is over, and its tasks -/
  | closed (short : Bool)
  /-- likewise, because of an event -/
  | fatal
  /-- likewise, because of the error of the resync -/
  | resyncErr
  /-- `store.resync` is called at time `t` -/
  | resync (t : ℚ)
  /-- `store.resync` has raised -/
  | resyncFailed

/-- What can happen. -/
inductive Act (O : Type) where
  /-- `run` is called or wakes up, and calls `list` (lines 51, 57) -/
  | list
  /-- the answer of the server, `none`: line 57, 58 or 60 raises -/
  | listed (answer : Option (List O × String))
  /-- `store.replace` returns or raises -/
  | replaced (ok : Bool)
  /-- `watch` returns or raises -/
  | watched (ok : Bool)
  /-- the watch gives an event (line 151) -/
  | read (e : Event O)
  /-- the watch is exhausted (line 152) -/
  | readEnd
  /-- the watch raises -/
  | readFail
  /-- `error_task` gets the error -/
  | errGet
  /-- line 159 returns -/
  | resume
  /-- the method of the store returns or raises -/
  | stored
  /-- the reader of the watch ends after its cancellation -/
  | readerEnds
  /-- line 248 returns -/
  | tasksEnded
  /-- the timer of the resync fires (lines 70-71), `none`: `should_resync` raises -/
  | tick (should : Option Bool)
  /-- `store.resync` returns or raises -/
  | resynced (ok : Bool)
  /-- the resync task ends after its cancellation -/
  | resyncEnds
  /-- line 111 returns -/
  | gathered
  /-- `run` is cancelled -/
  | cancel
  /-- time passes -/
  | pass (d : ℚ)

variable {O G : Type} [DecidableEq G]

/-- Lines 133-137: the timer of the resync. -/
def timer (period now : ℚ) : Option ℚ := if period = 0 then none else some (now + period)

/-- Lines 244-248: leave `_watch_handler`. -/
def leaveWatch (s : State O) (h : How) : State O :=
  { s with
    pc := .leavingWatch h
    reader := match s.reader with | .reading => .stopping | r => r
    errTask := .none }

/-- Lines 109-111: leave `list_and_watch`. -/
def leave (s : State O) (cancelled : Bool) : State O :=
  { s with
    pc := .leaving cancelled
    resync := match s.resync with | .waiting _ | .running => .stopping | r => r }

/-- Lines 162-232: after line 159 has returned, without an error. -/
def onTaken (A : Access O G) (s : State O) : Option (Event O) → State O × List (Ev O)
  | none =>
    let short := decide (s.now - s.start < 1)
    (leaveWatch s (if short && s.count == 0 then .tooShort else .again short), [])
  | some e => match onEvent A e with
    | .raised => (leaveWatch s .fatal, [.took e])
    | .skipped => (s, [.took e])
    | .accepted v => match storeCall e with
      | c :: _ => ({ s with pc := .storing v }, [.took e, .call c])
      | [] => ({ s with version := v, last := v, count := s.count + 1 }, [.took e])

/-- One action, if possible: the new state and what is seen. -/
def step (A : Access O G) (period : ℚ) (s : State O) : Act O → Option (State O × List (Ev O))
  | .list => match s.pc with
    | .sleeping => some ({ s with pc := .listing }, [.call (.list "0")])
    | _ => none
  | .listed answer => match s.pc with
    | .listing => match answer with
      | none => some ({ s with pc := .sleeping }, [.listFailed])
      | some (items, v) => some ({ s with pc := .replacing items v }, [.call (.replace items v)])
    | _ => none
  | .replaced ok => match s.pc with
    | .replacing _ v =>
      if ok then
        some ({ s with
          pc := .opening, version := v, last := v, error := false
          resync := .waiting (timer period s.now) }, [.replaced s.now, .call (.watch v)])
      else some ({ s with pc := .sleeping }, [.replaceFailed])
    | _ => none
  | .watched ok => match s.pc with
    | .opening =>
      if ok then
        some ({ s with
          pc := .waiting, count := 0, start := s.now, reader := .reading, queue := [],
          errTask := .waiting }, [.opened])
      else some (leave s false, [.watchFailed])
    | _ => none
  | .read e => match s.reader with
    | .reading => some ({ s with queue := s.queue ++ [some e] }, [.read e])
    | _ => none
  | .readEnd => match s.reader with
    | .reading => some ({ s with queue := s.queue ++ [none], reader := .ended }, [])
    | _ => none
  | .readFail => match s.reader with
    | .reading => some ({ s with reader := .ended }, [])
    | _ => none
  | .errGet => match s.errTask, s.error with
    | .waiting, true => some ({ s with errTask := .got, error := false }, [])
    | _, _ => none
  | .resume => match s.pc with
    | .waiting => match s.errTask with
      | .got => some (leaveWatch s .resyncErr, [])
      | _ => match s.queue with
        | [] => none
        | x :: rest => some (onTaken A { s with queue := rest } x)
    | _ => none
  | .stored => match s.pc with
    | .storing v => some ({ s with pc := .waiting, version := v, last := v, count := s.count + 1 }, [])
    | _ => none
  | .readerEnds => match s.reader with
    | .stopping => some ({ s with reader := .ended }, [])
    | _ => none
  | .tasksEnded => match s.pc, s.reader with
    | .leavingWatch h, .ended =>
      let s := { s with reader := .none }
      some (match h with
        | .again short => ({ s with pc := .opening }, [.closed short, .call (.watch s.version)])
        | .tooShort => (leave s false, [.closed true])
        | .fatal => (leave s false, [.fatal])
        | .resyncErr => (leave s false, [.resyncErr])
        | .cancelled => (leave s true, []))
    | _, _ => none
  | .tick should => match s.resync with
    | .waiting (some t) =>
      if t ≤ s.now then
        match should with
        | none => some ({ s with resync := .ended }, [])
        | some false => some ({ s with resync := .waiting (timer period s.now) }, [])
        | some true => some ({ s with resync := .running }, [.resync s.now])
      else none
    | _ => none
  | .resynced ok => match s.resync with
    | .running =>
      if ok then some ({ s with resync := .waiting (timer period s.now) }, [])
      else some ({ s with resync := .ended, error := true }, [.resyncFailed])
    | _ => none
  | .resyncEnds => match s.resync with
    | .stopping => some ({ s with resync := .ended }, [])
    | _ => none
  | .gathered => match s.pc, s.resync with
    | .leaving c, .ended => some ({ s with pc := if c then .ended else .sleeping, resync := .none }, [])
    | _, _ => none
  | .cancel => match s.pc with
    | .sleeping | .listing | .replacing _ _ => some ({ s with pc := .ended }, [])
    | .opening => some (leave s true, [])
    | .waiting | .storing _ => some (leaveWatch s .cancelled, [])
    | .leavingWatch _ => some ({ s with pc := .leavingWatch .cancelled }, [])
    | .leaving _ => some ({ s with pc := .leaving true }, [])
    | .ended => none
  | .pass d => if 0 ≤ d then some ({ s with now := s.now + d }, []) else none

/-- A sequence of possible actions: the state after it and what is seen. -/
def exec (A : Access O G) (period : ℚ) (s : State O) : List (Act O) → Option (State O × List (Ev O))
  | [] => some (s, [])
  | a :: as => match step A period s a with
    | none => none
    | some (s, e) => match exec A period s as with
      | none => none
      | some (s, es) => some (s, e ++ es)

end Aiok8s.ReflectorTasks
