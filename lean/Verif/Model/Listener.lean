/-!
# `_ProcessListener` of `aiok8s/cache/shared_informer.py`: from `_add` to the handler

Three tasks take part: the producer (`_add`, lines 312-314), `_pop` (lines 316-361) and `_run`
(lines 363-402), connected by two queues of size one.  Everything between two `await`s is one
action; the tasks that `_pop` and `_run` start for `get` and `put` are actions of their own.  What
`asyncio` guarantees and is built in: a `Queue.get` or `Queue.put` that is cancelled before it
completed has not changed the queue; `asyncio.wait` reports every task that is done when the
caller goes on; the coroutines `get` (lines 317-320 and 366-369) do not suspend between taking an
item and `task_done`, so `join` (lines 314 and 351) waits exactly until the queue is empty.
Cancellation of the informer itself is not modelled.
-/
namespace Aiok8s.Listener
variable {N : Type}

/-- Where `_run` is. -/
inductive RunPhase (N : Type) where
  /-- in `asyncio.wait` (line 374), nothing taken yet -/
  | waiting
  /-- in `asyncio.wait` (line 374), `get_task` is done -/
  | got (n : N)
  /-- in the handler (lines 382-388) -/
  | handling (n : N)
  /-- in `asyncio.sleep(60)` (line 398) -/
  | sleeping
  /-- returned -/
  | ended
deriving DecidableEq

/-- The listener. -/
structure State (N : Type) where
  /-- `_add_queue` (size 1) -/
  addQ : List N
  /-- the result of `get_task` of `_pop`, if it is done -/
  got : Option N
  /-- `notification` of `_pop`; `next_queue` is set exactly if it is not `None` -/
  cur : Option N
  /-- `put_task` of `_pop` is done -/
  putDone : Bool
  /-- `_pop` is in `next_queue.join()` (line 351) -/
  joining : Bool
  /-- `_pending_notifications` -/
  pend : List N
  /-- `_next_queue` (size 1) -/
  nextQ : List N
  /-- where `_run` is -/
  run : RunPhase N
  /-- `_stop_add` -/
  stopAdd : Bool
  /-- `_pop` has returned, `_stop_next` is set -/
  popEnded : Bool
deriving DecidableEq

/-- Lines 300-310, 322-323: a listener whose tasks have just started. -/
def init : State N := ⟨[], none, none, false, false, [], [], .waiting, false, false⟩

/-- What can happen. -/
inductive Act (N : Type) where
  /-- `_add` puts a notification (line 313) -/
  | put (n : N)
  /-- `get_task` of `_pop` completes (lines 317-320) -/
  | getTask
  /-- `put_task` of `_pop` completes (line 331) -/
  | putTask
  /-- `_pop` goes on after `asyncio.wait` (lines 337-358) -/
  | popResume
  /-- `join` returns (lines 351-356) -/
  | joined
  /-- `get_task` of `_run` completes (lines 366-369) -/
  | runGet
  /-- `_run` goes on after `asyncio.wait` (lines 377-390) -/
  | runResume
  /-- the handler returns or raises -/
  | handlerEnds (ok : Bool)
  /-- `sleep` (line 398) is over -/
  | wake
  /-- `_stop_add.set()` (line 277) -/
  | stop
deriving DecidableEq

/-- Lines 341-349: where the notification taken from `_add_queue` goes. -/
def takeGot (s : State N) : Option N × List N :=
  match s.got with
  | none => (s.cur, s.pend)
  | some m => match s.cur with
    | none => (some m, s.pend)
    | some n => (some n, s.pend ++ [m])

/-- One action, if possible: the new state and the notification the handler is called with, if it
is. -/
def step (s : State N) : Act N → Option (State N × Option N)
  | .put n => match s.addQ with
    | [] => some ({ s with addQ := [n] }, none)
    | _ :: _ => none
  | .getTask =>
    if s.popEnded || s.joining then none
    else match s.got, s.addQ with
      | none, n :: r => some ({ s with addQ := r, got := some n }, none)
      | _, _ => none
  | .putTask =>
    if s.popEnded || s.joining || s.putDone then none
    else match s.cur, s.nextQ with
      | some n, [] => some ({ s with nextQ := [n], putDone := true }, none)
      | _, _ => none
  | .popResume =>
    if s.popEnded || s.joining then none
    else if s.stopAdd then some ({ s with popEnded := true }, none)
    else if s.got.isSome || s.putDone then
      -- lines 350-351, or back to line 327
      some ({ s with
        got := none
        cur := (takeGot s).1
        pend := (takeGot s).2
        joining := s.putDone
        putDone := false }, none)
    else none
  | .joined =>
    if !s.joining then none
    else match s.nextQ with
      | [] => some ({ s with
          joining := false
          cur := s.pend.head?
          pend := s.pend.tail }, none)
      | _ :: _ => none
  | .runGet => match s.run, s.nextQ with
    | .waiting, n :: r => some ({ s with run := .got n, nextQ := r }, none)
    | _, _ => none
  | .runResume => match s.run with
    | .got n =>
      if s.popEnded then some ({ s with run := .ended }, none)
      else some ({ s with run := .handling n }, some n)
    | .waiting => if s.popEnded then some ({ s with run := .ended }, none) else none
    | _ => none
  | .handlerEnds ok => match s.run with
    | .handling _ => some ({ s with run := if ok then .waiting else .sleeping }, none)
    | _ => none
  | .wake => match s.run with
    | .sleeping => some ({ s with run := .waiting }, none)
    | _ => none
  | .stop => some ({ s with stopAdd := true }, none)

/-- A sequence of possible actions: the state after it and the handler's calls. -/
def exec (s : State N) : List (Act N) → Option (State N × List N)
  | [] => some (s, [])
  | a :: as => match step s a with
    | none => none
    | some (s, c) => match exec s as with
      | none => none
      | some (s, cs) => some (s, c.toList ++ cs)

end Aiok8s.Listener
