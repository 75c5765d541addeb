import Verif.Model.Listener
/-!
# A `_ProcessListener` with the tasks of several runs

`run` of a shared informer starts `_run` and `_pop` of every listener (`shared_informer.py` lines 267-272 through
line 152).  When `run` is called again before it has ended, as it is for an informer of a manager that is started twice,
each listener has another pair of tasks on the same queues, the same `_pending_notifications` and the same events.
`Verif.Model.Listener` has one pair; here are any number, started at any time.  What is said there about `asyncio`
holds here too; a `join` returns when the queue has been empty at some moment since, even if it is not any more.
-/
namespace Aiok8s.Listeners
open Aiok8s.Listener (RunPhase)
variable {N : Type}

/-- The locals of one `_pop` (lines 316-361), and where the `_run` of the same pair is (lines 363-402). -/
structure Pair (N : Type) where
  /-- the result of `get_task`, if it is done -/
  got : Option N
  /-- `notification`; `next_queue` is set exactly if it is not `None` -/
  cur : Option N
  /-- `put_task` is done -/
  putDone : Bool
  /-- in `next_queue.join()` (line 351) -/
  joining : Bool
  /-- `_next_queue` has been empty since `join` was called -/
  free : Bool
  /-- `_pop` has returned -/
  ended : Bool
  /-- where `_run` is -/
  run : RunPhase N
deriving DecidableEq

/-- Lines 322-324 and 364: a pair of tasks that has just started. -/
def Pair.new : Pair N := ⟨none, none, false, false, false, false, .waiting⟩

/-- The listener (lines 300-310) and the tasks of all runs. -/
structure State (N : Type) where
  /-- `_add_queue` (size 1) -/
  addQ : List N
  /-- `_pending_notifications` -/
  pend : List N
  /-- `_next_queue` (size 1) -/
  nextQ : List N
  pairs : List (Pair N)
  /-- `_stop_add` -/
  stopAdd : Bool
  /-- `_stop_next` -/
  stopNext : Bool
deriving DecidableEq

/-- A listener without tasks (lines 300-310). -/
def init : State N := ⟨[], [], [], [], false, false⟩

/-- What can happen; `j` is the number of the pair. -/
inductive Act (N : Type) where
  /-- another run starts its tasks (lines 269-271) -/
  | newRun
  /-- `_add` puts a notification (line 313) -/
  | put (n : N)
  /-- `get_task` of `_pop` completes (lines 317-320) -/
  | getTask (j : Nat)
  /-- `put_task` of `_pop` completes (line 331) -/
  | putTask (j : Nat)
  /-- `_pop` goes on after `asyncio.wait` (lines 337-358) -/
  | popResume (j : Nat)
  /-- `join` returns (lines 351-356) -/
  | joined (j : Nat)
  /-- `get_task` of `_run` completes (lines 366-369) -/
  | runGet (j : Nat)
  /-- `_run` goes on after `asyncio.wait` (lines 377-390) -/
  | runResume (j : Nat)
  /-- the handler returns or raises -/
  | handlerEnds (j : Nat) (ok : Bool)
  /-- `sleep` (line 398) is over -/
  | wake (j : Nat)
  /-- `_stop_add.set()` (line 277) -/
  | stop
deriving DecidableEq

/-- The pair of number `j` changes. -/
def State.set (s : State N) (j : Nat) (q : Pair N) : State N := { s with pairs := s.pairs.set j q }

/-- Lines 341-349: where the notification taken from `_add_queue` goes. -/
def takeGot (q : Pair N) (pend : List N) : Option N × List N :=
  match q.got with
  | none => (q.cur, pend)
  | some m => match q.cur with
    | none => (some m, pend)
    | some n => (some n, pend ++ [m])

/-- A pair's action, if possible: the new state and the notification the handler is called with, if it is. -/
def pairStep (s : State N) (q : Pair N) : Act N → Option (State N × Option N)
  | .getTask j =>
    if q.ended || q.joining then none
    else match q.got, s.addQ with
      | none, n :: r => some ({ s with addQ := r }.set j { q with got := some n }, none)
      | _, _ => none
  | .putTask j =>
    if q.ended || q.joining || q.putDone then none
    else match q.cur, s.nextQ with
      | some n, [] => some ({ s with nextQ := [n] }.set j { q with putDone := true }, none)
      | _, _ => none
  | .popResume j =>
    if q.ended || q.joining then none
    else if s.stopAdd then some ({ s with stopNext := true }.set j { q with ended := true }, none)
    else if q.got.isSome || q.putDone then
      -- lines 350-351, or back to line 327
      some ({ s with pend := (takeGot q s.pend).2 }.set j { q with
        got := none
        cur := (takeGot q s.pend).1
        joining := q.putDone
        free := s.nextQ.isEmpty
        putDone := false }, none)
    else none
  | .joined j =>
    if q.joining && q.free then
      some ({ s with pend := s.pend.tail }.set j { q with joining := false, cur := s.pend.head? }, none)
    else none
  | .runGet j => match q.run, s.nextQ with
    | .waiting, n :: r =>
      -- `task_done`: every `join` may return
      some ({ s with nextQ := r, pairs := (s.pairs.set j { q with run := .got n }).map fun q =>
        { q with free := q.free || r.isEmpty } }, none)
    | _, _ => none
  | .runResume j => match q.run with
    | .got n =>
      if s.stopNext then some (s.set j { q with run := .ended }, none)
      else some (s.set j { q with run := .handling n }, some n)
    | .waiting => if s.stopNext then some (s.set j { q with run := .ended }, none) else none
    | _ => none
  | .handlerEnds j ok => match q.run with
    | .handling _ => some (s.set j { q with run := if ok then .waiting else .sleeping }, none)
    | _ => none
  | .wake j => match q.run with
    | .sleeping => some (s.set j { q with run := .waiting }, none)
    | _ => none
  | _ => none

/-- The pair an action is about. -/
def Act.pair : Act N → Option Nat
  | .getTask j | .putTask j | .popResume j | .joined j | .runGet j | .runResume j | .handlerEnds j _ | .wake j => some j
  | _ => none

/-- One action, if possible. -/
def step (s : State N) (a : Act N) : Option (State N × Option N) :=
  match a with
  | .newRun => some ({ s with pairs := s.pairs ++ [.new] }, none)
  | .put n => match s.addQ with
    | [] => some ({ s with addQ := [n] }, none)
    | _ :: _ => none
  | .stop => some ({ s with stopAdd := true }, none)
  | a => match a.pair with
    | none => none
    | some j => match s.pairs[j]? with
      | none => none
      | some q => pairStep s q a

/-- A sequence of possible actions: the state after it and the handler's calls. -/
def exec (s : State N) : List (Act N) → Option (State N × List N)
  | [] => some (s, [])
  | a :: as => match step s a with
    | none => none
    | some (s, c) => match exec s as with
      | none => none
      | some (s, cs) => some (s, c.toList ++ cs)

end Aiok8s.Listeners
