import Verif.Model.WorkQueue
/-!
# `aiok8s/controller/controller.py`: `_Controller.start`, called any number of times

`start` writes `self.queue` (line 57) and everything else reads it again whenever it is needed: the
loop over the watches (line 62), the workers for each `get`, `forget`, `add_after`,
`add_rate_limited` and `done`, and `finally` (line 80).  So the calls of `start` are not independent
of each other.  `start` is called a second time if `manager.start` is called twice
(`manager.py` lines 52-55), if a controller is added twice to the manager (`manager.py` lines 32-35), or
to restart a controller that has ended.

Call number `g` of `start` makes queue number `g`; the attribute `self.queue` is the newest.

Simplified: the limiter and the times of the delaying queue are left out (`Verif.Model.Controller`,
`Verif.Model.DelayQueue`): an item that was given to `add_after` waits in a list, and the delay loop adds
it at any later time unless `shut_down` has been called (`delaying_queue.py` lines 59-63 set the event
which ends the delay loop, lines 69 and 101; they do not shut down the base queue).  Items that are not
requests are left out (lines 101-104).  The calls on the queue do not suspend except `get` and
`add_after`.
-/
namespace Aiok8s.Restart
open Aiok8s

/-- A rate-limiting queue. -/
structure Q (α : Type) where
  /-- the base class, `queue.py` -/
  core : WorkQueue.State α
  /-- items given to `add_after`, not yet added -/
  delayed : List α
  /-- `self._stop_event` is set (`delaying_queue.py` line 61) -/
  stopped : Bool
deriving DecidableEq

/-- Where a call of `start` is. -/
inductive Call where
  /-- there is no such call -/
  | none
  /-- line 59: it waits for the mutex -/
  | waiting
  /-- lines 60-66: it has the mutex; so many sources have been started, and if there is a queue, the next
  one is being started with it (lines 61-63) -/
  | preparing (k : Nat) (a : Option Nat)
  /-- line 78 -/
  | working
  | ended
deriving DecidableEq

/-- Where a worker is. -/
inductive Pc (α : Type) where
  /-- there is no such worker -/
  | none
  /-- about to evaluate `self.queue.get()` (line 90): just made, or after an item, or asleep (line 71) -/
  | next
  /-- in `get` of queue `q` -/
  | idle (q : Nat)
  /-- in `do.reconcile(x)` (line 107); `x` came from queue `q` -/
  | reconciling (q : Nat) (x : α)
  /-- in `add_after` or `add_rate_limited` (lines 111, 116, 119) -/
  | requeuing (q : Nat) (x : α)
  | ended
deriving DecidableEq

structure State (α : Type) where
  /-- the number of calls of `start` so far -/
  made : Nat
  calls : Nat → Call
  queues : Nat → Q α
  /-- the workers: worker `w.2` of call `w.1` -/
  workers : Nat × Nat → Pc α
  /-- the handlers registered by the sources: the source and its queue (`source.py` line 33) -/
  conns : List (Nat × Nat)

/-- What does not change. -/
structure Cfg where
  /-- the number of watches -/
  sources : Nat
  /-- `max_concurrent_reconciles` -/
  conc : Nat
  /-- `CancelledError` is not an `Exception` (Python 3.8) -/
  py38 : Bool
deriving DecidableEq

/-- How the reconciler ends. -/
inductive Outcome where
  /-- it succeeds: lines 122-125 -/
  | fine
  /-- the item is to be added again: lines 110-120; `now`: without delay (`delaying_queue.py` line 40) -/
  | again (now : Bool)
  /-- what it returns is not a result, or the limiter raises: line 95 -/
  | bad
  /-- it is cancelled: line 108 -/
  | cancelled
deriving DecidableEq

/-- The moves. -/
inductive Act (α : Type) where
  /-- `start` is called -/
  | call
  /-- call `g` gets the mutex -/
  | lock (g : Nat)
  /-- the next `source.start` is called: `self.queue` is evaluated -/
  | source (g : Nat)
  /-- it has registered its handler (`source.py` line 33) and returns -/
  | connect (g : Nat)
  /-- call `g` raises or is cancelled before it has workers -/
  | raises (g : Nat)
  /-- the caches have synced: the workers are made -/
  | ready (g : Nat)
  /-- the `gather` of call `g` ends -/
  | ends (g : Nat)
  /-- handler number `j` adds `x` -/
  | event (j : Nat) (x : α)
  /-- the delay loop of queue `q` adds `x` -/
  | release (q : Nat) (x : α)
  /-- worker `w` evaluates `self.queue.get()` -/
  | gets (w : Nat × Nat)
  /-- its `get` returns -/
  | take (w : Nat × Nat)
  /-- its reconciler ends -/
  | finish (w : Nat × Nat) (o : Outcome)
  /-- its `add_after` or `add_rate_limited` returns -/
  | requeued (w : Nat × Nat)
  /-- it is cancelled in it -/
  | cancelRequeue (w : Nat × Nat)
  /-- it is cancelled in `get` or in `sleep` -/
  | cancel (w : Nat × Nat)
deriving DecidableEq

/-- What is observed. -/
inductive Log (α : Type) where
  /-- call `g` of `start` began -/
  | called (g : Nat)
  /-- call `g` started source `k` with queue `q` -/
  | connected (g k q : Nat)
  /-- call `g` made its workers -/
  | working (g : Nat)
  /-- call `g` ended and called `shut_down` of queue `q` -/
  | over (g q : Nat)
  /-- worker `w` took `x` from queue `q` and reconciles it -/
  | took (w : Nat × Nat) (q : Nat) (x : α)
  /-- worker `w` wants `x` to be added again to queue `q` -/
  | again (w : Nat × Nat) (q : Nat) (x : α)
  /-- worker `w` called `done(x)` of queue `q`; the flag: it did not raise -/
  | done (w : Nat × Nat) (q : Nat) (x : α) (ok : Bool)
deriving DecidableEq

variable {α : Type}

/-- Lines 34-42: a controller that has not been started. -/
def init : State α :=
  ⟨0, fun _ => .none, fun _ => ⟨WorkQueue.init, [], false⟩, fun _ => .none, []⟩

/-- `self.queue`: line 57. -/
def State.cur (s : State α) : Nat := s.made - 1

def State.setCall (s : State α) (g : Nat) (c : Call) : State α :=
  { s with calls := fun h => if h = g then c else s.calls h }

def State.setQ (s : State α) (q : Nat) (v : Q α) : State α :=
  { s with queues := fun h => if h = q then v else s.queues h }

def State.setPc (s : State α) (w : Nat × Nat) (p : Pc α) : State α :=
  { s with workers := fun v => if v = w then p else s.workers v }

/-- Lines 79-80: the end of call `g`. -/
def over (s : State α) (g : Nat) : State α × List (Log α) :=
  ((s.setQ s.cur { s.queues s.cur with stopped := true }).setCall g .ended, [.over g s.cur])

/-- `asyncio.Lock`, line 59: no call has the mutex. -/
def State.free (s : State α) : Bool :=
  (List.range s.made).all fun g => match s.calls g with
    | .preparing _ _ => false
    | _ => true

variable [DecidableEq α]

/-- `add` of queue `q`. -/
def State.add (s : State α) (q : Nat) (x : α) : State α :=
  s.setQ q { s.queues q with core := WorkQueue.add (s.queues q).core x }

/-- `add_after(x)` of queue `q`, `delaying_queue.py` lines 36-57. -/
def State.addAfter (s : State α) (q : Nat) (x : α) (now : Bool) : State α :=
  if (s.queues q).core.shuttingDown then s
  else if now then s.add q x
  else if (s.queues q).stopped then s
  else s.setQ q { s.queues q with delayed := (s.queues q).delayed ++ [x] }

/-- Lines 97-98, then the next round (lines 85-87, 68-71), or the end of the task: by `KeyError`, or
because it was cancelled. -/
def finally_ (s : State α) (w : Nat × Nat) (x : α) (goesOn : Bool) : State α × List (Log α) :=
  let r := WorkQueue.done (s.queues s.cur).core x
  let ok := decide (r.2 = .ok)
  ((s.setQ s.cur { s.queues s.cur with core := r.1 }).setPc w (if ok && goesOn then .next else .ended),
    [.done w s.cur x ok])

/-- One move; `none` if it is not possible. -/
def step (c : Cfg) (s : State α) : Act α → Option (State α × List (Log α))
  | .call => some
    (({ s with made := s.made + 1 }.setQ s.made ⟨WorkQueue.init, [], false⟩).setCall s.made .waiting,
      [.called s.made])
  | .lock g => if s.calls g = .waiting ∧ s.free then some (s.setCall g (.preparing 0 none), []) else none
  | .source g =>
    match s.calls g with
    | .preparing k none =>
      if k < c.sources then some (s.setCall g (.preparing k (some s.cur)), []) else none
    | _ => none
  | .connect g =>
    match s.calls g with
    | .preparing k (some q) =>
      some ({ s with conns := s.conns ++ [(k, q)] }.setCall g (.preparing (k + 1) none), [.connected g k q])
    | _ => none
  | .raises g =>
    match s.calls g with
    | .waiting => some (over s g)
    | .preparing _ _ => some (over s g)
    | _ => none
  | .ready g =>
    if s.calls g = .preparing c.sources none then
      some ({ s with workers := fun w => if w.1 = g ∧ w.2 < c.conc then .next else s.workers w
            }.setCall g .working, [.working g])
    else none
  | .ends g =>
    if s.calls g = .working ∧ (c.conc = 0 ∨ ∃ i < c.conc, s.workers (g, i) = .ended) then
      some (over s g)
    else none
  | .event j x =>
    match s.conns[j]? with
    | some (_, q) => some (s.add q x, [])
    | none => none
  | .release q x =>
    if x ∈ (s.queues q).delayed ∧ (s.queues q).stopped = false then
      some ((s.setQ q { s.queues q with delayed := (s.queues q).delayed.erase x }).add q x, [])
    else none
  | .gets w => if s.workers w = .next then some (s.setPc w (.idle s.cur), []) else none
  | .take w =>
    match s.workers w with
    | .idle q =>
      let r := WorkQueue.get (s.queues q).core
      match r.2 with
      | .item x =>
        some ((s.setQ q { s.queues q with core := r.1 }).setPc w (.reconciling q x), [.took w q x])
      | .quit => some (s.setPc w .next, [])
      | _ => none
    | _ => none
  | .finish w o =>
    match s.workers w with
    | .reconciling q x =>
      match o with
      | .fine => some (finally_ s w x true)
      | .again now => some ((s.addAfter s.cur x now).setPc w (.requeuing q x), [.again w s.cur x])
      | .bad => some (finally_ s w x true)
      | .cancelled => some (finally_ s w x (!c.py38))
    | _ => none
  | .requeued w =>
    match s.workers w with
    | .requeuing _ x => some (finally_ s w x true)
    | _ => none
  | .cancelRequeue w =>
    match s.workers w with
    | .requeuing _ x => some (finally_ s w x (!c.py38))
    | _ => none
  | .cancel w =>
    match s.workers w with
    | .idle _ => some (s.setPc w .ended, [])
    | .next => some (s.setPc w .ended, [])
    | _ => none

/-- A sequence of moves; `none` if one of them is not possible. -/
def exec (c : Cfg) (s : State α) : List (Act α) → Option (State α × List (Log α))
  | [] => some (s, [])
  | a :: as =>
    match step c s a with
    | none => none
    | some (s', l) =>
      match exec c s' as with
      | none => none
      | some (s'', l') => some (s'', l ++ l')

end Aiok8s.Restart
