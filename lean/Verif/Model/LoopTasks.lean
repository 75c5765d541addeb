import Verif.Model.Loops
/-!
# `aiok8s/util/wait.py` lines 29-65 and `aiok8s/util/_time.py` lines 5-17: the tasks of a loop

`Model/Loops.lean` says when `jitter_loop` and `jitter_until` call `f`.  Here are the tasks they make: the
one that waits for the stop event (line 50), the `Timer` of every round (lines 37, 40, 58, 61), and the one
that waits for that timer (line 63).  Everything between two awaits is one step; what happens at the awaits
is any list of events.  The event may also be cleared, as `asyncio.Event` allows.

Simplified: a task that can go on has gone on (a timer whose time has come has put its value, a wait for an
event that is set is over); a cancelled wait is over at once.
-/
namespace Aiok8s.LoopTasks
open Aiok8s

/-- The arguments; `withStop` tells `jitter_until` (line 49) from `jitter_loop` (line 29). -/
structure Cfg where
  period : ℚ
  factor : ℚ
  sliding : Bool
  withStop : Bool

/-- The task of line 50. -/
inductive StopTask where
  /-- `jitter_loop` has none; before line 50 there is none -/
  | none
  | pending
  | done
deriving DecidableEq

/-- The timer of a round and the task that waits for it. -/
structure Round where
  /-- when the timer's sleep is over (`_time.py` line 10) -/
  due : ℚ
  /-- it is over: the timer's task has put the time into its queue (line 11) and ended -/
  fired : Bool
  /-- `timer_task` of line 63 is there and has not ended -/
  getting : Bool
deriving DecidableEq

/-- How it ends. -/
inductive End where
  /-- line 51: the stop event is set -/
  | stopped
  /-- `f` raised -/
  | raised
  /-- the caller cancelled it -/
  | cancelled
deriving DecidableEq

/-- Where it is. -/
inductive Phase where
  | idle
  /-- lines 38, 59: in `await f()`; the number is `jittered_period` -/
  | calling (p : ℚ)
  /-- lines 42, 64 -/
  | waiting
  /-- it has ended, at this time -/
  | ended (e : End) (at_ : ℚ)
deriving DecidableEq

/-- The loop, its tasks, the clock and the event. -/
structure State where
  now : ℚ
  isSet : Bool
  stop : StopTask
  /-- the rounds that have a timer, newest first -/
  rounds : List Round
  phase : Phase
  /-- how often `f` has been called -/
  calls : Nat
deriving DecidableEq

/-- What happens. -/
inductive Ev where
  /-- the caller runs the coroutine; the number is what `random.random()` gives for the first round -/
  | start (r : ℚ)
  /-- time passes -/
  | tick (d : ℚ)
  /-- somebody sets or clears the event -/
  | set
  | clear
  /-- `f` returns or raises -/
  | returns
  | raises
  /-- the loop goes on after its wait, if the wait is over; the number is for the next round -/
  | wake (r : ℚ)
  /-- the caller cancels the loop -/
  | cancel
deriving DecidableEq

/-- Nothing has happened yet. -/
def init (now : ℚ) (isSet : Bool) : State := ⟨now, isSet, .none, [], .idle, 0⟩

/-- `_time.py` lines 6-14: a `Timer`; `asyncio.sleep` of no time is over at once. -/
def timer (now p : ℚ) : Round := ⟨now + max 0 p, decide (p ≤ 0), false⟩

/-- Lines 31-34 and 52-55 of `wait.py`: `jittered_period`. -/
def jittered (c : Cfg) (r : ℚ) : ℚ := Loops.jittered ⟨c.period, c.factor, c.sliding⟩ r

/-- Lines 31-38 and 52-59: a round up to the call of `f`. -/
def begin_ (c : Cfg) (s : State) (r : ℚ) : State :=
  { s with
    phase := .calling (jittered c r)
    rounds := if c.sliding then s.rounds else timer s.now (jittered c r) :: s.rounds
    calls := s.calls + 1 }

/-- Line 51 (`jitter_loop`: line 30) and the round. -/
def head (c : Cfg) (s : State) (r : ℚ) : State :=
  if c.withStop && s.isSet then { s with phase := .ended .stopped s.now } else begin_ c s r

/-- Line 63: the newest timer is waited for, in `jitter_until` by a task of its own. -/
def await_ (c : Cfg) : List Round → List Round
  | [] => []
  | t :: ts => { t with getting := c.withStop && !t.fired } :: ts

/-- Line 65: `timer_task.cancel()`. -/
def cancelGet : List Round → List Round
  | [] => []
  | t :: ts => { t with getting := false } :: ts

/-- Lines 42 and 64: the wait is over. -/
def over (s : State) : Bool :=
  s.stop == .done || (match s.rounds with | [] => false | t :: _ => t.fired)

/-- Time has come to `now` for a timer (`_time.py` lines 10-11). -/
def fire (now : ℚ) (t : Round) : Round := if t.due ≤ now then { t with fired := true, getting := false } else t

/-- One event; what cannot happen changes nothing. -/
def step (c : Cfg) (s : State) : Ev → State
  | .start r =>
    match s.phase with
    | .idle =>
      head c { s with stop := if c.withStop then (if s.isSet then .done else .pending) else .none } r
    | _ => s
  | .tick d =>
    let now := s.now + max 0 d
    { s with now := now, rounds := s.rounds.map (fire now) }
  | .set => { s with isSet := true, stop := if s.stop = .pending then .done else s.stop }
  | .clear => { s with isSet := false }
  | .returns =>
    match s.phase with
    | .calling p =>
      { s with
        phase := .waiting
        rounds := await_ c (if c.sliding then timer s.now p :: s.rounds else s.rounds) }
    | _ => s
  | .raises =>
    match s.phase with
    | .calling _ => { s with phase := .ended .raised s.now }
    | _ => s
  | .wake r =>
    match s.phase with
    | .waiting => if over s then head c { s with rounds := cancelGet s.rounds } r else s
    | _ => s
  | .cancel =>
    match s.phase with
    | .calling _ | .waiting => { s with phase := .ended .cancelled s.now }
    | _ => s

/-- After a list of events. -/
def run (c : Cfg) (s : State) (es : List Ev) : State := es.foldl (step c) s

end Aiok8s.LoopTasks
