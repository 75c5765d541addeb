import Mathlib.Algebra.Order.Ring.Rat
/-!
# `aiok8s/util/_time.py`: `Timer` and `Ticker` (and `_RealTimer`, `_RealTicker` of `util/clock.py`, which
only pass calls on)

`asyncio.sleep(d)` ends at some time not before `d` has passed; the model lets the task go on at any time
after that.  `time.time()` is the clock of the model; it does not go backwards.
-/
namespace Aiok8s.RealTime

/-- Where the task of a timer or ticker is. -/
inductive Pc where
  /-- lines 25 and 38: in `asyncio.sleep`, over at this time -/
  | sleeping (till : ℚ)
  /-- the function of a timer has returned, or the task was cancelled -/
  | over
deriving DecidableEq

/-- A timer or a ticker. -/
structure State where
  /-- the argument `d` -/
  period : ℚ
  ticker : Bool
  clock : ℚ
  /-- `self.c`, of size 1 -/
  c : Option ℚ
  pc : Pc

/-- What can happen. -/
inductive Ev where
  /-- time passes -/
  | advance (dt : ℚ)
  /-- the task goes on after its sleep -/
  | fire
  /-- somebody takes what is in `self.c` -/
  | take
  /-- `stop()` -/
  | stop
deriving DecidableEq

/-- Lines 20-29: `Timer(d)` made at time `now`. -/
def newTimer (d now : ℚ) : State := ⟨d, false, now, none, .sleeping (now + d)⟩

/-- Lines 34-46: `Ticker(d)` made at time `now`. -/
def newTicker (d now : ℚ) : State := ⟨d, true, now, none, .sleeping (now + d)⟩

/-- One event; the answer is what `take` got.  Impossible events change nothing (`take` on an empty queue
waits). -/
def step (s : State) : Ev → State × Option ℚ
  | .advance dt => (if 0 ≤ dt then { s with clock := s.clock + dt } else s, none)
  | .fire =>
    match s.pc with
    | .sleeping till =>
      if till ≤ s.clock then
        if s.ticker then
          -- lines 39-42
          ({ s with
            c := if s.c.isNone then some s.clock else s.c
            pc := .sleeping (s.clock + s.period) }, none)
        else
          -- line 26; the queue of a timer is empty then
          ({ s with c := some s.clock, pc := .over }, none)
      else (s, none)
    | .over => (s, none)
  | .take => ({ s with c := none }, s.c)
  | .stop => ({ s with pc := .over }, none)

/-- The state after a sequence of events. -/
def exec (s : State) : List Ev → State
  | [] => s
  | e :: es => exec (step s e).1 es

/-- What was taken. -/
def taken (s : State) : List Ev → List ℚ
  | [] => []
  | e :: es => (step s e).2.toList ++ taken (step s e).1 es

end Aiok8s.RealTime
