import Mathlib.Algebra.Order.Ring.Rat
import Mathlib.Data.Rat.Floor
/-!
# `aiok8s/util/clock.py`: the fake clock, its timers and tickers

Times are exact rationals.  `_set_time_locked` (lines 85-102) only waits at line 94, for a timer
whose queue is full; otherwise it runs without interruption.  `none` as the result of an operation:
it does not return (it waits at line 94, or the loop of lines 97-98 does not end).
-/
namespace Aiok8s.FakeClock

/-- Lines 105-112: `_FakeClockWaiter`; queues are numbered, in the order they are made. -/
structure Waiter where
  target : ℚ
  queue : Nat
  interval : ℚ
  skip : Bool

structure State where
  time : ℚ
  waiters : List Waiter
  /-- the contents of the queues; their `maxsize` is 1 -/
  queues : List (List ℚ)

/-- Lines 51-53. -/
def init (t : ℚ) : State := ⟨t, [], []⟩

/-- Lines 97-98, at most so many times round: `none` if the loop has not ended by then. -/
def catchUp (t interval : ℚ) : Nat → ℚ → Option ℚ
  | 0, _ => none
  | n + 1, x => if x ≤ t then catchUp t interval n (x + interval) else some x

/-- How often the loop of lines 97-98 can go round, if it ends. -/
def rounds (t interval target : ℚ) : Nat := ⌊(t - target) / interval⌋.toNat + 2

/-- Lines 89-101 for a waiter whose queue holds `c`: the queue afterwards, and the waiter if it is
kept. -/
def fireCell (t : ℚ) (w : Waiter) (c : List ℚ) : Option (List ℚ × Option Waiter) :=
  if w.target ≤ t then
    if 1 ≤ c.length ∧ w.skip = false then none
    else
      let c' := if 1 ≤ c.length then c else c ++ [t]
      if w.interval ≠ 0 then
        (catchUp t w.interval (rounds t w.interval w.target) w.target).map fun x =>
          (c', some { w with target := x })
      else some (c', none)
  else some (c, some w)

/-- Lines 88-101: the loop over the waiters. -/
def fireAll (t : ℚ) : List Waiter → List (List ℚ) → Option (List (List ℚ) × List Waiter)
  | [], qs => some (qs, [])
  | w :: ws, qs =>
    (qs[w.queue]?).bind fun c => (fireCell t w c).bind fun r =>
      (fireAll t ws (qs.set w.queue r.1)).map fun p => (p.1, r.2.toList ++ p.2)

/-- Operations. -/
inductive Op where
  /-- lines 55-60 -/
  | newTimer (d : ℚ)
  /-- lines 62-72 -/
  | newTicker (d : ℚ)
  /-- lines 78-80 -/
  | setTime (t : ℚ)
  /-- lines 74-76 -/
  | step (d : ℚ)
  /-- lines 134-145, of the timer with this queue; of a ticker: lines 175-176, nothing happens -/
  | stop (q : Nat)
  /-- lines 147-154; tickers do not have this method -/
  | reset (q : Nat) (d : ℚ)
  /-- `c().get_nowait()` -/
  | recv (q : Nat)

/-- What an operation returns. -/
inductive Out where
  | none
  | bool (b : Bool)
  | time (t : ℚ)
  /-- `QueueEmpty` -/
  | empty
deriving DecidableEq

/-- Lines 85-102. -/
def setTimeLocked (s : State) (t : ℚ) : Option State :=
  (fireAll t s.waiters s.queues).map fun p => ⟨t, p.2, p.1⟩

/-- Lines 150-154: reset the first waiter with this queue. -/
def resetFirst (q : Nat) (target : ℚ) : List Waiter → List Waiter
  | [] => []
  | w :: ws => if w.queue = q ∧ w.skip = false then { w with target := target } :: ws
    else w :: resetFirst q target ws

def run (s : State) : Op → Option (State × Out)
  | .newTimer d =>
    some ({ s with waiters := s.waiters ++ [⟨s.time + d, s.queues.length, 0, false⟩],
                   queues := s.queues ++ [[]] }, .none)
  | .newTicker d =>
    some ({ s with waiters := s.waiters ++ [⟨s.time + d, s.queues.length, d, true⟩],
                   queues := s.queues ++ [[]] }, .none)
  | .setTime t => (setTimeLocked s t).map fun s' => (s', .none)
  | .step d => (setTimeLocked s (s.time + d)).map fun s' => (s', .none)
  | .stop q =>
    some ({ s with waiters := s.waiters.filter fun w => !(w.queue == q && !w.skip) },
      .bool (s.waiters.any fun w => w.queue == q && !w.skip))
  | .reset q d =>
    some ({ s with waiters := resetFirst q (s.time + d) s.waiters },
      .bool (s.waiters.any fun w => w.queue == q && !w.skip))
  | .recv q =>
    match s.queues[q]? with
    | some (x :: c) => some ({ s with queues := s.queues.set q c }, .time x)
    | _ => some (s, .empty)

/-- A history: the state afterwards, and what each operation returned. -/
def exec (s : State) : List Op → Option (State × List Out)
  | [] => some (s, [])
  | o :: os => (run s o).bind fun p => (exec p.1 os).map fun r => (r.1, p.2 :: r.2)

end Aiok8s.FakeClock
