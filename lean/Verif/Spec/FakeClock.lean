import Verif.Model.FakeClock
/-!
# Timers and tickers, each by itself
-/
namespace Aiok8s.FakeClock.Spec

/-- The times the clock is set to, one after the other. -/
def times (now : ℚ) : List Op → List ℚ
  | [] => []
  | .setTime t :: os => t :: times t os
  | .step d :: os => (now + d) :: times (now + d) os
  | _ :: os => times now os

/-- The time afterwards. -/
def lastTime (now : ℚ) (os : List Op) : ℚ := (times now os).getLastD now

/-- How many timers and tickers are made: the number of the next queue. -/
def made (os : List Op) : Nat :=
  os.countP fun | .newTimer _ => true | .newTicker _ => true | _ => false

/-- What a user gets from queue `q`. -/
def received (q : Nat) : List Op → List Out → List ℚ
  | .recv q' :: os, .time x :: outs => if q' = q then x :: received q os outs
    else received q os outs
  | _ :: os, _ :: outs => received q os outs
  | _, _ => []

/-- The operation stops or resets the timer with this queue. -/
def touches (q : Nat) : Op → Bool
  | .stop q' => q' = q
  | .reset q' _ => q' = q
  | _ => false

/-- A timer by itself: the time, when it is due (`none`: it is not pending), what is in its
queue. -/
structure Timer where
  now : ℚ
  due : Option ℚ
  queue : List ℚ

/-- The time is changed. -/
def Timer.setTime (v : Timer) (t : ℚ) : Timer :=
  match v.due with
  | some x => if x ≤ t then ⟨t, none, [t]⟩ else ⟨t, v.due, v.queue⟩
  | none => ⟨t, none, v.queue⟩

/-- What an operation means for the timer with queue `q`, and what it returns if it is about that
timer. -/
def Timer.run (q : Nat) (v : Timer) : Op → Timer × Option Out
  | .setTime t => (v.setTime t, none)
  | .step d => (v.setTime (v.now + d), none)
  | .stop q' => if q' = q then ({ v with due := none }, some (.bool v.due.isSome)) else (v, none)
  | .reset q' d =>
    if q' = q then
      ({ v with due := v.due.map fun _ => v.now + d }, some (.bool v.due.isSome))
    else (v, none)
  | .recv q' =>
    if q' = q then match v.queue with
      | x :: c => ({ v with queue := c }, some (.time x))
      | [] => (v, some .empty)
    else (v, none)
  | _ => (v, none)

/-- A timer through a history. -/
def Timer.exec (q : Nat) (v : Timer) : List Op → Timer × List (Option Out)
  | [] => (v, [])
  | o :: os => ((Timer.exec q (v.run q o).1 os).1, (v.run q o).2 :: (Timer.exec q (v.run q o).1 os).2)

/-- The outputs agree with what is expected. -/
def agree : List Out → List (Option Out) → Prop
  | [], [] => True
  | o :: os, e :: es => (∀ x, e = some x → o = x) ∧ agree os es
  | _, _ => False

/-- A ticker with this start and interval by itself: the time, the latest time there has been, what
is in its queue. -/
structure Ticker where
  now : ℚ
  high : ℚ
  queue : List ℚ

/-- How many ticks are due up to time `t`: grid points `start + n * d`, `n ≥ 1`. -/
def ticks (start d t : ℚ) : ℤ := ⌊(t - start) / d⌋

/-- The time is changed: if a grid point is passed that was not passed before, there is one tick,
unless one is still waiting to be read. -/
def Ticker.setTime (start d : ℚ) (v : Ticker) (t : ℚ) : Ticker :=
  ⟨t, max v.high t,
    if ticks start d v.high < ticks start d t ∧ v.queue = [] then [t] else v.queue⟩

/-- What an operation means for the ticker with queue `q`. -/
def Ticker.run (q : Nat) (start d : ℚ) (v : Ticker) : Op → Ticker × Option Out
  | .setTime t => (v.setTime start d t, none)
  | .step x => (v.setTime start d (v.now + x), none)
  | .recv q' =>
    if q' = q then match v.queue with
      | x :: c => ({ v with queue := c }, some (.time x))
      | [] => (v, some .empty)
    else (v, none)
  | _ => (v, none)

/-- A ticker through a history. -/
def Ticker.exec (q : Nat) (start d : ℚ) (v : Ticker) : List Op → Ticker × List (Option Out)
  | [] => (v, [])
  | o :: os => ((Ticker.exec q start d (v.run q start d o).1 os).1,
      (v.run q start d o).2 :: (Ticker.exec q start d (v.run q start d o).1 os).2)

end Aiok8s.FakeClock.Spec
