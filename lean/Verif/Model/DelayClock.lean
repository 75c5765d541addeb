import Verif.Model.DelayQueue
/-!
# The delaying queue and adjustments of the wall clock

`aiok8s/workqueue/delaying_queue.py` reads the time with `RealClock.now` (`aiok8s/util/clock.py` lines
21-23), that is `time.time()`, which may be set forward and back while the program runs.  Its timers
(`aiok8s/util/_time.py` lines 5-16) sleep with `asyncio.sleep`, which measures the time that really
passes.  This model keeps both times apart; all else is the model of `Verif.Model.DelayQueue`.
-/
namespace Aiok8s.DelayClock
open Aiok8s

/-- A delaying queue in real time. -/
structure State (α : Type) where
  /-- the queue of `delaying_queue.py` lines 29-34 and its loop; its `clock` is the wall clock, and the
  time at which its `sleeping` says that the timer fires is not used -/
  q : DelayQueue.State α
  /-- the real time -/
  real : ℚ
  /-- the real time at which the timer that the loop waits for fires (`delaying_queue.py` line 85,
  `_time.py` lines 5-16) -/
  fires : Option ℚ

/-- A new queue at real time `t` and reading `w` of the wall clock. -/
def init {α : Type} (t w : ℚ) : State α := ⟨DelayQueue.init w, t, none⟩

/-- The moves. -/
inductive Ev (α : Type) where
  /-- the wall clock is set forward (or back, if `d` is negative) -/
  | adjust (d : ℚ)
  /-- a move of `Verif.Model.DelayQueue` -/
  | q (e : DelayQueue.Ev α)
deriving DecidableEq

/-- Observable events with the real times at which they happen. -/
inductive Log (α : Type) where
  | called (x : α) (d t : ℚ)
  | loopAdd (x : α) (t : ℚ)
deriving DecidableEq

/-- An observed event at real time `t`. -/
def stamp {α : Type} (t : ℚ) : DelayQueue.Log α → Log α
  | .called x d _ => .called x d t
  | .loopAdd x _ => .loopAdd x t

/-- The timer that the loop has created when it comes to wait (`delaying_queue.py` lines 80-87): the
duration is the difference of two readings of the wall clock. -/
def armed {α : Type} (before after : DelayQueue.Pc α) (wall real : ℚ) (old : Option ℚ) : Option ℚ :=
  match before, after with
  | .popping _, .sleeping (some f) => some (real + (f - wall))
  | .popping _, .sleeping none => none
  | _, _ => old

variable {α : Type} [DecidableEq α]

/-- One move; impossible moves change nothing. -/
def step (s : State α) : Ev α → State α × List (Log α)
  | .adjust d => ({ s with q := { s.q with clock := s.q.clock + d } }, [])
  | .q (.tick d) =>
    ({ s with q := (DelayQueue.step s.q (.tick d)).1, real := if 0 ≤ d then s.real + d else s.real }, [])
  | .q (.wake .timer) =>
    match s.q.pc, s.fires with
    | .sleeping _, some f =>
      (if f ≤ s.real then { s with q := { s.q with pc := .woke none } } else s, [])
    | _, _ => (s, [])
  | .q e =>
    let r := DelayQueue.step s.q e
    ({ s with q := r.1, fires := armed s.q.pc r.1.pc s.q.clock s.real s.fires }, r.2.map (stamp s.real))

/-- The state after a sequence of moves. -/
def exec (s : State α) : List (Ev α) → State α
  | [] => s
  | e :: es => exec (step s e).1 es

/-- What was observed during a sequence of moves. -/
def logOf (s : State α) : List (Ev α) → List (Log α)
  | [] => []
  | e :: es => (step s e).2 ++ logOf (step s e).1 es

end Aiok8s.DelayClock
