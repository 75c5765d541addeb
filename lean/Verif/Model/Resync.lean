import Mathlib.Algebra.Order.Ring.Rat
/-!
# Resync periods of `aiok8s/cache/shared_informer.py`

Times and periods are rational numbers of seconds.  Registration and start happen under
`_started_lock`; a check is synchronous.  What else they do is in `Verif.Model.SharedInformer`.
-/
namespace Aiok8s.Resync

/-- Lines 306-310: the part of a listener that concerns resyncing. -/
structure Listener where
  /-- `_requested_resync_period` -/
  requested : ℚ
  /-- `_resync_period` -/
  period : ℚ
  /-- `_next_resync` -/
  next : ℚ
deriving DecidableEq

/-- Lines 76-79 and 244. -/
structure State where
  /-- `_resync_check_period` -/
  check : ℚ
  /-- `_default_event_handler_resync_period` -/
  default : ℚ
  started : Bool
  listeners : List Listener

/-- Lines 76-79 and 244. -/
def init (default : ℚ) : State := ⟨default, default, false, []⟩

/-- Lines 218-236. -/
def determine (desired check : ℚ) : ℚ :=
  if desired = 0 then 0
  else if check = 0 then 0
  else if desired < check then check
  else desired

/-- Lines 96-104: what is asked for, at least `_MINIMUM_RESYNC_PERIOD` (line 59) if anything. -/
def clamp (p : ℚ) : ℚ := if p ≠ 0 then (if p < 1 then 1 else p) else p

/-- Lines 291-296 with 410-411. -/
def checkPeriodChanged (ls : List Listener) (check : ℚ) : List Listener :=
  ls.map fun l => { l with period := determine l.requested check }

/-- Lines 299-310 and 407-408. -/
def newListener (requested period now : ℚ) : Listener := ⟨requested, period, now + period⟩

/-- Lines 85-126: `add_event_handler(handler, resync_period=p)` at time `now`. -/
def register (s : State) (p : Option ℚ) (now : ℚ) : State :=
  let p := clamp (p.getD s.default)
  if p ≠ 0 ∧ p < s.check then
    if s.started then
      { s with listeners := s.listeners ++ [newListener s.check (determine s.check s.check) now] }
    else
      { s with
        check := p
        listeners := checkPeriodChanged s.listeners p ++ [newListener p (determine p p) now] }
  else
    { s with listeners := s.listeners ++ [newListener p (determine p s.check) now] }

/-- Lines 404-405. -/
def due (l : Listener) (now : ℚ) : Bool := decide (l.period ≠ 0) && decide (l.next ≤ now)

/-- Lines 280-289: the listeners after a check at `now`. -/
def checked (ls : List Listener) (now : ℚ) : List Listener :=
  ls.map fun l => if due l now then { l with next := now + l.period } else l

/-- Lines 280-289: the positions of the listeners selected by a check at `now`. -/
def selected (ls : List Listener) (now : ℚ) : List Nat :=
  (List.range ls.length).filter fun i => match ls[i]? with
    | some l => due l now
    | none => false

/-- What can happen. -/
inductive Op where
  | register (p : Option ℚ) (now : ℚ)
  | start
  /-- `_should_resync` -/
  | check (now : ℚ)

/-- One operation. -/
def step (s : State) : Op → State
  | .register p now => register s p now
  | .start => { s with started := true }
  | .check now => { s with listeners := checked s.listeners now }

/-- The state after a sequence of operations. -/
def exec (s : State) : List Op → State
  | [] => s
  | o :: os => exec (step s o) os

/-- The checks of a sequence of operations with the listeners they select. -/
def checks (s : State) : List Op → List (ℚ × List Nat)
  | [] => []
  | .check now :: os => (now, selected s.listeners now) :: checks (step s (.check now)) os
  | o :: os => checks (step s o) os

end Aiok8s.Resync
