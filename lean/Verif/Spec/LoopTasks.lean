import Verif.Model.LoopTasks
/-!
# What C93 speaks of
-/
namespace Aiok8s.LoopTasks

/-- A task the loop made. -/
inductive Task where
  | stop
  | timer (due : ℚ)
  | get (due : ℚ)
deriving DecidableEq

/-- The tasks it made that have not ended. -/
def live (s : State) : List Task :=
  (if s.stop = .pending then [.stop] else []) ++
  (s.rounds.filter (!·.fired)).map (.timer ·.due) ++
  (s.rounds.filter (·.getting)).map (.get ·.due)

/-- Nobody clears the event. -/
def NeverCleared (es : List Ev) : Prop := Ev.clear ∉ es

/-- `random.random()` is between 0 and 1. -/
def Random : Ev → Prop
  | .start r | .wake r => 0 ≤ r ∧ r ≤ 1
  | _ => True

/-- The longest a timer may sleep. -/
def longest (c : Cfg) : ℚ := c.period + max 0 c.factor * c.period

end Aiok8s.LoopTasks
