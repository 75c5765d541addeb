import Verif.Model.ReflectorTasks
/-!
# What is expected of the reflector's tasks (C82)
-/
namespace Aiok8s.ReflectorTasks.Spec
open Aiok8s.Reflector Aiok8s.ReflectorTasks
variable {O : Type}

/-- The calls of server and store, other than resyncs. -/
def callsOf : List (Ev O) → List (Call O)
  | [] => []
  | .call c :: es => c :: callsOf es
  | _ :: es => callsOf es

/-- Change the last script. -/
def mapLast (f : Script O → Script O) : List (Script O) → List (Script O)
  | [] => []
  | [s] => [f s]
  | s :: t :: r => s :: mapLast f (t :: r)

/-- One more watch. -/
def addWatch (w : Watch O) : Script O → Script O
  | .listed items v ws => .listed items v (ws ++ [w])
  | s => s

/-- Change the last watch. -/
def mapWatch (f : Watch O → Watch O) : List (Watch O) → List (Watch O)
  | [] => []
  | [w] => [f w]
  | w :: x :: r => w :: mapWatch f (x :: r)

/-- Change the last watch. -/
def changeWatch (f : Watch O → Watch O) : Script O → Script O
  | .listed items v ws => .listed items v (mapWatch f ws)
  | s => s

/-- What server and store have answered, as scripts of `Verif.Model.Reflector`, after one more thing was
seen. -/
def answer (ss : List (Script O)) : Ev O → List (Script O)
  | .call (.list _) => ss ++ [.listFails]
  | .call (.replace items v) => mapLast (fun _ => .replaceFails items v) ss
  | .replaced _ => mapLast (fun
      | .replaceFails items v => .listed items v []
      | s => s) ss
  | .watchFailed => mapLast (addWatch .fails) ss
  | .opened => mapLast (addWatch (.stream [] .open)) ss
  | .took e => mapLast (changeWatch fun
      | .stream es x => .stream (es ++ [e]) x
      | w => w) ss
  | .closed short => mapLast (changeWatch fun
      | .stream es _ => .stream es (.closed short)
      | w => w) ss
  | .resyncErr => mapLast (changeWatch fun
      | .stream es _ => .stream es .resyncFails
      | w => w) ss
  | _ => ss

/-- What server and store have answered. -/
def scripts (L : List (Ev O)) : List (Script O) := L.foldl answer []

/-- What the last watch gave, after one more thing was seen. -/
def givenStep (es : List (Event O)) : Ev O → List (Event O)
  | .opened => []
  | .read e => es ++ [e]
  | _ => es

/-- What the last watch gave. -/
def given (L : List (Ev O)) : List (Event O) := L.foldl givenStep []

/-- What was taken of it, after one more thing was seen. -/
def takenStep (es : List (Event O)) : Ev O → List (Event O)
  | .opened => []
  | .took e => es ++ [e]
  | _ => es

/-- What was taken of it. -/
def taken (L : List (Ev O)) : List (Event O) := L.foldl takenStep []

/-- The store is resynced only between the first call of `watch` after a list and the end of the last
watch before the next one; `on`: this is such a time. -/
def Scoped (on : Bool) : List (Ev O) → Prop
  | [] => True
  | .call (.watch _) :: es => Scoped true es
  | .call (.list _) :: es | .watchFailed :: es | .closed _ :: es | .fatal :: es | .resyncErr :: es =>
    Scoped false es
  | .resync _ :: es => on = true ∧ Scoped on es
  | _ :: es => Scoped on es

/-- The first resync is not before `period` after the list was stored, each further one not before
`period` after the one before; if `period` is zero there is none.  `b`: not before. -/
def Spaced (period : ℚ) (b : ℚ) : List (Ev O) → Prop
  | [] => True
  | .replaced t :: es => Spaced period (t + period) es
  | .resync t :: es => period ≠ 0 ∧ b ≤ t ∧ Spaced period (t + period) es
  | _ :: es => Spaced period b es

/-- Whether a resync has failed since the last list was stored, after one more thing was seen. -/
def failedStep (b : Bool) : Ev O → Bool
  | .replaced _ => false
  | .resyncFailed => true
  | _ => b

/-- Whether a resync has failed since the last list was stored. -/
def failed (L : List (Ev O)) : Bool := L.foldl failedStep false

/-- A watch is given up because of a resync only if one has failed since the last list was stored;
`b`: one has. -/
def Caused (b : Bool) : List (Ev O) → Prop
  | [] => True
  | .resyncErr :: es => b = true ∧ Caused b es
  | e :: es => Caused (failedStep b e) es

/-- What the reflector's own tasks do, without the answers of server and store, without the timer, and
without anybody who cancels; but a cancelled reader ends. -/
def own : Act O → Bool
  | .errGet | .resume | .readerEnds | .tasksEnded | .resyncEnds | .gathered => true
  | _ => false

/-- The store is resynced. -/
def resyncs : List (Ev O) → Bool
  | [] => false
  | .resync _ :: _ => true
  | _ :: es => resyncs es

/-- The server is asked for a list. -/
def asks : List (Ev O) → Bool
  | [] => false
  | .call (.list _) :: _ => true
  | _ :: es => asks es

/-- `should_resync` raises. -/
def isRaise : Act O → Bool
  | .tick none => true
  | _ => false

/-- Not in the middle of an event, and not cancelled. -/
def settled : Pc O → Bool
  | .storing _ | .leavingWatch .cancelled | .leaving true | .ended => false
  | _ => true

end Aiok8s.ReflectorTasks.Spec
