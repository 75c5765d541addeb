import Verif.Model.Mux
/-!
# What the watchers of a broadcaster should see
-/
namespace Aiok8s.Mux.Spec
variable {E : Type}

/-- What callers sent, in order. -/
def sent (as : List (Act E)) : List (In E) :=
  as.filterMap fun
    | .send i => some i
    | _ => none

/-- How many entries were handled. -/
def handledCount (as : List (Act E)) : Nat :=
  (as.filter fun
    | .take => true
    | _ => false).length

/-- The entries handled so far. -/
def handled (as : List (Act E)) : List (In E) := (sent as).take (handledCount as)

/-- One more entry: an event goes to every watcher, a registration makes a watcher which begins
with its prefix. -/
def owedStep (os : List (List E)) : In E → List (List E)
  | .event e => os.map (· ++ [e])
  | .watch p => os ++ [p.getD []]
  | .close => os

/-- What each watcher should see of these entries. -/
def owed (is : List (In E)) : List (List E) := is.foldl owedStep []

/-- The event the loop has not yet come to offer to a watcher. -/
def inFlight (s : State E) (i : Nat) : List E :=
  match s.loop with
  | .offer e ids => if i ∈ ids then [e] else []
  | .join e _ ids => if i ∈ ids then [e] else []
  | _ => []

/-- The events among some entries. -/
def eventsOf (is : List (In E)) : List E :=
  is.filterMap fun
    | .event e => some e
    | _ => none

/-- How often a reader of a watcher was cancelled. -/
def cancelled (i : Nat) (as : List (Act E)) : Nat :=
  (as.filter fun
    | .abandon j => i == j
    | _ => false).length

end Aiok8s.Mux.Spec
