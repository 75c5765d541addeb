import Verif.Model.Listeners
/-!
# Specification of a listener with the tasks of several runs (C116)
-/
namespace Aiok8s.Listeners.Spec
open Aiok8s.Listeners
variable {N : Type}

/-- The notifications accepted by `_add`. -/
def accepted : List (Act N) → List N
  | [] => []
  | .put n :: as => n :: accepted as
  | _ :: as => accepted as

/-- What a pair of tasks holds: taken by `_run`, held and taken by `_pop`. -/
def holds (q : Pair N) : List N :=
  (match q.run with | .got n => [n] | _ => [])
    ++ (if q.putDone || q.joining then [] else q.cur.toList) ++ q.got.toList

/-- What has been accepted and is on its way, in no order. -/
def inFlight (s : State N) : List N := s.addQ ++ s.pend ++ s.nextQ ++ s.pairs.flatMap holds

/-- An action of the listener's own tasks or of its handler. -/
def Act.internal : Act N → Bool
  | .put _ | .stop | .newRun => false
  | _ => true

/-- The number of calls of the handler that have not ended. -/
def calling (s : State N) : Nat :=
  (s.pairs.filter fun q => match q.run with | .handling _ => true | _ => false).length

end Aiok8s.Listeners.Spec
