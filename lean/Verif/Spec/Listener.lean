import Verif.Model.Listener
/-!
# Specification of the listener
-/
namespace Aiok8s.Listener.Spec
open Aiok8s.Listener
variable {N : Type}

/-- The notifications accepted by `_add`. -/
def accepted : List (Act N) → List N
  | [] => []
  | .put n :: as => n :: accepted as
  | _ :: as => accepted as

/-- The handler's calls that ended. -/
def ended : List (Act N) → Nat
  | [] => 0
  | .handlerEnds _ :: as => ended as + 1
  | _ :: as => ended as

/-- What is in flight and pending, in order: taken by `_run`, in the second queue, held or buffered
by `_pop`, taken by `_pop`, in the first queue. -/
def inFlight (s : State N) : List N :=
  (match s.run with | .got n => [n] | _ => [])
    ++ s.nextQ
    ++ (if s.putDone || s.joining then [] else s.cur.toList)
    ++ s.pend ++ s.got.toList ++ s.addQ

/-- An action of the listener's own tasks or of its handler, other than new notifications and the
stop. -/
def Act.internal : Act N → Bool
  | .put _ => false
  | .stop => false
  | _ => true

/-- An action of the listener's own tasks: also not the end of a handler's call. -/
def Act.own : Act N → Bool
  | .put _ => false
  | .stop => false
  | .handlerEnds _ => false
  | _ => true

end Aiok8s.Listener.Spec
