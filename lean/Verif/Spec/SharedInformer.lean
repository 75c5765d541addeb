import Verif.Model.SharedInformer
import Verif.Spec.Informer
/-!
# Specification of the shared informer: what each handler should know
-/
namespace Aiok8s.SharedInformer.Spec
open Aiok8s.SharedInformer
open Aiok8s.Informer.Spec (View see)
open Aiok8s.Informer (Note)
variable {K O : Type} [DecidableEq K]

/-- What a handler that follows its notifications believes. -/
def view (key : O → Option K) (ns : List (Note K O)) : View K O :=
  ns.foldl (see key) fun _ => none

/-- Listener `i` is found due by every check. -/
def Ev.selects (i : Nat) : Ev K O → Prop
  | .check due => due i = true
  | _ => True

/-- The event is not a list. -/
def Ev.noList : Ev K O → Prop
  | .replace _ => False
  | _ => True

end Aiok8s.SharedInformer.Spec
