import Verif.Spec.System
import Verif.Spec.ControllerIdle
import Verif.Spec.Informer
/-!
# The whole on an idle event loop
-/
namespace Aiok8s.System.Spec
open Aiok8s Aiok8s.RateLimiters
open Aiok8s.Meta (Val NamespacedName)
variable {σ ε : Type}

/-- For the time `d` nothing can be done: the processing loop finds no item, the handler has got all notifications
and made all its requests, and the controller's queue and workers can do nothing. -/
structure QuietAll (I : Iface σ NamespacedName ε) (py38 : Bool) (ps : List Source.Pred) (i : Nat) (s : State σ)
    (d : ℚ) : Prop where
  pop : step I py38 ps i s (.inf .pop) = (s, [])
  deliver : step I py38 ps i s .deliver = (s, [])
  add : step I py38 ps i s .add = (s, [])
  ctl : Controller.Spec.QuietFor I py38 (fun _ => true) s.ctl d

/-- Time passes only when nothing can be done. -/
def IdleAll (I : Iface σ NamespacedName ε) (py38 : Bool) (ps : List Source.Pred) (i : Nat) (s : State σ)
    (es : List (Ev ε)) : Prop :=
  ∀ a d b, es = a ++ .ctl (.queue (.tick d)) :: b → 0 < d → QuietAll I py38 ps i (exec I py38 ps i s a) d

/-- Some worker waits for an item. -/
def Free (s : State σ) : Prop := ∃ w, s.ctl.workers w = .idle

/-- Some worker is in the reconciler with a request for `k`. -/
def InHand (s : State σ) (k : Val) : Prop :=
  ∃ w nn, s.ctl.workers w = .reconciling nn ∧ Meta.objectKeyToStoreKey nn = k

/-- What happens to queue and store of a shared informer; before the start, nothing. -/
def reports {K O : Type} : Bool → List (SharedInformer.Ev K O) → List (Informer.Ev K O)
  | _, [] => []
  | _, .start :: es => reports true es
  | b, .register :: es => reports b es
  | b, .check _ :: es => reports b es
  | true, .pop :: es => .pop (fun _ => .ok) :: reports true es
  | true, .add x :: es => .add x :: reports true es
  | true, .update x :: es => .update x :: reports true es
  | true, .delete x :: es => .delete x :: reports true es
  | true, .replace xs :: es => .replace xs :: reports true es
  | true, .resync :: es => .resync :: reports true es
  | false, _ :: es => reports false es

end Aiok8s.System.Spec
