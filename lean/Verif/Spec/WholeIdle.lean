import Verif.Spec.Whole
import Verif.Spec.SystemIdle
/-!
# The whole, from the API server to the reconciler, on an idle event loop (C115)
-/
namespace Aiok8s.Whole.Spec
open Aiok8s.Whole
open Aiok8s.RateLimiters (Iface)
open Aiok8s.Reflector (Access)
open Aiok8s.Meta (Val NamespacedName)
variable {σ ε G : Type} [DecidableEq G]

section
variable (A : Access Meta.Obj G) (ver : Nat → String) (p : ℚ) (I : Iface σ NamespacedName ε) (py38 : Bool)
  (ps : List Source.Pred) (i : Nat)

/-- For the time `d` nothing can be done: the reflector waits for the server, and shared informer, handler and
controller can do nothing.  The server may well have something that it has not sent. -/
structure Still (s : State σ) (d : ℚ) : Prop where
  resume : Follow.step A Meta.keyFunc ver p (view s) (.tasks .resume) = none
  stored : Follow.step A Meta.keyFunc ver p (view s) (.tasks .stored) = none
  sys : System.Spec.QuietAll I py38 ps i s.sys d

/-- Time passes only when nothing can be done. -/
def IdleWhole (l : σ) (t : ℚ) (n : Nat) (f : Nat → Act ε) : Prop :=
  ∀ m d, f m = .sys (.ctl (.queue (.tick d))) → 0 < d →
    Still A ver p I py38 ps i (at_ A ver p I py38 ps i l t n f m) d
end

/-- A watch is open. -/
def Watching (s : State σ) : Prop := s.refl.pc = .waiting ∨ ∃ v, s.refl.pc = .storing v

/-- Move `a` stores a list. -/
def Lists : Act ε → Prop
  | .refl (.tasks (.replaced _)) => True
  | _ => False

end Aiok8s.Whole.Spec
