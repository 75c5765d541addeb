import Verif.Spec.System
import Verif.Spec.Controller
/-!
# What the whole should achieve in runs without end
-/
namespace Aiok8s.System.Spec
open Aiok8s.Meta (Val NamespacedName)
open Aiok8s.RateLimiters (Iface)
variable {σ ε : Type}

/-- The state after the first `m` moves of an endless run. -/
def at_ (I : Iface σ NamespacedName ε) (py38 : Bool) (ps : List Source.Pred) (i : Nat) (l : σ) (t : ℚ) (n : Nat)
    (f : Nat → Ev ε) (m : Nat) : State σ :=
  exec I py38 ps i (init l t n) ((List.range m).map f)

/-- The calls of the reconciler in move `m`. -/
def logAt (I : Iface σ NamespacedName ε) (py38 : Bool) (ps : List Source.Pred) (i : Nat) (l : σ) (t : ℚ) (n : Nat)
    (f : Nat → Ev ε) (m : Nat) : List Log :=
  (step I py38 ps i (at_ I py38 ps i l t n f m) (f m)).2

/-- The calls of the reconciler in the first `m` moves. -/
def upTo (I : Iface σ NamespacedName ε) (py38 : Bool) (ps : List Source.Pred) (i : Nat) (l : σ) (t : ℚ) (n : Nat)
    (f : Nat → Ev ε) (m : Nat) : List Log :=
  logOf I py38 ps i (init l t n) ((List.range m).map f)

/-- A move as the controller sees it; if it does not see it, no time passes for it. -/
def toCtl (s : State σ) : Ev ε → Controller.Ev NamespacedName ε
  | .ctl e => e
  | .add => match s.todo with
    | nn :: _ => .queue (.base (.add nn))
    | [] => .queue (.tick 0)
  | _ => .queue (.tick 0)

/-- Nothing is put off for ever: what the controller sees is a fair run of it, and the handler is called
and goes on with its call again and again.  Anything may happen to the informer, without end. -/
structure Endless (I : Iface σ NamespacedName ε) (py38 : Bool) (ps : List Source.Pred) (i : Nat) (l : σ) (t : ℚ)
    (n : Nat) (f : Nat → Ev ε) : Prop where
  ctl : Controller.Spec.Fair I py38 l t n fun m => toCtl (at_ I py38 ps i l t n f m) (f m)
  deliver : ∀ N, ∃ m, N ≤ m ∧ f m = .deliver
  add : ∀ N, ∃ m, N ≤ m ∧ f m = .add

end Aiok8s.System.Spec
