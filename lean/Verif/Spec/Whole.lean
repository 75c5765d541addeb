import Verif.Model.Whole
import Verif.Spec.FollowEndless
import Verif.Spec.SystemEndless
/-!
# What the whole, from the API server to the reconciler, should achieve (C102)
-/
namespace Aiok8s.Whole.Spec
open Aiok8s.Whole
open Aiok8s.RateLimiters (Iface)
open Aiok8s.Reflector (Access)
open Aiok8s.Meta (Val NamespacedName)
open Aiok8s.Source.Spec
variable {σ ε G : Type} [DecidableEq G]

section
variable (A : Access Meta.Obj G) (ver : Nat → String) (p : ℚ) (I : Iface σ NamespacedName ε) (py38 : Bool)
  (ps : List Source.Pred) (i : Nat) (l : σ) (t : ℚ) (n : Nat) (f : Nat → Act ε)

/-- The state after the first `m` moves of an endless run. -/
def at_ : Nat → State σ
  | 0 => init l t n
  | m + 1 => (step A ver p I py38 ps i (at_ m) (f m)).1

/-- The calls of the reconciler in the first `m` moves. -/
def upTo : Nat → List System.Log
  | 0 => []
  | m + 1 => upTo m ++ (step A ver p I py38 ps i (at_ A ver p I py38 ps i l t n f m) (f m)).2

/-- A run without end in which move `L` stores a list; afterwards nothing goes wrong between server and
cache; nothing is put off for ever. -/
structure Endless (L : Nat) : Prop where
  /-- server, reflector, queue and indexer (C101) -/
  follow : Follow.Spec.Endless A Meta.keyFunc ver p
    (fun m => toFollow (at_ A ver p I py38 ps i l t n f m) (f m)) L
  /-- handler and controller (C98) -/
  system : System.Spec.Endless I py38 ps i l t n
    (fun m => toSystem A ver p (at_ A ver p I py38 ps i l t n f m) (f m))
  /-- the handler is due whenever a check finds any handler due -/
  due : ∀ m due, f m = .check due → due i = true
  /-- the server has no `ExplicitKey`s -/
  objects : ∀ m c, f m = .change c → Proper (.real c.obj)
end

end Aiok8s.Whole.Spec
