import Verif.Model.Lifecycle
/-!
# What is expected of a shared informer's life (C80, C81)
-/
namespace Aiok8s.Lifecycle.Spec
open Aiok8s.Lifecycle
variable {N : Type}

/-- What the handler of listener `l` was called with. -/
def calls (l : Nat) : List (Ev N) → List N
  | [] => []
  | .call m n :: es => if m = l then n :: calls l es else calls l es
  | _ :: es => calls l es

/-- What was put into the queue of listener `l`. -/
def puts (l : Nat) : List (Ev N) → List N
  | [] => []
  | .put m n :: es => if m = l then n :: puts l es else puts l es
  | _ :: es => puts l es

/-- What the handler of listener `l` is to be told: the content of the indexer at its registration, then
what was sent to it. -/
def told (l : Nat) : List (Ev N) → List N
  | [] => []
  | .new m items :: es => if m = l then items ++ told l es else told l es
  | .send n ls :: es => if l ∈ ls then n :: told l es else told l es
  | _ :: es => told l es

/-- What happens without anybody outside: no new calls of the informer, no new deltas, no cancellation;
but handlers return or raise, and the reflector ends when it is cancelled. -/
def own : Act N → Bool
  | .addHandler | .regCancel _ | .start | .deltaBlock | .distribute _ _ _ | .check _ | .cancel
  | .cancelAgain => false
  | _ => true

/-- The call of `add_event_handler` has ended. -/
def Over : Reg N → Prop
  | .ended _ => True
  | _ => False

/-- No call is cancelled in these actions. -/
def noCancel (as : List (Act N)) : Prop :=
  Act.cancel ∉ as ∧ ∀ r, Act.regCancel r ∉ as

end Aiok8s.Lifecycle.Spec
