import Verif.Model.Builder
import Verif.Spec.Manager
/-! # Words for the claims about `build_controller` -/
namespace Aiok8s.Builder
variable {G : Type}

/-- A call of `manager.start`. -/
def isStart : Ev G → Bool
  | .mgr e => Manager.isStart e
  | _ => false

/-- A step of the call `b` of `build_controller` after it has begun (in the builder or in the cache). -/
def stepOf (b : Nat) : Ev G → Bool
  | .go d => d == b
  | .mgr (.cache (.look k)) => k == 4 * b + 1
  | .mgr (.cache (.make k)) => k == 4 * b + 1
  | .mgr (.cache (.poll k)) => k == 4 * b + 1
  | _ => false

end Aiok8s.Builder
