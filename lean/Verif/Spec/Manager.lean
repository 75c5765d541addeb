import Verif.Model.Manager
/-! # Words for the claims about the manager -/
namespace Aiok8s.Manager
variable {G : Type}

/-- A call of `manager.start`. -/
def isStart : Ev G → Bool
  | .start _ => true
  | _ => false

/-- The informers that feed the queue made by the call `n` of a controller's `start`, in the order of
registration. -/
def fed (s : State G) (n : Nat) : List Nat := (s.handlers.filter fun h => h.2.2 == n).map (·.1)

/-- The informers on which the call `n` of a controller's `start` has registered handlers, in order,
whatever they feed. -/
def reg (s : State G) (n : Nat) : List Nat := (s.handlers.filter fun h => h.2.1 == n).map (·.1)

end Aiok8s.Manager
