import Verif.Model.InformersMap
/-! # What a caller of the informers map was told -/
namespace Aiok8s.InformersMap
variable {G : Type}

/-- The informer that a task was given for a kind, or is waiting for. -/
def given : Pc G → Option (G × Nat)
  | .waiting g i => some (g, i)
  | .returned g i _ => some (g, i)
  | _ => none

end Aiok8s.InformersMap
