import Verif.Model.Rerun
import Verif.Spec.Lifecycle
/-! # Words for the claims about `run` called again (C90) -/
namespace Aiok8s.Rerun.Spec
open Aiok8s.Rerun
variable {N : Type}

/-- What happens without anybody outside. -/
def own : Act N → Bool
  | .again => false
  | .life a => Lifecycle.Spec.own a

/-- `run` is not cancelled in these actions, nor a call of `add_event_handler`. -/
def noCancel (as : List (Act N)) : Prop := Act.life .cancel ∉ as ∧ ∀ r, Act.life (.regCancel r) ∉ as

/-- The informer has run and the call has ended, the way it should (C80). -/
def HasRun (as : List (Act N)) (s : State N) (L : List (Lifecycle.Ev N)) : Prop :=
  exec init as = some (s, L) ∧ Act.life .cancelAgain ∉ as ∧ s.life.started = true ∧ s.life.run = .ended

end Aiok8s.Rerun.Spec
