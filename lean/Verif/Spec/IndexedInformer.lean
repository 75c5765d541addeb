import Verif.Model.IndexedInformer
import Verif.Spec.StoreRaise
import Verif.Spec.SharedInformer
/-!
# What is expected of the shared informer when index functions raise (C85)
-/
namespace Aiok8s.IndexedInformer.Spec
open Aiok8s.IndexedInformer
open Aiok8s.DeltaFifo (Obj keyOf)
open Aiok8s.Informer (Note)
open Aiok8s.SharedInformer (Ev)
variable {K O N V : Type} [DecidableEq K] [DecidableEq N] [DecidableEq V]

/-- The object a notification is about. -/
def subject : Note K O → Obj K O
  | .onAdd x => x
  | .onUpdate _ x => x
  | .onDelete x => x

/-- The notification is about the key `k`. -/
def about (key : O → Option K) (k : K) (n : Note K O) : Bool := decide (keyOf key (subject n) = some k)

/-- The objects that an event brings in. -/
def brings : Ev K O → List (Obj K O)
  | .add x => [x]
  | .update x => [x]
  | .replace xs => xs
  | _ => []

/-- Every object with the key `k` that comes in satisfies `P`. -/
def Only (key : O → Option K) (k : K) (P : Obj K O → Prop) (es : List (Ev K O)) : Prop :=
  ∀ e ∈ es, ∀ x ∈ brings e, keyOf key x = some k → P x

/-- What the event says about the watched objects. -/
def toInf : Ev K O → Option (Informer.Ev K O)
  | .add x => some (.add x)
  | .update x => some (.update x)
  | .delete x => some (.delete x)
  | .replace xs => some (.replace xs)
  | .resync => some .resync
  | _ => none

/-- The state with the indexer taken for a map. -/
def plain (s : State K O N V) : SharedInformer.State K O :=
  ⟨⟨s.q, s.ix.items⟩, s.sent, s.syncing, s.started⟩

end Aiok8s.IndexedInformer.Spec
