import Verif.Model.InformerSync
/-!
# Specification: what it means that a list is in the cache
-/
namespace Aiok8s.InformerSync.Spec
open Aiok8s.InformerSync
open Aiok8s.DeltaFifo (Obj keyOf)
open Aiok8s.Informer (Note)
variable {K O : Type} [DecidableEq K]

/-- The call with which the handler learns that `x` has been put into the store. -/
def Stored (x : Obj K O) : Note K O → Prop
  | .onAdd y => y = x
  | .onUpdate _ y => y = x
  | .onDelete _ => False

/-- The first object of a list with key `k`. -/
def firstOf (key : O → Option K) (xs : List (Obj K O)) (k : K) : Option (Obj K O) :=
  xs.find? fun x => decide (keyOf key x = some k)

/-- At some moment of a history the store held `x` under `k`. -/
def WasStored (key : O → Option K) (as : List (Act K O)) (k : K) (x : Obj K O) : Prop :=
  ∃ before after s ns, as = before ++ after ∧ exec key init before = some (s, ns) ∧
    s.inf.items.get? k = some x

end Aiok8s.InformerSync.Spec
