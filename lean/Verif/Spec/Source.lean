import Verif.Model.Source
/-!
# Specification of sources: which notification asks for which request
-/
namespace Aiok8s.Source.Spec
open Aiok8s.Meta (Val NamespacedName)
open Aiok8s.Informer (Note)
open Aiok8s.Source (Obj Pred)

/-- The object has this namespace and name. -/
inductive Names : Obj → NamespacedName → Prop where
  | typed (ns name : Val) (rest : Nat) : Names (.real (.typed (some (ns, name)) rest)) ⟨ns, name⟩
  | raw (m : PyDict Meta.Str Val) (ns name : Val) (rest : Nat) (h1 : m.get? "namespace".toList = some ns)
      (h2 : m.get? "name".toList = some name) : Names (.real (.raw (some m) rest)) ⟨ns, name⟩

/-- The objects of a notification. -/
def objects : Note Val Meta.Obj → List Obj
  | .onAdd x => [x]
  | .onUpdate old new => [old, new]
  | .onDelete x => [x]

/-- What a predicate says to a notification. -/
def verdict (n : Note Val Meta.Obj) (p : Pred) : Option Bool :=
  match n with
  | .onAdd x => p.create x
  | .onUpdate old new => p.update old new
  | .onDelete x => p.delete x

/-- All predicates accept. -/
def Accepted (ps : List Pred) (n : Note Val Meta.Obj) : Prop := ∀ p ∈ ps, verdict n p = some true

/-- All objects of the notification have namespace and name. -/
def Named (n : Note Val Meta.Obj) : Prop := ∀ x ∈ objects n, ∃ nn, Names x nn

/-- The notification is about this namespace and name. -/
def About (n : Note Val Meta.Obj) (nn : NamespacedName) : Prop := ∃ x ∈ objects n, Names x nn

/-- A Kubernetes object: neither a `DeletedFinalStateUnknown` nor an `ExplicitKey`. -/
def Proper : Obj → Prop
  | .real (.explicitKey _) => False
  | .real _ => True
  | .gone _ => False
  | .goneWith _ _ => False

/-- All objects that the reflector hands over satisfy `G`. -/
def EvAll {K O : Type} (G : DeltaFifo.Obj K O → Prop) : SharedInformer.Ev K O → Prop
  | .add x => G x
  | .update x => G x
  | .delete x => G x
  | .replace xs => ∀ x ∈ xs, G x
  | _ => True

/-- The key a notification is about. -/
def noteKey {K O : Type} (key : O → Option K) : Note K O → Option K
  | .onAdd x => DeltaFifo.keyOf key x
  | .onUpdate _ x => DeltaFifo.keyOf key x
  | .onDelete x => DeltaFifo.keyOf key x

end Aiok8s.Source.Spec
