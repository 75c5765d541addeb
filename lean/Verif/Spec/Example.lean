import Verif.Model.Example
/-!
# What the example program should print
-/
namespace Aiok8s.Example
open Aiok8s.Meta (Val Str NamespacedName)

/-- The name of a pod as in the example's output. -/
def label (ns name : Str) : Str := ns ++ '/' :: name

/-- A pod of this namespace and name, as Kubernetes allows them. -/
structure Pod (x : Source.Obj) (ns name : Str) : Prop where
  obj : ∃ rest, x = .real (.typed (some (some ns, some name)) rest)
  ns : ns ≠ [] ∧ '/' ∉ ns
  name : '/' ∉ name

/-- The last line about this pod: the request stands for it in the cache. -/
def lastLine (ns name : Str) (out : List (NamespacedName × Str)) : Option Str :=
  (out.reverse.find? fun l => Meta.objectKeyToStoreKey l.1 = some (label ns name)).map (·.2)

end Aiok8s.Example
