import Verif.Model.Client
/-!
# What the registry of clients is for (C79)
-/
namespace Aiok8s.Client
variable {G T M : Type}

/-- The classes that keep their place: the first one of every gvk. -/
inductive Accepted : List (Cls G T M) → List Bool → List (Cls G T M) → Prop where
  | nil : Accepted [] [] []
  /-- nobody before has the gvk -/
  | take (cs bs acc c) : Accepted cs bs acc → (∀ d ∈ cs, d.gvk ≠ c.gvk) →
      Accepted (cs ++ [c]) (bs ++ [false]) (acc ++ [c])
  /-- somebody before has it -/
  | refuse (cs bs acc c d) : Accepted cs bs acc → d ∈ cs → d.gvk = c.gvk →
      Accepted (cs ++ [c]) (bs ++ [true]) acc

/-- What a request must be for objects of the class `c` in the namespace `ns` (none or empty: all of
them) with the given options. -/
structure Meets (c : Cls G T M) (ns : Option (List Char)) (options : List Char → Option (List Char))
    (q : Request M) : Prop where
  one : ∀ n, ns = some n → n ≠ [] → q.method = c.namespaced ∧
    ∀ k, PyDict.get? q.kwargs k = if k = "namespace".toList then some n else options k
  every : ns = none ∨ ns = some [] → q.method = c.all ∧ ∀ k, PyDict.get? q.kwargs k = options k

end Aiok8s.Client
