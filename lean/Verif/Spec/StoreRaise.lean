import Verif.Spec.Store
/-!
# The store when index functions raise (C84)
-/
namespace Aiok8s.Store.Spec
open Aiok8s.Store

variable {K O N V : Type} [DecidableEq K] [DecidableEq N] [DecidableEq V]

/-- Index functions that may raise, but return no value twice. -/
def Distinct (indexers : PyDict N (IndexFunc O V)) : Prop :=
  ∀ p ∈ indexers, ∀ o vs, p.2 o = some vs → vs.Nodup

/-- Every index function returns on `o`. -/
def Returns (indexers : PyDict N (IndexFunc O V)) (o : O) : Prop :=
  ∀ p ∈ indexers, ∃ vs, p.2 o = some vs

/-- The calls with their answers. -/
def trace (key : O → Option K) : State K O N V → List (Op K O N V) → List (Op K O N V × Out K O V)
  | _, [] => []
  | s, o :: os => (o, (step key s o).2) :: trace key (step key s o).1 os

/-- The call has returned. -/
def returned : Out K O V → Bool
  | .ok => true
  | _ => false

/-- Whether the last call that wrote the key `k` has returned, after one more call; a `replace` for whose
objects there is no key does not write. -/
def okStep (key : O → Option K) (k : K) (b : Bool) : Op K O N V × Out K O V → Bool
  | (.add o, out) | (.update o, out) | (.delete o, out) => if key o = some k then returned out else b
  | (.replace os, out) => if os.all (fun o => (key o).isSome) then returned out else b
  | _ => b

/-- The last call that wrote the key `k` has returned. -/
def lastOk (key : O → Option K) (k : K) (t : List (Op K O N V × Out K O V)) : Bool :=
  t.foldl (okStep key k) true

/-- The store answers `o` for the key `k`. -/
def Holds (key : O → Option K) (s : State K O N V) (k : K) (o : O) : Prop :=
  (step key s (.getByKey k)).2 = .obj (some o)

/-- The call has had its effect on the map: everything but a `delete` that raised. -/
def effective : Op K O N V × Out K O V → Bool
  | (.delete _, out) => returned out
  | _ => true

/-- The map after the calls that have had an effect. -/
def kept (key : O → Option K) (t : List (Op K O N V × Out K O V)) : Book K O :=
  Book.after key ((t.filter effective).map Prod.fst)

end Aiok8s.Store.Spec
