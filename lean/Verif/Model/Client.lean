import Verif.Model.PyDict
/-!
# `aiok8s/controller/client.py` and `_create_structured_list_watch`, `_get_kwargs`
(`aiok8s/controller/_informers_map.py` lines 87-111)

Simplified: a client class is its class attributes and the two API methods that its `_get_lister`
chooses from, as `_PodClient` does (lines 51-60), the only class of the repository; constructing a
client (line 38) does not fail.  What the API methods do is not modelled, a request is the method that
is called and its keyword arguments.
-/
namespace Aiok8s.Client
open Aiok8s

/-- A subclass of `_Client` (lines 51-60). -/
structure Cls (G T M : Type) where
  gvk : G
  /-- `object_type`, `none`: falsy -/
  objectType : Option T
  /-- line 58: the method for one namespace -/
  namespaced : M
  /-- line 60: the method for all namespaces -/
  all : M
deriving DecidableEq, Repr

/-- Lines 45-48: the four global registries. -/
structure Registry (G T M : Type) where
  /-- `_GVK_TO_CLIENT_CLS` -/
  clients : PyDict G (Cls G T M)
  /-- `_GVK_TO_OBJECT_TYPE` -/
  types : PyDict G T
  /-- `_OBJECT_TYPE_TO_GVK` -/
  gvks : PyDict T G
  /-- `_UNSTRUCTURED` -/
  unstructured : List G

/-- Lines 45-48. -/
def init {G T M : Type} : Registry G T M := ⟨[], [], [], []⟩

variable {G T M : Type} [DecidableEq G] [DecidableEq T]

/-- Lines 26-35: `__init_subclass__`; `true`: it raises `AssertionError`. -/
def register (r : Registry G T M) (c : Cls G T M) : Registry G T M × Bool :=
  if PyDict.has r.clients c.gvk then (r, true)
  else
    let r := { r with clients := PyDict.set r.clients c.gvk c }
    match c.objectType with
    | some t =>
      ({ r with types := PyDict.set r.types c.gvk t, gvks := PyDict.set r.gvks t c.gvk }, false)
    | none => ({ r with unstructured := PySet.add r.unstructured c.gvk }, false)

/-- The classes are defined one after the other; the registry and which of them raised. -/
def load : Registry G T M → List (Cls G T M) → Registry G T M × List Bool
  | r, [] => (r, [])
  | r, c :: cs =>
    let (r, b) := register r c
    let (r, bs) := load r cs
    (r, b :: bs)

/-- Lines 63-64, `none`: `KeyError`. -/
def gvkForObject (r : Registry G T M) (t : T) : Option G := PyDict.get? r.gvks t

/-- Lines 67-68, `none`: `KeyError`. -/
def restClientForGvk (r : Registry G T M) (g : G) : Option (Cls G T M) := PyDict.get? r.clients g

/-- Truth of a namespace: neither `None` nor empty. -/
def truthy : Option (List Char) → Bool
  | none => false
  | some [] => false
  | some (_ :: _) => true

/-- Lines 56-60: `_get_lister`. -/
def getLister (c : Cls G T M) (ns : Option (List Char)) : M :=
  if truthy ns then c.namespaced else c.all

/-- A call of an API method. -/
structure Request (M : Type) where
  method : M
  kwargs : PyDict (List Char) (List Char)
  /-- whether the method is called by `Watch().stream` (line 42) -/
  watch : Bool
deriving DecidableEq, Repr

/-- `_informers_map.py` lines 107-111: `_get_kwargs`. -/
def getKwargs (ns : Option (List Char)) (options : PyDict (List Char) (List Char)) :
    PyDict (List Char) (List Char) :=
  match ns with
  | some n => if truthy ns then PyDict.set options "namespace".toList n else options
  | none => options

/-- `_informers_map.py` lines 88-92: `list_func`, `none`: it raises. -/
def listFunc (r : Registry G T M) (ns : Option (List Char)) (g : G)
    (options : PyDict (List Char) (List Char)) : Option (Request M) :=
  match restClientForGvk r g with
  | some c => some ⟨getLister c ns, getKwargs ns options, false⟩
  | none => none

/-- `_informers_map.py` lines 94-98: `watch_func` and `_get_watcher` (`client.py` lines 40-42), `none`: it
raises. -/
def watchFunc (r : Registry G T M) (ns : Option (List Char)) (g : G)
    (options : PyDict (List Char) (List Char)) : Option (Request M) :=
  match restClientForGvk r g with
  | some c => some ⟨getLister c ns, getKwargs ns options, true⟩
  | none => none

end Aiok8s.Client
