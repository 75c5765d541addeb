import Verif.Model.Store
/-!
# `aiok8s/api/meta.py`, key functions, and `aiok8s/controller/_cache_reader.py`

Strings are lists of characters.  `none` as the result of a function: it raises an exception.
-/
namespace Aiok8s.Meta

abbrev Str := List Char

/-- The value of a field: a string or Python's `None` (`none`). -/
abbrev Val := Option Str

/-- Python objects as far as these functions look at them; the numbers stand for everything else in
an object. -/
inductive Obj where
  /-- `store.py` lines 24-25: an `ExplicitKey`, a kind of string -/
  | explicitKey (s : Str)
  /-- a typed object; `metadata` is `None` or has these `namespace` and `name` -/
  | typed (metadata : Option (Val × Val)) (rest : Nat)
  /-- a raw object; with `metadata` if it has that key -/
  | raw (metadata : Option (PyDict Str Val)) (rest : Nat)
  /-- anything else: it has no `metadata` -/
  | other (n : Nat)
deriving DecidableEq

/-- `meta.py` lines 99-101 and 124-126. -/
inductive Accessor where
  | typed (metadata : Option (Val × Val))
  | raw (metadata : PyDict Str Val)
deriving DecidableEq

/-- `meta.py` lines 37-43: `accessor`. -/
def accessor : Obj → Option Accessor
  | .explicitKey _ => none
  | .typed m _ => some (.typed m)
  | .raw m _ => m.map .raw
  | .other _ => none

/-- `meta.py` lines 103-105 and 128-130: `namespace`. -/
def Accessor.ns : Accessor → Option Val
  | .typed m => m.map (·.1)
  | .raw m => m.get? "namespace".toList

/-- `meta.py` lines 107-109 and 132-134: `name`. -/
def Accessor.name : Accessor → Option Val
  | .typed m => m.map (·.2)
  | .raw m => m.get? "name".toList

/-- Python's `str(x)` of a value, as in an f-string. -/
def str : Val → Str
  | some s => s
  | none => "None".toList

/-- Python's truth of a value. -/
def truthy : Val → Bool
  | some (_ :: _) => true
  | _ => false

/-- `store.py` lines 28-34: `meta_namespace_key_func`. -/
def keyFunc : Obj → Option Val
  | .explicitKey s => some (some s)
  | o => (accessor o).bind fun a => a.ns.bind fun ns =>
      if truthy ns then a.name.map fun n => some (str ns ++ '/' :: str n) else a.name

/-- `index.py` lines 21-23: `meta_namespace_index_func`. -/
def namespaceIndexFunc (o : Obj) : Option (List Val) :=
  (accessor o).bind fun a => a.ns.map fun ns => [ns]

/-- `reconcile.py` lines 18-20: `NamespacedName`. -/
structure NamespacedName where
  ns : Val
  name : Val
deriving DecidableEq

/-- The `NamespacedName` that `handler.py` makes of an object (lines 29-31, 39-41, 50-52, 64-66). -/
def nameOf (o : Obj) : Option NamespacedName :=
  (accessor o).bind fun a => a.name.bind fun n => a.ns.map fun ns => ⟨ns, n⟩

/-- `_cache_reader.py` lines 29-32: `_object_key_to_store_key`. -/
def objectKeyToStoreKey (k : NamespacedName) : Val :=
  if truthy k.ns then some (str k.ns ++ '/' :: str k.name) else k.name

/-- `_cache_reader.py` lines 21-26: `CacheReader.get`; `none`: `KeyError`. -/
def readerGet (s : Store.State Val Obj Str Val) (k : NamespacedName) : Option Obj :=
  s.items.get? (objectKeyToStoreKey k)

end Aiok8s.Meta
