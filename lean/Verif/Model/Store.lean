import Verif.Model.PyDict
/-!
# `aiok8s/cache/thread_safe_store.py` and `aiok8s/cache/store.py`

All critical sections (`async with self._lock`) are free of awaits that suspend, so every call
is one atomic step.  Stored objects are immutable values different from `None` (objects that
are changed in place after being stored: `Verif.Model.StoreRef`).  An index function is a total
Lean function into `Option (List V)`; `none` means that it raises.  When an exception leaves a
method half-way, the model keeps the partially updated state.
-/
namespace Aiok8s.Store

/-- What the methods raise. -/
inductive Exc where
  /-- `StoreKeyError(obj)`: the key function raised (`store.py` lines 58-59 and alike) -/
  | storeKeyError
  /-- `KeyError` -/
  | keyError
  /-- the exception of an index function, propagated -/
  | indexFunc
  /-- "cannot add indexers to running index" (`thread_safe_store.py` line 113) -/
  | running
  /-- "indexer conflict" (`thread_safe_store.py` line 117) -/
  | conflict
deriving DecidableEq, Repr

/-- An index function; `none`: raises. -/
abbrev IndexFunc (O V : Type) := O → Option (List V)

/-- `index.py` lines 26-27: `Index`, a dict from index values to sets of keys. -/
abbrev Index (V K : Type) := PyDict V (List K)

/-- `thread_safe_store.py` lines 26-30: the attributes of `_ThreadSafeMap`. -/
structure State (K O N V : Type) where
  /-- `self._items` -/
  items : PyDict K O
  /-- `self._indexers` -/
  indexers : PyDict N (IndexFunc O V)
  /-- `self._indices` -/
  indices : PyDict N (Index V K)

variable {K O N V : Type} [DecidableEq K] [DecidableEq N] [DecidableEq V]

/-- `store.py` lines 44-47 (`new_indexer`; `new_store`, lines 37-41, is the case of no
indexers). -/
def init (indexers : PyDict N (IndexFunc O V)) : State K O N V := ⟨[], indexers, []⟩

/-- `thread_safe_store.py` lines 139-144: the inner loop of `_delete_from_indices`.  The flag
is `false` when `set_.remove(key)` raised `KeyError`. -/
def deleteValues (key : K) : Index V K → List V → Index V K × Bool
  | idx, [] => (idx, true)
  | idx, v :: vs =>
    match idx.get? v with
    | none => deleteValues key idx vs
    | some set =>
      if set = [] then deleteValues key idx vs
      else if key ∈ set then
        let set := PySet.remove set key
        deleteValues key (if set = [] then idx.del v else idx.set v set) vs
      else (idx, false)

/-- `thread_safe_store.py` lines 133-144: `_delete_from_indices`; the first argument is the
rest of `self._indexers.items()`. -/
def deleteFromIndices (obj : O) (key : K) :
    PyDict N (IndexFunc O V) → PyDict N (Index V K) → PyDict N (Index V K) × Option Exc
  | [], ix => (ix, none)
  | (name, f) :: fs, ix =>
    match f obj with
    | none => (ix, some .indexFunc)
    | some vs =>
      match ix.get? name with
      | none => deleteFromIndices obj key fs ix
      | some idx =>
        let r := deleteValues key idx vs
        if r.2 then deleteFromIndices obj key fs (ix.set name r.1)
        else (ix.set name r.1, some .keyError)

/-- `thread_safe_store.py` lines 129-131: the inner loop of `_update_indices`. -/
def addValues (key : K) : Index V K → List V → Index V K
  | idx, [] => idx
  | idx, v :: vs => addValues key (idx.set v (PySet.add ((idx.get? v).getD []) key)) vs

/-- `thread_safe_store.py` lines 126-131: the loop of `_update_indices`. -/
def addToIndices (obj : O) (key : K) :
    PyDict N (IndexFunc O V) → PyDict N (Index V K) → PyDict N (Index V K) × Option Exc
  | [], ix => (ix, none)
  | (name, f) :: fs, ix =>
    match f obj with
    | none => (ix, some .indexFunc)
    | some vs =>
      addToIndices obj key fs (ix.set name (addValues key ((ix.get? name).getD []) vs))

/-- `thread_safe_store.py` lines 123-131: `_update_indices`. -/
def updateIndices (indexers : PyDict N (IndexFunc O V)) (ix : PyDict N (Index V K))
    (old : Option O) (new : O) (key : K) : PyDict N (Index V K) × Option Exc :=
  match old with
  | none => addToIndices new key indexers ix
  | some o =>
    match deleteFromIndices o key indexers ix with
    | (ix, some e) => (ix, some e)
    | (ix, none) => addToIndices new key indexers ix

/-- `thread_safe_store.py` lines 32-36 and 38-42: `add` and `update` (same body). -/
def put (s : State K O N V) (key : K) (obj : O) : State K O N V × Option Exc :=
  let old := s.items.get? key
  let r := updateIndices s.indexers s.indices old obj key
  ({ s with items := s.items.set key obj, indices := r.1 }, r.2)

/-- `thread_safe_store.py` lines 44-52: `delete`. -/
def delete (s : State K O N V) (key : K) : State K O N V × Option Exc :=
  match s.items.get? key with
  | none => (s, none)
  | some obj =>
    match deleteFromIndices obj key s.indexers s.indices with
    | (ix, some e) => ({ s with indices := ix }, some e)
    | (ix, none) => ({ s with items := s.items.del key, indices := ix }, none)

/-- `thread_safe_store.py` lines 67-68: the loop of `replace`. -/
def indexAll (indexers : PyDict N (IndexFunc O V)) :
    PyDict K O → PyDict N (Index V K) → PyDict N (Index V K) × Option Exc
  | [], ix => (ix, none)
  | (key, item) :: rest, ix =>
    match addToIndices item key indexers ix with
    | (ix, some e) => (ix, some e)
    | (ix, none) => indexAll indexers rest ix

/-- `thread_safe_store.py` lines 63-68: `replace`. -/
def replaceItems (s : State K O N V) (items : PyDict K O) : State K O N V × Option Exc :=
  let r := indexAll s.indexers items []
  ({ s with items := items, indices := r.1 }, r.2)

/-- `[self._items[key] for key in set_]`; `none`: `KeyError` (`thread_safe_store.py` lines 83
and 105). -/
def lookupAll (items : PyDict K O) : List K → Option (List O)
  | [] => some []
  | k :: ks =>
    match items.get? k, lookupAll items ks with
    | some o, some os => some (o :: os)
    | _, _ => none

/-- `set` built by iterating over lists (`thread_safe_store.py` lines 78-82). -/
def unionSets (idx : Index V K) : List V → List K → List K
  | [], acc => acc
  | v :: vs, acc => unionSets idx vs (((idx.get? v).getD []).foldl PySet.add acc)

/-- `thread_safe_store.py` lines 75-82: `return_key_set`. -/
def returnKeySet (idx : Index V K) : List V → List K
  | [v] => (idx.get? v).getD []
  | vs => unionSets idx vs []

/-- What a call returns. -/
inductive Out (K O V : Type) where
  | ok
  | obj (o : Option O)
  | objs (os : List O)
  | keys (ks : List K)
  | vals (vs : List V)
  | raised (e : Exc)
deriving DecidableEq, Repr

/-- `thread_safe_store.py` lines 70-83: `index`. -/
def index (s : State K O N V) (name : N) (obj : O) : Out K O V :=
  match s.indexers.get? name with
  | none => .raised .keyError
  | some f =>
    match f obj with
    | none => .raised .indexFunc
    | some vs =>
      let idx := (s.indices.get? name).getD []
      match lookupAll s.items (returnKeySet idx vs) with
      | some os => .objs os
      | none => .raised .keyError

/-- `thread_safe_store.py` lines 85-91: `index_keys`. -/
def indexKeys (s : State K O N V) (name : N) (v : V) : Out K O V :=
  match s.indexers.get? name with
  | none => .raised .keyError
  | some _ => .keys (PyDict.get? ((s.indices.get? name).getD []) v |>.getD [])

/-- `thread_safe_store.py` lines 93-97: `list_index_func_values`. -/
def listIndexFuncValues (s : State K O N V) (name : N) : Out K O V :=
  .vals (PyDict.keys ((s.indices.get? name).getD []))

/-- `thread_safe_store.py` lines 99-105: `by_index`. -/
def byIndex (s : State K O N V) (name : N) (v : V) : Out K O V :=
  match s.indexers.get? name with
  | none => .raised .keyError
  | some _ =>
    match lookupAll s.items (PyDict.get? ((s.indices.get? name).getD []) v |>.getD []) with
    | some os => .objs os
    | none => .raised .keyError

/-- `d.update(e)` of a dict. -/
def dictUpdate {A B : Type} [DecidableEq A] (d e : PyDict A B) : PyDict A B :=
  e.foldl (fun d p => d.set p.1 p.2) d

/-- `thread_safe_store.py` lines 110-118: `add_indexers`; `old_keys | new_keys` is the union
of the two key sets. -/
def addIndexers (s : State K O N V) (new : PyDict N (IndexFunc O V)) :
    State K O N V × Option Exc :=
  if s.items ≠ [] then (s, some .running)
  else
    let union := new.keys.foldl PySet.add s.indexers.keys
    if union ≠ [] then (s, some .conflict)
    else ({ s with indexers := dictUpdate s.indexers new }, none)

/-- `store.py` lines 93-99: the dict built by `_Cache.replace`; `none`: the key function raised. -/
def buildItems (key : O → Option K) : List O → PyDict K O → Option (PyDict K O)
  | [], items => some items
  | o :: os, items =>
    match key o with
    | none => none
    | some k => buildItems key os (items.set k o)

/-- The public calls of `_Cache` (`store.py` lines 55-121); `get_indexers` (lines 105-106):
`Verif.Model.StoreIndexers`. -/
inductive Op (K O N V : Type) where
  | add (o : O)
  | update (o : O)
  | delete (o : O)
  | replace (os : List O)
  | list
  | listKeys
  | get (o : O)
  | getByKey (k : K)
  | resync
  | index (n : N) (o : O)
  | indexKeys (n : N) (v : V)
  | listIndexFuncValues (n : N)
  | byIndex (n : N) (v : V)
  | addIndexers (new : PyDict N (IndexFunc O V))

/-- A call that returns nothing or raises. -/
def ret (r : State K O N V × Option Exc) : State K O N V × Out K O V :=
  match r with
  | (s, none) => (s, .ok)
  | (s, some e) => (s, .raised e)

/-- `store.py` lines 55-121: one call; `key` is `self._key_func`, `none`: it raises. -/
def step (key : O → Option K) (s : State K O N V) : Op K O N V → State K O N V × Out K O V
  | .add o | .update o =>
    match key o with
    | none => (s, .raised .storeKeyError)
    | some k => ret (put s k o)
  | .delete o =>
    match key o with
    | none => (s, .raised .storeKeyError)
    | some k => ret (delete s k)
  | .replace os =>
    match buildItems key os [] with
    | none => (s, .raised .storeKeyError)
    | some items => ret (replaceItems s items)
  | .list => (s, .objs s.items.values)
  | .listKeys => (s, .keys s.items.keys)
  | .get o =>
    match key o with
    | none => (s, .raised .storeKeyError)
    | some k => (s, .obj (s.items.get? k))
  | .getByKey k => (s, .obj (s.items.get? k))
  | .resync => (s, .ok)
  | .index n o => (s, index s n o)
  | .indexKeys n v => (s, indexKeys s n v)
  | .listIndexFuncValues n => (s, listIndexFuncValues s n)
  | .byIndex n v => (s, byIndex s n v)
  | .addIndexers new => ret (addIndexers s new)

/-- The state after a sequence of calls. -/
def exec (key : O → Option K) (s : State K O N V) : List (Op K O N V) → State K O N V
  | [] => s
  | o :: os => exec key (step key s o).1 os

end Aiok8s.Store
