import Verif.Model.Meta
import Verif.Model.SharedInformer
/-!
# `aiok8s/controller/source.py` and `aiok8s/controller/handler.py`

From a notification of the shared informer to the requests that are added to the controller's queue.
Objects are those of `Verif.Model.Meta`; keys are what `meta_namespace_key_func` gives.  The queue's
`add` is `Verif.Model.WorkQueue`; here the calls are listed.
-/
namespace Aiok8s.Source
open Aiok8s.Meta (Val Accessor NamespacedName)
open Aiok8s.Informer (Note)

/-- What a handler of the shared informer gets: objects or `DeletedFinalStateUnknown`. -/
abbrev Obj := DeltaFifo.Obj Val Meta.Obj

/-- A predicate (`source.py` lines 52-54, 74-76, 88-90); `none`: it raises.  The events carry the
metadata besides the objects, which is a part of the objects. -/
structure Pred where
  create : Obj → Option Bool
  update : Obj → Obj → Option Bool
  delete : Obj → Option Bool

/-- How a call ends. -/
inductive End where
  | ok
  | raised
deriving DecidableEq

/-- `meta.py` lines 37-43: `accessor`.  A `DeletedFinalStateUnknown` is a tuple without `metadata`. -/
def accessor : Obj → Option Accessor
  | .real o => Meta.accessor o
  | .gone _ => none
  | .goneWith _ _ => none

/-- The loops of `source.py` lines 52-54, 74-76 and 88-90 over the predicates' answers. -/
def passes : List (Option Bool) → Option Bool
  | [] => some true
  | none :: _ => none
  | some false :: _ => some false
  | some true :: r => passes r

/-- `handler.py` lines 28-31 (and 38-41, 49-52, 63-66): the request for some metadata; `none`: an
attribute or key is missing. -/
def request (a : Accessor) : Option NamespacedName :=
  a.name.bind fun n => a.ns.map fun ns => ⟨ns, n⟩

/-- `handler.py` lines 23-33 (`create`) and 58-68 (`delete`): the calls of `queue.add`.  (Accessors are
always true, so lines 24-26 and 59-61 do nothing.) -/
def enqueueOne (a : Accessor) : List NamespacedName × End :=
  match request a with
  | some n => ([n], .ok)
  | none => ([], .raised)

/-- `handler.py` lines 35-56: `update`. -/
def enqueueTwo (old new : Accessor) : List NamespacedName × End :=
  match request old with
  | none => ([], .raised)
  | some o =>
    match request new with
    | none => ([o], .raised)
    | some n => ([o, n], .ok)

/-- `source.py` lines 45-57: `on_add` with an `EnqueueRequestForObject`. -/
def onAdd (ps : List Pred) (x : Obj) : List NamespacedName × End :=
  match accessor x with
  | none => ([], .ok)
  | some a =>
    match passes (ps.map fun p => p.create x) with
    | none => ([], .raised)
    | some false => ([], .ok)
    | some true => enqueueOne a

/-- `source.py` lines 59-79: `on_update`. -/
def onUpdate (ps : List Pred) (old new : Obj) : List NamespacedName × End :=
  match accessor old with
  | none => ([], .ok)
  | some a =>
    match accessor new with
    | none => ([], .ok)
    | some b =>
      match passes (ps.map fun p => p.update old new) with
      | none => ([], .raised)
      | some false => ([], .ok)
      | some true => enqueueTwo a b

/-- `source.py` lines 81-93: `on_delete`. -/
def onDelete (ps : List Pred) (x : Obj) : List NamespacedName × End :=
  match accessor x with
  | none => ([], .ok)
  | some a =>
    match passes (ps.map fun p => p.delete x) with
    | none => ([], .raised)
    | some false => ([], .ok)
    | some true => enqueueOne a

/-- One notification (`shared_informer.py` lines 376-384). -/
def handle (ps : List Pred) : Note Val Meta.Obj → List NamespacedName × End
  | .onAdd x => onAdd ps x
  | .onUpdate old new => onUpdate ps old new
  | .onDelete x => onDelete ps x

/-- The calls of `queue.add` for a sequence of notifications.  When a call raises, the listener goes on
with the next notification (`shared_informer.py` lines 387-393). -/
def requests (ps : List Pred) (ns : List (Note Val Meta.Obj)) : List NamespacedName :=
  ns.flatMap fun n => (handle ps n).1

end Aiok8s.Source
