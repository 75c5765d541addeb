import Verif.Model.PyStr
/-!
# `aiok8s/cache/reflector.py`

The reflector is driven by what the API server and the store answer; these answers are a script.
One script per call of `list_and_watch`.  Its last watch may be given up to any point of its
stream (`StreamEnd.open`), so that scripts also describe every prefix of a run.

Not modelled: cancellation; the periodic resync (lines 64-83) apart from the fact that it may fail
at any moment, which ends the watch (lines 162-163); time, apart from whether a watch lasted less
than a second (line 234).  The queue between `get_events` and the loop (lines 146-152) is first
in first out, so the loop sees the stream.
-/
namespace Aiok8s.Reflector

/-- `watch.py` lines 21-26: event types; `other` is any other string. -/
inductive EType where
  | added
  | modified
  | deleted
  | bookmark
  | error
  | other
deriving DecidableEq, Repr

/-- What the reflector finds out about objects; `G` are group, version and kind. -/
structure Access (O G : Type) where
  /-- `isinstance(obj, self._expected_type)` or no expected type (lines 169-171) -/
  isExpected : O → Bool
  /-- `meta.type_accessor(obj).group_version_kind` (line 179), `none`: it raises -/
  gvk : O → Option G
  /-- `meta.accessor(obj)` does not raise (line 188) -/
  isObject : O → Bool
  /-- `metadata.resource_version` (line 192), `none`: it raises -/
  version : O → Option String
  /-- `self._expected_gvk` -/
  expected : Option G

/-- An event of the stream; whether the store's method raises if it is called with it. -/
structure Event (O : Type) where
  /-- an event without `"type"` or `"object"` raises like an error event -/
  type : EType
  object : O
  storeFails : Bool

/-- How a stream ends. -/
inductive StreamEnd where
  /-- the iterator is exhausted; the watch lasted less than a second -/
  | closed (short : Bool)
  /-- the iterator (or `__aenter__`/`__aexit__`) raises -/
  | raises
  /-- a resync failed (lines 77-79) -/
  | resyncFails
  /-- it has not ended yet -/
  | open
deriving DecidableEq, Repr

/-- What a call of `watch` leads to. -/
inductive Watch (O : Type) where
  /-- it raises (lines 96-99) -/
  | fails
  | stream (es : List (Event O)) (e : StreamEnd)

/-- The answers for one call of `list_and_watch`. -/
inductive Script (O : Type) where
  /-- listing or understanding the answer raises (lines 57-60) -/
  | listFails
  /-- `store.replace` raises (line 141) -/
  | replaceFails (items : List O) (version : String)
  | listed (items : List O) (version : String) (ws : List (Watch O))

/-- Calls made by the reflector. -/
inductive Call (O : Type) where
  | list (version : String)
  | watch (version : String)
  | replace (items : List O) (version : String)
  | add (o : O)
  | update (o : O)
  | delete (o : O)
deriving DecidableEq, Repr

/-- What happened to an event. -/
inductive Handled where
  /-- an exception leaves the loop -/
  | raised
  /-- `continue` -/
  | skipped
  /-- lines 192-232 with this resource version -/
  | accepted (version : String)
deriving DecidableEq, Repr

variable {O G : Type} [DecidableEq G]

/-- Lines 178-192. -/
def check (A : Access O G) (o : O) : Handled :=
  match A.expected with
  | none =>
    if A.isObject o then match A.version o with
      | some v => .accepted v
      | none => .raised
    else .skipped
  | some g =>
    match A.gvk o with
    | none => .raised
    | some g' =>
      if g ≠ g' then .skipped
      else if A.isObject o then match A.version o with
        | some v => .accepted v
        | none => .raised
      else .skipped

/-- Lines 167-192. -/
def onEvent (A : Access O G) (e : Event O) : Handled :=
  if e.type = .error then .raised
  else if !A.isExpected e.object then .skipped
  else check A e.object

/-- Lines 193-229: the call for an accepted event; exceptions of the store are logged. -/
def storeCall (e : Event O) : List (Call O) :=
  match e.type with
  | .added => [.add e.object]
  | .modified => [.update e.object]
  | .deleted => [.delete e.object]
  | _ => []

/-- How `_watch_handler` ends. -/
inductive Ended where
  | returned
  | raised
  /-- it waits for an event that will never come -/
  | stuck
  /-- it has not ended yet -/
  | open
deriving DecidableEq, Repr

/-- What `_watch_handler` does. -/
structure Result (O : Type) where
  calls : List (Call O)
  /-- `options["resource_version"]` -/
  version : String
  /-- `_last_sync_resource_version` -/
  last : String
  ended : Ended

/-- Lines 233-238 and the other ends of the loop; `count` is `event_count`. -/
def atEnd (version last : String) (count : Nat) : StreamEnd → Result O
  | .closed short => ⟨[], version, last, if short && count == 0 then .raised else .returned⟩
  -- `get_events` does not put `None` (line 152)
  | .raises => ⟨[], version, last, .stuck⟩
  | .resyncFails => ⟨[], version, last, .raised⟩
  | .open => ⟨[], version, last, .open⟩

/-- Lines 157-238: the loop of `_watch_handler`. -/
def watchLoop (A : Access O G) (version last : String) (count : Nat) (end_ : StreamEnd) :
    List (Event O) → Result O
  | [] => atEnd version last count end_
  | e :: es =>
    match onEvent A e with
    | .raised => ⟨[], version, last, .raised⟩
    | .skipped => watchLoop A version last count end_ es
    | .accepted v =>
      let r := watchLoop A v v (count + 1) end_ es
      { r with calls := storeCall e ++ r.calls }

/-- How `list_and_watch` ends. -/
inductive Status where
  /-- it returns or raises -/
  | ended
  | stuck
  | open
deriving DecidableEq, Repr

/-- What happened so far. -/
structure Outcome (O : Type) where
  calls : List (Call O)
  /-- `_last_sync_resource_version` -/
  last : String
  status : Status

/-- Lines 88-108: the loop over watches. -/
def watchAll (A : Access O G) (version last : String) : List (Watch O) → Outcome O
  | [] => ⟨[.watch version], last, .open⟩
  | .fails :: _ => ⟨[.watch version], last, .ended⟩
  | .stream es e :: ws =>
    let r := watchLoop A version last 0 e es
    match r.ended with
    | .returned =>
      let o := watchAll A r.version r.last ws
      { o with calls := .watch version :: r.calls ++ o.calls }
    | .raised => ⟨.watch version :: r.calls, r.last, .ended⟩
    | .stuck => ⟨.watch version :: r.calls, r.last, .stuck⟩
    | .open => ⟨.watch version :: r.calls, r.last, .open⟩

/-- Lines 53-111: `list_and_watch`; `last` is `_last_sync_resource_version`. -/
def listAndWatch (A : Access O G) (last : String) : Script O → Outcome O
  | .listFails => ⟨[.list "0"], last, .ended⟩
  | .replaceFails items v => ⟨[.list "0", .replace items v], last, .ended⟩
  | .listed items v ws =>
    let o := watchAll A v v ws
    { o with calls := .list "0" :: .replace items v :: o.calls }

/-- Lines 40-51: `run`. -/
def run (A : Access O G) (last : String) : List (Script O) → Outcome O
  | [] => ⟨[], last, .open⟩
  | s :: ss =>
    let o := listAndWatch A last s
    match o.status with
    | .ended =>
      let p := run A o.last ss
      { p with calls := o.calls ++ p.calls }
    | _ => o

/-- `api/meta.py` lines 163-165: `group_version_kind`, from `apiVersion` and `kind`; `none`: the
unpacking of `split("/")` raises `ValueError`. -/
def groupVersionKind (apiVersion kind : List Char) :
    Option (List Char × List Char × List Char) :=
  match pySplit '/' apiVersion with
  | [g, v] => some (g, v, kind)
  | _ => none

/-- Raw objects (dictionaries, `api/meta.py` lines 124-175) as far as the reflector reads them. -/
structure Dict where
  apiVersion : List Char
  kind : List Char
  version : String
deriving DecidableEq

/-- A reflector with an expected `GroupVersionKind` (lines 120-124). -/
def dictAccess (g v k : List Char) : Access Dict (List Char × List Char × List Char) where
  isExpected _ := true
  gvk o := groupVersionKind o.apiVersion o.kind
  isObject _ := true
  version o := some o.version
  expected := some (g, v, k)

end Aiok8s.Reflector
