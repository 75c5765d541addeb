import Verif.Model.PyDict
import Verif.Model.Monitor
/-!
# `aiok8s/cache/delta_fifo.py`

Every call that changes the queue runs under `self._cond`'s lock.  The only awaits that suspend
while the lock is held are `self._cond.wait()` (which releases it) and `await process(item)` in
`pop`.  While the callback runs no other task can change the queue (all changes need the lock),
so a `pop` attempt is one atomic step as far as the queue is concerned; the lock-free readers
that may look in the middle of it are treated in `Verif.Model.InformerSync`.  That this may be done so is C91: in
`Verif.Model.DeltaLock` the calls are taken apart and callbacks may call back into the queue.

The calls that consult `self._known_objects` (`delete`, `replace`, `resync`) carry what it
answers at that moment; it may be a different store each time.
-/
namespace Aiok8s.DeltaFifo

/-- Objects in deltas: real ones and `DeletedFinalStateUnknown(key, obj)` markers
(`delta_fifo.py` lines 266-268), whose `obj` is `None` or an object, possibly a marker again. -/
inductive Obj (K O : Type) where
  | real (o : O)
  | gone (k : K)
  | goneWith (k : K) (obj : Obj K O)
deriving DecidableEq, Repr

/-- `delta_fifo.py` lines 246-250: `DeltaType`. -/
inductive DType where
  | added
  | updated
  | deleted
  | sync
deriving DecidableEq, Repr

/-- `delta_fifo.py` lines 253-255: `Delta`. -/
structure Delta (K O : Type) where
  type : DType
  object : Obj K O
deriving DecidableEq, Repr

/-- `delta_fifo.py` lines 258-263: `Deltas`, a list. -/
abbrev Deltas (K O : Type) := List (Delta K O)

/-- What `self._known_objects` answers: `list_keys()` and `get_by_key(k)`; `get k = none` means
that `get_by_key` raises, `some none` that it returns `None`. -/
structure Known (K O : Type) where
  keys : List K
  get : K → Option (Option (Obj K O))

/-- `delta_fifo.py` lines 26-34: the attributes of `DeltaFIFO`. -/
structure State (K O : Type) where
  /-- `self._items` -/
  items : PyDict K (Deltas K O)
  /-- `self._queue` -/
  queue : List K
  /-- `self._populated` -/
  populated : Bool
  /-- `self._initial_population_count` -/
  count : Nat
  /-- `self._closed` -/
  closed : Bool
deriving DecidableEq, Repr

/-- `delta_fifo.py` lines 26-34. -/
def init {K O : Type} : State K O := ⟨[], [], false, 0, false⟩

/-- How the callback of `pop` ends (`delta_fifo.py` lines 153-162). -/
inductive Outcome where
  | ok
  /-- `RequeueError`, with or without `__cause__` -/
  | requeue (cause : Bool)
  /-- `asyncio.CancelledError` -/
  | cancelled
  /-- any other `Exception` -/
  | error
deriving DecidableEq, Repr

/-- How `pop` ends after the callback. -/
inductive PopEnd where
  | returned
  | processError
  | cancelled
deriving DecidableEq, Repr

/-- Answers. -/
inductive Out (K O : Type) where
  | ok
  /-- the exception of the key function -/
  | keyFunc
  | typeError
  | attributeError
  | flag (b : Bool)
  | deltas (d : Option (Deltas K O))
  | objs (os : List (Obj K O))
  | keys (ks : List K)
  /-- `pop` handed the deltas of `k` to the callback; `skipped` entries without deltas were
  taken off the queue before -/
  | popped (k : K) (ds : Deltas K O) (r : PopEnd) (skipped : Nat)
  /-- `FIFOClosedError` -/
  | closedError
  /-- `pop` went to sleep -/
  | blocked
deriving DecidableEq, Repr

variable {K O : Type} [DecidableEq K]

/-- `delta_fifo.py` lines 180-187: `key_of` for objects that are not `Deltas`; `none`: the key
function raises.  (`Deltas` as an object, lines 181-184: `Verif.Model.DeltaRef`.) -/
def keyOf (key : O → Option K) : Obj K O → Option K
  | .real o => key o
  | .gone k => some k
  | .goneWith k _ => some k

/-- `isinstance(obj, DeletedFinalStateUnknown)`. -/
def isMarker : Obj K O → Bool
  | .real _ => false
  | _ => true

/-- `delta_fifo.py` lines 281-286: `_is_dup`. -/
def isDup (a b : Delta K O) : Option (Delta K O) :=
  if b.type ≠ .deleted ∨ a.type ≠ .deleted then none
  else if isMarker b.object then some a
  else some b

/-- `delta_fifo.py` lines 271-278: `_dedup_deltas`. -/
def dedupDeltas (ds : Deltas K O) : Deltas K O :=
  match ds.reverse with
  | a :: b :: rest =>
    match isDup a b with
    | some out => (out :: rest).reverse
    | none => ds
  | _ => ds

/-- `delta_fifo.py` lines 200-202: `_will_object_be_deleted_locked`. -/
def willBeDeleted (s : State K O) (k : K) : Bool :=
  match s.items.get? k with
  | none => false
  | some ds =>
    match ds.getLast? with
    | none => false
    | some d => d.type = .deleted

/-- `delta_fifo.py` lines 204-216: `_queue_action_locked`; the flag tells whether the key
function raised. -/
def queueAction (key : O → Option K) (s : State K O) (t : DType) (x : Obj K O) :
    State K O × Bool :=
  match keyOf key x with
  | none => (s, false)
  | some k =>
    if t = .sync ∧ willBeDeleted s k = true then (s, true)
    else
      let new := dedupDeltas ((s.items.get? k).getD [] ++ [⟨t, x⟩])
      if new ≠ [] then
        ({ s with
          queue := if s.items.has k then s.queue else s.queue ++ [k]
          items := s.items.set k new }, true)
      else ({ s with items := s.items.del k }, true)

/-- `delta_fifo.py` lines 192-198: `_add_if_not_present`. -/
def addIfNotPresent (s : State K O) (k : K) (ds : Deltas K O) : State K O :=
  if s.items.has k then { s with populated := true }
  else { s with
    populated := true
    queue := s.queue ++ [k]
    items := s.items.set k ds }

/-- `delta_fifo.py` lines 50-61: whether `delete` returns early, because the object is neither
known nor pending. -/
def skipDelete (s : State K O) (kn : Option (Known K O)) (k : K) : Bool :=
  match kn with
  | none => !s.items.has k
  | some kn =>
    match kn.get k with
    | none => false
    | some found => found.isNone && !s.items.has k

/-- `delta_fifo.py` lines 46-62: `delete`. -/
def delete (key : O → Option K) (s : State K O) (kn : Option (Known K O)) (x : Obj K O) :
    State K O × Out K O :=
  match keyOf key x with
  | none => (s, .keyFunc)
  | some k =>
    let s := { s with populated := true }
    if skipDelete s kn k then (s, .ok) else ((queueAction key s .deleted x).1, .ok)

/-- `delta_fifo.py` lines 80-84: the first loop of `replace`; `none` as key list means that the
key function raised. -/
def syncAll (key : O → Option K) (s : State K O) : List (Obj K O) → State K O × Option (List K)
  | [] => (s, some [])
  | x :: xs =>
    match keyOf key x with
    | none => (s, none)
    | some k =>
      match syncAll key (queueAction key s .sync x).1 xs with
      | (s, some ks) => (s, some (k :: ks))
      | (s, none) => (s, none)

/-- `delta_fifo.py` lines 90-96: the marker for a pending object that vanished. -/
def pendingMarker (k : K) (old : Deltas K O) : Obj K O :=
  match old.getLast? with
  | none => .gone k
  | some n => .goneWith k n.object

/-- `delta_fifo.py` lines 107-126: the marker for a known object that vanished. -/
def knownMarker (kn : Known K O) (k : K) : Obj K O :=
  match kn.get k with
  | some (some x) => .goneWith k x
  | _ => .gone k

/-- `delta_fifo.py` lines 86-97: the deletions without known objects; the third argument is the
rest of `self._items.items()` (the loop only overwrites values of keys it has passed). -/
def deletePending (key : O → Option K) (keys : List K) (s : State K O) :
    List (K × Deltas K O) → State K O × Nat
  | [] => (s, 0)
  | (k, old) :: rest =>
    if k ∈ keys then deletePending key keys s rest
    else
      let r := deletePending key keys (queueAction key s .deleted (pendingMarker k old)).1 rest
      (r.1, r.2 + 1)

/-- `delta_fifo.py` lines 103-127: the deletions with known objects; the fourth argument is the
rest of `known_keys`. -/
def deleteKnown (key : O → Option K) (kn : Known K O) (keys : List K) (s : State K O) :
    List K → State K O × Nat
  | [] => (s, 0)
  | k :: rest =>
    if k ∈ keys then deleteKnown key kn keys s rest
    else
      let r := deleteKnown key kn keys (queueAction key s .deleted (knownMarker kn k)).1 rest
      (r.1, r.2 + 1)

/-- `delta_fifo.py` lines 85-97 and 102-127: the deletions of `replace`. -/
def deleteVanished (key : O → Option K) (kn : Option (Known K O)) (keys : List K)
    (s : State K O) : State K O × Nat :=
  match kn with
  | none => deletePending key keys s s.items
  | some kn => deleteKnown key kn keys s kn.keys

/-- `delta_fifo.py` lines 78-130: `replace`. -/
def replace (key : O → Option K) (s : State K O) (kn : Option (Known K O))
    (xs : List (Obj K O)) : State K O × Out K O :=
  match syncAll key s xs with
  | (s, none) => (s, .keyFunc)
  | (s, some keys) =>
    let r := deleteVanished key kn keys s
    ({ r.1 with
      populated := true
      count := if r.1.populated then r.1.count else xs.length + r.2 }, .ok)

/-- `delta_fifo.py` lines 132-138 and 218-239: `resync` and `_sync_key_locked`; the fourth
argument is the rest of the keys. -/
def resyncKeys (key : O → Option K) (kn : Known K O) (s : State K O) :
    List K → State K O × Out K O
  | [] => (s, .ok)
  | k :: rest =>
    match kn.get k with
    | none => resyncKeys key kn s rest
    | some none => resyncKeys key kn s rest
    | some (some x) =>
      match keyOf key x with
      | none => (s, .keyFunc)
      | some id =>
        if ((s.items.get? id).getD []) ≠ [] then resyncKeys key kn s rest
        else resyncKeys key kn (queueAction key s .sync x).1 rest

/-- `delta_fifo.py` lines 132-138: `resync`. -/
def resync (key : O → Option K) (s : State K O) : Option (Known K O) → State K O × Out K O
  | none => (s, .ok)
  | some kn => resyncKeys key kn s kn.keys

/-- `delta_fifo.py` lines 153-163: what happens after `await process(item)`. -/
def finish (s : State K O) (k : K) (ds : Deltas K O) (skipped : Nat) :
    Outcome → State K O × Out K O
  | .ok => (s, .popped k ds .returned skipped)
  | .requeue false => (addIfNotPresent s k ds, .popped k ds .returned skipped)
  | .requeue true => (addIfNotPresent s k ds, .popped k ds .processError skipped)
  | .cancelled => (s, .popped k ds .cancelled skipped)
  | .error => (s, .popped k ds .processError skipped)

/-- `delta_fifo.py` lines 142-163: one attempt of `pop`; the third argument is `self._queue`. -/
def popLoop (s : State K O) (outcome : Outcome) : List K → Nat → State K O × Out K O
  | [], skipped =>
    ({ s with queue := [], count := s.count - skipped },
      if s.closed then .closedError else .blocked)
  | k :: queue, skipped =>
    match s.items.get? k with
    | none => popLoop s outcome queue (skipped + 1)
    | some ds =>
      finish { s with
        queue := queue
        count := s.count - (skipped + 1)
        items := s.items.del k } k ds skipped outcome

/-- The public calls of `DeltaFIFO` (`delta_fifo.py` lines 36-190). -/
inductive Op (K O : Type) where
  | add (x : Obj K O)
  | update (x : Obj K O)
  | delete (kn : Option (Known K O)) (x : Obj K O)
  | list
  | listKeys
  | get (x : Obj K O)
  | getByKey (k : K)
  | replace (kn : Option (Known K O)) (xs : List (Obj K O))
  | resync (kn : Option (Known K O))
  /-- one attempt of `pop`; how the callback will end -/
  | pop (r : Outcome)
  | addIfNotPresent (ds : Deltas K O)
  | hasSynced
  | close
  | isClosed

/-- `delta_fifo.py` lines 172-173: `has_synced`. -/
def hasSynced (s : State K O) : Bool := s.populated && s.count == 0

/-- `delta_fifo.py` lines 64-65: `list`; `None.object` raises `AttributeError` for an empty
entry. -/
def newestObjects : List (Deltas K O) → Option (List (Obj K O))
  | [] => some []
  | ds :: rest =>
    match ds.getLast?, newestObjects rest with
    | some d, some os => some (d.object :: os)
    | _, _ => none

/-- `delta_fifo.py` lines 74-76: `get_by_key`; `d and copy(d)` is `d` for empty and missing. -/
def getByKey (s : State K O) (k : K) : Out K O := .deltas (s.items.get? k)

/-- One call; `key` is `self._key_func`, `none`: it raises. -/
def step (key : O → Option K) (s : State K O) : Op K O → State K O × Out K O
  | .add x =>
    let r := queueAction key { s with populated := true } .added x
    (r.1, if r.2 then .ok else .keyFunc)
  | .update x =>
    let r := queueAction key { s with populated := true } .updated x
    (r.1, if r.2 then .ok else .keyFunc)
  | .delete kn x => delete key s kn x
  | .list => (s, match newestObjects s.items.values with
    | some os => .objs os
    | none => .attributeError)
  | .listKeys => (s, .keys s.items.keys)
  | .get x =>
    match keyOf key x with
    | none => (s, .keyFunc)
    | some k => (s, getByKey s k)
  | .getByKey k => (s, getByKey s k)
  | .replace kn xs => replace key s kn xs
  | .resync kn => resync key s kn
  | .pop r => popLoop s r s.queue 0
  | .addIfNotPresent ds =>
    match ds.getLast? with
    | none => (s, .attributeError)
    | some d =>
      match keyOf key d.object with
      | none => (s, .keyFunc)
      | some k => (addIfNotPresent s k ds, .ok)
  | .hasSynced => (s, .flag (hasSynced s))
  | .close => ({ s with closed := true }, .ok)
  | .isClosed => (s, .flag s.closed)

/-- Whether `_queue_action_locked` executes `notify_all()` (`delta_fifo.py` line 214). -/
def queueActionNotifies (key : O → Option K) (s : State K O) (t : DType) (x : Obj K O) : Bool :=
  match keyOf key x with
  | none => false
  | some k =>
    if t = .sync ∧ willBeDeleted s k = true then false
    else !(dedupDeltas ((s.items.get? k).getD [] ++ [⟨t, x⟩])).isEmpty

/-- Whether the first loop of `replace` notifies (`delta_fifo.py` lines 80-84 and 214). -/
def syncAllNotifies (key : O → Option K) (s : State K O) : List (Obj K O) → Bool
  | [] => false
  | x :: xs =>
    match keyOf key x with
    | none => false
    | some _ => queueActionNotifies key s .sync x ||
        syncAllNotifies key (queueAction key s .sync x).1 xs

/-- Whether the deletions of `replace` without known objects notify (`delta_fifo.py` lines
86-97 and 214). -/
def deletePendingNotifies (key : O → Option K) (keys : List K) (s : State K O) :
    List (K × Deltas K O) → Bool
  | [] => false
  | (k, old) :: rest =>
    if k ∈ keys then deletePendingNotifies key keys s rest
    else queueActionNotifies key s .deleted (pendingMarker k old) ||
      deletePendingNotifies key keys (queueAction key s .deleted (pendingMarker k old)).1 rest

/-- Whether the deletions of `replace` with known objects notify (`delta_fifo.py` lines 103-127
and 214). -/
def deleteKnownNotifies (key : O → Option K) (kn : Known K O) (keys : List K) (s : State K O) :
    List K → Bool
  | [] => false
  | k :: rest =>
    if k ∈ keys then deleteKnownNotifies key kn keys s rest
    else queueActionNotifies key s .deleted (knownMarker kn k) ||
      deleteKnownNotifies key kn keys (queueAction key s .deleted (knownMarker kn k)).1 rest

/-- Whether `resync` notifies (`delta_fifo.py` lines 132-138, 218-239 and 214). -/
def resyncNotifies (key : O → Option K) (kn : Known K O) (s : State K O) : List K → Bool
  | [] => false
  | k :: rest =>
    match kn.get k with
    | none => resyncNotifies key kn s rest
    | some none => resyncNotifies key kn s rest
    | some (some x) =>
      match keyOf key x with
      | none => false
      | some id =>
        if ((s.items.get? id).getD []) ≠ [] then resyncNotifies key kn s rest
        else queueActionNotifies key s .sync x ||
          resyncNotifies key kn (queueAction key s .sync x).1 rest

/-- Whether `replace` notifies (`delta_fifo.py` lines 78-130 and 214). -/
def replaceNotifies (key : O → Option K) (s : State K O) (kn : Option (Known K O))
    (xs : List (Obj K O)) : Bool :=
  syncAllNotifies key s xs ||
    match syncAll key s xs with
    | (_, none) => false
    | (s, some keys) =>
      match kn with
      | none => deletePendingNotifies key keys s s.items
      | some kn => deleteKnownNotifies key kn keys s kn.keys

/-- Whether a call executes `self._cond.notify_all()`: `delta_fifo.py` lines 178 (`close`), 198
(`_add_if_not_present`) and 214 (`_queue_action_locked`). -/
def notifies (key : O → Option K) (s : State K O) : Op K O → Bool
  | .add x => queueActionNotifies key s .added x
  | .update x => queueActionNotifies key s .updated x
  | .delete kn x =>
    match keyOf key x with
    | none => false
    | some k => if skipDelete s kn k then false else queueActionNotifies key s .deleted x
  | .replace kn xs => replaceNotifies key s kn xs
  | .resync none => false
  | .resync (some kn) => resyncNotifies key kn s kn.keys
  | .addIfNotPresent ds =>
    match ds.getLast? with
    | none => false
    | some d =>
      match keyOf key d.object with
      | none => false
      | some k => !s.items.has k
  | .pop (.requeue _) =>
    match popLoop s .ok s.queue 0 with
    | (s, .popped k _ _ _) => !s.items.has k
    | _ => false
  | .close => true
  | _ => false

/-- `DeltaFIFO` as a queue with blocked tasks (`delta_fifo.py` lines 140-163 and the callers of
`notify_all`). -/
def machine (key : O → Option K) : Monitor.Machine (State K O) (Op K O) (Out K O) where
  step := step key
  notifies := notifies key
  isPop | .pop _ => true
        | _ => false
  isBlocked | .blocked => true
            | _ => false

/-- The state after a sequence of calls. -/
def exec (key : O → Option K) (s : State K O) : List (Op K O) → State K O
  | [] => s
  | o :: os => exec key (step key s o).1 os

/-- The calls and their answers. -/
def trace (key : O → Option K) (s : State K O) : List (Op K O) → List (Op K O × Out K O)
  | [] => []
  | o :: os => (o, (step key s o).2) :: trace key (step key s o).1 os

end Aiok8s.DeltaFifo
