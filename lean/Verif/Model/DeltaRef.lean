import Verif.Model.DeltaFifo
/-!
# `aiok8s/cache/delta_fifo.py` with lists that are changed in place

`Deltas` is a `list` (`delta_fifo.py` lines 258-263) that can be changed by whoever has it.  `Verif.Model.DeltaFifo`
takes lists as values; here they have addresses, the queue holds addresses, and the callers may change every list
at any time between two calls.  (A callback of `pop` that changes lists is the same as a change right after that
`pop`: lines 153-163 do not look into a list any more.)  `Delta` and `DeletedFinalStateUnknown` are tuples and cannot
be changed.  Not modelled: a `Deltas` passed as an object to `add`, `update`, `delete` or `replace`.
-/
namespace Aiok8s.DeltaRef
open DeltaFifo (Obj DType Delta Deltas Known Outcome PopEnd keyOf dedupDeltas knownMarker pendingMarker)

/-- `delta_fifo.py` lines 26-34 with addresses in `self._items`; and the lists themselves: `heap r` is the content of
the list at `r`, addresses from `next` on are unused. -/
structure State (K O : Type) where
  heap : Nat → Deltas K O
  next : Nat
  /-- `self._items` -/
  items : PyDict K Nat
  /-- `self._queue` -/
  queue : List K
  /-- `self._populated` -/
  populated : Bool
  /-- `self._initial_population_count` -/
  count : Nat
  /-- `self._closed` -/
  closed : Bool

/-- `delta_fifo.py` lines 26-34. -/
def init {K O : Type} : State K O := ⟨fun _ => [], 0, [], [], false, 0, false⟩

/-- What is passed to `get`: an object, or a `Deltas` (`delta_fifo.py` lines 181-184). -/
inductive Arg (K O : Type) where
  | obj (x : Obj K O)
  | list (r : Nat)

/-- What happens: a caller makes a list or changes one, or calls the queue (`delta_fifo.py` lines 36-190). -/
inductive Ev (K O : Type) where
  /-- a caller makes a `Deltas` -/
  | make (ds : Deltas K O)
  /-- a caller changes the list at `r`, after which it contains `ds` -/
  | write (r : Nat) (ds : Deltas K O)
  | add (x : Obj K O)
  | update (x : Obj K O)
  | delete (kn : Option (Known K O)) (x : Obj K O)
  | list
  | listKeys
  | get (a : Arg K O)
  | getByKey (k : K)
  | replace (kn : Option (Known K O)) (xs : List (Obj K O))
  | resync (kn : Option (Known K O))
  | pop (o : Outcome)
  | addIfNotPresent (r : Nat)
  | hasSynced
  | close
  | isClosed

/-- Answers; lists by their address. -/
inductive Out (K O : Type) where
  /-- an answer without a `Deltas` in it -/
  | plain (o : DeltaFifo.Out K O)
  /-- the address of a list that a caller made -/
  | made (r : Nat)
  /-- the answer of `get` and `get_by_key` -/
  | list (r : Option Nat)
  /-- `pop` handed the list at `r` to the callback, and this is what it returns -/
  | popped (k : K) (r : Nat) (e : PopEnd) (skipped : Nat)
  /-- `StoreKeyError` from `ZeroLengthDeltasObjectError` -/
  | storeKeyError
  /-- nothing: a caller changed a list -/
  | none

variable {K O : Type} [DecidableEq K]

/-- `Deltas(...)`: a new list. -/
def alloc (s : State K O) (ds : Deltas K O) : State K O :=
  { s with
    heap := fun r => if r = s.next then ds else s.heap r
    next := s.next + 1 }

/-- `self._items.get(k)`, with the content. -/
def lookup (s : State K O) (k : K) : Option (Deltas K O) := (s.items.get? k).map s.heap

/-- `delta_fifo.py` lines 200-202: `_will_object_be_deleted_locked`. -/
def willBeDeleted (s : State K O) (k : K) : Bool :=
  match lookup s k with
  | none => false
  | some ds =>
    match ds.getLast? with
    | none => false
    | some d => d.type = .deleted

/-- `delta_fifo.py` lines 204-216: `_queue_action_locked`: a new list is made of the old one. -/
def queueAction (key : O → Option K) (s : State K O) (t : DType) (x : Obj K O) : State K O × Bool :=
  match keyOf key x with
  | none => (s, false)
  | some k =>
    if t = .sync ∧ willBeDeleted s k = true then (s, true)
    else
      let new := dedupDeltas ((lookup s k).getD [] ++ [⟨t, x⟩])
      if new ≠ [] then
        ({ alloc s new with
          queue := if s.items.has k then s.queue else s.queue ++ [k]
          items := s.items.set k s.next }, true)
      else ({ s with items := s.items.del k }, true)

/-- `delta_fifo.py` lines 192-198: `_add_if_not_present`: the list itself is kept. -/
def addIfNotPresent (s : State K O) (k : K) (r : Nat) : State K O :=
  if s.items.has k then { s with populated := true }
  else { s with
    populated := true
    queue := s.queue ++ [k]
    items := s.items.set k r }

/-- `delta_fifo.py` lines 50-61: whether `delete` returns early. -/
def skipDelete (s : State K O) (kn : Option (Known K O)) (k : K) : Bool :=
  match kn with
  | none => !s.items.has k
  | some kn =>
    match kn.get k with
    | none => false
    | some found => found.isNone && !s.items.has k

/-- `delta_fifo.py` lines 46-62: `delete`. -/
def delete (key : O → Option K) (s : State K O) (kn : Option (Known K O)) (x : Obj K O) : State K O × Out K O :=
  match keyOf key x with
  | none => (s, .plain .keyFunc)
  | some k =>
    let s := { s with populated := true }
    if skipDelete s kn k then (s, .plain .ok) else ((queueAction key s .deleted x).1, .plain .ok)

/-- `delta_fifo.py` lines 80-84: the first loop of `replace`. -/
def syncAll (key : O → Option K) (s : State K O) : List (Obj K O) → State K O × Option (List K)
  | [] => (s, some [])
  | x :: xs =>
    match keyOf key x with
    | none => (s, none)
    | some k =>
      match syncAll key (queueAction key s .sync x).1 xs with
      | (s, some ks) => (s, some (k :: ks))
      | (s, none) => (s, none)

/-- `delta_fifo.py` lines 86-97: the deletions without known objects. -/
def deletePending (key : O → Option K) (keys : List K) (s : State K O) : List (K × Nat) → State K O × Nat
  | [] => (s, 0)
  | (k, old) :: rest =>
    if k ∈ keys then deletePending key keys s rest
    else
      let r := deletePending key keys (queueAction key s .deleted (pendingMarker k (s.heap old))).1 rest
      (r.1, r.2 + 1)

/-- `delta_fifo.py` lines 103-127: the deletions with known objects. -/
def deleteKnown (key : O → Option K) (kn : Known K O) (keys : List K) (s : State K O) : List K → State K O × Nat
  | [] => (s, 0)
  | k :: rest =>
    if k ∈ keys then deleteKnown key kn keys s rest
    else
      let r := deleteKnown key kn keys (queueAction key s .deleted (knownMarker kn k)).1 rest
      (r.1, r.2 + 1)

/-- `delta_fifo.py` lines 85-97 and 102-127: the deletions of `replace`. -/
def deleteVanished (key : O → Option K) (kn : Option (Known K O)) (keys : List K) (s : State K O) : State K O × Nat :=
  match kn with
  | none => deletePending key keys s s.items
  | some kn => deleteKnown key kn keys s kn.keys

/-- `delta_fifo.py` lines 78-130: `replace`. -/
def replace (key : O → Option K) (s : State K O) (kn : Option (Known K O)) (xs : List (Obj K O)) :
    State K O × Out K O :=
  match syncAll key s xs with
  | (s, none) => (s, .plain .keyFunc)
  | (s, some keys) =>
    let r := deleteVanished key kn keys s
    ({ r.1 with
      populated := true
      count := if r.1.populated then r.1.count else xs.length + r.2 }, .plain .ok)

/-- `delta_fifo.py` lines 132-138 and 218-239: `resync` and `_sync_key_locked`. -/
def resyncKeys (key : O → Option K) (kn : Known K O) (s : State K O) : List K → State K O × Out K O
  | [] => (s, .plain .ok)
  | k :: rest =>
    match kn.get k with
    | none => resyncKeys key kn s rest
    | some none => resyncKeys key kn s rest
    | some (some x) =>
      match keyOf key x with
      | none => (s, .plain .keyFunc)
      | some id =>
        if ((lookup s id).getD []) ≠ [] then resyncKeys key kn s rest
        else resyncKeys key kn (queueAction key s .sync x).1 rest

/-- `delta_fifo.py` lines 132-138: `resync`. -/
def resync (key : O → Option K) (s : State K O) : Option (Known K O) → State K O × Out K O
  | none => (s, .plain .ok)
  | some kn => resyncKeys key kn s kn.keys

/-- `delta_fifo.py` lines 153-163: what happens after `await process(item)`. -/
def finish (s : State K O) (k : K) (r : Nat) (skipped : Nat) : Outcome → State K O × Out K O
  | .ok => (s, .popped k r .returned skipped)
  | .requeue false => (addIfNotPresent s k r, .popped k r .returned skipped)
  | .requeue true => (addIfNotPresent s k r, .popped k r .processError skipped)
  | .cancelled => (s, .popped k r .cancelled skipped)
  | .error => (s, .popped k r .processError skipped)

/-- `delta_fifo.py` lines 142-163: one attempt of `pop`; the third argument is `self._queue`. -/
def popLoop (s : State K O) (outcome : Outcome) : List K → Nat → State K O × Out K O
  | [], skipped =>
    ({ s with queue := [], count := s.count - skipped }, .plain (if s.closed then .closedError else .blocked))
  | k :: queue, skipped =>
    match s.items.get? k with
    | none => popLoop s outcome queue (skipped + 1)
    | some r =>
      finish { s with
        queue := queue
        count := s.count - (skipped + 1)
        items := s.items.del k } k r skipped outcome

/-- `delta_fifo.py` lines 74-76 and 289-290: `get_by_key`: a copy; `d and _copy_deltas(d)` is the list itself if it is
empty. -/
def getByKey (s : State K O) (k : K) : State K O × Out K O :=
  match s.items.get? k with
  | none => (s, .list none)
  | some r =>
    match s.heap r with
    | [] => (s, .list (some r))
    | ds => (alloc s ds, .list (some s.next))

/-- `delta_fifo.py` lines 70-72 and 180-187: `get`, `key_of`. -/
def get (key : O → Option K) (s : State K O) : Arg K O → State K O × Out K O
  | .obj x =>
    match keyOf key x with
    | none => (s, .plain .keyFunc)
    | some k => getByKey s k
  | .list r =>
    match (s.heap r).getLast? with
    | none => (s, .storeKeyError)
    | some d =>
      match keyOf key d.object with
      | none => (s, .plain .keyFunc)
      | some k => getByKey s k

/-- One event; `key` is `self._key_func`, `none`: it raises. -/
def step (key : O → Option K) (s : State K O) : Ev K O → State K O × Out K O
  | .make ds => (alloc s ds, .made s.next)
  | .write r ds => ({ s with heap := fun r' => if r' = r then ds else s.heap r' }, .none)
  | .add x =>
    let r := queueAction key { s with populated := true } .added x
    (r.1, .plain (if r.2 then .ok else .keyFunc))
  | .update x =>
    let r := queueAction key { s with populated := true } .updated x
    (r.1, .plain (if r.2 then .ok else .keyFunc))
  | .delete kn x => delete key s kn x
  | .list => (s, .plain (match DeltaFifo.newestObjects (s.items.values.map s.heap) with
    | some os => .objs os
    | none => .attributeError))
  | .listKeys => (s, .plain (.keys s.items.keys))
  | .get a => get key s a
  | .getByKey k => getByKey s k
  | .replace kn xs => replace key s kn xs
  | .resync kn => resync key s kn
  | .pop o => popLoop s o s.queue 0
  | .addIfNotPresent r =>
    match (s.heap r).getLast? with
    | none => (s, .plain .attributeError)
    | some d =>
      match keyOf key d.object with
      | none => (s, .plain .keyFunc)
      | some k => (addIfNotPresent s k r, .plain .ok)
  | .hasSynced => (s, .plain (.flag (s.populated && s.count == 0)))
  | .close => ({ s with closed := true }, .plain .ok)
  | .isClosed => (s, .plain (.flag s.closed))

/-- The state after a history. -/
def exec (key : O → Option K) (s : State K O) : List (Ev K O) → State K O
  | [] => s
  | e :: es => exec key (step key s e).1 es

/-- A history with its answers. -/
def trace (key : O → Option K) (s : State K O) : List (Ev K O) → List (Ev K O × Out K O)
  | [] => []
  | e :: es => (e, (step key s e).2) :: trace key (step key s e).1 es

end Aiok8s.DeltaRef
