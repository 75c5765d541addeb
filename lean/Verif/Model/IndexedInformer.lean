import Verif.Model.SharedInformer
import Verif.Model.Store
/-!
# The shared informer of `aiok8s/cache/shared_informer.py` with its indexer

`Verif.Model.SharedInformer` takes the indexer to be a map.  Here it is the store of
`Verif.Model.Store` with its index functions (`shared_informer.py` lines 30-41 and 72-74; the key function
`deletion_handling_meta_namespace_key_func` is `DeltaFifo.keyOf`), which may raise: `handle_deltas` ends in the
middle then, `pop` turns the exception into a `ProcessError` (`delta_fifo.py` lines 161-162) and the processing
loop goes on with the next item, for `retry_on_error` is false (`shared_informer.py` line 141,
`cache/controller.py` lines 84-86).  The steps are those of `Verif.Model.SharedInformer`.
-/
namespace Aiok8s.IndexedInformer
open Aiok8s.DeltaFifo (Obj Delta Deltas DType keyOf)
open Aiok8s.Informer (Note nextDeltas)
open Aiok8s.SharedInformer (Ev receive)

/-- `shared_informer.py` lines 66-83 and 243-245. -/
structure State (K O N V : Type) where
  /-- the queue -/
  q : DeltaFifo.State K O
  /-- `self._indexer` -/
  ix : Store.State K (Obj K O) N V
  /-- what was distributed to each listener of `_listeners` -/
  sent : List (List (Note K O))
  /-- positions of `_syncing_listeners` -/
  syncing : List Nat
  started : Bool

variable {K O N V : Type} [DecidableEq K] [DecidableEq N] [DecidableEq V]

/-- `shared_informer.py` lines 66-83. -/
def init (fs : PyDict N (Store.IndexFunc (Obj K O) V)) : State K O N V :=
  ⟨DeltaFifo.init, Store.init fs, [], [], false⟩

/-- `shared_informer.py` lines 179-200, one delta: the indexer after it and what is to be distributed;
`none`: a call of the indexer raised. -/
def applyOne (key : O → Option K) (ix : Store.State K (Obj K O) N V) (d : Delta K O) :
    Store.State K (Obj K O) N V × Option (Note K O) :=
  match keyOf key d.object with
  | none => (ix, none)
  | some k =>
    if d.type = .deleted then
      match Store.delete ix k with
      | (ix, some _) => (ix, none)
      | (ix, none) => (ix, some (.onDelete d.object))
    else
      let note := match ix.items.get? k with
        | some old => Note.onUpdate old d.object
        | none => Note.onAdd d.object
      match Store.put ix k d.object with
      | (ix, some _) => (ix, none)
      | (ix, none) => (ix, some note)

/-- `shared_informer.py` lines 177-202: the indexer after `handle_deltas`, what it distributed with the flag
`is_sync`, and whether it came to its end. -/
def handleDeltas (key : O → Option K) (ix : Store.State K (Obj K O) N V) :
    Deltas K O → Store.State K (Obj K O) N V × List (Note K O × Bool) × Bool
  | [] => (ix, [], true)
  | d :: ds =>
    match applyOne key ix d with
    | (ix, none) => (ix, [], false)
    | (ix, some n) =>
      let r := handleDeltas key ix ds
      (r.1, (n, decide (d.type = .sync)) :: r.2.1, r.2.2)

/-- `shared_informer.py` lines 259-266, for a sequence of notifications. -/
def distribute (s : State K O N V) (ns : List (Note K O × Bool)) : List (List (Note K O)) :=
  s.sent.mapIdx fun i l => l ++ receive (decide (i ∈ s.syncing)) ns

/-- A round of the processing loop (`cache/controller.py` lines 78-86, `delta_fifo.py` lines 140-163). -/
def pop (key : O → Option K) (s : State K O N V) : State K O N V :=
  match nextDeltas s.q with
  | none => { s with q := (DeltaFifo.popLoop s.q .ok s.q.queue 0).1 }
  | some ds =>
    let r := handleDeltas key s.ix ds
    { s with
      q := (DeltaFifo.popLoop s.q (if r.2.2 then .ok else .error) s.q.queue 0).1
      ix := r.1
      sent := distribute s r.2.1 }

/-- A call of the reflector on the queue, whose known objects are the indexer (`shared_informer.py`
line 135). -/
def onQueue (key : O → Option K) (s : State K O N V) (o : DeltaFifo.Op K O) : State K O N V :=
  if s.started then { s with q := (DeltaFifo.step key s.q o).1 } else s

/-- One event.  Before the start nothing happens to queue and indexer. -/
def step (key : O → Option K) (s : State K O N V) : Ev K O → State K O N V
  | .start => { s with started := true }
  | .register =>
    -- lines 125-132 and 255-257
    { s with
      sent := s.sent ++ [if s.started then s.ix.items.values.map .onAdd else []]
      syncing := s.syncing ++ [s.sent.length] }
  | .check due =>
    -- lines 280-289
    { s with syncing := (List.range s.sent.length).filter due }
  | .pop => if s.started then pop key s else s
  | .add x => onQueue key s (.add x)
  | .update x => onQueue key s (.update x)
  | .delete x => onQueue key s (.delete (some (Informer.known s.ix.items)) x)
  | .replace xs => onQueue key s (.replace (some (Informer.known s.ix.items)) xs)
  | .resync => onQueue key s (.resync (some (Informer.known s.ix.items)))

/-- The state after a history. -/
def exec (key : O → Option K) (s : State K O N V) : List (Ev K O) → State K O N V
  | [] => s
  | e :: es => exec key (step key s e) es

end Aiok8s.IndexedInformer
