import Verif.Model.Informer
/-!
# The shared informer of `aiok8s/cache/shared_informer.py`: one cache, many handlers

The indexer is a map from keys to objects (as in `Verif.Model.Informer`; index functions are
assumed not to raise).  What is distributed to a handler is recorded in the order of the calls
`listener._add`; how a listener passes it on is `Verif.Model.Listener`.  `handle_deltas` and the
registration of a handler after the start both hold `_block_deltas` (lines 129 and 177), a
distribution holds `_listeners_lock` (line 260) and a check (`_should_resync`, lines 280-289) makes
a new list of syncing listeners without touching the one that is being iterated over; so each is
one step.  Which listeners are due at a check is arbitrary here; `Verif.Model.Resync` computes it.
-/
namespace Aiok8s.SharedInformer
open Aiok8s.DeltaFifo (Obj Delta Deltas DType keyOf)
open Aiok8s.Informer (Note applyOne nextDeltas)

/-- Lines 72-83 and 243-245.  A listener is its position in `sent`. -/
structure State (K O : Type) where
  /-- queue and indexer -/
  inf : Informer.State K O
  /-- what was distributed to each listener of `_listeners` -/
  sent : List (List (Note K O))
  /-- positions of `_syncing_listeners` -/
  syncing : List Nat
  started : Bool

/-- Lines 72-83. -/
def init {K O : Type} : State K O := ⟨Informer.init, [], [], false⟩

variable {K O : Type} [DecidableEq K]

/-- Lines 178-202: the indexer after the deltas and what is distributed, with the flag
`is_sync`. -/
def handleDeltas (key : O → Option K) (items : PyDict K (Obj K O)) :
    Deltas K O → PyDict K (Obj K O) × List (Note K O × Bool)
  | [] => (items, [])
  | d :: ds =>
    match applyOne key items d with
    | none => (items, [])
    | some (items, n) =>
      let r := handleDeltas key items ds
      (r.1, (n, decide (d.type = .sync)) :: r.2)

/-- Lines 259-266 for one listener: it gets what is no sync, and syncs if it is syncing. -/
def receive (isSyncing : Bool) (ns : List (Note K O × Bool)) : List (Note K O) :=
  (ns.filter fun n => !n.2 || isSyncing).map Prod.fst

/-- Lines 259-266, for a sequence of notifications. -/
def distribute (s : State K O) (ns : List (Note K O × Bool)) : List (List (Note K O)) :=
  s.sent.mapIdx fun i l => l ++ receive (decide (i ∈ s.syncing)) ns

/-- What can happen. -/
inductive Ev (K O : Type) where
  | add (x : Obj K O)
  | update (x : Obj K O)
  | delete (x : Obj K O)
  | replace (xs : List (Obj K O))
  | resync
  /-- a round of the processing loop -/
  | pop
  /-- `add_event_handler` -/
  | register
  /-- a call of `_should_resync` that finds the listeners `due` to be due -/
  | check (due : Nat → Bool)
  /-- `run` (lines 146-149) -/
  | start

/-- A round of the processing loop (`controller.py` lines 78-86, `delta_fifo.py` lines 140-163)
with `handle_deltas`.  Distributing only puts into a queue, so `handle_deltas` fails only if an
object has no key; the queue does the same then. -/
def pop (key : O → Option K) (s : State K O) : State K O :=
  let q := (DeltaFifo.popLoop s.inf.q .ok s.inf.q.queue 0).1
  match nextDeltas s.inf.q with
  | none => { s with inf := ⟨q, s.inf.items⟩ }
  | some ds =>
    let r := handleDeltas key s.inf.items ds
    { s with
      inf := ⟨q, r.1⟩
      sent := distribute s r.2 }

/-- A call of the reflector on the queue. -/
def onQueue (key : O → Option K) (s : State K O) (e : Informer.Ev K O) : State K O :=
  if s.started then { s with inf := (Informer.step key s.inf e).1 } else s

/-- One event.  Before the start nothing happens to queue and indexer. -/
def step (key : O → Option K) (s : State K O) : Ev K O → State K O
  | .start => { s with started := true }
  | .register =>
    -- lines 125-132 and 255-257
    { s with
      sent := s.sent ++ [if s.started then s.inf.items.values.map .onAdd else []]
      syncing := s.syncing ++ [s.sent.length] }
  | .check due =>
    -- lines 280-289
    { s with syncing := (List.range s.sent.length).filter due }
  | .pop => if s.started then pop key s else s
  | .add x => onQueue key s (.add x)
  | .update x => onQueue key s (.update x)
  | .delete x => onQueue key s (.delete x)
  | .replace xs => onQueue key s (.replace xs)
  | .resync => onQueue key s .resync

/-- The state after a history. -/
def exec (key : O → Option K) (s : State K O) : List (Ev K O) → State K O
  | [] => s
  | e :: es => exec key (step key s e) es

end Aiok8s.SharedInformer
