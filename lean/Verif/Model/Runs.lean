import Verif.Model.Informer
/-!
# Several calls of `run` of one shared informer: `aiok8s/cache/shared_informer.py` lines 134-159 and 176-202

`run` may be called while an earlier call has not ended; starting the informers map (`_informers_map.py` lines 38-45)
twice does so.  Each call makes its own `DeltaFIFO` and its own controller with a reflector (lines 135-147); the
indexer, which is the known objects of all these queues, the lock `_block_deltas` and the listeners are the same.

A call of a reflector needs the lock of its queue, which a `pop` holds until `handle_deltas` has returned
(`delta_fifo.py` lines 141-163); it reads the indexer without suspending.  `handle_deltas` first waits for
`_block_deltas` (line 177); it may be suspended between two deltas (lines 187-198).  A notification is recorded when
its delta is applied; how a listener passes it on, here with two pairs of tasks (lines 269-273), is not modelled.
-/
namespace Aiok8s.Runs
open Aiok8s.DeltaFifo (Obj Delta Deltas keyOf)
open Aiok8s.Informer (Note applyOne nextDeltas)

/-- The calls of `run` are numbered. -/
structure State (K O : Type) where
  /-- the queue of each call (line 135) -/
  q : Nat → DeltaFifo.State K O
  /-- `_indexer` -/
  items : PyDict K (Obj K O)
  /-- what is left of the deltas that the processing loop of a call has popped; then the lock of its queue is held -/
  hand : Nat → Option (Deltas K O)
  /-- which call holds `_block_deltas` -/
  holder : Option Nat

/-- Lines 71-83 and 135. -/
def init {K O : Type} : State K O := ⟨fun _ => DeltaFifo.init, [], fun _ => none, none⟩

/-- What can happen. -/
inductive Ev (K O : Type) where
  /-- the reflector of call `r` calls the queue -/
  | call (r : Nat) (e : Informer.Ev K O)
  /-- the processing loop of call `r` takes the deltas of a key from its queue -/
  | pop (r : Nat)
  /-- it enters line 178 -/
  | lock (r : Nat)
  /-- it applies the next delta -/
  | apply (r : Nat)
  /-- `handle_deltas` returns and so does `pop` -/
  | done (r : Nat)

variable {K O : Type} [DecidableEq K]

/-- Give call `r` another value. -/
def put {α : Type} (f : Nat → α) (r : Nat) (x : α) : Nat → α := fun v => if v = r then x else f v

/-- One event, if possible: the new state and what is distributed. -/
def step (key : O → Option K) (s : State K O) : Ev K O → Option (State K O × List (Note K O))
  | .call r e =>
    match s.hand r, e with
    | some _, _ => none
    | none, .pop _ => none
    | none, e => some ({ s with q := put s.q r (Informer.step key ⟨s.q r, s.items⟩ e).1.q }, [])
  | .pop r =>
    match s.hand r, nextDeltas (s.q r) with
    | none, some ds => some ({ s with
        q := put s.q r (DeltaFifo.popLoop (s.q r) .ok (s.q r).queue 0).1
        hand := put s.hand r (some ds) }, [])
    | _, _ => none
  | .lock r =>
    match s.hand r, s.holder with
    | some _, none => some ({ s with holder := some r }, [])
    | _, _ => none
  | .apply r =>
    match s.hand r with
    | some (d :: ds) =>
      if s.holder = some r then
        -- lines 179-202
        match applyOne key s.items d with
        | none => some ({ s with hand := put s.hand r (some []) }, [])
        | some (items, n) => some ({ s with items := items, hand := put s.hand r (some ds) }, [n])
      else none
    | _ => none
  | .done r =>
    match s.hand r with
    | some [] =>
      if s.holder = some r then some ({ s with hand := put s.hand r none, holder := none }, []) else none
    | _ => none

/-- A sequence of possible events: the state after it and what is distributed. -/
def exec (key : O → Option K) (s : State K O) : List (Ev K O) → Option (State K O × List (Note K O))
  | [] => some (s, [])
  | e :: es => match step key s e with
    | none => none
    | some (s, n) => match exec key s es with
      | none => none
      | some (s, ns) => some (s, n ++ ns)

end Aiok8s.Runs
