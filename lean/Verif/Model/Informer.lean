import Verif.Model.DeltaFifo
/-!
# The informer of `aiok8s/cache/controller.py`: `DeltaFIFO`, store and handler

`_new_informer` (lines 118-151) connects a `DeltaFIFO` whose known objects are the store
`client_state` with a processing loop that applies popped deltas to the store and calls the
handler.  The store has no index functions, so (C17) it is a map from keys to objects; its key
function (lines 107-110) is `DeltaFifo.keyOf`.

Everything that changes the queue needs the queue's lock, which `pop` holds while it runs the
callback; a pop with its processing is one step.  (Readers that look in the middle are the
subject of `Verif.Model.InformerSync`.)  The handler is arbitrary: for each of its calls within
a pop it is given how the call ends.
-/
namespace Aiok8s.Informer
open Aiok8s.DeltaFifo (Obj Delta Deltas DType Known Outcome keyOf)

/-- The calls of the handler (`controller.py` lines 133, 136 and 139). -/
inductive Note (K O : Type) where
  | onAdd (x : Obj K O)
  | onUpdate (old new : Obj K O)
  | onDelete (x : Obj K O)
deriving DecidableEq, Repr

/-- The queue and the store (`controller.py` lines 113-121). -/
structure State (K O : Type) where
  q : DeltaFifo.State K O
  items : PyDict K (Obj K O)

/-- `controller.py` lines 113-121. -/
def init {K O : Type} : State K O := ⟨DeltaFifo.init, []⟩

variable {K O : Type} [DecidableEq K]

/-- What the store answers to the queue (`controller.py` line 120; `store.py` lines 79-80 and
89-90). -/
def known (items : PyDict K (Obj K O)) : Known K O := ⟨items.keys, fun k => some (items.get? k)⟩

/-- `controller.py` lines 125-139: one delta; the store after it and the call of the handler.
`none`: the key function raised. -/
def applyOne (key : O → Option K) (items : PyDict K (Obj K O)) (d : Delta K O) :
    Option (PyDict K (Obj K O) × Note K O) :=
  match keyOf key d.object with
  | none => none
  | some k =>
    if d.type = .deleted then some (items.del k, .onDelete d.object)
    else
      match items.get? k with
      | some old => some (items.set k d.object, .onUpdate old d.object)
      | none => some (items.set k d.object, .onAdd d.object)

/-- `controller.py` lines 123-141: `process`, starting with delta number `i`; `h i` is how call
number `i` of the handler ends.  The answer is the store, the calls made and how `process`
ends. -/
def process (key : O → Option K) (h : Nat → Outcome) (items : PyDict K (Obj K O)) :
    Deltas K O → Nat → PyDict K (Obj K O) × List (Note K O) × Outcome
  | [], _ => (items, [], .ok)
  | d :: ds, i =>
    match applyOne key items d with
    | none => (items, [], .error)
    | some (items, n) =>
      if h i = .ok then
        let r := process key h items ds (i + 1)
        (r.1, n :: r.2.1, r.2.2)
      else (items, [n], h i)

/-- What can happen to an informer: the reflector's calls and pops of the processing loop. -/
inductive Ev (K O : Type) where
  | add (x : Obj K O)
  | update (x : Obj K O)
  | delete (x : Obj K O)
  | replace (xs : List (Obj K O))
  | resync
  /-- `self._config.queue.pop(self._config.process)` (`controller.py` line 81) -/
  | pop (h : Nat → Outcome)

/-- The deltas that a `pop` would hand to the callback (`delta_fifo.py` lines 143-152). -/
def nextDeltas (q : DeltaFifo.State K O) : Option (Deltas K O) :=
  match (DeltaFifo.popLoop q .ok q.queue 0).2 with
  | .popped _ ds _ _ => some ds
  | _ => none

/-- `controller.py` lines 78-86 with `retry_on_error=False` (line 148): one round of the
processing loop.  An exception of `process` becomes a `ProcessError` that is ignored. -/
def pop (key : O → Option K) (h : Nat → Outcome) (s : State K O) :
    State K O × List (Note K O) × DeltaFifo.Out K O :=
  match nextDeltas s.q with
  | none =>
    let f := DeltaFifo.popLoop s.q .ok s.q.queue 0
    (⟨f.1, s.items⟩, [], f.2)
  | some ds =>
    let r := process key h s.items ds 0
    let f := DeltaFifo.popLoop s.q r.2.2 s.q.queue 0
    (⟨f.1, r.1⟩, r.2.1, f.2)

/-- A call on the queue that leaves the store alone. -/
def call (key : O → Option K) (s : State K O) (o : DeltaFifo.Op K O) :
    State K O × List (Note K O) × DeltaFifo.Out K O :=
  let r := DeltaFifo.step key s.q o
  (⟨r.1, s.items⟩, [], r.2)

/-- One event. -/
def step (key : O → Option K) (s : State K O) :
    Ev K O → State K O × List (Note K O) × DeltaFifo.Out K O
  | .add x => call key s (.add x)
  | .update x => call key s (.update x)
  | .delete x => call key s (.delete (some (known s.items)) x)
  | .replace xs => call key s (.replace (some (known s.items)) xs)
  | .resync => call key s (.resync (some (known s.items)))
  | .pop h => pop key h s

/-- The state after a sequence of events. -/
def exec (key : O → Option K) (s : State K O) : List (Ev K O) → State K O
  | [] => s
  | e :: es => exec key (step key s e).1 es

/-- The calls of the handler made by a sequence of events. -/
def notes (key : O → Option K) (s : State K O) : List (Ev K O) → List (Note K O)
  | [] => []
  | e :: es => (step key s e).2.1 ++ notes key (step key s e).1 es

end Aiok8s.Informer
