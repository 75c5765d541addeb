import Verif.Model.Informer
/-!
# Looking at an informer in the middle of a pop

`has_synced` (`delta_fifo.py` lines 172-173) and reads of the store need no lock, so they may
happen while `pop` awaits the processing of an item.  Here a pop is split where it may suspend:

* `handle_deltas` of the shared informer first takes `_block_deltas` (`shared_informer.py` line
  177), which `add_event_handler` may hold (lines 129-132); the process function of the plain
  informer (`controller.py` lines 123-141) takes no such lock;
* after each delta it awaits the handler's call (`controller.py` lines 133, 136, 139) or the
  distribution (`shared_informer.py` lines 188-200).

The lock of the store itself is only held by calls that do not suspend, so taking it does not
suspend either.  Everything else is as in `Verif.Model.Informer`.
-/
namespace Aiok8s.InformerSync
open Aiok8s.DeltaFifo (Obj Delta Deltas DType Outcome keyOf)
open Aiok8s.Informer (Note applyOne)

/-- Where the pop of the processing loop is. -/
inductive Flight (K O : Type) where
  /-- not in `process` -/
  | idle
  /-- the deltas of `k` are taken off the queue, `handle_deltas` waits for `_block_deltas` -/
  | waiting (k : K) (ds : Deltas K O)
  /-- in a call of the handler; of `all` the deltas of `k`, `rest` is still to do -/
  | calling (k : K) (all rest : Deltas K O)
deriving DecidableEq

/-- Queue, store, the pop in progress, and whether `add_event_handler` holds `_block_deltas`. -/
structure State (K O : Type) where
  inf : Informer.State K O
  flight : Flight K O
  block : Bool

/-- A new informer. -/
def init {K O : Type} : State K O := ⟨Informer.init, .idle, false⟩

/-- What can happen. -/
inductive Act (K O : Type) where
  /-- a call of the reflector on the queue: needs the queue's lock, which a pop in progress
  holds -/
  | add (x : Obj K O)
  | update (x : Obj K O)
  | delete (x : Obj K O)
  | replace (xs : List (Obj K O))
  | resync
  /-- the processing loop takes the next item off the queue -/
  | begin
  /-- `handle_deltas` gets `_block_deltas` -/
  | proceed
  /-- the call of the handler ends -/
  | handlerEnds (r : Outcome)
  /-- `add_event_handler` takes `_block_deltas` (`shared_informer.py` line 129) -/
  | lock
  /-- and releases it -/
  | unlock

variable {K O : Type} [DecidableEq K]

/-- `delta_fifo.py` lines 153-163: the pop ends. -/
def finish (s : State K O) (k : K) (all : Deltas K O) (r : Outcome) : State K O :=
  { s with
    inf := ⟨(DeltaFifo.finish s.inf.q k all 0 r).1, s.inf.items⟩
    flight := .idle }

/-- `controller.py` lines 124-139 / `shared_informer.py` lines 178-200: on to the next delta, up to
the handler's call, or to the end. -/
def advance (key : O → Option K) (s : State K O) (k : K) (all : Deltas K O) :
    Deltas K O → State K O × List (Note K O)
  | [] => (finish s k all .ok, [])
  | d :: rest => match applyOne key s.inf.items d with
    | none => (finish s k all .error, [])
    | some (items, n) => ({ s with inf := ⟨s.inf.q, items⟩, flight := .calling k all rest }, [n])

/-- A call of the reflector. -/
def call (key : O → Option K) (s : State K O) (e : Informer.Ev K O) :
    Option (State K O × List (Note K O)) :=
  match s.flight with
  | .idle => some ({ s with inf := (Informer.step key s.inf e).1 }, [])
  | _ => none

/-- One action, if possible: the new state and the handler's calls. -/
def step (key : O → Option K) (s : State K O) : Act K O → Option (State K O × List (Note K O))
  | .add x => call key s (.add x)
  | .update x => call key s (.update x)
  | .delete x => call key s (.delete x)
  | .replace xs => call key s (.replace xs)
  | .resync => call key s .resync
  | .begin => match s.flight with
    | .idle =>
      -- `delta_fifo.py` lines 143-152
      match DeltaFifo.popLoop s.inf.q .ok s.inf.q.queue 0 with
      | (q, .popped k ds _ _) =>
        if s.block then some ({ s with inf := ⟨q, s.inf.items⟩, flight := .waiting k ds }, [])
        else some (advance key { s with inf := ⟨q, s.inf.items⟩ } k ds ds)
      | (q, _) => some ({ s with inf := ⟨q, s.inf.items⟩ }, [])
    | _ => none
  | .proceed => match s.flight with
    | .waiting k ds => if s.block then none else some (advance key s k ds ds)
    | _ => none
  | .handlerEnds r => match s.flight with
    | .calling k all rest =>
      if r = .ok then some (advance key s k all rest) else some (finish s k all r, [])
    | _ => none
  | .lock => match s.flight with
    -- `handle_deltas` holds it during its calls
    | .calling _ _ _ => none
    | _ => if s.block then none else some ({ s with block := true }, [])
  | .unlock => if s.block then some ({ s with block := false }, []) else none

/-- A sequence of possible actions: the state after it and the handler's calls. -/
def exec (key : O → Option K) (s : State K O) : List (Act K O) →
    Option (State K O × List (Note K O))
  | [] => some (s, [])
  | a :: as => match step key s a with
    | none => none
    | some (s, n) => match exec key s as with
      | none => none
      | some (s, ns) => some (s, n ++ ns)

/-- `controller.py` lines 72-73, `shared_informer.py` lines 161-162. -/
def hasSynced (s : State K O) : Bool := DeltaFifo.hasSynced s.inf.q

end Aiok8s.InformerSync
