import Verif.Model.ReflectorTasks
import Verif.Model.Informer
/-!
# From the API server to the cache: reflector, `DeltaFIFO` and store of an informer together

`cache/controller.py` lines 118-151 and 38-60: `_new_informer` gives the queue to a reflector and pops
it into the store.  Here the reflector with its tasks (`Verif.Model.ReflectorTasks`) fills the queue of
an informer (`Verif.Model.Informer`), and an API server answers the reflector.

The API server is not a part of the code.  It is a history of changes; version number `n` is the state
after `n` changes, written as the string `ver n`.  It answers lists with its content at any version it
had (`resource_version` is always `"0"`, `reflector.py` line 55, which allows this), in any order, and
watches from version `n` with the changes after `n`, in order, with bookmarks and errors at any place, up
to any place.  Lists and watches may fail.

The calls of the store's methods take effect when they return: `DeltaFIFO`'s methods suspend only
before they have the lock (`delta_fifo.py` lines 36-76, 78-138).
-/
namespace Aiok8s.Follow
open Aiok8s.Reflector (Access Event EType Call)
open Aiok8s.DeltaFifo (Outcome)

/-- A change at the API server: an object is made or modified, or deleted (with its last state). -/
inductive Change (O : Type) where
  | put (o : O)
  | del (o : O)
deriving DecidableEq

/-- The object of a change. -/
def Change.obj {O : Type} : Change O → O
  | .put o => o
  | .del o => o

variable {K O G : Type} [DecidableEq K] [DecidableEq O] [DecidableEq G]

/-- The server's content after one more change. -/
def applyChange (key : O → Option K) (d : PyDict K O) : Change O → PyDict K O
  | .put o => match key o with
    | some k => d.set k o
    | none => d
  | .del o => match key o with
    | some k => d.del k
    | none => d

/-- The server's content after some changes. -/
def content (key : O → Option K) (h : List (Change O)) : PyDict K O := h.foldl (applyChange key) []

/-- The event of a watch for change number `i` (`watch.py` lines 21-26). -/
def event (key : O → Option K) (h : List (Change O)) (i : Nat) : Option (Event O) :=
  match h[i]? with
  | none => none
  | some (.put o) =>
    some ⟨if ((key o).bind fun k => (content key (h.take i)).get? k).isSome then .modified else .added, o,
      false⟩
  | some (.del o) => some ⟨.deleted, o, false⟩

/-- Server, reflector, queue and store. -/
structure State (K O : Type) where
  /-- the changes at the server -/
  hist : List (Change O)
  /-- the number of changes before those that the current watch has still to send -/
  pos : Nat
  /-- the reflector and its tasks -/
  refl : ReflectorTasks.State O
  /-- the call of the store that `run` waits for (`reflector.py` lines 61, 195, 206 and 217) -/
  cur : Option (Informer.Ev K O)
  /-- the queue and the store -/
  inf : Informer.State K O

/-- A new informer and an empty server. -/
def init : State K O := ⟨[], 0, ReflectorTasks.init, none, Informer.init⟩

/-- What can happen. -/
inductive Act (O : Type) where
  /-- something changes at the server -/
  | change (c : Change O)
  /-- the server answers a list with its content at version `n` -/
  | listed (n : Nat) (items : List O)
  /-- the server opens a watch from version `n` -/
  | opened (n : Nat)
  /-- the watch sends the next change -/
  | event
  /-- the watch sends a bookmark -/
  | bookmark (o : O)
  /-- the watch sends an error -/
  | fault (o : O)
  /-- anything else the reflector and its tasks do -/
  | tasks (a : ReflectorTasks.Act O)
  /-- a round of the processing loop (`cache/controller.py` lines 78-86) -/
  | pop (h : Nat → Outcome)

/-- The call of the queue (`reflector.py` lines 141, 195, 206 and 217). -/
def evOf : Call O → Option (Informer.Ev K O)
  | .replace items _ => some (.replace (items.map .real))
  | .add o => some (.add (.real o))
  | .update o => some (.update (.real o))
  | .delete o => some (.delete (.real o))
  | _ => none

/-- The call of the queue that was begun, if one was. -/
def begun : List (ReflectorTasks.Ev O) → Option (Informer.Ev K O)
  | [] => none
  | .call c :: es => match evOf c with
    | some e => some e
    | none => begun es
  | _ :: es => begun es

/-- The method raises. -/
def raises : DeltaFifo.Out K O → Bool
  | .keyFunc | .typeError | .attributeError | .closedError => true
  | _ => false

/-- The answers of the server that have actions of their own. -/
def answers : ReflectorTasks.Act O → Bool
  | .listed (some _) | .watched true | .read _ => true
  | _ => false

/-- The reflector makes a step; `cur` becomes the call that was begun. -/
def move (A : Access O G) (p : ℚ) (s : State K O) (a : ReflectorTasks.Act O) : Option (State K O) :=
  match ReflectorTasks.step A p s.refl a with
  | none => none
  | some (r, L) => some { s with
      refl := r
      cur := match begun L with
        | some e => some e
        | none => s.cur }

/-- The queue is called, `ok`: and does not raise. -/
def take (key : O → Option K) (s : State K O) (e : Informer.Ev K O) (ok : Bool) : Option (State K O) :=
  let r := Informer.step key s.inf e
  if raises r.2.2 = !ok then some { s with inf := r.1 } else none

/-- One action, if possible. -/
def step (A : Access O G) (key : O → Option K) (ver : Nat → String) (p : ℚ) (s : State K O) :
    Act O → Option (State K O)
  | .change c =>
    if A.version c.obj = some (ver (s.hist.length + 1)) ∧ (key c.obj).isSome
      then some { s with hist := s.hist ++ [c] } else none
  | .listed n items =>
    if n ≤ s.hist.length ∧ items.Perm (content key (s.hist.take n)).values
      then move A p s (.listed (some (items, ver n))) else none
  | .opened n =>
    if n ≤ s.hist.length ∧ ver n = s.refl.version
      then (move A p s (.watched true)).map fun s => { s with pos := n } else none
  | .event => match event key s.hist s.pos with
    | some e => (move A p s (.read e)).map fun s => { s with pos := s.pos + 1 }
    | none => none
  | .bookmark o =>
    if A.version o = some (ver s.pos) then move A p s (.read ⟨.bookmark, o, false⟩) else none
  | .fault o => move A p s (.read ⟨.error, o, false⟩)
  | .tasks a =>
    if answers a then none else
    match a with
    | .replaced ok => match s.refl.pc, s.cur with
      | .replacing _ _, some e => (take key s e ok).bind fun s => move A p s a
      | _, _ => none
    | .stored => match s.refl.pc, s.cur with
      -- an exception of the store is logged (lines 198-203, 209-214 and 220-225)
      | .storing _, some e => move A p { s with inf := (Informer.step key s.inf e).1 } a
      | _, _ => none
    | .resynced ok => match s.refl.resync with
      | .running => (take key s .resync ok).bind fun s => move A p s a
      | _ => none
    | a => move A p s a
  | .pop h => if s.inf.q.queue = [] then none else some { s with inf := (Informer.step key s.inf (.pop h)).1 }

/-- A sequence of possible actions. -/
def exec (A : Access O G) (key : O → Option K) (ver : Nat → String) (p : ℚ) (s : State K O) :
    List (Act O) → Option (State K O)
  | [] => some s
  | a :: as => match step A key ver p s a with
    | none => none
    | some s => exec A key ver p s as

end Aiok8s.Follow
