import Verif.Model.PyDict
import Mathlib.Algebra.Order.Ring.Rat
/-!
# `aiok8s/cache/testing/fake_controller_source.py`

Objects are kept by reference: the source stores the caller's own object (lines 56 and 59), which the
caller may use again.  Therefore there is a heap, and a change names the object by its number.
-/
namespace Aiok8s.FakeSource
open Aiok8s

/-- An object: the triple of lines 111-114 (`_NNU`), its resource version (0: none) and all the rest. -/
structure Obj (K B : Type) where
  key : K
  rv : Nat
  body : B
deriving DecidableEq

/-- The types of the events made by lines 33-49.  `change` itself could be called with others (`BOOKMARK`,
`ERROR`): this is not modelled. -/
inductive Typ where
  | added | modified | deleted
deriving DecidableEq

/-- The object in an event handed to a watcher: a deep copy (line 80) or the caller's object (line 63). -/
inductive Item (K B : Type) where
  | copied (o : Obj K B)
  | shared (r : Nat)
deriving DecidableEq

/-- Lines 25-31. -/
structure State (K B : Type) where
  /-- the callers' objects -/
  heap : Nat → Obj K B
  /-- `self.items` -/
  items : PyDict K Nat
  /-- `self._changes` -/
  changes : List (Typ × Nat)
  /-- for every watcher handed out, the events it is to deliver: its prefix and what has been broadcast
  since.  That the broadcaster delivers exactly these is C44 (`Verif.Props.Mux`). -/
  watchers : List (List (Typ × Item K B))
  /-- `shutdown` holds the lock forever (line 91) -/
  down : Bool

variable {K B : Type} [DecidableEq K]

/-- Lines 25-31. -/
def init (heap : Nat → Obj K B) : State K B := ⟨heap, [], [], [], false⟩

/-- What is done with the source. -/
inductive Op (K B : Type) where
  /-- the owner of object `r` changes it, without telling the source -/
  | write (r : Nat) (o : Obj K B)
  /-- the owner of object `r` makes it equal to `o` and calls `change` with it; `p` is the probability, `u`
  the value of `random.random()` -/
  | change (t : Typ) (r : Nat) (o : Obj K B) (p u : ℚ)
  /-- `watch` -/
  | watch (rv : Nat)
  /-- `shutdown` -/
  | shutdown

/-- What a call of `change` or `watch` ends with. -/
inductive Answer where
  | returned
  /-- line 61 -/
  | keyError
  /-- lines 84-87 -/
  | futureError
  /-- the lock is never free again -/
  | hangs
deriving DecidableEq

def update {V : Type} (f : Nat → V) (r : Nat) (v : V) : Nat → V := fun q => if q = r then v else f q

/-- Lines 51-63: `change`, with the lock held. -/
def change (s : State K B) (t : Typ) (r : Nat) (o : Obj K B) (p u : ℚ) : State K B × Answer :=
  -- lines 53-56; the object gets its resource version before the change is tried
  let s := { s with
    heap := update s.heap r { o with rv := s.changes.length + 1 }
    changes := s.changes ++ [(t, r)] }
  -- lines 62-63
  let send (s : State K B) : State K B :=
    if u < p then { s with watchers := s.watchers.map (· ++ [(t, .shared r)]) } else s
  match t with
  -- lines 58-59
  | .added => (send { s with items := s.items.set o.key r }, .returned)
  | .modified => (send { s with items := s.items.set o.key r }, .returned)
  -- lines 60-61
  | .deleted =>
    if s.items.has o.key then (send { s with items := s.items.del o.key }, .returned) else (s, .keyError)

/-- Lines 75-88: `watch`, with the lock held.  Negative and non-numeric versions are not modelled. -/
def watch (s : State K B) (rv : Nat) : State K B × Answer :=
  if rv < s.changes.length then
    ({ s with watchers := s.watchers ++ [(s.changes.drop rv).map fun c => (c.1, .copied (s.heap c.2))] }, .returned)
  else if s.changes.length < rv then (s, .futureError)
  else ({ s with watchers := s.watchers ++ [[]] }, .returned)

/-- One call, with its answer. -/
def call (s : State K B) : Op K B → State K B × Answer
  | .write r o => ({ s with heap := update s.heap r o }, .returned)
  | .change t r o p u => if s.down then ({ s with heap := update s.heap r o }, .hangs) else change s t r o p u
  | .watch rv => if s.down then (s, .hangs) else watch s rv
  -- lines 90-92
  | .shutdown => if s.down then (s, .hangs) else ({ s with down := true }, .returned)

/-- The state after a sequence of calls. -/
def exec (s : State K B) : List (Op K B) → State K B
  | [] => s
  | e :: es => exec (call s e).1 es

/-- Lines 65-73 and 98-99: `list`: copies of the items and the resource version; `none`: it hangs. -/
def list (s : State K B) : Option (List (Obj K B) × Nat) :=
  if s.down then none else some (s.items.values.map s.heap, s.changes.length)

/-- What the object in an event holds when it is read. -/
def Item.get (h : Nat → Obj K B) : Item K B → Obj K B
  | .copied o => o
  | .shared r => h r

/-- What the events of a watcher hold when they are read. -/
def read (s : State K B) (w : List (Typ × Item K B)) : List (Typ × Obj K B) :=
  w.map fun e => (e.1, e.2.get s.heap)

end Aiok8s.FakeSource
