import Verif.Model.Store
/-!
# `aiok8s/cache/thread_safe_store.py` with objects that are changed in place

The store keeps references, it never copies: `add`, `update` and `replace` keep what they are given
(lines 35, 41, 65), `get`, `list`, `index` and `by_index` hand it out (lines 55, 58, 83, 105).  Whoever has a
reference can assign to the object between two calls.  The key function and the index functions look at the
object as it is when they are called.

Here the store of `Verif.Model.Store` holds references `R`, and a heap says what each object is like now.
`add_indexers` with a table that is not empty always raises (C20), so that the functions in use are those the
store was made with.
-/
namespace Aiok8s.StoreRef
open Aiok8s Aiok8s.Store

variable {R K O N V : Type} [DecidableEq R] [DecidableEq K] [DecidableEq N] [DecidableEq V]

/-- The objects as they are now, and the store. -/
structure World (R K O N V : Type) where
  heap : R → O
  store : State K R N V

/-- The index functions called with references: lines 73, 127 and 135. -/
def view (heap : R → O) (fs : PyDict N (IndexFunc O V)) : PyDict N (IndexFunc R V) :=
  fs.map fun p => (p.1, fun r => p.2 (heap r))

/-- A call of the store, or an assignment to an object. -/
inductive Act (R K O N V : Type) where
  | call (o : Op K R N V)
  | write (r : R) (o : O)

/-- A new store (`store.py` lines 37-47). -/
def init (heap : R → O) (fs : PyDict N (IndexFunc O V)) : World R K O N V :=
  ⟨heap, Store.init (view heap fs)⟩

/-- One call, with the objects as they are: `store.py` lines 55-121. -/
def call (key : O → Option K) (fs : PyDict N (IndexFunc O V)) (w : World R K O N V) (o : Op K R N V) :
    State K R N V × Out K R V :=
  Store.step (fun r => key (w.heap r)) { w.store with indexers := view w.heap fs } o

/-- One act. -/
def step (key : O → Option K) (fs : PyDict N (IndexFunc O V)) (w : World R K O N V) :
    Act R K O N V → World R K O N V
  | .call o => { w with store := (call key fs w o).1 }
  | .write r o => { w with heap := fun q => if q = r then o else w.heap q }

/-- The world after a sequence of acts. -/
def exec (key : O → Option K) (fs : PyDict N (IndexFunc O V)) (w : World R K O N V) :
    List (Act R K O N V) → World R K O N V
  | [] => w
  | a :: as => exec key fs (step key fs w a) as

end Aiok8s.StoreRef
