import Verif.Model.Store
/-!
# `get_indexers` of `aiok8s/cache/store.py` (lines 105-106)

It returns `self._indexers` itself (`thread_safe_store.py` lines 107-108), which is also the dict that was given to
`new_indexer` (`store.py` lines 44-47; `thread_safe_store.py` line 29).  Whoever has it can assign to it between two
calls; the store looks at it anew in every call.
-/
namespace Aiok8s.StoreIndexers
open Aiok8s Aiok8s.Store

variable {K O N V : Type} [DecidableEq K] [DecidableEq N] [DecidableEq V]

/-- A call of the store, or `indexers[n] = f`, or `indexers.pop(n, None)` on the dict. -/
inductive Act (K O N V : Type) where
  | call (o : Op K O N V)
  | assign (n : N) (f : IndexFunc O V)
  | remove (n : N)

/-- `thread_safe_store.py` lines 107-108: `get_indexers`. -/
def getIndexers (s : State K O N V) : PyDict N (IndexFunc O V) := s.indexers

/-- One act: `store.py` lines 55-121 (`Store.step`), or a change of the dict that `getIndexers` gives. -/
def step (key : O → Option K) (s : State K O N V) : Act K O N V → State K O N V
  | .call o => (Store.step key s o).1
  | .assign n f => { s with indexers := (getIndexers s).set n f }
  | .remove n => { s with indexers := (getIndexers s).del n }

/-- The store after a sequence of acts. -/
def exec (key : O → Option K) (s : State K O N V) : List (Act K O N V) → State K O N V
  | [] => s
  | a :: as => exec key (step key s a) as

end Aiok8s.StoreIndexers
