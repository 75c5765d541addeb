import Verif.Model.PyDict
import Verif.Model.Heapq
import Mathlib.Order.Defs.LinearOrder
/-!
# `aiok8s/workqueue/delaying_queue.py`: class `_WaitForPriorityQueue`

`_pq` is the list that `heapq` (`Heapq.lean`) keeps.  Entries are Python lists `[priority, count, data]`
compared lexicographically; the counts are distinct, so `data` is never compared.  An entry is
shared between `_pq` and `_entry_finder`; its identity is its count.
-/
namespace Aiok8s.DelayHeap

/-- `delaying_queue.py` line 142: `[priority, count, data]`; `data = none` stands for
`_REMOVED` (line 124). -/
structure Entry (P α : Type) where
  prio : P
  count : Nat
  data : Option α
deriving DecidableEq, Repr

/-- `delaying_queue.py` lines 126-130. -/
structure Heap (P α : Type) where
  /-- `self._pq` -/
  pq : List (Entry P α)
  /-- `self._entry_finder`: item to (priority, count) of its entry -/
  finder : PyDict α (P × Nat)
  /-- the next value of `self._counter` -/
  counter : Nat
  /-- `self._len` (an `int`: nothing in the code stops it from becoming negative) -/
  len : Int
deriving DecidableEq, Repr

/-- `delaying_queue.py` lines 126-130. -/
def init {P α : Type} : Heap P α := ⟨[], [], 0, 0⟩

variable {P α : Type} [LinearOrder P] [DecidableEq α]

/-- The order of heap entries: `list.__lt__` on `[priority, count, ...]`. -/
def less (e f : Entry P α) : Bool := e.prio < f.prio || (e.prio == f.prio && e.count < f.count)

/-- `entry[-1] = self._REMOVED` (`delaying_queue.py` line 167) for the entry with this count. -/
def mark (pq : List (Entry P α)) (count : Nat) : List (Entry P α) :=
  pq.map fun e => if e.count = count then { e with data := none } else e

/-- `delaying_queue.py` lines 163-169: `_remove`; only called for a present item (line 136). -/
def remove (h : Heap P α) (x : α) (p : P) : Heap P α × Bool :=
  match h.finder.get? x with
  | none => (h, false)
  | some (q, c) =>
    if q > p then ({ h with finder := h.finder.del x, pq := mark h.pq c }, true)
    else (h, false)

/-- `delaying_queue.py` lines 141-144: the second half of `insert`. -/
def insertEntry (h : Heap P α) (x : α) (p : P) : Heap P α :=
  { h with
    counter := h.counter + 1
    finder := h.finder.set x (p, h.counter)
    pq := Heapq.heappush less h.pq ⟨p, h.counter, some x⟩ }

/-- `delaying_queue.py` lines 135-144: `insert`. -/
def insert (h : Heap P α) (x : α) (p : P) : Heap P α :=
  if h.finder.has x then
    let r := remove h x p
    if r.2 then insertEntry r.1 x p else r.1
  else insertEntry { h with len := h.len + 1 } x p

/-- `delaying_queue.py` lines 147-152: the loop of `peek_priority`; `none` is `KeyError`.  The
number is fuel, the length of the list, which every round makes shorter. -/
def peekLoop : Nat → List (Entry P α) → List (Entry P α) × Option P
  | 0, pq => (pq, none)
  | n + 1, pq => match pq[0]? with
    | none => (pq, none)
    | some e => match e.data with
      | some _ => (pq, some e.prio)
      | none => peekLoop n (Heapq.heappop less pq).1

/-- `delaying_queue.py` lines 146-152: `peek_priority`. -/
def peek (h : Heap P α) : Heap P α × Option P :=
  ({ h with pq := (peekLoop h.pq.length h.pq).1 }, (peekLoop h.pq.length h.pq).2)

/-- `delaying_queue.py` lines 155-161: the loop of `pop`. -/
def popLoop : Nat → List (Entry P α) → List (Entry P α) × Option α
  | 0, pq => (pq, none)
  | n + 1, pq => match Heapq.heappop less pq with
    | (pq', none) => (pq', none)
    | (pq', some e) => match e.data with
      | some x => (pq', some x)
      | none => popLoop n pq'

/-- `delaying_queue.py` lines 154-161: `pop`; `none` is `KeyError`. -/
def pop (h : Heap P α) : Heap P α × Option α :=
  match popLoop h.pq.length h.pq with
  | (pq, some x) => (⟨pq, h.finder.del x, h.counter, h.len - 1⟩, some x)
  | (pq, none) => ({ h with pq := pq }, none)

/-- The calls. -/
inductive Op (P α : Type) where
  | len
  | insert (x : α) (p : P)
  | peek
  | pop
deriving DecidableEq, Repr

/-- Results. -/
inductive Out (P α : Type) where
  | num (n : Int)
  | ok
  | prio (p : P)
  | item (x : α)
  | keyError
deriving DecidableEq, Repr

/-- One call (`delaying_queue.py` lines 132-161). -/
def step (h : Heap P α) : Op P α → Heap P α × Out P α
  | .len => (h, .num h.len)
  | .insert x p => (insert h x p, .ok)
  | .peek => match peek h with
    | (h', some p) => (h', .prio p)
    | (h', none) => (h', .keyError)
  | .pop => match pop h with
    | (h', some x) => (h', .item x)
    | (h', none) => (h', .keyError)

/-- The calls of a history with their results. -/
def trace (h : Heap P α) : List (Op P α) → List (Op P α × Out P α)
  | [] => []
  | o :: os => (o, (step h o).2) :: trace (step h o).1 os

end Aiok8s.DelayHeap
