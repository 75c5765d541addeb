import Mathlib.Data.List.Basic
/-!
# `heapq` of the Python standard library

`aiok8s/workqueue/delaying_queue.py` lines 144, 151 and 156 call `heapq.heappush` and `heapq.heappop`.  The
definitions follow `Lib/heapq.py`, functions `heappush`, `heappop`, `_siftdown`, `_siftup`; the C version does
the same.  `lt` is `<`.  An index out of range would be an `IndexError`; here the list is then left alone, and
the proofs show that it does not happen.
-/
namespace Aiok8s.Heapq
variable {E : Type}

/-- `_siftdown`, the loop and the assignment after it: `new` is `newitem`. -/
def siftdownLoop (lt : E → E → Bool) (new : E) (start : Nat) (heap : List E) (pos : Nat) : List E :=
  if h : pos > start then
    match heap[(pos - 1) / 2]? with
    | none => heap
    | some parent =>
      if lt new parent then siftdownLoop lt new start (heap.set pos parent) ((pos - 1) / 2)
      else heap.set pos new
  else heap.set pos new
termination_by pos
decreasing_by omega

/-- `_siftdown`. -/
def siftdown (lt : E → E → Bool) (heap : List E) (start pos : Nat) : List E :=
  match heap[pos]? with
  | none => heap
  | some new => siftdownLoop lt new start heap pos

/-- `_siftup`: the index of the smaller child, given that of the left one. -/
def smallerChild (lt : E → E → Bool) (heap : List E) (child : Nat) : Nat :=
  match heap[child]?, heap[child + 1]? with
  | some l, some r => if lt l r then child else child + 1
  | _, _ => child

theorem smallerChild_gt (lt : E → E → Bool) (heap : List E) (child : Nat) :
    child ≤ smallerChild lt heap child := by
  unfold smallerChild
  split
  · split <;> omega
  · exact Nat.le_refl _

/-- `_siftup`, the loop: the list and the position at its end. -/
def siftupLoop (lt : E → E → Bool) (heap : List E) (pos : Nat) : List E × Nat :=
  if h : 2 * pos + 1 < heap.length then
    match heap[smallerChild lt heap (2 * pos + 1)]? with
    | none => (heap, pos)
    | some x => siftupLoop lt (heap.set pos x) (smallerChild lt heap (2 * pos + 1))
  else (heap, pos)
termination_by heap.length - pos
decreasing_by
  have := smallerChild_gt lt heap (2 * pos + 1)
  simp only [List.length_set]
  omega

/-- `_siftup`. -/
def siftup (lt : E → E → Bool) (heap : List E) (pos : Nat) : List E :=
  match heap[pos]? with
  | none => heap
  | some new =>
    let r := siftupLoop lt heap pos
    siftdown lt (r.1.set r.2 new) pos r.2

/-- `heappush`. -/
def heappush (lt : E → E → Bool) (heap : List E) (x : E) : List E :=
  siftdown lt (heap ++ [x]) 0 ((heap ++ [x]).length - 1)

/-- `heappop`: the list afterwards and what is returned; `none` is `IndexError`. -/
def heappop (lt : E → E → Bool) (heap : List E) : List E × Option E :=
  match heap.getLast? with
  | none => (heap, none)
  | some last =>
    match heap.dropLast with
    | [] => ([], some last)
    | top :: rest => (siftup lt (last :: rest) 0, some top)

end Aiok8s.Heapq
