import Verif.Model.Heapq
/-!
# What a priority queue should do
-/
namespace Aiok8s.Heapq
variable {E : Type}

/-- What `heapq` needs of `<`: `not (b < a)` is transitive, and `a < b`, `b < a` are not both true. -/
structure Order (lt : E → E → Bool) : Prop where
  asymm : ∀ a b, lt a b = true → lt b a = false
  trans : ∀ a b c, lt b a = false → lt c b = false → lt c a = false

/-- The documented invariant: `heap[k] <= heap[2*k+1]` and `heap[k] <= heap[2*k+2]`: no entry is smaller
than its parent. -/
def IsHeap (lt : E → E → Bool) (l : List E) : Prop :=
  ∀ i (h : i < l.length), 0 < i → lt l[i] l[(i - 1) / 2] = false

/-- Pushes and pops. -/
inductive Op (E : Type) where
  | push (x : E)
  | pop

/-- The list that the calls make, and what the pops return (`none`: `IndexError`). -/
def run (lt : E → E → Bool) : List E → List (Op E) → List E × List (Option E)
  | heap, [] => (heap, [])
  | heap, .push x :: os => run lt (heappush lt heap x) os
  | heap, .pop :: os =>
    let r := heappop lt heap
    ((run lt r.1 os).1, r.2 :: (run lt r.1 os).2)

/-- A run of a bag from which every pop takes an entry that no other is smaller than. -/
inductive Bag (lt : E → E → Bool) : List E → List (Op E) → List (Option E) → Prop where
  | done (bag) : Bag lt bag [] []
  | push (bag x os outs) : Bag lt (x :: bag) os outs → Bag lt bag (.push x :: os) outs
  | empty (os outs) : Bag lt [] os outs → Bag lt [] (.pop :: os) (none :: outs)
  | pop (bag x rest os outs) : bag.Perm (x :: rest) → (∀ y ∈ rest, lt y x = false) → Bag lt rest os outs →
      Bag lt bag (.pop :: os) (some x :: outs)

end Aiok8s.Heapq
