import Verif.Model.DelayHeap
/-!
# Reference for the delay heap: a table of earliest deadlines

`Table` lists the items with the earliest deadline asked for, in the order in which these
deadlines were registered.  Only the vocabulary `Op`, `Out` is taken from the model.
-/
namespace Aiok8s.DelayHeap
variable {P α : Type} [LinearOrder P] [DecidableEq α]

abbrev Table (P α : Type) := List (α × P)

namespace Table

/-- The deadline held for `x`. -/
def deadline (t : Table P α) (x : α) : Option P := (t.find? (fun e => e.1 = x)).map Prod.snd

/-- The first of the entries with the smallest deadline. -/
def best : Table P α → Option (α × P)
  | [] => none
  | e :: t => match best t with
    | none => some e
    | some f => if f.2 < e.2 then some f else some e

/-- Forget `x`. -/
def drop (t : Table P α) (x : α) : Table P α := t.filter (fun e => e.1 ≠ x)

/-- One call. -/
def step (t : Table P α) : Op P α → Table P α × Out P α
  | .len => (t, .num t.length)
  | .insert x p => match deadline t x with
    | none => (t ++ [(x, p)], .ok)
    | some q => if q ≤ p then (t, .ok) else (t.drop x ++ [(x, p)], .ok)
  | .peek => match best t with
    | none => (t, .keyError)
    | some e => (t, .prio e.2)
  | .pop => match best t with
    | none => (t, .keyError)
    | some e => (t.drop e.1, .item e.1)

/-- The calls of a history with their results. -/
def trace (t : Table P α) : List (Op P α) → List (Op P α × Out P α)
  | [] => []
  | o :: os => (o, (step t o).2) :: trace (step t o).1 os

end Table
end Aiok8s.DelayHeap

namespace Aiok8s.DelayHeap
variable {P α : Type} [LinearOrder P] [DecidableEq α]

/-- The earliest deadline asked for `x` since it was last handed out, according to a history. -/
def earliestAsked (x : α) : List (Op P α × Out P α) → Option P → Option P
  | [], r => r
  | (.insert y p, _) :: h, r =>
    earliestAsked x h (if y = x then some (match r with | none => p | some q => min q p) else r)
  | (.pop, .item y) :: h, r => earliestAsked x h (if y = x then none else r)
  | _ :: h, r => earliestAsked x h r

end Aiok8s.DelayHeap
