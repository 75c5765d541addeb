import Verif.Model.WorkQueue
/-!
# Reference work queue

One waiting line, plus for every item in progress a mark saying whether it must run again.
This is the whole specification of property C04; it shares only the call and result types
with the model.
-/
namespace Aiok8s.WorkQueue

/-- The reference: a line of waiting items, the items in progress (`busy x = some again`),
and whether the queue was shut down. -/
structure Ref (α : Type) where
  line : List α
  busy : α → Option Bool
  closed : Bool

namespace Ref
variable {α : Type} [DecidableEq α]

/-- Nothing waits, nothing is in progress. -/
def empty : Ref α := ⟨[], fun _ => none, false⟩

/-- Change what is recorded for one item in progress. -/
def mark (r : Ref α) (x : α) (m : Option Bool) : α → Option Bool :=
  fun y => if y = x then m else r.busy y

/-- What each call does. -/
def step (r : Ref α) : Op α → Ref α × Out α
  | .len => (r, .num r.line.length)
  | .isShuttingDown => (r, .flag r.closed)
  | .shutDown => ({ r with closed := true }, .ok)
  | .add x =>
    if r.closed ∨ x ∈ r.line then (r, .ok)
    else if (r.busy x).isSome then ({ r with busy := r.mark x (some true) }, .ok)
    else ({ r with line := r.line ++ [x] }, .ok)
  | .get =>
    match r.line with
    | x :: rest => ({ r with line := rest, busy := r.mark x (some false) }, .item x)
    | [] => (r, if r.closed then .quit else .blocked)
  | .done x =>
    match r.busy x with
    | none => (r, .keyError)
    | some false => ({ r with busy := r.mark x none }, .ok)
    | some true => ({ r with busy := r.mark x none, line := r.line ++ [x] }, .ok)

/-- The results of a sequence of calls. -/
def trace (r : Ref α) : List (Op α) → List (Op α × Out α)
  | [] => []
  | o :: os => (o, (r.step o).2) :: trace (r.step o).1 os

end Ref

/-- The number of `get` calls in a list of calls. -/
def gets {α : Type} (os : List (Op α)) : Nat :=
  os.countP (fun o => match o with | .get => true | _ => false)

/-- Is this call something else than an `add`? -/
def notAdd {α : Type} : Op α → Bool
  | .add _ => false
  | _ => true

end Aiok8s.WorkQueue
