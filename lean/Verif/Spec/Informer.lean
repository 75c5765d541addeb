import Verif.Model.Informer
/-!
# Specification of the informer: what a handler may see, what the store should become
-/
namespace Aiok8s.Informer.Spec
open Aiok8s.DeltaFifo (Obj Delta Deltas DType Outcome keyOf)
open Aiok8s.Informer
variable {K O : Type} [DecidableEq K]

/-- Contents of a cache: which object is under a key. -/
abbrev View (K O : Type) := K → Option (Obj K O)

/-- Set or remove one key of a view. -/
def View.put (v : View K O) (k : K) (x : Option (Obj K O)) : View K O :=
  fun j => if j = k then x else v j

/-- What somebody who follows the notifications has after one more. -/
def see (key : O → Option K) (v : View K O) : Note K O → View K O
  | .onAdd x => match keyOf key x with
    | some k => v.put k (some x)
    | none => v
  | .onUpdate _ x => match keyOf key x with
    | some k => v.put k (some x)
    | none => v
  | .onDelete x => match keyOf key x with
    | some k => v.put k none
    | none => v

/-- A notification makes sense to somebody who has followed: additions of absent objects,
updates with the object seen last, deletions of present objects. -/
def Sensible (key : O → Option K) (v : View K O) : Note K O → Prop
  | .onAdd x => ∃ k, keyOf key x = some k ∧ v k = none
  | .onUpdate old x => ∃ k, keyOf key x = some k ∧ v k = some old
  | .onDelete x => ∃ k, keyOf key x = some k ∧ v k ≠ none

/-- Like `Sensible`, but what is deleted may be absent. -/
def Coherent (key : O → Option K) (v : View K O) : Note K O → Prop
  | .onAdd x => ∃ k, keyOf key x = some k ∧ v k = none
  | .onUpdate old x => ∃ k, keyOf key x = some k ∧ v k = some old
  | .onDelete x => ∃ k, keyOf key x = some k

/-- Every notification is coherent when it comes. -/
def AllCoherent (key : O → Option K) : View K O → List (Note K O) → Prop
  | _, [] => True
  | v, n :: ns => Coherent key v n ∧ AllCoherent key (see key v n) ns

/-- Every notification makes sense when it comes. -/
def AllSensible (key : O → Option K) : View K O → List (Note K O) → Prop
  | _, [] => True
  | v, n :: ns => Sensible key v n ∧ AllSensible key (see key v n) ns

/-- One more listed object. -/
def listStep (key : O → Option K) (v : View K O) (x : Obj K O) : View K O :=
  match keyOf key x with
  | some k => v.put k (some x)
  | none => v

/-- The objects of a list by key; of objects with equal keys the last one counts. -/
def listed (key : O → Option K) (xs : List (Obj K O)) : View K O :=
  xs.foldl (listStep key) fun _ => none

/-- The watched state after one more event: `add`, `update` and `delete` events change it, a
list replaces it, resyncs and pops do not matter. -/
def watched (key : O → Option K) (v : View K O) : Ev K O → View K O
  | .add x => match keyOf key x with
    | some k => v.put k (some x)
    | none => v
  | .update x => match keyOf key x with
    | some k => v.put k (some x)
    | none => v
  | .delete x => match keyOf key x with
    | some k => v.put k none
    | none => v
  | .replace xs => listed key xs
  | .resync => v
  | .pop _ => v

/-- The watched state after a history. -/
def target (key : O → Option K) (es : List (Ev K O)) : View K O :=
  es.foldl (watched key) fun _ => none

/-- The pending changes of a key as the queue shows them. -/
def pending (s : State K O) (k : K) : Deltas K O := (s.q.items.get? k).getD []

/-- The newest pending change of `k` is a deletion. -/
def NewestDeleted (s : State K O) (k : K) : Prop :=
  ∃ d, (pending s k).getLast? = some d ∧ d.type = .deleted

/-- A moment at which a list does no harm to `k`: if `k` is listed its newest pending change is
not a deletion; if it is not listed but has something pending then it is in the store or about
to be deleted. -/
def CleanAt (key : O → Option K) (s : State K O) (xs : List (Obj K O)) (k : K) : Prop :=
  ((∃ x ∈ xs, keyOf key x = some k) → ¬ NewestDeleted s k) ∧
  (pending s k ≠ [] → (∀ x ∈ xs, keyOf key x ≠ some k) →
    s.items.get? k ≠ none ∨ NewestDeleted s k)

/-- When the changes of `k` are processed the handler fails, if at all, only in the last call and
not with `RequeueError`. -/
def CarefulAt (k : K) (s : State K O) : Ev K O → Prop
  | .pop h => s.q.queue.head? = some k →
      (∀ i c, h i ≠ .requeue c) ∧ ∀ i, i + 1 < (pending s k).length → h i = .ok
  | _ => True

/-- The handler is careful with `k` all along a history. -/
def AllCarefulAt (key : O → Option K) (k : K) : State K O → List (Ev K O) → Prop
  | _, [] => True
  | s, e :: es => CarefulAt k s e ∧ AllCarefulAt key k (step key s e).1 es

/-- The key of a watch event. -/
def eventKey (key : O → Option K) : Ev K O → Option K
  | .add x => keyOf key x
  | .update x => keyOf key x
  | .delete x => keyOf key x
  | _ => none

/-- Nothing is pending. -/
def Drained (s : State K O) : Prop := s.q.queue = []

/-- The handler never fails. -/
def Ev.handlerOk : Ev K O → Prop
  | .pop h => ∀ i, h i = .ok
  | _ => True

/-- The handler may fail, but not with `RequeueError`. -/
def Ev.noRequeue : Ev K O → Prop
  | .pop h => ∀ i c, h i ≠ .requeue c
  | _ => True

/-- The event is not a list. -/
def Ev.noList : Ev K O → Prop
  | .replace _ => False
  | _ => True

end Aiok8s.Informer.Spec
