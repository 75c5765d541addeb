import Verif.Model.Store
/-!
# Specification of the store: a map with insertion order

`Book` is a plain map: a value for every key and the keys in the order in which they came in.
It uses nothing of the model but the type of calls and of answers.
-/
namespace Aiok8s.Store.Spec
open Aiok8s.Store

variable {K O N V : Type} [DecidableEq K]

/-- A map and the order in which its keys came in. -/
structure Book (K O : Type) where
  order : List K
  val : K → Option O

/-- Nothing stored. -/
def Book.empty : Book K O := ⟨[], fun _ => none⟩

/-- Store `o` under `k`. -/
def Book.put (b : Book K O) (k : K) (o : O) : Book K O :=
  ⟨if k ∈ b.order then b.order else b.order ++ [k], fun j => if j = k then some o else b.val j⟩

/-- Forget `k`. -/
def Book.drop (b : Book K O) (k : K) : Book K O :=
  ⟨b.order.filter (· ≠ k), fun j => if j = k then none else b.val j⟩

/-- The effect of a call. -/
def Book.step (key : O → Option K) (b : Book K O) : Op K O N V → Book K O
  | .add o | .update o => match key o with
    | some k => b.put k o
    | none => b
  | .delete o => match key o with
    | some k => b.drop k
    | none => b
  | .replace os =>
    if os.all (fun o => (key o).isSome) then
      os.foldl (fun b o => match key o with | some k => b.put k o | none => b) Book.empty
    else b
  | _ => b

/-- The map after a sequence of calls. -/
def Book.after (key : O → Option K) (os : List (Op K O N V)) : Book K O :=
  os.foldl (Book.step key) Book.empty

/-- The stored objects in order. -/
def Book.objects (b : Book K O) : List O := b.order.filterMap b.val

/-- The answer to a call, as far as it concerns the map (`none`: index queries). -/
def Book.answer (key : O → Option K) (b : Book K O) : Op K O N V → Option (Out K O V)
  | .add o | .update o | .delete o =>
    if (key o).isSome then some .ok else some (.raised .storeKeyError)
  | .replace os =>
    if os.all (fun o => (key o).isSome) then some .ok else some (.raised .storeKeyError)
  | .list => some (.objs b.objects)
  | .listKeys => some (.keys b.order)
  | .get o => match key o with
    | some k => some (.obj (b.val k))
    | none => some (.raised .storeKeyError)
  | .getByKey k => some (.obj (b.val k))
  | .resync => some .ok
  | _ => none

/-- Index functions as C18 wants them: they do not raise and return no value twice. -/
def Good (indexers : PyDict N (IndexFunc O V)) : Prop :=
  ∀ p ∈ indexers, ∀ o, ∃ vs, p.2 o = some vs ∧ vs.Nodup

/-- Index functions that do not raise (C19). -/
def Total (indexers : PyDict N (IndexFunc O V)) : Prop :=
  ∀ p ∈ indexers, ∀ o, ∃ vs, p.2 o = some vs

/-- `f` gives `o` the value `v`. -/
def Yields (f : IndexFunc O V) (o : O) (v : V) : Prop := ∃ vs, f o = some vs ∧ v ∈ vs

instance [DecidableEq V] (f : IndexFunc O V) (o : O) (v : V) : Decidable (Yields f o v) :=
  match h : f o with
  | none => isFalse (by rintro ⟨vs, h1, -⟩; simp [h] at h1)
  | some ws => if hv : v ∈ ws then isTrue ⟨ws, h, hv⟩
    else isFalse (by rintro ⟨vs, h1, h2⟩; rw [h] at h1; cases h1; exact hv h2)

/-- The keys, in order, whose object satisfies `P`. -/
def Book.keysWhere (b : Book K O) (P : O → Bool) : List K :=
  b.order.filter fun k => (b.val k).any P

/-- The objects, in the order of their keys, that satisfy `P`. -/
def Book.objectsWhere (b : Book K O) (P : O → Bool) : List O := b.objects.filter P

/-- Some index function gives the object stored under `k` the same value twice, and another
stored object has that value, too. -/
def Book.Clash [DecidableEq V] (indexers : PyDict N (IndexFunc O V)) (b : Book K O) (k : K) :
    Prop :=
  ∃ o n f vs v j o', b.val k = some o ∧ (n, f) ∈ indexers ∧ f o = some vs ∧ 2 ≤ vs.count v ∧
    j ≠ k ∧ b.val j = some o' ∧ Yields f o' v

/-- No add, update or delete of the history meets a `Clash`. -/
def Clean [DecidableEq V] (key : O → Option K) (indexers : PyDict N (IndexFunc O V)) :
    Book K O → List (Op K O N V) → Prop
  | _, [] => True
  | b, o :: os =>
    (match o with
      | .add x | .update x | .delete x => ∀ k, key x = some k → ¬ b.Clash indexers k
      | _ => True) ∧ Clean key indexers (b.step key o) os

end Aiok8s.Store.Spec
