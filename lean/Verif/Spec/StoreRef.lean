import Verif.Model.StoreRef
import Verif.Spec.StoreRaise
/-!
# What a store should do although its objects are changed in place
-/
namespace Aiok8s.StoreRef.Spec
open Aiok8s Aiok8s.Store Aiok8s.Store.Spec

variable {R K O N V : Type} [DecidableEq R] [DecidableEq K]

/-- The objects as they are, and which reference is stored under which key. -/
structure Page (R K O : Type) where
  heap : R → O
  book : Book K R

/-- A call stores under the key the object has at this moment; an assignment does not move anything. -/
def Page.step (key : O → Option K) (p : Page R K O) : Act R K O N V → Page R K O
  | .call o => { p with book := p.book.step (fun r => key (p.heap r)) o }
  | .write r o => { p with heap := fun q => if q = r then o else p.heap q }

/-- After a sequence of acts. -/
def Page.after (key : O → Option K) (heap : R → O) (as : List (Act R K O N V)) : Page R K O :=
  as.foldl (Page.step key) ⟨heap, Book.empty⟩

/-- The reference is stored. -/
def Page.Stored (p : Page R K O) (r : R) : Prop := ∃ k, p.book.val k = some r

/-- An assignment that the store need not know about: to an object that is not stored, or one that does not
change which values the index functions give it. -/
def Harmless (fs : PyDict N (IndexFunc O V)) (p : Page R K O) : Act R K O N V → Prop
  | .call _ => True
  | .write r o => p.Stored r → ∀ n f, (n, f) ∈ fs → ∀ v, Yields f o v ↔ Yields f (p.heap r) v

/-- All assignments are of this kind. -/
def AllHarmless (key : O → Option K) (fs : PyDict N (IndexFunc O V)) :
    Page R K O → List (Act R K O N V) → Prop
  | _, [] => True
  | p, a :: as => Harmless fs p a ∧ AllHarmless key fs (p.step key a) as

/-- The references to objects that have the value `v` now. -/
def Page.having [DecidableEq V] (p : Page R K O) (f : IndexFunc O V) (v : V) : List R :=
  p.book.objectsWhere fun r => decide (Yields f (p.heap r) v)

/-- The acts with the answers of the calls. -/
def trace [DecidableEq N] [DecidableEq V] (key : O → Option K) (fs : PyDict N (IndexFunc O V)) :
    World R K O N V → List (Act R K O N V) → List (Act R K O N V × Option (Out K R V))
  | _, [] => []
  | w, .call o :: as => (.call o, some (call key fs w o).2) :: trace key fs (step key fs w (.call o)) as
  | w, .write r o :: as => (.write r o, none) :: trace key fs (step key fs w (.write r o)) as

/-- A `delete` that raised has no effect, everything else has. -/
def Page.keep (key : O → Option K) (p : Page R K O) :
    Act R K O N V × Option (Out K R V) → Page R K O
  | (.call (.delete r), some .ok) => p.step key (.call (.delete r) : Act R K O N V)
  | (.call (.delete _), _) => p
  | (a, _) => p.step key a

/-- After the acts that have had an effect. -/
def Page.kept (key : O → Option K) (heap : R → O) (t : List (Act R K O N V × Option (Out K R V))) :
    Page R K O :=
  t.foldl (Page.keep key) ⟨heap, Book.empty⟩

end Aiok8s.StoreRef.Spec
