import Verif.Model.StoreIndexers
import Verif.Spec.Store
/-!
# What a store should do although its index functions change
-/
namespace Aiok8s.StoreIndexers.Spec
open Aiok8s Aiok8s.Store Aiok8s.Store.Spec

variable {K O N V : Type} [DecidableEq K] [DecidableEq N]

/-- What is stored, and the index functions now. -/
structure Ledger (K O N V : Type) where
  book : Book K O
  funcs : N → Option (IndexFunc O V)

/-- A call changes what is stored, an assignment or removal the functions. -/
def Ledger.step (key : O → Option K) (l : Ledger K O N V) : Act K O N V → Ledger K O N V
  | .call o => { l with book := l.book.step key o }
  | .assign n f => { l with funcs := fun m => if m = n then some f else l.funcs m }
  | .remove n => { l with funcs := fun m => if m = n then none else l.funcs m }

/-- After a sequence of acts. -/
def Ledger.after (key : O → Option K) (fs : PyDict N (IndexFunc O V)) (as : List (Act K O N V)) : Ledger K O N V :=
  as.foldl (Ledger.step key) ⟨Book.empty, fs.get?⟩

/-- A function that does not raise and returns no value twice. -/
def Nice (f : IndexFunc O V) : Prop := ∀ o, ∃ vs, f o = some vs ∧ vs.Nodup

/-- All functions that are assigned are of this kind. -/
def AllNice (as : List (Act K O N V)) : Prop := ∀ n f, Act.assign n f ∈ as → Nice f

/-- Functions are assigned only while nothing is stored, and none is removed. -/
def Early (key : O → Option K) : Ledger K O N V → List (Act K O N V) → Prop
  | _, [] => True
  | l, a :: as =>
    (match a with
      | .call _ => True
      | .assign _ _ => l.book.order = []
      | .remove _ => False) ∧ Early key (l.step key a) as

end Aiok8s.StoreIndexers.Spec
