import Verif.Model.DeltaLock
/-!
# Specification for the lock of `DeltaFIFO`
-/
namespace Aiok8s.DeltaLock.Spec
open Aiok8s.DeltaFifo (Op Out)
variable {K O : Type} [DecidableEq K]

/-- The calls that took the lock and what came of them, in the order in which they ended.  An attempt of `pop` that
found nothing counts as a call that was answered so. -/
def changes : List (Seen K O) → List (Op K O × Out K O)
  | [] => []
  | .done _ o a :: l => (o, a) :: changes l
  | .slept _ :: l => (.pop .ok, .blocked) :: changes l
  | _ :: l => changes l

/-- The same call, but for what is only known later: the answers of the known objects and how a callback ends. -/
def Same : Op K O → Op K O → Prop
  | .delete _ x, .delete _ y => x = y
  | .replace _ xs, .replace _ ys => xs = ys
  | .resync _, .resync _ => True
  | .pop _, .pop _ => True
  | o, p => o = p

/-- The call a task is in after what was seen, if any; a relation, as it may be that a task makes two calls at once
or gets an answer to a call it did not make: then there is none. -/
inductive InCall (t : Nat) : List (Seen K O) → Option (Op K O) → Prop where
  | nil : InCall t [] none
  | called {l o} : InCall t l none → InCall t (l ++ [.called t o]) (some o)
  | done {l o p a} : InCall t l (some o) → Same o p → InCall t (l ++ [.done t p a]) none
  | read {l o a} : InCall t l (some o) → InCall t (l ++ [.read t o a]) none
  | cancelled {l o} : InCall t l (some o) → InCall t (l ++ [.cancelled t]) none
  | slept {l r} : InCall t l (some (.pop r)) → InCall t (l ++ [.slept t]) (some (.pop r))
  | innerRead {l r o a} : InCall t l (some (.pop r)) → InCall t (l ++ [.innerRead t o a]) (some (.pop r))
  | other {l x e} : InCall t l x → (∀ o a, e ≠ .called t o ∧ e ≠ .done t o a ∧ e ≠ .read t o a ∧
      e ≠ .innerRead t o a) → e ≠ .slept t → e ≠ .cancelled t → InCall t (l ++ [e]) x

/-- The event is the cancellation of task `t`. -/
def isCancel (t : Nat) : Ev K O → Prop
  | .cancel u => u = t
  | _ => False

/-- The calls that only look at the queue. -/
inductive Looks : Op K O → Prop where
  | list : Looks .list
  | listKeys : Looks .listKeys
  | get (x) : Looks (.get x)
  | getByKey (k) : Looks (.getByKey k)
  | hasSynced : Looks .hasSynced
  | isClosed : Looks .isClosed

/-- The calls that cannot do anything, as the key function raises an error for what they are given, or, for
`add_if_not_present`, as there are no deltas. -/
inductive Pointless (key : O → Option K) : Op K O → Prop where
  | delete (kn x) : Aiok8s.DeltaFifo.keyOf key x = none → Pointless key (.delete kn x)
  | addNothing : Pointless key (.addIfNotPresent [])
  | addKey (ds d) : Aiok8s.DeltaFifo.keyOf key d.object = none → Pointless key (.addIfNotPresent (ds ++ [d]))

end Aiok8s.DeltaLock.Spec
