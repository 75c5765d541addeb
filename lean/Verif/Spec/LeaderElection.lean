import Verif.Model.LeaderElection
/-!
# What leader election should do
-/
namespace Aiok8s.LeaderElection.Spec
open LeaderElection (Op)

/-- Who knows the current ConfigMap, worked out from the operations and their outcomes only: the number
of changes so far, whether the ConfigMap exists, and for every client the number of changes at the time
it last saw the ConfigMap (read it, or was told by the server what it had written). -/
structure Seen where
  changes : Nat
  present : Bool
  seen : Nat → Option Nat

def Seen.step (s : Seen) : Op × Bool → Seen
  | (.get i, _) =>
    if s.present then { s with seen := fun j => if j = i then some s.changes else s.seen j } else s
  | (.create i _, true) =>
    ⟨s.changes + 1, true, fun j => if j = i then some (s.changes + 1) else s.seen j⟩
  | (.update i _, true) =>
    { s with changes := s.changes + 1
             seen := fun j => if j = i then some (s.changes + 1) else s.seen j }
  | (.delete, true) => { s with changes := s.changes + 1, present := false }
  | (.annotate _, true) => { s with changes := s.changes + 1 }
  | (_, false) => s

def Seen.run (s : Seen) (l : List (Op × Bool)) : Seen := l.foldl Seen.step s

/-- Before anything has happened. -/
def Seen.start (present : Bool) : Seen := ⟨0, present, fun _ => none⟩

/-- Client `i` knows the ConfigMap as it is. -/
def Seen.current (s : Seen) (i : Nat) : Prop := s.present = true ∧ s.seen i = some s.changes

end Aiok8s.LeaderElection.Spec
