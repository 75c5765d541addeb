import Verif.Model.FakeSource
/-!
# What a client makes of a list and a watch
-/
namespace Aiok8s.FakeSource

variable {K B : Type} [DecidableEq K]

/-- What a client knows: an object for each key, or none. -/
abbrev View (K B : Type) := K → Option (Obj K B)

/-- What a client knows from a list. -/
def ofList (l : List (Obj K B)) : View K B := fun k => l.find? fun o => o.key = k

/-- What a client knows after one more event. -/
def View.apply (v : View K B) (e : Typ × Obj K B) : View K B := fun k =>
  if e.2.key = k then (if e.1 = .deleted then none else some e.2) else v k

/-- What a client knows after some events. -/
def View.applyAll (v : View K B) (es : List (Typ × Obj K B)) : View K B := es.foldl View.apply v

/-- The caller is careful: it changes its objects only when it reports a change, and an object that it uses
again keeps its key (`name` tells which key). -/
def Careful (name : Nat → K) (es : List (Op K B)) : Prop :=
  ∀ e ∈ es, match e with
    | .write _ _ => False
    | .change _ r o _ _ => o.key = name r
    | _ => True

/-- Changes are reported to watchers: the methods without `_drop_watch`. -/
def Reported (es : List (Op K B)) : Prop :=
  ∀ e ∈ es, match e with
    | .change _ _ _ p u => u < p
    | _ => True

/-- The changes asked for, in order. -/
def asked : List (Op K B) → List (Typ × K × B)
  | [] => []
  | .change t _ o _ _ :: es => (t, o.key, o.body) :: asked es
  | _ :: es => asked es

/-- The caller's objects used in the changes, in order. -/
def used : List (Op K B) → List Nat
  | [] => []
  | .change _ r _ _ _ :: es => r :: used es
  | _ :: es => used es

/-- The object as it is left by the change with the number of its resource version, where that change is the
last one for its key and not a deletion. -/
def Current (cs : List (Typ × K × B)) (o : Obj K B) : Prop :=
  1 ≤ o.rv ∧ (∃ t, t ≠ .deleted ∧ cs[o.rv - 1]? = some (t, o.key, o.body)) ∧
  ∀ j t b, o.rv ≤ j → cs[j]? ≠ some (t, o.key, b)

/-- An event of a watch: it tells of the change with the number of its resource version. -/
def Told (cs : List (Typ × K × B)) (e : Typ × Obj K B) : Prop :=
  1 ≤ e.2.rv ∧ cs[e.2.rv - 1]? = some (e.1, e.2.key, e.2.body)

/-- The last change for the key is not a deletion. -/
def Alive (cs : List (Typ × K × B)) (k : K) : Prop :=
  ∃ (i : Nat) (t : Typ) (b : B), t ≠ .deleted ∧ cs[i]? = some (t, k, b) ∧ ∀ (j : Nat) (t' : Typ) (b' : B), i < j → cs[j]? ≠ some (t', k, b')

/-- The owners never change an object without telling. -/
def NoWrites (es : List (Op K B)) : Prop := ∀ e ∈ es, match e with | .write _ _ => False | _ => True

end Aiok8s.FakeSource
