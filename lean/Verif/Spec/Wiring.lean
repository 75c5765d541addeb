import Verif.Model.Wiring
/-! # Words for the claims about caches -/
namespace Aiok8s.Wiring

/-- A move that keeps to one manager: the controllers `C` are made by `m` and added to no other, the sources
`K` are watched by these controllers only and get their fields from nobody else. -/
def Stays (m : Nat) (C K : Nat → Prop) : Ev → Prop
  | .new m' c => C c → m' = m
  | .bare m' c => C c → m' = m
  | .add m' c => C c → m' = m
  | .fields m' k => K k → m' = m
  | .watch c k => K k → C c

/-- Some move of these makes the controller `c`. -/
def Made (c : Nat) (es : List Ev) : Prop := ∃ m, .new m c ∈ es ∨ .bare m c ∈ es

/-- After these moves, this one gives the controller `c` to the manager `m`: `controller.new` makes it for
`m`, or it exists and is added. -/
def Gives (es : List Ev) (m c : Nat) (e : Ev) : Prop :=
  e = .new m c ∧ ¬ Made c es ∨ e = .add m c ∧ Made c es

end Aiok8s.Wiring
