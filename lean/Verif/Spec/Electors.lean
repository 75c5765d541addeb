import Verif.Model.Electors
/-!
# What it is to lead, and what a lock must do
-/
namespace Aiok8s.LeaderElection

/-- `on_started_leading` has been started and `on_stopped_leading` has not been called. -/
def Leading (calls : List Call) : Prop := .started ∈ calls ∧ .stopped ∉ calls

/-- A lock that makes one record only: `there s` says that there is one.  `create` succeeds only if there is none,
and then there is one; no call of the lock removes it. -/
structure Exclusive {σ : Type} (L : Lock σ) (there : σ → Prop) : Prop where
  get : ∀ s, there s → there (L.get s).1
  create : ∀ r s, there s → there (L.create r s).1
  update : ∀ r s, there s → there (L.update r s).1
  refuses : ∀ r s, there s → (L.create r s).2 ≠ .ret ()
  makes : ∀ r s, (L.create r s).2 = .ret () → there (L.create r s).1

/-- Nobody else removes the record. -/
def Move.Keeps {σ : Type} (there : σ → Prop) : Move σ → Prop
  | .go _ _ _ => True
  | .outside g => ∀ s, there s → there (g s)

end Aiok8s.LeaderElection
