import Verif.Model.Wait
/-!
# Back-off durations
-/
namespace Aiok8s.Wait.Spec

/-- The cap has been met by the `k`-th step (counted from 0) of a back-off with `n` steps, initial
duration `d`, factor `f` and cap `c` (0: none). -/
def capped (d f c : ℚ) (n k : Nat) : Prop := c ≠ 0 ∧ ∃ j, j < min k n ∧ c < d * f ^ (j + 1)

instance (d f c : ℚ) (n k : Nat) : Decidable (capped d f c n k) :=
  inferInstanceAs (Decidable (_ ∧ _))

/-- The value before jitter of that step. -/
def value (d f c : ℚ) (n k : Nat) : ℚ :=
  if capped d f c n k then c else d * f ^ min k n

/-- The object after `k` calls of `step`, with these random numbers. -/
def after (rnd : Nat → ℚ) (b : Backoff) : Nat → Backoff
  | 0 => b
  | k + 1 => ((after rnd b k).step (rnd k)).1

/-- The result of the call of `step` after `k` others. -/
def result (rnd : Nat → ℚ) (b : Backoff) (k : Nat) : ℚ := ((after rnd b k).step (rnd k)).2

end Aiok8s.Wait.Spec
