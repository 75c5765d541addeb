import Verif.Model.RateLimiters
/-!
# Specifications for the rate limiters

Only the call vocabulary (`ExpOp`, `LimOp`) is taken from the model.
-/
namespace Aiok8s.RateLimiters
variable {α : Type} [DecidableEq α]

/-- The number of `when(x)` calls since the last `forget(x)` in a history (oldest first). -/
def recentFailures (x : α) (os : List (ExpOp α)) : Nat :=
  (os.reverse.takeWhile (fun o => o ≠ .forget x)).count (.when x)

/-- The same for calls of a combined limiter. -/
def recentFailures' {ε : Type} (x : α) : List (LimOp α ε) → Nat → Nat
  | [], n => n
  | .when y _ :: os, n => recentFailures' x os (if y = x then n + 1 else n)
  | .forget y :: os, n => recentFailures' x os (if y = x then 0 else n)

/-- The clock readings of the calls of `when` that reach the second part of the default limiter: all but
those for an item that already failed 1024 times since it was last forgotten. -/
def charged (before : List (LimOp α ℚ)) : List (LimOp α ℚ) → List ℚ
  | [] => []
  | .when y now :: os =>
    if recentFailures' y before 0 < 1024 then now :: charged (before ++ [.when y now]) os
    else charged (before ++ [.when y now]) os
  | .forget y :: os => charged (before ++ [.forget y]) os

/-- `d` is the largest element of `l`. -/
def IsMax {β : Type} [LE β] (d : β) (l : List β) : Prop := d ∈ l ∧ ∀ e ∈ l, e ≤ d

/-- An ideal token bucket: content `level` at time `at_` seconds, refilled continuously at
`rate` per second up to `cap`; each reservation takes one token, possibly on credit. -/
structure IdealBucket where
  level : ℚ
  at_ : ℚ

/-- The content at time `t` if nothing is taken in between. -/
def IdealBucket.levelAt (b : IdealBucket) (rate cap t : ℚ) : ℚ :=
  min cap (b.level + rate * (t - b.at_))

/-- A reservation at time `t`. -/
def IdealBucket.take (b : IdealBucket) (rate cap t : ℚ) : IdealBucket :=
  ⟨b.levelAt rate cap t - 1, t⟩

/-- Is `t` the first moment from `b.at_` on at which the credit is paid back? -/
def IdealBucket.ReadyAt (b : IdealBucket) (rate t : ℚ) : Prop :=
  (b.at_ ≤ t ∧ 0 ≤ b.level + rate * (t - b.at_)) ∧
  ∀ u, b.at_ ≤ u → 0 ≤ b.level + rate * (u - b.at_) → t ≤ u

end Aiok8s.RateLimiters
