import Verif.Model.PollTime
/-!
# What is expected of the times of polling
-/
namespace Aiok8s.PollTime
open Aiok8s.Wait (Res)

/-- Durations and delays are not negative. -/
structure Env.Valid (env : Env) : Prop where
  dur : ∀ k, 0 ≤ env.dur k
  lag : ∀ k, 0 ≤ env.lag k
  give : ∀ k, 0 ≤ env.give k
  late : 0 ≤ env.late

/-- A condition that is cancelled ends: it does not answer `False` as if nothing had happened. -/
def Env.Ends (env : Env) : Prop := ∀ k, env.onCancel k ≠ some (.ret false)

/-- A condition that is cancelled raises `CancelledError`. -/
def Env.Obeys (env : Env) : Prop := ∀ k, env.onCancel k = none

/-- The event loop has nothing else to do. -/
structure Env.Idle (env : Env) : Prop where
  lag : ∀ k, env.lag k = 0
  late : env.late = 0

/-- From time `t` on: each call begins at least `i` after that, or after the end of the call before. -/
def Spaced (i : ℚ) : ℚ → List Call → Prop
  | _, [] => True
  | t, c :: cs => t + i ≤ c.start ∧ c.start ≤ c.stop ∧ Spaced i c.stop cs

/-- The same, each exactly `i` after. -/
def Paced (i : ℚ) : ℚ → List Call → Prop
  | _, [] => True
  | t, c :: cs => c.start = t + i ∧ Paced i c.stop cs

/-- When call `n`, counted from `k` on, ends, if nothing is cancelled; the first pause begins at `t`. -/
def tick (i : ℚ) (env : Env) (k : Nat) (t : ℚ) : Nat → ℚ
  | 0 => t + i + env.lag k + env.dur k
  | n + 1 => tick i env k t n + i + env.lag (k + n + 1) + env.dur (k + n + 1)

end Aiok8s.PollTime
