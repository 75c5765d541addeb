import Mathlib.Algebra.Order.Ring.Rat
/-!
# `aiok8s/util/wait.py`: back-off and polling

Durations are exact rationals.  `random.random()` is a parameter in `[0, 1)`.  Lines 24-65 (`loop`,
`jitter_loop`, `until`, `jitter_until`) are in `Loops.lean`.
-/
namespace Aiok8s.Wait

/-- Lines 68-72: `jitter`; `r` is what `random.random()` returns. -/
def jitter (duration maxFactor r : ℚ) : ℚ :=
  let maxFactor := if maxFactor ≤ 0 then 1 else maxFactor
  duration + r * maxFactor * duration

/-- Lines 79-85: `Backoff`. -/
structure Backoff where
  duration : ℚ
  factor : ℚ
  jitter : ℚ
  steps : Int
  cap : ℚ
deriving DecidableEq

/-- Lines 87-102: `Backoff.step`: the object afterwards and what is returned. -/
def Backoff.step (b : Backoff) (r : ℚ) : Backoff × ℚ :=
  if b.steps < 1 then
    (b, if b.jitter ≠ 0 then Wait.jitter b.duration b.jitter r else b.duration)
  else
    let steps := b.steps - 1
    let next := b.duration * b.factor
    let b' : Backoff :=
      if b.factor ≠ 0 then
        if b.cap ≠ 0 ∧ next > b.cap then { b with steps := 0, duration := b.cap }
        else { b with steps := steps, duration := next }
      else { b with steps := steps }
    (b', if b.jitter ≠ 0 then Wait.jitter b.duration b.jitter r else b.duration)

/-- What a call of a condition does. -/
inductive Res (E : Type) where
  | ret (b : Bool)
  | raise (e : E)

/-- How a waiting function ends. -/
inductive Outcome (E : Type) where
  | returned
  | raised (e : E)
  /-- `WaitTimeoutError` -/
  | timeout

/-- What the outside does: the answer to each call of the condition, the exception (a cancellation)
that ends each sleep, if any, and the random numbers. -/
structure Env (E : Type) where
  cond : Nat → Res E
  sleep : Nat → Option E
  rnd : Nat → ℚ

/-- A run of `exponential_backoff`: how it ends, how often the condition was called, the arguments of
`asyncio.sleep`, and the `Backoff` objects afterwards. -/
structure Run (E : Type) where
  outcome : Outcome E
  calls : Nat
  sleeps : List ℚ
  heap : List Backoff

/-- Lines 107-112, at most so many times round (`none`: not ended by then), with the copy at `ref`,
after `k` calls of the condition. -/
def backoffLoop {E : Type} (env : Env E) (ref : Nat) :
    Nat → Nat → List ℚ → List Backoff → Option (Run E)
  | 0, _, _, _ => none
  | fuel + 1, k, sl, heap =>
    match heap[ref]? with
    | none => none
    | some b =>
      if b.steps = 0 then some ⟨.timeout, k, sl, heap⟩
      else match env.cond k with
        | .raise e => some ⟨.raised e, k + 1, sl, heap⟩
        | .ret true => some ⟨.returned, k + 1, sl, heap⟩
        | .ret false =>
          if b.steps = 1 then some ⟨.timeout, k + 1, sl, heap⟩
          else
            let p := b.step (env.rnd k)
            let heap := heap.set ref p.1
            match env.sleep k with
            | some e => some ⟨.raised e, k + 1, sl ++ [p.2], heap⟩
            | none => backoffLoop env ref fuel (k + 1) (sl ++ [p.2]) heap

/-- Lines 105-113: `exponential_backoff` with the caller's object at `ref`; the copy of line 106 is a
new object.  Other tasks do not touch these two objects meanwhile. -/
def exponentialBackoff {E : Type} (env : Env E) (fuel : Nat) (ref : Nat) (heap : List Backoff) :
    Option (Run E) :=
  match heap[ref]? with
  | none => none
  | some b => backoffLoop env heap.length fuel 0 [] (heap ++ [b])

/-- `aiok8s/util/retry.py` line 17: `default_retry`. -/
def defaultRetry : Backoff := ⟨1 / 100, 1, 1 / 10, 5, 0⟩

end Aiok8s.Wait
