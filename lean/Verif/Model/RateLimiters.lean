import Verif.Model.PyDict
import Mathlib.Data.Rat.Defs
import Mathlib.Algebra.Order.Ring.Rat
import Mathlib.Algebra.Field.Rat
import Mathlib.Data.List.MinMax
/-!
# `aiok8s/workqueue/default_rate_limiters.py`

Delays and times are exact rationals: rounding of Python floats is not modelled.  The one
floating-point effect that changes the behaviour is kept: multiplying a float by an `int`
converts the `int` to a float first, which raises `OverflowError` from `2**1024` on.
-/
namespace Aiok8s.RateLimiters

/-- What `when()` returns or raises. -/
inductive Res where
  /-- a delay in seconds -/
  | delay (d : ℚ)
  /-- `OverflowError: int too large to convert to float` -/
  | overflow
  /-- `ValueError: max() arg is an empty sequence` -/
  | valueError
deriving DecidableEq

/-! ## ItemExponentialFailureRateLimiter -/

/-- Constructor arguments of `ItemExponentialFailureRateLimiter`
(`default_rate_limiters.py` lines 61-63) and whether `base_delay` is a Python `float`
(`floatBase`) or an `int`. -/
structure ExpCfg where
  base : ℚ
  max : ℚ
  floatBase : Bool

/-- `default_rate_limiters.py` line 64: `self._failures`, a `Counter` – a missing key reads as
0 and reading does not insert it. -/
abbrev Failures (α : Type) := PyDict α Nat

variable {α : Type} [DecidableEq α]

/-- `self._failures[item]` of a `Counter` (`default_rate_limiters.py` lines 67, 68, 78). -/
def failures (f : Failures α) (x : α) : Nat := (f.get? x).getD 0

/-- `self._base_delay * 2 ** exp` (`default_rate_limiters.py` line 70). -/
def mulPow (c : ExpCfg) (n : Nat) : Option ℚ :=
  if c.floatBase && 1024 ≤ n then none else some (c.base * 2 ^ n)

/-- `default_rate_limiters.py` lines 66-72: `when`.  The counter is incremented before the
multiplication that may raise. -/
def expWhen (c : ExpCfg) (f : Failures α) (x : α) : Failures α × Res :=
  let exp := failures f x
  let f := f.set x (failures f x + 1)
  match mulPow c exp with
  | none => (f, .overflow)
  | some backoff => (f, .delay (min backoff c.max))

/-- `default_rate_limiters.py` lines 74-75: `forget`; `Counter.__delitem__` ignores missing
keys. -/
def expForget (f : Failures α) (x : α) : Failures α := f.del x

/-- `default_rate_limiters.py` lines 77-78: `num_requeues`. -/
def expNumRequeues (f : Failures α) (x : α) : Nat := failures f x

/-- The public calls of the limiter (`default_rate_limiters.py` lines 66, 74, 77). -/
inductive ExpOp (α : Type) where
  | when (x : α)
  | forget (x : α)
  | numRequeues (x : α)
deriving DecidableEq

/-- Results of the calls. -/
inductive ExpOut where
  | res (r : Res)
  | none
  | num (n : Nat)
deriving DecidableEq

/-- One call. -/
def expStep (c : ExpCfg) (f : Failures α) : ExpOp α → Failures α × ExpOut
  | .when x => ((expWhen c f x).1, .res (expWhen c f x).2)
  | .forget x => (expForget f x, .none)
  | .numRequeues x => (f, .num (expNumRequeues f x))

/-- The state after a sequence of calls. -/
def expExec (c : ExpCfg) (f : Failures α) : List (ExpOp α) → Failures α
  | [] => f
  | o :: os => expExec c (expStep c f o).1 os

/-! ## BucketRateLimiter -/

/-- Constructor arguments of `BucketRateLimiter` (`default_rate_limiters.py` lines 27-33). -/
structure BucketCfg where
  limit : ℚ
  burst : ℚ

/-- `default_rate_limiters.py` lines 28-31: the checks of the constructor. -/
def BucketCfg.valid (c : BucketCfg) : Prop := ¬ c.limit ≤ 0 ∧ ¬ c.burst < 1

/-- `default_rate_limiters.py` lines 34-35: `self._tokens` and `self._last` (nanoseconds). -/
structure Bucket where
  tokens : ℚ
  last : ℚ
deriving DecidableEq

/-- `default_rate_limiters.py` lines 34-35. -/
def bucketInit : Bucket := ⟨0, 0⟩

/-- `default_rate_limiters.py` lines 51-57: `_advance`. -/
def advance (c : BucketCfg) (b : Bucket) (now : ℚ) : ℚ :=
  let last := min b.last now
  let maxElapsed := 1000000000 * (c.burst - b.tokens) / c.limit
  let elapsed := min (now - last) maxElapsed
  let delta := elapsed * c.limit / 1000000000
  min (b.tokens + delta) c.burst

/-- `default_rate_limiters.py` lines 37-43: `when`; `now` is the clock reading of line 38 in
nanoseconds.  Returns the wait in seconds. -/
def bucketWhen (c : BucketCfg) (b : Bucket) (now : ℚ) : Bucket × ℚ :=
  let tokens := advance c b now - 1
  let wait := if tokens < 0 then -tokens / c.limit else 0
  (⟨tokens, now⟩, wait)

/-- The bucket after calls at the clock readings `nows`. -/
def bucketExec (c : BucketCfg) (b : Bucket) : List ℚ → Bucket
  | [] => b
  | n :: ns => bucketExec c (bucketWhen c b n).1 ns

/-- The waits returned by calls at the clock readings `nows`. -/
def bucketWaits (c : BucketCfg) (b : Bucket) : List ℚ → List ℚ
  | [] => []
  | n :: ns => (bucketWhen c b n).2 :: bucketWaits c (bucketWhen c b n).1 ns

/-! ## _MaxOfRateLimiters -/

/-- The methods `_MaxOfRateLimiters` calls on its parts (`default_rate_limiters.py` lines
86, 90, 93), for parts with states in `σ`; `ε` is what a call may read from outside (the
clock).  Parts of different classes are covered by letting `σ` be a sum type. -/
structure Iface (σ α ε : Type) where
  when : σ → α → ε → σ × Res
  forget : σ → α → σ
  numRequeues : σ → α → Nat

variable {σ ε : Type}

/-- `map(methodcaller("when", item), self._limiters)` consumed by `max`
(`default_rate_limiters.py` line 86): the parts are called in order, an exception ends the
iteration.  All parts of one call see the same `env` (simplification: in the code each part
reads the clock itself). -/
def callParts (I : Iface σ α ε) (env : ε) (x : α) : List σ → List σ × Except Res (List ℚ)
  | [] => ([], .ok [])
  | s :: ss =>
    let (s', r) := I.when s x env
    match r with
    | .delay d =>
      let (ss', rs) := callParts I env x ss
      (s' :: ss', rs.map (d :: ·))
    | e => (s' :: ss, .error e)

/-- Python's `max` of an iterable (`default_rate_limiters.py` lines 86, 93): the first of the
largest; `none` stands for the `ValueError` on an empty iterable. -/
def pyMax {β : Type} [LinearOrder β] : List β → Option β
  | [] => none
  | d :: ds => some (ds.foldl (fun m d => if m < d then d else m) d)

/-- `default_rate_limiters.py` lines 85-86: `when`. -/
def maxWhen (I : Iface σ α ε) (ss : List σ) (x : α) (env : ε) : List σ × Res :=
  match callParts I env x ss with
  | (ss', .ok ds) =>
    match pyMax ds with
    | none => (ss', .valueError)
    | some d => (ss', .delay d)
  | (ss', .error e) => (ss', e)

/-- `default_rate_limiters.py` lines 88-90: `forget`. -/
def maxForget (I : Iface σ α ε) (ss : List σ) (x : α) : List σ := ss.map (I.forget · x)

/-- `default_rate_limiters.py` lines 92-93: `num_requeues`; `none` is the `ValueError` raised
without parts. -/
def maxNumRequeues (I : Iface σ α ε) (ss : List σ) (x : α) : Option Nat :=
  pyMax (ss.map (I.numRequeues · x))

/-- Calls of a limiter; `env` is the clock. -/
inductive LimOp (α ε : Type) where
  | when (x : α) (env : ε)
  | forget (x : α)

/-- The parts of a combined limiter after one call (`default_rate_limiters.py` lines 85-90). -/
def partsStep (I : Iface σ α ε) (ss : List σ) : LimOp α ε → List σ
  | .when x env => (maxWhen I ss x env).1
  | .forget x => maxForget I ss x

/-- The parts of a combined limiter after a sequence of calls. -/
def partsExec (I : Iface σ α ε) (ss : List σ) : List (LimOp α ε) → List σ
  | [] => ss
  | o :: os => partsExec I (partsStep I ss o) os

/-- A single part after the same calls were made on it directly. -/
def partExec (I : Iface σ α ε) (s : σ) : List (LimOp α ε) → σ
  | [] => s
  | .when x env :: os => partExec I (I.when s x env).1 os
  | .forget x :: os => partExec I (I.forget s x) os

/-! ## The default limiter -/

/-- The two limiter classes as one type of parts. -/
inductive Part (α : Type) where
  | exp (c : ExpCfg) (f : Failures α)
  | bucket (c : BucketCfg) (b : Bucket)

/-- The methods of the parts (`default_rate_limiters.py` lines 26-78); the environment is the
clock reading in nanoseconds.  `BucketRateLimiter.forget` does nothing (lines 45-46) and its
`num_requeues` is 0 (lines 48-49). -/
def partIface : Iface (Part α) α ℚ where
  when
    | .exp c f, x, _ => ((.exp c (expWhen c f x).1), (expWhen c f x).2)
    | .bucket c b, _, now => ((.bucket c (bucketWhen c b now).1), .delay (bucketWhen c b now).2)
  forget
    | .exp c f, x => .exp c (expForget f x)
    | .bucket c b, _ => .bucket c b
  numRequeues
    | .exp _ f, x => expNumRequeues f x
    | .bucket _ _, _ => 0

/-- `default_rate_limiters.py` lines 20-23: `default_controller_rate_limiter`. -/
def defaultParts : List (Part α) :=
  [.exp ⟨5 / 1000, 1000, true⟩ [], .bucket ⟨10, 100⟩ bucketInit]

end Aiok8s.RateLimiters
