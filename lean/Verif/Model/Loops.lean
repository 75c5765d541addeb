import Verif.Model.Wait
/-!
# `aiok8s/util/wait.py` lines 24-65: `loop`, `jitter_loop`, `until`, `jitter_until`

A run is a list of calls of `f` with the times at which they begin and end.  Time does not pass in the
code itself; it passes while `f` runs, while the loop waits, and whenever the event loop is busy with other
tasks between the end of the wait and the next round (`lag`).
-/
namespace Aiok8s.Loops
open Aiok8s

/-- The arguments `period`, `jitter_factor`, `sliding`. -/
structure Cfg where
  period : ℚ
  factor : ℚ
  sliding : Bool

/-- What the outside does in round `k`: the random number, how long `f` runs, whether it raises, how late
the loop goes on after its wait; and when the stop event is set (`none`: never). -/
structure Env where
  rnd : Nat → ℚ
  dur : Nat → ℚ
  fails : Nat → Bool
  lag : Nat → ℚ
  stop : Option ℚ

/-- A call of `f`. -/
structure Call where
  start : ℚ
  stop : ℚ
deriving DecidableEq

/-- How the loop ends. -/
inductive End where
  /-- it has not ended yet -/
  | running
  /-- line 51: the stop event was set at the beginning of a round -/
  | stopped
  /-- `f` raised -/
  | raised
deriving DecidableEq

/-- A run: its calls, how it ends and when. -/
structure Run where
  calls : List Call
  fin : End
  time : ℚ
deriving DecidableEq

/-- Lines 31-34 and 52-55: `jittered_period`. -/
def jittered (c : Cfg) (r : ℚ) : ℚ := if c.factor > 0 then Wait.jitter c.period c.factor r else c.period

/-- Whether the stop event is set at time `t`. -/
def isSet (stop : Option ℚ) (t : ℚ) : Bool :=
  match stop with
  | some s => decide (s ≤ t)
  | none => false

/-- Lines 56-64: when the wait is over that began at `now` for a timer made at `made`
(`asyncio.sleep` of a negative time does not wait). -/
def wake (stop : Option ℚ) (now made period : ℚ) : ℚ :=
  let due := max now (made + max 0 period)
  match stop with
  | some s => max now (min due s)
  | none => due

/-- Lines 49-65: `jitter_until` from round `k` at time `now`, at most so many rounds. -/
def jitterUntil (c : Cfg) (env : Env) : Nat → Nat → ℚ → Run
  | 0, _, now => ⟨[], .running, now⟩
  | fuel + 1, k, now =>
    if isSet env.stop now then ⟨[], .stopped, now⟩
    else
      let p := jittered c (env.rnd k)
      let fin := now + env.dur k
      if env.fails k then ⟨[⟨now, fin⟩], .raised, fin⟩
      else
        let made := if c.sliding then fin else now
        let r := jitterUntil c env fuel (k + 1) (wake env.stop fin made p + env.lag k)
        ⟨⟨now, fin⟩ :: r.calls, r.fin, r.time⟩

/-- Lines 29-42: `jitter_loop`, the same without a stop event. -/
def jitterLoop (c : Cfg) (env : Env) (fuel k : Nat) (now : ℚ) : Run :=
  jitterUntil c { env with stop := none } fuel k now

/-- Lines 45-46: `until`. -/
def until_ (period : ℚ) (env : Env) (fuel : Nat) (now : ℚ) : Run :=
  jitterUntil ⟨period, 0, true⟩ env fuel 0 now

/-- Lines 24-25: `loop`. -/
def loop (period : ℚ) (env : Env) (fuel : Nat) (now : ℚ) : Run :=
  jitterLoop ⟨period, 0, true⟩ env fuel 0 now

end Aiok8s.Loops
