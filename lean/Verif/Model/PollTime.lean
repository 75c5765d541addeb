import Verif.Model.Poll
import Mathlib.Algebra.Order.Ring.Rat
/-!
# `aiok8s/util/wait.py` lines 116-143 with times

`Verif.Model.Poll` says how the `poll` family ends; this says when.  A run is a list of calls of the
condition with the times at which they begin and end.  Time passes while the condition runs, while the loop
sleeps, and whenever the event loop is busy with other tasks (`lag`, `late`).

`asyncio.wait_for` (line 119) cancels `poll_infinite` once, when the time runs out.  The sleep lets itself be
cancelled at once.  The condition may take its time, and may also not let itself be cancelled: it may return or
raise something else, and `poll_infinite` goes on from there, without a limit from then on; `wait_for` waits
for its end.
-/
namespace Aiok8s.PollTime
open Aiok8s.Wait (Res)
open Aiok8s.Poll (Exc)

/-- The arguments `interval` and `timeout`. -/
structure Cfg where
  interval : ℚ
  timeout : ℚ

/-- What the outside does in round `k`. -/
structure Env where
  /-- what the condition answers, if it is not cancelled -/
  cond : Nat → Res Exc
  /-- how long it takes for that -/
  dur : Nat → ℚ
  /-- how late the loop goes on after its sleep -/
  lag : Nat → ℚ
  /-- what the condition does when it is cancelled; `none`: it lets the `CancelledError` through -/
  onCancel : Nat → Option (Res Exc)
  /-- how long it takes for that -/
  give : Nat → ℚ
  /-- how late `wait_for` notices that the time has run out -/
  late : ℚ
  /-- whether the condition goes first if it could go on in the moment in which the time runs out -/
  tie : Bool
  /-- whether `wait_for` gives on what a cancelled call returned or raised (Python 3.10), or raises a
  `TimeoutError` in any case (3.7) -/
  py310 : Bool

/-- A call of the condition. -/
structure Call where
  start : ℚ
  stop : ℚ
deriving DecidableEq

/-- How the loop ends. -/
inductive End where
  /-- it has not ended yet -/
  | running
  | returned
  /-- `WaitTimeoutError` -/
  | timeout
  | raised (e : Exc)
deriving DecidableEq

/-- A run: its calls, how it ends and when. -/
structure Run where
  calls : List Call
  fin : End
  time : ℚ
deriving DecidableEq

/-- Whether what happens at `a` comes before the limit, if there is one. -/
def before (tie : Bool) (a : ℚ) : Option ℚ → Bool
  | none => true
  | some d => decide (a < d) || (tie && decide (a = d))

/-- Lines 120-121. -/
def ends : Exc → End
  | .timeout => .timeout
  | e => .raised e

/-- What `wait_for` and lines 120-121 make of an exception of a call that had been cancelled. -/
def endsLate (py310 : Bool) (e : Exc) : End :=
  if py310 then (if e = .cancelled then .timeout else ends e) else .timeout

/-- Put a call before what follows. -/
def Run.after (c : Call) (r : Run) : Run := ⟨c :: r.calls, r.fin, r.time⟩

/-- Lines 132-136: `poll_infinite` without limit, at most so many rounds.  `over`: `wait_for` has cancelled it
before and waits for its end. -/
def free (c : Cfg) (env : Env) (over : Bool) : Nat → Nat → ℚ → Run
  | 0, _, now => ⟨[], .running, now⟩
  | fuel + 1, k, now =>
    let s := now + max 0 c.interval + env.lag k
    let f := s + env.dur k
    match env.cond k with
    | .ret true => ⟨[⟨s, f⟩], if over && !env.py310 then .timeout else .returned, f⟩
    | .ret false => (free c env over fuel (k + 1) f).after ⟨s, f⟩
    | .raise e => ⟨[⟨s, f⟩], if over then endsLate env.py310 e else ends e, f⟩

/-- The same, cancelled by `wait_for` at `d`. -/
def limited (c : Cfg) (env : Env) (d : ℚ) : Nat → Nat → ℚ → Run
  | 0, _, now => ⟨[], .running, now⟩
  | fuel + 1, k, now =>
    let s := now + max 0 c.interval + env.lag k
    if before env.tie s (some d) then
      let f := s + env.dur k
      if before env.tie f (some d) then
        match env.cond k with
        | .ret true => ⟨[⟨s, f⟩], .returned, f⟩
        | .ret false => (limited c env d fuel (k + 1) f).after ⟨s, f⟩
        | .raise e => ⟨[⟨s, f⟩], ends e, f⟩
      else
        -- cancelled in the condition
        let f := d + env.give k
        match env.onCancel k with
        | none => ⟨[⟨s, f⟩], .timeout, f⟩
        | some (.ret true) => ⟨[⟨s, f⟩], if env.py310 then .returned else .timeout, f⟩
        | some (.ret false) => (free c env true fuel (k + 1) f).after ⟨s, f⟩
        | some (.raise e) => ⟨[⟨s, f⟩], endsLate env.py310 e, f⟩
    else ⟨[], .timeout, d⟩

/-- Lines 117-121: `poll`, called at `now`, from round `k` of the condition.  With a timeout that is not
positive `wait_for` cancels the task before it has begun. -/
def poll (c : Cfg) (env : Env) (fuel k : Nat) (now : ℚ) : Run :=
  if c.timeout ≤ 0 then ⟨[], .timeout, now⟩
  else limited c env (now + c.timeout + env.late) fuel k now

/-- Lines 125-128: `poll_immediate`. -/
def pollImmediate (c : Cfg) (env : Env) (fuel : Nat) (now : ℚ) : Run :=
  let f := now + env.dur 0
  match env.cond 0 with
  | .ret true => ⟨[⟨now, f⟩], .returned, f⟩
  | .raise e => ⟨[⟨now, f⟩], .raised e, f⟩
  | .ret false => (poll c env fuel 1 f).after ⟨now, f⟩

/-- Lines 132-136: `poll_infinite`. -/
def pollInfinite (c : Cfg) (env : Env) (fuel k : Nat) (now : ℚ) : Run :=
  if_plain (free c env false fuel k now)
where
  /-- without line 120 a `TimeoutError` of the condition is what it is -/
  if_plain (r : Run) : Run := match r.fin with
    | .timeout => ⟨r.calls, .raised .timeout, r.time⟩
    | _ => r

/-- Lines 140-143: `poll_immediate_infinite`. -/
def pollImmediateInfinite (c : Cfg) (env : Env) (fuel : Nat) (now : ℚ) : Run :=
  let f := now + env.dur 0
  match env.cond 0 with
  | .ret true => ⟨[⟨now, f⟩], .returned, f⟩
  | .raise e => ⟨[⟨now, f⟩], .raised e, f⟩
  | .ret false => (pollInfinite c env fuel 1 f).after ⟨now, f⟩

end Aiok8s.PollTime
