import Verif.Model.Wait
/-!
# Polling: the end of `aiok8s/util/wait.py`, and `wait_for_cache_sync`

How long things take is not modelled: `cut` says when the time runs out, counted in calls of the
condition.
-/
namespace Aiok8s.Poll
open Wait (Res Env)

/-- What is raised. -/
inductive Exc where
  /-- `asyncio.CancelledError` -/
  | cancelled
  /-- `asyncio.TimeoutError` -/
  | timeout
  /-- any other `Exception` -/
  | other (n : Nat)
  /-- other `BaseException`s, such as `KeyboardInterrupt` -/
  | base (n : Nat)
deriving DecidableEq

/-- How `poll_infinite` ends: it returns, raises, or is cancelled by `asyncio.wait_for` since the time
ran out. -/
inductive End where
  | returned
  | raised (e : Exc)
  | cut

/-- `wait.py` lines 132-136: `poll_infinite`, at most so many times round (`none`: not ended by then),
after `k` calls of the condition; also how many calls there have been at the end.  `env.sleep` is
asked with the number of calls before the sleep.  A condition that is under way when the time runs out
is cancelled and does not count; a condition that does not let itself be cancelled is not modelled. -/
def pollInfinite (env : Env Exc) (cut : Option Nat) : Nat → Nat → Option (End × Nat)
  | 0, _ => none
  | fuel + 1, k =>
    if cut = some k then some (.cut, k)
    else match env.sleep k with
      | some e => some (.raised e, k)
      | none => match env.cond k with
        | .raise e => some (.raised e, k + 1)
        | .ret true => some (.returned, k + 1)
        | .ret false => pollInfinite env cut fuel (k + 1)

/-- Lines 140-143: `poll_immediate_infinite`. -/
def pollImmediateInfinite (env : Env Exc) (fuel : Nat) : Option (End × Nat) :=
  match env.cond 0 with
  | .raise e => some (.raised e, 1)
  | .ret true => some (.returned, 1)
  | .ret false => pollInfinite env none fuel 1

/-- Lines 118-121: what `poll` makes of the end of `poll_infinite`. -/
def pollEnd : End → Wait.Outcome Exc
  | .returned => .returned
  | .raised .timeout => .timeout
  | .raised e => .raised e
  | .cut => .timeout

/-- Lines 117-121: `poll`. -/
def poll (env : Env Exc) (cut : Option Nat) (fuel : Nat) (k : Nat) :
    Option (Wait.Outcome Exc × Nat) :=
  (pollInfinite env cut fuel k).map fun p => (pollEnd p.1, p.2)

/-- Lines 125-128: `poll_immediate`. -/
def pollImmediate (env : Env Exc) (cut : Option Nat) (fuel : Nat) :
    Option (Wait.Outcome Exc × Nat) :=
  match env.cond 0 with
  | .raise e => some (.raised e, 1)
  | .ret true => some (.returned, 1)
  | .ret false => poll env cut fuel 1

/-- `shared_informer.py` line 45: `all(sync_func() for sync_func in cache_syncs)`; the answers are
those the functions would give in this evaluation. -/
def allSynced : List (Res Exc) → Res Exc
  | [] => .ret true
  | .raise e :: _ => .raise e
  | .ret false :: _ => .ret false
  | .ret true :: rs => allSynced rs

/-- What `wait_for_cache_sync` does in the end. -/
inductive SyncEnd where
  | ret (b : Bool)
  | raised (e : Exc)
deriving DecidableEq

/-- `shared_informer.py` lines 47-55. -/
def syncEnd : End → SyncEnd
  | .returned => .ret true
  | .raised .cancelled => .raised .cancelled
  | .raised (.base n) => .raised (.base n)
  | .raised _ => .ret false
  | .cut => .raised .cancelled

/-- `shared_informer.py` lines 43-55: `wait_for_cache_sync`; `syncs k` are the answers of the
functions in evaluation `k`, `sleep k` is raised by the sleep before that (`none`: the sleep ends by
itself). -/
def waitForCacheSync (syncs : Nat → List (Res Exc)) (sleep : Nat → Option Exc) (fuel : Nat) :
    Option (SyncEnd × Nat) :=
  (pollImmediateInfinite ⟨fun k => allSynced (syncs k), sleep, fun _ => 0⟩ fuel).map fun p =>
    (syncEnd p.1, p.2)

end Aiok8s.Poll
