import Verif.Model.Reflector
import Mathlib.Algebra.Order.Ring.Rat
/-!
# `aiok8s/cache/reflector.py` with times

`Verif.Model.Reflector` says which calls a reflector makes; this says when.  Times are those of the event loop;
`wall` is what `time.time()` gives at such a time (`clock.py` lines 23-27), which is what a watch's duration is
measured with (lines 144 and 233).  `asyncio.sleep` (line 51) goes by the time of the event loop.

How long everything takes is part of the script.  Not modelled: what is not in `Verif.Model.Reflector`.
-/
namespace Aiok8s.ReflectorTime
open Aiok8s.Reflector (Access Event Call Ended Status onEvent storeCall)

/-- How a stream ends. -/
inductive TEnd where
  /-- the iterator is exhausted -/
  | closed
  /-- the iterator (or `__aenter__`/`__aexit__`) raises -/
  | raises
  /-- a resync failed (lines 77-79) -/
  | resyncFails
  /-- it has not ended yet -/
  | open
deriving DecidableEq, Repr

/-- What a call of `watch` leads to. -/
inductive TWatch (O : Type) where
  /-- it raises (lines 96-99), after so long -/
  | fails (d : ℚ)
  /-- it returns after `d`; each event comes so long after what was before; the end comes `after` so long after the
  last event, and line 250 takes `close` -/
  | stream (d : ℚ) (es : List (ℚ × Event O)) (e : TEnd) (after close : ℚ)

/-- The answers for one call of `list_and_watch`. -/
inductive TScript (O : Type) where
  /-- listing or understanding the answer raises (lines 57-60), after so long -/
  | listFails (d : ℚ)
  /-- the list takes `d`, `store.replace` raises (line 141) after `r` -/
  | replaceFails (items : List O) (version : String) (d r : ℚ)
  /-- line 111 takes `close` -/
  | listed (items : List O) (version : String) (d r : ℚ) (ws : List (TWatch O)) (close : ℚ)

/-- What happens. -/
inductive Entry (O : Type) where
  /-- a call of the reflector begins -/
  | call (c : Call O)
  /-- an event has been accepted: lines 192-232 -/
  | accepted
deriving DecidableEq, Repr

variable {O G : Type} [DecidableEq G]

/-- What `_watch_handler` does. -/
structure TResult (O : Type) where
  log : List (ℚ × Entry O)
  version : String
  last : String
  ended : Ended
  time : ℚ

/-- Lines 233-238 and the other ends of the loop; `count` is `event_count`. -/
def atEnd (wall : ℚ → ℚ) (start now : ℚ) (version last : String) (count : Nat) : TEnd → TResult O
  | .closed => ⟨[], version, last, if wall now - wall start < 1 ∧ count = 0 then .raised else .returned, now⟩
  | .raises => ⟨[], version, last, .stuck, now⟩
  | .resyncFails => ⟨[], version, last, .raised, now⟩
  | .open => ⟨[], version, last, .open, now⟩

/-- Lines 157-238: the loop of `_watch_handler`, begun at `start`. -/
def watchLoop (A : Access O G) (wall : ℚ → ℚ) (start : ℚ) (end_ : TEnd) (after : ℚ) (now : ℚ) (version last : String)
    (count : Nat) : List (ℚ × Event O) → TResult O
  | [] => atEnd wall start (now + after) version last count end_
  | (d, e) :: es =>
    match onEvent A e with
    | .raised => ⟨[], version, last, .raised, now + d⟩
    | .skipped => watchLoop A wall start end_ after (now + d) version last count es
    | .accepted v =>
      let r := watchLoop A wall start end_ after (now + d) v v (count + 1) es
      { r with log := (now + d, .accepted) :: (storeCall e).map (fun c => (now + d, .call c)) ++ r.log }

/-- What happened so far, and until when. -/
structure TOutcome (O : Type) where
  log : List (ℚ × Entry O)
  last : String
  status : Status
  time : ℚ

/-- Lines 88-108: the loop over watches. -/
def watchAll (A : Access O G) (wall : ℚ → ℚ) (now : ℚ) (version last : String) : List (TWatch O) → TOutcome O
  | [] => ⟨[(now, .call (.watch version))], last, .open, now⟩
  | .fails d :: _ => ⟨[(now, .call (.watch version))], last, .ended, now + d⟩
  | .stream d es e after close :: ws =>
    let r := watchLoop A wall (now + d) e after (now + d) version last 0 es
    match r.ended with
    | .returned =>
      let o := watchAll A wall (r.time + close) r.version r.last ws
      { o with log := (now, .call (.watch version)) :: r.log ++ o.log }
    | .raised => ⟨(now, .call (.watch version)) :: r.log, r.last, .ended, r.time + close⟩
    | .stuck => ⟨(now, .call (.watch version)) :: r.log, r.last, .stuck, r.time⟩
    | .open => ⟨(now, .call (.watch version)) :: r.log, r.last, .open, r.time⟩

/-- Lines 53-111: `list_and_watch`. -/
def listAndWatch (A : Access O G) (wall : ℚ → ℚ) (now : ℚ) (last : String) : TScript O → TOutcome O
  | .listFails d => ⟨[(now, .call (.list "0"))], last, .ended, now + d⟩
  | .replaceFails items v d r =>
    ⟨[(now, .call (.list "0")), (now + d, .call (.replace items v))], last, .ended, now + d + r⟩
  | .listed items v d r ws close =>
    let o := watchAll A wall (now + d + r) v v ws
    ⟨(now, .call (.list "0")) :: (now + d, .call (.replace items v)) :: o.log, o.last, o.status, o.time + close⟩

/-- Lines 40-51: `run`.  With each script comes how late the event loop goes on after the `sleep` of line 51. -/
def run (A : Access O G) (wall : ℚ → ℚ) (now : ℚ) (last : String) : List (TScript O × ℚ) → TOutcome O
  | [] => ⟨[], last, .open, now⟩
  | (s, lag) :: ss =>
    let o := listAndWatch A wall now last s
    match o.status with
    | .ended =>
      -- `self._period` is 1 (line 32)
      let p := run A wall (o.time + 1 + lag) o.last ss
      { p with log := o.log ++ p.log }
    | _ => o

end Aiok8s.ReflectorTime
