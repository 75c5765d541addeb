import Verif.Model.Listener
import Mathlib.Algebra.Order.Ring.Rat
/-!
# `_ProcessListener` of `aiok8s/cache/shared_informer.py` with times

The listener of `Verif.Model.Listener`; between its actions time passes.  The only place where it measures time itself
is `asyncio.sleep(60)` (line 398) after a call of the handler that raised.  `exponential_backoff` (line 394) never
pauses: its `condition` does not return anything but `True`.
-/
namespace Aiok8s.ListenerTime
open Aiok8s.Listener (State Act)
variable {N : Type}

/-- The listener, the time and the end of the last `asyncio.sleep(60)`. -/
structure TState (N : Type) where
  l : State N
  now : ℚ
  wake : ℚ

/-- A listener whose tasks have just started. -/
def init (t : ℚ) : TState N := ⟨Listener.init, t, t⟩

/-- An action of the listener, or time passes. -/
inductive TAct (N : Type) where
  | act (a : Act N)
  | pass (d : ℚ)

/-- What can be seen from outside. -/
inductive Obs (N : Type) where
  /-- `_add` has put a notification -/
  | put (n : N)
  /-- the handler is called -/
  | call (n : N)
  /-- the call has ended; `ok`: it did not raise -/
  | ends (ok : Bool)
deriving DecidableEq

/-- `shared_informer.py` lines 392-400: an action may have to wait for the end of the `sleep`, and a call that raises
makes one begin. -/
def step (s : TState N) : TAct N → Option (TState N × Option (Obs N))
  | .pass d => if 0 ≤ d then some ({ s with now := s.now + d }, none) else none
  | .act a =>
    match Listener.step s.l a with
    | none => none
    | some (l, c) =>
      match a with
      | .wake => if s.wake ≤ s.now then some ({ s with l := l }, none) else none
      | .handlerEnds true => some ({ s with l := l }, some (.ends true))
      | .handlerEnds false => some (⟨l, s.now, s.now + 60⟩, some (.ends false))
      | .put n => some ({ s with l := l }, some (.put n))
      | _ => some ({ s with l := l }, c.map .call)

/-- A sequence of possible actions: the state after it and what was seen, with the times. -/
def exec (s : TState N) : List (TAct N) → Option (TState N × List (ℚ × Obs N))
  | [] => some (s, [])
  | a :: as =>
    match step s a with
    | none => none
    | some (s', o) =>
      match exec s' as with
      | none => none
      | some (s'', log) => some (s'', (o.map fun o => (s.now, o)).toList ++ log)

end Aiok8s.ListenerTime
