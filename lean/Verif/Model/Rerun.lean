import Verif.Model.Lifecycle
/-!
# `run` of a shared informer called again: `aiok8s/cache/shared_informer.py` lines 134-159 and 268-278

When a call of `run` has ended, `run` may be called again.  The new call makes a new queue, a new controller and
a new stop event for the processor (lines 135-152); the informer, its processor and its listeners are the same.
`_stopped` stays set, and so do `_stop_add` and `_stop_next` of the listeners, whose `_pop` and `_run` are made
into tasks again (lines 270-272).

Added to `Verif.Model.Lifecycle`: the call after the end of the one before, the stop event of the present call,
and whether the events of the listeners have been set by an earlier call; all listeners are then the same
in this respect because no listener is added after `_stopped` is set (line 89).  Two calls of `run` at the same
time, and one after a call that has left its processor behind (C80), are not modelled.
-/
namespace Aiok8s.Rerun
open Aiok8s.Lifecycle (Ev)
variable {N : Type}

/-- The informer and the present call of `run`. -/
structure State (N : Type) where
  life : Lifecycle.State N
  /-- `processor_stop_event` of the present call (line 151) -/
  stop : Bool
  /-- `_stop_add` and `_stop_next` of the listeners have been set (lines 277 and 360) by an earlier call -/
  stale : Bool
deriving DecidableEq

/-- Lines 71-83: a new informer. -/
def init : State N := ⟨Lifecycle.init, false, false⟩

/-- What can happen. -/
inductive Act (N : Type) where
  /-- `run` is called after an earlier call has ended -/
  | again
  | life (a : Lifecycle.Act N)
deriving DecidableEq

/-- Lines 270-272, 322-323 and 363-371: the listener's tasks are made; what is in its queues stays. -/
def restart (x : Listener.State N) : Listener.State N :=
  { x with got := none, cur := none, putDone := false, joining := false, run := .waiting, popEnded := false }

/-- Lines 377-379 with `_stop_next` set: `_run` ends, whatever it has taken. -/
def runStops (x : Listener.State N) : Option (Listener.State N) :=
  match x.run with
  | .got _ | .waiting => some { x with run := .ended }
  | _ => none

/-- `Verif.Model.Lifecycle` does it. -/
def same (s : State N) (a : Lifecycle.Act N) (f : State N → State N) : Option (State N × List (Ev N)) :=
  (Lifecycle.step s.life a).map fun r => (f { s with life := r.1 }, r.2)

/-- One action, if possible: the new state and what is seen. -/
def step (s : State N) : Act N → Option (State N × List (Ev N))
  | .again => match s.life.run, s.life.proc with
    | .ended, .none | .ended, .done => some ({ s with life := { s.life with run := .entering } }, [])
    | _, _ => none
  -- lines 146-152
  | .life .enter => same s .enter fun t => { t with stop := false }
  -- lines 269-273
  | .life .procStart => same s .procStart fun t =>
      { t with life := { t.life with listeners := t.life.listeners.map restart } }
  -- lines 156-158
  | .life .leave => same s .leave fun t => { t with stop := true }
  -- lines 274-277
  | .life .procStop => match s.life.proc, s.stop with
    | .running, true => some ({ s with life := { s.life with
        proc := .stopping, listeners := s.life.listeners.map Lifecycle.stopOne } }, [])
    | _, _ => none
  -- line 278
  | .life .procDone => same s .procDone fun t => { t with stale := true }
  | .life (.lis l .runResume) =>
    if s.stale then
      match s.life.proc, s.life.listeners[l]? with
      | .none, _ | .ready, _ | _, none => none
      | _, some x => match runStops x with
        | none => none
        | some x => some ({ s with life := { s.life with listeners := s.life.listeners.set l x } }, [])
    else same s (.lis l .runResume) id
  | .life a => same s a id

/-- A sequence of possible actions: the state after it and what is seen. -/
def exec (s : State N) : List (Act N) → Option (State N × List (Ev N))
  | [] => some (s, [])
  | a :: as => match step s a with
    | none => none
    | some (s, e) => match exec s as with
      | none => none
      | some (s, es) => some (s, e ++ es)

end Aiok8s.Rerun
