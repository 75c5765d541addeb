import Verif.Model.Resync
import Verif.Model.SharedInformer
/-!
# Resyncs of a shared informer: `aiok8s/cache/reflector.py` lines 66-83 with `shared_informer.py` lines 280-289

`Verif.Model.Resync` says which listeners a check selects, `Verif.Model.SharedInformer` what the queue, the
indexer and the listeners do.  Here they are put together with the task `resync` of the reflector: the timer
fires, `should_resync` is called (line 71), and if a listener is due, `store.resync()` is called (line 74), which
waits for the queue's lock while a pop is being processed; only then a new timer is made (line 81).  The task is
cancelled when the watch ends (lines 107-109), also while it waits for the lock.  When the timer fires is left
open.
-/
namespace Aiok8s.ResyncReach
open Aiok8s.DeltaFifo (Obj)

/-- The informer's periods, its queue, indexer and listeners, and where the task `resync` is. -/
structure State (K O : Type) where
  r : Resync.State
  s : SharedInformer.State K O
  /-- `should_resync` has returned `True` and `store.resync()` (`reflector.py` line 74) waits for the lock -/
  forcing : Bool

/-- `shared_informer.py` lines 71-83. -/
def init {K O : Type} (default : ℚ) : State K O := ⟨Resync.init default, SharedInformer.init, false⟩

/-- What can happen. -/
inductive Ev (K O : Type) where
  | add (x : Obj K O)
  | update (x : Obj K O)
  | delete (x : Obj K O)
  | replace (xs : List (Obj K O))
  /-- a round of the processing loop -/
  | pop
  /-- `add_event_handler(handler, resync_period=p)` at time `now` -/
  | register (p : Option ℚ) (now : ℚ)
  /-- `run` -/
  | start
  /-- the timer fires at `now` and `should_resync` is called (`reflector.py` lines 70-71) -/
  | check (now : ℚ)
  /-- `store.resync()` gets the lock (`reflector.py` line 74) -/
  | resync
  /-- the watch ends and the task is cancelled (`reflector.py` lines 107-109) -/
  | watchEnds

variable {K O : Type} [DecidableEq K]

/-- One event; impossible ones change nothing. -/
def step (key : O → Option K) (s : State K O) : Ev K O → State K O
  | .add x => { s with s := SharedInformer.step key s.s (.add x) }
  | .update x => { s with s := SharedInformer.step key s.s (.update x) }
  | .delete x => { s with s := SharedInformer.step key s.s (.delete x) }
  | .replace xs => { s with s := SharedInformer.step key s.s (.replace xs) }
  | .pop => { s with s := SharedInformer.step key s.s .pop }
  | .register p now =>
    { s with r := Resync.step s.r (.register p now), s := SharedInformer.step key s.s .register }
  | .start => { s with r := Resync.step s.r .start, s := SharedInformer.step key s.s .start }
  | .check now =>
    -- the task exists only in a running informer and does one thing at a time
    if s.s.started && !s.forcing then
      { r := Resync.step s.r (.check now)
        s := SharedInformer.step key s.s (.check fun i => decide (i ∈ Resync.selected s.r.listeners now))
        forcing := !(Resync.selected s.r.listeners now).isEmpty }
    else s
  | .resync => if s.forcing then { s with s := SharedInformer.step key s.s .resync, forcing := false } else s
  | .watchEnds => { s with forcing := false }

/-- The state after a history. -/
def exec (key : O → Option K) (s : State K O) : List (Ev K O) → State K O
  | [] => s
  | e :: es => exec key (step key s e) es

end Aiok8s.ResyncReach
