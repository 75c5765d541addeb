import Verif.Model.Follow
import Verif.Model.System
/-!
# From the API server to the reconciler

The API server and the reflector of `Verif.Model.Follow`, whose store is the queue of a shared informer
(`shared_informer.py` lines 137-165), with one of its handlers and the controller behind it
(`Verif.Model.System`).  The reflector runs once the informer is started; the reflector's question whether
to resync is answered by `_should_resync` (`shared_informer.py` lines 280-289), which also chooses the
listeners that will be told of resyncs.
-/
namespace Aiok8s.Whole
open Aiok8s.RateLimiters (Iface)
open Aiok8s.Reflector (Access)
open Aiok8s.Meta (Val NamespacedName)

structure State (σ : Type) where
  /-- the changes at the server, and how far the current watch has sent them -/
  hist : List (Follow.Change Meta.Obj)
  pos : Nat
  /-- the reflector and its tasks, and the call of the queue it is in -/
  refl : ReflectorTasks.State Meta.Obj
  cur : Option (Informer.Ev Val Meta.Obj)
  /-- shared informer, handler, controller -/
  sys : System.State σ

/-- What can happen. -/
inductive Act (ε : Type) where
  /-- `run` (`shared_informer.py` lines 137-165) -/
  | start
  /-- `add_event_handler` (`shared_informer.py` lines 109-132) -/
  | register
  /-- something changes at the server -/
  | change (c : Follow.Change Meta.Obj)
  /-- the server answers, or the reflector or one of its tasks goes on -/
  | refl (a : Follow.Act Meta.Obj)
  /-- the reflector's timer: `_should_resync`, which finds the listeners `due` to be due -/
  | check (due : Nat → Bool)
  /-- a round of the processing loop -/
  | pop
  /-- handler, workers and rate limiting queue -/
  | sys (e : System.Ev ε)

variable {σ ε G : Type} [DecidableEq G]

/-- Server, reflector, queue and indexer. -/
def view (s : State σ) : Follow.State Val Meta.Obj := ⟨s.hist, s.pos, s.refl, s.cur, s.sys.inf.inf⟩

/-- A move that is not possible. -/
def never : Follow.Act Meta.Obj := .tasks (.pass (-1))

/-- What has an action of its own. -/
def other : Follow.Act Meta.Obj → Bool
  | .change _ | .pop _ | .tasks (.tick _) => true
  | _ => false

/-- What happens to server, reflector, queue and indexer. -/
def toFollow (s : State σ) : Act ε → Follow.Act Meta.Obj
  | .change c => .change c
  | .refl a => if s.sys.inf.started && !other a then a else never
  | .check due =>
    -- `shared_informer.py` line 289: whether there is a listener to be resynced
    if s.sys.inf.started then .tasks (.tick (some ((List.range s.sys.inf.sent.length).any due))) else never
  | .pop => if s.sys.inf.started then .pop fun _ => .ok else never
  | _ => never

/-- The call of the queue. -/
def toShared : Informer.Ev Val Meta.Obj → SharedInformer.Ev Val Meta.Obj
  | .add x => .add x
  | .update x => .update x
  | .delete x => .delete x
  | .replace xs => .replace xs
  | .resync => .resync
  | .pop _ => .pop

/-- Handler and controller do nothing. -/
def idle : System.Ev ε := .ctl (.queue (.tick 0))

/-- What the shared informer sees of a move that is possible: a call of the queue takes effect when it
returns (`reflector.py` lines 74, 141, 195, 206 and 217). -/
def seen (s : State σ) : Act ε → System.Ev ε
  | .refl (.tasks (.replaced _)) | .refl (.tasks .stored) => match s.cur with
    | some e => .inf (toShared e)
    | none => idle
  | .refl (.tasks (.resynced _)) => .inf .resync
  | .check due => .inf (.check due)
  | .pop => .inf .pop
  | _ => idle

/-- What happens to shared informer, handler and controller. -/
def toSystem (A : Access Meta.Obj G) (ver : Nat → String) (p : ℚ) (s : State σ) : Act ε → System.Ev ε
  | .start => .inf .start
  | .register => .inf .register
  | .sys (.inf _) => idle
  | .sys e => e
  | a => match Follow.step A Meta.keyFunc ver p (view s) (toFollow s a) with
    | some _ => seen s a
    | none => idle

/-- One move; a move that is not possible changes nothing. -/
def step (A : Access Meta.Obj G) (ver : Nat → String) (p : ℚ) (I : Iface σ NamespacedName ε) (py38 : Bool)
    (ps : List Source.Pred) (i : Nat) (s : State σ) (a : Act ε) : State σ × List System.Log :=
  let v := (Follow.step A Meta.keyFunc ver p (view s) (toFollow s a)).getD (view s)
  let r := System.step I py38 ps i s.sys (toSystem A ver p s a)
  (⟨v.hist, v.pos, v.refl, v.cur, r.1⟩, r.2)

/-- The beginning: an empty server, an informer without handlers and a controller with `n` workers at time
`t`. -/
def init (l : σ) (t : ℚ) (n : Nat) : State σ := ⟨[], 0, ReflectorTasks.init, none, System.init l t n⟩

end Aiok8s.Whole
