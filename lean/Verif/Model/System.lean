import Verif.Model.Source
import Verif.Model.Controller
/-!
# From the API server's events to the reconciler

A shared informer (`Verif.Model.SharedInformer`), one of its handlers, which belongs to a watch of a
controller (`Verif.Model.Source`), and the controller's workers (`Verif.Model.Controller`).  The
listener between informer and handler passes the notifications on one at a time and in order
(`Verif.Model.Listener`, C37); here it is the number of notifications passed on.
-/
namespace Aiok8s.System
open Aiok8s Aiok8s.RateLimiters
open Aiok8s.Meta (Val NamespacedName)

structure State (σ : Type) where
  inf : SharedInformer.State Val Meta.Obj
  /-- how many notifications the handler was called with -/
  delivered : Nat
  /-- the calls of `queue.add` that are left in the handler's running call -/
  todo : List NamespacedName
  ctl : Controller.State σ NamespacedName

/-- What can happen. -/
inductive Ev (ε : Type) where
  /-- something happens to the informer -/
  | inf (e : SharedInformer.Ev Val Meta.Obj)
  /-- the listener calls the handler with the next notification -/
  | deliver
  /-- the handler calls `queue.add` for the next request -/
  | add
  /-- something happens to the controller -/
  | ctl (e : Controller.Ev NamespacedName ε)

/-- What is observed: worker `w` calls the reconciler for a request; what `_cache_reader.py` lines 21-26
would give for it at this moment. -/
structure Log where
  w : Nat
  request : NamespacedName
  cached : Option Source.Obj
deriving DecidableEq

variable {σ ε : Type}

/-- `_cache_reader.py` lines 21-26 on the informer's indexer; `none`: `KeyError`. -/
def State.read (s : State σ) (nn : NamespacedName) : Option Source.Obj :=
  s.inf.inf.items.get? (Meta.objectKeyToStoreKey nn)

/-- The calls of the reconciler among what a controller does. -/
def calls (s : State σ) (l : List (Controller.Log NamespacedName ε)) : List Log :=
  l.filterMap fun
    | .reconcile w nn => some ⟨w, nn, s.read nn⟩
    | _ => none

/-- One move.  `ps`: the predicates of the watch; `i`: the handler's listener. -/
def step (I : Iface σ NamespacedName ε) (py38 : Bool) (ps : List Source.Pred) (i : Nat) (s : State σ) :
    Ev ε → State σ × List Log
  | .inf e => ({ s with inf := SharedInformer.step Meta.keyFunc s.inf e }, [])
  | .deliver =>
    -- `shared_informer.py` lines 371-384: the next call after the last one has returned
    match s.todo, s.inf.sent[i]?.bind (·[s.delivered]?) with
    | [], some n => ({ s with delivered := s.delivered + 1, todo := (Source.handle ps n).1 }, [])
    | _, _ => (s, [])
  | .add =>
    -- `handler.py` lines 33, 43, 54, 68
    match s.todo with
    | [] => (s, [])
    | nn :: rest =>
      ({ s with
        todo := rest
        ctl := (Controller.step I py38 (fun _ => true) s.ctl (.queue (.base (.add nn)))).1 }, [])
  | .ctl e =>
    let r := Controller.step I py38 (fun _ => true) s.ctl e
    ({ s with ctl := r.1 }, calls s r.2)

/-- The state after a sequence of moves. -/
def exec (I : Iface σ NamespacedName ε) (py38 : Bool) (ps : List Source.Pred) (i : Nat) (s : State σ) :
    List (Ev ε) → State σ
  | [] => s
  | e :: es => exec I py38 ps i (step I py38 ps i s e).1 es

/-- What was observed during a sequence of moves. -/
def logOf (I : Iface σ NamespacedName ε) (py38 : Bool) (ps : List Source.Pred) (i : Nat) (s : State σ) :
    List (Ev ε) → List Log
  | [] => []
  | e :: es => (step I py38 ps i s e).2 ++ logOf I py38 ps i (step I py38 ps i s e).1 es

/-- The beginning: an informer without handlers and a controller with `n` workers at time `t`. -/
def init (l : σ) (t : ℚ) (n : Nat) : State σ := ⟨SharedInformer.init, 0, [], Controller.init l t n⟩

end Aiok8s.System
