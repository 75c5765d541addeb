import Verif.Model.PyDict
/-!
# How the parts of `aiok8s/controller` get their cache

`controller.new` and `_Controller.watch`, `inject_func` (`controller.py` lines 25-31, 47-54, 82-83), `add`
and `set_fields` of the manager (`manager.py` lines 32-41) and `Kind` (`source.py` lines 24-37), for any
number of managers, controllers and sources of one program.

Managers, controllers and sources are numbered; the manager `m` has the cache `m`.  None of the functions
awaits, except `watch` for its mutex, so each call is one move.  What the handlers then do is
`Verif.Model.Source`, how the informers come about is `Verif.Model.Manager`.
-/
namespace Aiok8s.Wiring

/-- `_Controller` (`controller.py` lines 34-42) as far as it matters here. -/
structure Controller where
  /-- `self.cache` -/
  cache : Nat
  /-- `self.set_fields`, the one of this manager; `none`: there is no such attribute -/
  fields : Option Nat
  /-- the sources of `self._watches` -/
  watches : List Nat
deriving DecidableEq

/-- The program. -/
structure State where
  /-- the controllers that have been made -/
  ctls : Nat → Option Controller
  /-- `Kind._cache` (`source.py` line 27) -/
  kinds : Nat → Option Nat
  /-- the runnables of the managers -/
  runnables : Nat → List Nat

/-- Nothing has been made. -/
def init : State := ⟨fun _ => none, fun _ => none, fun _ => []⟩

/-- `source.py` lines 35-37: `inject_cache`.  Caches are always true. -/
def injectCache (s : State) (k m : Nat) : State :=
  match s.kinds k with
  | none => { s with kinds := fun d => if d = k then some m else s.kinds d }
  | some _ => s

/-- `controller.py` lines 82-83: `inject_func`, called with the `set_fields` of the manager `m`. -/
def injectFunc (s : State) (c m : Nat) : State :=
  match s.ctls c with
  | none => s
  | some x => { s with ctls := fun d => if d = c then some { x with fields := some m } else s.ctls d }

/-- `manager.py` lines 32-35: `add` of a controller; it has an `inject_func` and no `inject_cache`. -/
def add (s : State) (m c : Nat) : State :=
  let s := injectFunc s c m
  { s with runnables := fun d => if d = m then s.runnables m ++ [c] else s.runnables d }

/-- The moves. -/
inductive Ev where
  /-- `controller.new(m, ...)`; the new controller is `c`.  (The reconciler is the user's.) -/
  | new (m c : Nat)
  /-- `_Controller(..., cache=m.get_cache())`, without `new` -/
  | bare (m c : Nat)
  /-- `manager.add(controller)` -/
  | add (m c : Nat)
  /-- `manager.set_fields(kind)` -/
  | fields (m k : Nat)
  /-- `controller.watch(kind, ...)`; handlers and predicates are not told of caches -/
  | watch (c k : Nat)
deriving DecidableEq

/-- `controller.py` lines 34-42. -/
def make (s : State) (m c : Nat) : State :=
  { s with ctls := fun d => if d = c then some ⟨m, none, []⟩ else s.ctls d }

/-- One move.  Numbers of controllers are not used twice; what does not exist is not moved. -/
def step (s : State) : Ev → State
  | .new m c =>
    match s.ctls c with
    | none => add (make s m c) m c
    | some _ => s
  | .bare m c =>
    match s.ctls c with
    | none => make s m c
    | some _ => s
  | .add m c =>
    match s.ctls c with
    | none => s
    | some _ => add s m c
  | .fields m k => injectCache s k m
  | .watch c k =>
    match s.ctls c with
    | none => s
    | some x =>
      match x.fields with
      | none => s  -- line 49 raises
      | some m =>
        let s := injectCache s k m
        { s with ctls := fun d => if d = c then some { x with watches := x.watches ++ [k] } else s.ctls d }

/-- The state after a sequence of moves. -/
def exec (s : State) : List Ev → State
  | [] => s
  | e :: es => exec (step s e) es

/-- `source.py` lines 29-33: the cache that `Kind.start` asks for its informer; `none`: it raises. -/
def kindStart (s : State) (k : Nat) : Option Nat := s.kinds k

/-- `controller.py` lines 60-63: the caches that the sources of a controller ask when it is started, in
order; `none`: one of them raises. -/
def startAll (s : State) : List Nat → Option (List Nat)
  | [] => some []
  | k :: ks => (kindStart s k).bind fun m => (startAll s ks).map (m :: ·)

end Aiok8s.Wiring
