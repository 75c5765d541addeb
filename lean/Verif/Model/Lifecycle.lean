import Verif.Model.Listener
/-!
# The life of a shared informer: `_SharedIndexInformer.run`, `add_event_handler`, `handle_deltas`,
`_SharedProcessor` (`aiok8s/cache/shared_informer.py` lines 85-202 and 239-278) and `_Controller.run`
(`aiok8s/cache/controller.py` lines 47-70)

Any number of tasks call `add_event_handler`, one calls `run` and may be cancelled, each listener has its
two tasks (`Verif.Model.Listener`).  Everything between two `await`s that may suspend is one action.  A
lock may be given to any of the tasks that wait for it, `asyncio.Lock` gives it to the first.

Simplified: what is in the deltas and in the indexer is not computed here (`Verif.Model.SharedInformer`
does), the indexer's content and the notifications are arbitrary; so are the listeners that a resync
check selects (`Verif.Model.Resync`).  `run` is called once (again: `Verif.Model.Rerun`).  The reflector's task ends after it is
cancelled, and the processor's task, made at line 152, makes its first step before the reflector, made
later by `controller.py` line 60, delivers anything.  A second cancellation of `run` is modelled where it
waits for `_started_lock` (line 156); at line 70 of `controller.py` it changes nothing, at line 159 it is
not modelled.
-/
namespace Aiok8s.Lifecycle
variable {N : Type}

/-- How a call of `add_event_handler` ended. -/
inductive Result where
  /-- with this listener -/
  | registered (l : Nat)
  /-- lines 89-95 -/
  | refused
  | cancelled
deriving DecidableEq

/-- Where a call of `add_event_handler` is. -/
inductive Reg (N : Type) where
  /-- at `_started_lock` (line 88) -/
  | atLock
  /-- at `_block_deltas` (line 129) -/
  | atBlock
  /-- line 313, called from line 132: these are still to be put into the queue of listener `l` -/
  | adding (l : Nat) (todo : List N)
  /-- line 314: the last one put is to be taken -/
  | joining (l : Nat) (todo : List N)
  | ended (r : Result)
deriving DecidableEq

/-- Where `run` is. -/
inductive RPc where
  /-- not called -/
  | idle
  /-- at `_started_lock` (line 146) -/
  | entering
  /-- in `_controller.run()` (line 154) -/
  | running
  /-- cancelled, the reflector's task is awaited (`controller.py` line 70) -/
  | closing
  /-- at `_started_lock` (line 156) -/
  | leaving
  /-- the processor's task is awaited (line 159) -/
  | awaiting
  | ended
deriving DecidableEq

/-- Where `_process_loop`, part of `run`, is. -/
inductive DPc (N : Type) where
  /-- not in `handle_deltas`, or it waits for `_block_deltas` (line 177) -/
  | idle
  /-- it has `_block_deltas` (lines 178-202) -/
  | holding
  /-- in `_distribute`: `n` is to be put into the queue of `l`, then of `ls` (line 313) -/
  | putting (n : N) (l : Nat) (ls : List Nat)
  /-- in `_distribute`: `n` is to be taken by `l` (line 314) -/
  | joining (n : N) (l : Nat) (ls : List Nat)
deriving DecidableEq

/-- Where the processor's task is. -/
inductive PPc where
  | none
  /-- made (line 152) -/
  | ready
  /-- the listeners are started, the stop event is awaited (line 274) -/
  | running
  /-- the listeners are stopped, their tasks are awaited (line 278) -/
  | stopping
  | done
deriving DecidableEq

/-- Who has `_block_deltas`. -/
inductive Holder where
  | deltas
  | reg (r : Nat)
deriving DecidableEq

/-- The informer, its listeners and the tasks that use it. -/
structure State (N : Type) where
  /-- `_processor._listeners`; their tasks exist once the processor has run line 273 -/
  listeners : List (Listener.State N)
  /-- `_processor._syncing_listeners` -/
  syncing : List Nat
  /-- `_indexer.list()`, as notifications (line 132) -/
  store : List N
  regs : List (Reg N)
  /-- the call that has `_started_lock` while it waits -/
  startedBy : Option Nat
  /-- who has `_block_deltas` -/
  block : Option Holder
  run : RPc
  deltas : DPc N
  proc : PPc
  /-- `_started` -/
  started : Bool
  /-- `_stopped` -/
  stopped : Bool
deriving DecidableEq

/-- Lines 71-83: a new informer. -/
def init : State N := ⟨[], [], [], [], none, none, .idle, .idle, .none, false, false⟩

/-- What is seen from outside. -/
inductive Ev (N : Type) where
  /-- listener `l` exists, and is to be told these first -/
  | new (l : Nat) (items : List N)
  /-- a notification is sent to these listeners -/
  | send (n : N) (ls : List Nat)
  /-- a notification is put into the queue of listener `l` -/
  | put (l : Nat) (n : N)
  /-- the handler of listener `l` is called -/
  | call (l : Nat) (n : N)
deriving DecidableEq

/-- What can happen. -/
inductive Act (N : Type) where
  /-- `add_event_handler` is called -/
  | addHandler
  /-- the call `r` gets `_started_lock` (lines 88-129) -/
  | regEnter (r : Nat)
  /-- the call `r` gets `_block_deltas` (lines 129-132) -/
  | regBlock (r : Nat)
  /-- the call `r` puts a notification (line 313) -/
  | regPut (r : Nat)
  /-- what the call `r` put has been taken (line 314) -/
  | regJoin (r : Nat)
  /-- the call `r` is cancelled -/
  | regCancel (r : Nat)
  /-- `run` is called -/
  | start
  /-- it gets `_started_lock` (lines 146-154) -/
  | enter
  /-- the processor's task starts the listeners (lines 269-273) -/
  | procStart
  /-- `handle_deltas` gets `_block_deltas` (line 177) -/
  | deltaBlock
  /-- it changes the indexer and distributes a notification (lines 178-200, 259-266) -/
  | distribute (n : N) (sync : Bool) (store : List N)
  /-- the notification is put (line 313) -/
  | deltaPut
  /-- the notification has been taken (line 314) -/
  | deltaJoin
  /-- `handle_deltas` returns -/
  | deltaEnd
  /-- `_should_resync` selects these listeners (lines 280-289) -/
  | check (ls : List Nat)
  /-- `run` is cancelled -/
  | cancel
  /-- `run` is cancelled again while it waits at line 156 -/
  | cancelAgain
  /-- the reflector's task ends (`controller.py` line 70) -/
  | reflectorEnds
  /-- `run` gets `_started_lock` (lines 156-158) -/
  | leave
  /-- the processor's task stops the listeners (lines 275-277) -/
  | procStop
  /-- their tasks have ended (line 278) -/
  | procDone
  /-- `run` ends -/
  | finish
  /-- something happens in listener `l` or in its handler -/
  | lis (l : Nat) (a : Listener.Act N)
deriving DecidableEq

def State.setReg (s : State N) (r : Nat) (p : Reg N) : State N := { s with regs := s.regs.set r p }

/-- Lines 248-257: `_add_listener`. -/
def State.addListener (s : State N) : State N :=
  { s with
    listeners := s.listeners ++ [Listener.init]
    syncing := s.syncing ++ [s.listeners.length] }

/-- Line 313: put `n` into the queue of listener `l`, if it is free. -/
def putTo (s : State N) (l : Nat) (n : N) : Option (State N) :=
  match s.listeners[l]? with
  | none => none
  | some x => match Listener.step x (.put n) with
    | none => none
    | some (x, _) => some { s with listeners := s.listeners.set l x }

/-- Line 314: the queue of listener `l` is empty. -/
def taken (s : State N) (l : Nat) : Bool :=
  match s.listeners[l]? with
  | none => false
  | some x => x.addQ.isEmpty

/-- Lines 131-132: the rest of the loop; after it both locks are released. -/
def regNext (s : State N) (r l : Nat) : List N → State N
  | [] => { s.setReg r (.ended (.registered l)) with startedBy := none, block := none }
  | n :: todo => s.setReg r (.adding l (n :: todo))

/-- Lines 262-266: the rest of the loop. -/
def deltaNext (s : State N) (n : N) : List Nat → State N
  | [] => { s with deltas := .holding }
  | l :: ls => { s with deltas := .putting n l ls }

/-- The tasks of the listener have ended. -/
def over (x : Listener.State N) : Bool :=
  x.popEnded && (match x.run with | .ended => true | _ => false)

/-- The actions of a listener's own tasks and of its handler. -/
def internal : Listener.Act N → Bool
  | .put _ => false
  | .stop => false
  | _ => true

/-- `_stop_add.set()` (line 277). -/
def stopOne (x : Listener.State N) : Listener.State N := { x with stopAdd := true }

/-- One action, if possible: the new state and what is seen. -/
def step (s : State N) : Act N → Option (State N × List (Ev N))
  | .addHandler => some ({ s with regs := s.regs ++ [.atLock] }, [])
  | .regEnter r => match s.regs[r]?, s.startedBy with
    | some .atLock, none =>
      if s.stopped then some (s.setReg r (.ended .refused), [])
      else if s.started then some ({ s.setReg r .atBlock with startedBy := some r }, [])
      else some (s.addListener.setReg r (.ended (.registered s.listeners.length)),
        [.new s.listeners.length []])
    | _, _ => none
  | .regBlock r => match s.regs[r]?, s.block with
    | some .atBlock, none =>
      some (regNext { s.addListener with block := some (.reg r) } r s.listeners.length s.store,
        [.new s.listeners.length s.store])
    | _, _ => none
  | .regPut r => match s.regs[r]? with
    | some (.adding l (n :: todo)) => match putTo s l n with
      | some s => some (s.setReg r (.joining l todo), [.put l n])
      | none => none
    | _ => none
  | .regJoin r => match s.regs[r]? with
    | some (.joining l todo) => if taken s l then some (regNext s r l todo, []) else none
    | _ => none
  | .regCancel r => match s.regs[r]? with
    | some .atLock => some (s.setReg r (.ended .cancelled), [])
    | some .atBlock => some ({ s.setReg r (.ended .cancelled) with startedBy := none }, [])
    | some (.adding _ _) | some (.joining _ _) =>
      some ({ s.setReg r (.ended .cancelled) with startedBy := none, block := none }, [])
    | _ => none
  | .start => match s.run with
    | .idle => some ({ s with run := .entering }, [])
    | _ => none
  | .enter => match s.run, s.startedBy with
    | .entering, none => some ({ s with run := .running, proc := .ready, started := true }, [])
    | _, _ => none
  | .procStart => match s.proc with
    | .ready => some ({ s with proc := .running }, [])
    | _ => none
  | .deltaBlock => match s.run, s.proc, s.deltas, s.block with
    | .running, .running, .idle, none =>
      some ({ s with deltas := .holding, block := some .deltas }, [])
    | _, _, _, _ => none
  | .distribute n sync store => match s.deltas with
    | .holding =>
      let ls := if sync then s.syncing else List.range s.listeners.length
      some (deltaNext { s with store := store } n ls, [.send n ls])
    | _ => none
  | .deltaPut => match s.deltas with
    | .putting n l ls => match putTo s l n with
      | some s => some ({ s with deltas := .joining n l ls }, [.put l n])
      | none => none
    | _ => none
  | .deltaJoin => match s.deltas with
    | .joining n l ls => if taken s l then some (deltaNext s n ls, []) else none
    | _ => none
  | .deltaEnd => match s.deltas with
    | .holding => some ({ s with deltas := .idle, block := none }, [])
    | _ => none
  | .check ls =>
    some ({ s with syncing := (List.range s.listeners.length).filter fun l => decide (l ∈ ls) }, [])
  | .cancel => match s.run with
    | .entering => some ({ s with run := .ended }, [])
    | .running => match s.deltas with
      | .idle => some ({ s with run := .closing }, [])
      | _ => some ({ s with run := .closing, deltas := .idle, block := none }, [])
    | _ => none
  | .cancelAgain => match s.run with
    | .leaving => some ({ s with run := .ended }, [])
    | _ => none
  | .reflectorEnds => match s.run with
    | .closing => some ({ s with run := .leaving }, [])
    | _ => none
  | .leave => match s.run, s.startedBy with
    | .leaving, none => some ({ s with run := .awaiting, stopped := true }, [])
    | _, _ => none
  | .procStop => match s.proc, s.stopped with
    | .running, true =>
      some ({ s with proc := .stopping, listeners := s.listeners.map stopOne }, [])
    | _, _ => none
  | .procDone => match s.proc with
    | .stopping => if s.listeners.all over then some ({ s with proc := .done }, []) else none
    | _ => none
  | .finish => match s.run, s.proc with
    | .awaiting, .done => some ({ s with run := .ended }, [])
    | _, _ => none
  | .lis l a => match s.proc with
    | .none | .ready => none
    | _ => if internal a then
        match s.listeners[l]? with
        | none => none
        | some x => match Listener.step x a with
          | none => none
          | some (x, c) =>
            some ({ s with listeners := s.listeners.set l x }, c.toList.map (.call l))
      else none

/-- A sequence of possible actions: the state after it and what is seen. -/
def exec (s : State N) : List (Act N) → Option (State N × List (Ev N))
  | [] => some (s, [])
  | a :: as => match step s a with
    | none => none
    | some (s, e) => match exec s as with
      | none => none
      | some (s, es) => some (s, e ++ es)

end Aiok8s.Lifecycle
