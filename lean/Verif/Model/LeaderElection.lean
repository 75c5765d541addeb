import Verif.Model.PyDict
import Mathlib.Algebra.Order.Ring.Rat
/-!
# `aiok8s/leaderelection/leaderelection.py` and `resourcelock.py`

Numbers are exact rationals (`JITTER_FACTOR`, line 22, is 6/5).  One elector runs alone; what other
processes do shows in the answers of the lock, which is any state machine.  Waiting does nothing but
count as a call; it can be cancelled.  Log output is left out.
-/
namespace Aiok8s.LeaderElection

abbrev Str := List Char

/-- Lines 26-39, as far as the constructor looks at it: the flags say whether something is given. -/
structure Config where
  leaseDuration : ℚ
  renewDeadline : ℚ
  retryPeriod : ℚ
  onStarted : Bool
  onStopped : Bool
  onNewLeader : Bool
  lock : Bool
  releaseOnCancel : Bool

/-- Lines 43-63: the constructor raises the exception with this number, or accepts. -/
def construct (c : Config) : Option Nat :=
  if c.leaseDuration ≤ c.renewDeadline then some 1
  else if c.renewDeadline ≤ 6 / 5 * c.retryPeriod then some 2
  else if c.leaseDuration ≤ 0 then some 3
  else if c.renewDeadline ≤ 0 then some 4
  else if c.retryPeriod ≤ 0 then some 5
  else if !c.onStarted then some 6
  else if !c.onStopped then some 7
  else if !c.lock then some 8
  else none

/-- A JSON value in a record. -/
inductive J where
  | str (s : Str)
  | num (q : ℚ)
deriving DecidableEq

/-- A leader election record: a Python dict. -/
abbrev Rec := PyDict String J

/-- The raw form: nothing, an empty dict (see `ConfigMapLock.get`), or a string. -/
inductive Raw where
  | none
  | emptyDict
  | str (s : Str)
deriving DecidableEq

inductive Exc where
  | attributeError
  | keyError
  | unboundLocalError
  | cancelled
  /-- from the lock or a callback -/
  | other (n : Nat)
deriving DecidableEq

/-- The result of a piece of code; `running`: it has not ended within the given number of rounds. -/
inductive R (α : Type) where
  | ret (a : α)
  | raise (e : Exc)
  | running
deriving DecidableEq

/-- A lock: `get`, `create` and `update` of a state machine. -/
structure Lock (σ : Type) where
  get : σ → σ × R (Option Rec × Raw)
  create : Rec → σ → σ × R Unit
  update : Rec → σ → σ × R Unit

/-- What the elector does to the outside. -/
inductive Call where
  | get
  | create (r : Rec)
  | update (r : Rec)
  /-- line 69: `on_started_leading` is started -/
  | started
  /-- line 72: its task is cancelled -/
  | cancelStarted
  /-- line 73 -/
  | stopped
  /-- lines 213-216 -/
  | newLeader
  /-- a wait of `retry_period`, or of that with jitter -/
  | sleep
deriving DecidableEq

/-- Other things that come from outside: the identity, the clock and which waits are cancelled (by the
number of calls so far), whether `on_stopped_leading` raises. -/
structure Env where
  identity : Str
  now : Nat → ℚ
  cancelSleep : Nat → Bool
  stoppedRaises : Option Exc

/-- The elector's attributes, `none` if not set: no constructor sets the first four. -/
structure St (σ : Type) where
  lock : σ
  observedRecord : Option Rec
  observedRaw : Option Raw
  observedTime : Option ℚ
  reportedLeader : Option Str
  calls : List Call

/-- Lines 62-63: after the constructor. -/
def init {σ : Type} (s : σ) : St σ := ⟨s, none, none, none, none, []⟩

/-- `self._observed_record.holder_identity` (lines 77, 210, 212): an attribute that is not set, or a
dict, which has no such attribute: `AttributeError` in both cases. -/
def holderIdentityAttr : Option Rec → Option Str
  | none => none
  | some _ => none

variable {σ : Type}

def St.call (st : St σ) (c : Call) : St σ := { st with calls := st.calls ++ [c] }

/-- Lines 76-77: `is_leader`. -/
def isLeader (env : Env) (st : St σ) : R Bool :=
  match holderIdentityAttr st.observedRecord with
  | none => .raise .attributeError
  | some h => .ret (h == env.identity)

/-- Lines 138-145: the new record. -/
def newRecord (c : Config) (env : Env) (now : ℚ) : Rec :=
  [("holderIdentity", .str env.identity), ("leaseDurationSeconds", .num c.leaseDuration.floor),
   ("renewTime", .num now), ("acquireTime", .num now)]

/-- Lines 197-207. -/
def doUpdate (L : Lock σ) (env : Env) (r : Rec) (st : St σ) : St σ × R Bool :=
  let p := L.update r st.lock
  let st := { st.call (.update r) with lock := p.1 }
  match p.2 with
  | .raise .cancelled => (st, .raise .cancelled)
  | .raise _ => (st, .ret false)
  | .running => (st, .running)
  | .ret _ => ({ st with observedRecord := some r, observedTime := some (env.now st.calls.length) },
      .ret true)

/-- Lines 185-207. -/
def takeOver (L : Lock σ) (env : Env) (r old : Rec) (st : St σ) : St σ × R Bool :=
  match isLeader env st with
  | .raise e => (st, .raise e)
  | .running => (st, .running)
  | .ret true =>
    match old.get? "acquireTime", old.get? "leaderTransitions" with
    | some a, some n => doUpdate L env ((r.set "acquireTime" a).set "leaderTransitions" n) st
    | _, _ => (st, .raise .keyError)
  | .ret false =>
    match old.get? "leaderTransitions" with
    | some (.num n) => doUpdate L env (r.set "leaderTransitions" (.num (n + 1))) st
    | some (.str _) => (st, .raise (.other 0))
    | none => (st, .raise .keyError)

/-- Lines 138-207: `_try_acquire_or_renew`. -/
def tryAcquireOrRenew (c : Config) (L : Lock σ) (env : Env) (st : St σ) : St σ × R Bool :=
  let now := env.now st.calls.length
  let r := newRecord c env now
  let p := L.get st.lock
  let st := { st.call .get with lock := p.1 }
  match p.2 with
  | .raise .cancelled => (st, .raise .cancelled)
  | .raise _ => (st, .ret false)
  | .running => (st, .running)
  | .ret (none, _) =>
    let q := L.create r st.lock
    let st := { st.call (.create r) with lock := q.1 }
    match q.2 with
    | .raise .cancelled => (st, .raise .cancelled)
    | .raise _ => (st, .ret false)
    | .running => (st, .running)
    | .ret _ => ({ st with observedRecord := some r, observedTime := some (env.now st.calls.length) },
        .ret true)
  | .ret (some old, raw) =>
    -- line 170
    match st.observedRaw with
    | none => (st, .raise .attributeError)
    | some oraw =>
      let st := if oraw ≠ raw then
          { st with observedRecord := some old, observedRaw := some raw,
                    observedTime := some (env.now st.calls.length) }
        else st
      -- lines 174-178
      let held := match old.get? "holderIdentity" with
        | some (.str (_ :: _)) => true
        | some (.num q) => q ≠ 0
        | _ => false
      if !held then takeOver L env r old st
      else match st.observedTime with
        | none => (st, .raise .attributeError)
        | some t =>
          if t + c.leaseDuration > now then
            match isLeader env st with
            | .raise e => (st, .raise e)
            | .running => (st, .running)
            | .ret false => (st, .ret false)
            | .ret true => takeOver L env r old st
          else takeOver L env r old st

/-- Lines 209-216: `_maybe_report_transition`. -/
def maybeReport (c : Config) (st : St σ) : St σ × R Unit :=
  match holderIdentityAttr st.observedRecord with
  | none => (st, .raise .attributeError)
  | some h =>
    match st.reportedLeader with
    | none => (st, .raise .attributeError)
    | some l =>
      if h = l then (st, .ret ())
      else
        let st := { st with reportedLeader := some h }
        (if c.onNewLeader then st.call .newLeader else st, .ret ())

/-- A wait; it can be cancelled. -/
def sleep (env : Env) (st : St σ) : St σ × R Unit :=
  (st.call .sleep, if env.cancelSleep st.calls.length then .raise .cancelled else .ret ())

/-- Lines 79-98: `_acquire` with the loop of `wait.py` lines 29-44 (`sliding`): the result is
`succeeded`.  The first flag: `succeeded` so far.  If the task of line 94 is cancelled from outside,
so is the `gather` of line 97, which raises; if it is cancelled by line 92, or raises, the `gather`
returns. -/
def acquire (c : Config) (L : Lock σ) (env : Env) : Nat → St σ → St σ × R Bool
  | 0, st => (st, .running)
  | fuel + 1, st =>
    match tryAcquireOrRenew c L env st with
    | (st, .raise .cancelled) => (st, .raise .cancelled)
    | (st, .raise _) => (st, .ret false)
    | (st, .running) => (st, .running)
    | (st, .ret succeeded) =>
      match maybeReport c st with
      | (st, .raise _) => (st, .ret succeeded)
      | (st, .running) => (st, .running)
      | (st, .ret _) =>
        if succeeded then (st, .ret true)
        else match sleep env st with
          | (st, .raise e) => (st, .raise e)
          | (st, .running) => (st, .running)
          | (st, .ret _) => acquire c L env fuel st

/-- Lines 105-107 with `wait.py` lines 132-143: `poll_immediate_infinite`. -/
def pollRenew (c : Config) (L : Lock σ) (env : Env) : Nat → St σ → St σ × R Unit
  | 0, st => (st, .running)
  | fuel + 1, st =>
    match tryAcquireOrRenew c L env st with
    | (st, .raise e) => (st, .raise e)
    | (st, .running) => (st, .running)
    | (st, .ret true) => (st, .ret ())
    | (st, .ret false) =>
      match sleep env st with
      | (st, .raise e) => (st, .raise e)
      | (st, .running) => (st, .running)
      | (st, .ret _) => pollRenew c L env fuel st

/-- Lines 102-117: the loop of `_renew`. -/
def renewLoop (c : Config) (L : Lock σ) (env : Env) : Nat → St σ → St σ × R Unit
  | 0, st => (st, .running)
  | fuel + 1, st =>
    match pollRenew c L env (fuel + 1) st with
    | (st, .running) => (st, .running)
    | (st, r) =>
      -- the `finally` of lines 115-116
      match maybeReport c st with
      | (st, .raise e) => (st, .raise e)
      | (st, .running) => (st, .running)
      | (st, .ret _) =>
        match r with
        | .raise .cancelled => (st, .raise .cancelled)
        | .raise _ => (st, .ret ())
        | _ => match sleep env st with
          | (st, .raise e) => (st, .raise e)
          | (st, .running) => (st, .running)
          | (st, .ret _) => renewLoop c L env fuel st

/-- Lines 122-136: `_release`. -/
def release (L : Lock σ) (env : Env) (st : St σ) : St σ × R Unit :=
  match isLeader env st with
  | .raise e => (st, .raise e)
  | .running => (st, .running)
  | .ret false => (st, .ret ())
  | .ret true =>
    match st.observedRecord.bind fun r => PyDict.get? r "leaderTransitions" with
    | none => (st, .raise .keyError)
    | some n =>
      match doUpdate L env [("leaderTransitions", n)] st with
      | (st, .raise e) => (st, .raise e)
      | (st, .running) => (st, .running)
      | (st, .ret _) => (st, .ret ())

/-- Lines 100-120: `_renew`. -/
def renew (c : Config) (L : Lock σ) (env : Env) (fuel : Nat) (st : St σ) : St σ × R Unit :=
  match renewLoop c L env fuel st with
  | (st, .running) => (st, .running)
  | (st, r) =>
    if c.releaseOnCancel then
      match release L env st with
      | (st, .raise e) => (st, .raise e)
      | (st, .running) => (st, .running)
      | (st, .ret _) => (st, r)
    else (st, r)

/-- Lines 65-74: `run`; in the `finally` clause `task` is not bound unless line 69 was reached.  The
`gather` of line 74 is not modelled: the task's end is waited for. -/
def run (c : Config) (L : Lock σ) (env : Env) (fuel : Nat) (st : St σ) : St σ × R Unit :=
  match acquire c L env fuel st with
  | (st, .running) => (st, .running)
  | (st, .ret true) =>
    match renew c L env fuel (st.call .started) with
    | (st, .running) => (st, .running)
    | (st, r) =>
      let st := (st.call .cancelStarted).call .stopped
      match env.stoppedRaises with
      | some e => (st, .raise e)
      | none => (st, r)
  | (st, _) => (st, .raise .unboundLocalError)

/-! ### `ConfigMapLock` against an API server -/

/-- A ConfigMap as the server keeps it: its annotations (`none`: it has none) and its version. -/
structure CM where
  annotations : Option (PyDict String Str)
  version : Nat
deriving DecidableEq

/-- The server's ConfigMap with the lock's name, the next version the server gives out, and the
attribute `_cm`. -/
structure Cluster where
  server : Option CM
  next : Nat
  cm : Option CM
deriving DecidableEq

/-- `resourcelock.py` line 20. -/
def annotationKey : String := "control-plane.alpha.kubernetes.io/leader"

/-- `resourcelock.py` lines 46-51; `loads` is `json.loads`, `none`: it raises.  An empty string or an
empty dict of annotations is not `None` and so taken for a record: here, for the empty record. -/
def parse (loads : Str → Option Rec) : Option (PyDict String Str) → R (Option Rec × Raw)
  | none => .ret (none, .none)
  | some [] => .ret (some [], .emptyDict)
  | some as => match as.get? annotationKey with
    | none => .ret (none, .none)
    | some [] => .ret (some [], .str [])
    | some s => match loads s with
      | none => .raise (.other 1)
      | some r => .ret (some r, .str s)

/-- `resourcelock.py` lines 42-75: `ConfigMapLock`, with a server that answers as Kubernetes does: 404
(`other 404`) for a read or replace of something that is not there, 409 for a create of something that
is, or a replace with an outdated version. -/
def configMapLock (loads : Str → Option Rec) (dumps : Rec → Str) : Lock Cluster where
  get s := match s.server with
    | none => (s, .raise (.other 404))
    | some m => ({ s with cm := some m }, parse loads m.annotations)
  create r s := match s.server with
    | some _ => (s, .raise (.other 409))
    | none =>
      let m : CM := ⟨some [(annotationKey, dumps r)], s.next⟩
      (⟨some m, s.next + 1, some m⟩, .ret ())
  update r s := match s.cm with
    | none => (s, .raise (.other 2))
    | some m => match m.annotations with
      | none => (s, .raise (.other 3))
      | some as =>
        let m' : CM := { m with annotations := some (as.set annotationKey (dumps r)) }
        match s.server with
        | none => ({ s with cm := some m' }, .raise (.other 404))
        | some n =>
          if n.version ≠ m.version then ({ s with cm := some m' }, .raise (.other 409))
          else
            let m'' := { m' with version := s.next }
            (⟨some m'', s.next + 1, some m''⟩, .ret ())

/-! ### Several clients of one ConfigMap -/

/-- What can happen: client `i` calls a method of its lock, or something else deletes the ConfigMap or
replaces its annotations. -/
inductive Op where
  | get (i : Nat)
  | create (i : Nat) (r : Rec)
  | update (i : Nat) (r : Rec)
  | delete
  | annotate (as : Option (PyDict String Str))

/-- The server, and the `_cm` of every client. -/
structure World where
  server : Option CM
  next : Nat
  cms : Nat → Option CM

/-- The outcome of an operation: whether it raised nothing. -/
def R.ok {α : Type} : R α → Bool
  | .ret _ => true
  | _ => false

/-- One client's call, as a step of the world. -/
def World.call {α : Type} (w : World) (i : Nat) (f : Cluster → Cluster × R α) : World × Bool :=
  let p := f ⟨w.server, w.next, w.cms i⟩
  (⟨p.1.server, p.1.next, fun j => if j = i then p.1.cm else w.cms j⟩, p.2.ok)

/-- One operation.  A call of the API server is atomic there. -/
def World.step (loads : Str → Option Rec) (dumps : Rec → Str) (w : World) : Op → World × Bool
  | .get i => w.call i (configMapLock loads dumps).get
  | .create i r => w.call i ((configMapLock loads dumps).create r)
  | .update i r => w.call i ((configMapLock loads dumps).update r)
  | .delete => match w.server with
    | none => (w, false)
    | some _ => ({ w with server := none }, true)
  | .annotate as => match w.server with
    | none => (w, false)
    | some _ => ({ w with server := some ⟨as, w.next⟩, next := w.next + 1 }, true)

/-- A run: the world and the outcome of every operation. -/
def World.run (loads : Str → Option Rec) (dumps : Rec → Str) (w : World) :
    List Op → World × List (Op × Bool)
  | [] => (w, [])
  | o :: os =>
    let p := w.step loads dumps o
    let q := p.1.run loads dumps os
    (q.1, (o, p.2) :: q.2)

/-- Nothing has happened yet: no client has called anything (`resourcelock.py` line 40). -/
def World.fresh (server : Option (Option (PyDict String Str))) : World :=
  ⟨server.map fun as => ⟨as, 0⟩, 1, fun _ => none⟩

end Aiok8s.LeaderElection
