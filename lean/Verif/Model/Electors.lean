import Verif.Model.LeaderElection
/-!
# Several electors of `aiok8s/leaderelection/leaderelection.py` with one lock

The code of `Verif.Model.LeaderElection`, cut at its awaits: an elector is suspended in a call of the lock or in a
wait, and everything from there to the next await is one step.
-/
namespace Aiok8s.LeaderElection

/-- Where an elector is suspended. -/
inductive Pc where
  /-- in `lock.get()` (line 150), called by `_acquire` -/
  | acqGet
  /-- in `lock.create(r)` (line 160), called by `_acquire` -/
  | acqCreate (r : Rec)
  /-- in `lock.update(r)` (line 198), called by `_acquire` -/
  | acqUpdate (r : Rec)
  /-- in the wait of `jitter_loop` (line 95) -/
  | acqSleep
  /-- the same calls, by `_renew` -/
  | renGet
  | renCreate (r : Rec)
  | renUpdate (r : Rec)
  /-- in the wait of `poll_immediate_infinite` (line 105) -/
  | pollSleep
  /-- in the wait of line 117 -/
  | renSleep
  /-- in `lock.update(r)` of `_release` (line 129); what `_renew` ends with otherwise -/
  | releasing (r : Rec) (res : R Unit)
  /-- `run` has ended -/
  | over (res : R Unit)
deriving DecidableEq

/-- How an await ends. -/
inductive Ans where
  | got (a : R (Option Rec × Raw))
  | did (a : R Unit)
  | slept (cancelled : Bool)

/-- What follows a part of `_try_acquire_or_renew`. -/
inductive Next where
  | create (r : Rec)
  | update (r : Rec)
  | ends (r : R Bool)

variable {σ : Type}

/-- Lines 185-196. -/
def prepare (env : Env) (r old : Rec) (st : St σ) : Next :=
  match isLeader env st with
  | .raise e => .ends (.raise e)
  | .running => .ends .running
  | .ret true =>
    match old.get? "acquireTime", old.get? "leaderTransitions" with
    | some a, some n => .update ((r.set "acquireTime" a).set "leaderTransitions" n)
    | _, _ => .ends (.raise .keyError)
  | .ret false =>
    match old.get? "leaderTransitions" with
    | some (.num n) => .update (r.set "leaderTransitions" (.num (n + 1)))
    | some (.str _) => .ends (.raise (.other 0))
    | none => .ends (.raise .keyError)

/-- Lines 151-196: what follows `lock.get()`. -/
def afterGet (c : Config) (env : Env) (a : R (Option Rec × Raw)) (st : St σ) : St σ × Next :=
  let now := env.now st.calls.length
  let r := newRecord c env now
  let st := st.call .get
  match a with
  | .raise .cancelled => (st, .ends (.raise .cancelled))
  | .raise _ => (st, .ends (.ret false))
  | .running => (st, .ends .running)
  | .ret (none, _) => (st, .create r)
  | .ret (some old, raw) =>
    match st.observedRaw with
    | none => (st, .ends (.raise .attributeError))
    | some oraw =>
      let st := if oraw ≠ raw then
          { st with observedRecord := some old, observedRaw := some raw,
                    observedTime := some (env.now st.calls.length) }
        else st
      let held := match old.get? "holderIdentity" with
        | some (.str (_ :: _)) => true
        | some (.num q) => q ≠ 0
        | _ => false
      if !held then (st, prepare env r old st)
      else match st.observedTime with
        | none => (st, .ends (.raise .attributeError))
        | some t =>
          if t + c.leaseDuration > now then
            match isLeader env st with
            | .raise e => (st, .ends (.raise e))
            | .running => (st, .ends .running)
            | .ret false => (st, .ends (.ret false))
            | .ret true => (st, prepare env r old st)
          else (st, prepare env r old st)

/-- Lines 161-168 and 199-207: what follows `lock.create(r)` and `lock.update(r)`. -/
def afterWrite (env : Env) (call : Call) (r : Rec) (a : R Unit) (st : St σ) : St σ × R Bool :=
  let st := st.call call
  match a with
  | .raise .cancelled => (st, .raise .cancelled)
  | .raise _ => (st, .ret false)
  | .running => (st, .running)
  | .ret _ => ({ st with observedRecord := some r, observedTime := some (env.now st.calls.length) }, .ret true)

/-- Lines 71-74: the end of `run`. -/
def finishRun (env : Env) (r : R Unit) (st : St σ) : St σ × Pc :=
  ((st.call .cancelStarted).call .stopped,
    .over (match env.stoppedRaises with
      | some e => .raise e
      | none => r))

/-- Lines 118-120 and 122-127: the end of `_renew`. -/
def endRenew (c : Config) (env : Env) (r : R Unit) (st : St σ) : St σ × Pc :=
  if c.releaseOnCancel then
    match isLeader env st with
    | .raise e => finishRun env (.raise e) st
    | .running => finishRun env .running st
    | .ret false => finishRun env r st
    | .ret true =>
      match st.observedRecord.bind fun r => PyDict.get? r "leaderTransitions" with
      | none => finishRun env (.raise .keyError) st
      | some n => (st, .releasing [("leaderTransitions", n)] r)
  else finishRun env r st

/-- Lines 108-116: `poll_immediate_infinite` has ended. -/
def endPoll (c : Config) (env : Env) (r : R Unit) (st : St σ) : St σ × Pc :=
  match maybeReport c st with
  | (st, .raise e) => endRenew c env (.raise e) st
  | (st, .running) => endRenew c env .running st
  | (st, .ret _) =>
    match r with
    | .raise .cancelled => endRenew c env (.raise .cancelled) st
    | .raise _ => endRenew c env (.ret ()) st
    | _ => (st, .renSleep)

/-- Lines 66-68: `_acquire` has ended. -/
def endAcquire (r : R Bool) (st : St σ) : St σ × Pc :=
  match r with
  | .ret true => (st.call .started, .renGet)
  | _ => (st, .over (.raise .unboundLocalError))

/-- Lines 85-92: `_try_acquire_or_renew`, called by `_acquire`, has ended. -/
def acqTried (c : Config) (res : R Bool) (st : St σ) : St σ × Pc :=
  match res with
  | .raise .cancelled => endAcquire (.raise .cancelled) st
  | .raise _ => endAcquire (.ret false) st
  | .running => endAcquire .running st
  | .ret succeeded =>
    match maybeReport c st with
    | (st, .raise _) => endAcquire (.ret succeeded) st
    | (st, .running) => endAcquire .running st
    | (st, .ret _) => if succeeded then endAcquire (.ret true) st else (st, .acqSleep)

/-- `wait.py` lines 132-143: `_try_acquire_or_renew`, called by `poll_immediate_infinite`, has ended. -/
def renTried (c : Config) (env : Env) (res : R Bool) (st : St σ) : St σ × Pc :=
  match res with
  | .raise e => endPoll c env (.raise e) st
  | .running => endPoll c env .running st
  | .ret true => endPoll c env (.ret ()) st
  | .ret false => (st, .pollSleep)

/-- An elector goes on when its await has ended.  An answer that does not fit changes nothing. -/
def resume (c : Config) (env : Env) (pc : Pc) (a : Ans) (st : St σ) : St σ × Pc :=
  match pc, a with
  | .acqGet, .got a =>
    match afterGet c env a st with
    | (st, .create r) => (st, .acqCreate r)
    | (st, .update r) => (st, .acqUpdate r)
    | (st, .ends res) => acqTried c res st
  | .acqCreate r, .did a =>
    let p := afterWrite env (.create r) r a st
    acqTried c p.2 p.1
  | .acqUpdate r, .did a =>
    let p := afterWrite env (.update r) r a st
    acqTried c p.2 p.1
  | .acqSleep, .slept cancelled =>
    if cancelled then endAcquire (.raise .cancelled) (st.call .sleep) else (st.call .sleep, .acqGet)
  | .renGet, .got a =>
    match afterGet c env a st with
    | (st, .create r) => (st, .renCreate r)
    | (st, .update r) => (st, .renUpdate r)
    | (st, .ends res) => renTried c env res st
  | .renCreate r, .did a =>
    let p := afterWrite env (.create r) r a st
    renTried c env p.2 p.1
  | .renUpdate r, .did a =>
    let p := afterWrite env (.update r) r a st
    renTried c env p.2 p.1
  | .pollSleep, .slept cancelled =>
    if cancelled then endPoll c env (.raise .cancelled) (st.call .sleep) else (st.call .sleep, .renGet)
  | .renSleep, .slept cancelled =>
    if cancelled then endRenew c env (.raise .cancelled) (st.call .sleep) else (st.call .sleep, .renGet)
  | .releasing r res, .did a =>
    let p := afterWrite env (.update r) r a st
    finishRun env (match p.2 with
      | .raise e => .raise e
      | .running => .running
      | .ret _ => res) p.1
  | pc, _ => (st, pc)

/-! ### One elector with its lock -/

/-- The await of an elector that has the lock to itself ends: `_try_acquire_or_renew` calls the lock, waits end or
are cancelled as `env` says. -/
def advance (c : Config) (L : Lock σ) (env : Env) (p : St σ × Pc) : St σ × Pc :=
  let write (q : σ × R Unit) := resume c env p.2 (.did q.2) { p.1 with lock := q.1 }
  match p.2 with
  | .acqGet | .renGet => resume c env p.2 (.got (L.get p.1.lock).2) { p.1 with lock := (L.get p.1.lock).1 }
  | .acqCreate r | .renCreate r => write (L.create r p.1.lock)
  | .acqUpdate r | .renUpdate r | .releasing r _ => write (L.update r p.1.lock)
  | .acqSleep | .pollSleep | .renSleep => resume c env p.2 (.slept (env.cancelSleep p.1.calls.length)) p.1
  | .over _ => p

/-! ### Any number of electors -/

/-- What the locks of the electors share (and keep); each elector has its own attributes and calls. -/
structure World2 (σ : Type) where
  lock : σ
  els : Nat → St Unit × Pc

/-- How a call of the lock turns out: as it should; or it raises, without or with an effect. -/
inductive Fate where
  | fine
  | fails (e : Exc)
  | lost (e : Exc)
deriving DecidableEq

/-- The moves. -/
inductive Move (σ : Type) where
  /-- the await of elector `i` ends; for a wait: `cancelled` or not -/
  | go (i : Nat) (f : Fate) (cancelled : Bool)
  /-- somebody else changes what the locks share -/
  | outside (g : σ → σ)

/-- A call of the lock with its fate. -/
def Fate.apply {α : Type} (f : Fate) (call : σ → σ × R α) (s : σ) : σ × R α :=
  match f with
  | .fine => call s
  | .fails e => (s, .raise e)
  | .lost e => ((call s).1, .raise e)

/-- One move; `L i` is the lock of elector `i`. -/
def World2.step (c : Nat → Config) (L : Nat → Lock σ) (env : Nat → Env) (w : World2 σ) : Move σ → World2 σ
  | .outside g => { w with lock := g w.lock }
  | .go i f cancelled =>
    let st := (w.els i).1
    let pc := (w.els i).2
    let p : σ × Ans := match pc with
      | .acqGet | .renGet => let q := f.apply (L i).get w.lock; (q.1, .got q.2)
      | .acqCreate r | .renCreate r => let q := f.apply ((L i).create r) w.lock; (q.1, .did q.2)
      | .acqUpdate r | .renUpdate r | .releasing r _ => let q := f.apply ((L i).update r) w.lock; (q.1, .did q.2)
      | _ => (w.lock, .slept cancelled)
    let e := resume (c i) (env i) pc p.2 st
    ⟨p.1, fun j => if j = i then e else w.els j⟩

/-- The world after some moves. -/
def World2.exec (c : Nat → Config) (L : Nat → Lock σ) (env : Nat → Env) (w : World2 σ) : List (Move σ) → World2 σ
  | [] => w
  | m :: ms => World2.exec c L env (w.step c L env m) ms

/-- All electors have just been made and `run` has been called. -/
def World2.start (s : σ) : World2 σ := ⟨s, fun _ => (LeaderElection.init (), .acqGet)⟩

/-- A lock that keeps one record, as the elector expects it: `get` gives it, `create` makes it if there is none
(and raises otherwise), `update` replaces it if there is one.  `raw` is the raw form of a record. -/
def recordLock (raw : Rec → Raw) : Lock (Option Rec) where
  get s := (s, .ret (s, match s with
    | none => .none
    | some r => raw r))
  create r s := match s with
    | none => (some r, .ret ())
    | some _ => (s, .raise (.other 409))
  update r s := match s with
    | none => (s, .raise (.other 404))
    | some _ => (some r, .ret ())

/-- The `ConfigMapLock` of client `i` (`resourcelock.py` lines 42-75) in a world with other clients. -/
def clientLock (loads : Str → Option Rec) (dumps : Rec → Str) (i : Nat) : Lock World :=
  let L := configMapLock loads dumps
  let on {α : Type} (w : World) (f : Cluster → Cluster × R α) : World × R α :=
    let p := f ⟨w.server, w.next, w.cms i⟩
    (⟨p.1.server, p.1.next, fun j => if j = i then p.1.cm else w.cms j⟩, p.2)
  { get := fun w => on w L.get
    create := fun r w => on w (L.create r)
    update := fun r w => on w (L.update r) }

end Aiok8s.LeaderElection
