import Verif.Model.Electors
import Mathlib.Logic.Function.Iterate
/-!
# The cut model agrees with `run`
-/
namespace Aiok8s.LeaderElection

variable {σ : Type} {c : Config} {L : Lock σ} {env : Env}

/-- `q` is reached from `p`. -/
def Leads (c : Config) (L : Lock σ) (env : Env) (p q : St σ × Pc) : Prop := ∃ n, (advance c L env)^[n] p = q

theorem Leads.refl (p : St σ × Pc) : Leads c L env p p := ⟨0, rfl⟩

theorem Leads.trans {p q r : St σ × Pc} (h : Leads c L env p q) (h' : Leads c L env q r) : Leads c L env p r := by
  obtain ⟨n, rfl⟩ := h
  obtain ⟨m, rfl⟩ := h'
  exact ⟨m + n, by rw [Function.iterate_add_apply]⟩

theorem Leads.one {p q : St σ × Pc} (h : advance c L env p = q) : Leads c L env p q := ⟨1, h⟩

/-- Lines 146-207 in two parts. -/
theorem try_parts (st : St σ) :
    tryAcquireOrRenew c L env st
      = match afterGet c env (L.get st.lock).2 { st with lock := (L.get st.lock).1 } with
        | (st', .create r) => afterWrite env (.create r) r (L.create r st'.lock).2
            { st' with lock := (L.create r st'.lock).1 }
        | (st', .update r) => afterWrite env (.update r) r (L.update r st'.lock).2
            { st' with lock := (L.update r st'.lock).1 }
        | (st', .ends res) => (st', res) := by
  rcases st with ⟨lk, orec, oraw, ot, rl, calls⟩
  simp only [tryAcquireOrRenew, afterGet, St.call]
  generalize L.get lk = p
  rcases p with ⟨s1, a⟩
  rcases a with ⟨_ | old, raw⟩ | e | _
  · simp only [afterWrite, St.call]
    generalize L.create _ s1 = q
    rcases q with ⟨s2, b⟩
    rcases b with u | e | _
    · rfl
    · cases e <;> rfl
    · rfl
  · cases oraw with
    | none => rfl
    | some oraw =>
      by_cases h : oraw ≠ raw
      · simp only [if_pos h, takeOver, prepare, doUpdate, isLeader, holderIdentityAttr]
        repeat' (first | rfl | split)
        all_goals simp_all
      · simp only [if_neg h, takeOver, prepare, doUpdate, isLeader]
        cases orec <;> simp only [holderIdentityAttr]
        all_goals repeat' (first | rfl | split)
        all_goals simp_all
  · cases e <;> rfl
  · rfl

theorem leads_acq (st : St σ) :
    Leads c L env (st, .acqGet) (acqTried c (tryAcquireOrRenew c L env st).2 (tryAcquireOrRenew c L env st).1) := by
  rw [try_parts]
  have h1 : advance c L env (st, .acqGet)
      = resume c env .acqGet (.got (L.get st.lock).2) { st with lock := (L.get st.lock).1 } := rfl
  simp only [resume] at h1
  generalize afterGet c env (L.get st.lock).2 { st with lock := (L.get st.lock).1 } = p at h1 ⊢
  rcases p with ⟨st', r | r | res⟩
  · exact (Leads.one h1).trans (Leads.one rfl)
  · exact (Leads.one h1).trans (Leads.one rfl)
  · exact Leads.one h1

theorem leads_ren (st : St σ) :
    Leads c L env (st, .renGet) (renTried c env (tryAcquireOrRenew c L env st).2 (tryAcquireOrRenew c L env st).1) := by
  rw [try_parts]
  have h1 : advance c L env (st, .renGet)
      = resume c env .renGet (.got (L.get st.lock).2) { st with lock := (L.get st.lock).1 } := rfl
  simp only [resume] at h1
  generalize afterGet c env (L.get st.lock).2 { st with lock := (L.get st.lock).1 } = p at h1 ⊢
  rcases p with ⟨st', r | r | res⟩
  · exact (Leads.one h1).trans (Leads.one rfl)
  · exact (Leads.one h1).trans (Leads.one rfl)
  · exact Leads.one h1

theorem leads_acquire (fuel : Nat) : ∀ st : St σ, (acquire c L env fuel st).2 ≠ .running →
    Leads c L env (st, .acqGet) (endAcquire (acquire c L env fuel st).2 (acquire c L env fuel st).1) := by
  induction fuel with
  | zero => intro st h; exact absurd rfl h
  | succ n ih =>
    intro st h
    have h1 := leads_acq (c := c) (L := L) (env := env) st
    simp only [acquire] at h ⊢
    generalize tryAcquireOrRenew c L env st = p at h h1 ⊢
    rcases p with ⟨s, b | e | _⟩
    · simp only [acqTried] at h h1 ⊢
      generalize maybeReport c s = q at h h1 ⊢
      rcases q with ⟨s2, _ | e | _⟩
      · simp only at h h1 ⊢
        cases b with
        | true => simpa using h1
        | false =>
          simp only [sleep, Bool.false_eq_true, if_false] at h h1 ⊢
          refine h1.trans ?_
          have h2 : advance c L env (s2, .acqSleep)
              = (if env.cancelSleep s2.calls.length then endAcquire (.raise .cancelled) (s2.call .sleep)
                  else (s2.call .sleep, .acqGet)) := rfl
          by_cases hc : env.cancelSleep s2.calls.length
          · simp only [hc, if_true] at h2 ⊢
            exact Leads.one h2
          · simp only [hc, if_false, Bool.false_eq_true] at h h2 ⊢
            exact (Leads.one h2).trans (ih _ h)
      · exact h1
      · exact absurd rfl h
    · cases e <;> exact h1
    · exact absurd rfl h

theorem leads_poll (fuel : Nat) : ∀ st : St σ, (pollRenew c L env fuel st).2 ≠ .running →
    Leads c L env (st, .renGet) (endPoll c env (pollRenew c L env fuel st).2 (pollRenew c L env fuel st).1) := by
  induction fuel with
  | zero => intro st h; exact absurd rfl h
  | succ n ih =>
    intro st h
    have h1 := leads_ren (c := c) (L := L) (env := env) st
    simp only [pollRenew] at h ⊢
    generalize tryAcquireOrRenew c L env st = p at h h1 ⊢
    rcases p with ⟨s, b | e | _⟩
    · cases b with
      | true => exact h1
      | false =>
        simp only [sleep, renTried] at h h1 ⊢
        refine h1.trans ?_
        have h2 : advance c L env (s, .pollSleep)
            = (if env.cancelSleep s.calls.length then endPoll c env (.raise .cancelled) (s.call .sleep)
                else (s.call .sleep, .renGet)) := rfl
        by_cases hc : env.cancelSleep s.calls.length
        · simp only [hc, if_true] at h2 ⊢
          exact Leads.one h2
        · simp only [hc, if_false, Bool.false_eq_true] at h h2 ⊢
          exact (Leads.one h2).trans (ih _ h)
    · exact h1
    · exact absurd rfl h

/-- The end of a round of `renewLoop`. -/
private def afterSleep (c : Config) (L : Lock σ) (env : Env) (n : Nat) (s : St σ) : St σ × R Unit :=
  match sleep env s with
  | (st, .raise e) => (st, .raise e)
  | (st, .running) => (st, .running)
  | (st, .ret _) => renewLoop c L env n st

theorem leads_loop (fuel : Nat) : ∀ st : St σ, (renewLoop c L env fuel st).2 ≠ .running →
    Leads c L env (st, .renGet) (endRenew c env (renewLoop c L env fuel st).2 (renewLoop c L env fuel st).1) := by
  induction fuel with
  | zero => intro st h; exact absurd rfl h
  | succ n ih =>
    intro st h
    have h1 := leads_poll (c := c) (L := L) (env := env) (n + 1) st
    simp only [renewLoop] at h ⊢
    generalize pollRenew c L env (n + 1) st = p at h h1 ⊢
    have sl : ∀ s : St σ, (afterSleep c L env n s).2 ≠ R.running →
        Leads c L env (s, .renSleep)
          (endRenew c env (afterSleep c L env n s).2 (afterSleep c L env n s).1) := by
      intro s h
      simp only [afterSleep, sleep] at h ⊢
      have h2 : advance c L env (s, .renSleep)
          = (if env.cancelSleep s.calls.length then endRenew c env (.raise .cancelled) (s.call .sleep)
              else (s.call .sleep, .renGet)) := rfl
      by_cases hc : env.cancelSleep s.calls.length
      · simp only [hc, if_true] at h2 ⊢
        exact Leads.one h2
      · simp only [hc, if_false, Bool.false_eq_true] at h h2 ⊢
        exact (Leads.one h2).trans (ih _ h)
    rcases p with ⟨s, r⟩
    cases r with
    | running => exact absurd rfl h
    | ret u =>
      have h1 := h1 (by simp)
      simp only [endPoll] at h h1 ⊢
      generalize maybeReport c s = q at h h1 ⊢
      rcases q with ⟨s2, _ | e | _⟩
      · exact h1.trans (sl _ h)
      · exact h1
      · exact absurd rfl h
    | raise e =>
      have h1 := h1 (by simp)
      simp only [endPoll] at h h1 ⊢
      generalize maybeReport c s = q at h h1 ⊢
      rcases q with ⟨s2, _ | e | _⟩
      · cases e <;> exact h1
      · exact h1
      · exact absurd rfl h

theorem leads_renew (fuel : Nat) (st : St σ) (h : (renew c L env fuel st).2 ≠ .running) :
    Leads c L env (st, .renGet) (finishRun env (renew c L env fuel st).2 (renew c L env fuel st).1) := by
  have h1 := leads_loop (c := c) (L := L) (env := env) fuel st
  simp only [renew] at h ⊢
  generalize renewLoop c L env fuel st = p at h h1 ⊢
  have fin : ∀ (s : St σ) (r : R Unit), r ≠ .running →
      (if c.releaseOnCancel then
        match release L env s with
        | (st, .raise e) => (st, .raise e)
        | (st, .running) => (st, .running)
        | (st, .ret _) => (st, r)
      else (s, r)).2 ≠ R.running →
      Leads c L env (endRenew c env r s) (finishRun env
        (if c.releaseOnCancel then
          match release L env s with
          | (st, .raise e) => (st, .raise e)
          | (st, .running) => (st, .running)
          | (st, .ret _) => (st, r)
        else (s, r)).2
        (if c.releaseOnCancel then
          match release L env s with
          | (st, .raise e) => (st, .raise e)
          | (st, .running) => (st, .running)
          | (st, .ret _) => (st, r)
        else (s, r)).1) := by
    intro s r hr h
    simp only [endRenew]
    by_cases hc : c.releaseOnCancel = true
    · simp only [hc, if_true, release] at h ⊢
      generalize hl : isLeader env s = l at h ⊢
      rcases l with b | e | _
      · cases b with
        | false => exact .refl _
        | true =>
          simp only at h ⊢
          generalize (s.observedRecord.bind fun r => PyDict.get? r "leaderTransitions") = t at h ⊢
          cases t with
          | none => exact .refl _
          | some v =>
            simp only [doUpdate] at h ⊢
            refine Leads.one ?_
            simp only [advance, resume, afterWrite, St.call]
            generalize L.update [("leaderTransitions", v)] s.lock = u at h ⊢
            rcases u with ⟨s3, _ | e | _⟩
            · rfl
            · cases e <;> rfl
            · exact absurd rfl h
      · exact .refl _
      · exact absurd rfl h
    · simp only [hc, if_false, Bool.false_eq_true] at h ⊢
      exact .refl _
  rcases p with ⟨s, r⟩
  cases r with
  | running => exact absurd rfl h
  | ret u => exact (h1 (by simp)).trans (fin s _ (by simp) h)
  | raise e => exact (h1 (by simp)).trans (fin s _ (by simp) h)

/-- An elector that has the lock to itself does what `run` does. -/
theorem leads_run (fuel : Nat) (st : St σ) (h : (run c L env fuel st).2 ≠ .running) :
    Leads c L env (st, .acqGet) ((run c L env fuel st).1, .over (run c L env fuel st).2) := by
  have h1 := leads_acquire (c := c) (L := L) (env := env) fuel st
  simp only [run] at h ⊢
  generalize acquire c L env fuel st = p at h h1 ⊢
  rcases p with ⟨s, b | e | _⟩
  · have h1 := h1 (by simp)
    cases b with
    | false => exact h1
    | true =>
      simp only [endAcquire] at h h1 ⊢
      have h2 := leads_renew (c := c) (L := L) (env := env) fuel (s.call .started)
      generalize renew c L env fuel (s.call .started) = q at h h2 ⊢
      rcases q with ⟨s2, r⟩
      cases r with
      | running => exact absurd rfl h
      | ret u =>
        refine h1.trans ((h2 (by simp)).trans ?_)
        simp only [finishRun]
        cases env.stoppedRaises <;> exact .refl _
      | raise e =>
        refine h1.trans ((h2 (by simp)).trans ?_)
        simp only [finishRun]
        cases env.stoppedRaises <;> exact .refl _
  · exact h1 (by simp)
  · exact absurd rfl h

/-! ### The lock is apart -/

/-- An elector's attributes with what its lock keeps. -/
def St.at (st : St Unit) (s : σ) : St σ :=
  ⟨s, st.observedRecord, st.observedRaw, st.observedTime, st.reportedLeader, st.calls⟩

theorem isLeader_at (env : Env) (st : St Unit) (s : σ) : isLeader env (st.at s) = isLeader env st := rfl

theorem prepare_at (env : Env) (r old : Rec) (st : St Unit) (s : σ) :
    prepare env r old (st.at s) = prepare env r old st := rfl

theorem afterGet_at (c : Config) (env : Env) (a : R (Option Rec × Raw)) (st : St Unit) (s : σ) :
    afterGet c env a (st.at s) = ((afterGet c env a st).1.at s, (afterGet c env a st).2) := by
  rcases st with ⟨_, orec, oraw, ot, rl, calls⟩
  rcases a with ⟨_ | old, raw⟩ | e | _
  · rfl
  · cases oraw with
    | none => rfl
    | some oraw =>
      simp only [afterGet, St.at, St.call]
      by_cases h : oraw ≠ raw
      · simp only [if_pos h, isLeader, prepare]
        cases PyDict.get? old "holderIdentity" with
        | none => rfl
        | some j =>
          repeat' (first | rfl | split)
          all_goals simp_all
      · simp only [if_neg h, isLeader, prepare]
        cases PyDict.get? old "holderIdentity" with
        | none => rfl
        | some j =>
          repeat' (first | rfl | split)
          all_goals simp_all
  · cases e <;> rfl
  · rfl

theorem afterWrite_at (env : Env) (call : Call) (r : Rec) (a : R Unit) (st : St Unit) (s : σ) :
    afterWrite env call r a (st.at s) = ((afterWrite env call r a st).1.at s, (afterWrite env call r a st).2) := by
  rcases a with _ | e | _
  · rfl
  · cases e <;> rfl
  · rfl

theorem maybeReport_at (c : Config) (st : St Unit) (s : σ) :
    maybeReport c (st.at s) = ((maybeReport c st).1.at s, (maybeReport c st).2) := by
  rcases st with ⟨_, orec, oraw, ot, rl, calls⟩
  simp only [maybeReport, St.at]
  cases holderIdentityAttr orec with
  | none => rfl
  | some h =>
    cases rl with
    | none => rfl
    | some l =>
      simp only
      by_cases hl : h = l
      · simp [hl]
      · simp only [hl, if_false]
        cases c.onNewLeader <;> rfl

theorem finishRun_at (env : Env) (r : R Unit) (st : St Unit) (s : σ) :
    finishRun env r (st.at s) = ((finishRun env r st).1.at s, (finishRun env r st).2) := rfl

theorem endRenew_at (c : Config) (env : Env) (r : R Unit) (st : St Unit) (s : σ) :
    endRenew c env r (st.at s) = ((endRenew c env r st).1.at s, (endRenew c env r st).2) := by
  simp only [endRenew, isLeader_at, finishRun_at]
  have e : (st.at s).observedRecord = st.observedRecord := rfl
  rw [e]
  split
  · rcases isLeader env st with (_ | _) | e | _
    · rfl
    · simp only
      generalize (st.observedRecord.bind fun r => PyDict.get? r "leaderTransitions") = t
      cases t <;> rfl
    · rfl
    · rfl
  · rfl

theorem endPoll_at (c : Config) (env : Env) (r : R Unit) (st : St Unit) (s : σ) :
    endPoll c env r (st.at s) = ((endPoll c env r st).1.at s, (endPoll c env r st).2) := by
  simp only [endPoll, maybeReport_at]
  generalize maybeReport c st = q
  rcases q with ⟨st', u | e | _⟩
  · simp only [endRenew_at]
    rcases r with _ | e | _
    · rfl
    · cases e <;> rfl
    · rfl
  · simp only [endRenew_at]
  · simp only [endRenew_at]

theorem endAcquire_at (r : R Bool) (st : St Unit) (s : σ) :
    endAcquire r (st.at s) = ((endAcquire r st).1.at s, (endAcquire r st).2) := by
  rcases r with (_ | _) | e | _ <;> rfl

theorem acqTried_at (c : Config) (res : R Bool) (st : St Unit) (s : σ) :
    acqTried c res (st.at s) = ((acqTried c res st).1.at s, (acqTried c res st).2) := by
  simp only [acqTried, maybeReport_at, endAcquire_at]
  rcases res with b | e | _
  · simp only
    generalize maybeReport c st = q
    rcases q with ⟨st', u | e | _⟩
    · simp only [endAcquire_at]
      cases b <;> rfl
    · simp only [endAcquire_at]
    · simp only [endAcquire_at]
  · cases e <;> rfl
  · rfl

theorem renTried_at (c : Config) (env : Env) (res : R Bool) (st : St Unit) (s : σ) :
    renTried c env res (st.at s) = ((renTried c env res st).1.at s, (renTried c env res st).2) := by
  simp only [renTried, endPoll_at]
  rcases res with (_ | _) | e | _ <;> rfl

theorem resume_at (c : Config) (env : Env) (pc : Pc) (a : Ans) (st : St Unit) (s : σ) :
    resume c env pc a (st.at s) = ((resume c env pc a st).1.at s, (resume c env pc a st).2) := by
  have sl : (st.at s).call .sleep = (st.call .sleep).at s := rfl
  cases pc with
  | acqGet =>
    cases a with
    | got a =>
      simp only [resume, afterGet_at]
      generalize afterGet c env a st = q
      rcases q with ⟨st', r | r | res⟩
      · rfl
      · rfl
      · exact acqTried_at ..
    | did a => rfl
    | slept b => rfl
  | acqCreate r => cases a <;> first | rfl | simp only [resume, afterWrite_at, acqTried_at]
  | acqUpdate r => cases a <;> first | rfl | simp only [resume, afterWrite_at, acqTried_at]
  | acqSleep =>
    cases a with
    | got a => rfl
    | did a => rfl
    | slept b => cases b <;> rfl
  | renGet =>
    cases a with
    | got a =>
      simp only [resume, afterGet_at]
      generalize afterGet c env a st = q
      rcases q with ⟨st', r | r | res⟩
      · rfl
      · rfl
      · exact renTried_at ..
    | did a => rfl
    | slept b => rfl
  | renCreate r => cases a <;> first | rfl | simp only [resume, afterWrite_at, renTried_at]
  | renUpdate r => cases a <;> first | rfl | simp only [resume, afterWrite_at, renTried_at]
  | pollSleep =>
    cases a with
    | got a => rfl
    | did a => rfl
    | slept b =>
      simp only [resume, sl, endPoll_at]
      split <;> rfl
  | renSleep =>
    cases a with
    | got a => rfl
    | did a => rfl
    | slept b =>
      simp only [resume, sl, endRenew_at]
      split <;> rfl
  | releasing r res => cases a <;> first | rfl | simp only [resume, afterWrite_at, finishRun_at]
  | over r => cases a <;> rfl

/-- A move of elector `i` in the world, with the lock as it is, is `advance`. -/
theorem step_advance (c : Nat → Config) (L : Nat → Lock σ) (env : Nat → Env) (w : World2 σ) (i : Nat) :
    let w' := w.step c L env (.go i .fine ((env i).cancelSleep (w.els i).1.calls.length))
    advance (c i) (L i) (env i) ((w.els i).1.at w.lock, (w.els i).2) = ((w'.els i).1.at w'.lock, (w'.els i).2) := by
  simp only [World2.step, if_true, advance, Fate.apply]
  generalize (w.els i).1 = st
  cases (w.els i).2 with
  | over r => cases st; rfl
  | _ => exact resume_at ..

end Aiok8s.LeaderElection
