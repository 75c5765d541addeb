import Verif.Proof.LeaderElection
import Mathlib.Tactic.NormNum
/-!
# C52-C54, C67-C69: leader election
-/
set_option linter.unusedSimpArgs false
namespace Aiok8s.LeaderElection
variable {σ : Type}
open Spec (Seen)

/-! ## C52 -/

/-- **C52**: which configurations the constructor accepts. -/
theorem C52_accepts (c : Config) :
    construct c = none ↔
      c.leaseDuration > c.renewDeadline ∧ c.renewDeadline > 12 / 10 * c.retryPeriod ∧
      c.retryPeriod > 0 ∧ c.onStarted = true ∧ c.onStopped = true ∧ c.lock = true := by
  unfold construct
  constructor
  · intro h
    split at h; · cases h
    split at h; · cases h
    split at h; · cases h
    split at h; · cases h
    split at h; · cases h
    split at h; · cases h
    split at h; · cases h
    split at h; · cases h
    refine ⟨by linarith, by linarith, by linarith, ?_, ?_, ?_⟩ <;> simp_all
  · rintro ⟨h1, h2, h3, h4, h5, h6⟩
    rw [if_neg (by linarith), if_neg (by linarith), if_neg (by linarith), if_neg (by linarith),
      if_neg (by linarith)]
    simp [h4, h5, h6]

/-- **C52**: a rejection names something that is wrong. -/
theorem C52_rejects (c : Config) (n : Nat) (h : construct c = some n) :
    (n = 1 ∧ c.leaseDuration ≤ c.renewDeadline) ∨ (n = 2 ∧ c.renewDeadline ≤ 12 / 10 * c.retryPeriod) ∨
    (n = 5 ∧ c.retryPeriod ≤ 0) ∨ (n = 6 ∧ c.onStarted = false) ∨ (n = 7 ∧ c.onStopped = false) ∨
    (n = 8 ∧ c.lock = false) ∨ (n = 4 ∧ c.renewDeadline ≤ 0) ∨ (n = 3 ∧ c.leaseDuration ≤ 0) := by
  unfold construct at h
  split at h
  · cases h; exact Or.inl ⟨rfl, by assumption⟩
  split at h
  · cases h; exact Or.inr (Or.inl ⟨rfl, by linarith⟩)
  split at h
  · cases h; simp_all
  split at h
  · cases h; simp_all
  split at h
  · cases h; simp_all
  split at h
  · cases h; simp_all
  split at h
  · cases h; simp_all
  split at h
  · cases h; simp_all
  · cases h

/-- The default durations, with callbacks and a lock. -/
def exampleConfig : Config := ⟨15, 10, 2, true, true, false, true, false⟩

example : construct exampleConfig = none := (C52_accepts _).2 (by norm_num [exampleConfig])
example : construct { exampleConfig with retryPeriod := 9 } = some 2 := by
  norm_num [construct, exampleConfig]

/-! ## C53: renewing -/

private theorem acquire_calls (c : Config) (L : Lock σ) (env : Env) (fuel : Nat) (s : σ) :
    let p := acquire c L env fuel (init s)
    p.1.observedRaw = none ∧ (∀ x ∈ p.1.calls, x.trying = true) := by
  cases fuel with
  | zero => simp [acquire, init]
  | succ fuel =>
    rw [acquire_eq]
    obtain ⟨h1, l, h2, h3⟩ := try_cases c L env (init s) rfl
    refine ⟨h1, ?_⟩
    show ∀ x ∈ (tryAcquireOrRenew c L env (init s)).1.calls, _
    rw [h2]
    rcases h3 with ⟨rfl, _⟩ | ⟨r, rfl, _⟩ <;> simp [init, Call.trying]

private theorem mem_trying {l : List Call} (h : ∀ x ∈ l, x.trying = true) {x : Call}
    (hx : x.trying = false) : x ∉ l := fun hm => by simp [h x hm] at hx

/-- Every run: what it does to the outside. -/
private theorem run_shape (c : Config) (L : Lock σ) (env : Env) (fuel : Nat) (s : σ) :
    let p := run c L env fuel (init s)
    (∀ x ∈ p.1.calls, x.trying = true) ∧ (p.2 = .running ∨ p.2 = .raise .unboundLocalError) ∨
    ∃ pre mid, (∀ x ∈ pre, x.trying = true) ∧ (∀ x ∈ mid, x.trying = true) ∧
      mid.head? = some .get ∧
      ((p.2 = .running ∧ p.1.calls = pre ++ .started :: mid) ∨
       (p.2 = .raise (env.stoppedRaises.getD .attributeError) ∧
        p.1.calls = pre ++ .started :: mid ++ [.cancelStarted, .stopped])) := by
  have ha := acquire_calls c L env fuel s
  have hf : (acquire c L env fuel (init s)).2 = .ret true → 0 < fuel := by
    cases fuel with
    | zero => simp [acquire]
    | succ n => simp
  unfold run
  revert ha hf
  rcases acquire c L env fuel (init s) with ⟨st, r⟩
  rintro ⟨h1, h2⟩ hf
  simp only at h1 h2 hf ⊢
  rcases r with b | e | _
  · cases b
    · exact Or.inl ⟨h2, Or.inr rfl⟩
    · have hf := hf rfl
      obtain ⟨k, rfl⟩ : ∃ k, fuel = k + 1 := ⟨fuel - 1, by omega⟩
      obtain ⟨_, l, hl, ht, hh⟩ := pollRenew_calls c L env (k + 1) (st.call .started) h1
      have hh := hh hf
      right
      refine ⟨st.calls, l, h2, ht, hh, ?_⟩
      simp only
      rw [renew_eq]
      revert hl
      rcases pollRenew c L env (k + 1) (st.call .started) with ⟨st', r'⟩
      intro hl
      simp only [St.call] at hl
      have he : st'.calls = st.calls ++ .started :: l := by rw [hl]; simp
      rcases r' with b | e | _
      · right
        cases hs : env.stoppedRaises <;> simp [St.call, he]
      · right
        cases hs : env.stoppedRaises <;> simp [St.call, he]
      · left
        exact ⟨rfl, he⟩
  · exact Or.inl ⟨h2, Or.inr rfl⟩
  · exact Or.inl ⟨h2, Or.inl rfl⟩

/-- **C53, refuted**: whatever the lock answers and however long it runs, the elector never renews: it
never calls `update`. -/
theorem C53_refuted (c : Config) (L : Lock σ) (env : Env) (fuel : Nat) (s : σ) (r : Rec) :
    .update r ∉ (run c L env fuel (init s)).1.calls := by
  rcases run_shape c L env fuel s with ⟨h, _⟩ | ⟨pre, mid, h1, h2, _, ⟨_, h⟩ | ⟨_, h⟩⟩
  · exact mem_trying h rfl
  · rw [h]; simp [mem_trying h1 (x := .update r) rfl, mem_trying h2 (x := .update r) rfl]
  · rw [h]; simp [mem_trying h1 (x := .update r) rfl, mem_trying h2 (x := .update r) rfl]

/-- **C53, refuted**: an elector that creates the record and then finds it at the first renewal stops
leading there, with an `AttributeError`. -/
theorem C53_refuted_stops (c : Config) (L : Lock σ) (env : Env) (fuel : Nat) (s s1 s2 s3 : σ)
    (raw raw' : Raw) (old : Rec) (hs : env.stoppedRaises = none)
    (h1 : L.get s = (s1, .ret (none, raw)))
    (h2 : L.create (newRecord c env (env.now 0)) s1 = (s2, .ret ()))
    (h3 : L.get s2 = (s3, .ret (some old, raw'))) :
    (run c L env (fuel + 1) (init s)).2 = .raise .attributeError ∧
    (run c L env (fuel + 1) (init s)).1.calls =
      [.get, .create (newRecord c env (env.now 0)), .started, .get, .cancelStarted, .stopped] := by
  have ht : tryAcquireOrRenew c L env (init s) =
      (⟨s2, some (newRecord c env (env.now 0)), none, some (env.now 2), none,
        [.get, .create (newRecord c env (env.now 0))]⟩, .ret true) := by
    simp [tryAcquireOrRenew, init, St.call, h1, h2]
  unfold run
  rw [acquire_eq, ht]
  simp only [St.call]
  rw [renew_eq]
  simp [pollRenew, tryAcquireOrRenew, St.call, h3, hs]

/-- A lock in memory: a record or nothing. -/
def memLock : Lock (Option Rec) where
  get s := (s, .ret (s, match s with | none => .none | some _ => .str ['r']))
  create r s := match s with
    | none => (some r, .ret ())
    | some _ => (s, .raise (.other 409))
  update r _ := (some r, .ret ())

def exampleEnv : Env := ⟨['a'], fun _ => 0, fun _ => false, none⟩

/-- The lock in memory works, and the only elector loses it at once. -/
example : (run exampleConfig memLock exampleEnv 100 (init none)).2 = .raise .attributeError ∧
    (run exampleConfig memLock exampleEnv 100 (init none)).1.calls =
      [.get, .create (newRecord exampleConfig exampleEnv 0), .started, .get, .cancelStarted, .stopped] :=
  C53_refuted_stops _ _ _ 99 none none _ _ _ _ _ rfl rfl rfl rfl

/-- **C53**: what is left: after acquiring the lock the elector makes a renewal attempt at once. -/
theorem C53_partial (c : Config) (L : Lock σ) (env : Env) (fuel : Nat) (s : σ)
    (h : .started ∈ (run c L env fuel (init s)).1.calls) :
    ∃ pre post, (run c L env fuel (init s)).1.calls = pre ++ .started :: .get :: post := by
  rcases run_shape c L env fuel s with ⟨h', _⟩ | ⟨pre, mid, h1, h2, hh, h'⟩
  · exact absurd h (mem_trying h' rfl)
  · obtain ⟨x, xs, rfl⟩ : ∃ x xs, mid = x :: xs := by
      cases mid with
      | nil => simp at hh
      | cons x xs => exact ⟨x, xs, rfl⟩
    cases hh
    rcases h' with ⟨_, h⟩ | ⟨_, h⟩
    · exact ⟨pre, xs, h⟩
    · exact ⟨pre, xs ++ [.cancelStarted, .stopped], by rw [h]; simp⟩

example : .started ∈ (run exampleConfig memLock exampleEnv 100 (init none)).1.calls := by
  rw [(C53_refuted_stops exampleConfig memLock exampleEnv 99 none none _ _ _ _ _ rfl rfl rfl rfl).2]
  simp

/-! ## C54: acquiring -/

/-- **C54, refuted**: whatever the ConfigMap is, whether it exists or not, an elector with a ConfigMap
lock, alone at work, never leads and never changes it, and `run` ends with an `UnboundLocalError`. -/
theorem C54_refuted (loads : Str → Option Rec) (dumps : Rec → Str) (c : Config) (env : Env) (fuel : Nat)
    (s : Cluster) :
    let p := run c (configMapLock loads dumps) env (fuel + 1) (init s)
    p.2 = .raise .unboundLocalError ∧ .started ∉ p.1.calls ∧ p.1.lock.server = s.server := by
  obtain ⟨sv, nx, cm⟩ := s
  simp only [run]
  rw [acquire_eq]
  cases sv with
  | none => simp [tryAcquireOrRenew, init, St.call, configMapLock]
  | some m =>
    simp only [tryAcquireOrRenew, init, St.call, configMapLock]
    rcases m with ⟨as, v⟩
    rcases as with _ | as
    · simp [parse]
    · rcases as with _ | ⟨a, as⟩
      · simp [parse]
      · simp only [parse]
        cases PyDict.get? (a :: as) annotationKey with
        | none => simp
        | some t =>
          rcases t with _ | ⟨x, t⟩
          · simp
          · simp only
            cases loads (x :: t) <;> simp

/-- **C54**: what is left: with a lock that has no record and lets it be created, the elector creates
it and starts to lead. -/
theorem C54_partial (c : Config) (L : Lock σ) (env : Env) (fuel : Nat) (s s1 s2 : σ) (raw : Raw)
    (h1 : L.get s = (s1, .ret (none, raw)))
    (h2 : L.create (newRecord c env (env.now 0)) s1 = (s2, .ret ())) :
    ∃ post, (run c L env (fuel + 1) (init s)).1.calls =
      .get :: .create (newRecord c env (env.now 0)) :: .started :: post := by
  have ht : tryAcquireOrRenew c L env (init s) =
      (⟨s2, some (newRecord c env (env.now 0)), none, some (env.now 2), none,
        [.get, .create (newRecord c env (env.now 0))]⟩, .ret true) := by
    simp [tryAcquireOrRenew, init, St.call, h1, h2]
  unfold run
  rw [acquire_eq, ht]
  simp only [St.call]
  rw [renew_eq]
  obtain ⟨_, l, hl, _⟩ := pollRenew_calls c L env (fuel + 1)
    ⟨s2, some (newRecord c env (env.now 0)), none, some (env.now 2), none,
      [.get, .create (newRecord c env (env.now 0)), .started]⟩ rfl
  simp only [List.cons_append, List.nil_append] at hl ⊢
  revert hl
  rcases pollRenew c L env (fuel + 1) _ with ⟨st, r⟩
  intro hl
  simp only at hl
  rcases r with b | e | _
  · cases hs : env.stoppedRaises
    · exact ⟨l ++ [.cancelStarted, .stopped], by simp [hl]⟩
    · exact ⟨l ++ [.cancelStarted, .stopped], by simp [hl]⟩
  · cases hs : env.stoppedRaises
    · exact ⟨l ++ [.cancelStarted, .stopped], by simp [hl]⟩
    · exact ⟨l ++ [.cancelStarted, .stopped], by simp [hl]⟩
  · exact ⟨l, by simp [hl]⟩

example : ∃ post, (run exampleConfig memLock exampleEnv 1 (init none)).1.calls =
      .get :: .create (newRecord exampleConfig exampleEnv 0) :: .started :: post :=
  C54_partial _ _ _ _ _ _ _ _ rfl rfl

/-! ## C67: stepping down -/

/-- A lock whose reads give the listed answers; creating and updating always work.  The state is the
number of reads so far. -/
def oracleLock (answers : Nat → R (Option Rec × Raw)) : Lock Nat where
  get k := (k + 1, answers k)
  create _ k := (k, .ret ())
  update _ k := (k, .ret ())

private theorem try_fail (c : Config) (env : Env) (answers : Nat → R (Option Rec × Raw)) (st : St Nat)
    (n : Nat) (h : answers st.lock = .raise (.other n)) :
    tryAcquireOrRenew c (oracleLock answers) env st =
      ({ st.call .get with lock := st.lock + 1 }, .ret false) := by
  simp [tryAcquireOrRenew, oracleLock, h]

private theorem poll_fail (c : Config) (env : Env) (answers : Nat → R (Option Rec × Raw))
    (hs : ∀ k, env.cancelSleep k = false) (fuel : Nat) (st : St Nat)
    (h : ∀ k, st.lock ≤ k → ∃ n, answers k = .raise (.other n)) :
    (pollRenew c (oracleLock answers) env fuel st).2 = .running := by
  induction fuel generalizing st with
  | zero => rfl
  | succ fuel ih =>
    obtain ⟨n, hn⟩ := h st.lock le_rfl
    unfold pollRenew
    rw [try_fail c env answers st n hn]
    simp only [sleep, hs]
    exact ih _ fun k hk => h k (by simp only [St.call] at hk; omega)

private theorem start_oracle (c : Config) (env : Env) (answers : Nat → R (Option Rec × Raw)) (raw : Raw)
    (h0 : answers 0 = .ret (none, raw)) :
    tryAcquireOrRenew c (oracleLock answers) env (init 0) =
      (⟨1, some (newRecord c env (env.now 0)), none, some (env.now 2), none,
        [.get, .create (newRecord c env (env.now 0))]⟩, .ret true) := by
  simp [tryAcquireOrRenew, init, St.call, oracleLock, h0]

/-- **C67, refuted**: an elector that leads and then finds every read of the lock failing goes on
leading: however long it runs, it does not end and `on_stopped_leading` is not called. -/
theorem C67_refuted (c : Config) (env : Env) (answers : Nat → R (Option Rec × Raw)) (raw : Raw)
    (hs : ∀ k, env.cancelSleep k = false) (h0 : answers 0 = .ret (none, raw))
    (h : ∀ k, 1 ≤ k → ∃ n, answers k = .raise (.other n)) (fuel : Nat) :
    let p := run c (oracleLock answers) env (fuel + 1) (init 0)
    p.2 = .running ∧ .started ∈ p.1.calls ∧ .stopped ∉ p.1.calls ∧ .cancelStarted ∉ p.1.calls := by
  have hr : (run c (oracleLock answers) env (fuel + 1) (init 0)).2 = .running := by
    unfold run
    rw [acquire_eq, start_oracle c env answers raw h0]
    simp only [St.call]
    rw [renew_eq]
    have := poll_fail c env answers hs (fuel + 1)
      ⟨1, some (newRecord c env (env.now 0)), none, some (env.now 2), none,
        [.get, .create (newRecord c env (env.now 0))] ++ [.started]⟩ h
    revert this
    rcases pollRenew c (oracleLock answers) env (fuel + 1) _ with ⟨st, r⟩
    rintro rfl
    rfl
  obtain ⟨post, hp⟩ := C54_partial c (oracleLock answers) env fuel 0 1 1 raw
    (by simp [oracleLock, h0]) (by simp [oracleLock])
  simp only
  refine ⟨hr, by rw [hp]; simp, ?_⟩
  rcases run_shape c (oracleLock answers) env (fuel + 1) 0 with ⟨h', _⟩ | ⟨pre, mid, h1, h2, _, h'⟩
  · exact ⟨mem_trying h' rfl, mem_trying h' rfl⟩
  · rcases h' with ⟨_, h⟩ | ⟨h, _⟩
    · rw [h]
      simp [mem_trying h1 (x := .stopped) rfl, mem_trying h2 (x := .stopped) rfl,
        mem_trying h1 (x := .cancelStarted) rfl, mem_trying h2 (x := .cancelStarted) rfl]
    · rw [hr] at h; cases h

/-- The lock service breaks down for good after the elector has acquired the lock. -/
example : ∃ answers : Nat → R (Option Rec × Raw), answers 0 = .ret (none, .none) ∧
    ∀ k, 1 ≤ k → ∃ n, answers k = .raise (.other n) :=
  ⟨fun k => if k = 0 then .ret (none, .none) else .raise (.other 503), rfl,
    fun k hk => ⟨503, by simp; omega⟩⟩

private theorem poll_found (c : Config) (env : Env) (answers : Nat → R (Option Rec × Raw))
    (hs : ∀ k, env.cancelSleep k = false) (n : Nat) (old : Rec) (raw : Raw) (m fuel : Nat) (st : St Nat)
    (hr : st.observedRaw = none) (hm : st.lock + m = n) (hf : m < fuel)
    (h : ∀ k, st.lock ≤ k → k < n → ∃ x, answers k = .raise (.other x))
    (hn : answers n = .ret (some old, raw)) :
    (pollRenew c (oracleLock answers) env fuel st).2 = .raise .attributeError := by
  induction fuel generalizing st m with
  | zero => omega
  | succ fuel ih =>
    unfold pollRenew
    by_cases hk : st.lock = n
    · have : tryAcquireOrRenew c (oracleLock answers) env st =
          ({ st.call .get with lock := st.lock + 1 }, .raise .attributeError) := by
        simp [tryAcquireOrRenew, oracleLock, hk, hn, St.call, hr]
      rw [this]
    · obtain ⟨x, hx⟩ := h st.lock le_rfl (by omega)
      rw [try_fail c env answers st x hx]
      simp only [sleep, hs]
      exact ih (m - 1) _ hr (by simp only [St.call]; omega) (by omega)
        fun k h1 h2 => h k (by simp only [St.call] at h1; omega) h2

/-- **C67**: what is left: a leader that can read the lock again, and finds a record there, steps down
then, whoever holds it. -/
theorem C67_partial (c : Config) (env : Env) (answers : Nat → R (Option Rec × Raw)) (raw raw' : Raw)
    (old : Rec) (n fuel : Nat)
    (hs : ∀ k, env.cancelSleep k = false) (h0 : answers 0 = .ret (none, raw)) (hn : 1 ≤ n)
    (h : ∀ k, 1 ≤ k → k < n → ∃ x, answers k = .raise (.other x))
    (hf : answers n = .ret (some old, raw')) (hfuel : n ≤ fuel) :
    let p := run c (oracleLock answers) env (fuel + 1) (init 0)
    p.2 ≠ .running ∧ ∃ pre, p.1.calls = pre ++ [.cancelStarted, .stopped] := by
  have hr : (run c (oracleLock answers) env (fuel + 1) (init 0)).2 ≠ .running := by
    unfold run
    rw [acquire_eq, start_oracle c env answers raw h0]
    simp only [St.call]
    rw [renew_eq]
    have := poll_found c env answers hs n old raw' (n - 1) (fuel + 1)
      ⟨1, some (newRecord c env (env.now 0)), none, some (env.now 2), none,
        [.get, .create (newRecord c env (env.now 0))] ++ [.started]⟩ rfl (by simp only; omega)
        (by omega) h hf
    revert this
    rcases pollRenew c (oracleLock answers) env (fuel + 1) _ with ⟨st, r⟩
    rintro rfl
    cases hst : env.stoppedRaises <;> simp
  obtain ⟨post, hp⟩ := C54_partial c (oracleLock answers) env fuel 0 1 1 raw
    (by simp [oracleLock, h0]) (by simp [oracleLock])
  refine ⟨hr, ?_⟩
  rcases run_shape c (oracleLock answers) env (fuel + 1) 0 with ⟨h', _⟩ | ⟨pre, mid, h1, h2, _, h'⟩
  · exact absurd (by rw [hp]; simp) (mem_trying h' (x := .started) rfl)
  · rcases h' with ⟨h, _⟩ | ⟨_, h⟩
    · exact absurd h hr
    · exact ⟨_, h⟩

example : ∃ answers : Nat → R (Option Rec × Raw), answers 0 = .ret (none, .none) ∧
    (∀ k, 1 ≤ k → k < 5 → ∃ x, answers k = .raise (.other x)) ∧
    answers 5 = .ret (some [("holderIdentity", .str ['b'])], .str ['b']) :=
  ⟨fun k => if k = 0 then .ret (none, .none)
    else if k < 5 then .raise (.other 503)
    else .ret (some [("holderIdentity", .str ['b'])], .str ['b']), rfl,
    fun k hk h5 => ⟨503, by simp [h5]; omega⟩, rfl⟩

/-! ## C68: how `run` ends -/

/-- **C68, refuted**: an elector that does not get the lock ends `run` with an `UnboundLocalError`,
without calling `on_stopped_leading`; here, because another elector holds it. -/
theorem C68_refuted (c : Config) (env : Env) (fuel : Nat) (r : Rec) :
    run c memLock env (fuel + 1) (init (some r)) =
      ({ (init (some r)).call .get with lock := some r }, .raise .unboundLocalError) := by
  unfold run
  rw [acquire_eq]
  simp [tryAcquireOrRenew, memLock, init, St.call]

/-- **C68**: what is left: whatever the lock answers, once `on_started_leading` has been started and
`run` has ended, its task was cancelled and then `on_stopped_leading` called, once, and nothing was done
after that; and neither happens before the end, or if it never started. -/
theorem C68_partial (c : Config) (L : Lock σ) (env : Env) (fuel : Nat) (s : σ) :
    let p := run c L env fuel (init s)
    (.started ∈ p.1.calls → p.2 ≠ .running →
      ∃ pre, p.1.calls = pre ++ [.cancelStarted, .stopped] ∧ pre.count .started = 1 ∧
        .stopped ∉ pre ∧ .cancelStarted ∉ pre) ∧
    (.started ∉ p.1.calls ∨ p.2 = .running → .stopped ∉ p.1.calls ∧ .cancelStarted ∉ p.1.calls) := by
  rcases run_shape c L env fuel s with ⟨h', _⟩ | ⟨pre, mid, h1, h2, _, ⟨hr, h⟩ | ⟨hr, h⟩⟩
  · exact ⟨fun h => absurd h (mem_trying h' rfl), fun _ => ⟨mem_trying h' rfl, mem_trying h' rfl⟩⟩
  · refine ⟨fun _ hn => absurd hr hn, fun _ => ?_⟩
    rw [h]
    simp [mem_trying h1 (x := .stopped) rfl, mem_trying h2 (x := .stopped) rfl,
      mem_trying h1 (x := .cancelStarted) rfl, mem_trying h2 (x := .cancelStarted) rfl]
  · refine ⟨fun _ _ => ⟨_, h, ?_, ?_, ?_⟩, ?_⟩
    · rw [List.count_append, List.count_cons_self,
        List.count_eq_zero.2 (mem_trying h1 (x := .started) rfl),
        List.count_eq_zero.2 (mem_trying h2 (x := .started) rfl)]
    · simp [mem_trying h1 (x := .stopped) rfl, mem_trying h2 (x := .stopped) rfl]
    · simp [mem_trying h1 (x := .cancelStarted) rfl, mem_trying h2 (x := .cancelStarted) rfl]
    · rintro (hn | hn)
      · exact absurd (by rw [h]; simp) hn
      · rw [hr] at hn; cases hn

/-! ## C69: no lost updates -/

/-- **C69**: after any operations by any clients, and any outside changes, an update by client `i`
succeeds if and only if `i` knows the ConfigMap as it is (nobody has changed, deleted or created it since
`i` last read or wrote it) and the ConfigMap has annotations. -/
theorem C69_no_lost_update (loads : Str → Option Rec) (dumps : Rec → Str)
    (x : Option (Option (PyDict String Str))) (os : List Op) (i : Nat) (r : Rec) :
    let p := (World.fresh x).run loads dumps os
    (p.1.step loads dumps (.update i r)).2 = true ↔
      ((Seen.start x.isSome).run p.2).current i ∧ ∃ m as, p.1.server = some m ∧ m.annotations = some as := by
  intro p
  have h : Sim p.1 ((Seen.start x.isSome).run p.2) := sim_run loads dumps _ _ (sim_fresh x) os
  revert h
  generalize (Seen.start x.isSome).run p.2 = s
  generalize p.1 = w
  intro h
  obtain ⟨h1, h2, h3, h4, h5, h6, h7⟩ := h
  simp only [World.step, World.call, configMapLock, Seen.current]
  constructor
  · intro hu
    cases hc : w.cms i with
    | none => simp [hc, R.ok] at hu
    | some m =>
      cases ha : m.annotations with
      | none => simp [hc, ha, R.ok] at hu
      | some as =>
        cases hs : w.server with
        | none => simp [hc, ha, hs, R.ok] at hu
        | some n =>
          by_cases hv : n.version = m.version
          · have hcur : s.seen i = some s.changes := by
              by_contra hne
              exact h7 i n m hs hc hne hv.symm
            have := h6 i n hs hcur
            rw [hc] at this
            cases this
            exact ⟨⟨by rw [h1, hs]; rfl, hcur⟩, m, as, rfl, ha⟩
          · simp [hc, ha, hs, hv, R.ok] at hu
  · rintro ⟨⟨_, hcur⟩, m, as, hs, ha⟩
    have := h6 i m hs hcur
    simp [this, ha, hs, R.ok]

/-- **C69**: a successful update puts the record in place and leaves the other annotations alone; one
that fails changes nothing on the server. -/
theorem C69_update (loads : Str → Option Rec) (dumps : Rec → Str)
    (x : Option (Option (PyDict String Str))) (os : List Op) (i : Nat) (r : Rec) :
    let w := ((World.fresh x).run loads dumps os).1
    let q := w.step loads dumps (.update i r)
    (q.2 = true → ∃ m m' as as', w.server = some m ∧ m.annotations = some as ∧
      q.1.server = some m' ∧ m'.annotations = some as' ∧
      as'.get? annotationKey = some (dumps r) ∧ ∀ k, k ≠ annotationKey → as'.get? k = as.get? k) ∧
    (q.2 = false → q.1.server = w.server) := by
  intro w q
  have h : Sim w ((Seen.start x.isSome).run ((World.fresh x).run loads dumps os).2) :=
    sim_run loads dumps _ _ (sim_fresh x) os
  have hq : q = w.step loads dumps (.update i r) := rfl
  have hcur := (C69_no_lost_update loads dumps x os i r).1
  change q.2 = true → _ ∧ ∃ m as, w.server = some m ∧ m.annotations = some as at hcur
  clear_value w
  refine ⟨fun hu => ?_, fun hu => ?_⟩
  · obtain ⟨⟨_, hseen⟩, m, as, hs, ha⟩ := hcur hu
    have hc := h.cur i m hs hseen
    refine ⟨m, ⟨some (as.set annotationKey (dumps r)), w.next⟩, as, as.set annotationKey (dumps r),
      hs, ha, ?_, rfl, ?_, ?_⟩
    · rw [hq]
      simp [World.step, World.call, configMapLock, hc, ha, hs]
    · rw [PyDict.get?_set]; simp
    · intro k hk
      rw [PyDict.get?_set, if_neg (Ne.symm hk)]
  · rw [hq] at hu ⊢
    simp only [World.step, World.call, configMapLock] at hu ⊢
    cases hc : w.cms i with
    | none => simp
    | some m =>
      cases ha : m.annotations with
      | none => simp [ha]
      | some as =>
        cases hs : w.server with
        | none => simp [ha]
        | some n =>
          by_cases hv : n.version = m.version
          · simp [hc, ha, hs, hv, R.ok] at hu
          · simp [ha, hv]

/-- **C69**: what a read gives: an error if there is no ConfigMap; no record exactly if it has no
annotations (`None`, not an empty dict) or others only; a record that is not `None` if the annotation is the
empty text; otherwise what the text says. -/
theorem C69_get (loads : Str → Option Rec) (dumps : Rec → Str) (s : Cluster) :
    let r := ((configMapLock loads dumps).get s).2
    (r = .raise (.other 404) ↔ s.server = none) ∧
    (r = .ret (none, .none) ↔ ∃ m, s.server = some m ∧ (m.annotations = none ∨
      ∃ as, m.annotations = some as ∧ as ≠ [] ∧ as.get? annotationKey = none)) ∧
    (∀ m as t, s.server = some m → m.annotations = some as → as.get? annotationKey = some t →
      (t = [] → ∃ x, r = .ret (some x, .str [])) ∧
      (t ≠ [] → ∀ x, r = .ret (some x, .str t) ↔ loads t = some x) ∧
      (t ≠ [] → loads t = none → r = .raise (.other 1))) := by
  obtain ⟨sv, nx, cm⟩ := s
  rcases sv with _ | ⟨as, v⟩
  · simp [configMapLock]
  · have hm : ∀ m : CM, some (⟨as, v⟩ : CM) = some m → m = ⟨as, v⟩ := fun m h => (Option.some.inj h).symm
    rcases as with _ | as
    · refine ⟨by simp [configMapLock, parse], by simp [configMapLock, parse], ?_⟩
      intro m bs t e
      rw [hm m e]
      simp
    · rcases as with _ | ⟨a, as⟩
      · refine ⟨by simp [configMapLock, parse], by simp [configMapLock, parse], ?_⟩
        intro m bs t e
        rw [hm m e]
        intro e2 e3
        rw [← Option.some.inj e2] at e3
        simp [PyDict.get?] at e3
      · simp only [configMapLock, parse]
        cases hg : PyDict.get? (a :: as) annotationKey with
        | none =>
          refine ⟨by simp, by simp [hg], ?_⟩
          intro m bs t e
          rw [hm m e]
          intro e2 e3
          rw [← Option.some.inj e2, hg] at e3
          simp at e3
        | some t =>
          have ht : ∀ (m : CM) (bs : PyDict String Str) u, some (⟨some (a :: as), v⟩ : CM) = some m →
              m.annotations = some bs → bs.get? annotationKey = some u → u = t := by
            intro m bs u e e2 e3
            rw [hm m e] at e2
            rw [← Option.some.inj e2, hg] at e3
            exact (Option.some.inj e3).symm
          rcases t with _ | ⟨x, t⟩
          · refine ⟨by simp, by simp [hg], ?_⟩
            intro m bs u e e2 e3
            rw [ht m bs u e e2 e3]
            simp
          · cases hl : loads (x :: t) with
            | none =>
              refine ⟨by simp [hl], by simp [hg, hl], ?_⟩
              intro m bs u e e2 e3
              rw [ht m bs u e e2 e3]
              simp [hl]
            | some y =>
              refine ⟨by simp [hl], by simp [hg, hl], ?_⟩
              intro m bs u e e2 e3
              rw [ht m bs u e e2 e3]
              simp [hl]

/-- **C69**: what one client wrote, by `create` or `update`, every client reads: for every codec that
reads back this record and writes no empty text for it. -/
theorem C69_read (loads : Str → Option Rec) (dumps : Rec → Str) (r : Rec)
    (hcodec : loads (dumps r) = some r) (hne : dumps r ≠ [])
    (x : Option (Option (PyDict String Str))) (os : List Op) (i j : Nat) (o : Op) (ho : o = .create i r ∨ o = .update i r) :
    let q := (((World.fresh x).run loads dumps os).1).step loads dumps o
    q.2 = true → ((configMapLock loads dumps).get ⟨q.1.server, q.1.next, q.1.cms j⟩).2 =
      .ret (some r, .str (dumps r)) := by
  intro q hq
  have key : ∀ (s : Cluster) m as, s.server = some m → m.annotations = some as →
      as.get? annotationKey = some (dumps r) →
      ((configMapLock loads dumps).get s).2 = .ret (some r, .str (dumps r)) := by
    intro s m as h1 h2 h3
    exact (((C69_get loads dumps s).2.2 m as _ h1 h2 h3).2.1 hne r).mpr hcodec
  rcases ho with rfl | rfl
  · have hq' : q = World.step loads dumps ((World.fresh x).run loads dumps os).1 (.create i r) := rfl
    clear_value q
    subst hq'
    revert hq
    generalize ((World.fresh x).run loads dumps os).1 = w
    intro hq
    simp only [World.step, World.call, configMapLock] at hq
    cases hs : w.server with
    | some m => simp [hs, R.ok] at hq
    | none =>
      refine key _ ⟨some [(annotationKey, dumps r)], w.next⟩ [(annotationKey, dumps r)] ?_ rfl ?_
      · simp [World.step, World.call, configMapLock, hs]
      · simp [PyDict.get?]
  · obtain ⟨m, m', as, as', -, -, h1, h2, h3, -⟩ := (C69_update loads dumps x os i r).1 hq
    exact key _ m' as' h1 h2 h3

/-- A record that is created by client 0 and read by client 1. -/
example : ((configMapLock (fun _ => some [("k", .num 1)]) (fun _ => ['r'])).get
    (let w := ((World.fresh none).run (fun _ => some [("k", .num 1)]) (fun _ => ['r'])
      [.create 0 [("k", .num 1)]]).1
     ⟨w.server, w.next, w.cms 1⟩)).2 = .ret (some [("k", .num 1)], .str ['r']) := by decide

/-- Two clients read the ConfigMap; the first one's update succeeds, the second one's fails, and
succeeds after another read. -/
example :
    let w := World.fresh (some (some [("a", ['b'])]))
    ((w.run (fun _ => some []) (fun _ => ['r'])
      [.get 0, .get 1, .update 0 [], .update 1 [], .get 1, .update 1 []]).2.map Prod.snd) =
      [true, true, true, false, true, true] := by decide

end Aiok8s.LeaderElection
