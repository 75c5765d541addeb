import Verif.Spec.ControllerIdle
import Verif.Props.Controller
import Verif.Props.DelayIdle
import Verif.Model.DefaultLimiter
import Mathlib.Tactic.Linarith
import Mathlib.Tactic.Positivity
/-!
# C111: what was asked for comes on time when a worker is free
-/
set_option linter.unusedSimpArgs false
namespace Aiok8s.Controller
open Aiok8s Aiok8s.RateLimiters Aiok8s.Controller.Spec
variable {σ α ε : Type} [DecidableEq α]

/-- What holds of the queue. -/
private structure Fine (q : DelayQueue.State α) : Prop where
  base : DelayQueue.Base q
  stop : q.stop = false
  ok : DelayQueue.Punctual q

private theorem fine_step {q : DelayQueue.State α} (h : Fine q) {e : DelayQueue.Ev α}
    (hn : DelayQueue.isShutDown e = false) (hq : ∀ d, e = .tick d → DelayQueue.Spec.QuietFor q d) :
    Fine (DelayQueue.step q e).1 :=
  ⟨(DelayQueue.step_effect h.base e).2, (DelayQueue.stop_stays hn).trans h.stop,
    DelayQueue.punctual_step h.base h.stop h.ok hq⟩

private theorem fine_call (I : Iface σ α ε) {s : State σ α} (h : Fine s.rq.q) {e : DelayQueue.Ev α}
    (hn : DelayQueue.isShutDown e = false) (ht : ∀ d, e ≠ .tick d) : Fine (s.call I (.queue e)).rq.q :=
  fine_step h hn fun d hd => absurd hd (ht d)

private theorem fine_rl (I : Iface σ α ε) {s : State σ α} (h : Fine s.rq.q) (x : α) (env : ε) :
    Fine (s.call I (.addRateLimited x env)).rq.q := by
  rcases rateLimited_eq I s.rq x env with ⟨l, d, hw, he⟩ | ⟨l, r, hw, _, he⟩
  · simp only [State.call, he]
    exact fine_step h (e := .addAfter x d) rfl nofun
  · simp only [State.call, he]
    exact h

private theorem fine_finally (I : Iface σ α ε) (py38 : Bool) {s : State σ α} (h : Fine s.rq.q) (w : Nat) (x : α)
    (e : End) : Fine (finally_ I py38 s w x e).1.rq.q :=
  fine_call I h (e := .base (.done x)) rfl nofun

private theorem fine_move (I : Iface σ α ε) (py38 : Bool) (isReq : α → Bool) {s : State σ α} (h : Fine s.rq.q)
    (e : Ev α ε) (hn : notShutDown e = true)
    (hq : ∀ d, e = .queue (.tick d) → 0 < d → DelayQueue.Spec.QuietFor s.rq.q d) :
    Fine (step I py38 isReq s e).1.rq.q := by
  cases e with
  | queue e =>
    simp only [notShutDown, Bool.not_eq_true'] at hn
    simp only [step]
    split
    · refine fine_step h hn ?_
      rintro d rfl
      rcases lt_or_ge 0 d with hd | hd
      · exact hq d rfl hd
      · intro d' h1 h2
        linarith
    · exact h
  | wake w => simp only [step]; split <;> exact h
  | cancel w => simp only [step]; split <;> exact h
  | requeued w =>
    simp only [step]
    split
    · exact fine_finally I py38 h _ _ _
    · exact h
  | cancelRequeue w =>
    simp only [step]
    split
    · exact fine_finally I py38 h _ _ _
    · exact h
  | take w =>
    simp only [step]
    split
    · split
      · have hg := fine_call I h (e := .base .get) rfl nofun
        split
        · exact hg
        · exact fine_finally I py38 (s := (s.call I (.queue (.base .get))).call I (.forget _)) hg w _ (.ret true)
      · exact h
      · exact h
    · exact h
  | finish w o env =>
    simp only [step]
    split
    · rename_i y _
      cases o with
      | cancelled => exact fine_finally I py38 h w y .cancelled
      | bad => exact fine_finally I py38 h w y .exc
      | raised =>
        simp only [afterReconcile]
        split
        · exact fine_finally I py38 (fine_rl I h y env) w y .exc
        · exact fine_rl I h y env
      | result requeue after =>
        simp only [afterReconcile]
        split
        · exact fine_call I (s := s.call I (.forget y)) h (e := .addAfter y after) rfl nofun
        · split
          · split
            · exact fine_finally I py38 (fine_rl I h y env) w y .exc
            · exact fine_rl I h y env
          · exact fine_finally I py38 (s := s.call I (.forget y)) h w y (.ret true)
    · exact h

private theorem exec_app (I : Iface σ α ε) (py38 : Bool) (isReq : α → Bool) (s : State σ α) (as bs : List (Ev α ε)) :
    exec I py38 isReq s (as ++ bs) = exec I py38 isReq (exec I py38 isReq s as) bs := by
  induction as generalizing s with
  | nil => rfl
  | cons a as ih => exact ih _

private theorem fine_exec (I : Iface σ α ε) (py38 : Bool) (isReq : α → Bool) (l : σ) (t : ℚ) (n : Nat)
    (es : List (Ev α ε)) (hn : ∀ e ∈ es, notShutDown e = true) (hi : IdleLoop I py38 isReq (init l t n) es) :
    Fine (exec I py38 isReq (init l t n) es).rq.q := by
  induction es using List.reverseRecOn with
  | nil =>
    refine ⟨DelayQueue.base_init t, rfl, fun x r hx => ?_, nofun, nofun⟩
    simp [DelayQueue.Held, exec, init, DelayQueue.init, DelayHeap.init] at hx
  | append_singleton es e ih =>
    rw [exec_app]
    refine fine_move I py38 isReq (ih (fun e he => hn e (by simp [he])) ?_) e (hn e (by simp)) ?_
    · intro a d b hab
      exact hi a d (b ++ [e]) (by rw [hab]; simp)
    · rintro d rfl hd
      exact (hi es d [] (by simp) hd).1

/-- When time passes beyond the moment for which `x` is pending, a waiting worker means that somebody has `x`. -/
private theorem overdue (I : Iface σ α ε) (py38 : Bool) (isReq : α → Bool) {s : State σ α} (hr : R s (phases s))
    (hf : Fine s.rq.q) {x : α} {r d : ℚ} (hp : Pending s x r) (hd : 0 < d) (hq : QuietFor I py38 isReq s d)
    (hlate : r < s.rq.q.clock + d) : (∃ w, s.workers w = .reconciling x) ∨ ∀ w, s.workers w ≠ .idle := by
  have hdirty : x ∈ s.rq.q.core.dirty := by
    rcases hp with hp | ⟨r', h1, h2⟩
    · exact hp
    · exfalso
      have := (fine_step hf (e := .tick d) rfl (by rintro _ ⟨⟩; exact hq.1)).ok.held x r' (by
        simp only [DelayQueue.step, if_pos hd.le]; exact h2)
      simp only [DelayQueue.step, if_pos hd.le] at this
      linarith
  rcases hr.inv.dirty_cov x hdirty with h | h
  · right
    intro w hw
    have := (hq.2 w).1
    cases hqu : s.rq.q.core.queue with
    | nil => rw [hqu] at h; cases h
    | cons y rest =>
      have hl := congrArg Prod.snd this
      simp only [step, hw, if_true, WorkQueue.get, hqu] at hl
      split at hl <;> cases hl
  · left
    obtain ⟨w, hw⟩ := hr.held x h
    simp only [phases] at hw
    cases hpc : s.workers w with
    | reconciling y =>
      rw [hpc] at hw
      simp only [phase, Phase.item, Option.some.injEq] at hw
      exact ⟨w, hw ▸ hpc⟩
    | requeuing y b =>
      have hl := congrArg Prod.snd (hq.2 w).2
      simp only [step, hpc, finally_] at hl
      cases hl
    | idle => rw [hpc] at hw; cases hw
    | sleeping => rw [hpc] at hw; cases hw
    | ended => rw [hpc] at hw; cases hw

/-- What is asked for is pending. -/
private theorem asked (I : Iface σ α ε) (py38 : Bool) (isReq : α → Bool) {s : State σ α} (hr : R s (phases s))
    {e : Ev α ε} {x : α} {r : ℚ} (h : (x, r) ∈ othersAt s e ∨ (x, r) ∈ retriesAt I s e) :
    Pending (step I py38 isReq s e).1 x r := by
  have hsd := hr.base.sd
  have hadd := fun d => addAfter_pending hsd x d
  cases e with
  | queue e =>
    rcases h with h | h
    · cases e with
      | base o =>
        cases o with
        | add y =>
          simp only [othersAt, List.mem_singleton, Prod.mk.injEq] at h
          obtain ⟨rfl, rfl⟩ := h
          exact Or.inl (add_self hsd)
        | _ => cases h
      | addAfter y d =>
        simp only [othersAt, List.mem_singleton, Prod.mk.injEq] at h
        obtain ⟨rfl, rfl⟩ := h
        exact hadd d
      | _ => cases h
    · cases h
  | finish w o env =>
    cases hw : s.workers w with
    | reconciling y =>
      simp only [step, hw]
      rcases h with h | h
      · cases o with
        | result q d =>
          simp only [othersAt, hw] at h
          split at h
          · rename_i hd
            simp only [List.mem_singleton, Prod.mk.injEq] at h
            obtain ⟨rfl, rfl⟩ := h
            simp only [afterReconcile, if_pos hd]
            exact hadd d
          · cases h
        | _ => cases h
      · simp only [retriesAt, hw] at h
        split at h
        · rename_i ho
          split at h
          · rename_i d hwh
            simp only [List.mem_singleton, Prod.mk.injEq] at h
            obtain ⟨rfl, rfl⟩ := h
            rcases rateLimited_eq I s.rq x env with ⟨l', d', hw', he⟩ | ⟨l', r', hw', hne, he⟩
            · rw [hw'] at hwh
              cases hwh
              cases o with
              | raised =>
                simp only [afterReconcile, he, State.call]
                exact hadd _
              | result r d'' =>
                simp only [retry, Bool.and_eq_true, beq_iff_eq] at ho
                obtain ⟨rfl, rfl⟩ := ho
                simp only [afterReconcile, ne_eq, not_true_eq_false, if_false, if_true, he, State.call]
                exact hadd _
              | bad => cases ho
              | cancelled => cases ho
            · rw [hw'] at hwh
              exact absurd hwh (hne d)
          · cases h
        · cases h
    | _ =>
      exfalso
      rcases h with h | h
      · cases o with
        | result q d => simp only [othersAt, hw] at h; cases h
        | _ => cases h
      · simp only [retriesAt, hw] at h; cases h
  | _ => rcases h with h | h <;> cases h

/-- **C111**: an item asked for, by whomever, for the time `r` and not given out since: when time passes beyond `r`,
either its reconciliation is still going on, or no worker waits for work. -/
theorem C111_on_time (I : Iface σ α ε) (py38 : Bool) (isReq : α → Bool) (l : σ) (t : ℚ) (n : Nat)
    (a b : List (Ev α ε)) (e : Ev α ε) (d : ℚ) (hd : 0 < d)
    (hn : ∀ e' ∈ a ++ e :: b, notShutDown e' = true)
    (hi : IdleLoop I py38 isReq (init l t n) (a ++ e :: b ++ [.queue (.tick d)])) (x : α) (r : ℚ)
    (h : (x, r) ∈ othersAt (exec I py38 isReq (init l t n) a) e ∨
      (x, r) ∈ retriesAt I (exec I py38 isReq (init l t n) a) e)
    (hno : ∀ w, .took w x ∉ logOf I py38 isReq (exec I py38 isReq (init l t n) (a ++ [e])) b)
    (hlate : r < (exec I py38 isReq (init l t n) (a ++ e :: b)).rq.q.clock + d) :
    (∃ w, (exec I py38 isReq (init l t n) (a ++ e :: b)).workers w = .reconciling x) ∨
      ∀ w, (exec I py38 isReq (init l t n) (a ++ e :: b)).workers w ≠ .idle := by
  have hra := (exec_good I py38 isReq a (init l t n) (R_init l t n)).2
  have hre := (exec_good I py38 isReq (a ++ e :: b) (init l t n) (R_init l t n)).2
  have hfe := fine_exec I py38 isReq l t n (a ++ e :: b) hn fun a' d' b' hab =>
    hi a' d' (b' ++ [.queue (.tick d)]) (by rw [hab]; simp)
  refine overdue I py38 isReq hre hfe ?_ hd (hi _ d [] (by simp) hd) hlate
  have hst : (exec I py38 isReq (init l t n) (a ++ [e])).rq.q.stop = false :=
    stop_exec I py38 isReq _ (fun e' he' => hn e' (by
      rcases List.mem_append.1 he' with h | h
      · exact List.mem_append_left _ h
      · exact List.mem_append_right _ (by simp at h; simp [h]))) _ rfl
  have hp : Pending (exec I py38 isReq (init l t n) (a ++ [e])) x r := by
    rw [exec_app]
    exact asked I py38 isReq hra h
  have hr1 := (exec_good I py38 isReq (a ++ [e]) (init l t n) (R_init l t n)).2
  rcases pending_exec I py38 isReq b (fun e' he' => hn e' (by simp [he'])) _ hr1 hst hp with ⟨w, hw⟩ | h
  · exact absurd hw (hno w)
  · rw [show a ++ e :: b = (a ++ [e]) ++ b by simp, exec_app]
    exact h

/-- Without a delivery nobody begins to reconcile. -/
private theorem good_no_running {h h' : Nat → Phase α} {l : List (Log α ε)} (hg : Good h l h') (x : α)
    (hno : ∀ w, .took w x ∉ l) (h0 : ∀ v, h v ≠ .running x ∧ h v ≠ .taken x) :
    ∀ v, h' v ≠ .running x ∧ h' v ≠ .taken x := by
  induction hg with
  | nil => exact h0
  | took h1 h2 _ ih =>
    refine ih (fun w hw => hno w (by simp [hw])) fun v => ?_
    simp only [put]
    split
    · refine ⟨nofun, fun hx => ?_⟩
      cases hx
      exact hno _ (List.mem_cons_self ..)
    · exact h0 v
  | reconcile h1 _ ih =>
    refine ih (fun w hw => hno w (by simp [hw])) fun v => ?_
    simp only [put]
    split
    · refine ⟨?_, nofun⟩
      rintro ⟨⟩
      exact (h0 _).2 h1
    · exact h0 v
  | notRequest _ _ ih | outcome _ _ ih | done _ _ ih =>
    refine ih (fun w hw => hno w (by simp [hw])) fun v => ?_
    simp only [put]
    split
    · exact ⟨nofun, nofun⟩
    · exact h0 v
  | queue _ ih => exact ih (fun w hw => hno w (by simp [hw])) h0

/-- The log of a reconciler's end has no deliveries, and nobody else has the item. -/
private theorem finish_none (I : Iface σ α ε) (py38 : Bool) (isReq : α → Bool) {s : State σ α} (hr : R s (phases s))
    {w : Nat} {x : α} (hw : s.workers w = .reconciling x) (o : Outcome) (env : ε) :
    ∀ v, phases (step I py38 isReq s (.finish w o env)).1 v ≠ .running x ∧
      phases (step I py38 isReq s (.finish w o env)).1 v ≠ .taken x := by
  obtain ⟨hg, -⟩ := step_good I py38 isReq s hr (.finish w o env)
  have hl : ∃ l', (step I py38 isReq s (.finish w o env)).2 = .outcome w x o env :: l' ∧
      ∀ v, Log.took v x ∉ l' := by
    simp only [step, hw]
    refine ⟨_, rfl, ?_⟩
    have fin : ∀ (s : State σ α) v y k u, Log.took u x ∉ (finally_ I py38 s v y k).2 := by
      intro s v y k u; simp [finally_]
    have seen : ∀ (s : State σ α) k u, Log.took u x ∉ s.seen I k := by
      intro s k u; simp [State.seen]
    intro v
    cases o with
    | cancelled => exact fin _ _ _ _ _
    | bad => exact fin _ _ _ _ _
    | raised =>
      simp only [afterReconcile]
      split
      · exact fin _ _ _ _ _
      · exact seen _ _ _
    | result q d =>
      simp only [afterReconcile]
      split
      · exact seen _ _ _
      · split
        · split
          · exact fin _ _ _ _ _
          · exact seen _ _ _
        · exact fin _ _ _ _ _
  obtain ⟨l', hl, hno⟩ := hl
  rw [hl] at hg
  generalize phases (step I py38 isReq s (.finish w o env)).1 = h' at hg
  cases hg with
  | outcome h1 hg =>
    refine good_no_running hg x hno fun v => ?_
    simp only [put]
    split
    · exact ⟨nofun, nofun⟩
    · rename_i hv
      have := hr.uniq v w x
      have hwx : (phases s w).item = some x := by simp [phases, hw, phase, Phase.item]
      exact ⟨fun hvx => hv (this (by rw [hvx]; rfl) hwx), fun hvx => hv (this (by rw [hvx]; rfl) hwx)⟩

/-- **C111**: a request that is to be tried again, after a failure or by its result, at the time `r`: if it has not been
given out when time passes beyond `r`, then no worker waits for work. -/
theorem C111_retry (I : Iface σ α ε) (py38 : Bool) (isReq : α → Bool) (l : σ) (t : ℚ) (n : Nat)
    (a b : List (Ev α ε)) (w : Nat) (o : Outcome) (env : ε) (d : ℚ) (hd : 0 < d)
    (hn : ∀ e' ∈ a ++ .finish w o env :: b, notShutDown e' = true)
    (hi : IdleLoop I py38 isReq (init l t n) (a ++ .finish w o env :: b ++ [.queue (.tick d)])) (x : α) (r : ℚ)
    (h : (x, r) ∈ othersAt (exec I py38 isReq (init l t n) a) (.finish w o env : Ev α ε) ∨
      (x, r) ∈ retriesAt I (exec I py38 isReq (init l t n) a) (.finish w o env))
    (hno : ∀ w', .took w' x ∉ logOf I py38 isReq (exec I py38 isReq (init l t n) (a ++ [.finish w o env])) b)
    (hlate : r < (exec I py38 isReq (init l t n) (a ++ .finish w o env :: b)).rq.q.clock + d) :
    ∀ v, (exec I py38 isReq (init l t n) (a ++ .finish w o env :: b)).workers v ≠ .idle := by
  rcases C111_on_time I py38 isReq l t n a b _ d hd hn hi x r h hno hlate with ⟨v, hv⟩ | h
  · exfalso
    have hra := (exec_good I py38 isReq a (init l t n) (R_init l t n)).2
    have hw : (exec I py38 isReq (init l t n) a).workers w = .reconciling x := by
      cases hp : (exec I py38 isReq (init l t n) a).workers w with
      | reconciling y =>
        rcases h with h | h
        · cases o with
          | result q d =>
            simp only [othersAt, hp] at h
            split at h
            · simp only [List.mem_singleton, Prod.mk.injEq] at h
              rw [h.1]
            · cases h
          | _ => cases h
        · simp only [retriesAt, hp] at h
          split at h
          · split at h
            · simp only [List.mem_singleton, Prod.mk.injEq] at h
              rw [h.1]
            · cases h
          · cases h
      | _ =>
        rcases h with h | h
        · cases o with
          | result q d => simp only [othersAt, hp] at h; cases h
          | _ => cases h
        · simp only [retriesAt, hp] at h; cases h
    have h0 := finish_none I py38 isReq hra hw o env
    have hr1 := (exec_good I py38 isReq (a ++ [.finish w o env]) (init l t n) (R_init l t n)).2
    have hg := (exec_good I py38 isReq b _ hr1).1
    rw [← exec_app, List.append_assoc, List.singleton_append] at hg
    refine (good_no_running hg x hno (fun u => ?_) v).1 ?_
    · rw [exec_app]
      exact h0 u
    · simp [phases, hv, phase]
  · exact h

/-- **C111** with the exponential limiter: a request whose reconciliation fails for the `k + 1`-st time in a row is due
`min(base * 2 ^ k, max)` later. -/
theorem C111_backoff (c : ExpCfg) (py38 : Bool) (isReq : α → Bool) (t : ℚ) (n : Nat)
    (a b : List (Ev α Unit)) (w : Nat) (o : Outcome) (d : ℚ) (hd : 0 < d)
    (hn : ∀ e' ∈ a ++ .finish w o () :: b, notShutDown e' = true)
    (hi : IdleLoop (RateLimitingQueue.expIface c) py38 isReq (init [] t n)
      (a ++ .finish w o () :: b ++ [.queue (.tick d)])) (x : α)
    (hw : (exec (RateLimitingQueue.expIface c) py38 isReq (init [] t n) a).workers w = .reconciling x)
    (ho : retry o = true)
    (hk : c.floatBase = false ∨
      retries x (logOf (RateLimitingQueue.expIface c) py38 isReq (init [] t n) a) 0 < 1024)
    (hno : ∀ w', .took w' x ∉ logOf (RateLimitingQueue.expIface c) py38 isReq
      (exec (RateLimitingQueue.expIface c) py38 isReq (init [] t n) (a ++ [.finish w o ()])) b)
    (hlate : (exec (RateLimitingQueue.expIface c) py38 isReq (init [] t n) a).rq.q.clock +
        min (c.base * 2 ^ retries x (logOf (RateLimitingQueue.expIface c) py38 isReq (init [] t n) a) 0) c.max <
      (exec (RateLimitingQueue.expIface c) py38 isReq (init [] t n) (a ++ .finish w o () :: b)).rq.q.clock + d) :
    ∀ v, (exec (RateLimitingQueue.expIface c) py38 isReq (init [] t n) (a ++ .finish w o () :: b)).workers v ≠ .idle := by
  refine C111_retry _ py38 isReq [] t n a b w o () d hd hn hi x _ (Or.inr ?_) hno hlate
  have hf := C56_num_requeues c py38 isReq t n a x
  simp only [expNumRequeues] at hf
  generalize retries x (logOf (RateLimitingQueue.expIface c) py38 isReq (init [] t n) a) 0 = k at hf hk
  have hcond : ¬ (c.floatBase && decide (1024 ≤ k)) = true := by
    rcases hk with h | h
    · simp [h]
    · simp; omega
  have hwhen : ((RateLimitingQueue.expIface c).when
      (exec (RateLimitingQueue.expIface c) py38 isReq (init [] t n) a).rq.lim x ()).2 =
      .delay (min (c.base * 2 ^ k) c.max) := by
    show (expWhen c _ x).2 = _
    simp only [expWhen, hf, mulPow, if_neg hcond]
  simp only [retriesAt, hw, ho, if_true, hwhen, List.mem_singleton]

/-! ## The default limiter -/

/-- A bucket that was not emptied by `m` calls holds at least what `m` calls leave of it, whatever the clock reads. -/
private theorem bucket_left (b : Bucket) (hb : b.tokens ≤ 100) (now : ℚ) :
    b.tokens - 1 ≤ (bucketWhen ⟨10, 100⟩ b now).1.tokens ∧ (bucketWhen ⟨10, 100⟩ b now).1.tokens ≤ 100 := by
  have h1 : (0 : ℚ) ≤ min (now - min b.last now) (1000000000 * (100 - b.tokens) / 10) :=
    le_min (by linarith [min_le_right b.last now]) (by linarith)
  simp only [bucketWhen, advance]
  constructor
  · have : b.tokens ≤ min (b.tokens + min (now - min b.last now) (1000000000 * (100 - b.tokens) / 10) * 10 / 1000000000)
      100 := le_min (by linarith) hb
    linarith
  · have := min_le_right (b.tokens + min (now - min b.last now) (1000000000 * (100 - b.tokens) / 10) * 10 / 1000000000)
      (100 : ℚ)
    linarith

private theorem bucket_left_all (ns : List ℚ) : ∀ b : Bucket, b.tokens ≤ 100 →
    b.tokens - ns.length ≤ (bucketExec ⟨10, 100⟩ b ns).tokens ∧ (bucketExec ⟨10, 100⟩ b ns).tokens ≤ 100 := by
  induction ns with
  | nil => intro b hb; simpa [bucketExec] using hb
  | cons n ns ih =>
    intro b hb
    have h1 := bucket_left b hb n
    have h2 := ih _ h1.2
    refine ⟨?_, h2.2⟩
    simp only [bucketExec, List.length_cons, Nat.cast_add, Nat.cast_one]
    linarith [h1.1, h2.1]

/-- The first call finds the bucket full. -/
private theorem bucket_first {now : ℚ} (h : 10 ^ 10 ≤ now) : bucketWhen ⟨10, 100⟩ bucketInit now = (⟨99, now⟩, 0) := by
  have h0 : min (0 : ℚ) now = 0 := min_eq_left (by linarith)
  have h1 : min now (10000000000 : ℚ) = 10000000000 := min_eq_right (by linarith)
  norm_num [bucketWhen, advance, bucketInit, h0, h1]

private theorem bucket_wait (ns : List ℚ) (now : ℚ) (h : ∀ u ∈ ns, 10 ^ 10 ≤ u) (hn : 10 ^ 10 ≤ now) :
    (bucketWhen ⟨10, 100⟩ (bucketExec ⟨10, 100⟩ bucketInit ns) now).2 ≤ max 0 (((ns.length : ℚ) - 99) / 10) := by
  cases ns with
  | nil => rw [bucketExec, bucket_first hn]; exact le_max_left _ _
  | cons n ns =>
    have h1 : (bucketWhen ⟨10, 100⟩ bucketInit n).1 = ⟨99, n⟩ := by
      rw [bucket_first (h n List.mem_cons_self)]
    have h2 := bucket_left_all ns ⟨99, n⟩ (by norm_num)
    rw [bucketExec, h1]
    generalize bucketExec ⟨10, 100⟩ ⟨99, n⟩ ns = b at h2
    have h3 := (bucket_left b h2.2 now).1
    have h4 : (bucketWhen ⟨10, 100⟩ b now).2 = if (bucketWhen ⟨10, 100⟩ b now).1.tokens < 0 then
        -(bucketWhen ⟨10, 100⟩ b now).1.tokens / 10 else 0 := rfl
    rw [h4]
    split
    · refine le_trans ?_ (le_max_right _ _)
      simp only [List.length_cons, Nat.cast_add, Nat.cast_one]
      have := h2.1
      simp only at this
      linarith
    · exact le_max_left _ _

private theorem charged_mem {u : ℚ} (os : List (LimOp α ℚ)) : ∀ pre, u ∈ charged pre os → ∃ x, LimOp.when x u ∈ os := by
  induction os with
  | nil => intro pre h; simp [charged] at h
  | cons o os ih =>
    intro pre h
    cases o with
    | «when» y now =>
      simp only [charged] at h
      split at h
      · rcases List.mem_cons.1 h with rfl | h
        · exact ⟨y, List.mem_cons_self⟩
        · obtain ⟨x, hx⟩ := ih _ h
          exact ⟨x, List.mem_cons_of_mem _ hx⟩
      · obtain ⟨x, hx⟩ := ih _ h
        exact ⟨x, List.mem_cons_of_mem _ hx⟩
    | forget y =>
      obtain ⟨x, hx⟩ := ih _ h
      exact ⟨x, List.mem_cons_of_mem _ hx⟩

private theorem charged_asked (l : List (Log α ℚ)) :
    ∀ pre, (charged pre (l.flatMap limOp)).length ≤ Spec.asked l := by
  induction l with
  | nil => intro pre; simp [charged, Spec.asked]
  | cons g l ih =>
    intro pre
    cases g with
    | outcome w y o env =>
      simp only [List.flatMap_cons, limOp, Spec.asked]
      by_cases h1 : retry o = true
      · simp only [h1, if_true, List.singleton_append, charged]
        split
        · have := ih (pre ++ [.when y env])
          simp only [List.length_cons]
          omega
        · have := ih (pre ++ [.when y env])
          omega
      · by_cases h2 : reset o = true
        · simp only [h1, h2, if_false, if_true, List.singleton_append, charged, Bool.false_eq_true]
          have := ih (pre ++ [.forget y])
          omega
        · simp only [h1, h2, if_false, List.nil_append, Bool.false_eq_true]
          have := ih pre
          omega
    | notRequest w y => exact ih _
    | took w y => exact ih _
    | reconcile w y => exact ih _
    | done w y b => exact ih _
    | queue d => exact ih _

private theorem partExec_max (I : Iface σ α ε) (os : List (LimOp α ε)) :
    ∀ ss : List σ, partExec (maxIface I) ss os = partsExec I ss os := by
  induction os with
  | nil => intro ss; rfl
  | cons o os ih => intro ss; cases o <;> exact ih _

/-- **C111** with the limiter a controller gets by default: a request whose reconciliation fails for the `k + 1`-st time
in a row (`k < 1024`) is due `min(5 ms * 2 ^ k, 1000 s)` later, or, when `m ≥ 100` retries were asked for before,
of whatever requests, `(m - 99) / 10` seconds later if that is more.  (The wall clock, in nanoseconds since 1970,
reads ten seconds at least.) -/
theorem C111_default (py38 : Bool) (isReq : α → Bool) (t : ℚ) (n : Nat)
    (a b : List (Ev α ℚ)) (w : Nat) (o : Outcome) (now : ℚ) (d : ℚ) (hd : 0 < d)
    (hn : ∀ e' ∈ a ++ .finish w o now :: b, notShutDown e' = true)
    (hi : IdleLoop defaultIface py38 isReq (fresh t n) (a ++ .finish w o now :: b ++ [.queue (.tick d)])) (x : α)
    (hw : (exec defaultIface py38 isReq (fresh t n) a).workers w = .reconciling x)
    (ho : retry o = true) (hnow : 10 ^ 10 ≤ now)
    (hread : ∀ w' y o' u, .outcome w' y o' u ∈ logOf defaultIface py38 isReq (fresh t n) a → 10 ^ 10 ≤ u)
    (hk : retries x (logOf defaultIface py38 isReq (fresh t n) a) 0 < 1024)
    (hno : ∀ w', .took w' x ∉ logOf defaultIface py38 isReq
      (exec defaultIface py38 isReq (fresh t n) (a ++ [.finish w o now])) b)
    (hlate : (exec defaultIface py38 isReq (fresh t n) a).rq.q.clock +
        max (min (5 / 1000 * 2 ^ retries x (logOf defaultIface py38 isReq (fresh t n) a) 0) 1000)
          (((Spec.asked (logOf defaultIface py38 isReq (fresh t n) a) : ℚ) - 99) / 10) <
      (exec defaultIface py38 isReq (fresh t n) (a ++ .finish w o now :: b)).rq.q.clock + d) :
    ∀ v, (exec defaultIface py38 isReq (fresh t n) (a ++ .finish w o now :: b)).workers v ≠ .idle := by
  have hl := C56_limiter defaultIface py38 isReq defaultParts t n a
  rw [defaultIface, partExec_max] at hl
  have hwhen := C11_default_when ((logOf defaultIface py38 isReq (fresh t n) a).flatMap limOp) x now
  have hr := recent_retries x (logOf defaultIface py38 isReq (fresh t n) a) 0
  rw [hr, if_pos hk] at hwhen
  have hbw := bucket_wait (charged [] ((logOf defaultIface py38 isReq (fresh t n) a).flatMap limOp)) now
    (fun u hu => by
      obtain ⟨y, hy⟩ := charged_mem _ _ hu
      obtain ⟨g, hg, hgo⟩ := List.mem_flatMap.1 hy
      cases g with
      | outcome w' z o' u' =>
        have := hread w' z o' u' hg
        simp only [limOp] at hgo
        split at hgo
        · simp only [List.mem_singleton, LimOp.when.injEq] at hgo
          rw [hgo.2]; exact this
        · split at hgo <;> simp at hgo
      | _ => simp [limOp] at hgo) hnow
  have hcl : ((charged [] ((logOf defaultIface py38 isReq (fresh t n) a).flatMap limOp)).length : ℚ) ≤
      Spec.asked (logOf defaultIface py38 isReq (fresh t n) a) := by
    exact_mod_cast charged_asked _ _
  refine C111_retry defaultIface py38 isReq defaultParts t n a b w o now d hd hn hi x
    ((exec defaultIface py38 isReq (fresh t n) a).rq.q.clock + max (min (5 / 1000 * 2 ^ retries x (logOf defaultIface py38 isReq (fresh t n) a) 0) 1000)
      (bucketWhen ⟨10, 100⟩ (bucketExec ⟨10, 100⟩ bucketInit
        (charged [] ((logOf defaultIface py38 isReq (fresh t n) a).flatMap limOp))) now).2) (Or.inr ?_) hno
    (lt_of_le_of_lt (add_le_add_right (max_le (le_max_left _ _) ?_) _) hlate)
  · show _ ∈ retriesAt _ (exec defaultIface py38 isReq (fresh t n) a) _
    have : (defaultIface.when (exec defaultIface py38 isReq (fresh t n) a).rq.lim x now).2 = _ :=
      (congrArg (fun z => (maxWhen partIface z x now).2) hl).trans hwhen
    simp only [retriesAt, hw, ho, if_true, this, List.mem_singleton]
  · refine hbw.trans (max_le ?_ (le_trans ?_ (le_max_right _ _)))
    · exact le_trans (le_min (by positivity) (by norm_num)) (le_max_left _ _)
    · linarith

private theorem idle_snoc (I : Iface σ α ε) {py38 : Bool} {isReq : α → Bool} {s : State σ α} {es : List (Ev α ε)}
    {e : Ev α ε} (h : IdleLoop I py38 isReq s es)
    (he : ∀ d, e = .queue (.tick d) → QuietFor I py38 isReq (exec I py38 isReq s es) d) :
    IdleLoop I py38 isReq s (es ++ [e]) := by
  intro a d b hab hd
  rcases List.eq_nil_or_concat b with rfl | ⟨b, x, rfl⟩
  · obtain ⟨rfl, h2⟩ := List.append_inj' hab rfl
    exact he d (by simpa using h2)
  · rw [List.concat_eq_append, show a ++ Ev.queue (.tick d) :: (b ++ [x]) = (a ++ .queue (.tick d) :: b) ++ [x] by simp]
      at hab
    obtain ⟨rfl, -⟩ := List.append_inj' hab rfl
    exact h a d b rfl hd

private theorem idle_append (I : Iface σ α ε) {py38 : Bool} {isReq : α → Bool} {s : State σ α} (b : List (Ev α ε)) :
    ∀ {a : List (Ev α ε)}, IdleLoop I py38 isReq s a → (∀ d, Ev.queue (.tick d) ∉ b) → IdleLoop I py38 isReq s (a ++ b) := by
  induction b with
  | nil => intro a h _; simpa using h
  | cons e b ih =>
    intro a h hb
    have : IdleLoop I py38 isReq s (a ++ [e]) := idle_snoc I h fun d hd => absurd (by simp [hd]) (hb d)
    have := ih this fun d hd => hb d (by simp [hd])
    simpa using this

/-- The only worker fails with item 7 and pauses; one second later the item is in the queue. -/
private def before : List (Ev Nat Unit) := [.queue .loop, .queue .loop, .queue (.base (.add 7)), .take 0]

private def after : List (Ev Nat Unit) :=
  [.queue (.putDone 0), .requeued 0, .queue (.wake .item), .queue .loop, .queue .loop, .queue .loop, .queue .loop]

private def later : List (Ev Nat Unit) :=
  [.queue (.wake .timer), .queue .loop, .queue .loop, .queue .loop, .queue .loop]

private abbrev lim1 : Iface (Failures Nat) Nat Unit := RateLimitingQueue.expIface ⟨1, 10, false⟩

private def pause (core : WorkQueue.State Nat) (clock : ℚ) (heap : DelayHeap.Heap ℚ Nat) (t : Option ℚ) :
    State (Failures Nat) Nat :=
  ⟨⟨⟨core, clock, false, [], [], heap, .sleeping t⟩, [(7, 1)]⟩, fun w => if w = 0 then .sleeping else .ended⟩

private theorem pause_quiet (core : WorkQueue.State Nat) (clock : ℚ) (heap : DelayHeap.Heap ℚ Nat) (t : Option ℚ) (d : ℚ)
    (h : ∀ f, t = some f → clock + d ≤ f) : QuietFor lim1 true (fun _ => true) (pause core clock heap t) d := by
  refine ⟨DelayQueue.quiet_of_sleeping (t := t) rfl rfl rfl rfl h, fun w => ?_⟩
  by_cases hw : w = 0 <;> simp [step, pause, hw]

private theorem first : exec lim1 true (fun _ => true) (init [] 0 1) (before ++ .finish 0 .raised () :: after) =
    pause ⟨[], [], [], false⟩ 0 ⟨[⟨1, 0, some 7⟩], [(7, (1, 0))], 1, 1⟩ (some 1) := by
  norm_num [before, after, exec, step, foreign, State.call, State.setPc, State.seen, afterReconcile, finally_,
    RateLimitingQueue.step, RateLimitingQueue.addRateLimited, RateLimitingQueue.expIface, expWhen, mulPow, failures,
    init, DelayQueue.init, DelayQueue.step, DelayQueue.loopStep, DelayQueue.wakeStep, DelayQueue.addAfter, WorkQueue.init,
    WorkQueue.step, WorkQueue.add, WorkQueue.get, WorkQueue.done, PySet.add, PySet.remove, DelayHeap.init,
    DelayQueue.file, DelayHeap.insert, DelayHeap.insertEntry, PyDict.has, PyDict.get?, PyDict.set, PyDict.del,
    Heapq.heappush_nil, Heapq.heappop_one, DelayHeap.peek, DelayHeap.peekLoop, pause]
  funext v
  by_cases hv : v = 0 <;> simp [hv]

private theorem second : exec lim1 true (fun _ => true)
      (pause ⟨[], [], [], false⟩ 1 ⟨[⟨1, 0, some 7⟩], [(7, (1, 0))], 1, 1⟩ (some 1)) later =
    pause ⟨[7], [], [7], false⟩ 1 ⟨[], [], 1, 0⟩ none := by
  norm_num [later, exec, step, foreign, State.call, State.setPc, State.seen,
    RateLimitingQueue.step, DelayQueue.step, DelayQueue.loopStep, DelayQueue.wakeStep, WorkQueue.add, PySet.add,
    PyDict.del, Heapq.heappop_one, DelayHeap.peek, DelayHeap.peekLoop, DelayHeap.pop, DelayHeap.popLoop, pause]

private theorem whole : exec lim1 true (fun _ => true) (init [] 0 1)
      (before ++ .finish 0 .raised () :: (after ++ [.queue (.tick 1)] ++ later)) =
    pause ⟨[7], [], [7], false⟩ 1 ⟨[], [], 1, 0⟩ none := by
  rw [show before ++ Ev.finish 0 .raised () :: (after ++ [.queue (.tick 1)] ++ later) =
    (before ++ .finish 0 .raised () :: after) ++ [.queue (.tick 1)] ++ later by simp, exec_app, exec_app, first]
  rw [← second]
  congr 1
  norm_num [exec, step, foreign, State.call, RateLimitingQueue.step, DelayQueue.step, pause]

/-- The hypotheses of the theorems: time passes beyond the due time, and the item has not been given out. -/
example : (∀ e' ∈ before ++ .finish 0 .raised () :: (after ++ [.queue (.tick 1)] ++ later), notShutDown e' = true) ∧
    IdleLoop lim1 true (fun _ => true) (init [] 0 1)
      (before ++ .finish 0 .raised () :: (after ++ [.queue (.tick 1)] ++ later) ++ [.queue (.tick 2)]) ∧
    (7, 1) ∈ retriesAt lim1 (exec lim1 true (fun _ => true) (init [] 0 1) before) (.finish 0 .raised ()) ∧
    (∀ w', .took w' 7 ∉ logOf lim1 true (fun _ => true)
      (exec lim1 true (fun _ => true) (init [] 0 1) (before ++ [.finish 0 .raised ()]))
      (after ++ [.queue (.tick 1)] ++ later)) ∧
    (1 : ℚ) < (exec lim1 true (fun _ => true) (init [] 0 1)
      (before ++ .finish 0 .raised () :: (after ++ [.queue (.tick 1)] ++ later))).rq.q.clock + 2 := by
  refine ⟨by decide, ?_, ?_, ?_, ?_⟩
  · refine idle_snoc _ ?_ ?_
    · rw [show before ++ Ev.finish 0 .raised () :: (after ++ [.queue (.tick 1)] ++ later) =
        ([] ++ (before ++ .finish 0 .raised () :: after)) ++ [.queue (.tick 1)] ++ later by simp]
      refine idle_append _ _ (idle_snoc _ (idle_append _ _ ?_ (by simp [before, after])) ?_) (by simp [later])
      · intro a d b h
        simp at h
      · rintro d ⟨⟩
        rw [List.nil_append, first]
        exact pause_quiet _ _ _ _ _ (by rintro f ⟨⟩; norm_num)
    · rintro d ⟨⟩
      rw [whole]
      exact pause_quiet _ _ _ _ _ nofun
  · norm_num [retriesAt, before, exec, step, foreign, State.call, State.setPc, retry,
      RateLimitingQueue.step, RateLimitingQueue.expIface, expWhen, mulPow, failures,
      init, DelayQueue.init, DelayQueue.step, DelayQueue.loopStep, WorkQueue.init,
      WorkQueue.step, WorkQueue.add, WorkQueue.get, PySet.add, PySet.remove, DelayHeap.init, PyDict.get?]
  · intro w'
    norm_num [before, after, later, logOf, exec, step, foreign, State.call, State.setPc, State.seen, afterReconcile, finally_,
      RateLimitingQueue.step, RateLimitingQueue.addRateLimited, RateLimitingQueue.expIface, expWhen, mulPow, failures,
      init, DelayQueue.init, DelayQueue.step, DelayQueue.loopStep, DelayQueue.wakeStep, DelayQueue.addAfter,
      WorkQueue.init, WorkQueue.step, WorkQueue.add, WorkQueue.get, WorkQueue.done, PySet.add, PySet.remove,
      DelayHeap.init, DelayQueue.file, DelayHeap.insert, DelayHeap.insertEntry, PyDict.has, PyDict.get?, PyDict.set,
      PyDict.del, Heapq.heappush_nil, Heapq.heappop_one, DelayHeap.peek, DelayHeap.peekLoop, DelayHeap.pop,
      DelayHeap.popLoop]
    exact ⟨nofun, nofun⟩
  · rw [whole]
    norm_num [pause]

/-! The same with the default limiter: due five milliseconds later. -/

private abbrev limD : Iface (List (Part Nat)) Nat ℚ := defaultIface

private def beforeD : List (Ev Nat ℚ) := [.queue .loop, .queue .loop, .queue (.base (.add 7)), .take 0]

private def afterD : List (Ev Nat ℚ) :=
  [.queue (.putDone 0), .requeued 0, .queue (.wake .item), .queue .loop, .queue .loop, .queue .loop, .queue .loop]

private def laterD : List (Ev Nat ℚ) :=
  [.queue (.wake .timer), .queue .loop, .queue .loop, .queue .loop, .queue .loop]

private def pauseD (core : WorkQueue.State Nat) (clock : ℚ) (heap : DelayHeap.Heap ℚ Nat) (t : Option ℚ) :
    State (List (Part Nat)) Nat :=
  ⟨⟨⟨core, clock, false, [], [], heap, .sleeping t⟩,
    [.exp ⟨5 / 1000, 1000, true⟩ [(7, 1)], .bucket ⟨10, 100⟩ ⟨99, 10 ^ 18⟩]⟩, fun w => if w = 0 then .sleeping else .ended⟩

private theorem pauseD_quiet (core : WorkQueue.State Nat) (clock : ℚ) (heap : DelayHeap.Heap ℚ Nat) (t : Option ℚ) (d : ℚ)
    (h : ∀ f, t = some f → clock + d ≤ f) : QuietFor limD true (fun _ => true) (pauseD core clock heap t) d := by
  refine ⟨DelayQueue.quiet_of_sleeping (t := t) rfl rfl rfl rfl h, fun w => ?_⟩
  by_cases hw : w = 0 <;> simp [step, pauseD, hw]

private theorem firstD : exec limD true (fun _ => true) (fresh 0 1) (beforeD ++ .finish 0 .raised (10 ^ 18) :: afterD) =
    pauseD ⟨[], [], [], false⟩ 0 ⟨[⟨1 / 200, 0, some 7⟩], [(7, (1 / 200, 0))], 1, 1⟩ (some (1 / 200)) := by
  norm_num [beforeD, afterD, exec, step, foreign, State.call, State.setPc, State.seen, afterReconcile, finally_, fresh,
    RateLimitingQueue.step, RateLimitingQueue.addRateLimited, defaultIface, maxIface, maxWhen, callParts, partIface,
    defaultParts, bucketWhen, advance, bucketInit, Except.map, pyMax, expWhen, mulPow, failures,
    init, DelayQueue.init, DelayQueue.step, DelayQueue.loopStep, DelayQueue.wakeStep, DelayQueue.addAfter, WorkQueue.init,
    WorkQueue.step, WorkQueue.add, WorkQueue.get, WorkQueue.done, PySet.add, PySet.remove, DelayHeap.init,
    DelayQueue.file, DelayHeap.insert, DelayHeap.insertEntry, PyDict.has, PyDict.get?, PyDict.set, PyDict.del,
    Heapq.heappush_nil, Heapq.heappop_one, DelayHeap.peek, DelayHeap.peekLoop, pauseD]
  funext v
  by_cases hv : v = 0 <;> simp [hv]

private theorem secondD : exec limD true (fun _ => true)
      (pauseD ⟨[], [], [], false⟩ (1 / 200) ⟨[⟨1 / 200, 0, some 7⟩], [(7, (1 / 200, 0))], 1, 1⟩ (some (1 / 200))) laterD =
    pauseD ⟨[7], [], [7], false⟩ (1 / 200) ⟨[], [], 1, 0⟩ none := by
  norm_num [laterD, exec, step, foreign, State.call, State.setPc, State.seen,
    RateLimitingQueue.step, DelayQueue.step, DelayQueue.loopStep, DelayQueue.wakeStep, WorkQueue.add, PySet.add,
    PyDict.del, Heapq.heappop_one, DelayHeap.peek, DelayHeap.peekLoop, DelayHeap.pop, DelayHeap.popLoop, pauseD]

private theorem wholeD : exec limD true (fun _ => true) (fresh 0 1)
      (beforeD ++ .finish 0 .raised (10 ^ 18) :: (afterD ++ [.queue (.tick (1 / 200))] ++ laterD)) =
    pauseD ⟨[7], [], [7], false⟩ (1 / 200) ⟨[], [], 1, 0⟩ none := by
  rw [show beforeD ++ Ev.finish 0 .raised (10 ^ 18) :: (afterD ++ [.queue (.tick (1 / 200))] ++ laterD) =
    (beforeD ++ .finish 0 .raised (10 ^ 18) :: afterD) ++ [.queue (.tick (1 / 200))] ++ laterD by simp,
    exec_app, exec_app, firstD]
  rw [← secondD]
  congr 1
  norm_num [exec, step, foreign, State.call, RateLimitingQueue.step, DelayQueue.step, pauseD]

/-- The hypotheses of `C111_default`: time passes beyond the due time, and the item has not been given out. -/
example : (∀ e' ∈ beforeD ++ .finish 0 .raised (10 ^ 18) :: (afterD ++ [.queue (.tick (1 / 200))] ++ laterD),
      notShutDown e' = true) ∧
    IdleLoop limD true (fun _ => true) (fresh 0 1)
      (beforeD ++ .finish 0 .raised (10 ^ 18) :: (afterD ++ [.queue (.tick (1 / 200))] ++ laterD) ++ [.queue (.tick 2)]) ∧
    (exec limD true (fun _ => true) (fresh 0 1) beforeD).workers 0 = .reconciling 7 ∧
    (∀ w' y o' u, .outcome w' y o' u ∉ logOf limD true (fun _ => true) (fresh 0 1) beforeD) ∧
    Spec.asked (logOf limD true (fun _ => true) (fresh 0 1) beforeD) = 0 ∧
    (∀ w', .took w' 7 ∉ logOf limD true (fun _ => true)
      (exec limD true (fun _ => true) (fresh 0 1) (beforeD ++ [.finish 0 .raised (10 ^ 18)]))
      (afterD ++ [.queue (.tick (1 / 200))] ++ laterD)) ∧
    (exec limD true (fun _ => true) (fresh 0 1) beforeD).rq.q.clock = 0 ∧
    (0 : ℚ) + max (min (5 / 1000 * 2 ^ 0) 1000) (((0 : ℚ) - 99) / 10) < (exec limD true (fun _ => true) (fresh 0 1)
      (beforeD ++ .finish 0 .raised (10 ^ 18) :: (afterD ++ [.queue (.tick (1 / 200))] ++ laterD))).rq.q.clock + 2 := by
  refine ⟨by simp [beforeD, afterD, laterD, notShutDown, DelayQueue.isShutDown], ?_, ?_, ?_, ?_, ?_, ?_, ?_⟩
  · refine idle_snoc _ ?_ ?_
    · rw [show beforeD ++ Ev.finish 0 .raised (10 ^ 18) :: (afterD ++ [.queue (.tick (1 / 200))] ++ laterD) =
        ([] ++ (beforeD ++ .finish 0 .raised (10 ^ 18) :: afterD)) ++ [.queue (.tick (1 / 200))] ++ laterD by simp]
      refine idle_append _ _ (idle_snoc _ (idle_append _ _ ?_ (by simp [beforeD, afterD])) ?_) (by simp [laterD])
      · intro a d b h
        simp at h
      · rintro d ⟨⟩
        rw [List.nil_append, firstD]
        exact pauseD_quiet _ _ _ _ _ (by rintro f ⟨⟩; norm_num)
    · rintro d ⟨⟩
      rw [wholeD]
      exact pauseD_quiet _ _ _ _ _ nofun
  · rfl
  · intro w' y o' u h
    simp [beforeD, logOf, exec, step, foreign, State.call, State.setPc, State.seen, fresh, init, DelayQueue.init,
      RateLimitingQueue.step, DelayQueue.step, DelayQueue.loopStep, WorkQueue.init, WorkQueue.step, WorkQueue.add,
      WorkQueue.get, PySet.add, PySet.remove, DelayHeap.init, DelayHeap.peek, DelayHeap.peekLoop] at h
  · rfl
  · intro w'
    norm_num [beforeD, afterD, laterD, logOf, exec, step, foreign, State.call, State.setPc, State.seen, afterReconcile,
      finally_, fresh, RateLimitingQueue.step, RateLimitingQueue.addRateLimited, defaultIface, maxIface, maxWhen,
      callParts, partIface, defaultParts, bucketWhen, advance, bucketInit, Except.map, pyMax, expWhen, mulPow, failures,
      init, DelayQueue.init, DelayQueue.step, DelayQueue.loopStep, DelayQueue.wakeStep, DelayQueue.addAfter,
      WorkQueue.init, WorkQueue.step, WorkQueue.add, WorkQueue.get, WorkQueue.done, PySet.add, PySet.remove,
      DelayHeap.init, DelayQueue.file, DelayHeap.insert, DelayHeap.insertEntry, PyDict.has, PyDict.get?, PyDict.set,
      PyDict.del, Heapq.heappush_nil, Heapq.heappop_one, DelayHeap.peek, DelayHeap.peekLoop, DelayHeap.pop,
      DelayHeap.popLoop]
    exact ⟨nofun, nofun⟩
  · rfl
  · rw [wholeD]
    norm_num [pauseD]

end Aiok8s.Controller
