import Verif.Proof.Controller
import Verif.Props.RateLimitingQueue
import Mathlib.Tactic.NormNum
/-!
# C55, C56: the workers of a controller (`aiok8s/controller/controller.py`)

`es` is any sequence of moves: of any number of workers, of the reconciler, of the queue's delay loop
and of everybody else who uses the queue; cancellations included; on any Python version (`py38`).
-/
set_option linter.unusedSimpArgs false
namespace Aiok8s.Controller
open Aiok8s Aiok8s.RateLimiters Aiok8s.Controller.Spec
variable {σ α ε : Type} [DecidableEq α]

/-! ## C55 -/

private theorem phases_init (l : σ) (t : ℚ) (n : Nat) :
    phases (init l t n : State σ α) = fun _ => .free := by
  funext w
  simp only [phases, init]
  split <;> rfl

/-- **C55.** Whatever happens, the workers' events are in order (`Spec.Good`): every item taken is
reconciled at most once, then finished by one successful `done`, and no item is taken that another worker
has; and a worker that is neither in the reconciler nor in a requeuing call has finished everything it
took. -/
theorem C55_order (I : Iface σ α ε) (py38 : Bool) (isReq : α → Bool) (l : σ) (t : ℚ) (n : Nat)
    (es : List (Ev α ε)) :
    ∃ h, Good (fun _ => .free) (logOf I py38 isReq (init l t n) es) h ∧
      ∀ w, match (exec I py38 isReq (init l t n) es).workers w with
        | .reconciling x => h w = .running x
        | .requeuing x _ => h w = .over x
        | _ => h w = .free := by
  have := (exec_good I py38 isReq es (init l t n) (R_init l t n)).1
  rw [phases_init] at this
  refine ⟨_, this, fun w => ?_⟩
  simp only [phases]
  cases (exec I py38 isReq (init l t n) es).workers w <;> rfl

private def has (p : Phase α) (x : α) : Nat := if p.item = some x then 1 else 0

private theorem put_ne (h : Nat → Phase α) {v w : Nat} (p : Phase α) (hv : v ≠ w) :
    put h v p w = h w := by simp [put, Ne.symm hv]

private theorem good_count {h h' : Nat → Phase α} {l : List (Log α ε)} [DecidableEq ε] (hg : Good h l h')
    (w : Nat) (x : α) :
    l.count (.took w x) + has (h w) x = l.count (.done w x true) + has (h' w) x := by
  induction hg with
  | nil => simp
  | @took h v y l h' hf hn _ ih =>
    simp only [List.count_cons] at ih ⊢
    by_cases hv : v = w
    · subst hv
      rw [put_self] at ih
      rw [hf]
      by_cases hy : y = x <;> simp_all [has, Phase.item] <;> omega
    · rw [put_ne h _ hv] at ih
      simpa [hv] using ih
  | @reconcile h v y l h' hf _ ih =>
    simp only [List.count_cons] at ih ⊢
    by_cases hv : v = w
    · subst hv; rw [put_self] at ih; rw [hf]; simpa [has, Phase.item] using ih
    · rw [put_ne h _ hv] at ih; simpa using ih
  | @notRequest h v y l h' hf _ ih =>
    simp only [List.count_cons] at ih ⊢
    by_cases hv : v = w
    · subst hv; rw [put_self] at ih; rw [hf]; simpa [has, Phase.item] using ih
    · rw [put_ne h _ hv] at ih; simpa using ih
  | @outcome h v y o env l h' hf _ ih =>
    simp only [List.count_cons] at ih ⊢
    by_cases hv : v = w
    · subst hv; rw [put_self] at ih; rw [hf]; simpa [has, Phase.item] using ih
    · rw [put_ne h _ hv] at ih; simpa using ih
  | @done h v y l h' hf _ ih =>
    simp only [List.count_cons] at ih ⊢
    by_cases hv : v = w
    · subst hv
      rw [put_self] at ih
      rw [hf]
      by_cases hy : y = x <;> simp_all [has, Phase.item] <;> omega
    · rw [put_ne h _ hv] at ih
      simpa [hv] using ih
  | queue _ ih => simpa [List.count_cons] using ih

private theorem good_done_ok {h h' : Nat → Phase α} {l : List (Log α ε)} (hg : Good h l h')
    (w : Nat) (x : α) : .done w x false ∉ l := by
  induction hg <;> simp_all

/-- **C55.** `done` never fails, and is called exactly as often for an item by a worker as the worker
took it, except that the call for the item the worker is busy with is still to come. -/
theorem C55_done_once [DecidableEq ε] (I : Iface σ α ε) (py38 : Bool) (isReq : α → Bool) (l : σ) (t : ℚ)
    (n : Nat) (es : List (Ev α ε)) (w : Nat) (x : α) :
    let log := logOf I py38 isReq (init l t n) es
    let pc := (exec I py38 isReq (init l t n) es).workers w
    .done w x false ∉ log ∧
    log.count (.took w x) = log.count (.done w x true) +
      (if pc = .reconciling x ∨ pc = .requeuing x true ∨ pc = .requeuing x false then 1 else 0) := by
  have hg := (exec_good I py38 isReq es (init l t n) (R_init l t n)).1
  refine ⟨good_done_ok hg w x, ?_⟩
  have := good_count hg w x
  rw [phases_init] at this
  have h0 : has (Phase.free : Phase α) x = 0 := by simp [has, Phase.item]
  simp only [h0, Nat.add_zero] at this
  rw [this]
  congr 1
  simp only [phases]
  cases hp : (exec I py38 isReq (init l t n) es).workers w with
  | reconciling y => simp [phase, Phase.item, has]
  | requeuing y b => cases b <;> simp [phase, Phase.item, has]
  | _ => simp [phase, Phase.item, has]

/-- **C55.** No item is ever reconciled by two workers at once. -/
theorem C55_exclusive (I : Iface σ α ε) (py38 : Bool) (isReq : α → Bool) (l : σ) (t : ℚ) (n : Nat)
    (es : List (Ev α ε)) (v w : Nat) (x : α)
    (hv : (exec I py38 isReq (init l t n) es).workers v = .reconciling x)
    (hw : (exec I py38 isReq (init l t n) es).workers w = .reconciling x) : v = w := by
  have := (exec_good I py38 isReq es (init l t n) (R_init l t n)).2.uniq v w x
  exact this (by simp [phases, hv, phase, Phase.item]) (by simp [phases, hw, phase, Phase.item])

/-- **C55.** The reconciler's end is followed by `done` at once, or after one call on the queue; then
`done` comes whether that call returns or is cancelled. -/
theorem C55_done_follows (I : Iface σ α ε) (py38 : Bool) (isReq : α → Bool) (l : σ) (t : ℚ) (n : Nat)
    (es : List (Ev α ε)) (w : Nat) (x : α) (o : Outcome) (env : ε)
    (hw : (exec I py38 isReq (init l t n) es).workers w = .reconciling x) :
    let r := step I py38 isReq (exec I py38 isReq (init l t n) es) (.finish w o env)
    .done w x true ∈ r.2 ∨ ∃ b, r.1.workers w = .requeuing x b ∧
      ∀ more, (∀ e ∈ more, ∀ v, (e = .requeued v ∨ e = .cancelRequeue v) → v ≠ w) →
        .done w x true ∈ (step I py38 isReq (exec I py38 isReq r.1 more) (.requeued w)).2 ∧
        .done w x true ∈ (step I py38 isReq (exec I py38 isReq r.1 more) (.cancelRequeue w)).2 := by
  have hr := (exec_good I py38 isReq es (init l t n) (R_init l t n)).2
  generalize exec I py38 isReq (init l t n) es = s at *
  intro r
  have hr1 := (step_good I py38 isReq s hr (.finish w o env)).2
  change R r.1 (phases r.1) at hr1
  have hcase : .done w x true ∈ r.2 ∨ ∃ b, r.1.workers w = .requeuing x b := by
    have hx : phases s w = .running x := by simp [phases, hw, phase]
    have hfin : ∀ (s' : State σ α) (e : End), R s' (phases s) →
        .done w x true ∈ (finally_ I py38 s' w x e).2 := by
      intro s' e hs'
      rw [(finally_spec I py38 hs' w x (by rw [hx]; rfl) e).1]
      simp
    have hreq : ∀ (s' : State σ α) (b : Bool), (s'.setPc w (.requeuing x b)).workers w = .requeuing x b := by
      intro s' b; simp [State.setPc]
    have hrdef : r = ((afterReconcile I py38 s w x o env).1,
        .outcome w x o env :: (afterReconcile I py38 s w x o env).2) := by
      show step I py38 isReq s (.finish w o env) = _
      simp only [step, hw]
    rw [hrdef]
    simp only [List.mem_cons, reduceCtorEq, false_or]
    cases o with
    | cancelled => left; exact hfin s .cancelled hr
    | bad => left; exact hfin s .exc hr
    | raised =>
      simp only [afterReconcile]
      split
      · left; exact hfin _ _ (R_rateLimited I hr x env)
      · right; exact ⟨_, hreq _ _⟩
    | result requeue after =>
      simp only [afterReconcile]
      split
      · right; exact ⟨_, hreq _ _⟩
      · split
        · split
          · left; exact hfin _ _ (R_rateLimited I hr x env)
          · right; exact ⟨_, hreq _ _⟩
        · left; exact hfin _ _ (R_forget I hr x)
  rcases hcase with h | ⟨b, hb⟩
  · exact Or.inl h
  · refine Or.inr ⟨b, hb, fun more hmore => ?_⟩
    have hr2 := (exec_good I py38 isReq more r.1 hr1).2
    have hstay : ∀ (more : List (Ev α ε)) (s : State σ α), s.workers w = .requeuing x b →
        (∀ e ∈ more, ∀ v, (e = .requeued v ∨ e = .cancelRequeue v) → v ≠ w) →
        (exec I py38 isReq s more).workers w = .requeuing x b := by
      intro more
      induction more with
      | nil => intro s h _; exact h
      | cons e more ih =>
        intro s h hm
        refine ih _ ?_ (fun e' he' => hm e' (by simp [he']))
        have hm := hm e (by simp)
        have other : ∀ (s' : State σ α) (v : Nat) (p : Pc α), v ≠ w → s'.workers w = s.workers w →
            (s'.setPc v p).workers w = .requeuing x b := by
          intro s' v p hv hs'
          simp only [State.setPc]
          rw [if_neg (Ne.symm hv), hs', h]
        have fin : ∀ (s' : State σ α) (v : Nat) (y : α) (e : End), v ≠ w → s'.workers w = s.workers w →
            (finally_ I py38 s' v y e).1.workers w = .requeuing x b := by
          intro s' v y e hv hs'
          simp only [finally_]
          exact other _ v _ hv hs'
        cases e with
        | queue e => simp only [step]; split <;> exact h
        | wake v =>
          simp only [step]
          split
          · rename_i hv; exact other s v _ (by rintro rfl; rw [h] at hv; cases hv) rfl
          · exact h
        | cancel v =>
          simp only [step]
          split
          · rename_i hv
            exact other s v _ (by rintro rfl; rw [h] at hv; rcases hv with hv | hv <;> cases hv) rfl
          · exact h
        | requeued v =>
          have hv := hm v (Or.inl rfl)
          simp only [step]
          split
          · exact fin _ _ _ _ hv rfl
          · exact h
        | cancelRequeue v =>
          have hv := hm v (Or.inr rfl)
          simp only [step]
          split
          · exact fin _ _ _ _ hv rfl
          · exact h
        | finish v o env =>
          simp only [step]
          split
          · rename_i y hv
            have hvw : v ≠ w := by rintro rfl; rw [h] at hv; cases hv
            cases o with
            | cancelled => exact fin s v y .cancelled hvw rfl
            | bad => exact fin s v y .exc hvw rfl
            | raised =>
              simp only [afterReconcile]
              split
              · exact fin _ _ _ _ hvw rfl
              · exact other _ _ _ hvw rfl
            | result requeue after =>
              simp only [afterReconcile]
              split
              · exact other _ _ _ hvw rfl
              · split
                · split
                  · exact fin _ _ _ _ hvw rfl
                  · exact other _ _ _ hvw rfl
                · exact fin _ _ _ _ hvw rfl
          · exact h
        | take v =>
          simp only [step]
          split
          · rename_i hv
            have hvw : v ≠ w := by rintro rfl; rw [h] at hv; cases hv
            split
            · rename_i y _
              split
              · exact other _ _ _ hvw rfl
              · exact fin ((s.call I (.queue (.base .get))).call I (.forget y)) v y (.ret true) hvw rfl
            · exact other _ _ _ hvw rfl
            · exact h
          · exact h
    have hst := hstay more r.1 hb hmore
    have hx : phases (exec I py38 isReq r.1 more) w = .over x := by simp [phases, hst, phase]
    constructor
    · simp only [step, hst]
      rw [(finally_spec I py38 hr2 w x (by rw [hx]; rfl) _).1]; simp
    · simp only [step, hst]
      rw [(finally_spec I py38 hr2 w x (by rw [hx]; rfl) _).1]; simp

/-- **C55.** A cancelled worker has called `done` for what it took and has ended, wherever it was; before
Python 3.8 it goes on if it was cancelled in the reconciler or in a requeuing call: it sleeps, and then takes
the next request. -/
theorem C55_cancelled (I : Iface σ α ε) (py38 : Bool) (isReq : α → Bool) (l : σ) (t : ℚ) (n : Nat)
    (es : List (Ev α ε)) (w : Nat) :
    let s := exec I py38 isReq (init l t n) es
    (∀ x env, s.workers w = .reconciling x →
      (step I py38 isReq s (.finish w .cancelled env)).1.workers w = (if py38 then .ended else .sleeping) ∧
      (step I py38 isReq s (.finish w .cancelled env)).2 = [.outcome w x .cancelled env, .done w x true]) ∧
    (∀ x b, s.workers w = .requeuing x b →
      (step I py38 isReq s (.cancelRequeue w)).1.workers w = (if py38 then .ended else .sleeping) ∧
      (step I py38 isReq s (.cancelRequeue w)).2 = [.done w x true]) ∧
    (s.workers w = .idle ∨ s.workers w = .sleeping →
      (step I py38 isReq s (.cancel w)).1.workers w = .ended) := by
  intro s
  have hr : R s (phases s) := (exec_good I py38 isReq es (init l t n) (R_init l t n)).2
  have key : ∀ x, (phases s w).item = some x →
      (finally_ I py38 s w x .cancelled).1.workers w = (if py38 then .ended else .sleeping) ∧
      (finally_ I py38 s w x .cancelled).2 = [.done w x true] := by
    intro x hx
    have hp := hr.proc w x hx
    have hok : (WorkQueue.done s.rq.q.core x).2 = .ok := by
      simp only [WorkQueue.done, hp, if_true]
      split <;> rfl
    refine ⟨?_, (finally_spec I py38 hr w x hx .cancelled).1⟩
    simp [finally_, hok, State.setPc]
  refine ⟨?_, ?_, ?_⟩
  · intro x env hw
    obtain ⟨h1, h2⟩ := key x (by simp [phases, hw, phase, Phase.item])
    simp only [step, hw, afterReconcile]
    exact ⟨h1, by rw [h2]⟩
  · intro x b hw
    simp only [step, hw]
    exact key x (by simp [phases, hw, phase, Phase.item])
  · intro h
    simp [step, h, State.setPc]

/-- Two workers; items 1 and 2 are added; 1 is added again while it is being reconciled, fails, and is
taken by the other worker only after `done`. -/
def sampleRun : List (Ev Nat Unit) :=
  [.queue (.base (.add 1)), .queue (.base (.add 2)), .take 0, .take 1, .queue (.base (.add 1)),
   .finish 1 (.result false 0) (), .take 1, .finish 0 .cancelled (), .take 1]

example : logOf (RateLimitingQueue.expIface ⟨1, 10, false⟩) true (fun _ => true) (init [] 0 2) sampleRun =
    [.took 0 1, .reconcile 0 1, .took 1 2, .reconcile 1 2, .outcome 1 2 (.result false 0) (),
     .done 1 2 true, .outcome 0 1 .cancelled (), .done 0 1 true, .took 1 1, .reconcile 1 1] := by
  decide +kernel

-- `C55_cancelled`: on Python 3.8 the worker has ended, on 3.7 it sleeps
example : (exec (RateLimitingQueue.expIface ⟨1, 10, false⟩) true (fun _ => true) (init [] 0 2) sampleRun).workers 0 =
      .ended ∧
    (exec (RateLimitingQueue.expIface ⟨1, 10, false⟩) false (fun _ => true) (init [] 0 2) sampleRun).workers 0 =
      .sleeping ∧
    (exec (RateLimitingQueue.expIface ⟨1, 10, false⟩) true (fun _ => true) (init [] 0 2)
      (sampleRun.take 7)).workers 0 = .reconciling 1 := by
  refine ⟨?_, ?_, ?_⟩ <;> decide +kernel

/-! ## C56: what the limiter is told -/

private theorem finally_lim (I : Iface σ α ε) (py38 : Bool) (s : State σ α) (w : Nat) (x : α) (e : End) :
    (finally_ I py38 s w x e).1.rq.lim = s.rq.lim ∧
    (finally_ I py38 s w x e).2.flatMap limOp = ([] : List (LimOp α ε)) := by
  constructor
  · rfl
  · simp [finally_, limOp]

private theorem seen_lim (I : Iface σ α ε) (s : State σ α) (e : RateLimitingQueue.Ev α ε) :
    (s.seen I e).flatMap limOp = ([] : List (LimOp α ε)) := by
  simp only [State.seen]
  induction (RateLimitingQueue.step I s.rq e).2.2 with
  | nil => rfl
  | cons d ds ih => simpa [limOp] using ih

private theorem rateLimited_lim (I : Iface σ α ε) (s : State σ α) (x : α) (env : ε) :
    (s.call I (.addRateLimited x env)).rq.lim = (I.when s.rq.lim x env).1 := by
  rcases rateLimited_eq I s.rq x env with ⟨l, d, hw, he⟩ | ⟨l, r, hw, _, he⟩ <;>
    simp [State.call, he, hw]

theorem after_lim (I : Iface σ α ε) (py38 : Bool) (s : State σ α) (w : Nat) (x : α) (o : Outcome)
    (env : ε) :
    (afterReconcile I py38 s w x o env).1.rq.lim =
      partExec I s.rq.lim (limOp (.outcome w x o env : Log α ε)) ∧
    (afterReconcile I py38 s w x o env).2.flatMap limOp = ([] : List (LimOp α ε)) := by
  have rl : ∀ ret : Bool, ∀ r : State σ α × List (Log α ε),
      r = (match (RateLimitingQueue.step I s.rq (.addRateLimited x env)).2.1 with
        | .raised _ => finally_ I py38 (s.call I (.addRateLimited x env)) w x .exc
        | _ => ((s.call I (.addRateLimited x env)).setPc w (.requeuing x ret),
            s.seen I (.addRateLimited x env))) →
      r.1.rq.lim = (I.when s.rq.lim x env).1 ∧ r.2.flatMap limOp = ([] : List (LimOp α ε)) := by
    intro ret r hr
    subst hr
    split
    · exact ⟨rateLimited_lim I s x env, (finally_lim I py38 _ w x _).2⟩
    · exact ⟨rateLimited_lim I s x env, seen_lim I s _⟩
  cases o with
  | cancelled => exact finally_lim I py38 s w x .cancelled
  | bad => exact finally_lim I py38 s w x .exc
  | raised => exact rl false _ rfl
  | result requeue after =>
    simp only [afterReconcile]
    by_cases ha : after = 0
    · subst ha
      cases requeue
      · simp only [ne_eq, not_true_eq_false, if_false, Bool.false_eq_true]
        exact finally_lim I py38 _ w x _
      · simp only [ne_eq, not_true_eq_false, if_false, if_true]
        exact rl true _ rfl
    · simp only [ne_eq, ha, not_false_eq_true, if_true]
      refine ⟨?_, seen_lim I _ _⟩
      have : limOp (.outcome w x (.result requeue after) env : Log α ε) = [.forget x] := by
        simp [limOp, retry, reset, ha]
      rw [this]
      rfl

theorem step_lim (I : Iface σ α ε) (py38 : Bool) (isReq : α → Bool) (s : State σ α)
    (e : Ev α ε) :
    (step I py38 isReq s e).1.rq.lim = partExec I s.rq.lim ((step I py38 isReq s e).2.flatMap limOp) := by
  cases e with
  | queue e =>
    simp only [step]
    split
    · rw [seen_lim]; rfl
    · rfl
  | wake w => simp only [step]; split <;> rfl
  | cancel w => simp only [step]; split <;> rfl
  | requeued w => simp only [step]; split <;> rfl
  | cancelRequeue w => simp only [step]; split <;> rfl
  | finish w o env =>
    simp only [step]
    split
    · rename_i x _
      obtain ⟨h1, h2⟩ := after_lim I py38 s w x o env
      rw [h1, List.flatMap_cons, h2, List.append_nil]
    · rfl
  | take w =>
    simp only [step]
    split
    · split
      · split
        · rfl
        · rfl
      · rfl
      · rfl
    · rfl

private theorem partExec_append (I : Iface σ α ε) (l : σ) (as bs : List (LimOp α ε)) :
    partExec I l (as ++ bs) = partExec I (partExec I l as) bs := by
  induction as generalizing l with
  | nil => rfl
  | cons a as ih => cases a <;> exact ih _

/-- **C56.** For every limiter: it is charged once for every failure and every plain request for a
requeue, and told to forget once for every success and every result with `requeue_after` (and every
item that is not a request), in the order of the outcomes; it hears of nothing else. -/
theorem C56_limiter (I : Iface σ α ε) (py38 : Bool) (isReq : α → Bool) (l : σ) (t : ℚ) (n : Nat)
    (es : List (Ev α ε)) :
    (exec I py38 isReq (init l t n) es).rq.lim =
      partExec I l ((logOf I py38 isReq (init l t n) es).flatMap limOp) := by
  have key : ∀ (es : List (Ev α ε)) (s : State σ α), (exec I py38 isReq s es).rq.lim =
      partExec I s.rq.lim ((logOf I py38 isReq s es).flatMap limOp) := by
    intro es
    induction es with
    | nil => intro s; rfl
    | cons e es ih =>
      intro s
      simp only [exec, logOf, List.flatMap_append]
      rw [partExec_append, ← step_lim]
      exact ih _
  exact key es (init l t n)

theorem recent_retries (x : α) (l : List (Log α ε)) (n : Nat) :
    recentFailures' x (l.flatMap limOp) n = retries x l n := by
  induction l generalizing n with
  | nil => rfl
  | cons a l ih =>
    rw [List.flatMap_cons]
    cases a with
    | outcome w y o env =>
      simp only [limOp, retries]
      by_cases h1 : retry o = true
      · simp only [h1, if_true, List.singleton_append, recentFailures']
        rw [ih]
        by_cases hy : y = x <;> simp [hy]
      · by_cases h2 : reset o = true
        · simp only [h1, h2, if_false, if_true, List.singleton_append, recentFailures', Bool.false_eq_true]
          rw [ih]
          by_cases hy : y = x <;> simp [hy]
        · simp only [h1, h2, if_false, List.nil_append, Bool.false_eq_true]
          rw [ih]
          by_cases hy : y = x <;> simp [hy]
    | notRequest w y =>
      simp only [limOp, retries, List.singleton_append, recentFailures']
      rw [ih]
    | took w y => exact ih n
    | reconcile w y => exact ih n
    | done w y b => exact ih n
    | queue d => exact ih n

/-- **C56.** With the exponential limiter, `num_requeues(x)` is the number of failures and requests for
a requeue of `x` since its last success or `requeue_after`. -/
theorem C56_num_requeues (c : ExpCfg) (py38 : Bool) (isReq : α → Bool) (t : ℚ) (n : Nat)
    (es : List (Ev α Unit)) (x : α) :
    let I := RateLimitingQueue.expIface c
    expNumRequeues (exec I py38 isReq (init [] t n) es).rq.lim x =
      retries x (logOf I py38 isReq (init [] t n) es) 0 := by
  intro I
  rw [C56_limiter, ← recent_retries]
  exact RateLimitingQueue.recent_fold c x _ [] PyDict.WF_nil

/-- **C56.** What happens at the queue when the reconciler ends, with the exponential limiter: a failure
or a request for a requeue, the `n+1`-st in a row, is scheduled `min(base * 2^n, max)` from now; a
`requeue_after` is scheduled that far from now; success is finished at once. -/
theorem C56_schedule (c : ExpCfg) (py38 : Bool) (isReq : α → Bool) (t : ℚ) (m : Nat)
    (es : List (Ev α Unit)) (w : Nat) (x : α) (o : Outcome) :
    let I := RateLimitingQueue.expIface c
    let s := exec I py38 isReq (init [] t m) es
    let n := retries x (logOf I py38 isReq (init [] t m) es) 0
    let log := (step I py38 isReq s (.finish w o ())).2
    let q' := (step I py38 isReq s (.finish w o ())).1.rq.q
    s.workers w = .reconciling x →
    (retry o = true → (c.floatBase = false ∨ n < 1024) → 0 < min (c.base * 2 ^ n) c.max →
      log = [.outcome w x o (), .queue (.called x (min (c.base * 2 ^ n) c.max) s.rq.q.clock)] ∧
      q' = { s.rq.q with puts := s.rq.q.puts ++ [(x, s.rq.q.clock + min (c.base * 2 ^ n) c.max)] }) ∧
    (∀ r d, o = .result r d → 0 < d →
      log = [.outcome w x o (), .queue (.called x d s.rq.q.clock)] ∧
      q' = { s.rq.q with puts := s.rq.q.puts ++ [(x, s.rq.q.clock + d)] }) ∧
    (o = .result false 0 → log = [.outcome w x o (), .done w x true] ∧
      q' = { s.rq.q with core := (WorkQueue.done s.rq.q.core x).1 }) := by
  intro I s n log q' hw
  have hn : failures s.rq.lim x = n := C56_num_requeues c py38 isReq t m es x
  have hr := (exec_good I py38 isReq es (init [] t m) (R_init [] t m)).2
  change R s (phases s) at hr
  have hlog : log = .outcome w x o () :: (afterReconcile I py38 s w x o ()).2 := by
    show (step I py38 isReq s (.finish w o ())).2 = _
    simp only [step, hw]
  have hq' : q' = (afterReconcile I py38 s w x o ()).1.rq.q := by
    show (step I py38 isReq s (.finish w o ())).1.rq.q = _
    simp only [step, hw]
  have hsd := hr.base.sd
  clear_value s n q'
  rw [hlog, hq']
  refine ⟨fun ho hok hpos => ?_, fun r d ho hd => ?_, fun ho => ?_⟩
  · have hcond : ¬ (c.floatBase && decide (1024 ≤ n)) = true := by
      rcases hok with h | h
      · simp [h]
      · simp; omega
    have hw' : I.when s.rq.lim x () = (s.rq.lim.set x (n + 1), .delay (min (c.base * 2 ^ n) c.max)) := by
      show expWhen c s.rq.lim x = _
      simp only [expWhen, hn, mulPow, if_neg hcond]
    have hst : (RateLimitingQueue.step I s.rq (.addRateLimited x ())).2 =
        (.none, [.called x (min (c.base * 2 ^ n) c.max) s.rq.q.clock]) ∧
        (RateLimitingQueue.step I s.rq (.addRateLimited x ())).1.q =
        { s.rq.q with puts := s.rq.q.puts ++ [(x, s.rq.q.clock + min (c.base * 2 ^ n) c.max)] } := by
      simp only [RateLimitingQueue.step, RateLimitingQueue.addRateLimited, hw', DelayQueue.addAfter, hsd,
        Bool.false_eq_true, if_false, not_le.2 hpos, and_self]
    cases o with
    | raised =>
      simp only [afterReconcile, hst.1, State.seen, List.map]
      exact ⟨trivial, hst.2⟩
    | result r d =>
      simp only [retry, Bool.and_eq_true, beq_iff_eq] at ho
      obtain ⟨rfl, rfl⟩ := ho
      simp only [afterReconcile, ne_eq, not_true_eq_false, if_false, if_true, hst.1, State.seen, List.map]
      exact ⟨trivial, hst.2⟩
    | bad => cases ho
    | cancelled => cases ho
  · subst ho
    have hne : d ≠ 0 := ne_of_gt hd
    simp only [afterReconcile, ne_eq, hne, not_false_eq_true, if_true, State.seen, State.call,
      RateLimitingQueue.step, DelayQueue.step, DelayQueue.addAfter, hsd, Bool.false_eq_true, if_false,
      not_le.2 hd, List.map]
    exact ⟨trivial, rfl⟩
  · subst ho
    simp only [afterReconcile, ne_eq, not_true_eq_false, if_false, Bool.false_eq_true]
    have hx : phases s w = .running x := by simp [phases, hw, phase]
    rw [(finally_spec I py38 (R_forget I hr x) w x (by rw [hx]; rfl) _).1]
    exact ⟨rfl, rfl⟩

/-- Item 7 fails twice, succeeds, and fails again. -/
example : retries 7 ([.outcome 0 7 .raised (), .outcome 0 7 (.result true 0) (),
    .outcome 0 7 (.result false 0) (), .outcome 1 8 .raised (), .outcome 0 7 .raised ()] :
    List (Log Nat Unit)) 0 = 1 := by decide +kernel

/-! ## C56: retried -/

/-- `x` is not lost: it is marked to be processed (again), or held by the delaying queue with a deadline
of at most `D`. -/
def Pending (s : State σ α) (x : α) (D : ℚ) : Prop :=
  x ∈ s.rq.q.core.dirty ∨ ∃ r, r ≤ D ∧ DelayQueue.Held s.rq.q x r

private theorem add_dirty {c : WorkQueue.State α} {x y : α} (h : x ∈ c.dirty) :
    x ∈ (WorkQueue.add c y).dirty := by
  simp only [WorkQueue.add]
  split
  · exact h
  · split
    · exact h
    · split <;> simp [PySet.mem_add, h]

theorem add_self {c : WorkQueue.State α} {x : α} (h : c.shuttingDown = false) :
    x ∈ (WorkQueue.add c x).dirty := by
  simp only [WorkQueue.add, h, Bool.false_eq_true, if_false]
  split
  · assumption
  · split <;> simp [PySet.mem_add]

/-- The queue keeps what is pending, under a foreign move. -/
private theorem pending_queue {q : DelayQueue.State α} (hb : DelayQueue.Base q) (hst : q.stop = false)
    {e : DelayQueue.Ev α} (he : foreign e = true) {x : α} {D : ℚ}
    (h : x ∈ q.core.dirty ∨ ∃ r, r ≤ D ∧ DelayQueue.Held q x r) :
    x ∈ (DelayQueue.step q e).1.core.dirty ∨
      ∃ r, r ≤ D ∧ DelayQueue.Held (DelayQueue.step q e).1 x r := by
  have hcf := core_foreign q e he
  rcases h with h | ⟨r, hr, h⟩
  · left
    rcases hcf with ⟨hc, _⟩ | ⟨y, hc, _⟩
    · rw [hc]; exact h
    · rw [hc]; exact add_dirty h
  · have heff := (DelayQueue.step_effect hb e).1
    generalize hlog : (DelayQueue.step q e).2 = log at heff hcf
    generalize (DelayQueue.step q e).1 = q' at heff hcf ⊢
    cases heff with
    | quiet _ hfwd _ =>
      obtain ⟨r', h1, h2⟩ := hfwd hst x r h
      exact Or.inr ⟨r', le_trans h1 hr, h2⟩
    | called y d hd hiff _ => exact Or.inr ⟨r, hr, (hiff x r).2 (Or.inl h)⟩
    | added y r' hr' hy hback hfwd _ =>
      by_cases hxy : x = y
      · left
        rcases hcf with ⟨_, hn⟩ | ⟨z, hc, hz⟩
        · exact absurd (by simp) (hn y q.clock)
        · rw [hc, hxy, hz y q.clock (by simp)]
          exact add_self hb.sd
      · obtain ⟨r'', h1, h2⟩ := hfwd x r hxy h
        exact Or.inr ⟨r'', le_trans h1 hr, h2⟩

/-- A move of the controller that is not a `shut_down`. -/
def notShutDown : Ev α ε → Bool
  | .queue e => !DelayQueue.isShutDown e
  | _ => true

private theorem pending_call (I : Iface σ α ε) {s : State σ α} (hb : DelayQueue.Base s.rq.q)
    (hst : s.rq.q.stop = false) {e : DelayQueue.Ev α} (he : foreign e = true)
    (hn : DelayQueue.isShutDown e = false) {x : α} {D : ℚ} (h : Pending s x D) :
    Pending (s.call I (.queue e)) x D ∧ (s.call I (.queue e)).rq.q.stop = false :=
  ⟨pending_queue hb hst he h, (DelayQueue.stop_stays hn).trans hst⟩

private theorem pending_rl (I : Iface σ α ε) {s : State σ α} (hb : DelayQueue.Base s.rq.q)
    (hst : s.rq.q.stop = false) (y : α) (env : ε) {x : α} {D : ℚ} (h : Pending s x D) :
    Pending (s.call I (.addRateLimited y env)) x D ∧
      (s.call I (.addRateLimited y env)).rq.q.stop = false := by
  rcases rateLimited_eq I s.rq y env with ⟨l, d, hw, he⟩ | ⟨l, r, hw, _, he⟩
  · simp only [State.call, he]
    exact pending_call I hb hst (e := .addAfter y d) rfl rfl h
  · simp only [State.call, he]
    exact ⟨h, hst⟩

private theorem done_dirty (c : WorkQueue.State α) (y : α) : (WorkQueue.done c y).1.dirty = c.dirty := by
  simp only [WorkQueue.done]
  split
  · split <;> rfl
  · rfl

private theorem pending_finally (I : Iface σ α ε) (py38 : Bool) {s : State σ α} (w : Nat) (y : α) (e : End)
    (hst : s.rq.q.stop = false) {x : α} {D : ℚ} (h : Pending s x D) :
    Pending (finally_ I py38 s w y e).1 x D ∧ (finally_ I py38 s w y e).1.rq.q.stop = false := by
  refine ⟨?_, hst⟩
  rcases h with h | h
  · left
    show x ∈ (WorkQueue.done s.rq.q.core y).1.dirty
    rw [done_dirty]; exact h
  · exact Or.inr h

private theorem pending_after (I : Iface σ α ε) (py38 : Bool) {s : State σ α} (hb : DelayQueue.Base s.rq.q)
    (hst : s.rq.q.stop = false) (w : Nat) (y : α) (o : Outcome) (env : ε) {x : α} {D : ℚ}
    (h : Pending s x D) :
    Pending (afterReconcile I py38 s w y o env).1 x D ∧
      (afterReconcile I py38 s w y o env).1.rq.q.stop = false := by
  have hrl := pending_rl I hb hst y env h
  cases o with
  | cancelled => exact pending_finally I py38 w y .cancelled hst h
  | bad => exact pending_finally I py38 w y .exc hst h
  | raised =>
    simp only [afterReconcile]
    split
    · exact pending_finally I py38 w y .exc hrl.2 hrl.1
    · exact hrl
  | result requeue after =>
    simp only [afterReconcile]
    split
    · exact pending_call I (s := s.call I (.forget y)) hb hst (e := .addAfter y after) rfl rfl h
    · split
      · split
        · exact pending_finally I py38 w y .exc hrl.2 hrl.1
        · exact hrl
      · exact pending_finally I py38 (s := s.call I (.forget y)) w y _ hst h

theorem pending_step (I : Iface σ α ε) (py38 : Bool) (isReq : α → Bool) {s : State σ α}
    (hr : R s (phases s)) (hst : s.rq.q.stop = false) (e : Ev α ε) (hn : notShutDown e = true) {x : α}
    {D : ℚ} (h : Pending s x D) :
    ((∃ w, .took w x ∈ (step I py38 isReq s e).2) ∨ Pending (step I py38 isReq s e).1 x D) ∧
    (step I py38 isReq s e).1.rq.q.stop = false := by
  cases e with
  | queue e =>
    simp only [notShutDown, Bool.not_eq_true'] at hn
    simp only [step]
    split
    · rename_i he
      have := pending_call I hr.base hst he hn h
      exact ⟨Or.inr this.1, this.2⟩
    · exact ⟨Or.inr h, hst⟩
  | wake w => simp only [step]; split <;> exact ⟨Or.inr h, hst⟩
  | cancel w => simp only [step]; split <;> exact ⟨Or.inr h, hst⟩
  | requeued w =>
    simp only [step]
    split
    · exact ⟨Or.inr (pending_finally I py38 w _ _ hst h).1, (pending_finally I py38 w _ _ hst h).2⟩
    · exact ⟨Or.inr h, hst⟩
  | cancelRequeue w =>
    simp only [step]
    split
    · exact ⟨Or.inr (pending_finally I py38 w _ _ hst h).1, (pending_finally I py38 w _ _ hst h).2⟩
    · exact ⟨Or.inr h, hst⟩
  | finish w o env =>
    simp only [step]
    split
    · exact ⟨Or.inr (pending_after I py38 hr.base hst w _ o env h).1,
        (pending_after I py38 hr.base hst w _ o env h).2⟩
    · exact ⟨Or.inr h, hst⟩
  | take w =>
    simp only [step]
    split
    · split
      · rename_i y hy
        have hget : x ≠ y → Pending (s.call I (.queue (.base .get))) x D := by
          intro hne
          rcases h with h | h
          · left
            show x ∈ (WorkQueue.get s.rq.q.core).1.dirty
            revert hy
            simp only [WorkQueue.get]
            split
            · split <;> simp
            · rename_i z rest _
              simp only [WorkQueue.Out.item.injEq]
              rintro rfl
              simp [PySet.mem_remove, h, hne]
          · exact Or.inr h
        by_cases hxy : x = y
        · subst hxy
          split
          · exact ⟨Or.inl ⟨w, by simp⟩, hst⟩
          · exact ⟨Or.inl ⟨w, by simp⟩, hst⟩
        · split
          · exact ⟨Or.inr (hget hxy), hst⟩
          · have := pending_finally I py38 (s := (s.call I (.queue (.base .get))).call I (.forget y)) w y
              (.ret true) hst (hget hxy)
            exact ⟨Or.inr this.1, this.2⟩
      · exact ⟨Or.inr h, hst⟩
      · exact ⟨Or.inr h, hst⟩
    · exact ⟨Or.inr h, hst⟩

theorem pending_exec (I : Iface σ α ε) (py38 : Bool) (isReq : α → Bool) (es : List (Ev α ε))
    (hn : ∀ e ∈ es, notShutDown e = true) {x : α} {D : ℚ} :
    ∀ s : State σ α, R s (phases s) → s.rq.q.stop = false → Pending s x D →
      (∃ w, .took w x ∈ logOf I py38 isReq s es) ∨ Pending (exec I py38 isReq s es) x D := by
  induction es with
  | nil => intro s _ _ h; exact Or.inr h
  | cons e es ih =>
    intro s hr hst h
    obtain ⟨h1, h2⟩ := pending_step I py38 isReq hr hst e (hn e (by simp)) h
    simp only [logOf, exec, List.mem_append]
    rcases h1 with ⟨w, hw⟩ | h1
    · exact Or.inl ⟨w, Or.inl hw⟩
    · rcases ih (fun e he => hn e (by simp [he])) _ (step_good I py38 isReq s hr e).2 h2 h1 with ⟨w, hw⟩ | h3
      · exact Or.inl ⟨w, Or.inr hw⟩
      · exact Or.inr h3

theorem stop_step (I : Iface σ α ε) (py38 : Bool) (isReq : α → Bool) {s : State σ α}
    (hst : s.rq.q.stop = false) (e : Ev α ε) (hn : notShutDown e = true) :
    (step I py38 isReq s e).1.rq.q.stop = false := by
  have hrl : ∀ (y : α) (env : ε), (s.call I (.addRateLimited y env)).rq.q.stop = false := by
    intro y env
    rcases rateLimited_eq I s.rq y env with ⟨l, d, hw, he⟩ | ⟨l, r, hw, _, he⟩
    · simp only [State.call, he]; exact (DelayQueue.stop_stays rfl).trans hst
    · simp only [State.call, he]; exact hst
  cases e with
  | queue e =>
    simp only [notShutDown, Bool.not_eq_true'] at hn
    simp only [step]
    split
    · exact (DelayQueue.stop_stays hn).trans hst
    · exact hst
  | wake w => simp only [step]; split <;> exact hst
  | cancel w => simp only [step]; split <;> exact hst
  | requeued w => simp only [step]; split <;> exact hst
  | cancelRequeue w => simp only [step]; split <;> exact hst
  | take w =>
    simp only [step]
    split
    · split
      · split <;> exact hst
      · exact hst
      · exact hst
    · exact hst
  | finish w o env =>
    simp only [step]
    split
    · cases o with
      | cancelled => exact hst
      | bad => exact hst
      | raised =>
        simp only [afterReconcile]
        split <;> exact hrl _ _
      | result requeue after =>
        simp only [afterReconcile]
        split
        · exact (DelayQueue.stop_stays (s := s.rq.q) (e := .addAfter _ after) rfl).trans hst
        · split
          · split <;> exact hrl _ _
          · exact hst
    · exact hst

theorem stop_exec (I : Iface σ α ε) (py38 : Bool) (isReq : α → Bool) (es : List (Ev α ε))
    (hn : ∀ e ∈ es, notShutDown e = true) :
    ∀ s : State σ α, s.rq.q.stop = false → (exec I py38 isReq s es).rq.q.stop = false := by
  induction es with
  | nil => intro s h; exact h
  | cons e es ih =>
    intro s h
    exact ih (fun e he => hn e (by simp [he])) _ (stop_step I py38 isReq h e (hn e (by simp)))

theorem addAfter_pending {q : DelayQueue.State α} (hsd : q.core.shuttingDown = false) (x : α)
    (d : ℚ) :
    x ∈ (DelayQueue.step q (.addAfter x d)).1.core.dirty ∨
      ∃ r, r ≤ q.clock + d ∧ DelayQueue.Held (DelayQueue.step q (.addAfter x d)).1 x r := by
  simp only [DelayQueue.step, DelayQueue.addAfter, hsd, Bool.false_eq_true, if_false]
  split
  · exact Or.inl (add_self hsd)
  · exact Or.inr ⟨_, le_rfl, Or.inl (by simp)⟩

/-- **C56**, except for a limiter that raises: a request whose reconcile failed, or asked to be requeued
(at once or after a delay), is not lost: until it is taken again it is marked for processing, or held by
the delaying queue with a deadline no later than the delay from then on. -/
theorem C56_retried_partial (I : Iface σ α ε) (py38 : Bool) (isReq : α → Bool) (l : σ) (t : ℚ) (n : Nat)
    (es more : List (Ev α ε)) (hes : ∀ e ∈ es, notShutDown e = true)
    (hmore : ∀ e ∈ more, notShutDown e = true) (w : Nat) (x : α) (o : Outcome) (env : ε) (d : ℚ)
    (hw : (exec I py38 isReq (init l t n) es).workers w = .reconciling x)
    (hd : (retry o = true ∧ (I.when (exec I py38 isReq (init l t n) es).rq.lim x env).2 = .delay d) ∨
      (∃ r, o = .result r d ∧ d ≠ 0)) :
    let s := exec I py38 isReq (init l t n) es
    let s' := (step I py38 isReq s (.finish w o env)).1
    (∃ v, .took v x ∈ logOf I py38 isReq s' more) ∨
      Pending (exec I py38 isReq s' more) x (s.rq.q.clock + d) := by
  intro s s'
  have hr : R s (phases s) := (exec_good I py38 isReq es (init l t n) (R_init l t n)).2
  have hst : s.rq.q.stop = false := stop_exec I py38 isReq es hes _ rfl
  change s.workers w = .reconciling x at hw
  change (retry o = true ∧ (I.when s.rq.lim x env).2 = .delay d) ∨ _ at hd
  have hs' : s' = (afterReconcile I py38 s w x o env).1 := by
    show (step I py38 isReq s (.finish w o env)).1 = _
    simp only [step, hw]
  refine pending_exec I py38 isReq more hmore s' (step_good I py38 isReq s hr _).2
    (stop_step I py38 isReq hst _ rfl) ?_
  rw [hs']
  have hsd := hr.base.sd
  have hadd := addAfter_pending hsd x d
  rcases hd with ⟨ho, hwh⟩ | ⟨r, ho, hd0⟩
  · rcases rateLimited_eq I s.rq x env with ⟨l', d', hw', he⟩ | ⟨l', r', hw', hne, he⟩
    · rw [hw'] at hwh
      cases hwh
      cases o with
      | raised =>
        simp only [afterReconcile, he, State.call]
        exact hadd
      | result r d'' =>
        simp only [retry, Bool.and_eq_true, beq_iff_eq] at ho
        obtain ⟨rfl, rfl⟩ := ho
        simp only [afterReconcile, ne_eq, not_true_eq_false, if_false, if_true, he, State.call]
        exact hadd
      | bad => cases ho
      | cancelled => cases ho
    · rw [hw'] at hwh
      exact absurd hwh (hne d)
  · subst ho
    simp only [afterReconcile, ne_eq, hd0, not_false_eq_true, if_true]
    exact hadd

/-- the hypotheses: item 1 is being reconciled by worker 0 and fails -/
example : (exec (RateLimitingQueue.expIface ⟨1, 10, false⟩) true (fun _ => true) (init [] 0 2)
      ([.queue (.base (.add 1)), .take 0] : List (Ev Nat Unit))).workers 0 = .reconciling 1 ∧
    ((RateLimitingQueue.expIface ⟨1, 10, false⟩).when ([] : Failures Nat) 1 ()).2 = .delay 1 := by
  constructor <;> decide +kernel

/-! ## C56: lost -/

private theorem exec_append (I : Iface σ α ε) (py38 : Bool) (isReq : α → Bool) (s : State σ α)
    (as bs : List (Ev α ε)) :
    exec I py38 isReq s (as ++ bs) = exec I py38 isReq (exec I py38 isReq s as) bs := by
  induction as generalizing s with
  | nil => rfl
  | cons a as ih => exact ih _

/-- One failure of item 7 and its way back into the queue, 1000 seconds later. -/
def failOnce : List (Ev Nat Unit) :=
  [.take 0, .finish 0 .raised (), .requeued 0, .wake 0, .queue (.tick 1000), .queue (.putDone 0),
    .queue (.wake .item), .queue .loop, .queue .loop, .queue .loop, .queue .loop]

private structure Canon (c : ExpCfg) (s : State (Failures Nat) Nat) (k : Nat) (t : ℚ) : Prop where
  q : s.rq.q = ⟨⟨[7], [], [7], false⟩, t, false, [], [], DelayHeap.init, .sleeping none⟩
  lim : failures s.rq.lim 7 = k
  pc : s.workers 0 = .idle
  others : ∀ w, w ≠ 0 → s.workers w = .ended

/-- The default limits: 5 milliseconds, doubled up to 1000 seconds. -/
def defaultCfg : ExpCfg := ⟨5/1000, 1000, true⟩

private theorem canon_fail {s : State (Failures Nat) Nat} {k : Nat} {t : ℚ} (h : Canon defaultCfg s k t)
    (hk : k < 1024) :
    Canon defaultCfg (exec (RateLimitingQueue.expIface defaultCfg) true (fun _ => true) s failOnce)
      (k + 1) (t + 1000) := by
  obtain ⟨⟨q, lim⟩, workers⟩ := s
  obtain ⟨hq, hl, hp, ho⟩ := h
  simp only at hq hl hp ho
  subst hq
  have hw : expWhen defaultCfg lim 7 = (lim.set 7 (k + 1), .delay (min (5/1000 * 2 ^ k) 1000)) := by
    have : ¬ 1024 ≤ k := by omega
    simp [expWhen, hl, mulPow, defaultCfg, this]
  have hpos : ¬ min (5/1000 * 2 ^ k : ℚ) 1000 ≤ 0 := by
    rw [not_le]
    exact lt_min (by positivity) (by norm_num)
  have hle : min (5/1000 * 2 ^ k : ℚ) 1000 ≤ 1000 := min_le_right _ _
  generalize min (5/1000 * 2 ^ k : ℚ) 1000 = d at hw hpos hle
  have hdue : ¬ t + 1000 < t + d := by linarith
  have hset : failures (lim.set 7 (k + 1)) 7 = k + 1 := by
    simp [failures, PyDict.get?_set]
  generalize lim.set 7 (k + 1) = lim' at hw hset
  constructor <;>
    simp +contextual [ho, failOnce, exec, step, hp, WorkQueue.get, foreign, State.call, State.setPc, State.seen,
      RateLimitingQueue.step, DelayQueue.step, WorkQueue.step, afterReconcile,
      RateLimitingQueue.addRateLimited, RateLimitingQueue.expIface, hw, DelayQueue.addAfter, hpos,
      finally_, WorkQueue.done, DelayQueue.wakeStep, DelayQueue.loopStep, DelayQueue.file, hdue,
      WorkQueue.add, PySet.add, PySet.remove, DelayHeap.init, hset]

private theorem canon_fails (m : Nat) (hm : m ≤ 1024) {s : State (Failures Nat) Nat} {t : ℚ}
    (h : Canon defaultCfg s 0 t) :
    ∃ t', Canon defaultCfg (exec (RateLimitingQueue.expIface defaultCfg) true (fun _ => true) s
      (List.replicate m failOnce).flatten) m t' := by
  have key : ∀ (m k : Nat) (s : State (Failures Nat) Nat) (t : ℚ), k + m ≤ 1024 → Canon defaultCfg s k t →
      ∃ t', Canon defaultCfg (exec (RateLimitingQueue.expIface defaultCfg) true (fun _ => true) s
        (List.replicate m failOnce).flatten) (k + m) t' := by
    intro m
    induction m with
    | zero => intro k s t _ h; exact ⟨t, h⟩
    | succ m ih =>
      intro k s t hk h
      obtain ⟨t', h'⟩ := ih (k + 1) _ _ (by omega) (canon_fail h (by omega))
      refine ⟨t', ?_⟩
      rw [List.replicate_succ, List.flatten_cons, exec_append]
      rw [show k + (m + 1) = k + 1 + m by omega]
      exact h'
  have := key m 0 s t (by omega) h
  rwa [Nat.zero_add] at this

/-- Nothing is in the queue or on its way to it, and nothing is being processed. -/
structure Idle (s : State σ α) : Prop where
  core : s.rq.q.core = ⟨[], [], [], false⟩
  puts : s.rq.q.puts = []
  chan : s.rq.q.chan = []
  heap : s.rq.q.heap = DelayHeap.init
  pc : ∀ e, s.rq.q.pc ≠ .woke (some e)
  workers : ∀ w, (phase (s.workers w)).item = none

/-- A move that is not somebody else's call of `add` or `add_after`. -/
def notAdd : Ev α ε → Bool
  | .queue (.base (.add _)) => false
  | .queue (.addAfter _ _) => false
  | _ => true

private theorem idle_step (I : Iface σ α ε) (py38 : Bool) (isReq : α → Bool) {s : State σ α} (h : Idle s)
    (e : Ev α ε) (he : notAdd e = true) :
    Idle (step I py38 isReq s e).1 ∧ ∀ w x, .took w x ∉ (step I py38 isReq s e).2 := by
  have hset : ∀ (p : Pc α) (w : Nat), (phase p).item = none → Idle (s.setPc w p) := by
    intro p w hp
    refine ⟨h.core, h.puts, h.chan, h.heap, h.pc, fun v => ?_⟩
    simp only [State.setPc]
    split
    · exact hp
    · exact h.workers v
  cases e with
  | wake w =>
    simp only [step]; split
    · exact ⟨hset _ _ rfl, by simp⟩
    · exact ⟨h, by simp⟩
  | cancel w =>
    simp only [step]; split
    · exact ⟨hset _ _ rfl, by simp⟩
    · exact ⟨h, by simp⟩
  | requeued w =>
    simp only [step]; split
    · rename_i hp; have := h.workers w; rw [hp] at this; cases this
    · exact ⟨h, by simp⟩
  | cancelRequeue w =>
    simp only [step]; split
    · rename_i hp; have := h.workers w; rw [hp] at this; cases this
    · exact ⟨h, by simp⟩
  | finish w o env =>
    simp only [step]; split
    · rename_i hp; have := h.workers w; rw [hp] at this; cases this
    · exact ⟨h, by simp⟩
  | take w =>
    simp only [step]; split
    · simp only [WorkQueue.get, h.core, Bool.false_eq_true, if_false]
      exact ⟨h, by simp⟩
    · exact ⟨h, by simp⟩
  | queue e =>
    simp only [step]; split
    · rename_i hf
      refine ⟨?_, by simp [State.seen]⟩
      obtain ⟨⟨⟨core, clock, stop, puts, chan, heap, pc⟩, lim⟩, workers⟩ := s
      obtain ⟨rfl, rfl, rfl, rfl, hpc, hw⟩ := h
      have mk : ∀ (clock : ℚ) (stop : Bool) (pc : DelayQueue.Pc α), (∀ e, pc ≠ .woke (some e)) →
          Idle (⟨⟨⟨⟨[], [], [], false⟩, clock, stop, [], [], DelayHeap.init, pc⟩, lim⟩, workers⟩ :
            State σ α) :=
        fun clock stop pc hpc => ⟨rfl, rfl, rfl, rfl, hpc, hw⟩
      simp only [State.call, RateLimitingQueue.step]
      simp only at hpc
      cases e with
      | tick d => simp only [DelayQueue.step]; split <;> exact mk _ _ _ hpc
      | base o =>
        cases o with
        | add x => cases he
        | get => cases hf
        | done x => cases hf
        | len => exact mk _ _ _ hpc
        | isShuttingDown => exact mk _ _ _ hpc
        | shutDown => exact mk _ _ _ hpc
      | addAfter x d => cases he
      | putDone i => simp only [DelayQueue.step, List.getElem?_nil]; exact mk _ _ _ hpc
      | putCancel i => simp only [DelayQueue.step]; split <;> exact mk _ _ _ hpc
      | shutDown => exact mk _ _ _ hpc
      | wake v =>
        simp only [DelayQueue.step, DelayQueue.wakeStep]
        cases pc with
        | sleeping timer =>
          cases v with
          | stop => dsimp only; split <;> exact mk _ _ _ (by simp)
          | heartbeat => exact mk _ _ _ (by simp)
          | timer =>
            cases timer with
            | none => exact mk _ _ _ (by simp)
            | some f => dsimp only; split <;> exact mk _ _ _ (by simp)
          | item => exact mk _ _ _ (by simp)
        | _ => exact mk _ _ _ hpc
      | loop =>
        simp only [DelayQueue.step, DelayQueue.loopStep]
        cases pc with
        | top => exact mk _ _ _ (by simp)
        | popping now => exact mk _ _ _ (by simp)
        | sleeping t => exact mk _ _ _ hpc
        | woke e =>
          cases e with
          | some e => exact absurd rfl (hpc e)
          | none => dsimp only; split <;> exact mk _ _ _ (by simp)
        | draining => exact mk _ _ _ (by simp)
        | exited => exact mk _ _ _ hpc
    · exact ⟨h, by simp⟩

private theorem idle_exec (I : Iface σ α ε) (py38 : Bool) (isReq : α → Bool) (es : List (Ev α ε)) :
    ∀ s : State σ α, Idle s → (∀ e ∈ es, notAdd e = true) →
      ∀ w x, .took w x ∉ logOf I py38 isReq s es := by
  induction es with
  | nil => intro s _ _ w x; simp [logOf]
  | cons e es ih =>
    intro s h hes w x
    obtain ⟨h1, h2⟩ := idle_step I py38 isReq h e (hes e (by simp))
    simp only [logOf, List.mem_append, not_or]
    exact ⟨h2 w x, ih _ h1 (fun e he => hes e (by simp [he])) w x⟩

/-- Item 7 is added and the delay loop goes to sleep; then it fails 1024 times. -/
def failing : List (Ev Nat Unit) :=
  [.queue (.base (.add 7)), .queue .loop, .queue .loop] ++ (List.replicate 1024 failOnce).flatten

/-- **C56** is false for the default exponential limiter: the 1025th failure in a row of a request makes
`add_rate_limited` raise (`OverflowError`), and the request is dropped: unless somebody adds something to
the queue, no worker is ever given a request again. -/
theorem C56_refuted :
    let I := RateLimitingQueue.expIface defaultCfg
    let s := exec I true (fun _ => true) (init [] 0 1) failing
    let r := exec I true (fun _ => true) s [.take 0, .finish 0 .raised ()]
    logOf I true (fun _ => true) s [.take 0, .finish 0 .raised ()] =
      [.took 0 7, .reconcile 0 7, .outcome 0 7 .raised (), .done 0 7 true] ∧
    ∀ more : List (Ev Nat Unit), (∀ e ∈ more, notAdd e = true) →
      ∀ w x, .took w x ∉ logOf I true (fun _ => true) r more := by
  intro I s r
  have h0 : Canon defaultCfg (exec I true (fun _ => true) (init [] 0 1)
      [.queue (.base (.add 7)), .queue .loop, .queue .loop]) 0 0 := by
    constructor <;>
      simp +contextual [I, exec, step, init, foreign, State.call, RateLimitingQueue.step, DelayQueue.step, WorkQueue.step,
        DelayQueue.init, WorkQueue.init, WorkQueue.add, PySet.add, DelayQueue.loopStep, DelayHeap.init,
        failures]
  obtain ⟨t, h⟩ := canon_fails 1024 le_rfl h0
  rw [← exec_append] at h
  change Canon defaultCfg s 1024 t at h
  have hr : r = exec I true (fun _ => true) s [.take 0, .finish 0 .raised ()] := rfl
  clear_value s r
  obtain ⟨⟨q, lim⟩, workers⟩ := s
  obtain ⟨hq, hl, hp, ho⟩ := h
  simp only at hq hl hp ho
  subst hq
  have hw : (expWhen defaultCfg lim 7).2 = .overflow := by
    simp [expWhen, hl, mulPow, defaultCfg]
  rcases hw' : expWhen defaultCfg lim 7 with ⟨lim', res⟩
  rw [hw'] at hw
  cases hw
  refine ⟨?_, fun more hm w x => idle_exec I true _ more r ?_ hm w x⟩
  · simp [I, logOf, step, hp, WorkQueue.get, State.call, State.setPc, State.seen,
      RateLimitingQueue.step, DelayQueue.step, WorkQueue.step, afterReconcile,
      RateLimitingQueue.addRateLimited, RateLimitingQueue.expIface, hw',
      finally_, WorkQueue.done, PySet.add, PySet.remove]
  · subst hr
    constructor
    case workers =>
      intro v
      by_cases hv : v = 0 <;>
      simp [hv, ho, I, exec, step, hp, WorkQueue.get, State.call, State.setPc, State.seen,
        RateLimitingQueue.step, DelayQueue.step, WorkQueue.step, afterReconcile,
        RateLimitingQueue.addRateLimited, RateLimitingQueue.expIface, hw', phase, Phase.item,
        finally_, WorkQueue.done, PySet.add, PySet.remove]
    all_goals
      simp [I, exec, step, hp, WorkQueue.get, State.call, State.setPc, State.seen,
        RateLimitingQueue.step, DelayQueue.step, WorkQueue.step, afterReconcile,
        RateLimitingQueue.addRateLimited, RateLimitingQueue.expIface, hw',
        finally_, WorkQueue.done, PySet.add, PySet.remove]

/-- **C56** is also false when the reconciler fails to return a `Result` (for instance returns `None`):
the `AttributeError` is logged, and the request is neither retried nor forgotten by the limiter. -/
theorem C56_refuted_none (I : Iface σ Nat ε) (l : σ) (env : ε) :
    let r := exec I true (fun _ => true) (init l 0 1) [.queue (.base (.add 7)), .take 0, .finish 0 .bad env]
    logOf I true (fun _ => true) (init l 0 1) [.queue (.base (.add 7)), .take 0, .finish 0 .bad env] =
      [.took 0 7, .reconcile 0 7, .outcome 0 7 .bad env, .done 0 7 true] ∧
    r.rq.lim = l ∧
    ∀ more : List (Ev Nat ε), (∀ e ∈ more, notAdd e = true) →
      ∀ w x, .took w x ∉ logOf I true (fun _ => true) r more := by
  intro r
  refine ⟨?_, rfl, fun more hm w x => idle_exec I true _ more r ?_ hm w x⟩
  · simp [logOf, init, foreign, step, WorkQueue.get, State.call, State.setPc, State.seen, WorkQueue.add,
      RateLimitingQueue.step, DelayQueue.step, WorkQueue.step, afterReconcile, DelayQueue.init,
      WorkQueue.init, finally_, WorkQueue.done, PySet.add, PySet.remove]
  · have hr : r = exec I true (fun _ => true) (init l 0 1)
      [.queue (.base (.add 7)), .take 0, .finish 0 .bad env] := rfl
    clear_value r
    subst hr
    constructor
    case workers =>
      intro v
      by_cases hv : v = 0 <;>
      simp [hv, exec, init, foreign, step, WorkQueue.get, State.call, State.setPc, State.seen, WorkQueue.add,
        RateLimitingQueue.step, DelayQueue.step, WorkQueue.step, afterReconcile, DelayQueue.init,
        WorkQueue.init, finally_, WorkQueue.done, PySet.add, PySet.remove, phase, Phase.item]
    all_goals
      simp [exec, init, foreign, step, WorkQueue.get, State.call, State.setPc, State.seen, WorkQueue.add,
        RateLimitingQueue.step, DelayQueue.step, WorkQueue.step, afterReconcile, DelayQueue.init,
        WorkQueue.init, finally_, WorkQueue.done, PySet.add, PySet.remove]

end Aiok8s.Controller
