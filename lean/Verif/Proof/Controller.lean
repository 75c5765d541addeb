import Verif.Spec.Controller
import Verif.Proof.WorkQueue
import Verif.Proof.DelayQueue
import Mathlib.Tactic.Linarith
/-!
# Invariants of the controller's workers
-/
set_option linter.unusedSimpArgs false
namespace Aiok8s.Controller
open Aiok8s Aiok8s.RateLimiters Aiok8s.Controller.Spec
variable {σ α ε : Type} [DecidableEq α]

/-! ### The queue under foreign moves -/

theorem core_file (s : DelayQueue.State α) (e : α × ℚ) :
    ((DelayQueue.file s e).1.core = s.core ∧ (DelayQueue.file s e).2 = []) ∨
    ((DelayQueue.file s e).1.core = WorkQueue.add s.core e.1 ∧
      (DelayQueue.file s e).2 = [.loopAdd e.1 s.clock]) := by
  simp only [DelayQueue.file]
  split
  · exact Or.inl ⟨rfl, rfl⟩
  · exact Or.inr ⟨rfl, rfl⟩

/-- A foreign move adds at most one item, the one the delay loop reports. -/
theorem core_foreign (s : DelayQueue.State α) (e : DelayQueue.Ev α) (h : foreign e = true) :
    ((DelayQueue.step s e).1.core = s.core ∧ ∀ x τ, .loopAdd x τ ∉ (DelayQueue.step s e).2) ∨
    ∃ x, (DelayQueue.step s e).1.core = WorkQueue.add s.core x ∧
      ∀ y τ, .loopAdd y τ ∈ (DelayQueue.step s e).2 → y = x := by
  cases e with
  | tick d =>
    left
    simp only [DelayQueue.step]
    split <;> simp
  | base o =>
    cases o with
    | add x => exact Or.inr ⟨x, rfl, by simp [DelayQueue.step]⟩
    | get => simp [foreign] at h
    | done x => simp [foreign] at h
    | len => exact Or.inl ⟨rfl, by simp [DelayQueue.step]⟩
    | isShuttingDown => exact Or.inl ⟨rfl, by simp [DelayQueue.step]⟩
    | shutDown => exact Or.inl ⟨rfl, by simp [DelayQueue.step]⟩
  | addAfter x d =>
    simp only [DelayQueue.step, DelayQueue.addAfter]
    split
    · exact Or.inl ⟨rfl, by simp⟩
    · split
      · exact Or.inr ⟨x, rfl, by simp⟩
      · exact Or.inl ⟨rfl, by simp⟩
  | putDone i =>
    left
    simp only [DelayQueue.step]
    split
    · split <;> simp
    · simp
  | putCancel i =>
    left
    simp only [DelayQueue.step]
    split <;> simp
  | shutDown => exact Or.inl ⟨rfl, by simp [DelayQueue.step]⟩
  | wake w =>
    left
    simp only [DelayQueue.step, DelayQueue.wakeStep]
    refine ⟨?_, by simp⟩
    split
    · split
      · split <;> rfl
      · rfl
      · split
        · split <;> rfl
        · rfl
      · split <;> rfl
    · rfl
  | loop =>
    simp only [DelayQueue.step, DelayQueue.loopStep]
    split
    · left; split <;> simp
    · split
      · split
        · left; simp
        · split
          · left; simp
          · split
            · left; simp
            · rename_i x _; right; exact ⟨x, rfl, by simp⟩
      · left; simp
    · left; simp
    · split
      · left; simp
      · split
        · left; simp
        · rename_i e _
          rcases core_file s e with ⟨h1, h2⟩ | ⟨h1, h2⟩
          · left; exact ⟨h1, by simp [h2]⟩
          · right; exact ⟨e.1, h1, by rw [h2]; simp⟩
    · split
      · left; simp
      · rename_i e rest _
        rcases core_file { s with chan := rest } e with ⟨h1, h2⟩ | ⟨h1, h2⟩
        · left; exact ⟨h1, by simp [h2]⟩
        · right; exact ⟨e.1, h1, by rw [h2]; simp⟩
    · left; simp

/-! ### The invariant -/

/-- The workers are in the phases `h` and the queue agrees. -/
structure R (s : State σ α) (h : Nat → Phase α) : Prop where
  base : DelayQueue.Base s.rq.q
  inv : WorkQueue.Inv s.rq.q.core
  proc : ∀ w x, (h w).item = some x → x ∈ s.rq.q.core.processing
  uniq : ∀ v w x, (h v).item = some x → (h w).item = some x → v = w
  held : ∀ x ∈ s.rq.q.core.processing, ∃ w, (h w).item = some x

/-- The phase that belongs to a place. -/
def phase : Pc α → Phase α
  | .idle => .free
  | .reconciling x => .running x
  | .requeuing x _ => .over x
  | .sleeping => .free
  | .ended => .free

def phases (s : State σ α) : Nat → Phase α := fun w => phase (s.workers w)

theorem phases_setPc (s : State σ α) (w : Nat) (p : Pc α) :
    phases (s.setPc w p) = put (phases s) w (phase p) := by
  funext v
  simp only [phases, State.setPc, put]
  split <;> rfl

theorem put_put (h : Nat → Phase α) (w : Nat) (p q : Phase α) : put (put h w p) w q = put h w q := by
  funext v
  simp only [put]
  split <;> rfl

theorem put_self (h : Nat → Phase α) (w : Nat) (p : Phase α) : put h w p w = p := by simp [put]

theorem add_inv {c : WorkQueue.State α} (h : WorkQueue.Inv c) (x : α) :
    WorkQueue.Inv (WorkQueue.add c x) := WorkQueue.inv_step h (.add x)

theorem add_processing (c : WorkQueue.State α) (x : α) :
    (WorkQueue.add c x).processing = c.processing := by
  simp only [WorkQueue.add]
  split
  · rfl
  · split
    · rfl
    · split <;> rfl

theorem R_setPc {s : State σ α} {h : Nat → Phase α} (hr : R s h) (w : Nat) (p : Pc α) :
    R (s.setPc w p) h := ⟨hr.base, hr.inv, hr.proc, hr.uniq, hr.held⟩

theorem R_queue (I : Iface σ α ε) {s : State σ α} {h : Nat → Phase α} (hr : R s h)
    {e : DelayQueue.Ev α} (he : foreign e = true) : R (s.call I (.queue e)) h := by
  obtain ⟨h1, h2, h3, h4, h5⟩ := hr
  refine ⟨(DelayQueue.step_effect h1 e).2, ?_, ?_, h4, ?_⟩
  · show WorkQueue.Inv (DelayQueue.step s.rq.q e).1.core
    rcases core_foreign s.rq.q e he with ⟨hc, _⟩ | ⟨x, hc, _⟩
    · rw [hc]; exact h2
    · rw [hc]; exact add_inv h2 x
  · intro w x hx
    show x ∈ (DelayQueue.step s.rq.q e).1.core.processing
    rcases core_foreign s.rq.q e he with ⟨hc, _⟩ | ⟨y, hc, _⟩
    · rw [hc]; exact h3 w x hx
    · rw [hc, add_processing]; exact h3 w x hx
  · intro x hx
    change x ∈ (DelayQueue.step s.rq.q e).1.core.processing at hx
    rcases core_foreign s.rq.q e he with ⟨hc, _⟩ | ⟨y, hc, _⟩
    · rw [hc] at hx; exact h5 x hx
    · rw [hc, add_processing] at hx; exact h5 x hx

theorem R_forget (I : Iface σ α ε) {s : State σ α} {h : Nat → Phase α} (hr : R s h) (x : α) :
    R (s.call I (.forget x)) h := ⟨hr.base, hr.inv, hr.proc, hr.uniq, hr.held⟩

theorem rateLimited_eq (I : Iface σ α ε) (s : RateLimitingQueue.State σ α) (x : α) (env : ε) :
    (∃ l d, I.when s.lim x env = (l, .delay d) ∧
      RateLimitingQueue.step I s (.addRateLimited x env) =
        (⟨(DelayQueue.step s.q (.addAfter x d)).1, l⟩, .none, (DelayQueue.step s.q (.addAfter x d)).2)) ∨
    (∃ l r, I.when s.lim x env = (l, r) ∧ (∀ d, r ≠ .delay d) ∧
      RateLimitingQueue.step I s (.addRateLimited x env) = ({ s with lim := l }, .raised r, [])) := by
  simp only [RateLimitingQueue.step, RateLimitingQueue.addRateLimited]
  rcases hw : I.when s.lim x env with ⟨l, r⟩
  cases r with
  | delay d => left; exact ⟨l, d, rfl, rfl⟩
  | overflow => right; exact ⟨l, _, rfl, by simp, rfl⟩
  | valueError => right; exact ⟨l, _, rfl, by simp, rfl⟩

theorem R_rateLimited (I : Iface σ α ε) {s : State σ α} {h : Nat → Phase α} (hr : R s h) (x : α)
    (env : ε) : R (s.call I (.addRateLimited x env)) h := by
  rcases rateLimited_eq I s.rq x env with ⟨l, d, _, he⟩ | ⟨l, r, _, _, he⟩
  · have := R_queue I hr (e := .addAfter x d) rfl
    simp only [State.call, he]
    exact ⟨this.base, this.inv, this.proc, this.uniq, this.held⟩
  · simp only [State.call, he]
    exact ⟨hr.base, hr.inv, hr.proc, hr.uniq, hr.held⟩

/-- `done` and what follows. -/
theorem finally_spec (I : Iface σ α ε) (py38 : Bool) {s : State σ α} {h : Nat → Phase α} (hr : R s h)
    (w : Nat) (x : α) (hx : (h w).item = some x) (e : End) :
    (finally_ I py38 s w x e).2 = [.done w x true] ∧
    R (finally_ I py38 s w x e).1 (put h w .free) ∧
    (∃ p : Pc α, phase p = .free ∧
      (finally_ I py38 s w x e).1 = (s.call I (.queue (.base (.done x)))).setPc w p) := by
  obtain ⟨h1, h2, h3, h4, h5⟩ := hr
  have hp := h3 w x hx
  have hok : (WorkQueue.done s.rq.q.core x).2 = .ok := by
    simp only [WorkQueue.done, hp, if_true]
    split <;> rfl
  refine ⟨by simp [finally_, hok], ?_, ?_⟩
  · apply R_setPc
    refine ⟨(DelayQueue.step_effect h1 (.base (.done x))).2, WorkQueue.inv_step h2 (.done x), ?_, ?_, ?_⟩
    · intro v y hy
      simp only [put] at hy
      split at hy
      · cases hy
      · rename_i hv
        have hyp := h3 v y hy
        have hne : y ≠ x := by
          rintro rfl
          exact hv (h4 v w y hy hx)
        show y ∈ (WorkQueue.done s.rq.q.core x).1.processing
        simp only [WorkQueue.done, hp, if_true]
        split <;> simp [PySet.mem_remove, hyp, hne]
    · intro v v' y hv hv'
      simp only [put] at hv hv'
      split at hv
      · cases hv
      · split at hv'
        · cases hv'
        · exact h4 v v' y hv hv'
    · intro y hy
      change y ∈ (WorkQueue.done s.rq.q.core x).1.processing at hy
      have hy' : y ∈ s.rq.q.core.processing ∧ y ≠ x := by
        simp only [WorkQueue.done, hp, if_true] at hy
        split at hy <;> simpa [PySet.mem_remove, and_comm] using hy
      obtain ⟨v, hv⟩ := h5 y hy'.1
      refine ⟨v, ?_⟩
      have hvw : v ≠ w := by
        rintro rfl
        rw [hx] at hv
        exact hy'.2 (Option.some.inj hv).symm
      simp only [put, if_neg hvw, hv]
  · refine ⟨_, ?_, rfl⟩
    simp only [hok]
    rcases e with b | _ | _
    · cases b <;> rfl
    · rfl
    · cases py38 <;> rfl

theorem good_seen (I : Iface σ α ε) (s : State σ α) (e : RateLimitingQueue.Ev α ε)
    {h h' : Nat → Phase α} {l : List (Log α ε)} (hg : Good h l h') : Good h (s.seen I e ++ l) h' := by
  unfold State.seen
  generalize (RateLimitingQueue.step I s.rq e).2.2 = ds
  induction ds with
  | nil => exact hg
  | cons d ds ih => exact .queue ih

theorem good_append {h h' h'' : Nat → Phase α} {l l' : List (Log α ε)} (h1 : Good h l h')
    (h2 : Good h' l' h'') : Good h (l ++ l') h'' := by
  induction h1 with
  | nil => exact h2
  | took a b _ ih => exact .took a b (ih h2)
  | reconcile a _ ih => exact .reconcile a (ih h2)
  | notRequest a _ ih => exact .notRequest a (ih h2)
  | outcome a _ ih => exact .outcome a (ih h2)
  | done a _ ih => exact .done a (ih h2)
  | queue _ ih => exact .queue (ih h2)

/-- After the reconciler's end. -/
theorem after_spec (I : Iface σ α ε) (py38 : Bool) {s : State σ α} (w : Nat) (x : α)
    (hr : R s (put (phases s) w (.over x))) (o : Outcome) (env : ε) :
    Good (put (phases s) w (.over x)) (afterReconcile I py38 s w x o env).2
      (phases (afterReconcile I py38 s w x o env).1) ∧
    R (afterReconcile I py38 s w x o env).1 (phases (afterReconcile I py38 s w x o env).1) := by
  -- ending with `finally`
  have fin : ∀ (s' : State σ α) (e : End), s'.workers = s.workers →
      R s' (put (phases s) w (.over x)) →
      Good (put (phases s) w (.over x)) (finally_ I py38 s' w x e).2
        (phases (finally_ I py38 s' w x e).1) ∧
      R (finally_ I py38 s' w x e).1 (phases (finally_ I py38 s' w x e).1) := by
    intro s' e hw hr'
    obtain ⟨h1, h2, p, hp, h3⟩ := finally_spec I py38 hr' w x (by rw [put_self]; rfl) e
    have hph : phases (finally_ I py38 s' w x e).1 = put (put (phases s) w (.over x)) w .free := by
      rw [h3, phases_setPc, hp, put_put]
      congr 1
      funext v
      simp only [phases, State.call, hw]
    rw [hph, h1]
    exact ⟨.done (put_self _ _ _) (.nil _), h2⟩
  -- ending in a requeuing state
  have req : ∀ (s' s'' : State σ α) (e : RateLimitingQueue.Ev α ε) (ret : Bool),
      s'.workers = s.workers → R s' (put (phases s) w (.over x)) →
      Good (put (phases s) w (.over x)) (s''.seen I e) (phases (s'.setPc w (.requeuing x ret))) ∧
      R (s'.setPc w (.requeuing x ret)) (phases (s'.setPc w (.requeuing x ret))) := by
    intro s' s'' e ret hw hr'
    have hph : phases (s'.setPc w (.requeuing x ret)) = put (phases s) w (.over x) := by
      rw [phases_setPc]
      congr 1
      funext v
      simp only [phases, hw]
    rw [hph]
    refine ⟨?_, R_setPc hr' w _⟩
    have := good_seen I s'' e (Good.nil (ε := ε) (put (phases s) w (.over x)))
    simpa using this
  have rl : ∀ ret : Bool, ∀ r : State σ α × List (Log α ε),
      r = (match (RateLimitingQueue.step I s.rq (.addRateLimited x env)).2.1 with
        | .raised _ => finally_ I py38 (s.call I (.addRateLimited x env)) w x .exc
        | _ => ((s.call I (.addRateLimited x env)).setPc w (.requeuing x ret),
            s.seen I (.addRateLimited x env))) →
      Good (put (phases s) w (.over x)) r.2 (phases r.1) ∧ R r.1 (phases r.1) := by
    intro ret r hreq
    subst hreq
    split
    · exact fin _ _ rfl (R_rateLimited I hr x env)
    · exact req _ _ _ ret rfl (R_rateLimited I hr x env)
  cases o with
  | cancelled => exact fin s .cancelled rfl hr
  | raised => exact rl false _ rfl
  | bad => exact fin s .exc rfl hr
  | result requeue after =>
    simp only [afterReconcile]
    split
    · exact req _ _ _ true rfl (R_queue I (R_forget I hr x) rfl)
    · split
      · exact rl true _ rfl
      · exact fin _ _ rfl (R_forget I hr x)

theorem step_good (I : Iface σ α ε) (py38 : Bool) (isReq : α → Bool) (s : State σ α)
    (hr : R s (phases s)) (e : Ev α ε) :
    Good (phases s) (step I py38 isReq s e).2 (phases (step I py38 isReq s e).1) ∧
    R (step I py38 isReq s e).1 (phases (step I py38 isReq s e).1) := by
  have same : Good (phases s) ([] : List (Log α ε)) (phases s) ∧ R s (phases s) := ⟨.nil _, hr⟩
  -- a worker without an item changes its place
  have move : ∀ (w : Nat) (p : Pc α), phase (s.workers w) = .free → phase p = .free →
      Good (phases s) ([] : List (Log α ε)) (phases (s.setPc w p)) ∧
      R (s.setPc w p) (phases (s.setPc w p)) := by
    intro w p hw hp
    have : phases (s.setPc w p) = phases s := by
      rw [phases_setPc, hp]
      funext v
      simp only [put, phases]
      split
      · rename_i hv; rw [hv, hw]
      · rfl
    rw [this]
    exact ⟨.nil _, R_setPc hr w p⟩
  cases e with
  | queue e =>
    simp only [step]
    split
    · rename_i he
      have := good_seen I s (.queue e) (Good.nil (ε := ε) (phases s))
      exact ⟨by rw [List.append_nil] at this; exact this, R_queue I hr he⟩
    · exact same
  | wake w =>
    simp only [step]
    split
    · rename_i hw
      exact move w .idle (by rw [hw]; rfl) rfl
    · exact same
  | cancel w =>
    simp only [step]
    split
    · rename_i hw
      exact move w .ended (by rcases hw with hw | hw <;> rw [hw] <;> rfl) rfl
    · exact same
  | requeued w =>
    simp only [step]
    split
    · rename_i x ret hw
      have hx : phases s w = .over x := by simp [phases, hw, phase]
      obtain ⟨h1, h2, p, hp, h3⟩ := finally_spec I py38 hr w x (by rw [hx]; rfl) (.ret ret)
      have hph : phases (finally_ I py38 s w x (.ret ret)).1 = put (phases s) w .free := by
        rw [h3, phases_setPc, hp]; rfl
      rw [hph, h1]
      exact ⟨.done hx (.nil _), h2⟩
    · exact same
  | cancelRequeue w =>
    simp only [step]
    split
    · rename_i x ret hw
      have hx : phases s w = .over x := by simp [phases, hw, phase]
      obtain ⟨h1, h2, p, hp, h3⟩ := finally_spec I py38 hr w x (by rw [hx]; rfl) .cancelled
      have hph : phases (finally_ I py38 s w x .cancelled).1 = put (phases s) w .free := by
        rw [h3, phases_setPc, hp]; rfl
      rw [hph, h1]
      exact ⟨.done hx (.nil _), h2⟩
    · exact same
  | finish w o env =>
    simp only [step]
    split
    · rename_i x hw
      have hx : phases s w = .running x := by simp [phases, hw, phase]
      have hr' : R s (put (phases s) w (.over x)) := by
        have hi : ∀ v, (put (phases s) w (.over x) v).item = (phases s v).item := by
          intro v
          simp only [put]
          split
          · rename_i hv; rw [hv, hx]; rfl
          · rfl
        exact ⟨hr.base, hr.inv, fun v y hy => hr.proc v y (by rw [← hi]; exact hy),
          fun v v' y h1 h2 => hr.uniq v v' y (by rw [← hi]; exact h1) (by rw [← hi]; exact h2),
          fun y hy => (hr.held y hy).imp fun v hv => by rw [hi]; exact hv⟩
      obtain ⟨h1, h2⟩ := after_spec I py38 w x hr' o env
      exact ⟨.outcome hx h1, h2⟩
    · exact same
  | take w =>
    simp only [step]
    split
    · rename_i hw
      have hf : phases s w = .free := by simp [phases, hw, phase]
      split
      · rename_i x hx
        obtain ⟨q1, q2, q3⟩ := WorkQueue.get_item hx
        have hnp := hr.inv.q_proc x q1
        have hno : ∀ v, (phases s v).item ≠ some x := fun v hv => hnp (hr.proc v x hv)
        -- the state after `get`
        have hproc : ∀ y, y ∈ s.rq.q.core.processing → y ∈ (WorkQueue.get s.rq.q.core).1.processing := by
          intro y hy
          simp only [WorkQueue.get]
          split
          · split <;> exact hy
          · simp [PySet.mem_add, hy]
        have hR : ∀ p : Phase α, p.item = some x →
            R (s.call I (.queue (.base .get))) (put (phases s) w p) := by
          intro p hp
          refine ⟨(DelayQueue.step_effect hr.base (.base .get)).2, WorkQueue.inv_step hr.inv .get, ?_, ?_, ?_⟩
          · intro v y hy
            simp only [put] at hy
            show y ∈ (WorkQueue.get s.rq.q.core).1.processing
            split at hy
            · rw [hp] at hy; cases hy; exact q2
            · exact hproc y (hr.proc v y hy)
          · intro v v' y h1 h2
            simp only [put] at h1 h2
            split at h1
            · rename_i hv
              rw [hp] at h1; cases h1
              split at h2
              · rename_i hv'; rw [hv, hv']
              · exact absurd h2 (hno v')
            · split at h2
              · rw [hp] at h2; cases h2
                exact absurd h1 (hno v)
              · exact hr.uniq v v' y h1 h2
          · intro y hy
            change y ∈ (WorkQueue.get s.rq.q.core).1.processing at hy
            by_cases hyx : y = x
            · exact ⟨w, by rw [put_self, hp, hyx]⟩
            · have hy' : y ∈ s.rq.q.core.processing := by
                simp only [WorkQueue.get] at hx hy
                cases hq : s.rq.q.core.queue with
                | nil => rw [hq] at hx; cases hs : s.rq.q.core.shuttingDown <;> simp [hs] at hx
                | cons z zs =>
                  rw [hq] at hx hy
                  simp only [WorkQueue.Out.item.injEq] at hx
                  subst hx
                  simpa [PySet.mem_add, hyx] using hy
              obtain ⟨v, hv⟩ := hr.held y hy'
              refine ⟨v, ?_⟩
              have hvw : v ≠ w := by
                rintro rfl
                rw [hf] at hv
                cases hv
              simp only [put, if_neg hvw, hv]
        split
        · have hph : phases ((s.call I (.queue (.base .get))).setPc w (.reconciling x)) =
              put (put (phases s) w (.taken x)) w (.running x) := by
            rw [phases_setPc, put_put]; rfl
          rw [hph]
          refine ⟨.took hf hno (.reconcile (put_self _ _ _) (.nil _)), ?_⟩
          rw [put_put]
          exact R_setPc (hR _ rfl) w _
        · obtain ⟨h1, h2, p, hp, h3⟩ := finally_spec I py38 (R_forget I (hR (.over x) rfl) x) w x
            (by rw [put_self]; rfl) (.ret true)
          have hph : phases (finally_ I py38 ((s.call I (.queue (.base .get))).call I (.forget x)) w x
              (.ret true)).1 = put (put (phases s) w (.over x)) w .free := by
            rw [h3, phases_setPc, hp, put_put]; rfl
          simp only
          rw [hph, h1]
          refine ⟨.took hf hno (.notRequest (put_self _ _ _) (.done (put_self _ _ _) ?_)), h2⟩
          rw [put_put, put_put, put_put]
          exact .nil _
      · exact move w .sleeping hf rfl
      · exact same
    · exact same

theorem R_init (l : σ) (t : ℚ) (n : Nat) : R (init l t n : State σ α) (phases (init l t n : State σ α)) := by
  have hph : ∀ w, phases (init l t n : State σ α) w = .free := by
    intro w
    simp only [phases, init]
    split <;> rfl
  refine ⟨DelayQueue.base_init t, WorkQueue.inv_init, ?_, ?_, ?_⟩
  · intro w x hx; rw [hph] at hx; cases hx
  · intro v w x hx; rw [hph] at hx; cases hx
  · intro x hx; cases hx

theorem exec_good (I : Iface σ α ε) (py38 : Bool) (isReq : α → Bool) (es : List (Ev α ε))
    (s : State σ α) (hr : R s (phases s)) :
    Good (phases s) (logOf I py38 isReq s es) (phases (exec I py38 isReq s es)) ∧
    R (exec I py38 isReq s es) (phases (exec I py38 isReq s es)) := by
  induction es generalizing s with
  | nil => exact ⟨.nil _, hr⟩
  | cons e es ih =>
    obtain ⟨h1, h2⟩ := step_good I py38 isReq s hr e
    obtain ⟨h3, h4⟩ := ih _ h2
    exact ⟨good_append h1 h3, h4⟩

end Aiok8s.Controller
