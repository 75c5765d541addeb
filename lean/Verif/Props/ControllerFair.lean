import Verif.Proof.Controller
import Verif.Props.DelayQueueFair
import Mathlib.Tactic.IntervalCases
import Mathlib.Tactic.NormNum
/-!
# Requests come to the reconciler: C95
-/
namespace Aiok8s.Controller
open Aiok8s Aiok8s.RateLimiters Aiok8s.Controller.Spec
variable {σ α ε : Type} [DecidableEq α]

/-! ### Single moves -/

/-- What one move does to queue and workers. -/
private inductive Move (s s' : State σ α) (e : Ev α ε) (l : List (Log α ε)) (g : DelayQueue.Ev α) : Prop
  | others (h : foreign g = true) (hw : s'.workers = s.workers)
  | took (w : Nat) (x : α) (he : e = .take w) (hi : s.workers w = .idle) (hg : g = .base .get)
      (hx : (WorkQueue.get s.rq.q.core).2 = .item x) (hl : .reconcile w x ∈ l)
      (hw : s'.workers = fun v => if v = w then .reconciling x else s.workers v)
  | requeue (w : Nat) (x : α) (d : ℚ) (b : Bool) (he : ∃ o env, e = .finish w o env) (hi : s.workers w = .reconciling x) (hg : g = .addAfter x d)
      (hw : s'.workers = fun v => if v = w then .requeuing x b else s.workers v)
  | done (w : Nat) (x : α) (p : Pc α) (he : s.workers w = .reconciling x → ∃ o env, e = .finish w o env)
      (hi : (phase (s.workers w)).item = some x) (hg : g = .base (.done x))
      (hp : phase p = .free) (hw : s'.workers = fun v => if v = w then p else s.workers v)
  | rest (w : Nat) (p : Pc α) (hi : phase (s.workers w) = .free)
      (hp : p = .ended ∨ p = .idle ∨ (p = .sleeping ∧ s.rq.q.core.queue = [])) (hg : g = .tick 0)
      (hw : s'.workers = fun v => if v = w then p else s.workers v)

private theorem tick0 (q : DelayQueue.State α) : (DelayQueue.step q (.tick 0)).1 = q := by
  simp [DelayQueue.step]

private theorem finally_move (I : Iface σ α ε) (py38 : Bool) {s₀ s : State σ α} (hr : R s (phases s)) {w : Nat}
    {x : α} (hq : s.rq.q = s₀.rq.q) (hws : s.workers = s₀.workers)
    (hi : (phase (s.workers w)).item = some x) (e : End) {ev : Ev α ε} {l : List (Log α ε)}
    (hev : s₀.workers w = .reconciling x → ∃ o env, ev = .finish w o env) :
    (finally_ I py38 s w x e).1.rq.q = (DelayQueue.step s₀.rq.q (.base (.done x))).1 ∧
    Move s₀ (finally_ I py38 s w x e).1 ev l (.base (.done x)) := by
  obtain ⟨-, -, p, hp, he⟩ := finally_spec I py38 hr w x hi e
  rw [he]
  refine ⟨by rw [← hq]; rfl, .done w x p hev (by rw [← hws]; exact hi) rfl hp ?_⟩
  rw [← hws]
  rfl

private theorem move (I : Iface σ α ε) (py38 : Bool) (s : State σ α) (hr : R s (phases s)) (e : Ev α ε) :
    ∃ g, (∀ e', e = .queue e' → foreign e' = true → g = e') ∧
      (DelayQueue.isShutDown g = true → e = .queue g) ∧
      (step I py38 (fun _ => true) s e).1.rq.q = (DelayQueue.step s.rq.q g).1 ∧
      Move s (step I py38 (fun _ => true) s e).1 e (step I py38 (fun _ => true) s e).2 g := by
  have none_ : ∀ {r : State σ α × List (Log α ε)}, (∀ e', e ≠ .queue e') → r = (s, []) →
      ∃ g, (∀ e', e = .queue e' → foreign e' = true → g = e') ∧
      (DelayQueue.isShutDown g = true → e = .queue g) ∧ r.1.rq.q = (DelayQueue.step s.rq.q g).1 ∧
      Move s r.1 e r.2 g := by
    rintro r h rfl
    exact ⟨.tick 0, fun e' he => absurd he (h e'), by simp [DelayQueue.isShutDown], (tick0 _).symm,
      .others rfl rfl⟩
  cases e with
  | queue e =>
    simp only [step]
    split
    · rename_i h
      exact ⟨e, by rintro e' ⟨⟩ _; rfl, fun _ => rfl, rfl, .others h rfl⟩
    · rename_i h
      exact ⟨.tick 0, by rintro e' ⟨⟩ h'; exact absurd h' h, by simp [DelayQueue.isShutDown], (tick0 _).symm,
        .others rfl rfl⟩
  | take w =>
    by_cases hw : s.workers w = .idle
    · cases hg : (WorkQueue.get s.rq.q.core).2 with
      | item x =>
        refine ⟨.base .get, by simp, by simp [DelayQueue.isShutDown], ?_, .took w x rfl hw rfl hg ?_ ?_⟩ <;>
          simp [step, hw, hg, State.setPc, State.call, RateLimitingQueue.step]
      | quit =>
        refine ⟨.tick 0, by simp, by simp [DelayQueue.isShutDown], ?_,
          .rest w .sleeping (by rw [hw]; rfl) (.inr (.inr ⟨rfl, ?_⟩)) rfl ?_⟩
        · rw [tick0]; simp [step, hw, hg, State.setPc]
        · cases hq : s.rq.q.core.queue with
          | nil => rfl
          | cons a r => simp [WorkQueue.get, hq] at hg
        · simp [step, hw, hg, State.setPc]
      | _ => exact none_ (by simp) (by simp [step, hw, hg])
    · exact none_ (by simp) (by simp [step, hw])
  | finish w o env =>
    cases hw : s.workers w with
    | reconciling x =>
      have hst : step I py38 (fun _ => true) s (.finish w o env) =
          ((afterReconcile I py38 s w x o env).1,
            .outcome w x o env :: (afterReconcile I py38 s w x o env).2) := by
        simp only [step, hw]
      have hi : (phase (s.workers w)).item = some x := by rw [hw]; rfl
      have fin : ∀ (s1 : State σ α) (end_ : End), R s1 (phases s1) → s1.rq.q = s.rq.q → s1.workers = s.workers →
          (afterReconcile I py38 s w x o env).1 = (finally_ I py38 s1 w x end_).1 →
          ∃ g, (∀ e', Ev.finish w o env = .queue e' → foreign e' = true → g = e') ∧
          (DelayQueue.isShutDown g = true → Ev.finish w o env = .queue g) ∧
          (step I py38 (fun _ => true) s (.finish w o env)).1.rq.q = (DelayQueue.step s.rq.q g).1 ∧
          Move s (step I py38 (fun _ => true) s (.finish w o env)).1 (.finish w o env)
            (step I py38 (fun _ => true) s (.finish w o env)).2 g := by
        intro s1 end_ hr1 hq hws he
        obtain ⟨h1, h2⟩ := finally_move I py38 (s₀ := s) (w := w) (x := x) hr1 hq hws (by rw [hws]; exact hi) end_
          (l := (step I py38 (fun _ => true) s (.finish w o env)).2)
          (ev := .finish w o env) (fun _ => ⟨o, env, rfl⟩)
        refine ⟨.base (.done x), by simp, by simp [DelayQueue.isShutDown], ?_, ?_⟩
        · rw [hst]; simp only; rw [he]; exact h1
        · have : (step I py38 (fun _ => true) s (.finish w o env)).1 = (finally_ I py38 s1 w x end_).1 := by
            rw [hst]; exact he
          rw [this]; exact h2
      have req : ∀ (s1 : State σ α) (d : ℚ) (b : Bool), s1.rq.q = (DelayQueue.step s.rq.q (.addAfter x d)).1 →
          s1.workers = s.workers → (afterReconcile I py38 s w x o env).1 = s1.setPc w (.requeuing x b) →
          ∃ g, (∀ e', Ev.finish w o env = .queue e' → foreign e' = true → g = e') ∧
          (DelayQueue.isShutDown g = true → Ev.finish w o env = .queue g) ∧
          (step I py38 (fun _ => true) s (.finish w o env)).1.rq.q = (DelayQueue.step s.rq.q g).1 ∧
          Move s (step I py38 (fun _ => true) s (.finish w o env)).1 (.finish w o env)
            (step I py38 (fun _ => true) s (.finish w o env)).2 g := by
        intro s1 d b hq hws he
        have h1 : (step I py38 (fun _ => true) s (.finish w o env)).1 = s1.setPc w (.requeuing x b) := by
          rw [hst]; exact he
        refine ⟨.addAfter x d, by simp, by simp [DelayQueue.isShutDown], by rw [h1]; exact hq,
          .requeue w x d b ⟨o, env, rfl⟩ hw rfl (by rw [h1, ← hws]; rfl)⟩
      have rl : ∀ b : Bool, (afterReconcile I py38 s w x o env) =
          (match (RateLimitingQueue.step I s.rq (.addRateLimited x env)).2.1 with
            | .raised _ => finally_ I py38 (s.call I (.addRateLimited x env)) w x .exc
            | _ => ((s.call I (.addRateLimited x env)).setPc w (.requeuing x b),
                s.seen I (.addRateLimited x env))) →
          ∃ g, (∀ e', Ev.finish w o env = .queue e' → foreign e' = true → g = e') ∧
          (DelayQueue.isShutDown g = true → Ev.finish w o env = .queue g) ∧
          (step I py38 (fun _ => true) s (.finish w o env)).1.rq.q = (DelayQueue.step s.rq.q g).1 ∧
          Move s (step I py38 (fun _ => true) s (.finish w o env)).1 (.finish w o env)
            (step I py38 (fun _ => true) s (.finish w o env)).2 g := by
        intro b he
        rcases rateLimited_eq I s.rq x env with ⟨l, d, hwh, hrl⟩ | ⟨l, r, hwh, _, hrl⟩
        · rw [hrl] at he
          exact req (s.call I (.addRateLimited x env)) d b (by simp only [State.call, hrl]) rfl (by rw [he])
        · rw [hrl] at he
          exact fin (s.call I (.addRateLimited x env)) .exc (R_rateLimited I hr x env)
            (by simp only [State.call, hrl]) rfl (by rw [he])
      cases o with
      | cancelled => exact fin s .cancelled hr rfl rfl rfl
      | bad => exact fin s .exc hr rfl rfl rfl
      | raised => exact rl false rfl
      | result r d =>
        by_cases hd : d = 0
        · cases r with
          | true => exact rl true (by subst hd; simp only [afterReconcile]; rw [if_neg (by simp)]; rfl)
          | false => exact fin (s.call I (.forget x)) (.ret true) (R_forget I hr x) rfl rfl (by simp [afterReconcile, hd])
        · exact req ((s.call I (.forget x)).call I (.queue (.addAfter x d))) d true rfl rfl
            (by simp [afterReconcile, hd])
    | _ => exact none_ (by simp) (by simp [step, hw])
  | requeued w =>
    cases hw : s.workers w with
    | requeuing x b =>
      obtain ⟨h1, h2⟩ := finally_move I py38 (s₀ := s) (w := w) (x := x) hr rfl rfl (by rw [hw]; rfl) (.ret b)
        (l := (step I py38 (fun _ => true) s (.requeued w)).2) (ev := .requeued w) (by simp [hw])
      have he : (step I py38 (fun _ => true) s (.requeued w : Ev α ε)) = finally_ I py38 s w x (.ret b) := by
        simp only [step, hw]
      refine ⟨.base (.done x), by simp, by simp [DelayQueue.isShutDown], by rw [he]; exact h1, ?_⟩
      have he1 : (step I py38 (fun _ => true) s (.requeued w : Ev α ε)).1 = (finally_ I py38 s w x (.ret b)).1 := by
        rw [he]
      rw [he1]; exact h2
    | _ => exact none_ (by simp) (by simp [step, hw])
  | cancelRequeue w =>
    cases hw : s.workers w with
    | requeuing x b =>
      obtain ⟨h1, h2⟩ := finally_move I py38 (s₀ := s) (w := w) (x := x) hr rfl rfl (by rw [hw]; rfl) .cancelled
        (l := (step I py38 (fun _ => true) s (.cancelRequeue w)).2) (ev := .cancelRequeue w) (by simp [hw])
      have he : (step I py38 (fun _ => true) s (.cancelRequeue w : Ev α ε)) = finally_ I py38 s w x .cancelled := by
        simp only [step, hw]
      refine ⟨.base (.done x), by simp, by simp [DelayQueue.isShutDown], by rw [he]; exact h1, ?_⟩
      have he1 : (step I py38 (fun _ => true) s (.cancelRequeue w : Ev α ε)).1 =
          (finally_ I py38 s w x .cancelled).1 := by rw [he]
      rw [he1]; exact h2
    | _ => exact none_ (by simp) (by simp [step, hw])
  | wake w =>
    by_cases hw : s.workers w = .sleeping
    · refine ⟨.tick 0, by simp, by simp [DelayQueue.isShutDown], ?_, .rest w .idle (by rw [hw]; rfl) (.inr (.inl rfl)) rfl ?_⟩
      · rw [tick0]; simp [step, hw, State.setPc]
      · simp [step, hw, State.setPc]
    · exact none_ (by simp) (by simp [step, hw])
  | cancel w =>
    by_cases hw : s.workers w = .idle ∨ s.workers w = .sleeping
    · refine ⟨.tick 0, by simp, by simp [DelayQueue.isShutDown], ?_,
        .rest w .ended (by rcases hw with hw | hw <;> rw [hw] <;> rfl) (.inl rfl) rfl ?_⟩
      · rw [tick0]; simp [step, hw, State.setPc]
      · simp [step, hw, State.setPc]
    · exact none_ (by simp) (by simp [step, hw])

/-- A reconciler's end moves the worker on. -/
private theorem finish_leaves (I : Iface σ α ε) (py38 : Bool) (s : State σ α) {w : Nat} {x : α} (o : Outcome)
    (env : ε) (hw : s.workers w = .reconciling x) (y : α) :
    (step I py38 (fun _ => true) s (.finish w o env)).1.workers w ≠ .reconciling y := by
  have fin : ∀ (s1 : State σ α) (e : End), (finally_ I py38 s1 w x e).1.workers w ≠ .reconciling y := by
    intro s1 e
    simp only [finally_, State.setPc, if_true]
    split
    · simp
    · rcases e with b | _ | _
      · cases b <;> simp
      · simp
      · cases py38 <;> simp
  simp only [step, hw]
  cases o with
  | cancelled => exact fin _ _
  | bad => exact fin _ _
  | raised =>
    simp only [afterReconcile]
    split
    · exact fin _ _
    · simp [State.setPc]
  | result r d =>
    simp only [afterReconcile]
    split
    · simp [State.setPc]
    · split
      · split
        · exact fin _ _
        · simp [State.setPc]
      · exact fin _ _

private theorem requeued_leaves (I : Iface σ α ε) (py38 : Bool) (s : State σ α) {w : Nat} {x : α} {b : Bool}
    (hw : s.workers w = .requeuing x b) :
    phase ((step I py38 (fun _ => true) s (.requeued w : Ev α ε)).1.workers w) = .free := by
  simp only [step, hw, finally_, State.setPc, if_true]
  split
  · rfl
  · cases b <;> rfl

/-! ### The work queue -/

/-- What a move does to the work queue. -/
private theorem core_move {q : DelayQueue.State α} {s s' : State σ α} {e : Ev α ε}
    {l : List (Log α ε)} {g : DelayQueue.Ev α} (hm : Move s s' e l g) (hq : q = s.rq.q) :
    (DelayQueue.step q g).1.core = q.core ∨ (∃ y, (DelayQueue.step q g).1.core = WorkQueue.add q.core y) ∨
    (∃ w y, (WorkQueue.get q.core).2 = .item y ∧ .reconcile w y ∈ l ∧
      (DelayQueue.step q g).1.core = (WorkQueue.get q.core).1) ∨
    ∃ w y, (phase (s.workers w)).item = some y ∧ (DelayQueue.step q g).1.core = (WorkQueue.done q.core y).1 := by
  subst hq
  have other : foreign g = true → (DelayQueue.step s.rq.q g).1.core = s.rq.q.core ∨
      (∃ y, (DelayQueue.step s.rq.q g).1.core = WorkQueue.add s.rq.q.core y) := by
    intro h
    rcases core_foreign s.rq.q g h with ⟨h, -⟩ | ⟨y, h, -⟩
    · exact .inl h
    · exact .inr ⟨y, h⟩
  cases hm with
  | others h _ => rcases other h with h | h; exacts [.inl h, .inr (.inl h)]
  | took w x _ hi hg hx hl hw => subst hg; exact .inr (.inr (.inl ⟨w, x, hx, hl, rfl⟩))
  | requeue w x d b _ hi hg hw => subst hg; rcases other rfl with h | h; exacts [.inl h, .inr (.inl h)]
  | done w x p _ hi hg hp hw => subst hg; exact .inr (.inr (.inr ⟨w, x, hi, rfl⟩))
  | rest w p hi hp hg hw => subst hg; rcases other rfl with h | h; exacts [.inl h, .inr (.inl h)]

private theorem add_dirty {c : WorkQueue.State α} (x : α) (h : c.shuttingDown = false) :
    x ∈ (WorkQueue.add c x).dirty := by
  simp only [WorkQueue.add, h]
  split
  · contradiction
  · split
    · assumption
    · split <;> simp [PySet.mem_add]

private theorem add_grows (c : WorkQueue.State α) (y : α) : (∀ x ∈ c.dirty, x ∈ (WorkQueue.add c y).dirty) ∧
    (∃ post, (WorkQueue.add c y).queue = c.queue ++ post) ∧
    (WorkQueue.add c y).shuttingDown = c.shuttingDown := by
  simp only [WorkQueue.add]
  split
  · exact ⟨fun _ h => h, ⟨[], by simp⟩, rfl⟩
  · split
    · exact ⟨fun _ h => h, ⟨[], by simp⟩, rfl⟩
    · split
      · exact ⟨fun x h => by simp [PySet.mem_add, h], ⟨[], by simp⟩, rfl⟩
      · exact ⟨fun x h => by simp [PySet.mem_add, h], ⟨[y], rfl⟩, rfl⟩

private theorem done_grows (c : WorkQueue.State α) (y : α) : (WorkQueue.done c y).1.dirty = c.dirty ∧
    (∃ post, (WorkQueue.done c y).1.queue = c.queue ++ post) ∧
    (WorkQueue.done c y).1.shuttingDown = c.shuttingDown := by
  simp only [WorkQueue.done]
  split
  · split
    · exact ⟨rfl, ⟨[y], rfl⟩, rfl⟩
    · exact ⟨rfl, ⟨[], by simp⟩, rfl⟩
  · exact ⟨rfl, ⟨[], by simp⟩, rfl⟩

private theorem get_head {c : WorkQueue.State α} {y : α} (h : (WorkQueue.get c).2 = .item y) :
    ∃ rest, c.queue = y :: rest ∧ (WorkQueue.get c).1.queue = rest ∧
      (WorkQueue.get c).1.dirty = PySet.remove c.dirty y ∧ (WorkQueue.get c).1.shuttingDown = c.shuttingDown := by
  cases hq : c.queue with
  | nil => simp only [WorkQueue.get, hq] at h; split at h <;> simp at h
  | cons a r =>
    simp only [WorkQueue.get, hq, WorkQueue.Out.item.injEq] at h
    subst h
    exact ⟨r, rfl, by simp [WorkQueue.get, hq], by simp [WorkQueue.get, hq], by simp [WorkQueue.get, hq]⟩

/-! ### Endless runs -/

section Run
variable {I : Iface σ α ε} {py38 : Bool} {l : σ} {t : ℚ} {n : Nat} {f : Nat → Ev α ε}

private theorem exec_app (s : State σ α) (as bs : List (Ev α ε)) :
    exec I py38 (fun _ => true) s (as ++ bs) = exec I py38 (fun _ => true) (exec I py38 (fun _ => true) s as) bs := by
  induction as generalizing s with
  | nil => rfl
  | cons a as ih => exact ih _

theorem at_next (m : Nat) :
    at_ I py38 l t n f (m + 1) = (step I py38 (fun _ => true) (at_ I py38 l t n f m) (f m)).1 := by
  simp only [at_, List.range_succ, List.map_append, List.map_cons, List.map_nil, exec_app]
  rfl

private theorem at_R (m : Nat) : R (at_ I py38 l t n f m) (phases (at_ I py38 l t n f m)) := by
  induction m with
  | zero => exact R_init l t n
  | succ m ih => rw [at_next]; exact (step_good I py38 _ _ ih _).2

private theorem at_move (m : Nat) : ∃ g, (∀ e', f m = .queue e' → foreign e' = true → g = e') ∧
      (DelayQueue.isShutDown g = true → f m = .queue g) ∧
      (at_ I py38 l t n f (m + 1)).rq.q = (DelayQueue.step (at_ I py38 l t n f m).rq.q g).1 ∧
      Move (at_ I py38 l t n f m) (at_ I py38 l t n f (m + 1)) (f m) (logAt I py38 l t n f m) g := by
  rw [at_next]
  exact move I py38 _ (at_R m) (f m)

private theorem at_core (m : Nat) :
    (at_ I py38 l t n f (m + 1)).rq.q.core = (at_ I py38 l t n f m).rq.q.core ∨
    (∃ y, (at_ I py38 l t n f (m + 1)).rq.q.core = WorkQueue.add (at_ I py38 l t n f m).rq.q.core y) ∨
    (∃ w y, (WorkQueue.get (at_ I py38 l t n f m).rq.q.core).2 = .item y ∧ .reconcile w y ∈ logAt I py38 l t n f m ∧
      (at_ I py38 l t n f (m + 1)).rq.q.core = (WorkQueue.get (at_ I py38 l t n f m).rq.q.core).1) ∨
    ∃ w y, (phase ((at_ I py38 l t n f m).workers w)).item = some y ∧
      (at_ I py38 l t n f (m + 1)).rq.q.core = (WorkQueue.done (at_ I py38 l t n f m).rq.q.core y).1 := by
  obtain ⟨g, -, -, h, hm⟩ := at_move (I := I) (py38 := py38) (l := l) (t := t) (n := n) (f := f) m
  have := core_move hm rfl
  rw [← h] at this
  exact this

private theorem at_running (m : Nat) : (at_ I py38 l t n f m).rq.q.core.shuttingDown = false := by
  induction m with
  | zero => rfl
  | succ m ih =>
    rcases at_core (I := I) (py38 := py38) (l := l) (t := t) (n := n) (f := f) m with
      h | ⟨y, h⟩ | ⟨w, y, h1, -, h⟩ | ⟨w, y, -, h⟩ <;> rw [h]
    · exact ih
    · rw [(add_grows _ _).2.2, ih]
    · obtain ⟨_, _, _, _, h⟩ := get_head h1; rw [h, ih]
    · rw [(done_grows _ _).2.2, ih]

/-- A worker that has an item is done with it at some time. -/
private theorem frees (hf : Fair I py38 l t n f) (u : Nat) (y : α) (N : Nat)
    (h : (phase ((at_ I py38 l t n f N).workers u)).item = some y) :
    ∃ m, N ≤ m ∧ (phase ((at_ I py38 l t n f m).workers u)).item = some y ∧
      (at_ I py38 l t n f (m + 1)).rq.q.core = (WorkQueue.done (at_ I py38 l t n f m).rq.q.core y).1 ∧
      phase ((at_ I py38 l t n f (m + 1)).workers u) = .free := by
  by_contra hc
  have keep : ∀ m, N ≤ m → (phase ((at_ I py38 l t n f m).workers u)).item = some y →
      (phase ((at_ I py38 l t n f (m + 1)).workers u)).item = some y ∧
      ((∃ b, (at_ I py38 l t n f m).workers u = .requeuing y b) →
        ∃ b, (at_ I py38 l t n f (m + 1)).workers u = .requeuing y b) := by
    intro m hm hy
    obtain ⟨g, -, -, hq, hmv⟩ := at_move (I := I) (py38 := py38) (l := l) (t := t) (n := n) (f := f) m
    cases hmv with
    | others _ hw => rw [hw]; exact ⟨hy, id⟩
    | took w x _ hi _ _ _ hw =>
      have : u ≠ w := by rintro rfl; rw [hi] at hy; simp [phase, Phase.item] at hy
      simp only [hw, if_neg this]; exact ⟨hy, id⟩
    | requeue w x d b _ hi _ hw =>
      by_cases hu : u = w
      · subst hu
        rw [hi] at hy
        simp only [phase, Phase.item, Option.some.injEq] at hy
        subst hy
        simp only [hw, if_true]
        exact ⟨rfl, fun _ => ⟨b, rfl⟩⟩
      · simp only [hw, if_neg hu]; exact ⟨hy, id⟩
    | done w x p _ hi hg hp hw =>
      by_cases hu : u = w
      · subst hu
        have hxy : x = y := by rw [hi] at hy; exact Option.some.inj hy
        subst hxy
        exact absurd ⟨m, hm, hy, by rw [hq, hg]; rfl, by simp [hw, hp]⟩ hc
      · simp only [hw, if_neg hu]; exact ⟨hy, id⟩
    | rest w p hi _ _ hw =>
      have : u ≠ w := by rintro rfl; rw [hi] at hy; simp [Phase.item] at hy
      simp only [hw, if_neg this]; exact ⟨hy, id⟩
  have holds : ∀ m, N ≤ m → (phase ((at_ I py38 l t n f m).workers u)).item = some y := by
    intro m hm
    induction m, hm using Nat.le_induction with
    | base => exact h
    | succ m hm ih => exact (keep m hm ih).1
  have alive : ∀ m, N ≤ m → (at_ I py38 l t n f m).workers u ≠ .ended := by
    intro m hm he
    have := holds m hm
    rw [he] at this
    simp [phase, Phase.item] at this
  have kinds : ∀ m, N ≤ m → (at_ I py38 l t n f m).workers u = .reconciling y ∨
      ∃ b, (at_ I py38 l t n f m).workers u = .requeuing y b := by
    intro m hm
    have := holds m hm
    cases hw : (at_ I py38 l t n f m).workers u <;> rw [hw] at this <;> simp_all [phase, Phase.item]
  obtain ⟨m1, o, env, h1, hf1⟩ := hf.finish u N (alive N (le_refl _))
  have req : ∃ b, (at_ I py38 l t n f (m1 + 1)).workers u = .requeuing y b := by
    rcases kinds (m1 + 1) (by omega) with hk | hk
    · rcases kinds m1 h1 with hk' | hk'
      · rw [at_next, hf1] at hk
        exact absurd hk (finish_leaves I py38 _ o env hk' y)
      · exact (keep m1 h1 (holds m1 h1)).2 hk'
    · exact hk
  have req' : ∀ m, m1 + 1 ≤ m → ∃ b, (at_ I py38 l t n f m).workers u = .requeuing y b := by
    intro m hm
    induction m, hm using Nat.le_induction with
    | base => exact req
    | succ m hm ih => exact (keep m (by omega) (holds m (by omega))).2 ih
  obtain ⟨m2, h2, hf2⟩ := hf.requeued u (m1 + 1) (alive _ (by omega))
  obtain ⟨b, hb⟩ := req' m2 h2
  have := requeued_leaves I py38 _ (ε := ε) hb
  rw [← hf2, ← at_next] at this
  have h3 := holds (m2 + 1) (by omega)
  rw [this] at h3
  simp [Phase.item] at h3

/-- The item `x` is not given to the reconciler from `N` on. -/
private def Never (I : Iface σ α ε) (py38 : Bool) (l : σ) (t : ℚ) (n : Nat) (f : Nat → Ev α ε) (x : α) (N : Nat) :
    Prop := ∀ m v, N ≤ m → .reconcile v x ∉ logAt I py38 l t n f m

private theorem dirty_keeps {x : α} {N : Nat} (hn : Never I py38 l t n f x N)
    (h : x ∈ (at_ I py38 l t n f N).rq.q.core.dirty) (m : Nat) (hm : N ≤ m) :
    x ∈ (at_ I py38 l t n f m).rq.q.core.dirty := by
  induction m, hm using Nat.le_induction with
  | base => exact h
  | succ m hm ih =>
    rcases at_core (I := I) (py38 := py38) (l := l) (t := t) (n := n) (f := f) m with
      h | ⟨y, h⟩ | ⟨w, y, h1, h2, h⟩ | ⟨w, y, -, h⟩ <;> rw [h]
    · exact ih
    · exact (add_grows _ _).1 x ih
    · obtain ⟨_, _, _, h4, _⟩ := get_head h1
      have : x ≠ y := by rintro rfl; exact hn m w hm h2
      rw [h4, PySet.mem_remove]
      simp [ih, this]
    · rw [(done_grows _ _).1]; exact ih

/-- The items before `x` do not become more. -/
private theorem queue_keeps {x : α} {N : Nat} (hn : Never I py38 l t n f x N) {pre post : List α}
    (h : (at_ I py38 l t n f N).rq.q.core.queue = pre ++ x :: post) (m : Nat) (hm : N ≤ m) :
    ∃ pre' post', (at_ I py38 l t n f m).rq.q.core.queue = pre' ++ x :: post' ∧ pre'.length ≤ pre.length := by
  induction m, hm using Nat.le_induction with
  | base => exact ⟨pre, post, h, le_refl _⟩
  | succ m hm ih =>
    obtain ⟨p, q, ih, hl⟩ := ih
    rcases at_core (I := I) (py38 := py38) (l := l) (t := t) (n := n) (f := f) m with
      h | ⟨y, h⟩ | ⟨w, y, h1, h2, h⟩ | ⟨w, y, -, h⟩ <;> rw [h]
    · exact ⟨p, q, ih, hl⟩
    · obtain ⟨r, hr⟩ := (add_grows (at_ I py38 l t n f m).rq.q.core y).2.1
      exact ⟨p, q ++ r, by rw [hr, ih]; simp, hl⟩
    · obtain ⟨r, h3, h4, _, _⟩ := get_head h1
      rw [ih] at h3
      cases p with
      | nil =>
        simp only [List.nil_append, List.cons.injEq] at h3
        exact absurd (h3.1 ▸ h2) (hn m w hm)
      | cons a p =>
        simp only [List.cons_append, List.cons.injEq] at h3
        exact ⟨p, q, by rw [h4, h3.2], by simp only [List.length_cons] at hl; omega⟩
    · obtain ⟨r, hr⟩ := (done_grows (at_ I py38 l t n f m).rq.q.core y).2.1
      exact ⟨p, q ++ r, by rw [hr, ih]; simp, hl⟩

/-- While the queue is not empty, the worker that goes on comes to an item. -/
private theorem takes (hf : Fair I py38 l t n f) {w : Nat} (halive : ∀ m, (at_ I py38 l t n f m).workers w ≠ .ended)
    (htake : ∀ N, ∃ m, N ≤ m ∧ f m = .take w) (hwake : ∀ N, ∃ m, N ≤ m ∧ f m = .wake w) (N : Nat)
    (hq : ∀ m, N ≤ m → (at_ I py38 l t n f m).rq.q.core.queue ≠ []) :
    ∃ m, N ≤ m ∧ (at_ I py38 l t n f m).workers w = .idle ∧ f m = .take w := by
  by_contra hc
  have stay : ∀ m, N ≤ m → ∀ p, p = .idle ∨ p = .sleeping → (at_ I py38 l t n f m).workers w = p →
      (at_ I py38 l t n f (m + 1)).workers w = p ∨ (at_ I py38 l t n f (m + 1)).workers w = .idle := by
    intro m hm p hp hw
    obtain ⟨g, -, -, -, hmv⟩ := at_move (I := I) (py38 := py38) (l := l) (t := t) (n := n) (f := f) m
    cases hmv with
    | others _ h => rw [h]; exact .inl hw
    | took v x he hi _ _ _ h =>
      have hv : w ≠ v := by rintro rfl; exact hc ⟨m, hm, hi, he⟩
      simp only [h, if_neg hv]; exact .inl hw
    | requeue v x d b _ hi _ h =>
      have hv : w ≠ v := by rintro rfl; rw [hw] at hi; rcases hp with rfl | rfl <;> cases hi
      simp only [h, if_neg hv]; exact .inl hw
    | done v x p' _ hi _ _ h =>
      have hv : w ≠ v := by
        rintro rfl; rw [hw] at hi; rcases hp with rfl | rfl <;> simp [phase, Phase.item] at hi
      simp only [h, if_neg hv]; exact .inl hw
    | rest v p' hi hp' _ h =>
      by_cases hv : w = v
      · rcases hp' with rfl | rfl | ⟨-, h'⟩
        · exact absurd (by simp [h, hv]) (halive (m + 1))
        · simp only [h, if_pos hv]; exact .inr trivial
        · exact absurd h' (hq m hm)
      · simp only [h, if_neg hv]; exact .inl hw
  have idle : ∀ M, N ≤ M → (at_ I py38 l t n f M).workers w ≠ .idle := by
    intro M hM hw
    have : ∀ m, M ≤ m → (at_ I py38 l t n f m).workers w = .idle := by
      intro m hm
      induction m, hm using Nat.le_induction with
      | base => exact hw
      | succ m hm ih =>
        rcases stay m (by omega) .idle (.inl rfl) ih with h | h <;> exact h
    obtain ⟨m, h1, h2⟩ := htake M
    exact hc ⟨m, by omega, this m h1, h2⟩
  have sleep : ∀ M, N ≤ M → (at_ I py38 l t n f M).workers w ≠ .sleeping := by
    intro M hM hw
    have : ∀ m, M ≤ m → (at_ I py38 l t n f m).workers w = .sleeping := by
      intro m hm
      induction m, hm using Nat.le_induction with
      | base => exact hw
      | succ m hm ih =>
        rcases stay m (by omega) .sleeping (.inr rfl) ih with h | h
        · exact h
        · exact absurd h (idle _ (by omega))
    obtain ⟨m, h1, h2⟩ := hwake M
    refine idle (m + 1) (by omega) ?_
    rw [at_next, h2]
    simp [step, this m h1, State.setPc]
  have free : ∀ M, N ≤ M → phase ((at_ I py38 l t n f M).workers w) ≠ .free := by
    intro M hM hw
    cases hk : (at_ I py38 l t n f M).workers w with
    | idle => exact idle M hM hk
    | sleeping => exact sleep M hM hk
    | ended => exact halive M hk
    | _ => rw [hk] at hw; simp [phase] at hw
  cases hi : (phase ((at_ I py38 l t n f N).workers w)).item with
  | some y =>
    obtain ⟨m, h1, -, -, h2⟩ := frees hf w y N hi
    exact free (m + 1) (by omega) h2
  | none =>
    refine free N (le_refl _) ?_
    cases hk : (at_ I py38 l t n f N).workers w <;> rw [hk] at hi <;> simp_all [phase, Phase.item]

/-- An item in the queue comes to the reconciler. -/
private theorem queued_comes (hf : Fair I py38 l t n f) {x : α} (k : Nat) : ∀ (N : Nat) (pre post : List α),
    pre.length ≤ k → (at_ I py38 l t n f N).rq.q.core.queue = pre ++ x :: post →
    ∃ m v, N ≤ m ∧ .reconcile v x ∈ logAt I py38 l t n f m := by
  obtain ⟨w, ha, ht, hw⟩ := hf.alive
  induction k with
  | zero =>
    intro N pre post hk h
    by_contra hc
    have hn : Never I py38 l t n f x N := fun m v hm hv => hc ⟨m, v, hm, hv⟩
    obtain ⟨m, h1, h2, h3⟩ := takes hf ha ht hw N (by
      intro m hm h0
      obtain ⟨p, q, g, -⟩ := queue_keeps hn h m hm
      rw [g] at h0; simp at h0)
    obtain ⟨p, q, g1, g2⟩ := queue_keeps hn h m h1
    have hp : p = [] := List.length_eq_zero_iff.1 (by omega)
    subst hp
    refine hn m w h1 ?_
    simp [logAt, h3, step, h2, WorkQueue.get, g1]
  | succ k ih =>
    intro N pre post hk h
    by_contra hc
    have hn : Never I py38 l t n f x N := fun m v hm hv => hc ⟨m, v, hm, hv⟩
    obtain ⟨m, h1, h2, h3⟩ := takes hf ha ht hw N (by
      intro m hm h0
      obtain ⟨p, q, g, -⟩ := queue_keeps hn h m hm
      rw [g] at h0; simp at h0)
    obtain ⟨p, q, g1, g2⟩ := queue_keeps hn h m h1
    cases p with
    | nil =>
      refine hn m w h1 ?_
      simp [logAt, h3, step, h2, WorkQueue.get, g1]
    | cons a p =>
      have g3 : (at_ I py38 l t n f (m + 1)).rq.q.core.queue = p ++ x :: q := by
        rw [at_next, h3]
        simp [step, h2, WorkQueue.get, g1, State.setPc, State.call, RateLimitingQueue.step, DelayQueue.step,
          WorkQueue.step]
      obtain ⟨m', v, e1, e2⟩ := ih (m + 1) p q (by simp only [List.length_cons] at g2; omega) g3
      exact hc ⟨m', v, by omega, e2⟩

/-- An item that is marked comes to the reconciler. -/
theorem dirty_comes (hf : Fair I py38 l t n f) {x : α} {N : Nat}
    (h : x ∈ (at_ I py38 l t n f N).rq.q.core.dirty) :
    ∃ m v, N ≤ m ∧ .reconcile v x ∈ logAt I py38 l t n f m := by
  have inq : ∀ M, x ∈ (at_ I py38 l t n f M).rq.q.core.queue →
      ∃ m v, M ≤ m ∧ .reconcile v x ∈ logAt I py38 l t n f m := by
    intro M hM
    obtain ⟨pre, post, hp⟩ := List.append_of_mem hM
    exact queued_comes hf _ M pre post (le_refl _) hp
  by_contra hc
  have hn : Never I py38 l t n f x N := fun m v hm hv => hc ⟨m, v, hm, hv⟩
  rcases (at_R N).inv.dirty_cov x h with hq | hp
  · exact hc (inq N hq)
  · obtain ⟨u, hu⟩ := (at_R N).held x hp
    obtain ⟨m, h1, h2, h3, -⟩ := frees hf u x N hu
    have hpm := (at_R m).proc u x h2
    have hdm := dirty_keeps hn h m h1
    obtain ⟨m', v, e1, e2⟩ := inq (m + 1) (by rw [h3]; simp [WorkQueue.done, hpm, hdm])
    exact hc ⟨m', v, by omega, e2⟩

/-! ### The delaying queue -/

/-- What the delaying queue sees is fair to it too; so a pending `put` leads to an `add`. -/
private theorem put_dirty (hf : Fair I py38 l t n f) {x : α} {r : ℚ} {N : Nat}
    (h : (x, r) ∈ (at_ I py38 l t n f N).rq.q.puts) :
    ∃ m, N ≤ m ∧ x ∈ (at_ I py38 l t n f (m + 1)).rq.q.core.dirty := by
  choose g hg1 hg2 hg3 hg4 using at_move (I := I) (py38 := py38) (l := l) (t := t) (n := n) (f := f)
  have hat : ∀ m, DelayQueue.at_ t g m = (at_ I py38 l t n f m).rq.q := by
    intro m
    induction m with
    | zero => rfl
    | succ m ih => rw [DelayQueue.at_succ, ih, ← hg3]
  have hfair : DelayQueue.Fair t g := by
    refine ⟨?_, ?_, ?_, ?_, ?_, ?_, ?_⟩
    · intro m
      by_contra hs
      have hs : DelayQueue.isShutDown (g m) = true := by simpa using hs
      have := hf.open_ m _ (hg2 m hs)
      rw [hs] at this
      cases this
    · intro T; obtain ⟨m, h⟩ := hf.time T; exact ⟨m, by rw [hat]; exact h⟩
    · intro M; obtain ⟨m, h1, h2⟩ := hf.loop M; exact ⟨m, h1, hg1 m _ h2 rfl⟩
    · intro M; obtain ⟨m, h1, h2⟩ := hf.beat M; exact ⟨m, h1, hg1 m _ h2 rfl⟩
    · intro M; obtain ⟨m, h1, h2⟩ := hf.drain M; exact ⟨m, h1, by rw [hat]; exact h2⟩
    · intro h M
      simp only [hat] at h ⊢
      obtain ⟨m, h1, h2, h3⟩ := hf.item h M
      exact ⟨m, h1, h2, hg1 m _ h3 rfl⟩
    · intro e M h h'
      simp only [hat] at h h' ⊢
      obtain ⟨m, i, h1, h2, h3, h4⟩ := hf.put e M h h'
      exact ⟨m, i, h1, h2, h3, hg1 m _ h4 rfl⟩
  obtain ⟨m, τ, h1, h2⟩ := DelayQueue.put_comes hfair N x r (by rw [hat]; exact h)
  refine ⟨m, h1, ?_⟩
  rw [hat] at h2
  rw [hg3]
  by_cases hfo : foreign (g m) = true
  · rcases core_foreign (at_ I py38 l t n f m).rq.q (g m) hfo with ⟨-, hno⟩ | ⟨y, hy, hlog⟩
    · exact absurd h2 (hno x τ)
    · rw [hy, ← hlog x τ h2]
      exact add_dirty x (at_running m)
  · exfalso
    cases hgm : g m with
    | base o => rw [hgm] at h2; cases o <;> simp [DelayQueue.step] at h2
    | _ => rw [hgm] at hfo; simp [foreign] at hfo

/-- After `add_after`. -/
private theorem after_comes (hf : Fair I py38 l t n f) {x : α} {d : ℚ} {N : Nat}
    (h : (at_ I py38 l t n f (N + 1)).rq.q = (DelayQueue.step (at_ I py38 l t n f N).rq.q (.addAfter x d)).1) :
    ∃ m v, N < m ∧ .reconcile v x ∈ logAt I py38 l t n f m := by
  have hrun := at_running (I := I) (py38 := py38) (l := l) (t := t) (n := n) (f := f) N
  by_cases hd : d ≤ 0
  · exact dirty_comes hf (N := N + 1) (by
      rw [h]
      simp only [DelayQueue.step, DelayQueue.addAfter, hrun, hd, if_true]
      exact add_dirty x hrun)
  · obtain ⟨m, h1, h2⟩ := put_dirty hf (N := N + 1) (x := x) (r := (at_ I py38 l t n f N).rq.q.clock + d) (by
      rw [h]
      simp [DelayQueue.step, DelayQueue.addAfter, hrun, hd])
    obtain ⟨m', v, e1, e2⟩ := dirty_comes hf h2
    exact ⟨m', v, by omega, e2⟩

/-- A reconciler that was called runs until it ends. -/
theorem keeps_running {u : Nat} {x : α} {N : Nat} (h : (at_ I py38 l t n f N).workers u = .reconciling x) (M : Nat)
    (hM : N ≤ M) (hc : ∀ m o env, N ≤ m → m < M → f m ≠ .finish u o env) :
    (at_ I py38 l t n f M).workers u = .reconciling x := by
  induction M, hM using Nat.le_induction with
  | base => exact h
  | succ m hm ih =>
    have ih := ih fun m' o env h1 h2 => hc m' o env h1 (by omega)
    obtain ⟨g, -, -, hq, hmv⟩ := at_move (I := I) (py38 := py38) (l := l) (t := t) (n := n) (f := f) m
    have hne : ∀ o env, f m ≠ .finish u o env := fun o env => hc m o env hm (by omega)
    cases hmv with
    | others _ hw => rw [hw]; exact ih
    | took w y _ hi _ _ _ hw =>
      have : u ≠ w := by rintro rfl; rw [hi] at ih; cases ih
      simp only [hw, if_neg this]; exact ih
    | requeue w y d b he hi _ hw =>
      have : u ≠ w := by rintro rfl; obtain ⟨o, env, he⟩ := he; exact hne o env he
      simp only [hw, if_neg this]; exact ih
    | done w y p he hi _ _ hw =>
      have : u ≠ w := by
        rintro rfl
        have hy : x = y := by rw [ih] at hi; simpa [phase, Phase.item] using hi
        obtain ⟨o, env, he⟩ := he (hy ▸ ih)
        exact hne o env he
      simp only [hw, if_neg this]; exact ih
    | rest w p hi _ _ hw =>
      have : u ≠ w := by rintro rfl; rw [ih] at hi; simp [phase] at hi
      simp only [hw, if_neg this]; exact ih

/-- It ends at some time. -/
theorem ends (hf : Fair I py38 l t n f) {u : Nat} {x : α} {N : Nat}
    (h : (at_ I py38 l t n f N).workers u = .reconciling x) :
    ∃ m o env, N ≤ m ∧ (∀ j, N ≤ j → j ≤ m → (at_ I py38 l t n f j).workers u = .reconciling x) ∧
      f m = .finish u o env := by
  have hex : ∃ m, N ≤ m ∧ ∃ o env, f m = .finish u o env := by
    obtain ⟨m, o, env, h1, h2⟩ := hf.finish u N (by rw [h]; simp)
    exact ⟨m, h1, o, env, h2⟩
  classical
  obtain ⟨h1, o, env, h2⟩ := Nat.find_spec hex
  refine ⟨Nat.find hex, o, env, h1, fun j hj hle => ?_, h2⟩
  exact keeps_running h j hj fun m o env h3 h4 he => Nat.find_min hex (by omega : m < Nat.find hex) ⟨h3, o, env, he⟩

theorem called (m : Nat) {w : Nat} {x : α} (h : .reconcile w x ∈ logAt I py38 l t n f m) :
    (at_ I py38 l t n f (m + 1)).workers w = .reconciling x := by
  rw [at_next]
  unfold logAt at h
  generalize at_ I py38 l t n f m = s at h ⊢
  have hseen : ∀ (s1 : State σ α) (e : RateLimitingQueue.Ev α ε), Log.reconcile w x ∉ s1.seen I e := by
    intro s1 e; simp [State.seen]
  have hfin : ∀ (s1 : State σ α) (v : Nat) (y : α) (e : End), Log.reconcile w x ∉ (finally_ I py38 s1 v y e).2 := by
    intro s1 v y e; simp [finally_]
  cases he : f m with
  | queue e =>
    rw [he] at h
    simp only [step] at h
    split at h
    · exact absurd h (hseen _ _)
    · simp at h
  | take v =>
    rw [he] at h
    simp only [step] at h ⊢
    split at h
    · rename_i hv
      rw [if_pos hv]
      split at h
      · rename_i y hy
        simp only [if_true, List.mem_cons, reduceCtorEq, Log.reconcile.injEq, false_or, List.not_mem_nil,
          or_false] at h
        obtain ⟨rfl, rfl⟩ := h
        simp [hy, State.setPc]
      · simp at h
      · simp at h
    · simp at h
  | finish v o env =>
    rw [he] at h
    simp only [step] at h
    split at h
    · rename_i y hy
      simp only [List.mem_cons, reduceCtorEq, false_or] at h
      exfalso
      cases o with
      | cancelled => exact hfin _ _ _ _ h
      | bad => exact hfin _ _ _ _ h
      | raised =>
        simp only [afterReconcile] at h
        split at h
        · exact hfin _ _ _ _ h
        · exact hseen _ _ h
      | result r d =>
        simp only [afterReconcile] at h
        split at h
        · exact hseen _ _ h
        · split at h
          · split at h
            · exact hfin _ _ _ _ h
            · exact hseen _ _ h
          · exact hfin _ _ _ _ h
    · simp at h
  | requeued v =>
    rw [he] at h
    simp only [step] at h
    split at h
    · exact absurd h (hfin _ _ _ _)
    · simp at h
  | cancelRequeue v =>
    rw [he] at h
    simp only [step] at h
    split at h
    · exact absurd h (hfin _ _ _ _)
    · simp at h
  | wake v => rw [he] at h; simp only [step] at h; split at h <;> simp at h
  | cancel v => rw [he] at h; simp only [step] at h; split at h <;> simp at h

/-! ### C95 -/

/-- **C95**: an item that is added, at once or after a time, is given to the reconciler afterwards. -/
theorem C95_added (hf : Fair I py38 l t n f) (N : Nat) (x : α)
    (h : f N = .queue (.base (.add x)) ∨ ∃ d, f N = .queue (.addAfter x d)) :
    ∃ m v, N < m ∧ .reconcile v x ∈ logAt I py38 l t n f m := by
  rcases h with h | ⟨d, h⟩
  · exact dirty_comes hf (N := N + 1) (by
      rw [at_next, h]
      exact add_dirty x (at_running N))
  · exact after_comes hf (d := d) (by rw [at_next, h]; rfl)

/-- **C95**: a request whose reconciler failed or asked to be called again, is given to the reconciler
again; the rate limiter must have named a time. -/
theorem C95_again (hf : Fair I py38 l t n f) (N : Nat) (w : Nat) (x : α) (o : Outcome) (env : ε)
    (h : f N = .finish w o env) (hw : (at_ I py38 l t n f N).workers w = .reconciling x)
    (ho : (retry o = true ∧ ∃ d, (I.when (at_ I py38 l t n f N).rq.lim x env).2 = .delay d) ∨
      ∃ r d, o = .result r d ∧ d ≠ 0) :
    ∃ m v, N < m ∧ .reconcile v x ∈ logAt I py38 l t n f m := by
  rcases ho with ⟨ho, d, hd⟩ | ⟨r, d, rfl, hd⟩
  · refine after_comes hf (d := d) ?_
    rw [at_next, h]
    rcases rateLimited_eq I (at_ I py38 l t n f N).rq x env with ⟨l', d', hwh, hrl⟩ | ⟨l', r, hwh, hr, hrl⟩
    · rw [hwh] at hd
      cases hd
      cases o with
      | raised => simp [step, hw, afterReconcile, hrl, State.setPc, State.call]
      | result r d' =>
        simp only [retry, Bool.and_eq_true, beq_iff_eq] at ho
        obtain ⟨rfl, rfl⟩ := ho
        simp [step, hw, afterReconcile, hrl, State.setPc, State.call]
      | _ => simp [retry] at ho
    · rw [hwh] at hd
      exact absurd hd (hr d)
  · refine after_comes hf (d := d) ?_
    rw [at_next, h]
    simp [step, hw, afterReconcile, hd, State.setPc, State.call, RateLimitingQueue.step]

/-- **C95**: a request whose reconciler always fails is tried again without end, as long as the rate
limiter names a time. -/
theorem C95_forever (hf : Fair I py38 l t n f) (N : Nat) (w : Nat) (x : α)
    (h : .reconcile w x ∈ logAt I py38 l t n f N)
    (ho : ∀ m v o env, N < m → f m = .finish v o env → (at_ I py38 l t n f m).workers v = .reconciling x →
      retry o = true ∧ ∃ d, (I.when (at_ I py38 l t n f m).rq.lim x env).2 = .delay d) :
    ∀ M, ∃ m v, M ≤ m ∧ .reconcile v x ∈ logAt I py38 l t n f m := by
  have : ∀ k, ∃ m v, N + k ≤ m ∧ .reconcile v x ∈ logAt I py38 l t n f m := by
    intro k
    induction k with
    | zero => exact ⟨N, w, le_refl _, h⟩
    | succ k ih =>
      obtain ⟨m, v, h1, h2⟩ := ih
      obtain ⟨m', o, env, h3, h4, h5⟩ := ends hf (called m h2)
      have h4 := h4 m' h3 (le_refl _)
      obtain ⟨m'', v', h6, h7⟩ := C95_again hf m' v x o env h5 h4 (.inl (ho m' v o env (by omega) h5 h4))
      exact ⟨m'', v', by omega, h7⟩
  intro M
  obtain ⟨m, v, h1, h2⟩ := this M
  exact ⟨m, v, by omega, h2⟩

end Run

/-! ### An example -/

/-- A limiter that always says five seconds. -/
private def five : Iface Unit Nat Unit := ⟨fun _ _ _ => ((), .delay 5), fun _ _ => (), fun _ _ => 0⟩

/-- The item 7 is added; then, in every round, it is taken, its reconciler raises, it is put off by five
seconds, and ten seconds pass. -/
private def rounds : Nat → Ev Nat Unit := fun m =>
  if m = 0 then .queue (.base (.add 7))
  else
    match (m - 1) % 16 with
    | 0 => .take 0
    | 1 => .finish 0 .raised ()
    | 2 => .queue (.putDone 0)
    | 3 => .requeued 0
    | 4 => .wake 0
    | 5 => .queue .loop
    | 6 => .queue .loop
    | 7 => .queue (.wake .item)
    | 8 => .queue .loop
    | 9 => .queue .loop
    | 10 => .queue (.tick 10)
    | 11 => .queue .loop
    | 12 => .queue .loop
    | 13 => .queue .loop
    | 14 => .queue (.wake .heartbeat)
    | _ => .queue .loop

/-- A state of this run, with one worker. -/
private def st (c : WorkQueue.State Nat) (clock : ℚ) (puts chan : List (Nat × ℚ)) (heap : DelayHeap.Heap ℚ Nat)
    (pc : DelayQueue.Pc Nat) (w : Pc Nat) : State Unit Nat :=
  ⟨⟨⟨c, clock, false, puts, chan, heap, pc⟩, ()⟩, fun v => if v = 0 then w else .ended⟩

/-- The states of one round. -/
private def during (c : ℚ) (k : Nat) : Nat → State Unit Nat
  | 0 => st ⟨[7], [], [7], false⟩ c [] [] ⟨[], [], k, 0⟩ .top .idle
  | 1 => st ⟨[], [7], [], false⟩ c [] [] ⟨[], [], k, 0⟩ .top (.reconciling 7)
  | 2 => st ⟨[], [7], [], false⟩ c [(7, c + 5)] [] ⟨[], [], k, 0⟩ .top (.requeuing 7 false)
  | 3 => st ⟨[], [7], [], false⟩ c [] [(7, c + 5)] ⟨[], [], k, 0⟩ .top (.requeuing 7 false)
  | 4 => st ⟨[], [], [], false⟩ c [] [(7, c + 5)] ⟨[], [], k, 0⟩ .top .sleeping
  | 5 => st ⟨[], [], [], false⟩ c [] [(7, c + 5)] ⟨[], [], k, 0⟩ .top .idle
  | 6 => st ⟨[], [], [], false⟩ c [] [(7, c + 5)] ⟨[], [], k, 0⟩ (.popping c) .idle
  | 7 => st ⟨[], [], [], false⟩ c [] [(7, c + 5)] ⟨[], [], k, 0⟩ (.sleeping none) .idle
  | 8 => st ⟨[], [], [], false⟩ c [] [] ⟨[], [], k, 0⟩ (.woke (some (7, c + 5))) .idle
  | 9 => st ⟨[], [], [], false⟩ c [] [] ⟨[⟨c + 5, k, some 7⟩], [(7, (c + 5, k))], k + 1, 1⟩ .draining .idle
  | 10 => st ⟨[], [], [], false⟩ c [] [] ⟨[⟨c + 5, k, some 7⟩], [(7, (c + 5, k))], k + 1, 1⟩ .top .idle
  | 11 => st ⟨[], [], [], false⟩ (c + 10) [] [] ⟨[⟨c + 5, k, some 7⟩], [(7, (c + 5, k))], k + 1, 1⟩ .top .idle
  | 12 => st ⟨[], [], [], false⟩ (c + 10) [] [] ⟨[⟨c + 5, k, some 7⟩], [(7, (c + 5, k))], k + 1, 1⟩
      (.popping (c + 10)) .idle
  | 13 => st ⟨[7], [], [7], false⟩ (c + 10) [] [] ⟨[], [], k + 1, 0⟩ (.popping (c + 10)) .idle
  | 14 => st ⟨[7], [], [7], false⟩ (c + 10) [] [] ⟨[], [], k + 1, 0⟩ (.sleeping none) .idle
  | 15 => st ⟨[7], [], [7], false⟩ (c + 10) [] [] ⟨[], [], k + 1, 0⟩ (.woke none) .idle
  | _ => st ⟨[7], [], [7], false⟩ (c + 10) [] [] ⟨[], [], k + 1, 0⟩ .top .idle

private theorem setPc_st (c : WorkQueue.State Nat) (clock : ℚ) (puts chan : List (Nat × ℚ))
    (heap : DelayHeap.Heap ℚ Nat) (pc : DelayQueue.Pc Nat) (w p : Pc Nat) :
    (st c clock puts chan heap pc w).setPc 0 p = st c clock puts chan heap pc p := by
  simp only [st, State.setPc, State.mk.injEq, true_and]
  funext v
  split <;> rfl

private theorem during_step (c : ℚ) (k : Nat) (j : Nat) (hj : j < 16) (e : Ev Nat Unit)
    (he : e = rounds (1 + 16 * k + j)) :
    (step five true (fun _ => true) (during c k j) e).1 = during c k (j + 1) := by
  have hr : e = rounds (1 + j) := by
    rw [he]
    simp only [rounds, show ¬ (1 + 16 * k + j = 0) by omega, show ¬ (1 + j = 0) by omega, if_false,
      show (1 + 16 * k + j - 1) % 16 = (1 + j - 1) % 16 by omega]
  clear he
  subst hr
  have e1 : c < c + 5 := by linarith
  have e2 : ¬ (c + 10 < c + 5) := by linarith
  have e3 : ¬ (c + 5 ≤ c) := by linarith
  interval_cases j <;>
    norm_num [rounds, during, st, step, foreign, State.call, State.setPc, afterReconcile, finally_,
      RateLimitingQueue.step, RateLimitingQueue.addRateLimited, five, DelayQueue.step, DelayQueue.loopStep,
      DelayQueue.wakeStep, DelayQueue.addAfter, DelayQueue.file, DelayHeap.insert, DelayHeap.insertEntry, PyDict.has,
      PyDict.get?, PyDict.set, PyDict.del, Heapq.heappush_nil, Heapq.heappop_one, DelayHeap.peek, DelayHeap.peekLoop,
      DelayHeap.pop, DelayHeap.popLoop, WorkQueue.add, WorkQueue.step, WorkQueue.get, WorkQueue.done, PySet.add,
      PySet.remove, e1, e2, e3] <;>
    (funext v; split <;> rfl)

private theorem round_start (k : Nat) :
    at_ five true () 100 1 rounds (1 + 16 * k) = during (100 + 10 * k) k 0 ∧
    ∀ j, j < 16 → at_ five true () 100 1 rounds (1 + 16 * k + j) = during (100 + 10 * k) k j := by
  have go : ∀ k : Nat, at_ five true () 100 1 rounds (1 + 16 * k) = during (100 + 10 * k) k 0 →
      ∀ j, j ≤ 16 → at_ five true () 100 1 rounds (1 + 16 * k + j) = during (100 + 10 * k) k j := by
    intro k h j
    induction j with
    | zero => intro _; exact h
    | succ j ih =>
      intro hj
      rw [← Nat.add_assoc, at_next, ih (by omega)]
      exact during_step _ k j (by omega) _ rfl
  have start : at_ five true () 100 1 rounds (1 + 16 * k) = during (100 + 10 * k) k 0 := by
    induction k with
    | zero =>
      simp only [at_, List.range_succ, List.range_zero, List.nil_append, List.map_cons, List.map_nil, exec, rounds,
        if_true, Nat.mul_zero, Nat.add_zero]
      norm_num [step, foreign, State.call, RateLimitingQueue.step, DelayQueue.step, WorkQueue.step, WorkQueue.add,
        init, DelayQueue.init, WorkQueue.init, PySet.add, during, st, DelayHeap.init]
    | succ k ih =>
      have := go k ih 16 (le_refl _)
      rw [show 1 + 16 * (k + 1) = 1 + 16 * k + 16 by omega, this]
      simp only [during, st]
      push_cast
      rw [show (100 : ℚ) + 10 * (k + 1) = 100 + 10 * k + 10 by ring]
  exact ⟨start, fun j hj => go k start j (by omega)⟩

private theorem round_move (k j : Nat) (hj : j < 16) : rounds (1 + 16 * k + j) = rounds (1 + j) := by
  simp only [rounds, show ¬ (1 + 16 * k + j = 0) by omega, show ¬ (1 + j = 0) by omega, if_false,
    show (1 + 16 * k + j - 1) % 16 = (1 + j - 1) % 16 by omega]

private theorem round_workers (m : Nat) : (at_ five true () 100 1 rounds m).workers 0 ≠ .ended ∧
    ∀ v, v ≠ 0 → (at_ five true () 100 1 rounds m).workers v = .ended := by
  cases m with
  | zero => exact ⟨by simp [at_, exec, init], fun v hv => by simp [at_, exec, init, hv]⟩
  | succ m =>
    have := (round_start (m / 16)).2 (m % 16) (by omega)
    rw [show 1 + 16 * (m / 16) + m % 16 = m + 1 by omega] at this
    rw [this]
    have hj : m % 16 < 16 := by omega
    generalize m % 16 = j at hj
    interval_cases j <;> simp +contextual [during, st]

-- this is a fair run; the first move adds 7, which the third move's failure leads to be tried again
private theorem rounds_fair : Fair five true () 100 1 rounds := by
  refine ⟨?_, ?_, ?_, ?_, ?_, ?_, ?_, ⟨0, ?_, ?_, ?_⟩, ?_, ?_⟩
  · intro m e h
    simp only [rounds] at h
    split at h
    · cases h; rfl
    · split at h <;> cases h <;> rfl
  · intro T
    obtain ⟨k, hk⟩ := exists_nat_ge (T - 100)
    refine ⟨1 + 16 * k, ?_⟩
    rw [(round_start k).1]
    have : (0 : ℚ) ≤ k := Nat.cast_nonneg k
    simp only [during, st]
    linarith
  · intro N
    exact ⟨1 + 16 * N + 5, by omega, by rw [round_move N 5 (by omega)]; rfl⟩
  · intro N
    exact ⟨1 + 16 * N + 14, by omega, by rw [round_move N 14 (by omega)]; rfl⟩
  · intro N
    exact ⟨1 + 16 * N, by omega, by rw [(round_start N).1]; simp [during, st]⟩
  · intro _ N
    refine ⟨1 + 16 * N + 7, by omega, ?_, by rw [round_move N 7 (by omega)]; rfl⟩
    rw [(round_start N).2 7 (by omega)]
    exact ⟨⟨none, rfl⟩, by simp [during, st]⟩
  · intro e N h
    have := h (1 + 16 * N) (by omega)
    rw [(round_start N).1] at this
    simp [during, st] at this
  · exact fun m => (round_workers m).1
  · intro N
    exact ⟨1 + 16 * N + 0, by omega, by rw [round_move N 0 (by omega)]; rfl⟩
  · intro N
    exact ⟨1 + 16 * N + 4, by omega, by rw [round_move N 4 (by omega)]; rfl⟩
  · intro w N hw
    have : w = 0 := by by_contra h; exact hw ((round_workers N).2 w h)
    subst this
    exact ⟨1 + 16 * N + 1, .raised, (), by omega, by rw [round_move N 1 (by omega)]; rfl⟩
  · intro w N hw
    have : w = 0 := by by_contra h; exact hw ((round_workers N).2 w h)
    subst this
    exact ⟨1 + 16 * N + 3, by omega, by rw [round_move N 3 (by omega)]; rfl⟩

-- the hypotheses of C95_added (move 0), C95_again (move 2) and C95_forever (from move 1 on)
example : Fair five true () 100 1 rounds ∧ rounds 0 = .queue (.base (.add 7)) ∧
    (rounds 2 = .finish 0 .raised () ∧ (at_ five true () 100 1 rounds 2).workers 0 = .reconciling 7 ∧
      retry .raised = true ∧ (five.when (at_ five true () 100 1 rounds 2).rq.lim 7 ()).2 = .delay 5) ∧
    .reconcile 0 7 ∈ logAt five true () 100 1 rounds 1 ∧
    ∀ m v o env, 1 < m → rounds m = .finish v o env → retry o = true ∧
      (five.when (at_ five true () 100 1 rounds m).rq.lim 7 env).2 = .delay 5 := by
  refine ⟨rounds_fair, rfl, ⟨rfl, ?_, rfl, rfl⟩, ?_, ?_⟩
  · have := (round_start 0).2 1 (by omega)
    simp only [Nat.mul_zero, Nat.add_zero] at this
    rw [this]; rfl
  · have := (round_start 0).1
    simp only [Nat.mul_zero, Nat.add_zero] at this
    simp [logAt, this, rounds, during, st, step, WorkQueue.get]
  · intro m v o env _ h
    refine ⟨?_, rfl⟩
    simp only [rounds] at h
    split at h
    · cases h
    · split at h <;> cases h
      rfl

end Aiok8s.Controller
