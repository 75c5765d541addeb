import Verif.Spec.System
import Verif.Proof.Controller
import Verif.Proof.SharedInformer
import Verif.Props.Source
/-!
# The invariant of the whole
-/
set_option linter.unusedSimpArgs false
namespace Aiok8s.Controller
open Aiok8s Aiok8s.RateLimiters Aiok8s.Controller.Spec
variable {σ α ε : Type} [DecidableEq α]

theorem add_keeps {c : WorkQueue.State α} {x : α} (y : α) (h : x ∈ c.dirty) :
    x ∈ (WorkQueue.add c y).dirty := by
  simp only [WorkQueue.add]
  split
  · exact h
  · split
    · exact h
    · split <;> simp [PySet.mem_add, h]

theorem add_puts {c : WorkQueue.State α} (x : α) (h : c.shuttingDown = false) :
    x ∈ (WorkQueue.add c x).dirty := by
  simp only [WorkQueue.add, h, Bool.false_eq_true, if_false]
  split
  · assumption
  · split <;> simp [PySet.mem_add]

theorem done_keeps (c : WorkQueue.State α) (y : α) : (WorkQueue.done c y).1.dirty = c.dirty := by
  simp only [WorkQueue.done]
  split
  · split <;> rfl
  · rfl

theorem dirty_queue (I : Iface σ α ε) {s : State σ α} {e : DelayQueue.Ev α} (he : foreign e = true) {x : α}
    (h : x ∈ s.rq.q.core.dirty) : x ∈ (s.call I (.queue e)).rq.q.core.dirty := by
  show x ∈ (DelayQueue.step s.rq.q e).1.core.dirty
  rcases core_foreign s.rq.q e he with ⟨hc, _⟩ | ⟨y, hc, _⟩
  · rw [hc]; exact h
  · rw [hc]; exact add_keeps y h

theorem dirty_finally (I : Iface σ α ε) (py38 : Bool) {s : State σ α} (w : Nat) (y : α) (e : End) {x : α}
    (h : x ∈ s.rq.q.core.dirty) : x ∈ (finally_ I py38 s w y e).1.rq.q.core.dirty := by
  show x ∈ (WorkQueue.done s.rq.q.core y).1.dirty
  rw [done_keeps]; exact h

theorem dirty_rl (I : Iface σ α ε) {s : State σ α} (y : α) (env : ε) {x : α}
    (h : x ∈ s.rq.q.core.dirty) : x ∈ (s.call I (.addRateLimited y env)).rq.q.core.dirty := by
  rcases rateLimited_eq I s.rq y env with ⟨l, d, hw, he⟩ | ⟨l, r, hw, _, he⟩
  · simp only [State.call, he]
    exact dirty_queue I (e := .addAfter y d) rfl h
  · simp only [State.call, he]; exact h

theorem dirty_after (I : Iface σ α ε) (py38 : Bool) {s : State σ α} (w : Nat) (y : α) (o : Outcome)
    (env : ε) {x : α} (h : x ∈ s.rq.q.core.dirty) :
    x ∈ (afterReconcile I py38 s w y o env).1.rq.q.core.dirty := by
  have hrl := dirty_rl I y env h
  cases o with
  | cancelled => exact dirty_finally I py38 w y .cancelled h
  | bad => exact dirty_finally I py38 w y .exc h
  | raised =>
    simp only [afterReconcile]
    split
    · exact dirty_finally I py38 w y .exc hrl
    · exact hrl
  | result requeue after =>
    simp only [afterReconcile]
    split
    · exact dirty_queue I (s := s.call I (.forget y)) (e := .addAfter y after) rfl h
    · split
      · split
        · exact dirty_finally I py38 w y .exc hrl
        · exact hrl
      · exact dirty_finally I py38 (s := s.call I (.forget y)) w y _ h

/-- A request that is to be made stays so until the reconciler is called for it. -/
theorem dirty_step (I : Iface σ α ε) (py38 : Bool) {s : State σ α} (e : Ev α ε) {x : α}
    (h : x ∈ s.rq.q.core.dirty) :
    (∃ w, .reconcile w x ∈ (step I py38 (fun _ => true) s e).2) ∨
      x ∈ (step I py38 (fun _ => true) s e).1.rq.q.core.dirty := by
  cases e with
  | queue e =>
    right
    simp only [step]
    split
    · rename_i he; exact dirty_queue I he h
    · exact h
  | wake w => right; simp only [step]; split <;> exact h
  | cancel w => right; simp only [step]; split <;> exact h
  | requeued w =>
    right
    simp only [step]
    split
    · exact dirty_finally I py38 w _ _ h
    · exact h
  | cancelRequeue w =>
    right
    simp only [step]
    split
    · exact dirty_finally I py38 w _ _ h
    · exact h
  | finish w o env =>
    right
    simp only [step]
    split
    · exact dirty_after I py38 w _ o env h
    · exact h
  | take w =>
    simp only [step]
    split
    · split
      · rename_i y hy
        by_cases hxy : x = y
        · subst hxy
          left
          exact ⟨w, by simp⟩
        · right
          show x ∈ (WorkQueue.get s.rq.q.core).1.dirty
          revert hy
          simp only [WorkQueue.get]
          split
          · split <;> simp
          · rename_i z rest _
            simp only [WorkQueue.Out.item.injEq]
            rintro rfl
            simp [PySet.mem_remove, h, hxy]
      · right; exact h
      · right; exact h
    · right; exact h

end Aiok8s.Controller

namespace Aiok8s.SharedInformer
open Aiok8s.Informer (Note)
variable {K O : Type} [DecidableEq K]

/-- What was sent to a listener only grows. -/
theorem sent_grows (key : O → Option K) (s : State K O) (e : Ev K O) (i : Nat) (ns : List (Note K O))
    (h : s.sent[i]? = some ns) : ∃ more, (step key s e).sent[i]? = some (ns ++ more) := by
  have hq : ∀ e', ∃ more, (onQueue key s e').sent[i]? = some (ns ++ more) := by
    intro e'
    refine ⟨[], ?_⟩
    simp only [onQueue]
    split <;> simpa using h
  cases e with
  | add x => exact hq _
  | update x => exact hq _
  | delete x => exact hq _
  | replace xs => exact hq _
  | resync => exact hq _
  | start => exact ⟨[], by simpa [step] using h⟩
  | check due => exact ⟨[], by simpa [step] using h⟩
  | register =>
    refine ⟨[], ?_⟩
    have hi : i < s.sent.length := (List.getElem?_eq_some_iff.1 h).1
    simp only [step, List.append_nil]
    rw [List.getElem?_append_left hi, h]
  | pop =>
    simp only [step]
    split
    · simp only [pop]
      split
      · exact ⟨[], by simpa using h⟩
      · exact ⟨_, by rw [sent_pop, h]; rfl⟩
    · exact ⟨[], by simpa using h⟩

end Aiok8s.SharedInformer

namespace Aiok8s.System
open Aiok8s Aiok8s.RateLimiters Aiok8s.System.Spec Aiok8s.Source.Spec
open Aiok8s.Meta (Val NamespacedName)
open Aiok8s.Informer (Note)
variable {σ ε : Type}

theorem exec_append (I : Iface σ NamespacedName ε) (py38 : Bool) (ps : List Source.Pred) (i : Nat)
    (as bs : List (Ev ε)) : ∀ s : State σ,
    exec I py38 ps i s (as ++ bs) = exec I py38 ps i (exec I py38 ps i s as) bs := by
  induction as with
  | nil => intro s; rfl
  | cons a as ih => intro s; exact ih _

theorem logOf_append (I : Iface σ NamespacedName ε) (py38 : Bool) (ps : List Source.Pred) (i : Nat)
    (as bs : List (Ev ε)) : ∀ s : State σ,
    logOf I py38 ps i s (as ++ bs) = logOf I py38 ps i s as ++ logOf I py38 ps i (exec I py38 ps i s as) bs := by
  induction as with
  | nil => intro s; rfl
  | cons a as ih => intro s; simp only [List.cons_append, logOf, exec, ih, List.append_assoc]

theorem informerEvents_append (as bs : List (Ev ε)) :
    informerEvents (as ++ bs) = informerEvents as ++ informerEvents bs := by
  simp [informerEvents]

theorem inf_step (I : Iface σ NamespacedName ε) (py38 : Bool) (ps : List Source.Pred) (i : Nat)
    (s : State σ) (e : Ev ε) : (step I py38 ps i s e).1.inf =
      SharedInformer.exec Meta.keyFunc s.inf (informerEvents [e]) := by
  cases e with
  | inf e => rfl
  | deliver => simp only [step]; split <;> rfl
  | add => simp only [step]; split <;> rfl
  | ctl e => rfl

theorem inf_exec (I : Iface σ NamespacedName ε) (py38 : Bool) (ps : List Source.Pred) (i : Nat)
    (es : List (Ev ε)) : ∀ s : State σ, (exec I py38 ps i s es).inf =
      SharedInformer.exec Meta.keyFunc s.inf (informerEvents es) := by
  induction es with
  | nil => intro s; rfl
  | cons e es ih =>
    intro s
    have : informerEvents (e :: es) = informerEvents [e] ++ informerEvents es := informerEvents_append [e] es
    rw [this, SharedInformer.exec_append, ← inf_step I py38 ps i]
    exact ih _

/-- The controller's part: the moves of the controller it sees. -/
theorem R_step (I : Iface σ NamespacedName ε) (py38 : Bool) (ps : List Source.Pred) (i : Nat)
    (s : State σ) (h : Controller.R s.ctl (Controller.phases s.ctl)) (e : Ev ε) :
    Controller.R (step I py38 ps i s e).1.ctl (Controller.phases (step I py38 ps i s e).1.ctl) := by
  cases e with
  | inf e => exact h
  | deliver => simp only [step]; split <;> exact h
  | add =>
    simp only [step]
    split
    · exact h
    · exact (Controller.step_good I py38 _ s.ctl h _).2
  | ctl e => exact (Controller.step_good I py38 _ s.ctl h _).2

theorem R_exec (I : Iface σ NamespacedName ε) (py38 : Bool) (ps : List Source.Pred) (i : Nat)
    (es : List (Ev ε)) : ∀ s : State σ, Controller.R s.ctl (Controller.phases s.ctl) →
    Controller.R (exec I py38 ps i s es).ctl (Controller.phases (exec I py38 ps i s es).ctl) := by
  induction es with
  | nil => intro s h; exact h
  | cons e es ih => intro s h; exact ih _ (R_step I py38 ps i s h e)

/-- Not more is delivered than was sent. -/
def Counted (s : State σ) (i : Nat) : Prop :=
  s.delivered ≤ ((s.inf.sent[i]?).getD []).length

theorem counted_step (I : Iface σ NamespacedName ε) (py38 : Bool) (ps : List Source.Pred) (i : Nat)
    (s : State σ) (h : Counted s i) (e : Ev ε) : Counted (step I py38 ps i s e).1 i := by
  cases e with
  | inf e =>
    simp only [step, Counted] at h ⊢
    cases hs : s.inf.sent[i]? with
    | none =>
      rw [hs] at h
      simp only [Option.getD_none, List.length_nil, Nat.le_zero] at h
      rw [h]
      exact Nat.zero_le _
    | some ns =>
      obtain ⟨more, hm⟩ := SharedInformer.sent_grows Meta.keyFunc s.inf e i ns hs
      rw [hs] at h
      rw [hm]
      simp only [Option.getD_some, List.length_append] at h ⊢
      omega
  | deliver =>
    simp only [step]
    split
    · rename_i n h1 h2
      simp only [Counted] at h ⊢
      obtain ⟨ns, h3, h4⟩ := Option.bind_eq_some_iff.1 h2
      rw [h3]
      exact (List.getElem?_eq_some_iff.1 h4).1
    · exact h
  | add => simp only [step]; split <;> exact h
  | ctl e => exact h

theorem counted_exec (I : Iface σ NamespacedName ε) (py38 : Bool) (ps : List Source.Pred) (i : Nat)
    (es : List (Ev ε)) : ∀ s : State σ, Counted s i → Counted (exec I py38 ps i s es) i := by
  induction es with
  | nil => intro s h; exact h
  | cons e es ih => intro s h; exact ih _ (counted_step I py38 ps i s h e)

/-! ### What was last seen -/

theorem lastSeen_append_none {k : Val} {a b : List Log}
    (h : ∀ l ∈ b, Meta.objectKeyToStoreKey l.request ≠ k) : lastSeen k (a ++ b) = lastSeen k a := by
  simp only [lastSeen, List.reverse_append, List.find?_append]
  have : b.reverse.find? (fun l => decide (Meta.objectKeyToStoreKey l.request = k)) = none := by
    rw [List.find?_eq_none]
    intro l hl
    simpa using h l (List.mem_reverse.1 hl)
  rw [this]
  rfl

theorem lastSeen_append_some {k : Val} {a b : List Log} {x : Option Source.Obj}
    (h : ∃ l ∈ b, Meta.objectKeyToStoreKey l.request = k)
    (hx : ∀ l ∈ b, Meta.objectKeyToStoreKey l.request = k → l.cached = x) : lastSeen k (a ++ b) = x := by
  simp only [lastSeen, List.reverse_append, List.find?_append]
  cases hf : b.reverse.find? (fun l => decide (Meta.objectKeyToStoreKey l.request = k)) with
  | none =>
    rw [List.find?_eq_none] at hf
    obtain ⟨l, hl, hk⟩ := h
    have := hf l (List.mem_reverse.2 hl)
    simp [hk] at this
  | some l =>
    have h1 := List.mem_of_find?_eq_some hf
    have h2 := List.find?_some hf
    simp only [decide_eq_true_eq] at h2
    show l.cached = x
    exact hx l (List.mem_reverse.1 h1) h2

theorem calls_cached {s : State σ} {l : List (Controller.Log NamespacedName ε)} {c : Log}
    (h : c ∈ calls s l) : c.cached = s.inf.inf.items.get? (Meta.objectKeyToStoreKey c.request) := by
  simp only [calls, List.mem_filterMap] at h
  obtain ⟨a, _, ha⟩ := h
  split at ha
  · cases ha; rfl
  · cases ha

/-- The calls made so far and what is on its way agree with the cache, for what the handler was told. -/
def Current (s : State σ) (i : Nat) (log : List Log) : Prop :=
  ∀ k, Told s i k → (Called k log ∧ lastSeen k log = s.inf.inf.items.get? k) ∨ Coming s i k

open SharedInformer.Spec in
theorem current_step (I : Iface σ NamespacedName ε) (py38 : Bool) (ps : List Source.Pred) (i : Nat)
    (es : List (SharedInformer.Ev Val Meta.Obj)) (hes : ∀ e ∈ es, Ev.selects i e)
    (hr : ∀ e ∈ es, EvAll Proper e) (s : State σ)
    (hi : s.inf = SharedInformer.exec Meta.keyFunc SharedInformer.init es)
    (hR : Controller.R s.ctl (Controller.phases s.ctl)) (hc : Counted s i)
    (hp : ∀ ns, s.inf.sent[i]? = some ns → ∀ n ∈ ns, Accepted ps n)
    (log : List Log) (h : Current s i log) (e : Ev ε)
    (he : ∀ e' ∈ informerEvents [e], Ev.selects i e') :
    Current (step I py38 ps i s e).1 i (log ++ (step I py38 ps i s e).2) := by
  intro k hk
  cases e with
  | inf e =>
    simp only [step, List.append_nil]
    cases hs : s.inf.sent[i]? with
    | none =>
      -- the handler was registered just now
      obtain ⟨pre, n, post, h1, h2, h3, h4⟩ := hk
      right
      left
      refine ⟨_, n, h1, ?_, h2⟩
      simp only [Counted, hs, Option.getD_none, List.length_nil, Nat.le_zero] at hc
      simp only [step, hc, List.drop_zero]
      simp
    | some ns =>
      obtain ⟨more, hm⟩ := SharedInformer.sent_grows Meta.keyFunc s.inf e i ns hs
      simp only [Counted, hs, Option.getD_some] at hc
      by_cases hmore : ∃ n ∈ more, noteKey Meta.keyFunc n = some k
      · obtain ⟨n, hn, hnk⟩ := hmore
        right
        left
        refine ⟨_, n, hm, ?_, hnk⟩
        rw [List.drop_append_of_le_length hc]
        exact List.mem_append_right _ hn
      · have hmore' : ∀ n ∈ more, noteKey Meta.keyFunc n ≠ some k := fun n hn hnk => hmore ⟨n, hn, hnk⟩
        -- the cache holds the same for `k`
        have hv1 := SharedInformer.C34_due_partial Meta.keyFunc es i hes ns (by rw [← hi]; exact hs) k
        have hv2 := SharedInformer.C34_due_partial Meta.keyFunc (es ++ [e]) i
          (fun e' h' => by
            rcases List.mem_append.1 h' with h' | h'
            · exact hes e' h'
            · exact he e' (by simpa [informerEvents] using h')) (ns ++ more)
          (by rw [SharedInformer.exec_append, ← hi]; exact hm) k
        rw [← hi] at hv1
        rw [SharedInformer.exec_append, ← hi] at hv2
        have hv : view Meta.keyFunc (ns ++ more) k = view Meta.keyFunc ns k := by
          rw [SharedInformer.view_append]
          generalize view Meta.keyFunc ns = v
          clear hv1 hv2 hm hmore
          induction more generalizing v with
          | nil => rfl
          | cons n more ih =>
            rw [List.foldl_cons, ih (fun m hm => hmore' m (by simp [hm]))]
            exact Source.see_other v (hmore' n (by simp))
        have hsame : (SharedInformer.step Meta.keyFunc s.inf e).inf.items.get? k = s.inf.inf.items.get? k :=
          (hv2.symm.trans hv).trans hv1
        have hold : Told s i k := by
          obtain ⟨pre, n, post, h1, h2, h3, h4⟩ := hk
          simp only [step] at h1
          rw [hm] at h1
          have h1' := Option.some.inj h1
          rcases List.append_eq_append_iff.1 h1' with ⟨as, ha, hb⟩ | ⟨cs, ha, hb⟩
          · exact absurd h2 (hmore' n (by rw [hb]; simp))
          · cases cs with
            | nil => exact absurd h2 (hmore' n (by simp only [List.nil_append] at hb; rw [← hb]; simp))
            | cons c cs =>
              simp only [List.cons_append, List.cons.injEq] at hb
              obtain ⟨rfl, hb⟩ := hb
              exact ⟨pre, n, cs, by rw [hs, ha], h2, fun m hm' => h3 m (by rw [hb]; simp [hm']), h4⟩
        rcases h k hold with h5 | h5
        · left; rw [hsame]; exact h5
        · right
          rcases h5 with ⟨ns', n, h6, h7, h8⟩ | h5
          · left
            rw [hs] at h6
            cases h6
            refine ⟨_, n, hm, ?_, h8⟩
            rw [List.drop_append_of_le_length hc]
            exact List.mem_append_left _ h7
          · exact Or.inr h5
  | deliver =>
    cases htodo : s.todo with
    | cons a b =>
      have : (step I py38 ps i s (.deliver : Ev ε)) = (s, []) := by simp [step, htodo]
      rw [this] at hk ⊢
      simpa using h k hk
    | nil =>
      cases hn : s.inf.sent[i]?.bind (·[s.delivered]?) with
      | none =>
        have : (step I py38 ps i s (.deliver : Ev ε)) = (s, []) := by simp [step, htodo, hn]
        rw [this] at hk ⊢
        simpa using h k hk
      | some n =>
        have hst : (step I py38 ps i s (.deliver : Ev ε)) =
            ({ s with delivered := s.delivered + 1, todo := (Source.handle ps n).1 }, []) := by
          simp [step, htodo, hn]
        rw [hst] at hk ⊢
        simp only [List.append_nil]
        have hold : Told s i k := hk
        rcases h k hold with h5 | h5
        · exact Or.inl h5
        · right
          obtain ⟨ns, h6, h7⟩ := Option.bind_eq_some_iff.1 hn
          rcases h5 with ⟨ns', m, h8, h9, h10⟩ | ⟨nn, h8, h9⟩
          · rw [h6] at h8
            cases h8
            obtain ⟨hlt, hget⟩ := List.getElem?_eq_some_iff.1 h7
            rw [List.drop_eq_getElem_cons hlt, hget, List.mem_cons] at h9
            -- the last notification about `k`
            obtain ⟨pre, n', post, g1, g2, g3, g4⟩ := hold
            rw [h6] at g1
            cases g1
            by_cases hpre : s.delivered < pre.length
            · -- it is still to come
              left
              refine ⟨_, n', h6, ?_, g2⟩
              rw [List.drop_append_of_le_length (by simp only; omega)]
              simp
            · -- it is this one, or there is none to come
              rcases h9 with rfl | h9
              · by_cases hat : s.delivered = pre.length
                · have hnn : n' = m := by
                    rw [hat, List.getElem?_append_right (Nat.le_refl _)] at h7
                    simpa using h7
                  subst hnn
                  obtain ⟨nn, hnn, hkk⟩ := Source.requests_of_note ps es i hes hr pre n' post
                    (by rw [← hi]; exact h6) (hp _ h6 n' (by simp)) k g2 g4
                  exact Or.inr ⟨nn, hkk, Or.inl hnn⟩
                · exfalso
                  rw [List.getElem?_append_right (by omega)] at h7
                  have hpos : s.delivered - pre.length = (s.delivered - pre.length - 1) + 1 := by omega
                  rw [hpos, List.getElem?_cons_succ] at h7
                  exact g3 m (List.mem_of_getElem? h7) h10
              · exfalso
                rw [List.drop_append, List.mem_append] at h9
                rcases h9 with h9 | h9
                · rw [List.drop_eq_nil_of_le (by omega)] at h9
                  cases h9
                · have hpos : s.delivered + 1 - pre.length = (s.delivered - pre.length) + 1 := by omega
                  rw [hpos, List.drop_succ_cons] at h9
                  exact g3 m (List.mem_of_mem_drop h9) h10
          · rcases h9 with h9 | h9
            · rw [htodo] at h9; cases h9
            · exact Or.inr ⟨nn, h8, Or.inr h9⟩
  | add =>
    cases htodo : s.todo with
    | nil =>
      have : (step I py38 ps i s (.add : Ev ε)) = (s, []) := by simp [step, htodo]
      rw [this] at hk ⊢
      simpa using h k hk
    | cons x rest =>
      have hst : (step I py38 ps i s (.add : Ev ε)) = ({ s with
          todo := rest
          ctl := (Controller.step I py38 (fun _ => true) s.ctl (.queue (.base (.add x)))).1 }, []) := by
        simp [step, htodo]
      rw [hst] at hk ⊢
      simp only [List.append_nil]
      have hcore : (Controller.step I py38 (fun _ => true) s.ctl (.queue (.base (.add x)))).1.rq.q.core =
          WorkQueue.add s.ctl.rq.q.core x := rfl
      rcases h k hk with h5 | h5
      · exact Or.inl h5
      · right
        rcases h5 with h5 | ⟨nn, h8, h9⟩
        · exact Or.inl h5
        · refine Or.inr ⟨nn, h8, ?_⟩
          rw [hcore]
          rcases h9 with h9 | h9
          · rw [htodo, List.mem_cons] at h9
            rcases h9 with rfl | h9
            · exact Or.inr (Controller.add_puts _ hR.base.sd)
            · exact Or.inl h9
          · exact Or.inr (Controller.add_keeps _ h9)
  | ctl e =>
    simp only [step]
    by_cases hcall : ∃ l ∈ calls s (Controller.step I py38 (fun _ => true) s.ctl e).2,
        Meta.objectKeyToStoreKey l.request = k
    · left
      refine ⟨?_, lastSeen_append_some hcall fun l hl hlk => by rw [calls_cached hl, hlk]⟩
      obtain ⟨c, h1, h2⟩ := hcall
      exact ⟨c, List.mem_append_right _ h1, h2⟩
    · rw [lastSeen_append_none fun l hl hlk => hcall ⟨l, hl, hlk⟩]
      rcases h k hk with ⟨⟨c, h1, h2⟩, h5⟩ | h5
      · exact Or.inl ⟨⟨c, List.mem_append_left _ h1, h2⟩, h5⟩
      · right
        rcases h5 with h5 | ⟨nn, h8, h9⟩
        · exact Or.inl h5
        · refine Or.inr ⟨nn, h8, ?_⟩
          rcases h9 with h9 | h9
          · exact Or.inl h9
          · rcases Controller.dirty_step I py38 e h9 with ⟨w, hw⟩ | hd
            · exfalso
              exact hcall ⟨⟨w, nn, s.read nn⟩, List.mem_filterMap.2 ⟨_, hw, rfl⟩, h8⟩
            · exact Or.inr hd

end Aiok8s.System

/-! ### Getting the work done -/

namespace Aiok8s.Controller
open Aiok8s Aiok8s.RateLimiters Aiok8s.Controller.Spec
variable {σ α ε : Type} [DecidableEq α]

/-- The moves of workers whose reconcilers return without asking for another call. -/
def Plain : Ev α ε → Prop
  | .take _ => True
  | .finish _ o _ => o = .result false 0
  | .requeued _ => True
  | .wake _ => True
  | _ => False

theorem exec_append' (I : Iface σ α ε) (py38 : Bool) (isReq : α → Bool) (as bs : List (Ev α ε)) :
    ∀ s : State σ α, exec I py38 isReq s (as ++ bs) = exec I py38 isReq (exec I py38 isReq s as) bs := by
  induction as with
  | nil => intro s; rfl
  | cons a as ih => intro s; exact ih _

/-- A worker that has an item can give it back. -/
theorem release (I : Iface σ α ε) (py38 : Bool) (env : ε) {s : State σ α} (hr : R s (phases s)) {x : α}
    (hx : x ∈ s.rq.q.core.processing) :
    ∃ (e : Ev α ε) (v : Nat) (p : Pc α), Plain e ∧ (p = .idle ∨ p = .sleeping) ∧
      (step I py38 (fun _ => true) s e).1.workers = (fun u => if u = v then p else s.workers u) ∧
      (step I py38 (fun _ => true) s e).1.rq.q.core = (WorkQueue.done s.rq.q.core x).1 := by
  obtain ⟨v, hv⟩ := hr.held x hx
  have hok : decide ((WorkQueue.done s.rq.q.core x).2 = .ok) = true := by
    simp only [WorkQueue.done, hx, if_true]
    split <;> rfl
  cases hp : s.workers v with
  | idle => simp [phases, hp, phase, Phase.item] at hv
  | sleeping => simp [phases, hp, phase, Phase.item] at hv
  | ended => simp [phases, hp, phase, Phase.item] at hv
  | reconciling y =>
    have hy : y = x := by simpa [phases, hp, phase, Phase.item] using hv
    subst hy
    refine ⟨.finish v (.result false 0) env, v, .idle, rfl, Or.inl rfl, ?_, ?_⟩
    · simp only [step, hp, afterReconcile, ne_eq, not_true_eq_false, if_false, Bool.false_eq_true, finally_]
      have : decide ((WorkQueue.done (s.call I (.forget y)).rq.q.core y).2 = .ok) = true := hok
      simp only [this, Bool.not_true, Bool.false_eq_true, if_false]
      rfl
    · simp only [step, hp, afterReconcile, ne_eq, not_true_eq_false, if_false, Bool.false_eq_true, finally_]
      rfl
  | requeuing y ret =>
    have hy : y = x := by simpa [phases, hp, phase, Phase.item] using hv
    subst hy
    refine ⟨.requeued v, v, if ret then .idle else .sleeping, trivial, ?_, ?_, ?_⟩
    · cases ret <;> simp
    · simp only [step, hp, finally_, hok, Bool.not_true, Bool.false_eq_true, if_false]
      cases ret <;> rfl
    · simp only [step, hp, finally_]
      rfl

theorem done_length {c : WorkQueue.State α} {x : α} (h : x ∈ c.processing) :
    (WorkQueue.done c x).1.processing.length < c.processing.length := by
  have : (PySet.remove c.processing x).length < c.processing.length := by
    unfold PySet.remove
    have := List.length_filter_lt_length_iff_exists (p := fun y => decide (y ≠ x)) (l := c.processing)
    exact this.2 ⟨x, h, by simp⟩
  simp only [WorkQueue.done, h, if_true]
  split <;> exact this

/-- All workers can give back what they have. -/
theorem release_all (I : Iface σ α ε) (py38 : Bool) (env : ε) (w : Nat) : ∀ (m : Nat) (s : State σ α),
    R s (phases s) → s.rq.q.core.processing.length = m → s.workers w ≠ .ended →
    ∃ es : List (Ev α ε), (∀ e ∈ es, Plain e) ∧
      (exec I py38 (fun _ => true) s es).rq.q.core.processing = [] ∧
      (exec I py38 (fun _ => true) s es).workers w ≠ .ended := by
  intro m
  induction m using Nat.strong_induction_on with
  | _ m ih =>
    intro s hr hm hw
    cases hp : s.rq.q.core.processing with
    | nil => exact ⟨[], by simp, hp, hw⟩
    | cons x rest =>
      have hx : x ∈ s.rq.q.core.processing := by rw [hp]; simp
      obtain ⟨e, v, p, h1, h2, h3, h4⟩ := release I py38 env hr hx
      have hlt := done_length hx
      rw [← h4, hm] at hlt
      have hw' : (step I py38 (fun _ => true) s e).1.workers w ≠ .ended := by
        rw [h3]
        simp only
        split
        · rcases h2 with rfl | rfl <;> simp
        · exact hw
      obtain ⟨es, g1, g2, g3⟩ := ih _ hlt _ (step_good I py38 _ s hr e).2 rfl hw'
      refine ⟨e :: es, ?_, g2, g3⟩
      intro e' he'
      rcases List.mem_cons.1 he' with rfl | he'
      · exact h1
      · exact g1 e' he'

/-- When no worker has an item, one of them can empty the queue. -/
theorem drain (I : Iface σ α ε) (py38 : Bool) (env : ε) (w : Nat) : ∀ (q : List α) (s : State σ α),
    R s (phases s) → s.rq.q.core.queue = q → s.rq.q.core.processing = [] → s.workers w ≠ .ended →
    ∃ es : List (Ev α ε), (∀ e ∈ es, Plain e) ∧
      (exec I py38 (fun _ => true) s es).rq.q.core.queue = [] ∧
      (exec I py38 (fun _ => true) s es).rq.q.core.processing = [] := by
  intro q
  induction q with
  | nil => intro s _ hq hp _; exact ⟨[], by simp, hq, hp⟩
  | cons x rest ih =>
    intro s hr hq hp hw
    -- with an idle worker
    have idle : ∀ s : State σ α, R s (phases s) → s.rq.q.core.queue = x :: rest →
        s.rq.q.core.processing = [] → s.workers w = .idle →
        ∃ es : List (Ev α ε), (∀ e ∈ es, Plain e) ∧
          (exec I py38 (fun _ => true) s es).rq.q.core.queue = [] ∧
          (exec I py38 (fun _ => true) s es).rq.q.core.processing = [] := by
      intro s hr hq hp hw
      have hget : WorkQueue.get s.rq.q.core = ({ s.rq.q.core with
          queue := rest
          processing := PySet.add s.rq.q.core.processing x
          dirty := PySet.remove s.rq.q.core.dirty x }, .item x) := by
        simp only [WorkQueue.get, hq]
      let s1 := (step I py38 (fun _ => true) s (.take w)).1
      have hs1 : s1 = (s.call I (.queue (.base .get))).setPc w (.reconciling x) := by
        simp only [s1, step, hw, if_true, hget]
      have hr1 : R s1 (phases s1) := (step_good I py38 _ s hr _).2
      have hc1 : s1.rq.q.core = (WorkQueue.get s.rq.q.core).1 := by rw [hs1]; rfl
      have hw1 : s1.workers w = .reconciling x := by rw [hs1]; simp [State.setPc]
      have hx1 : x ∈ s1.rq.q.core.processing := by rw [hc1, hget]; simp
      let s2 := (step I py38 (fun _ => true) s1 (.finish w (.result false 0) env)).1
      have hr2 : R s2 (phases s2) := (step_good I py38 _ s1 hr1 _).2
      have hok : decide ((WorkQueue.done s1.rq.q.core x).2 = .ok) = true := by
        simp only [WorkQueue.done, hx1, if_true]
        split <;> rfl
      have hs2 : s2.rq.q.core = (WorkQueue.done s1.rq.q.core x).1 ∧ s2.workers w = .idle := by
        simp only [s2, step, hw1, afterReconcile, ne_eq, not_true_eq_false, if_false, Bool.false_eq_true,
          finally_]
        have : decide ((WorkQueue.done (s1.call I (.forget x)).rq.q.core x).2 = .ok) = true := hok
        simp only [this, Bool.not_true, Bool.false_eq_true, if_false]
        refine ⟨rfl, by simp [State.setPc]⟩
      have hc2 : s2.rq.q.core.queue = rest ∧ s2.rq.q.core.processing = [] := by
        rw [hs2.1, hc1, hget, hp]
        simp [WorkQueue.done, PySet.add, PySet.remove]
      obtain ⟨es, g1, g2, g3⟩ := ih s2 hr2 hc2.1 hc2.2 (by rw [hs2.2]; simp)
      refine ⟨.take w :: .finish w (.result false 0) env :: es, ?_, g2, g3⟩
      intro e he
      rcases List.mem_cons.1 he with rfl | he
      · trivial
      · rcases List.mem_cons.1 he with rfl | he
        · rfl
        · exact g1 e he
    have hfree : ∀ y, (phases s w).item ≠ some y := by
      intro y hy
      have := hr.proc w y hy
      rw [hp] at this
      cases this
    cases hpc : s.workers w with
    | idle => exact idle s hr hq hp hpc
    | ended => exact absurd hpc hw
    | reconciling y => exact absurd (by simp [phases, hpc, phase, Phase.item]) (hfree y)
    | requeuing y r => exact absurd (by simp [phases, hpc, phase, Phase.item]) (hfree y)
    | sleeping =>
      have hs1 : (step I py38 (fun _ => true) s (.wake w : Ev α ε)).1 = s.setPc w .idle := by
        simp only [step, hpc, if_true]
      have hr1 := (step_good I py38 (fun _ => true) s hr (.wake w : Ev α ε)).2
      rw [hs1] at hr1
      obtain ⟨es, g1, g2, g3⟩ := idle (s.setPc w .idle) hr1 hq hp (by simp [State.setPc])
      refine ⟨.wake w :: es, ?_, ?_, ?_⟩
      · intro e he
        rcases List.mem_cons.1 he with rfl | he
        · trivial
        · exact g1 e he
      · simp only [exec, hs1]; exact g2
      · simp only [exec, hs1]; exact g3

/-- With a worker left the queue can be emptied and all reconcilers can end. -/
theorem settle (I : Iface σ α ε) (py38 : Bool) (env : ε) (w : Nat) (s : State σ α) (hr : R s (phases s))
    (hw : s.workers w ≠ .ended) :
    ∃ es : List (Ev α ε), (∀ e ∈ es, Plain e) ∧
      (exec I py38 (fun _ => true) s es).rq.q.core.queue = [] ∧
      ∀ v, (exec I py38 (fun _ => true) s es).workers v = .idle ∨
        (exec I py38 (fun _ => true) s es).workers v = .sleeping ∨
        (exec I py38 (fun _ => true) s es).workers v = .ended := by
  obtain ⟨as, a1, a2, a3⟩ := release_all I py38 env w _ s hr rfl hw
  have hr1 := (exec_good I py38 (fun _ => true) as s hr).2
  obtain ⟨bs, b1, b2, b3⟩ := drain I py38 env w _ _ hr1 rfl a2 a3
  have hr2 := (exec_good I py38 (fun _ => true) bs _ hr1).2
  refine ⟨as ++ bs, ?_, ?_, ?_⟩
  · intro e he
    rcases List.mem_append.1 he with he | he
    · exact a1 e he
    · exact b1 e he
  · rw [exec_append']; exact b2
  · rw [exec_append']
    intro v
    cases hp : (exec I py38 (fun _ => true) (exec I py38 (fun _ => true) s as) bs).workers v with
    | idle => simp
    | sleeping => simp
    | ended => simp
    | reconciling y =>
      have := hr2.proc v y (by simp [phases, hp, phase, Phase.item])
      rw [b3] at this
      cases this
    | requeuing y r =>
      have := hr2.proc v y (by simp [phases, hp, phase, Phase.item])
      rw [b3] at this
      cases this

end Aiok8s.Controller

namespace Aiok8s.System
open Aiok8s Aiok8s.RateLimiters Aiok8s.System.Spec Aiok8s.Source.Spec
open Aiok8s.Meta (Val NamespacedName)
open Aiok8s.Informer (Note)
variable {σ ε : Type}

theorem exec_ctl (I : Iface σ NamespacedName ε) (py38 : Bool) (ps : List Source.Pred) (i : Nat)
    (es : List (Controller.Ev NamespacedName ε)) : ∀ s : State σ,
    exec I py38 ps i s (es.map .ctl) =
      { s with ctl := Controller.exec I py38 (fun _ => true) s.ctl es } := by
  induction es with
  | nil => intro s; rfl
  | cons e es ih => intro s; simp only [List.map_cons, exec, Controller.exec]; rw [ih]; rfl

/-- The handler can finish its call. -/
theorem finish_call (I : Iface σ NamespacedName ε) (py38 : Bool) (ps : List Source.Pred) (i : Nat) :
    ∀ (todo : List NamespacedName) (s : State σ), s.todo = todo →
    ∃ es : List (Ev ε), (∀ e ∈ es, Working e) ∧ (exec I py38 ps i s es).todo = [] ∧
      (exec I py38 ps i s es).inf = s.inf ∧ (exec I py38 ps i s es).delivered = s.delivered ∧
      (exec I py38 ps i s es).ctl.workers = s.ctl.workers := by
  intro todo
  induction todo with
  | nil => intro s hs; exact ⟨[], by simp, hs, rfl, rfl, rfl⟩
  | cons x rest ih =>
    intro s hs
    have hst : (step I py38 ps i s (.add : Ev ε)) = ({ s with
        todo := rest
        ctl := (Controller.step I py38 (fun _ => true) s.ctl (.queue (.base (.add x)))).1 }, []) := by
      simp [step, hs]
    obtain ⟨es, h1, h2, h3, h4, h5⟩ := ih (step I py38 ps i s (.add : Ev ε)).1 (by rw [hst])
    refine ⟨.add :: es, ?_, h2, h3.trans (by rw [hst]), h4.trans (by rw [hst]), h5.trans (by rw [hst]; rfl)⟩
    intro e he
    rcases List.mem_cons.1 he with rfl | he
    · trivial
    · exact h1 e he

/-- The handler can catch up. -/
theorem catch_up (I : Iface σ NamespacedName ε) (py38 : Bool) (ps : List Source.Pred) (i : Nat)
    (ns : List (Note Val Meta.Obj)) : ∀ (m : Nat) (s : State σ), s.inf.sent[i]? = some ns →
    s.delivered + m = ns.length →
    ∃ es : List (Ev ε), (∀ e ∈ es, Working e) ∧ (exec I py38 ps i s es).todo = [] ∧
      (exec I py38 ps i s es).inf = s.inf ∧ (exec I py38 ps i s es).delivered = ns.length ∧
      (exec I py38 ps i s es).ctl.workers = s.ctl.workers := by
  intro m
  induction m with
  | zero =>
    intro s hs hm
    obtain ⟨es, h1, h2, h3, h4, h5⟩ := finish_call I py38 ps i s.todo s rfl
    exact ⟨es, h1, h2, h3, h4.trans hm, h5⟩
  | succ m ih =>
    intro s hs hm
    obtain ⟨as, h1, h2, h3, h4, h5⟩ := finish_call I py38 ps i s.todo s rfl
    generalize hs1 : exec I py38 ps i s as = s1 at h2 h3 h4 h5
    have hlt : s1.delivered < ns.length := by omega
    have hst : (step I py38 ps i s1 (.deliver : Ev ε)).1 =
        { s1 with delivered := s1.delivered + 1, todo := (Source.handle ps ns[s1.delivered]).1 } := by
      have : s1.inf.sent[i]?.bind (·[s1.delivered]?) = some ns[s1.delivered] := by
        rw [h3, hs]; simp [hlt]
      simp [step, h2, this]
    obtain ⟨bs, g1, g2, g3, g4, g5⟩ := ih (step I py38 ps i s1 (.deliver : Ev ε)).1
      (by rw [hst]; exact h3 ▸ hs) (by rw [hst]; simp only; omega)
    refine ⟨as ++ .deliver :: bs, ?_, ?_, ?_, ?_, ?_⟩
    · intro e he
      rcases List.mem_append.1 he with he | he
      · exact h1 e he
      · rcases List.mem_cons.1 he with rfl | he
        · trivial
        · exact g1 e he
    · rw [exec_append, hs1]; exact g2
    · rw [exec_append, hs1]; exact (g3.trans (by rw [hst])).trans h3
    · rw [exec_append, hs1]; exact g4
    · rw [exec_append, hs1]; exact (g5.trans (by rw [hst])).trans h5

end Aiok8s.System
