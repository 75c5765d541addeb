import Verif.Proof.System
/-!
# The whole way: C75
-/
namespace Aiok8s.System
open Aiok8s Aiok8s.RateLimiters Aiok8s.System.Spec Aiok8s.Source.Spec
open Aiok8s.Meta (Val NamespacedName)
open Aiok8s.Informer (Note)
open Aiok8s.SharedInformer.Spec (Ev.selects)
variable {σ ε : Type}

private theorem told_nil (l : σ) (t : ℚ) (n i : Nat) (k : Val) : ¬ Told (init l t n) i k := by
  rintro ⟨pre, m, post, h, -⟩
  simp [init, SharedInformer.init] at h

/-- **C75**, at every moment: what the cache held when the reconciler was last called for an object is
what it holds now, or another call for it is on its way; for the objects of which the handler was told
(cached ones and watched deletions).  For a handler that every check finds due and whose predicates
accept everything.  Missing: deletions found out by a relist, see `C75_refuted`. -/
theorem C75_current_partial (I : Iface σ NamespacedName ε) (py38 : Bool) (ps : List Source.Pred) (i : Nat)
    (l : σ) (t : ℚ) (n : Nat) (es : List (Ev ε)) (hs : ∀ e ∈ informerEvents es, Ev.selects i e)
    (hr : ∀ e ∈ informerEvents es, EvAll Proper e)
    (hp : ∀ ns, (exec I py38 ps i (init l t n) es).inf.sent[i]? = some ns → ∀ m ∈ ns, Accepted ps m)
    (k : Val) (hk : Told (exec I py38 ps i (init l t n) es) i k) :
    (Called k (logOf I py38 ps i (init l t n) es) ∧
        lastSeen k (logOf I py38 ps i (init l t n) es) =
          (exec I py38 ps i (init l t n) es).inf.inf.items.get? k) ∨
      Coming (exec I py38 ps i (init l t n) es) i k := by
  suffices h : Current (exec I py38 ps i (init l t n) es) i (logOf I py38 ps i (init l t n) es) from h k hk
  clear hk k
  induction es using List.reverseRecOn with
  | nil => intro k hk; exact absurd hk (told_nil l t n i k)
  | append_singleton es e ih =>
    rw [informerEvents_append] at hs hr
    have hs' : ∀ e ∈ informerEvents es, Ev.selects i e := fun e he => hs e (List.mem_append_left _ he)
    have hr' : ∀ e ∈ informerEvents es, EvAll Proper e := fun e he => hr e (List.mem_append_left _ he)
    have hp' : ∀ ns, (exec I py38 ps i (init l t n) es).inf.sent[i]? = some ns →
        ∀ m ∈ ns, Accepted ps m := by
      intro ns hns m hm
      rw [exec_append] at hp
      simp only [exec] at hp
      cases e with
      | inf e =>
        obtain ⟨more, hmore⟩ := SharedInformer.sent_grows Meta.keyFunc _ e i ns hns
        exact hp _ hmore m (List.mem_append_left _ hm)
      | deliver => exact hp ns (by rw [inf_step]; exact hns) m hm
      | add => exact hp ns (by rw [inf_step]; exact hns) m hm
      | ctl e => exact hp ns (by rw [inf_step]; exact hns) m hm
    rw [exec_append, logOf_append]
    simp only [exec, logOf, List.append_nil]
    exact current_step I py38 ps i (informerEvents es) hs' hr' _ (inf_exec I py38 ps i es _)
      (R_exec I py38 ps i es _ (Controller.R_init l t n))
      (counted_exec I py38 ps i es _ (Nat.zero_le _)) hp' _ (ih hs' hr' hp') e
      (fun e he => hs e (List.mem_append_right _ he))

/-- The handler was told of every object in the cache. -/
theorem told_cached (I : Iface σ NamespacedName ε) (py38 : Bool) (ps : List Source.Pred) (i : Nat)
    (l : σ) (t : ℚ) (n : Nat) (es : List (Ev ε)) (hs : ∀ e ∈ informerEvents es, Ev.selects i e)
    (ns : List (Note Val Meta.Obj)) (hreg : (exec I py38 ps i (init l t n) es).inf.sent[i]? = some ns)
    (k : Val) (x : Source.Obj) (hx : (exec I py38 ps i (init l t n) es).inf.inf.items.get? k = some x) :
    Told (exec I py38 ps i (init l t n) es) i k := by
  have hi := inf_exec I py38 ps i es (init l t n)
  have hv := SharedInformer.C34_due_partial Meta.keyFunc (informerEvents es) i hs ns
    (by rw [hi] at hreg; exact hreg) k
  rw [show SharedInformer.exec Meta.keyFunc SharedInformer.init (informerEvents es) =
    (exec I py38 ps i (init l t n) es).inf from hi.symm, hx] at hv
  rcases Source.last_seen Meta.keyFunc k ns with hno | ⟨pre, m, post, h1, h2, h3, h4⟩
  · rw [hno.2] at hv; cases hv
  · refine ⟨pre, m, post, by rw [hreg, h1], h2, h3, ?_⟩
    rintro y rfl
    rw [hv] at h4
    cases h4

private theorem quiet_coming {s : State σ} {i : Nat} (hR : Controller.R s.ctl (Controller.phases s.ctl))
    (hq : Quiet s i) (k : Val) : ¬ Coming s i k := by
  obtain ⟨h1, h2, h3, h4⟩ := hq
  rintro (⟨ns, n, g1, g2, -⟩ | ⟨nn, -, g | g⟩)
  · rw [h1 ns g1, List.drop_length] at g2
    cases g2
  · rw [h2] at g; cases g
  · rcases hR.inv.dirty_cov nn g with g | g
    · rw [h3] at g; cases g
    · obtain ⟨w, hw⟩ := hR.held nn g
      rcases h4 w with h | h | h <;> simp [Controller.phases, h, Controller.phase, Controller.Spec.Phase.item] at hw

/-- **C75**, when nothing is left to do: for every object in the cache the reconciler was last called
when the cache held the object as it is now; for an object whose deletion was watched, when the cache
did not hold it any more.  Missing: as in `C75_current_partial`. -/
theorem C75_quiet_partial (I : Iface σ NamespacedName ε) (py38 : Bool) (ps : List Source.Pred) (i : Nat)
    (l : σ) (t : ℚ) (n : Nat) (es : List (Ev ε)) (hs : ∀ e ∈ informerEvents es, Ev.selects i e)
    (hr : ∀ e ∈ informerEvents es, EvAll Proper e) (ns : List (Note Val Meta.Obj))
    (hreg : (exec I py38 ps i (init l t n) es).inf.sent[i]? = some ns) (hp : ∀ m ∈ ns, Accepted ps m)
    (hq : Quiet (exec I py38 ps i (init l t n) es) i) (k : Val) :
    (∀ x, (exec I py38 ps i (init l t n) es).inf.inf.items.get? k = some x →
      lastSeen k (logOf I py38 ps i (init l t n) es) = some x) ∧
    (∀ pre x post, ns = pre ++ .onDelete x :: post → noteKey Meta.keyFunc (.onDelete x) = some k →
      (∀ m ∈ post, noteKey Meta.keyFunc m ≠ some k) → Proper x →
      Called k (logOf I py38 ps i (init l t n) es) ∧
      lastSeen k (logOf I py38 ps i (init l t n) es) = none) := by
  have hR := R_exec I py38 ps i es (init l t n) (Controller.R_init l t n)
  have hp' : ∀ ns, (exec I py38 ps i (init l t n) es).inf.sent[i]? = some ns → ∀ m ∈ ns, Accepted ps m := by
    intro ns' h m hm
    rw [hreg] at h
    cases h
    exact hp m hm
  have main : ∀ k, Told (exec I py38 ps i (init l t n) es) i k → Called k (logOf I py38 ps i (init l t n) es) ∧
      lastSeen k (logOf I py38 ps i (init l t n) es) =
        (exec I py38 ps i (init l t n) es).inf.inf.items.get? k := by
    intro k hk
    rcases C75_current_partial I py38 ps i l t n es hs hr hp' k hk with h | h
    · exact h
    · exact absurd h (quiet_coming hR hq k)
  constructor
  · intro x hx
    rw [(main k (told_cached I py38 ps i l t n es hs ns hreg k x hx)).2, hx]
  · intro pre x post h1 h2 h3 h4
    have htold : Told (exec I py38 ps i (init l t n) es) i k :=
      ⟨pre, .onDelete x, post, by rw [hreg, h1], h2, h3, by rintro y ⟨⟩; exact h4⟩
    refine ⟨(main k htold).1, ?_⟩
    rw [(main k htold).2]
    have hi := inf_exec I py38 ps i es (init l t n)
    have hv := SharedInformer.C34_due_partial Meta.keyFunc (informerEvents es) i hs ns
      (by rw [hi] at hreg; exact hreg) k
    rw [show SharedInformer.exec Meta.keyFunc SharedInformer.init (informerEvents es) =
      (exec I py38 ps i (init l t n) es).inf from hi.symm] at hv
    rw [← hv]
    have hdel : Informer.Spec.see Meta.keyFunc (SharedInformer.Spec.view Meta.keyFunc pre) (.onDelete x) k
        = none := by
      have h2' : DeltaFifo.keyOf Meta.keyFunc x = some k := h2
      simp [Informer.Spec.see, h2', Informer.Spec.View.put]
    rw [h1, SharedInformer.view_append, List.foldl_cons]
    revert hdel
    generalize Informer.Spec.see Meta.keyFunc (SharedInformer.Spec.view Meta.keyFunc pre) (.onDelete x) = v
    clear h1 hp hreg htold hv
    intro hv
    induction post generalizing v with
    | nil => exact hv
    | cons m post ih =>
      rw [List.foldl_cons]
      exact ih (fun m' hm' => h3 m' (by simp [hm'])) _ ((Source.see_other v (h3 m (by simp))).trans hv)

private theorem plain_working {e : Controller.Ev NamespacedName ε} (h : Controller.Plain e) :
    Working (.ctl e) := by
  cases e <;> first | exact h | trivial

/-- **C75**: there is always a way on: from every state with a worker left, calls of the handler and
moves of the workers, with reconcilers that return, lead to a state in which nothing is left to do. -/
theorem C75_settles (I : Iface σ NamespacedName ε) (py38 : Bool) (ps : List Source.Pred) (i : Nat)
    (l : σ) (t : ℚ) (n : Nat) (es : List (Ev ε)) (env : ε) (w : Nat)
    (hreg : (exec I py38 ps i (init l t n) es).inf.sent[i]? ≠ none)
    (hw : (exec I py38 ps i (init l t n) es).ctl.workers w ≠ .ended) :
    ∃ more : List (Ev ε), (∀ e ∈ more, Working e) ∧
      (exec I py38 ps i (init l t n) (es ++ more)).inf = (exec I py38 ps i (init l t n) es).inf ∧
      Quiet (exec I py38 ps i (init l t n) (es ++ more)) i := by
  have hc := counted_exec I py38 ps i es (init l t n) (Nat.zero_le _)
  have hR := R_exec I py38 ps i es (init l t n) (Controller.R_init l t n)
  simp only [exec_append]
  generalize exec I py38 ps i (init l t n) es = s at *
  obtain ⟨ns, hns⟩ := Option.ne_none_iff_exists'.1 hreg
  simp only [Counted, hns, Option.getD_some] at hc
  obtain ⟨as, a1, a2, a3, a4, a5⟩ := catch_up (ε := ε) I py38 ps i ns (ns.length - s.delivered) s hns (by omega)
  have hR1 := R_exec I py38 ps i as s hR
  generalize hs1 : exec I py38 ps i s as = s1 at *
  obtain ⟨bs, b1, b2, b3⟩ := Controller.settle I py38 env w s1.ctl hR1 (by rw [a5]; exact hw)
  refine ⟨as ++ bs.map .ctl, ?_, ?_, ?_⟩
  · intro e he
    rcases List.mem_append.1 he with he | he
    · exact a1 e he
    · obtain ⟨e', he', rfl⟩ := List.mem_map.1 he
      exact plain_working (b1 e' he')
  · rw [exec_append, hs1, exec_ctl]; exact a3
  · rw [exec_append, hs1, exec_ctl]
    refine ⟨?_, a2, b2, b3⟩
    intro ns' h
    change s1.inf.sent[i]? = some ns' at h
    rw [a3, hns] at h
    cases h
    exact a4

/-- **C75**: so every change of the cache can still be followed by a call of the reconciler that sees
it: without another change, handler and workers get to a point at which the reconciler was last called
for each cached object when the cache held it as it is.  Missing: as in `C75_current_partial`. -/
theorem C75_eventually_partial (I : Iface σ NamespacedName ε) (py38 : Bool) (ps : List Source.Pred) (i : Nat)
    (l : σ) (t : ℚ) (n : Nat) (es : List (Ev ε)) (hs : ∀ e ∈ informerEvents es, Ev.selects i e)
    (hr : ∀ e ∈ informerEvents es, EvAll Proper e) (ns : List (Note Val Meta.Obj))
    (hreg : (exec I py38 ps i (init l t n) es).inf.sent[i]? = some ns) (hp : ∀ m ∈ ns, Accepted ps m)
    (env : ε) (w : Nat) (hw : (exec I py38 ps i (init l t n) es).ctl.workers w ≠ .ended) :
    ∃ more : List (Ev ε), (∀ e ∈ more, Working e) ∧
      ∀ k x, (exec I py38 ps i (init l t n) es).inf.inf.items.get? k = some x →
        lastSeen k (logOf I py38 ps i (init l t n) (es ++ more)) = some x := by
  obtain ⟨more, h1, h2, h3⟩ := C75_settles I py38 ps i l t n es env w (by rw [hreg]; simp) hw
  have hno : informerEvents more = [] := by
    simp only [informerEvents, List.filterMap_eq_nil_iff]
    intro e he
    have := h1 e he
    cases e with
    | inf e => exact absurd this id
    | deliver => rfl
    | add => rfl
    | ctl e => rfl
  refine ⟨more, h1, fun k x hx => ?_⟩
  have hev : informerEvents (es ++ more) = informerEvents es := by
    rw [informerEvents_append, hno, List.append_nil]
  exact (C75_quiet_partial I py38 ps i l t n (es ++ more) (by rw [hev]; exact hs) (by rw [hev]; exact hr) ns
    (by rw [h2]; exact hreg) hp h3 k).1 x (by rw [h2]; exact hx)

/-- **C75**: when nothing is left to do, the reconciler is not called until something happens to the
informer, the queue or the workers from outside. -/
theorem C75_no_more (I : Iface σ NamespacedName ε) (py38 : Bool) (ps : List Source.Pred) (i : Nat)
    (s : State σ) (hq : Quiet s i) (hreg : s.inf.sent[i]? ≠ none) (more : List (Ev ε))
    (hw : ∀ e ∈ more, Working e) : logOf I py38 ps i s more = [] := by
  induction more generalizing s with
  | nil => rfl
  | cons e more ih =>
    obtain ⟨h1, h2, h3, h4⟩ := hq
    have hget : ∀ x, (WorkQueue.get s.ctl.rq.q.core).2 ≠ .item x := by
      intro x
      simp only [WorkQueue.get, h3]
      split <;> simp
    have key : (step I py38 ps i s e).2 = [] ∧ Quiet (step I py38 ps i s e).1 i ∧
        (step I py38 ps i s e).1.inf = s.inf := by
      have same : ∀ {r : State σ × List Log}, r = (s, []) → r.2 = [] ∧ Quiet r.1 i ∧ r.1.inf = s.inf := by
        rintro r rfl
        exact ⟨rfl, ⟨h1, h2, h3, h4⟩, rfl⟩
      have moved : ∀ {r : State σ × List Log} (v : Nat) (p : Controller.Pc NamespacedName),
          (p = .idle ∨ p = .sleeping) → r = ({ s with ctl := s.ctl.setPc v p }, []) →
          r.2 = [] ∧ Quiet r.1 i ∧ r.1.inf = s.inf := by
        rintro r v p hpp rfl
        refine ⟨rfl, ⟨h1, h2, h3, fun u => ?_⟩, rfl⟩
        simp only [Controller.State.setPc]
        split
        · rcases hpp with rfl | rfl <;> simp
        · exact h4 u
      have hwe := hw e (by simp)
      cases e with
      | inf e => exact absurd hwe id
      | deliver =>
        apply same
        obtain ⟨ns, hns⟩ := Option.ne_none_iff_exists'.1 hreg
        have : s.inf.sent[i]?.bind (·[s.delivered]?) = none := by
          rw [hns]
          simp [h1 ns hns]
        simp [step, this]
      | add => apply same; simp [step, h2]
      | ctl e =>
        cases e with
        | queue e => exact absurd hwe id
        | cancelRequeue v => exact absurd hwe id
        | cancel v => exact absurd hwe id
        | finish v o env =>
          apply same
          rcases h4 v with h | h | h <;> simp [step, Controller.step, h, calls]
        | requeued v =>
          apply same
          rcases h4 v with h | h | h <;> simp [step, Controller.step, h, calls]
        | wake v =>
          by_cases hv : s.ctl.workers v = .sleeping
          · exact moved v .idle (Or.inl rfl) (by simp [step, Controller.step, hv, calls])
          · apply same; simp [step, Controller.step, hv, calls]
        | take v =>
          by_cases hv : s.ctl.workers v = .idle
          · cases hg : (WorkQueue.get s.ctl.rq.q.core).2 with
            | item x => exact absurd hg (hget x)
            | quit => exact moved v .sleeping (Or.inr rfl) (by simp [step, Controller.step, hv, hg, calls])
            | _ => apply same; simp [step, Controller.step, hv, hg, calls]
          · apply same; simp [step, Controller.step, hv, calls]
    simp only [logOf]
    rw [key.1, ih _ key.2.1 (by rw [key.2.2]; exact hreg) (fun e he => hw e (by simp [he]))]
    rfl

/-! ### A deletion found out by a relist -/

private def pod (name : String) (v : Nat) : Source.Obj :=
  .real (.typed (some (some "ns".toList, some name.toList)) v)

private abbrev Lim := RateLimiters.Failures NamespacedName

private def I₀ : Iface Lim NamespacedName Unit := RateLimitingQueue.expIface ⟨1 / 100, 1000, true⟩

private def a : NamespacedName := ⟨some "ns".toList, some "a".toList⟩

private def relist : List (Ev Unit) :=
  [.inf .register, .inf .start, .inf (.replace [pod "a" 1]), .inf .pop, .deliver, .add, .ctl (.take 0),
    .ctl (.finish 0 (.result false 0) ()), .inf (.replace []), .inf .pop, .deliver]

private theorem setPc_ended {s : Controller.State σ NamespacedName} {w v : Nat}
    {p : Controller.Pc NamespacedName} (h : s.workers v = .ended) (hw : s.workers w ≠ .ended) :
    (s.setPc w p).workers v = .ended := by
  have : v ≠ w := by rintro rfl; exact hw h
  simp [Controller.State.setPc, this, h]

private theorem ended_ctl (I : Iface σ NamespacedName ε) (py38 : Bool) (v : Nat)
    (s : Controller.State σ NamespacedName) (h : s.workers v = .ended) (e : Controller.Ev NamespacedName ε) :
    (Controller.step I py38 (fun _ => true) s e).1.workers v = .ended := by
  cases e with
  | queue e => simp only [Controller.step]; split <;> exact h
  | take w =>
    simp only [Controller.step]
    split
    · rename_i hw
      have hw' : s.workers w ≠ .ended := by rw [hw]; simp
      split
      · exact setPc_ended (s := s.call I _) h hw'
      · exact setPc_ended h hw'
      · exact h
    · exact h
  | finish w o env =>
    simp only [Controller.step]
    split
    · rename_i x hw
      have hw' : s.workers w ≠ .ended := by rw [hw]; simp
      have hfin : ∀ (s' : Controller.State σ NamespacedName) e', s'.workers = s.workers →
          (Controller.finally_ I py38 s' w x e').1.workers v = .ended := by
        intro s' e' hs
        exact setPc_ended (s := s'.call I (.queue (.base (.done x)))) (by rw [← h, ← hs]; rfl)
          (by rw [← hs] at hw'; exact hw')
      cases o with
      | cancelled => exact hfin s .cancelled rfl
      | bad => exact hfin s .exc rfl
      | raised =>
        simp only [Controller.afterReconcile]
        split
        · exact hfin _ _ rfl
        · exact setPc_ended (s := s.call I _) h hw'
      | result r d =>
        simp only [Controller.afterReconcile]
        split
        · exact setPc_ended (s := (s.call I _).call I _) h hw'
        · split
          · split
            · exact hfin _ _ rfl
            · exact setPc_ended (s := s.call I _) h hw'
          · exact hfin _ _ rfl
    · exact h
  | requeued w =>
    simp only [Controller.step]
    split
    · rename_i x r hw
      exact setPc_ended (s := s.call I (.queue (.base (.done x)))) h (by
        show s.workers w ≠ .ended
        rw [hw]; simp)
    · exact h
  | cancelRequeue w =>
    simp only [Controller.step]
    split
    · rename_i x r hw
      exact setPc_ended (s := s.call I (.queue (.base (.done x)))) h (by
        show s.workers w ≠ .ended
        rw [hw]; simp)
    · exact h
  | wake w =>
    simp only [Controller.step]
    split
    · rename_i hw
      exact setPc_ended h (by rw [hw]; simp)
    · exact h
  | cancel w =>
    simp only [Controller.step]
    split
    · rename_i hw
      exact setPc_ended h (by rcases hw with hw | hw <;> rw [hw] <;> simp)
    · exact h

theorem ended_exec (I : Iface σ NamespacedName ε) (py38 : Bool) (ps : List Source.Pred) (i v : Nat)
    (es : List (Ev ε)) : ∀ s : State σ, s.ctl.workers v = .ended →
    (exec I py38 ps i s es).ctl.workers v = .ended := by
  induction es with
  | nil => intro s h; exact h
  | cons e es ih =>
    intro s h
    refine ih _ ?_
    cases e with
    | inf e => exact h
    | deliver => simp only [step]; split <;> exact h
    | add =>
      simp only [step]
      split
      · exact h
      · exact ended_ctl I py38 v _ h _
    | ctl e => exact ended_ctl I py38 v _ h _

/-- **C75** is false for deletions found out by a relist: nothing is left to do, the object is gone from
the cache, but the reconciler was last called when it was there, and it is not called again. -/
theorem C75_refuted :
    let s := exec I₀ true [] 0 (init [] 0 1) relist
    Quiet s 0 ∧ s.inf.inf.items.get? (some "ns/a".toList) = none ∧
    lastSeen (some "ns/a".toList) (logOf I₀ true [] 0 (init [] 0 1) relist) = some (pod "a" 1) ∧
    ∀ more : List (Ev Unit), (∀ e ∈ more, Working e) → logOf I₀ true [] 0 s more = [] := by
  intro s
  have hq : Quiet s 0 := by
    refine ⟨?_, by decide +kernel, by decide +kernel, ?_⟩
    · have h1 : s.inf.sent[0]? = some [.onAdd (pod "a" 1), .onDelete (.goneWith (some "ns/a".toList) (pod "a" 1))] := by
        decide +kernel
      have h2 : s.delivered = 2 := by decide +kernel
      intro ns hns
      rw [h1] at hns
      cases hns
      exact h2
    · intro w
      have h0 : s.ctl.workers 0 = .idle := by decide +kernel
      by_cases hw : w = 0
      · rw [hw]; exact Or.inl h0
      · right; right
        exact ended_exec I₀ true [] 0 w relist _ (by simp [init, Controller.init, hw])
  exact ⟨hq, by decide +kernel, by decide +kernel, fun more hm =>
    C75_no_more I₀ true [] 0 s hq (by decide +kernel) more hm⟩

/-! ### Examples -/

/-- A handler registered late; an update comes while the object is being reconciled; another object is
deleted. -/
private def sample : List (Ev Unit) :=
  [.inf .start, .inf (.replace [pod "a" 1, pod "b" 1]), .inf .pop, .inf .register, .deliver, .add,
    .ctl (.take 0), .inf .pop, .inf (.update (pod "a" 2)), .inf .pop, .deliver, .add, .deliver, .add,
    .inf (.delete (pod "b" 1)), .inf .pop]

-- the hypotheses of `C75_current_partial` are met; a call for `a` is on its way, not yet made
example : (∀ e ∈ informerEvents sample, Ev.selects 0 e) ∧ (∀ e ∈ informerEvents sample, EvAll Proper e) ∧
    (exec I₀ true [] 0 (init [] 0 1) sample).inf.sent = [[.onAdd (pod "a" 1), .onAdd (pod "b" 1),
      .onUpdate (pod "a" 1) (pod "a" 2), .onDelete (pod "b" 1)]] ∧
    Told (exec I₀ true [] 0 (init [] 0 1) sample) 0 (some "ns/a".toList) ∧
    lastSeen (some "ns/a".toList) (logOf I₀ true [] 0 (init [] 0 1) sample) = some (pod "a" 1) ∧
    (exec I₀ true [] 0 (init [] 0 1) sample).inf.inf.items.get? (some "ns/a".toList) = some (pod "a" 2) ∧
    Coming (exec I₀ true [] 0 (init [] 0 1) sample) 0 (some "ns/a".toList) ∧
    (exec I₀ true [] 0 (init [] 0 1) sample).ctl.workers 0 ≠ .ended := by
  refine ⟨?_, ?_, by decide +kernel, ⟨[.onAdd (pod "a" 1), .onAdd (pod "b" 1)],
    .onUpdate (pod "a" 1) (pod "a" 2), [.onDelete (pod "b" 1)], by decide +kernel, by decide +kernel,
    by decide +kernel, by rintro x ⟨⟩⟩, by decide +kernel, by decide +kernel, Or.inr ⟨a, by decide +kernel,
    Or.inr (by decide +kernel)⟩, by decide +kernel⟩
  · simp [sample, informerEvents, SharedInformer.Spec.Ev.selects]
  · simp [sample, informerEvents, EvAll, pod, Proper]

/-- The rest of the work. -/
private def rest : List (Ev Unit) :=
  [.add, .ctl (.finish 0 (.result false 0) ()), .deliver, .add, .ctl (.take 0),
    .ctl (.finish 0 (.result false 0) ()), .ctl (.take 0), .ctl (.finish 0 (.result false 0) ())]

-- the work gets done, and the reconciler has seen the last version of `a` and the absence of `b`
example : (∀ e ∈ rest, Working e) ∧
    logOf I₀ true [] 0 (init [] 0 1) (sample ++ rest) =
      [⟨0, a, some (pod "a" 1)⟩, ⟨0, ⟨some "ns".toList, some "b".toList⟩, none⟩, ⟨0, a, some (pod "a" 2)⟩] := by
  refine ⟨?_, by decide +kernel⟩
  simp [rest, Working]

end Aiok8s.System
