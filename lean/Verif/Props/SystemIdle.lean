import Verif.Spec.SystemIdle
import Verif.Props.System
import Verif.Props.Informer
import Verif.Props.DelayIdle
/-!
# C113: when time passes the reconciler is up to date
-/
namespace Aiok8s.System
open Aiok8s Aiok8s.RateLimiters Aiok8s.System.Spec Aiok8s.Source.Spec
open Aiok8s.Meta (Val NamespacedName)
open Aiok8s.Informer (Note)
open Aiok8s.SharedInformer.Spec (Ev.selects)
variable {σ ε : Type}

section
variable {K O : Type} [DecidableEq K]

private theorem reports_exec (key : O → Option K) (es : List (SharedInformer.Ev K O)) :
    ∀ s : SharedInformer.State K O, SharedInformer.Good key s →
    (SharedInformer.exec key s es).inf = Informer.exec key s.inf (reports s.started es) := by
  induction es with
  | nil => intro s _; cases h : s.started <;> rfl
  | cons e es ih =>
    intro s h
    have hn := ih _ (SharedInformer.good_step h e)
    simp only [SharedInformer.exec]
    rw [hn]
    cases hs : s.started with
    | false =>
      cases e <;> simp [SharedInformer.step, SharedInformer.onQueue, reports, hs]
    | true =>
      cases e with
      | pop =>
        have hp : (SharedInformer.pop key s).inf = (Informer.step key s.inf (.pop fun _ => .ok)).1 ∧
            (SharedInformer.pop key s).started = true := by
          obtain ⟨log, h1, -⟩ := h
          rcases SharedInformer.pop_inf h1 with ⟨-, h3, h4, -⟩ | ⟨k, -, -, -, h3, -⟩
          · rw [h3]; exact ⟨h4.symm, hs⟩
          · rw [h3]; exact ⟨rfl, hs⟩
        simp only [SharedInformer.step, hs, if_true, reports, Informer.exec]
        rw [hp.1, hp.2]
      | _ => simp [SharedInformer.step, SharedInformer.onQueue, reports, hs, Informer.exec]

private theorem careful (key : O → Option K) (k : K) (es : List (SharedInformer.Ev K O)) :
    ∀ (b : Bool) (s : Informer.State K O), Informer.Spec.AllCarefulAt key k s (reports b es) := by
  induction es with
  | nil => intro b s; cases b <;> trivial
  | cons e es ih =>
    intro b s
    cases b <;> cases e <;> simp only [reports] <;> first | exact ih _ _ | exact ⟨trivial, ih _ _⟩ | skip
    exact ⟨fun _ => ⟨fun _ _ => by simp, fun _ _ => rfl⟩, ih _ _⟩

private theorem careful_tail {key : O → Option K} {k : K} (a b : List (Informer.Ev K O)) :
    ∀ s : Informer.State K O, Informer.Spec.AllCarefulAt key k s (a ++ b) →
    Informer.Spec.AllCarefulAt key k (Informer.exec key s a) b := by
  induction a with
  | nil => intro s h; exact h
  | cons e a ih => intro s h; exact ih _ h.2

theorem started_step (key : O → Option K) (s : SharedInformer.State K O) (e : SharedInformer.Ev K O) :
    (SharedInformer.step key s e).started = true ↔ s.started = true ∨ e = .start := by
  have hq : ∀ e', (SharedInformer.onQueue key s e').started = s.started := by
    intro e'
    unfold SharedInformer.onQueue
    split <;> rfl
  cases e with
  | pop =>
    have : (SharedInformer.pop key s).started = s.started := by
      unfold SharedInformer.pop
      dsimp only
      split <;> rfl
    simp only [SharedInformer.step]
    split <;> simp [this]
  | _ => simp [SharedInformer.step, hq]

private theorem started_of_reports (key : O → Option K) (es : List (SharedInformer.Ev K O)) :
    ∀ s : SharedInformer.State K O, (s.started = true ∨ reports false es ≠ []) →
    (SharedInformer.exec key s es).started = true := by
  induction es with
  | nil =>
    rintro s (h | h)
    · exact h
    · exact absurd rfl h
  | cons e es ih =>
    intro s h
    refine ih _ ?_
    rcases h with h | h
    · exact Or.inl ((started_step key s e).2 (Or.inl h))
    · cases e with
      | start => exact Or.inl ((started_step key s .start).2 (Or.inr rfl))
      | _ => exact Or.inr h

end

/-- Nobody waits: what is on its way is in a worker's hands. -/
private theorem quiet_coming {I : Iface σ NamespacedName ε} {py38 : Bool} {ps : List Source.Pred} {i : Nat}
    {s : State σ} {d : ℚ} (hR : Controller.R s.ctl (Controller.phases s.ctl)) (hq : QuietAll I py38 ps i s d)
    (hf : Free s) {k : Val} (hc : Coming s i k) : InHand s k := by
  have htodo : s.todo = [] := by
    cases ht : s.todo with
    | nil => rfl
    | cons nn rest =>
      have := congrArg (fun r => r.1.todo) hq.add
      simp only [step, ht] at this
      exact absurd (congrArg List.length this) (by simp)
  rcases hc with ⟨ns, n, g1, g2, -⟩ | ⟨nn, hk, g | g⟩
  · exfalso
    have hlt : s.delivered < ns.length := by
      by_contra hge
      rw [List.drop_eq_nil_of_le (by omega)] at g2
      cases g2
    have := congrArg (fun r => r.1.delivered) hq.deliver
    simp [step, htodo, g1, hlt] at this
  · rw [htodo] at g; cases g
  · rcases hR.inv.dirty_cov nn g with h | h
    · exfalso
      obtain ⟨w, hw⟩ := hf
      have hl := congrArg Prod.snd (hq.ctl.2 w).1
      cases hqu : s.ctl.rq.q.core.queue with
      | nil => rw [hqu] at h; cases h
      | cons y rest => simp [Controller.step, hw, WorkQueue.get, hqu] at hl
    · obtain ⟨w, hw⟩ := hR.held nn h
      simp only [Controller.phases] at hw
      cases hp : s.ctl.workers w with
      | reconciling y =>
        rw [hp] at hw
        have : y = nn := by simpa [Controller.phase, Controller.Spec.Phase.item] using hw
        exact ⟨w, nn, by rw [hp, this], hk⟩
      | requeuing y r =>
        exfalso
        have hl := congrArg Prod.snd (hq.ctl.2 w).2
        simp only [Controller.step, hp, Controller.finally_] at hl
        cases hl
      | _ => rw [hp] at hw; simp [Controller.phase, Controller.Spec.Phase.item] at hw

/-- Nothing is popped: nothing is queued. -/
theorem quiet_drained {I : Iface σ NamespacedName ε} {py38 : Bool} {ps : List Source.Pred} {i : Nat}
    {s : State σ} {d : ℚ} (hg : SharedInformer.Good Meta.keyFunc s.inf) (hq : QuietAll I py38 ps i s d)
    (hs : s.inf.started = true) : s.inf.inf.q.queue = [] := by
  obtain ⟨log, h1, -⟩ := hg
  rcases SharedInformer.pop_inf h1 with ⟨h, -⟩ | ⟨k, h2, -, -, h3, -⟩
  · exact h
  · exfalso
    have hp := congrArg (fun r => r.1.inf.inf) hq.pop
    simp only [step, SharedInformer.step, hs, if_true] at hp
    rw [h3] at hp
    have hl := congrArg (fun r => r.q.queue.length) hp
    simp only [Informer.pop_ok_queue h1, List.length_tail] at hl
    cases hc : s.inf.inf.q.queue with
    | nil => rw [hc] at h2; cases h2
    | cons a b => rw [hc] at hl; simp at hl

/-- After a deletion the cache does not hold the object. -/
private theorem deleted_gone (I : Iface σ NamespacedName ε) (py38 : Bool) (ps : List Source.Pred) (i : Nat)
    (l : σ) (t : ℚ) (n : Nat) (es : List (Ev ε)) (hs : ∀ e ∈ informerEvents es, Ev.selects i e)
    (ns : List (Note Val Meta.Obj)) (hreg : (exec I py38 ps i (init l t n) es).inf.sent[i]? = some ns)
    (k : Val) (pre : List (Note Val Meta.Obj)) (x : Source.Obj) (post : List (Note Val Meta.Obj))
    (h1 : ns = pre ++ .onDelete x :: post) (h2 : noteKey Meta.keyFunc (.onDelete x) = some k)
    (h3 : ∀ m ∈ post, noteKey Meta.keyFunc m ≠ some k) :
    (exec I py38 ps i (init l t n) es).inf.inf.items.get? k = none := by
  have hi := inf_exec I py38 ps i es (init l t n)
  have hv := SharedInformer.C34_due_partial Meta.keyFunc (informerEvents es) i hs ns
    (by rw [hi] at hreg; exact hreg) k
  rw [show SharedInformer.exec Meta.keyFunc SharedInformer.init (informerEvents es) =
    (exec I py38 ps i (init l t n) es).inf from hi.symm] at hv
  rw [← hv]
  have hdel : Informer.Spec.see Meta.keyFunc (SharedInformer.Spec.view Meta.keyFunc pre) (.onDelete x) k
      = none := by
    have h2' : DeltaFifo.keyOf Meta.keyFunc x = some k := h2
    simp [Informer.Spec.see, h2', Informer.Spec.View.put]
  rw [h1, SharedInformer.view_append, List.foldl_cons]
  revert hdel
  generalize Informer.Spec.see Meta.keyFunc (SharedInformer.Spec.view Meta.keyFunc pre) (.onDelete x) = v
  clear h1 hreg hv
  intro hv
  induction post generalizing v with
  | nil => exact hv
  | cons m post ih =>
    rw [List.foldl_cons]
    exact ih (fun m' hm' => h3 m' (by simp [hm'])) _ ((Source.see_other v (h3 m (by simp))).trans hv)

/-- When nothing can be done, the last call for `k` saw the cache as it is. -/
theorem quiet_current (I : Iface σ NamespacedName ε) (py38 : Bool) (ps : List Source.Pred) (i : Nat)
    (l : σ) (t : ℚ) (n : Nat) (es : List (Ev ε)) (hs : ∀ e ∈ informerEvents es, Ev.selects i e)
    (hr : ∀ e ∈ informerEvents es, EvAll Proper e) (ns : List (Note Val Meta.Obj))
    (hreg : (exec I py38 ps i (init l t n) es).inf.sent[i]? = some ns) (hp : ∀ m ∈ ns, Accepted ps m) (d : ℚ)
    (hq : QuietAll I py38 ps i (exec I py38 ps i (init l t n) es) d)
    (hf : Free (exec I py38 ps i (init l t n) es)) (k : Val)
    (hk : ¬ InHand (exec I py38 ps i (init l t n) es) k)
    (ht : Told (exec I py38 ps i (init l t n) es) i k) :
    Called k (logOf I py38 ps i (init l t n) es) ∧ lastSeen k (logOf I py38 ps i (init l t n) es) =
      (exec I py38 ps i (init l t n) es).inf.inf.items.get? k := by
  rcases C75_current_partial I py38 ps i l t n es hs hr (by
      intro ns' h; rw [hreg] at h; cases h; exact hp) k ht with h | h
  · exact h
  · exact absurd (quiet_coming (R_exec I py38 ps i es _ (Controller.R_init l t n)) hq hf h) hk

/-- **C113**: on an idle event loop, whenever time passes while some worker waits for an item: for every cached
object that is not in a worker's hands the reconciler was last called when the cache held it as it is now; for an
object whose deletion was watched, when the cache did not hold it any more.  For a handler that every check finds due
and whose predicates accept everything.  Missing: deletions found out by a relist, see `C75_refuted`. -/
theorem C113_cached_partial (I : Iface σ NamespacedName ε) (py38 : Bool) (ps : List Source.Pred) (i : Nat)
    (l : σ) (t : ℚ) (n : Nat) (es more : List (Ev ε)) (d : ℚ)
    (hi : IdleAll I py38 ps i (init l t n) (es ++ .ctl (.queue (.tick d)) :: more)) (hd : 0 < d)
    (hs : ∀ e ∈ informerEvents es, Ev.selects i e)
    (hr : ∀ e ∈ informerEvents es, EvAll Proper e) (ns : List (Note Val Meta.Obj))
    (hreg : (exec I py38 ps i (init l t n) es).inf.sent[i]? = some ns) (hp : ∀ m ∈ ns, Accepted ps m)
    (hf : Free (exec I py38 ps i (init l t n) es)) (k : Val)
    (hk : ¬ InHand (exec I py38 ps i (init l t n) es) k) :
    (∀ x, (exec I py38 ps i (init l t n) es).inf.inf.items.get? k = some x →
      lastSeen k (logOf I py38 ps i (init l t n) es) = some x) ∧
    (∀ pre x post, ns = pre ++ .onDelete x :: post → noteKey Meta.keyFunc (.onDelete x) = some k →
      (∀ m ∈ post, noteKey Meta.keyFunc m ≠ some k) → Proper x →
      (exec I py38 ps i (init l t n) es).inf.inf.items.get? k = none ∧
      Called k (logOf I py38 ps i (init l t n) es) ∧
      lastSeen k (logOf I py38 ps i (init l t n) es) = none) := by
  have hq := hi es d more rfl hd
  have main := quiet_current I py38 ps i l t n es hs hr ns hreg hp d hq hf k hk
  constructor
  · intro x hx
    rw [(main (told_cached I py38 ps i l t n es hs ns hreg k x hx)).2, hx]
  · intro pre x post h1 h2 h3 h4
    have hnone := deleted_gone I py38 ps i l t n es hs ns hreg k pre x post h1 h2 h3
    have hm := main ⟨pre, .onDelete x, post, by rw [hreg, h1], h2, h3, by rintro y ⟨⟩; exact h4⟩
    exact ⟨hnone, hm.1, by rw [hm.2, hnone]⟩

/-- **C113**: and the cache is what the API server reported: after the last list, if that came when nothing about
`k` was pending that it could spoil (as in C31), the cached object is the watched one; so the reconciler was last
called with it.  Missing: as in `C113_cached_partial`, and other lists. -/
theorem C113_watched_partial (I : Iface σ NamespacedName ε) (py38 : Bool) (ps : List Source.Pred) (i : Nat)
    (l : σ) (t : ℚ) (n : Nat) (es more : List (Ev ε)) (d : ℚ)
    (hi : IdleAll I py38 ps i (init l t n) (es ++ .ctl (.queue (.tick d)) :: more)) (hd : 0 < d)
    (hs : ∀ e ∈ informerEvents es, Ev.selects i e)
    (hr : ∀ e ∈ informerEvents es, EvAll Proper e) (ns : List (Note Val Meta.Obj))
    (hreg : (exec I py38 ps i (init l t n) es).inf.sent[i]? = some ns) (hp : ∀ m ∈ ns, Accepted ps m)
    (hf : Free (exec I py38 ps i (init l t n) es)) (k : Val)
    (hk : ¬ InHand (exec I py38 ps i (init l t n) es) k)
    (before after : List (Informer.Ev Val Meta.Obj)) (xs : List Source.Obj)
    (hrep : reports false (informerEvents es) = before ++ .replace xs :: after)
    (hx : ∀ x ∈ xs, (DeltaFifo.keyOf Meta.keyFunc x).isSome)
    (hc : Informer.Spec.CleanAt Meta.keyFunc (Informer.exec Meta.keyFunc Informer.init before) xs k)
    (hn : ∀ e ∈ after, Informer.Spec.Ev.noList e) :
    (exec I py38 ps i (init l t n) es).inf.inf.items.get? k =
        Informer.Spec.target Meta.keyFunc (reports false (informerEvents es)) k ∧
      ∀ x, Informer.Spec.target Meta.keyFunc (reports false (informerEvents es)) k = some x →
        lastSeen k (logOf I py38 ps i (init l t n) es) = some x := by
  have hq := hi es d more rfl hd
  have hinf : (exec I py38 ps i (init l t n) es).inf =
      SharedInformer.exec Meta.keyFunc SharedInformer.init (informerEvents es) := inf_exec I py38 ps i es _
  have hg : SharedInformer.Good Meta.keyFunc (exec I py38 ps i (init l t n) es).inf := by
    rw [hinf]; exact SharedInformer.good_exec _ (SharedInformer.good_init _)
  have he := reports_exec Meta.keyFunc (informerEvents es) SharedInformer.init (SharedInformer.good_init _)
  rw [← hinf] at he
  change _ = Informer.exec Meta.keyFunc Informer.init (reports false (informerEvents es)) at he
  have hstart : (exec I py38 ps i (init l t n) es).inf.started = true := by
    rw [hinf]
    exact started_of_reports Meta.keyFunc (informerEvents es) SharedInformer.init (Or.inr (by rw [hrep]; simp))
  have hdr := quiet_drained hg hq hstart
  have hcare := careful Meta.keyFunc k (informerEvents es) false Informer.init
  rw [hrep, show before ++ .replace xs :: after = (before ++ [.replace xs]) ++ after by simp] at hcare
  have hitems : (exec I py38 ps i (init l t n) es).inf.inf.items.get? k =
      Informer.Spec.target Meta.keyFunc (reports false (informerEvents es)) k := by
    rw [he, hrep]
    refine Informer.C31_converges_partial Meta.keyFunc before after xs hx k hc hn (careful_tail _ _ _ hcare) ?_
    rw [← hrep, ← he]
    exact hdr
  refine ⟨hitems, fun x hx => ?_⟩
  rw [← hitems] at hx
  exact (C113_cached_partial I py38 ps i l t n es more d hi hd hs hr ns hreg hp hf k hk).1 x hx

/-! ### Example -/

private def pod (name : String) (v : Nat) : Source.Obj :=
  .real (.typed (some (some "ns".toList, some name.toList)) v)

private abbrev Lim := RateLimiters.Failures NamespacedName

private def I₀ : Iface Lim NamespacedName Unit := RateLimitingQueue.expIface ⟨1 / 100, 1000, true⟩

/-- Two workers; `a`, `b` and `c` are listed, `b` is updated, `c` is deleted; the reconciler takes its time
with `a`. -/
private def sample : List (Ev Unit) :=
  [.ctl (.queue .loop), .ctl (.queue .loop), .inf .register, .inf .start,
    .inf (.replace [pod "b" 1, pod "c" 1, pod "a" 1]), .inf .pop, .deliver, .add, .ctl (.take 0),
    .ctl (.finish 0 (.result false 0) ()), .inf (.update (pod "b" 2)), .inf (.delete (pod "c" 1)), .inf .pop, .inf .pop,
    .inf .pop, .deliver, .add, .deliver, .add, .ctl (.take 0), .ctl (.finish 0 (.result false 0) ()), .deliver, .add,
    .ctl (.take 0), .ctl (.take 1), .ctl (.finish 1 (.result false 0) ()), .deliver, .add, .add, .ctl (.take 1),
    .ctl (.finish 1 (.result false 0) ())]

private abbrev S : State Lim := exec I₀ true [] 0 (init [] 0 2) sample

private theorem s_workers (w : Nat) (h0 : w ≠ 0) (h1 : w ≠ 1) : S.ctl.workers w = .ended :=
  ended_exec I₀ true [] 0 w sample _ (by
    have : ¬ w < 2 := by omega
    simp [init, Controller.init, this])

private theorem s_quiet (d : ℚ) : QuietAll I₀ true [] 0 S d where
  pop := by
    have hg : SharedInformer.Good Meta.keyFunc S.inf := by
      rw [inf_exec]; exact SharedInformer.good_exec _ (SharedInformer.good_init _)
    obtain ⟨log, h1, -⟩ := hg
    have hq : S.inf.inf.q.queue = [] := by decide +kernel
    have hs : S.inf.started = true := by decide +kernel
    rcases SharedInformer.pop_inf h1 with ⟨-, h2, -⟩ | ⟨k, h2, -⟩
    · simp only [step, SharedInformer.step, hs, if_true, h2]
    · rw [hq] at h2; cases h2
  deliver := by
    have h1 : S.inf.sent[0]?.bind (·[S.delivered]?) = none := by decide +kernel
    simp [step, h1]
  add := by
    have h1 : S.todo = [] := by decide +kernel
    simp [step, h1]
  ctl := by
    refine ⟨DelayQueue.quiet_of_sleeping (t := none) (by decide +kernel) (by decide +kernel) (by decide +kernel)
      (by decide +kernel) nofun, fun w => ?_⟩
    have h0 : S.ctl.workers 0 = .reconciling ⟨some "ns".toList, some "a".toList⟩ := by decide +kernel
    have h1 : S.ctl.workers 1 = .idle := by decide +kernel
    have h2 : WorkQueue.get S.ctl.rq.q.core = (S.ctl.rq.q.core, .blocked) := by decide +kernel
    by_cases hw0 : w = 0
    · subst hw0; simp [Controller.step, h0]
    · by_cases hw1 : w = 1
      · subst hw1; simp [Controller.step, h1, h2]
      · simp [Controller.step, s_workers w hw0 hw1]

-- the hypotheses of the theorems, for `b` and for `c`
example : IdleAll I₀ true [] 0 (init [] 0 2) (sample ++ [.ctl (.queue (.tick 1))]) ∧
    (∀ e ∈ informerEvents sample, Ev.selects 0 e) ∧ (∀ e ∈ informerEvents sample, EvAll Proper e) ∧
    S.inf.sent[0]? = some [.onAdd (pod "b" 1), .onAdd (pod "c" 1), .onDelete (pod "c" 1), .onAdd (pod "a" 1),
      .onUpdate (pod "b" 1) (pod "b" 2)] ∧
    Free S ∧ InHand S (some "ns/a".toList) ∧ ¬ InHand S (some "ns/b".toList) ∧ ¬ InHand S (some "ns/c".toList) ∧
    reports false (informerEvents sample) = [] ++ .replace [pod "b" 1, pod "c" 1, pod "a" 1] ::
      (reports false (informerEvents sample)).tail ∧
    (∀ k, Informer.Spec.CleanAt Meta.keyFunc (Informer.exec Meta.keyFunc Informer.init [])
      [pod "b" 1, pod "c" 1, pod "a" 1] k) ∧
    (∀ e ∈ (reports false (informerEvents sample)).tail, Informer.Spec.Ev.noList e) ∧
    S.inf.inf.items.get? (some "ns/b".toList) = some (pod "b" 2) ∧
    S.inf.inf.items.get? (some "ns/c".toList) = none ∧
    lastSeen (some "ns/b".toList) (logOf I₀ true [] 0 (init [] 0 2) sample) = some (pod "b" 2) := by
  have h0 : S.ctl.workers 0 = .reconciling ⟨some "ns".toList, some "a".toList⟩ := by decide +kernel
  have h1 : S.ctl.workers 1 = .idle := by decide +kernel
  have hin : ∀ k, k ≠ some "ns/a".toList → ¬ InHand S k := by
    rintro k hk ⟨w, nn, hw, hnn⟩
    by_cases hw0 : w = 0
    · subst hw0
      rw [h0] at hw
      cases hw
      exact hk (by rw [← hnn]; decide +kernel)
    · by_cases hw1 : w = 1
      · subst hw1; rw [h1] at hw; cases hw
      · rw [s_workers w hw0 hw1] at hw; cases hw
  refine ⟨?_, ?_, ?_, by decide +kernel, ⟨1, h1⟩, ⟨0, _, h0, by decide +kernel⟩, hin _ (by decide), hin _ (by decide),
    rfl, ?_, ?_, by decide +kernel, by decide +kernel, by decide +kernel⟩
  · intro a d b hab hd
    rcases List.eq_nil_or_concat b with rfl | ⟨b, x, rfl⟩
    · obtain ⟨rfl, -⟩ := List.append_inj' hab rfl
      exact s_quiet d
    · exfalso
      rw [List.concat_eq_append, show a ++ Ev.ctl (.queue (.tick d)) :: (b ++ [x]) =
        (a ++ .ctl (.queue (.tick d)) :: b) ++ [x] by simp] at hab
      obtain ⟨h, -⟩ := List.append_inj' hab rfl
      have : (Ev.ctl (.queue (.tick d)) : Ev Unit) ∈ sample := by rw [h]; simp
      simp [sample] at this
  · simp [sample, informerEvents, SharedInformer.Spec.Ev.selects]
  · simp [sample, informerEvents, EvAll, pod, Proper]
  · intro k
    refine ⟨?_, ?_⟩
    · rintro - ⟨d, h1, -⟩
      simp [Informer.Spec.pending, Informer.exec, Informer.init, DeltaFifo.init, PyDict.get?] at h1
    · intro h1
      simp [Informer.Spec.pending, Informer.exec, Informer.init, DeltaFifo.init, PyDict.get?] at h1
  · simp [sample, informerEvents, reports, Informer.Spec.Ev.noList]

end Aiok8s.System
