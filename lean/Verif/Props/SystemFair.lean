import Verif.Proof.SystemFair
import Verif.Props.System
/-!
# The whole way, whatever the order: C75
-/
namespace Aiok8s.System
open Aiok8s Aiok8s.RateLimiters Aiok8s.System.Spec Aiok8s.Source.Spec
open Aiok8s.Meta (Val NamespacedName)
open Aiok8s.Informer (Note)
open Aiok8s.SharedInformer.Spec (Ev.selects)
variable {σ ε : Type}

/-- Giving an item back leaves a worker free. -/
private theorem finally_pc (I : Iface σ NamespacedName ε) (py38 : Bool) (s : Controller.State σ NamespacedName)
    (w : Nat) (x : NamespacedName) (b : Bool) (hx : x ∈ s.rq.q.core.processing) (u : Nat) :
    (Controller.finally_ I py38 s w x (.ret b)).1.workers u =
      if u = w then (if b then .idle else .sleeping) else s.workers u := by
  have hok : decide ((WorkQueue.done s.rq.q.core x).2 = .ok) = true := by
    simp only [WorkQueue.done, hx, if_true]
    split <;> rfl
  simp only [Controller.finally_, hok, Controller.State.setPc]
  cases b <;> rfl

private theorem held {s : State σ} (hR : Controller.R s.ctl (Controller.phases s.ctl)) {w : Nat}
    {x : NamespacedName} (h : (Controller.phase (s.ctl.workers w)).item = some x) :
    x ∈ s.ctl.rq.q.core.processing := hR.proc w x h

private theorem finish_pc (I : Iface σ NamespacedName ε) (py38 : Bool) (ps : List Source.Pred) (i : Nat)
    {s : State σ} (hR : Controller.R s.ctl (Controller.phases s.ctl)) {w : Nat} {x : NamespacedName}
    (h : s.ctl.workers w = .reconciling x) (env : ε) (u : Nat) :
    (step I py38 ps i s (.ctl (.finish w (.result false 0) env))).1.ctl.workers u =
      if u = w then .idle else s.ctl.workers u := by
  have hx := held hR (w := w) (x := x) (by rw [h]; rfl)
  simp only [step, Controller.step, h, Controller.afterReconcile, ne_eq, not_true_eq_false, if_false,
    Bool.false_eq_true]
  exact finally_pc I py38 (s.ctl.call I (.forget x)) w x true hx u

private theorem requeued_pc (I : Iface σ NamespacedName ε) (py38 : Bool) (ps : List Source.Pred) (i : Nat)
    {s : State σ} (hR : Controller.R s.ctl (Controller.phases s.ctl)) {w : Nat} {x : NamespacedName} {b : Bool}
    (h : s.ctl.workers w = .requeuing x b) (u : Nat) :
    (step I py38 ps i s (.ctl (.requeued w) : Ev ε)).1.ctl.workers u =
      if u = w then (if b then .idle else .sleeping) else s.ctl.workers u := by
  have hx := held hR (w := w) (x := x) (by rw [h]; rfl)
  simp only [step, Controller.step, h]
  exact finally_pc I py38 s.ctl w x b hx u

/-- Handler and workers do not end a worker. -/
private theorem alive_step (I : Iface σ NamespacedName ε) (py38 : Bool) (ps : List Source.Pred) (i : Nat)
    {s : State σ} (hR : Controller.R s.ctl (Controller.phases s.ctl)) {u : Nat} (hu : s.ctl.workers u ≠ .ended)
    (e : Ev ε) (he : Working e) : (step I py38 ps i s e).1.ctl.workers u ≠ .ended := by
  cases e with
  | inf e => exact absurd he id
  | deliver => simp only [step]; split <;> exact hu
  | add =>
    simp only [step]
    split
    · exact hu
    · exact hu
  | ctl e =>
    cases e with
    | queue e => exact absurd he id
    | cancelRequeue v => exact absurd he id
    | cancel v => exact absurd he id
    | finish w o env =>
      simp only [Working] at he
      subst he
      cases hv : s.ctl.workers w with
      | reconciling x =>
        rw [finish_pc I py38 ps i hR hv]
        split
        · simp
        · exact hu
      | _ => simpa [step, Controller.step, hv] using hu
    | requeued w =>
      cases hv : s.ctl.workers w with
      | requeuing x b =>
        rw [requeued_pc I py38 ps i hR hv]
        split
        · cases b <;> simp
        · exact hu
      | _ => simpa [step, Controller.step, hv] using hu
    | wake w =>
      by_cases hv : s.ctl.workers w = .sleeping
      · simp only [step, Controller.step, hv, if_true, Controller.State.setPc]
        split
        · simp
        · exact hu
      · simpa [step, Controller.step, hv] using hu
    | take w =>
      by_cases hv : s.ctl.workers w = .idle
      · simp only [step, Controller.step, hv, if_true]
        split <;> first
          | exact hu
          | (simp only [Controller.State.setPc]
             split
             · simp
             · exact hu)
      · simpa [step, Controller.step, hv] using hu

private theorem inf_working (I : Iface σ NamespacedName ε) (py38 : Bool) (ps : List Source.Pred) (i : Nat)
    (s : State σ) (e : Ev ε) (he : Working e) : (step I py38 ps i s e).1.inf = s.inf := by
  cases e with
  | inf e => exact absurd he id
  | deliver => simp only [step]; split <;> rfl
  | add => simp only [step]; split <;> rfl
  | ctl e => rfl

/-- The state after the first `m` moves. -/
private abbrev after (I : Iface σ NamespacedName ε) (py38 : Bool) (ps : List Source.Pred) (i : Nat) (s : State σ)
    (f : Nat → Ev ε) (m : Nat) : State σ :=
  exec I py38 ps i s ((List.range m).map f)

private theorem after_succ (I : Iface σ NamespacedName ε) (py38 : Bool) (ps : List Source.Pred) (i : Nat)
    (s : State σ) (f : Nat → Ev ε) (m : Nat) :
    after I py38 ps i s f (m + 1) = (step I py38 ps i (after I py38 ps i s f m) (f m)).1 := by
  simp only [after, List.range_succ, List.map_append, List.map_cons, List.map_nil, exec_append]
  rfl

/-- As long as something is left to do, less will be left to do later. -/
private theorem progress (I : Iface σ NamespacedName ε) (py38 : Bool) (ps : List Source.Pred) (i : Nat)
    (s : State σ) (f : Nat → Ev ε) (hf : Fair s f) (hR : Controller.R s.ctl (Controller.phases s.ctl))
    (hc : Counted s i) (ns : List (Note Val Meta.Obj)) (hns : s.inf.sent[i]? = some ns) (w : Nat)
    (hw : s.ctl.workers w ≠ .ended) (n : Nat) (hn : ¬ Quiet (after I py38 ps i s f n) i) :
    ∃ m, left ns.length (after I py38 ps i s f m) < left ns.length (after I py38 ps i s f n) := by
  by_contra hcon
  have hcon : ∀ m, left ns.length (after I py38 ps i s f n) ≤ left ns.length (after I py38 ps i s f m) :=
    fun m => Nat.le_of_not_lt fun h => hcon ⟨m, h⟩
  have hR' : ∀ m, Controller.R (after I py38 ps i s f m).ctl (Controller.phases (after I py38 ps i s f m).ctl) :=
    fun m => R_exec I py38 ps i _ s hR
  have hc' : ∀ m, Counted (after I py38 ps i s f m) i := fun m => counted_exec I py38 ps i _ s hc
  have hinf : ∀ m, (after I py38 ps i s f m).inf = s.inf := by
    intro m
    induction m with
    | zero => rfl
    | succ m ih => rw [after_succ, inf_working I py38 ps i _ _ (hf.working m), ih]
  have hns' : ∀ m, (after I py38 ps i s f m).inf.sent[i]? = some ns := fun m => by rw [hinf]; exact hns
  have halive : ∀ u, s.ctl.workers u ≠ .ended → ∀ m, (after I py38 ps i s f m).ctl.workers u ≠ .ended := by
    intro u hu m
    induction m with
    | zero => exact hu
    | succ m ih => rw [after_succ]; exact alive_step I py38 ps i (hR' m) ih _ (hf.working m)
  have hborn : ∀ u m, (after I py38 ps i s f m).ctl.workers u ≠ .ended → s.ctl.workers u ≠ .ended := by
    intro u m hu hs
    exact hu (ended_exec I py38 ps i u _ s hs)
  -- from now on, workers wake up and nothing else happens
  have stay : ∀ m, n ≤ m → left ns.length (after I py38 ps i s f m) = left ns.length (after I py38 ps i s f n) := by
    intro m hm
    induction m, hm using Nat.le_induction with
    | base => rfl
    | succ m hm ih =>
      refine le_antisymm ?_ (hcon _)
      rw [after_succ]
      rcases working_step I py38 ps i _ (hR' m) ns (hns' m) (f m) (hf.working m) with h | ⟨v, _, h⟩ | h
      · rw [h, ih]
      · rw [h]; exact ih.le
      · exact (h.le).trans ih.le
  have persist : ∀ P : State σ → Prop,
      (∀ (s : State σ) v, P s → s.ctl.workers v = .sleeping → P { s with ctl := s.ctl.setPc v .idle }) →
      ∀ b, n ≤ b → P (after I py38 ps i s f b) → ∀ m, b ≤ m → P (after I py38 ps i s f m) := by
    intro P hP b hb h m hm
    induction m, hm using Nat.le_induction with
    | base => exact h
    | succ m hm ih =>
      rw [after_succ]
      rcases working_step I py38 ps i _ (hR' m) ns (hns' m) (f m) (hf.working m) with g | ⟨v, gv, g⟩ | g
      · rw [g]; exact ih
      · rw [g]; exact hP _ v ih gv
      · rw [← after_succ, stay (m + 1) (by omega), stay m (by omega)] at g
        exact absurd g (lt_irrefl _)
  have woken : ∀ (s : State σ) v u, s.ctl.workers v = .sleeping → s.ctl.workers u ≠ .sleeping →
      (s.ctl.setPc v .idle).workers u = s.ctl.workers u := by
    intro s v u hv hu
    have : u ≠ v := by rintro rfl; exact hu hv
    simp [Controller.State.setPc, this]
  -- nobody is busy
  have h1 : ∀ u x, (after I py38 ps i s f n).ctl.workers u ≠ .reconciling x := by
    intro u x hx
    obtain ⟨m, env, hm, hfm⟩ := hf.finish u (hborn u n (by rw [hx]; simp)) n
    have keep := persist (fun s => s.ctl.workers u = .reconciling x)
      (fun s v h hv => (woken s v u hv (by rw [h]; simp)).trans h) n le_rfl hx
    have h2 := keep (m + 1) (by omega)
    rw [after_succ, hfm, finish_pc I py38 ps i (hR' m) (keep m hm)] at h2
    simp at h2
  have h2 : ∀ u x b, (after I py38 ps i s f n).ctl.workers u ≠ .requeuing x b := by
    intro u x b hx
    obtain ⟨m, hm, hfm⟩ := hf.requeued u (hborn u n (by rw [hx]; simp)) n
    have keep := persist (fun s => s.ctl.workers u = .requeuing x b)
      (fun s v h hv => (woken s v u hv (by rw [h]; simp)).trans h) n le_rfl hx
    have h2 := keep (m + 1) (by omega)
    rw [after_succ, hfm, requeued_pc I py38 ps i (hR' m) (keep m hm)] at h2
    cases b <;> simp at h2
  -- the handler has returned
  have h3 : (after I py38 ps i s f n).todo = [] := by
    cases ht : (after I py38 ps i s f n).todo with
    | nil => rfl
    | cons x rest =>
      obtain ⟨m, hm, hfm⟩ := hf.add n
      have keep := persist (fun s => s.todo = x :: rest) (fun s v h hv => h) n le_rfl ht
      have h2 := keep (m + 1) (by omega)
      rw [after_succ, hfm] at h2
      simp only [step, keep m hm] at h2
      exact absurd (congrArg List.length h2) (by simp)
  -- and there is no notification left
  have h4 : (after I py38 ps i s f n).delivered = ns.length := by
    by_contra hd
    have hcn := hc' n
    simp only [Counted, hns' n, Option.getD_some] at hcn
    obtain ⟨m, hm, hfm⟩ := hf.deliver n
    have keep := persist (fun s' => s'.todo = [] ∧ s'.delivered = (after I py38 ps i s f n).delivered)
      (fun s v h hv => h) n le_rfl ⟨h3, rfl⟩
    obtain ⟨k1, k2⟩ := keep m hm
    obtain ⟨_, h2⟩ := keep (m + 1) (by omega)
    rw [after_succ, hfm] at h2
    have hlt : (after I py38 ps i s f m).delivered < ns.length := by omega
    have : (after I py38 ps i s f m).inf.sent[i]?.bind (·[(after I py38 ps i s f m).delivered]?) =
        some ns[(after I py38 ps i s f m).delivered] := by
      rw [hns']; simp [hlt]
    simp only [step, k1, this] at h2
    omega
  -- and no item in the queue
  have h5 : (after I py38 ps i s f n).ctl.rq.q.core.queue = [] := by
    cases hq : (after I py38 ps i s f n).ctl.rq.q.core.queue with
    | nil => rfl
    | cons x rest =>
      have idle : ∀ b, n ≤ b → (after I py38 ps i s f b).ctl.workers w = .idle →
          (after I py38 ps i s f b).ctl.rq.q.core.queue = x :: rest → False := by
        intro b hb hi hqb
        obtain ⟨m, hm, hfm⟩ := hf.take w hw b
        have keep := persist (fun s => s.ctl.workers w = .idle ∧ s.ctl.rq.q.core.queue = x :: rest)
          (fun s v h hv => ⟨(woken s v w hv (by rw [h.1]; simp)).trans h.1, h.2⟩) b hb ⟨hi, hqb⟩
        obtain ⟨k1, k2⟩ := keep m hm
        obtain ⟨h2, _⟩ := keep (m + 1) (by omega)
        have hget : (WorkQueue.get (after I py38 ps i s f m).ctl.rq.q.core).2 = .item x := by
          simp only [WorkQueue.get, k2]
        rw [after_succ, hfm] at h2
        simp [step, Controller.step, k1, hget, Controller.State.setPc] at h2
      cases hp : (after I py38 ps i s f n).ctl.workers w with
      | reconciling y => exact absurd hp (h1 w y)
      | requeuing y b => exact absurd hp (h2 w y b)
      | ended => exact absurd hp (halive w hw n)
      | idle => exact (idle n le_rfl hp hq).elim
      | sleeping =>
        obtain ⟨m, hm, hfm⟩ := hf.wake w hw n
        have keep := persist (fun s => (s.ctl.workers w = .sleeping ∨ s.ctl.workers w = .idle) ∧
            s.ctl.rq.q.core.queue = x :: rest) (fun s v h hv => by
          refine ⟨?_, h.2⟩
          by_cases hu : w = v
          · right; simp [Controller.State.setPc, hu]
          · simpa [Controller.State.setPc, hu] using h.1) n le_rfl ⟨Or.inl hp, hq⟩
        obtain ⟨k1, k2⟩ := keep m hm
        obtain ⟨k3, k4⟩ := keep (m + 1) (by omega)
        refine (idle (m + 1) (by omega) ?_ k4).elim
        rw [after_succ, hfm]
        rcases k1 with k1 | k1 <;> simp [step, Controller.step, k1, Controller.State.setPc]
  refine hn ⟨?_, h3, h5, ?_⟩
  · intro ns' h
    rw [hns' n] at h
    cases h
    exact h4
  · intro u
    cases hp : (after I py38 ps i s f n).ctl.workers u with
    | reconciling y => exact absurd hp (h1 u y)
    | requeuing y b => exact absurd hp (h2 u y b)
    | idle => simp
    | sleeping => simp
    | ended => simp

/-- **C75**: not only is there a way on: whatever the order in which the handler and the workers make
their moves, as long as each of them keeps being scheduled and reconcilers return, nothing is left to do
at some point. -/
theorem C75_fair (I : Iface σ NamespacedName ε) (py38 : Bool) (ps : List Source.Pred) (i : Nat)
    (l : σ) (t : ℚ) (n : Nat) (es : List (Ev ε)) (f : Nat → Ev ε)
    (hf : Fair (exec I py38 ps i (init l t n) es) f) (w : Nat)
    (hreg : (exec I py38 ps i (init l t n) es).inf.sent[i]? ≠ none)
    (hw : (exec I py38 ps i (init l t n) es).ctl.workers w ≠ .ended) :
    ∃ N, Quiet (exec I py38 ps i (init l t n) (es ++ (List.range N).map f)) i := by
  have hc := counted_exec I py38 ps i es (init l t n) (Nat.zero_le _)
  have hR := R_exec I py38 ps i es (init l t n) (Controller.R_init l t n)
  simp only [exec_append]
  generalize exec I py38 ps i (init l t n) es = s at *
  obtain ⟨ns, hns⟩ := Option.ne_none_iff_exists'.1 hreg
  have key : ∀ m k, left ns.length (after I py38 ps i s f k) = m → ∃ N, Quiet (after I py38 ps i s f N) i := by
    intro m
    induction m using Nat.strong_induction_on with
    | _ m ih =>
      intro k hk
      by_cases hq : Quiet (after I py38 ps i s f k) i
      · exact ⟨k, hq⟩
      · obtain ⟨k', h'⟩ := progress I py38 ps i s f hf hR hc ns hns w hw k hq
        exact ih _ (hk ▸ h') k' rfl
  exact key _ 0 rfl

private theorem range_split (f : Nat → Ev ε) {N M : Nat} (h : N ≤ M) :
    (List.range M).map f = (List.range N).map f ++ (List.range (M - N)).map (fun m => f (N + m)) := by
  obtain ⟨d, rfl⟩ := Nat.exists_eq_add_of_le h
  rw [List.range_add]
  simp [Function.comp_def]

/-- **C75**: so in every such order the reconciler is at some point last called for each cached object
when the cache held it as it is, and for each object whose deletion was watched, when the cache did not
hold it any more; and this stays so as long as nothing happens to the informer.  Missing: as in
`C75_current_partial`. -/
theorem C75_fair_partial (I : Iface σ NamespacedName ε) (py38 : Bool) (ps : List Source.Pred) (i : Nat)
    (l : σ) (t : ℚ) (n : Nat) (es : List (Ev ε)) (hs : ∀ e ∈ informerEvents es, Ev.selects i e)
    (hr : ∀ e ∈ informerEvents es, EvAll Proper e) (ns : List (Note Val Meta.Obj))
    (hreg : (exec I py38 ps i (init l t n) es).inf.sent[i]? = some ns) (hp : ∀ m ∈ ns, Accepted ps m)
    (f : Nat → Ev ε) (hf : Fair (exec I py38 ps i (init l t n) es) f) (w : Nat)
    (hw : (exec I py38 ps i (init l t n) es).ctl.workers w ≠ .ended) :
    ∃ N, ∀ M, N ≤ M → ∀ k,
      (∀ x, (exec I py38 ps i (init l t n) es).inf.inf.items.get? k = some x →
        lastSeen k (logOf I py38 ps i (init l t n) (es ++ (List.range M).map f)) = some x) ∧
      (∀ pre x post, ns = pre ++ .onDelete x :: post → noteKey Meta.keyFunc (.onDelete x) = some k →
        (∀ m ∈ post, noteKey Meta.keyFunc m ≠ some k) → Proper x →
        Called k (logOf I py38 ps i (init l t n) (es ++ (List.range M).map f)) ∧
        lastSeen k (logOf I py38 ps i (init l t n) (es ++ (List.range M).map f)) = none) := by
  obtain ⟨N, hN⟩ := C75_fair I py38 ps i l t n es f hf w (by rw [hreg]; simp) hw
  have hno : ∀ M, informerEvents ((List.range M).map f) = [] := by
    intro M
    simp only [informerEvents, List.filterMap_eq_nil_iff, List.mem_map]
    rintro e ⟨m, _, rfl⟩
    have := hf.working m
    cases h : f m with
    | inf e => rw [h] at this; exact absurd this id
    | deliver => rfl
    | add => rfl
    | ctl e => rfl
  have hinf : ∀ M, (exec I py38 ps i (init l t n) (es ++ (List.range M).map f)).inf =
      (exec I py38 ps i (init l t n) es).inf := by
    intro M
    rw [exec_append]
    induction M with
    | zero => rfl
    | succ M ih =>
      exact (congrArg State.inf (after_succ I py38 ps i _ f M)).trans
        ((inf_working I py38 ps i _ _ (hf.working M)).trans ih)
  refine ⟨N, fun M hM k => ?_⟩
  have hlog : logOf I py38 ps i (init l t n) (es ++ (List.range M).map f) =
      logOf I py38 ps i (init l t n) (es ++ (List.range N).map f) := by
    rw [range_split f hM, ← List.append_assoc, logOf_append]
    rw [C75_no_more I py38 ps i _ hN (by rw [hinf, hreg]; simp) _ (by
      intro e he
      obtain ⟨m, _, rfl⟩ := List.mem_map.1 he
      exact hf.working _)]
    simp
  rw [hlog]
  have hev : informerEvents (es ++ (List.range N).map f) = informerEvents es := by
    rw [informerEvents_append, hno, List.append_nil]
  have := C75_quiet_partial I py38 ps i l t n (es ++ (List.range N).map f) (by rw [hev]; exact hs)
    (by rw [hev]; exact hr) ns (by rw [hinf]; exact hreg) hp hN k
  rwa [hinf] at this

/-! ### An example -/

/-- One worker: the moves in turn. -/
private def turns : Nat → Ev Unit := fun m =>
  match m % 6 with
  | 0 => .deliver
  | 1 => .add
  | 2 => .ctl (.take 0)
  | 3 => .ctl (.wake 0)
  | 4 => .ctl (.finish 0 (.result false 0) ())
  | _ => .ctl (.requeued 0)

private def pod (name : String) (v : Nat) : Source.Obj :=
  .real (.typed (some (some "ns".toList, some name.toList)) v)

private def I₀ : Iface (RateLimiters.Failures NamespacedName) NamespacedName Unit :=
  RateLimitingQueue.expIface ⟨1 / 100, 1000, true⟩

private def before : List (Ev Unit) :=
  [.inf .register, .inf .start, .inf (.replace [pod "a" 1, pod "b" 1]), .inf .pop, .deliver, .add,
    .ctl (.take 0), .inf .pop, .inf (.update (pod "a" 2)), .inf .pop]

-- the hypotheses are met while the work is not done
example : Fair (exec I₀ true [] 0 (init [] 0 1) before) turns ∧
    (exec I₀ true [] 0 (init [] 0 1) before).inf.sent = [[.onAdd (pod "a" 1), .onAdd (pod "b" 1),
      .onUpdate (pod "a" 1) (pod "a" 2)]] ∧
    (exec I₀ true [] 0 (init [] 0 1) before).ctl.workers 0 = .reconciling ⟨some "ns".toList, some "a".toList⟩ ∧
    (∀ e ∈ informerEvents before, Ev.selects 0 e) ∧ (∀ e ∈ informerEvents before, EvAll Proper e) := by
  have hw : ∀ w, (exec I₀ true [] 0 (init [] 0 1) before).ctl.workers w ≠ .ended → w = 0 := by
    intro w h
    by_contra hne
    exact h (ended_exec I₀ true [] 0 w before _ (by simp [init, Controller.init, hne]))
  have ex : ∀ r, r < 6 → ∀ N, ∃ m, N ≤ m ∧ m % 6 = r := fun r hr N => ⟨6 * N + r, by omega, by omega⟩
  refine ⟨⟨?_, ?_, ?_, ?_, ?_, ?_, ?_⟩, by decide +kernel, by decide +kernel, ?_, ?_⟩
  · intro m
    simp only [turns]
    split <;> simp [Working]
  · intro N
    obtain ⟨m, h1, h2⟩ := ex 0 (by omega) N
    exact ⟨m, h1, by simp [turns, h2]⟩
  · intro N
    obtain ⟨m, h1, h2⟩ := ex 1 (by omega) N
    exact ⟨m, h1, by simp [turns, h2]⟩
  · intro w h N
    obtain ⟨m, h1, h2⟩ := ex 2 (by omega) N
    exact ⟨m, h1, by simp [turns, h2, hw w h]⟩
  · intro w h N
    obtain ⟨m, h1, h2⟩ := ex 3 (by omega) N
    exact ⟨m, h1, by simp [turns, h2, hw w h]⟩
  · intro w h N
    obtain ⟨m, h1, h2⟩ := ex 4 (by omega) N
    exact ⟨m, (), h1, by simp [turns, h2, hw w h]⟩
  · intro w h N
    obtain ⟨m, h1, h2⟩ := ex 5 (by omega) N
    exact ⟨m, h1, by simp [turns, h2, hw w h]⟩
  · simp [before, informerEvents, SharedInformer.Spec.Ev.selects]
  · simp [before, informerEvents, EvAll, pod, Proper]

end Aiok8s.System
