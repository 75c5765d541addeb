import Verif.Proof.Whole
import Mathlib.Tactic.IntervalCases
import Mathlib.Tactic.Linarith
import Mathlib.Algebra.Order.Archimedean.Basic
/-!
# What stays at the API server is what the reconciler last saw: C102
-/
namespace Aiok8s.Whole
open Aiok8s Aiok8s.RateLimiters Aiok8s.Whole.Spec Aiok8s.Source.Spec
open Aiok8s.Reflector (Access)
open Aiok8s.Meta (Val NamespacedName)
open Aiok8s.Informer (Note)
open Aiok8s.Follow.Spec (held Clean)
open Aiok8s.System.Spec (lastSeen)
variable {σ ε G : Type} [DecidableEq G]

section
variable (A : Access Meta.Obj G) (ver : Nat → String) (hinj : Function.Injective ver) (p : ℚ)
  (I : Iface σ NamespacedName ε) (py38 : Bool) (ps : List Source.Pred) (i : Nat) (l : σ) (t : ℚ) (n : Nat)
  {f : Nat → Act ε} {L : Nat}
include hinj

local notation "W" => at_ A ver p I py38 ps i l t n f

/-- The cache comes to have what the server has, and keeps it. -/
private theorem comes (he : Endless A ver p I py38 ps i l t n f L) (hclean : Clean Meta.keyFunc (view (W L)))
    {N : Nat} (hN : L < N) (k : Val)
    (hstay : ∀ m, N ≤ m → ∀ c ∈ (W m).hist.drop (W N).hist.length, Meta.keyFunc c.obj ≠ some k) :
    ∃ M, N ≤ M ∧ ∀ m, M ≤ m →
      (W m).sys.inf.inf.items.get? k = (held Meta.keyFunc (W N).hist k).map .real := by
  have hv := follow_at (A := A) (ver := ver) (p := p) (I := I) (py38 := py38) (ps := ps) (i := i) (l := l)
    (t := t) (n := n) (f := f) hinj he.follow.serves
  rw [hv] at hclean
  obtain ⟨M, h1, h2⟩ := Follow.C101_comes A Meta.keyFunc ver hinj p he.follow hclean hN k (by
    intro m hm c hc
    rw [← hv, ← hv] at hc
    exact hstay m hm c hc)
  refine ⟨M, h1, fun m hm => ?_⟩
  have := h2 m hm
  rw [← hv, ← hv] at this
  exact this

/-- The last notification about `k`. -/
private theorem told (he : Endless A ver p I py38 ps i l t n f L) {M : Nat} {k : Val}
    {ns : List (Note Val Meta.Obj)} (hreg : (W M).sys.inf.sent[i]? = some ns)
    (hsome : (W M).sys.inf.inf.items.get? k = none → ∃ x ∈ ns, noteKey Meta.keyFunc x = some k)
    (hprop : (W M).sys.inf.inf.items.get? k = none →
      ∀ x, .onDelete x ∈ ns → noteKey Meta.keyFunc (.onDelete x) = some k → Proper x) :
    ∃ pre x post, ns = pre ++ x :: post ∧ noteKey Meta.keyFunc x = some k ∧
      (∀ y ∈ post, noteKey Meta.keyFunc y ≠ some k) ∧ ∀ y, x = .onDelete y → Proper y := by
  have hs := sys_at (A := A) (ver := ver) (p := p) (I := I) (py38 := py38) (ps := ps) (i := i) (l := l)
    (t := t) (n := n) (f := f) M
  have hi := System.inf_exec I py38 ps i ((List.range M).map fun m => toSystem A ver p (W m) (f m))
    (System.init l t n)
  have hse : ∀ e ∈ System.Spec.informerEvents ((List.range M).map fun m => toSystem A ver p (W m) (f m)),
      SharedInformer.Spec.Ev.selects i e := by
    intro e h
    obtain ⟨x, h1, h2⟩ := List.mem_filterMap.1 h
    obtain ⟨m, -, rfl⟩ := List.mem_map.1 h1
    split at h2
    · rename_i e' heq
      cases h2
      exact selects_at he.due m _ heq
    · cases h2
  have e : (W M).sys.inf = SharedInformer.exec Meta.keyFunc SharedInformer.init
      (System.Spec.informerEvents ((List.range M).map fun m => toSystem A ver p (W m) (f m))) := by
    rw [hs]; exact hi
  have hv := SharedInformer.C34_due_partial Meta.keyFunc _ i hse ns (by rw [← e]; exact hreg) k
  rw [← e] at hv
  rcases Source.last_seen Meta.keyFunc k ns with ⟨hno, hn⟩ | ⟨pre, x, post, h1, h2, h3, h4⟩
  · rw [hn] at hv
    obtain ⟨x, h1, h2⟩ := hsome hv.symm
    exact absurd h2 (hno x h1)
  · refine ⟨pre, x, post, h1, h2, h3, ?_⟩
    rintro y rfl
    rw [hv] at h4
    exact hprop h4 y (by rw [h1]; simp) h2

/-- Handlers stay. -/
private theorem reg_mono {a b : Nat} (hab : a ≤ b) {ns : List (Note Val Meta.Obj)}
    (h : (W a).sys.inf.sent[i]? = some ns) : ∃ more, (W b).sys.inf.sent[i]? = some (ns ++ more) := by
  induction b, hab using Nat.le_induction with
  | base => exact ⟨[], by simpa using h⟩
  | succ b _ ih =>
    obtain ⟨more, hm⟩ := ih
    have e : (W (b + 1)).sys = (System.step I py38 ps i (W b).sys (toSystem A ver p (W b) (f b))).1 := rfl
    rw [e]
    cases toSystem A ver p (W b) (f b) with
    | inf e =>
      obtain ⟨more', h'⟩ := SharedInformer.sent_grows Meta.keyFunc _ e i _ hm
      exact ⟨more ++ more', by rw [← List.append_assoc]; exact h'⟩
    | deliver => exact ⟨more, by rw [System.inf_step]; exact hm⟩
    | add => exact ⟨more, by rw [System.inf_step]; exact hm⟩
    | ctl e => exact ⟨more, by rw [System.inf_step]; exact hm⟩

/-- The moment when the cache has what the server has and the handler has been sent it. -/
private theorem settled (he : Endless A ver p I py38 ps i l t n f L) (hclean : Clean Meta.keyFunc (view (W L)))
    {R : Nat} {ns : List (Note Val Meta.Obj)} (hreg : (W R).sys.inf.sent[i]? = some ns) {N : Nat} (hN : L < N) (k : Val)
    (hstay : ∀ m, N ≤ m → ∀ c ∈ (W m).hist.drop (W N).hist.length, Meta.keyFunc c.obj ≠ some k)
    (hdel : held Meta.keyFunc (W N).hist k = none → (∃ x ∈ ns, noteKey Meta.keyFunc x = some k) ∧
      ∀ m ns x, (W m).sys.inf.sent[i]? = some ns → .onDelete x ∈ ns →
        noteKey Meta.keyFunc (.onDelete x) = some k → Proper x) :
    ∃ M pre x post, (W M).sys.inf.sent[i]? = some (pre ++ x :: post) ∧ noteKey Meta.keyFunc x = some k ∧
      (∀ y ∈ post, noteKey Meta.keyFunc y ≠ some k) ∧ (∀ y, x = .onDelete y → Proper y) ∧
      ∀ m, M ≤ m → (W m).sys.inf.inf.items.get? k = (held Meta.keyFunc (W N).hist k).map .real := by
  obtain ⟨M, h1, h2⟩ := comes A ver hinj p I py38 ps i l t n he hclean hN k hstay
  obtain ⟨more, h3⟩ := reg_mono A ver hinj p I py38 ps i l t n (Nat.le_max_right M R) hreg
  have hnone : (W (max M R)).sys.inf.inf.items.get? k = none → held Meta.keyFunc (W N).hist k = none := by
    intro h
    rw [h2 _ (Nat.le_max_left _ _)] at h
    simpa using h
  obtain ⟨pre, x, post, g1, g2, g3, g4⟩ := told A ver hinj p I py38 ps i l t n he h3
    (fun h => by
      obtain ⟨x, hx, hk⟩ := (hdel (hnone h)).1
      exact ⟨x, List.mem_append_left _ hx, hk⟩)
    (fun h x hx hk => (hdel (hnone h)).2 _ _ x h3 hx hk)
  rw [g1] at h3
  exact ⟨max M R, pre, x, post, h3, g2, g3, g4, fun m hm => h2 m (le_trans (Nat.le_max_left _ _) hm)⟩

/-- What the reconciler last saw is what the server has. -/
private theorem sees (he : Endless A ver p I py38 ps i l t n f L) (hclean : Clean Meta.keyFunc (view (W L)))
    {R : Nat} {ns : List (Note Val Meta.Obj)} (hreg : (W R).sys.inf.sent[i]? = some ns)
    (hacc : ∀ m ns, (W m).sys.inf.sent[i]? = some ns → ∀ x ∈ ns, Accepted ps x) {N : Nat} (hN : L < N) (k : Val)
    (hstay : ∀ m, N ≤ m → ∀ c ∈ (W m).hist.drop (W N).hist.length, Meta.keyFunc c.obj ≠ some k)
    (hdel : held Meta.keyFunc (W N).hist k = none → (∃ x ∈ ns, noteKey Meta.keyFunc x = some k) ∧
      ∀ m ns x, (W m).sys.inf.sent[i]? = some ns → .onDelete x ∈ ns →
        noteKey Meta.keyFunc (.onDelete x) = some k → Proper x) :
    ∃ M, (∃ c ∈ upTo A ver p I py38 ps i l t n f M, Meta.objectKeyToStoreKey c.request = k) ∧
      ∀ m, M ≤ m → lastSeen k (upTo A ver p I py38 ps i l t n f m) =
        (held Meta.keyFunc (W N).hist k).map .real := by
  obtain ⟨M, pre, x, post, h1, h2, h3, h4, h5⟩ :=
    settled A ver hinj p I py38 ps i l t n he hclean hreg hN k hstay hdel
  have hs := sys_at (A := A) (ver := ver) (p := p) (I := I) (py38 := py38) (ps := ps) (i := i) (l := l)
    (t := t) (n := n) (f := f)
  have hu := upTo_sys (A := A) (ver := ver) (p := p) (I := I) (py38 := py38) (ps := ps) (i := i) (l := l)
    (t := t) (n := n) (f := f)
  obtain ⟨M', g1, g2⟩ := System.C98_current (N := M) (k := k) (pre := pre) (post := post) (x := x) he.system
    (fun m e h => selects_at he.due m e h) (fun m e h => proper_at hinj he.follow.serves he.objects m e h)
    (by rw [← hs]; exact h1) h2 h3 (hacc M _ h1 x (by simp)) h4
    (fun m hm => by rw [← hs, ← hs, h5 m hm, h5 M le_rfl])
  refine ⟨M', by rw [hu]; exact g1, fun m hm => ?_⟩
  rw [hu, g2 m hm, ← hs, h5 M le_rfl]

/-- **C102**: what stays as it is at the API server is what the reconciler last saw: if from move `N` on no
change at the server is about the key `k`, then there is a call of the reconciler for `k`, and from some move on
the last call for `k` is always one that found in the cache exactly the object that the server has. -/
theorem C102_seen (he : Endless A ver p I py38 ps i l t n f L) (hclean : Clean Meta.keyFunc (view (W L)))
    {R : Nat} {ns : List (Note Val Meta.Obj)} (hreg : (W R).sys.inf.sent[i]? = some ns)
    (hacc : ∀ m ns, (W m).sys.inf.sent[i]? = some ns → ∀ x ∈ ns, Accepted ps x)
    {N : Nat} (hN : L < N) (k : Val)
    (hstay : ∀ m, N ≤ m → ∀ c ∈ (W m).hist.drop (W N).hist.length, Meta.keyFunc c.obj ≠ some k)
    (o : Meta.Obj) (ho : held Meta.keyFunc (W N).hist k = some o) :
    ∃ M, (∃ c ∈ upTo A ver p I py38 ps i l t n f M, Meta.objectKeyToStoreKey c.request = k) ∧
      ∀ m, M ≤ m → lastSeen k (upTo A ver p I py38 ps i l t n f m) = some (.real o) := by
  have := sees A ver hinj p I py38 ps i l t n he hclean hreg hacc hN k hstay (by rw [ho]; nofun)
  rw [ho] at this
  exact this

/-- **C102**, an object that was deleted: if the handler was ever told of the object, and of its deletions by the
watch, the last call of the reconciler for it found it absent.  (Of deletions that the informer finds out by a list
the reconciler is not told, `C57_refuted`.) -/
theorem C102_deleted (he : Endless A ver p I py38 ps i l t n f L)
    (hclean : Clean Meta.keyFunc (view (W L))) {R : Nat} {ns : List (Note Val Meta.Obj)}
    (hreg : (W R).sys.inf.sent[i]? = some ns)
    (hacc : ∀ m ns, (W m).sys.inf.sent[i]? = some ns → ∀ x ∈ ns, Accepted ps x)
    {N : Nat} (hN : L < N) (k : Val)
    (hstay : ∀ m, N ≤ m → ∀ c ∈ (W m).hist.drop (W N).hist.length, Meta.keyFunc c.obj ≠ some k)
    (ho : held Meta.keyFunc (W N).hist k = none) (htold : ∃ x ∈ ns, noteKey Meta.keyFunc x = some k)
    (hprop : ∀ m ns x, (W m).sys.inf.sent[i]? = some ns → .onDelete x ∈ ns →
      noteKey Meta.keyFunc (.onDelete x) = some k → Proper x) :
    ∃ M, (∃ c ∈ upTo A ver p I py38 ps i l t n f M, Meta.objectKeyToStoreKey c.request = k) ∧
      ∀ m, M ≤ m → lastSeen k (upTo A ver p I py38 ps i l t n f m) = none := by
  have := sees A ver hinj p I py38 ps i l t n he hclean hreg hacc hN k hstay (fun _ => ⟨htold, hprop⟩)
  rw [ho] at this
  exact this

/-- **C102**: and if the reconciler fails for it, or asks to be called again, only so often, then one of its
calls with exactly the server's object in the cache returns, not asking for another one.  Reconcilers must return
a `Result` or raise, and the rate limiter must name times. -/
theorem C102_succeeds (he : Endless A ver p I py38 ps i l t n f L) (hclean : Clean Meta.keyFunc (view (W L)))
    {R : Nat} {ns : List (Note Val Meta.Obj)} (hreg : (W R).sys.inf.sent[i]? = some ns)
    (hacc : ∀ m ns, (W m).sys.inf.sent[i]? = some ns → ∀ x ∈ ns, Accepted ps x)
    {N : Nat} (hN : L < N) (k : Val)
    (hstay : ∀ m, N ≤ m → ∀ c ∈ (W m).hist.drop (W N).hist.length, Meta.keyFunc c.obj ≠ some k)
    (o : Meta.Obj) (ho : held Meta.keyFunc (W N).hist k = some o)
    (hout : ∀ m w r env nn, f m = .sys (.ctl (.finish w r env)) →
      (W m).sys.ctl.workers w = .reconciling nn → Meta.objectKeyToStoreKey nn = k →
      (r = .raised ∨ ∃ q d, r = .result q d) ∧ ∃ d, (I.when (W m).sys.ctl.rq.lim nn env).2 = .delay d)
    (F : Nat) (hF : ∀ m w r env nn, F ≤ m → f m = .sys (.ctl (.finish w r env)) →
      (W m).sys.ctl.workers w = .reconciling nn → Meta.objectKeyToStoreKey nn = k → r = .result false 0) :
    ∃ m w nn m' env, Meta.objectKeyToStoreKey nn = k ∧
      ⟨w, nn, some (.real o)⟩ ∈ (step A ver p I py38 ps i (W m) (f m)).2 ∧ m < m' ∧
      (∀ j, m < j → j ≤ m' → (W j).sys.ctl.workers w = .reconciling nn) ∧
      f m' = .sys (.ctl (.finish w (.result false 0) env)) := by
  obtain ⟨M, pre, x, post, h1, h2, h3, h4, h5⟩ :=
    settled A ver hinj p I py38 ps i l t n he hclean hreg hN k hstay (by rw [ho]; nofun)
  rw [ho] at h5
  have hs := sys_at (A := A) (ver := ver) (p := p) (I := I) (py38 := py38) (ps := ps) (i := i) (l := l)
    (t := t) (n := n) (f := f)
  have hfin : ∀ m w r env, toSystem A ver p (W m) (f m) = .ctl (.finish w r env) →
      f m = .sys (.ctl (.finish w r env)) := by
    intro m w r env h
    cases hf : f m with
    | sys e =>
      rw [hf] at h
      cases e with
      | inf e => cases h
      | _ => exact congrArg Act.sys h
    | start => rw [hf] at h; cases h
    | register => rw [hf] at h; cases h
    | _ =>
      rw [hf] at h
      simp only [toSystem] at h
      split at h
      · simp only [seen] at h
        repeat' split at h
        all_goals cases h
      · cases h
  obtain ⟨m, w, nn, m', env, g1, g2, g3, g4, g5⟩ := System.C98_succeeds (N := M) (k := k) (pre := pre)
    (post := post) (x := x) he.system
    (fun m e h => selects_at he.due m e h) (fun m e h => proper_at hinj he.follow.serves he.objects m e h)
    (by rw [← hs]; exact h1) h2 h3 (hacc M _ h1 x (by simp)) h4
    (fun m hm => by rw [← hs, ← hs, h5 m hm, h5 M le_rfl])
    (fun m w r env nn e1 e2 e3 => by
      rw [← hs] at e2 ⊢
      exact hout m w r env nn (hfin m w r env e1) e2 e3)
    F (fun m w r env nn e0 e1 e2 e3 => by
      rw [← hs] at e2
      exact hF m w r env nn e0 (hfin m w r env e1) e2 e3)
  refine ⟨m, w, nn, m', env, g1, ?_, g3, fun j h1 h2 => ?_, hfin m' w _ env g5⟩
  · rw [← hs, h5 M le_rfl] at g2
    simp only [System.Spec.logAt, ← hs] at g2
    exact g2
  · rw [hs]; exact g4 j h1 h2

end

/-! ### A concrete run -/

private def ver0 (n : Nat) : String := String.ofList (List.replicate n 'a')

private theorem ver0_inj : Function.Injective ver0 := by
  intro a b h
  have := congrArg (fun s : String => s.toList.length) h
  simpa [ver0] using this

private def A0 : Access Meta.Obj Unit where
  isExpected _ := true
  gvk _ := some ()
  isObject _ := true
  version
    | .typed _ v => some (ver0 v)
    | _ => none
  expected := none

private def pod (name : String) (v : Nat) : Meta.Obj := .typed (some (some "ns".toList, some name.toList)) v

/-- A limiter that always says five seconds. -/
private def five : Iface Unit NamespacedName Unit := ⟨fun _ _ _ => ((), .delay 5), fun _ _ => (), fun _ _ => 0⟩

/-- Object `a` is listed and reconciled; `b` is made, `a` modified, there is a resync in between, `b` is deleted;
the handler is told all this, and both are reconciled. -/
private def begin0 : List (Act Unit) :=
  [.register, .start, .change (.put (pod "a" 1)), .refl (.tasks .list), .refl (.listed 1 [pod "a" 1]),
    .refl (.tasks (.replaced true)), .refl (.opened 1), .pop, .sys .deliver, .sys .add, .sys (.ctl (.take 0)),
    .sys (.ctl (.finish 0 (.result false 0) ())), .change (.put (pod "b" 2)), .change (.put (pod "a" 3)),
    .refl .event, .refl (.tasks .resume), .refl (.tasks .stored), .refl .event, .refl (.tasks (.pass 1)),
    .check (fun _ => true), .refl (.tasks (.resynced true)), .refl (.tasks .resume), .refl (.tasks .stored),
    .pop, .pop, .change (.del (pod "b" 4)), .refl .event, .refl (.tasks .resume), .refl (.tasks .stored),
    .sys .deliver, .sys .add, .pop, .sys .deliver, .sys .add, .sys .add, .sys .deliver, .sys .add, .sys .add,
    .sys .deliver, .sys .add, .sys (.ctl (.take 0)), .sys (.ctl (.finish 0 (.result false 0) ())),
    .sys (.ctl (.take 0)), .sys (.ctl (.finish 0 (.result false 0) ()))]

/-- A round in which everybody tries, without end. -/
private def turn : Nat → Act Unit
  | 0 => .sys (.ctl (.take 0))
  | 1 => .sys (.ctl (.finish 0 (.result false 0) ()))
  | 2 => .sys (.ctl (.requeued 0))
  | 3 => .sys (.ctl (.wake 0))
  | 4 => .sys (.ctl (.queue .loop))
  | 5 => .sys (.ctl (.queue .loop))
  | 6 => .sys (.ctl (.queue (.tick 10)))
  | 7 => .sys (.ctl (.queue (.wake .heartbeat)))
  | 8 => .sys (.ctl (.queue .loop))
  | 9 => .sys .deliver
  | 10 => .sys .add
  | 11 => .refl (.tasks .resume)
  | 12 => .refl (.tasks .stored)
  | 13 => .refl (.tasks .tasksEnded)
  | _ => .pop

private def run0 (m : Nat) : Act Unit :=
  match begin0[m]? with
  | some a => a
  | none => turn ((m - 44) % 15)

private abbrev T (m : Nat) : State Unit := at_ A0 ver0 1 five true [] 0 () 100 1 run0 m

private theorem t44 : (T 44).refl.pc = .waiting ∧ (T 44).refl.queue = [] ∧ (T 44).refl.errTask = .waiting ∧
    (T 44).sys.inf.inf.q.queue = [] ∧ (T 44).sys.inf.started = true ∧ (T 44).sys.todo = [] ∧
    (T 44).sys.inf.sent[0]?.bind (·[(T 44).sys.delivered]?) = none := by decide +kernel

private theorem ctl44 : (T 44).sys.ctl.rq.q.core = ⟨[], [], [], false⟩ ∧ (T 44).sys.ctl.rq.q.clock = 100 ∧
    (T 44).sys.ctl.rq.q.stop = false ∧ (T 44).sys.ctl.rq.q.puts = [] ∧ (T 44).sys.ctl.rq.q.chan = [] ∧
    (T 44).sys.ctl.rq.q.heap = ⟨[], [], 0, 0⟩ ∧ (T 44).sys.ctl.rq.q.pc = .top ∧
    (T 44).sys.ctl.workers 0 = .idle := by decide +kernel

private theorem finally_other {s : Controller.State Unit NamespacedName} {v w : Nat} {x : NamespacedName}
    {e : Controller.End} (hv : v ≠ w) :
    (Controller.finally_ five true s w x e).1.workers v = s.workers v := by
  simp [Controller.finally_, Controller.State.setPc, Controller.State.call, hv]

/-- The other workers have nothing to do with it. -/
private theorem ended_step {s : Controller.State Unit NamespacedName} {v : Nat} (hv : s.workers v = .ended)
    (e : Controller.Ev NamespacedName Unit) :
    (Controller.step five true (fun _ => true) s e).1.workers v = .ended := by
  cases e with
  | queue e =>
    simp only [Controller.step]
    split <;> exact hv
  | take w =>
    simp only [Controller.step]
    split
    · rename_i hw
      have hne : v ≠ w := by rintro rfl; rw [hv] at hw; cases hw
      split
      · simp [Controller.State.setPc, Controller.State.call, hne, hv]
      · simp [Controller.State.setPc, hne, hv]
      · exact hv
    · exact hv
  | finish w o env =>
    simp only [Controller.step]
    split
    · rename_i x hw
      have hne : v ≠ w := by rintro rfl; rw [hv] at hw; cases hw
      simp only [Controller.afterReconcile]
      repeat' split
      all_goals first
        | (rw [finally_other hne]; exact hv)
        | (simp [Controller.State.setPc, Controller.State.call, hne, hv])
    · exact hv
  | requeued w =>
    simp only [Controller.step]
    split
    · rename_i x r hw
      have hne : v ≠ w := by rintro rfl; rw [hv] at hw; cases hw
      rw [finally_other hne]; exact hv
    · exact hv
  | cancelRequeue w =>
    simp only [Controller.step]
    split
    · rename_i x r hw
      have hne : v ≠ w := by rintro rfl; rw [hv] at hw; cases hw
      rw [finally_other hne]; exact hv
    · exact hv
  | wake w =>
    simp only [Controller.step]
    split
    · rename_i hw
      have hne : v ≠ w := by rintro rfl; rw [hv] at hw; cases hw
      simp [Controller.State.setPc, hne, hv]
    · exact hv
  | cancel w =>
    simp only [Controller.step]
    split
    · simp [Controller.State.setPc, hv]
    · exact hv

private theorem others (m v : Nat) (hv : v ≠ 0) : (T m).sys.ctl.workers v = .ended := by
  induction m with
  | zero =>
    show (if v < 1 then Controller.Pc.idle else .ended) = .ended
    rw [if_neg (by omega)]
  | succ m ih =>
    show (System.step five true [] 0 (T m).sys (toSystem A0 ver0 1 (T m) (run0 m))).1.ctl.workers v = .ended
    cases toSystem A0 ver0 1 (T m) (run0 m) with
    | inf e => exact ih
    | deliver =>
      simp only [System.step]
      split <;> exact ih
    | add =>
      simp only [System.step]
      split
      · exact ih
      · exact ended_step ih _
    | ctl e => exact ended_step ih e

/-- The delaying queue during a round. -/
private def part (c : ℚ) : Nat → ℚ × DelayQueue.Pc NamespacedName
  | 0 | 1 | 2 | 3 | 4 => (c, .top)
  | 5 => (c, .popping c)
  | 6 => (c, .sleeping none)
  | 7 => (c + 10, .sleeping none)
  | 8 => (c + 10, .woke none)
  | _ => (c + 10, .top)

/-- The state during a round, if it was `s` before. -/
private def during (s : State Unit) (c : ℚ) (j : Nat) : State Unit :=
  { s with sys := { s.sys with
    ctl := ⟨⟨⟨⟨[], [], [], false⟩, (part c j).1, false, [], [], ⟨[], [], 0, 0⟩, (part c j).2⟩, ()⟩, s.sys.ctl.workers⟩ } }

/-- Nothing is left to do. -/
private def Rest (s : State Unit) : Prop :=
  s.refl.pc = .waiting ∧ s.refl.queue = [] ∧ s.refl.errTask = .waiting ∧ s.sys.inf.inf.q.queue = [] ∧
  s.sys.inf.started = true ∧ s.sys.todo = [] ∧ s.sys.inf.sent[0]?.bind (·[s.sys.delivered]?) = none ∧
  s.sys.ctl.workers 0 = .idle

private theorem rest44 : Rest (T 44) := by
  obtain ⟨h1, h2, h3, h4, h5, h6, h7⟩ := t44
  exact ⟨h1, h2, h3, h4, h5, h6, h7, ctl44.2.2.2.2.2.2.2⟩

private theorem run_later (k j : Nat) (hj : j < 15) : run0 (44 + 15 * k + j) = turn j := by
  have : begin0[44 + 15 * k + j]? = none := List.getElem?_eq_none (by simp [begin0]; omega)
  simp only [run0, this]
  congr 1
  omega

/-- A move of handler or controller. -/
private theorem sys_step (s : State Unit) (e : System.Ev Unit) (he : ∀ e', e ≠ .inf e') :
    (step A0 ver0 1 five true [] 0 s (.sys e)).1 = { s with sys := (System.step five true [] 0 s.sys e).1 } := by
  simp only [step, toFollow, never_none, Option.getD_none]
  cases e with
  | inf e' => exact absurd rfl (he e')
  | _ => rfl

/-- A move that is not possible. -/
private theorem none_step (s : State Unit) (a : Act Unit)
    (h : Follow.step A0 Meta.keyFunc ver0 1 (view s) (toFollow s a) = none) (hi : toSystem A0 ver0 1 s a = idle) :
    (step A0 ver0 1 five true [] 0 s a).1 = s := by
  simp only [step, h, hi, Option.getD_none]
  simp [idle, System.step, Controller.step, Controller.foreign, Controller.State.call, RateLimitingQueue.step,
    DelayQueue.step, view]

private theorem during_step {s : State Unit} (hr : Rest s) (c : ℚ) (j : Nat) (hj : j < 15) :
    (step A0 ver0 1 five true [] 0 (during s c j) (turn j)).1 = during s c (j + 1) := by
  obtain ⟨h1, h2, h3, h4, h5, h6, h7, hw⟩ := hr
  by_cases h : j < 11
  · have hne : ∃ e, turn j = .sys e ∧ ∀ e', e ≠ .inf e' := by
      interval_cases j <;> exact ⟨_, rfl, nofun⟩
    obtain ⟨e, he, hne⟩ := hne
    rw [he, sys_step _ _ hne]
    have : (System.step five true [] 0 (during s c j).sys e).1 = (during s c (j + 1)).sys := by
      interval_cases j <;> cases he <;>
      simp [during, part, System.step, h6, h7, hw, Controller.step, Controller.foreign, Controller.State.call,
        RateLimitingQueue.step, DelayQueue.step, DelayQueue.loopStep, DelayQueue.wakeStep, DelayHeap.peek,
        DelayHeap.peekLoop, WorkQueue.get]
    rw [this]
    rfl
  · have hd : during s c j = during s c (j + 1) := by
      have : part c j = part c (j + 1) := by interval_cases j <;> first | rfl | omega
      simp only [during, this]
    rw [← hd]
    have hs : (during s c j).sys.inf.started = true := h5
    have g1 : (during s c j).refl.pc = .waiting := h1
    have g2 : (during s c j).refl.queue = [] := h2
    have g3 : (during s c j).refl.errTask = .waiting := h3
    have g4 : (during s c j).sys.inf.inf.q.queue = [] := h4
    generalize during s c j = d at hs g1 g2 g3 g4
    have hn : Follow.step A0 Meta.keyFunc ver0 1 (view d) (toFollow d (turn j)) = none := by
      have : j = 11 ∨ j = 12 ∨ j = 13 ∨ j = 14 := by omega
      rcases this with rfl | rfl | rfl | rfl
      · simp [turn, toFollow, other, hs, Follow.step, Follow.answers, Follow.move, ReflectorTasks.step, view, g1,
          g2, g3]
      · simp [turn, toFollow, other, hs, Follow.step, Follow.answers, view, g1]
      · simp [turn, toFollow, other, hs, Follow.step, Follow.answers, Follow.move, ReflectorTasks.step, view, g1]
      · simp [turn, toFollow, hs, Follow.step, view, g4]
    refine none_step _ _ hn ?_
    have : j = 11 ∨ j = 12 ∨ j = 13 ∨ j = 14 := by omega
    rcases this with rfl | rfl | rfl | rfl <;> simp only [turn, toSystem] at hn ⊢ <;> rw [hn]

private theorem during_zero {s : State Unit} {c : ℚ} (h1 : s.sys.ctl.rq.q.core = ⟨[], [], [], false⟩)
    (h2 : s.sys.ctl.rq.q.clock = c) (h3 : s.sys.ctl.rq.q.stop = false) (h4 : s.sys.ctl.rq.q.puts = [])
    (h5 : s.sys.ctl.rq.q.chan = []) (h6 : s.sys.ctl.rq.q.heap = ⟨[], [], 0, 0⟩) (h7 : s.sys.ctl.rq.q.pc = .top) :
    s = during s c 0 := by
  obtain ⟨hist, pos, refl, cur, ⟨inf, delivered, todo, ⟨⟨⟨core, clock, stop, puts, chan, heap, pc⟩, lim⟩, workers⟩⟩⟩ := s
  simp only at h1 h2 h3 h4 h5 h6 h7
  subst h1 h2 h3 h4 h5 h6 h7
  rfl

private theorem round (k : Nat) : ∀ j, j ≤ 15 → T (44 + 15 * k + j) = during (T 44) (100 + 10 * k) j := by
  have go : ∀ k : Nat, T (44 + 15 * k) = during (T 44) (100 + 10 * k) 0 →
      ∀ j, j ≤ 15 → T (44 + 15 * k + j) = during (T 44) (100 + 10 * k) j := by
    intro k h j
    induction j with
    | zero => intro _; exact h
    | succ j ih =>
      intro hj
      rw [← during_step rest44 _ j (by omega), ← ih (by omega), ← run_later k j (by omega)]
      rfl
  refine go k ?_
  induction k with
  | zero =>
    obtain ⟨h1, h2, h3, h4, h5, h6, h7, -⟩ := ctl44
    have := during_zero h1 (h2.trans (by simp : (100 : ℚ) = 100 + 10 * ((0 : Nat) : ℚ))) h3 h4 h5 h6 h7
    exact this
  | succ k ih =>
    have := go k ih 15 (le_refl _)
    rw [show 44 + 15 * (k + 1) = 44 + 15 * k + 15 by omega, this]
    have hc : (100 : ℚ) + 10 * ((k + 1 : Nat) : ℚ) = 100 + 10 * k + 10 := by push_cast; ring
    rw [hc]
    generalize T 44 = s
    rfl

private theorem later {m : Nat} (hm : 44 ≤ m) : ∃ c j, j < 15 ∧ T m = during (T 44) c j ∧ run0 m = turn j := by
  have h := round ((m - 44) / 15) ((m - 44) % 15) (by omega)
  have h' := run_later ((m - 44) / 15) ((m - 44) % 15) (by omega)
  rw [show 44 + 15 * ((m - 44) / 15) + (m - 44) % 15 = m by omega] at h h'
  exact ⟨_, _, by omega, h, h'⟩

private theorem follow_later {m : Nat} (hm : 44 ≤ m) : view (T m) = view (T 44) := by
  obtain ⟨c, j, -, h, -⟩ := later hm
  rw [h]
  generalize T 44 = s
  rfl

private theorem during_started (s : State Unit) (c : ℚ) (j : Nat) :
    (during s c j).sys.inf.started = s.sys.inf.started := rfl

private theorem view_refl (s : State Unit) : (view s).refl = s.refl := rfl

private theorem turn_at (N j : Nat) (hj : j < 15) : ∃ m, N ≤ m ∧ 44 ≤ m ∧ run0 m = turn j ∧
    (T m).sys.inf.started = true := by
  refine ⟨44 + 15 * N + j, by omega, by omega, run_later N j hj, ?_⟩
  rw [round N j (by omega), during_started]
  exact t44.2.2.2.2.1

private theorem serves0 (m : Nat) : Follow.Spec.Serves A0 (toFollow (T m) (run0 m)) := by
  cases toFollow (T m) (run0 m) <;> first | trivial | (refine ⟨rfl, ?_, rfl⟩; intro g hg; cases hg)

private theorem healthy0 (m : Nat) : Follow.Spec.Healthy A0 (toFollow (T m) (run0 m)) := by
  have key : ∀ (s : State Unit) (a : Act Unit), (∀ b, a = .refl b → Follow.Spec.Healthy A0 b) →
      Follow.Spec.Healthy A0 (toFollow s a) := by
    intro s a h
    cases a with
    | refl b =>
      simp only [toFollow]
      split
      · exact h b rfl
      · trivial
    | check due =>
      simp only [toFollow]
      split <;> trivial
    | pop =>
      simp only [toFollow]
      split
      · exact fun _ => rfl
      · trivial
    | _ => trivial
  apply key
  intro b hb
  by_cases hm : 44 ≤ m
  · obtain ⟨c, j, hj, -, h⟩ := later hm
    rw [h] at hb
    interval_cases j <;> cases hb <;> trivial
  · have h' : ∃ a, a ∈ begin0 ∧ run0 m = a := by
      have hn : m < begin0.length := by simp [begin0]; omega
      exact ⟨begin0[m], List.getElem_mem hn, by simp [run0, List.getElem?_eq_getElem hn]⟩
    obtain ⟨a, ha, hr⟩ := h'
    rw [hb] at hr
    subst hr
    simp only [begin0, List.mem_cons, List.not_mem_nil, or_false, reduceCtorEq, false_or, Act.refl.injEq] at ha
    rcases ha with rfl | rfl | rfl | rfl | rfl | rfl | rfl | rfl | rfl | rfl | rfl | rfl | rfl | rfl | rfl <;>
      first | trivial | rfl

private theorem at0 (m : Nat) : Follow.Spec.at_ A0 Meta.keyFunc ver0 1 (fun m => toFollow (T m) (run0 m)) m =
    view (T m) :=
  (follow_at ver0_inj serves0 m).symm

private theorem follow0 : Follow.Spec.Endless A0 Meta.keyFunc ver0 1 (fun m => toFollow (T m) (run0 m)) 5 where
  serves := serves0
  list := ⟨by
    have : (T 5).sys.inf.started = true := by decide +kernel
    show (if (T 5).sys.inf.started && !false then Follow.Act.tasks (.replaced true) else never) = _
    rw [this]; rfl, [pod "a" 1], ver0 1, by rw [at0]; decide +kernel⟩
  healthy m _ := healthy0 m
  long m _ := by
    rw [at0]
    by_cases h : 44 ≤ m
    · rw [follow_later h, view_refl, t44.1]; nofun
    · have : ∀ m < 44, (T m).refl.pc ≠ .leavingWatch .tooShort := by decide +kernel
      rw [view_refl]
      exact this m (by omega)
  resume N := by
    obtain ⟨m, h1, -, h2, h3⟩ := turn_at N 11 (by omega)
    exact ⟨m, h1, by simp [h2, turn, toFollow, h3, other]⟩
  stored N := by
    obtain ⟨m, h1, -, h2, h3⟩ := turn_at N 12 (by omega)
    exact ⟨m, h1, by simp [h2, turn, toFollow, h3, other]⟩
  tasksEnded N := by
    obtain ⟨m, h1, -, h2, h3⟩ := turn_at N 13 (by omega)
    exact ⟨m, h1, by simp [h2, turn, toFollow, h3, other]⟩
  pop N := by
    obtain ⟨m, h1, -, h2, h3⟩ := turn_at N 14 (by omega)
    exact ⟨m, fun _ => .ok, h1, by simp only [h2, turn, toFollow, h3, if_true]⟩
  opened N _ := by
    refine ⟨max N 44, by omega, Or.inl ?_⟩
    rw [at0, follow_later (by omega), view_refl, t44.1]; nofun
  event N h := by
    exfalso
    obtain ⟨m, h1, h2⟩ := h 44
    rw [at0, follow_later h1] at h2
    have : Follow.event Meta.keyFunc (view (T 44)).hist (view (T 44)).pos = none := by decide +kernel
    simp [Follow.step, this] at h2

private theorem sys0 (m : Nat) : System.Spec.at_ five true [] 0 () 100 1
    (fun m => toSystem A0 ver0 1 (T m) (run0 m)) m = (T m).sys :=
  (sys_at m).symm

private theorem worker0 (m : Nat) : (T m).sys.ctl.workers 0 ≠ .ended := by
  by_cases h : 44 ≤ m
  · obtain ⟨c, j, -, h, -⟩ := later h
    rw [h, show (during (T 44) c j).sys.ctl.workers = (T 44).sys.ctl.workers from by generalize T 44 = s; rfl,
      ctl44.2.2.2.2.2.2.2]
    nofun
  · have : ∀ m < 44, (T m).sys.ctl.workers 0 ≠ .ended := by decide +kernel
    exact this m (by omega)

private theorem system0 : System.Spec.Endless five true [] 0 () 100 1
    (fun m => toSystem A0 ver0 1 (T m) (run0 m)) := by
  have hc : ∀ m, Controller.Spec.at_ five true () 100 1 (fun m => System.Spec.toCtl (System.Spec.at_ five true [] 0 () 100 1
      (fun m => toSystem A0 ver0 1 (T m) (run0 m)) m) (toSystem A0 ver0 1 (T m) (run0 m))) m = (T m).sys.ctl := by
    intro m
    rw [← sys0, System.ctl_run]
  have hq : ∀ {m}, 44 ≤ m → (T m).sys.ctl.rq.q.puts = [] ∧ (T m).sys.ctl.rq.q.chan = [] ∧
      (T m).sys.ctl.rq.q.pc ≠ .draining := by
    intro m hm
    obtain ⟨c, j, hj, h, -⟩ := later hm
    rw [h]
    generalize T 44 = s
    refine ⟨rfl, rfl, ?_⟩
    simp only [during]
    interval_cases j <;> simp [part]
  have hw : ∀ w N, (T N).sys.ctl.workers w ≠ .ended → w = 0 := by
    intro w N h
    by_contra hne
    exact h (others N w hne)
  have ht : ∀ N j, j < 9 → ∃ m, N ≤ m ∧ ∃ e, turn j = .sys (.ctl e) ∧
      System.Spec.toCtl (System.Spec.at_ five true [] 0 () 100 1
      (fun m => toSystem A0 ver0 1 (T m) (run0 m)) m) (toSystem A0 ver0 1 (T m) (run0 m)) = e := by
    intro N j hj
    obtain ⟨m, h1, -, h2, -⟩ := turn_at N j (by omega)
    refine ⟨m, h1, ?_⟩
    rw [h2]
    interval_cases j <;> exact ⟨_, rfl, rfl⟩
  refine ⟨⟨?_, ?_, ?_, ?_, ?_, ?_, ?_, ⟨0, ?_, ?_, ?_⟩, ?_, ?_⟩, ?_, ?_⟩
  · intro m e h
    have key : ∀ (s' : System.State Unit) (s : State Unit) (a : Act Unit),
        System.Spec.toCtl s' (toSystem A0 ver0 1 s a) = .queue e →
        a = .sys (.ctl (.queue e)) ∨ DelayQueue.isShutDown e = false := by
      intro s' s a h
      cases hx : toSystem A0 ver0 1 s a with
      | inf e' => rw [hx] at h; cases h; exact Or.inr rfl
      | deliver => rw [hx] at h; cases h; exact Or.inr rfl
      | add =>
        rw [hx] at h
        simp only [System.Spec.toCtl] at h
        split at h <;> cases h <;> exact Or.inr rfl
      | ctl e' =>
        rw [hx] at h
        cases h
        cases a with
        | sys e'' =>
          cases e'' with
          | inf e3 => cases hx; exact Or.inr rfl
          | _ => exact Or.inl (congrArg Act.sys hx)
        | start => cases hx
        | register => cases hx
        | _ =>
          simp only [toSystem] at hx
          split at hx
          · simp only [seen] at hx
            repeat' split at hx
            all_goals cases hx
            all_goals exact Or.inr rfl
          · cases hx; exact Or.inr rfl
    rcases key _ _ _ h with h | h
    · by_cases hm : 44 ≤ m
      · obtain ⟨c, j, hj, -, hr⟩ := later hm
        rw [hr] at h
        interval_cases j <;> cases h <;> rfl
      · have hn : m < begin0.length := by simp [begin0]; omega
        have h' : run0 m ∈ begin0 := by
          have : run0 m = begin0[m] := by simp [run0, List.getElem?_eq_getElem hn]
          rw [this]; exact List.getElem_mem hn
        rw [h] at h'
        simp [begin0] at h'
    · exact h
  · intro Q
    obtain ⟨k, hk⟩ := exists_nat_ge (Q - 100)
    refine ⟨44 + 15 * k + 0, ?_⟩
    rw [hc, round k 0 (by omega)]
    generalize T 44 = s
    have : (0 : ℚ) ≤ k := Nat.cast_nonneg k
    simp only [during, part]
    linarith
  · intro N
    obtain ⟨m, h1, e, h2, h3⟩ := ht N 4 (by omega)
    cases h2
    exact ⟨m, h1, h3⟩
  · intro N
    obtain ⟨m, h1, e, h2, h3⟩ := ht N 7 (by omega)
    cases h2
    exact ⟨m, h1, h3⟩
  · intro N
    refine ⟨max N 44, by omega, ?_⟩
    rw [hc]
    exact (hq (by omega)).2.2
  · intro h N
    exfalso
    obtain ⟨m, h1, h2⟩ := h 44
    rw [hc] at h2
    have h3 := h2.2
    rw [(hq h1).2.1] at h3
    simp at h3
  · intro e N h
    have := h (max N 44) (by omega)
    rw [hc, (hq (by omega)).1] at this
    cases this
  · intro m; rw [hc]; exact worker0 m
  · intro N
    obtain ⟨m, h1, e, h2, h3⟩ := ht N 0 (by omega)
    cases h2
    exact ⟨m, h1, h3⟩
  · intro N
    obtain ⟨m, h1, e, h2, h3⟩ := ht N 3 (by omega)
    cases h2
    exact ⟨m, h1, h3⟩
  · intro w N h
    rw [hc] at h
    obtain rfl := hw w N h
    obtain ⟨m, h1, e, h2, h3⟩ := ht N 1 (by omega)
    cases h2
    exact ⟨m, _, _, h1, h3⟩
  · intro w N h
    rw [hc] at h
    obtain rfl := hw w N h
    obtain ⟨m, h1, e, h2, h3⟩ := ht N 2 (by omega)
    cases h2
    exact ⟨m, h1, h3⟩
  · intro N
    obtain ⟨m, h1, -, h2, -⟩ := turn_at N 9 (by omega)
    exact ⟨m, h1, by simp only [h2]; rfl⟩
  · intro N
    obtain ⟨m, h1, -, h2, -⟩ := turn_at N 10 (by omega)
    exact ⟨m, h1, by simp only [h2]; rfl⟩

private theorem endless0 : Endless A0 ver0 1 five true [] 0 () 100 1 run0 5 where
  follow := follow0
  system := system0
  due m due h := by
    by_cases hm : 44 ≤ m
    · obtain ⟨c, j, hj, -, hr⟩ := later hm
      rw [hr] at h
      interval_cases j <;> cases h
    · have hn : m < begin0.length := by simp [begin0]; omega
      have h' : run0 m ∈ begin0 := by
        have : run0 m = begin0[m] := by simp [run0, List.getElem?_eq_getElem hn]
        rw [this]; exact List.getElem_mem hn
      rw [h] at h'
      simp [begin0] at h'
      rw [h']
  objects m c h := by
    by_cases hm : 44 ≤ m
    · obtain ⟨d, j, hj, -, hr⟩ := later hm
      rw [hr] at h
      interval_cases j <;> cases h
    · have hn : m < begin0.length := by simp [begin0]; omega
      have h' : run0 m ∈ begin0 := by
        have : run0 m = begin0[m] := by simp [run0, List.getElem?_eq_getElem hn]
        rw [this]; exact List.getElem_mem hn
      rw [h] at h'
      simp [begin0] at h'
      rcases h' with rfl | rfl | rfl | rfl <;> trivial

private theorem clean0 : Clean Meta.keyFunc (view (T 5)) := by
  have h : Informer.Spec.pending (view (T 5)).inf = fun _ => [] := by
    have : (view (T 5)).inf.q.items = [] := by decide +kernel
    funext k
    simp [Informer.Spec.pending, this, PyDict.get?]
  intro items v _ k
  refine ⟨?_, fun hne => absurd (by rw [h]) hne⟩
  rintro - ⟨d, hd', -⟩
  rw [h] at hd'
  cases hd'

private theorem hist0 {m : Nat} (hm : 26 ≤ m) : (T m).hist.drop (T 26).hist.length = [] := by
  by_cases h : 44 ≤ m
  · have e : (T m).hist = (T 44).hist := by
      obtain ⟨c, j, -, h, -⟩ := later h
      rw [h]; generalize T 44 = s; rfl
    rw [e]; decide +kernel
  · have : ∀ m < 44, (T m).hist.drop (T 26).hist.length = [] := by decide +kernel
    exact this m (by omega)

private theorem sent0 (m : Nat) : ∀ ns, (T m).sys.inf.sent[0]? = some ns →
    ns <+: [.onAdd (.real (pod "a" 1)), .onAdd (.real (pod "b" 2)), .onUpdate (.real (pod "a" 1)) (.real (pod "a" 1)),
      .onUpdate (.real (pod "a" 1)) (.real (pod "a" 3)), .onDelete (.real (pod "b" 4))] := by
  intro ns h
  have hs : (T 44).sys.inf.sent[0]? = some [.onAdd (.real (pod "a" 1)), .onAdd (.real (pod "b" 2)),
    .onUpdate (.real (pod "a" 1)) (.real (pod "a" 1)), .onUpdate (.real (pod "a" 1)) (.real (pod "a" 3)),
    .onDelete (.real (pod "b" 4))] := by decide +kernel
  by_cases hm : 44 ≤ m
  · have e : (T m).sys.inf = (T 44).sys.inf := by
      obtain ⟨c, j, -, h, -⟩ := later hm
      rw [h]; generalize T 44 = s; rfl
    rw [e, hs] at h
    cases h
    exact List.prefix_rfl
  · obtain ⟨more, h'⟩ := reg_mono A0 ver0 ver0_inj 1 five true [] 0 () 100 1 (f := run0) (by omega : m ≤ 44) h
    rw [hs] at h'
    exact ⟨more, (Option.some.inj h').symm⟩

-- The hypotheses hold of this run: `a` was modified, `b` came and went; from move 26 on nothing changes.
example : Endless A0 ver0 1 five true [] 0 () 100 1 run0 5 ∧ Clean Meta.keyFunc (view (T 5)) ∧
    (∃ ns, (T 44).sys.inf.sent[0]? = some ns ∧ (∃ x ∈ ns, noteKey Meta.keyFunc x = some (some "ns/b".toList))) ∧
    (∀ m ns, (T m).sys.inf.sent[0]? = some ns → ∀ x ∈ ns, Accepted [] x) ∧
    (∀ m, 26 ≤ m → ∀ k, ∀ c ∈ (T m).hist.drop (T 26).hist.length, Meta.keyFunc c.obj ≠ some k) ∧
    held Meta.keyFunc (T 26).hist (some "ns/a".toList) = some (pod "a" 3) ∧
    held Meta.keyFunc (T 26).hist (some "ns/b".toList) = none ∧
    (∀ m ns x, (T m).sys.inf.sent[0]? = some ns → .onDelete x ∈ ns → Proper x) ∧
    (∀ m w r env, run0 m = .sys (.ctl (.finish w r env)) → r = .result false 0 ∧
      ∀ nn, (five.when (T m).sys.ctl.rq.lim nn env).2 = .delay 5) ∧
    (upTo A0 ver0 1 five true [] 0 () 100 1 run0 26).map (·.cached) = [some (.real (pod "a" 1))] ∧
    (upTo A0 ver0 1 five true [] 0 () 100 1 run0 44).map (·.cached) =
      [some (.real (pod "a" 1)), none, some (.real (pod "a" 3))] := by
  refine ⟨endless0, clean0, ?_, fun _ _ _ _ _ p hp => (List.not_mem_nil hp).elim, ?_, by decide +kernel,
    by decide +kernel, ?_, ?_, by decide +kernel, by decide +kernel⟩
  · exact ⟨[.onAdd (.real (pod "a" 1)), .onAdd (.real (pod "b" 2)), .onUpdate (.real (pod "a" 1)) (.real (pod "a" 1)),
      .onUpdate (.real (pod "a" 1)) (.real (pod "a" 3)), .onDelete (.real (pod "b" 4))], by decide +kernel,
      .onAdd (.real (pod "b" 2)), by simp, by decide +kernel⟩
  · intro m hm k c hc
    rw [hist0 hm] at hc
    cases hc
  · intro m ns x h hx
    have := (sent0 m ns h).subset hx
    simp at this
    subst this
    trivial
  · intro m w r env h
    refine ⟨?_, fun _ => rfl⟩
    by_cases hm : 44 ≤ m
    · obtain ⟨c, j, hj, -, hr⟩ := later hm
      rw [hr] at h
      interval_cases j <;> cases h
      rfl
    · have hn : m < begin0.length := by simp [begin0]; omega
      have h' : run0 m ∈ begin0 := by
        have : run0 m = begin0[m] := by simp [run0, List.getElem?_eq_getElem hn]
        rw [this]; exact List.getElem_mem hn
      rw [h] at h'
      simp [begin0] at h'
      exact h'.2

end Aiok8s.Whole
