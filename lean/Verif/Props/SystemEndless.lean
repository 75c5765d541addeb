import Verif.Spec.SystemEndless
import Verif.Props.System
import Verif.Props.ControllerFair
/-!
# The whole way in runs without end: C98
-/
namespace Aiok8s.System
open Aiok8s Aiok8s.RateLimiters Aiok8s.System.Spec Aiok8s.Source.Spec
open Aiok8s.Meta (Val NamespacedName)
open Aiok8s.Informer (Note)
open Aiok8s.SharedInformer.Spec (Ev.selects)
variable {σ ε : Type}

section Run
variable {I : Iface σ NamespacedName ε} {py38 : Bool} {ps : List Source.Pred} {i : Nat} {l : σ} {t : ℚ} {n : Nat}
  {f : Nat → Ev ε}

/-! ### The controller's part -/

private theorem at_succ (m : Nat) :
    at_ I py38 ps i l t n f (m + 1) = (step I py38 ps i (at_ I py38 ps i l t n f m) (f m)).1 := by
  simp only [at_, List.range_succ, List.map_append, List.map_cons, List.map_nil, exec_append]
  rfl

private theorem upTo_succ (m : Nat) :
    upTo I py38 ps i l t n f (m + 1) = upTo I py38 ps i l t n f m ++ logAt I py38 ps i l t n f m := by
  simp only [upTo, List.range_succ, List.map_append, List.map_cons, List.map_nil, logOf_append]
  simp only [logOf, List.append_nil]
  rfl

private theorem idle_step (I : Iface σ NamespacedName ε) (py38 : Bool) (c : Controller.State σ NamespacedName) :
    (Controller.step I py38 (fun _ => true) c (.queue (.tick 0))).1 = c := by
  simp [Controller.step, Controller.foreign, Controller.State.call, RateLimitingQueue.step, DelayQueue.step]

/-- What the controller sees is a run of it. -/
theorem ctl_run (m : Nat) : (at_ I py38 ps i l t n f m).ctl =
    Controller.Spec.at_ I py38 l t n (fun m => toCtl (at_ I py38 ps i l t n f m) (f m)) m := by
  induction m with
  | zero => rfl
  | succ m ih =>
    rw [Controller.at_next, ← ih, at_succ]
    generalize at_ I py38 ps i l t n f m = s
    cases f m with
    | inf e => exact (idle_step I py38 s.ctl).symm
    | deliver =>
      simp only [toCtl, idle_step, step]
      split <;> rfl
    | add =>
      simp only [toCtl, step]
      cases s.todo with
      | nil => exact (idle_step I py38 s.ctl).symm
      | cons a r => rfl
    | ctl e => rfl

private theorem ctl_log (m : Nat) {w : Nat} {nn : NamespacedName}
    (h : .reconcile w nn ∈ Controller.Spec.logAt I py38 l t n (fun m => toCtl (at_ I py38 ps i l t n f m) (f m)) m) :
    ⟨w, nn, (at_ I py38 ps i l t n f m).read nn⟩ ∈ logAt I py38 ps i l t n f m := by
  unfold Controller.Spec.logAt at h
  rw [← ctl_run] at h
  simp only at h
  unfold logAt
  generalize at_ I py38 ps i l t n f m = s at h ⊢
  have hq : ∀ e : DelayQueue.Ev NamespacedName, Controller.Log.reconcile w nn ∉
      (Controller.step I py38 (fun _ => true) s.ctl (.queue e)).2 := by
    intro e
    simp only [Controller.step]
    split <;> simp [Controller.State.seen]
  cases hm : f m with
  | inf e => rw [hm] at h; exact absurd h (hq _)
  | deliver => rw [hm] at h; exact absurd h (hq _)
  | add =>
    rw [hm] at h
    simp only [toCtl] at h
    split at h <;> exact absurd h (hq _)
  | ctl e =>
    rw [hm] at h
    exact List.mem_filterMap.2 ⟨_, h, rfl⟩

private theorem toCtl_finish {s : State σ} {e : Ev ε} {w : Nat} {o : Controller.Outcome} {env : ε}
    (h : toCtl s e = .finish w o env) : e = .ctl (.finish w o env) := by
  cases e with
  | inf e => cases h
  | deliver => cases h
  | add => simp only [toCtl] at h; split at h <;> cases h
  | ctl e => rw [show e = _ from h]

/-! ### The handler -/

/-- The first time from `N` on. -/
private theorem first {p : Nat → Prop} (h : ∀ N, ∃ m, N ≤ m ∧ p m) (N : Nat) :
    ∃ m, N ≤ m ∧ p m ∧ ∀ j, N ≤ j → j < m → ¬ p j := by
  classical
  obtain ⟨h1, h2⟩ := Nat.find_spec (h N)
  exact ⟨Nat.find (h N), h1, h2, fun j h3 h4 h5 => Nat.find_min (h N) h4 ⟨h3, h5⟩⟩

private theorem sent_later {N M : Nat} (hM : N ≤ M) {ns : List (Note Val Meta.Obj)}
    (h : (at_ I py38 ps i l t n f N).inf.sent[i]? = some ns) :
    ∃ more, (at_ I py38 ps i l t n f M).inf.sent[i]? = some (ns ++ more) := by
  induction M, hM using Nat.le_induction with
  | base => exact ⟨[], by rw [h, List.append_nil]⟩
  | succ m hm ih =>
    obtain ⟨more, ih⟩ := ih
    rw [at_succ, inf_step]
    generalize at_ I py38 ps i l t n f m = s at ih ⊢
    cases hfm : f m with
    | inf e =>
      obtain ⟨more', h'⟩ := SharedInformer.sent_grows Meta.keyFunc s.inf e i _ ih
      exact ⟨more ++ more', by rw [← List.append_assoc]; exact h'⟩
    | deliver => exact ⟨more, ih⟩
    | add => exact ⟨more, ih⟩
    | ctl e => exact ⟨more, ih⟩

/-- While the handler's call goes on, nothing is delivered; without the handler's `add` it does not go on. -/
private theorem todo_step {s : State σ} {a : NamespacedName} {r : List NamespacedName} (h : s.todo = a :: r) (e : Ev ε)
    (he : e ≠ .add) : (step I py38 ps i s e).1.todo = a :: r ∧ (step I py38 ps i s e).1.delivered = s.delivered := by
  cases e with
  | inf e => exact ⟨h, rfl⟩
  | deliver => simp [step, h]
  | add => exact absurd rfl he
  | ctl e => exact ⟨h, rfl⟩

private theorem adds (hf : Endless I py38 ps i l t n f) {N : Nat} {a : NamespacedName} {r : List NamespacedName}
    (h : (at_ I py38 ps i l t n f N).todo = a :: r) :
    ∃ m, N ≤ m ∧ f m = .add ∧ (at_ I py38 ps i l t n f m).todo = a :: r ∧
      (at_ I py38 ps i l t n f (m + 1)).todo = r ∧
      (at_ I py38 ps i l t n f (m + 1)).delivered = (at_ I py38 ps i l t n f N).delivered := by
  obtain ⟨m, h1, h2, h3⟩ := first hf.add N
  have keep : ∀ j, N ≤ j → j ≤ m → (at_ I py38 ps i l t n f j).todo = a :: r ∧
      (at_ I py38 ps i l t n f j).delivered = (at_ I py38 ps i l t n f N).delivered := by
    intro j hj
    induction j, hj using Nat.le_induction with
    | base => intro _; exact ⟨h, rfl⟩
    | succ j hj ih =>
      intro hle
      obtain ⟨i1, i2⟩ := ih (by omega)
      have := todo_step (I := I) (py38 := py38) (ps := ps) (i := i) i1 (f j) (h3 j hj (by omega))
      rw [at_succ]
      exact ⟨this.1, this.2.trans i2⟩
  obtain ⟨k1, k2⟩ := keep m h1 (le_refl _)
  refine ⟨m, h1, h2, k1, ?_, ?_⟩
  · rw [at_succ, h2]
    simp [step, k1]
  · rw [at_succ, h2, ← k2]
    simp [step, k1]

/-- A request that the handler is about to make comes to the reconciler. -/
private theorem todo_comes (hf : Endless I py38 ps i l t n f) {nn : NamespacedName} : ∀ (r : List NamespacedName)
    (N : Nat), (at_ I py38 ps i l t n f N).todo = r → nn ∈ r →
    ∃ m v, N ≤ m ∧ .reconcile v nn ∈ Controller.Spec.logAt I py38 l t n
      (fun m => toCtl (at_ I py38 ps i l t n f m) (f m)) m := by
  intro r
  induction r with
  | nil => intro N _ h; cases h
  | cons a r ih =>
    intro N h hm
    obtain ⟨m, h1, h2, h3, h4, -⟩ := adds hf h
    rcases List.mem_cons.1 hm with rfl | hm
    · obtain ⟨m', v, g1, g2⟩ := Controller.C95_added hf.ctl m nn (.inl (by simp only [h2, toCtl, h3]))
      exact ⟨m', v, by omega, g2⟩
    · obtain ⟨m', v, g1, g2⟩ := ih (m + 1) h4 hm
      exact ⟨m', v, by omega, g2⟩

private theorem empties (hf : Endless I py38 ps i l t n f) : ∀ (r : List NamespacedName) (N : Nat),
    (at_ I py38 ps i l t n f N).todo = r → ∃ m, N ≤ m ∧ (at_ I py38 ps i l t n f m).todo = [] ∧
      (at_ I py38 ps i l t n f m).delivered = (at_ I py38 ps i l t n f N).delivered := by
  intro r
  induction r with
  | nil => intro N h; exact ⟨N, le_refl _, h, rfl⟩
  | cons a r ih =>
    intro N h
    obtain ⟨m, h1, -, -, h4, h5⟩ := adds hf h
    obtain ⟨m', g1, g2, g3⟩ := ih (m + 1) h4
    exact ⟨m', by omega, g2, g3.trans h5⟩

private theorem delivers (hf : Endless I py38 ps i l t n f) {N : Nat} {ns : List (Note Val Meta.Obj)}
    (h : (at_ I py38 ps i l t n f N).inf.sent[i]? = some ns) {x : Note Val Meta.Obj}
    (hx : ns[(at_ I py38 ps i l t n f N).delivered]? = some x) :
    ∃ m, N ≤ m ∧ (at_ I py38 ps i l t n f (m + 1)).delivered = (at_ I py38 ps i l t n f N).delivered + 1 ∧
      (at_ I py38 ps i l t n f (m + 1)).todo = (Source.handle ps x).1 := by
  obtain ⟨m₁, h1, h2, h3⟩ := empties hf _ N rfl
  obtain ⟨m, g1, g2, g3⟩ := first hf.deliver m₁
  have keep : ∀ j, m₁ ≤ j → j ≤ m → (at_ I py38 ps i l t n f j).todo = [] ∧
      (at_ I py38 ps i l t n f j).delivered = (at_ I py38 ps i l t n f N).delivered := by
    intro j hj
    induction j, hj using Nat.le_induction with
    | base => intro _; exact ⟨h2, h3⟩
    | succ j hj ih =>
      intro hle
      obtain ⟨i1, i2⟩ := ih (by omega)
      have hne := g3 j hj (by omega)
      rw [at_succ]
      cases hfj : f j with
      | inf e => exact ⟨i1, i2⟩
      | deliver => exact absurd hfj hne
      | add => simp [step, i1, i2]
      | ctl e => exact ⟨i1, i2⟩
  obtain ⟨k1, k2⟩ := keep m g1 (le_refl _)
  obtain ⟨more, hmore⟩ := sent_later (by omega : N ≤ m) h
  have hat : (at_ I py38 ps i l t n f m).inf.sent[i]?.bind (·[(at_ I py38 ps i l t n f m).delivered]?) = some x := by
    rw [hmore, Option.bind_some, k2]
    obtain ⟨hlt, -⟩ := List.getElem?_eq_some_iff.1 hx
    rw [List.getElem?_append_left hlt, hx]
  refine ⟨m, by omega, ?_, ?_⟩
  · rw [at_succ, g2]
    simp only [step, k1, hat]
    exact congrArg (· + 1) k2
  · rw [at_succ, g2]
    simp only [step, k1, hat]

/-- The handler is called with every notification that is to come. -/
private theorem handles (hf : Endless I py38 ps i l t n f) {p : Nat} {x : Note Val Meta.Obj}
    (k : Nat) : ∀ (N : Nat) (ns : List (Note Val Meta.Obj)), (at_ I py38 ps i l t n f N).inf.sent[i]? = some ns →
    ns[p]? = some x → (at_ I py38 ps i l t n f N).delivered + k = p →
    ∃ m, N < m ∧ (at_ I py38 ps i l t n f m).todo = (Source.handle ps x).1 := by
  induction k with
  | zero =>
    intro N ns h hx hk
    obtain ⟨m, h1, -, h2⟩ := delivers hf h (by rw [Nat.add_zero] at hk; rw [hk]; exact hx)
    exact ⟨m + 1, by omega, h2⟩
  | succ k ih =>
    intro N ns h hx hk
    obtain ⟨hlt, -⟩ := List.getElem?_eq_some_iff.1 hx
    obtain ⟨m, h1, h2, -⟩ := delivers hf h (x := ns[(at_ I py38 ps i l t n f N).delivered]'(by omega))
      (List.getElem?_eq_getElem _)
    obtain ⟨more, hmore⟩ := sent_later (by omega : N ≤ m + 1) h
    obtain ⟨m', g1, g2⟩ := ih (m + 1) _ hmore (by rw [List.getElem?_append_left hlt]; exact hx) (by omega)
    exact ⟨m', by omega, g2⟩

/-- **C98**: a notification that the handler has still to get, and that the predicates accept, is followed by
a call of the reconciler for each object it names. -/
theorem C98_called (hf : Endless I py38 ps i l t n f) (N : Nat) (ns : List (Note Val Meta.Obj))
    (h : (at_ I py38 ps i l t n f N).inf.sent[i]? = some ns) (x : Note Val Meta.Obj)
    (hx : x ∈ ns.drop (at_ I py38 ps i l t n f N).delivered) (ha : Accepted ps x) (hn : Named x)
    (nn : NamespacedName) (hnn : About x nn) :
    ∃ m v, N < m ∧ ⟨v, nn, (at_ I py38 ps i l t n f m).read nn⟩ ∈ logAt I py38 ps i l t n f m := by
  obtain ⟨p, hp⟩ := List.mem_iff_getElem?.1 hx
  rw [List.getElem?_drop] at hp
  obtain ⟨m, h1, h2⟩ := handles hf p N ns h hp rfl
  obtain ⟨hall, -⟩ := Source.C57_enqueued_partial ps x ha hn
  have hmem : nn ∈ (Source.handle ps x).1 := by
    obtain ⟨y, hy, hyn⟩ := hnn
    obtain ⟨j, hj⟩ := List.mem_iff_getElem?.1 hy
    obtain ⟨hlt, hget⟩ := List.getElem?_eq_some_iff.1 hj
    have hlt' : j < (Source.handle ps x).1.length := by rw [← hall.length_eq]; exact hlt
    have := hall.get hlt hlt'
    simp only [List.get_eq_getElem] at this
    rw [hget] at this
    have e1 := (Source.names_iff y nn).1 hyn
    have e2 := (Source.names_iff y _).1 this
    rw [e1] at e2
    rw [Option.some.inj e2]
    exact List.getElem_mem _
  obtain ⟨m', v, g1, g2⟩ := todo_comes hf _ m h2 hmem
  exact ⟨m', v, by omega, ctl_log m' g2⟩

/-- A notification delivered before `N` was delivered at some time. -/
private theorem was_delivered {N p : Nat} (h : p < (at_ I py38 ps i l t n f N).delivered) :
    ∃ m ns x, m < N ∧ (at_ I py38 ps i l t n f m).inf.sent[i]? = some ns ∧ ns[p]? = some x ∧
      (at_ I py38 ps i l t n f (m + 1)).todo = (Source.handle ps x).1 := by
  induction N with
  | zero => exact absurd h (Nat.not_lt_zero _)
  | succ N ih =>
    by_cases hN : p < (at_ I py38 ps i l t n f N).delivered
    · obtain ⟨m, ns, x, h1, h2⟩ := ih hN
      exact ⟨m, ns, x, by omega, h2⟩
    · rw [at_succ] at h
      cases hfm : f N with
      | inf e => rw [hfm] at h; exact absurd h hN
      | add =>
        rw [hfm] at h
        simp only [step] at h
        split at h <;> exact absurd h hN
      | ctl e => rw [hfm] at h; exact absurd h hN
      | deliver =>
        rw [hfm] at h
        simp only [step] at h
        split at h
        · rename_i x h1 h2
          simp only at h
          have hp : p = (at_ I py38 ps i l t n f N).delivered := by omega
          obtain ⟨ns, g1, g2⟩ := Option.bind_eq_some_iff.1 h2
          refine ⟨N, ns, x, by omega, g1, by rw [hp]; exact g2, ?_⟩
          rw [at_succ, hfm]
          simp only [step, h1, h2]
        · exact absurd h hN

private theorem events_of (f : Nat → Ev ε) (N : Nat) {P : SharedInformer.Ev Val Meta.Obj → Prop}
    (h : ∀ m e, f m = .inf e → P e) : ∀ e ∈ informerEvents ((List.range N).map f), P e := by
  intro e he
  simp only [informerEvents, List.mem_filterMap, List.mem_map] at he
  obtain ⟨a, ⟨m, -, rfl⟩, ha⟩ := he
  split at ha
  · rename_i e' he'
    cases ha
    exact h m _ he'
  · cases ha

/-- What the cache holds, as told by the notifications. -/
private theorem cache_view (hs : ∀ m e, f m = .inf e → Ev.selects i e) {N : Nat} {ns : List (Note Val Meta.Obj)}
    (h : (at_ I py38 ps i l t n f N).inf.sent[i]? = some ns) (k : Val) :
    (at_ I py38 ps i l t n f N).inf.inf.items.get? k = SharedInformer.Spec.view Meta.keyFunc ns k := by
  have hi := inf_exec I py38 ps i ((List.range N).map f) (init l t n)
  unfold at_ at h ⊢
  rw [hi] at h ⊢
  exact (SharedInformer.C34_due_partial Meta.keyFunc _ i (events_of f N hs) ns h k).symm

private theorem view_others {k : Val} (post : List (Note Val Meta.Obj))
    (hpost : ∀ m ∈ post, noteKey Meta.keyFunc m ≠ some k) (a : List (Note Val Meta.Obj)) :
    SharedInformer.Spec.view Meta.keyFunc (a ++ post) k = SharedInformer.Spec.view Meta.keyFunc a k := by
  rw [SharedInformer.view_append]
  generalize SharedInformer.Spec.view Meta.keyFunc a = v
  induction post generalizing v with
  | nil => rfl
  | cons m post ih =>
    rw [List.foldl_cons, ih (fun m' hm' => hpost m' (by simp [hm']))]
    exact Source.see_other v (hpost m (by simp))

/-- The request that the handler makes for its last notification about an object that does not change any
more; from then on, the cache holds what it will hold for ever. -/
private theorem last_request (hf : Endless I py38 ps i l t n f) (hs : ∀ m e, f m = .inf e → Ev.selects i e)
    (hr : ∀ m e, f m = .inf e → EvAll Proper e) {N : Nat} {k : Val} {pre post : List (Note Val Meta.Obj)}
    {x : Note Val Meta.Obj} (h : (at_ I py38 ps i l t n f N).inf.sent[i]? = some (pre ++ x :: post))
    (hk : noteKey Meta.keyFunc x = some k) (hpost : ∀ y ∈ post, noteKey Meta.keyFunc y ≠ some k) (ha : Accepted ps x)
    (hd : ∀ y, x = .onDelete y → Proper y)
    (hx : ∀ m, N ≤ m → (at_ I py38 ps i l t n f m).inf.inf.items.get? k =
      (at_ I py38 ps i l t n f N).inf.inf.items.get? k) :
    ∃ M nn, Meta.objectKeyToStoreKey nn = k ∧ nn ∈ (at_ I py38 ps i l t n f M).todo ∧
      ∀ m, M ≤ m → (at_ I py38 ps i l t n f m).inf.inf.items.get? k =
        (at_ I py38 ps i l t n f N).inf.inf.items.get? k := by
  obtain ⟨nn, hnn, hkk⟩ := Source.requests_of_note ps (informerEvents ((List.range N).map f)) i (events_of f N hs)
    (events_of f N hr) pre x post (by
      have hi := inf_exec I py38 ps i ((List.range N).map f) (init l t n)
      unfold at_ at h
      rw [hi] at h
      exact h) ha k hk hd
  by_cases hdel : (at_ I py38 ps i l t n f N).delivered ≤ pre.length
  · obtain ⟨m, h1, h2⟩ := handles hf (p := pre.length) (x := x) (pre.length - (at_ I py38 ps i l t n f N).delivered) N
      _ h (by simp) (by omega)
    exact ⟨m, nn, hkk, by rw [h2]; exact hnn, fun m' hm' => hx m' (by omega)⟩
  · obtain ⟨m, ns, y, h1, h2, h3, h4⟩ := was_delivered (I := I) (py38 := py38) (ps := ps) (i := i) (l := l) (t := t)
      (n := n) (f := f) (by omega : pre.length < (at_ I py38 ps i l t n f N).delivered)
    obtain ⟨more, hmore⟩ := sent_later (by omega : m ≤ N) h2
    rw [h] at hmore
    have hmore := Option.some.inj hmore
    have hlt := (List.getElem?_eq_some_iff.1 h3).1
    -- what had been sent by then ends with others' notifications
    obtain ⟨post', hns, hpp⟩ : ∃ post', ns = pre ++ x :: post' ∧ post = post' ++ more := by
      rcases List.append_eq_append_iff.1 hmore with ⟨as, e1, e2⟩ | ⟨cs, e1, e2⟩
      · cases as with
        | nil => rw [List.append_nil] at e1; rw [e1] at hlt; exact absurd hlt (Nat.lt_irrefl _)
        | cons c as =>
          simp only [List.cons_append, List.cons.injEq] at e2
          obtain ⟨rfl, e2⟩ := e2
          exact ⟨as, e1, e2⟩
      · rw [e1, List.length_append] at hlt
        omega
    have hyx : y = x := by
      rw [hns] at h3
      simpa using h3.symm
    subst hyx
    refine ⟨m + 1, nn, hkk, by rw [h4]; exact hnn, fun m' hm' => ?_⟩
    by_cases hmN : N ≤ m'
    · exact hx m' hmN
    · obtain ⟨more', hmore'⟩ := sent_later (by omega : m ≤ m') h2
      obtain ⟨more'', hmore''⟩ := sent_later (by omega : m' ≤ N) hmore'
      rw [h] at hmore''
      have e := Option.some.inj hmore''
      rw [hns] at e hmore'
      simp only [List.append_assoc, List.cons_append, List.append_cancel_left_eq, List.cons.injEq, true_and] at e
      rw [cache_view hs h k, cache_view hs hmore' k, e]
      have g1 : ∀ z ∈ post' ++ more', noteKey Meta.keyFunc z ≠ some k :=
        fun z hz => hpost z (by rw [e, ← List.append_assoc]; exact List.mem_append_left _ hz)
      have g2 : ∀ z ∈ post' ++ (more' ++ more''), noteKey Meta.keyFunc z ≠ some k := fun z hz => hpost z (by rw [e]; exact hz)
      have a1 : (pre ++ y :: post') ++ more' = (pre ++ [y]) ++ (post' ++ more') := by simp
      have a2 : pre ++ y :: (post' ++ (more' ++ more'')) = (pre ++ [y]) ++ (post' ++ (more' ++ more'')) := by simp
      rw [a1, a2, view_others _ g1, view_others _ g2]

private theorem log_cached {m : Nat} {c : Log} (h : c ∈ logAt I py38 ps i l t n f m) :
    c.cached = (at_ I py38 ps i l t n f m).inf.inf.items.get? (Meta.objectKeyToStoreKey c.request) := by
  unfold logAt at h
  generalize at_ I py38 ps i l t n f m = s at h ⊢
  cases hf : f m with
  | inf e => rw [hf] at h; cases h
  | deliver => rw [hf] at h; simp only [step] at h; split at h <;> cases h
  | add => rw [hf] at h; simp only [step] at h; split at h <;> cases h
  | ctl e => rw [hf] at h; exact calls_cached h

/-- **C98**: when what the cache holds for an object does not change any more, the reconciler has from some
moment on last been called for it with just that in the cache, whatever else happens without end.  For a handler
that every check finds due, if its last notification about the object is accepted by the predicates and not the
deletion of a `DeletedFinalStateUnknown` (for those see `C75_refuted`). -/
theorem C98_current (hf : Endless I py38 ps i l t n f) (hs : ∀ m e, f m = .inf e → Ev.selects i e)
    (hr : ∀ m e, f m = .inf e → EvAll Proper e) (N : Nat) (k : Val) (pre post : List (Note Val Meta.Obj))
    (x : Note Val Meta.Obj) (h : (at_ I py38 ps i l t n f N).inf.sent[i]? = some (pre ++ x :: post))
    (hk : noteKey Meta.keyFunc x = some k) (hpost : ∀ y ∈ post, noteKey Meta.keyFunc y ≠ some k) (ha : Accepted ps x)
    (hd : ∀ y, x = .onDelete y → Proper y)
    (hx : ∀ m, N ≤ m → (at_ I py38 ps i l t n f m).inf.inf.items.get? k =
      (at_ I py38 ps i l t n f N).inf.inf.items.get? k) :
    ∃ M, (∃ c ∈ upTo I py38 ps i l t n f M, Meta.objectKeyToStoreKey c.request = k) ∧ ∀ m, M ≤ m →
      lastSeen k (upTo I py38 ps i l t n f m) = (at_ I py38 ps i l t n f N).inf.inf.items.get? k := by
  obtain ⟨M, nn, hkk, htodo, hM⟩ := last_request hf hs hr h hk hpost ha hd hx
  obtain ⟨m, v, h1, h2⟩ := todo_comes hf _ M rfl htodo
  have h2 := ctl_log m h2
  refine ⟨m + 1, ⟨_, by rw [upTo_succ]; exact List.mem_append_right _ h2, hkk⟩, fun m' hm' => ?_⟩
  induction m', hm' using Nat.le_induction with
  | base =>
    rw [upTo_succ]
    exact lastSeen_append_some ⟨_, h2, hkk⟩ fun c hc hck => by rw [log_cached hc, hck, hM m h1]
  | succ m' hm' ih =>
    rw [upTo_succ]
    by_cases hc : ∃ c ∈ logAt I py38 ps i l t n f m', Meta.objectKeyToStoreKey c.request = k
    · exact lastSeen_append_some hc fun c hc hck => by rw [log_cached hc, hck, hM m' (by omega)]
    · rw [lastSeen_append_none fun c h1 h2 => hc ⟨c, h1, h2⟩]
      exact ih

/-- **C98**: and if the reconciler fails for it, or asks to be called again, only so often, one of its calls with
just that in the cache returns, not asking for another one.  Reconcilers must return a `Result` or raise, and the
rate limiter must name times. -/
theorem C98_succeeds (hf : Endless I py38 ps i l t n f) (hs : ∀ m e, f m = .inf e → Ev.selects i e)
    (hr : ∀ m e, f m = .inf e → EvAll Proper e) (N : Nat) (k : Val) (pre post : List (Note Val Meta.Obj))
    (x : Note Val Meta.Obj) (h : (at_ I py38 ps i l t n f N).inf.sent[i]? = some (pre ++ x :: post))
    (hk : noteKey Meta.keyFunc x = some k) (hpost : ∀ y ∈ post, noteKey Meta.keyFunc y ≠ some k) (ha : Accepted ps x)
    (hd : ∀ y, x = .onDelete y → Proper y)
    (hx : ∀ m, N ≤ m → (at_ I py38 ps i l t n f m).inf.inf.items.get? k =
      (at_ I py38 ps i l t n f N).inf.inf.items.get? k)
    (hout : ∀ m w o env nn, f m = .ctl (.finish w o env) →
      (at_ I py38 ps i l t n f m).ctl.workers w = .reconciling nn → Meta.objectKeyToStoreKey nn = k →
      (o = .raised ∨ ∃ r d, o = .result r d) ∧
        ∃ d, (I.when (at_ I py38 ps i l t n f m).ctl.rq.lim nn env).2 = .delay d)
    (R : Nat) (hR : ∀ m w o env nn, R ≤ m → f m = .ctl (.finish w o env) →
      (at_ I py38 ps i l t n f m).ctl.workers w = .reconciling nn → Meta.objectKeyToStoreKey nn = k →
      o = .result false 0) :
    ∃ m w nn m' env, Meta.objectKeyToStoreKey nn = k ∧
      ⟨w, nn, (at_ I py38 ps i l t n f N).inf.inf.items.get? k⟩ ∈ logAt I py38 ps i l t n f m ∧ m < m' ∧
      (∀ j, m < j → j ≤ m' → (at_ I py38 ps i l t n f j).ctl.workers w = .reconciling nn) ∧
      f m' = .ctl (.finish w (.result false 0) env) := by
  obtain ⟨M, nn, hkk, htodo, hM⟩ := last_request hf hs hr h hk hpost ha hd hx
  by_contra hno
  -- otherwise there is a call as late as one likes
  have late : ∀ d, ∃ m v, M + d ≤ m ∧ .reconcile v nn ∈ Controller.Spec.logAt I py38 l t n
      (fun m => toCtl (at_ I py38 ps i l t n f m) (f m)) m := by
    intro d
    induction d with
    | zero => exact todo_comes hf _ M rfl htodo
    | succ d ih =>
      obtain ⟨m, v, h1, h2⟩ := ih
      obtain ⟨m', o, env, g1, g2, g3⟩ := Controller.ends hf.ctl (Controller.called m h2)
      have g4 := g2 m' g1 (Nat.le_refl _)
      rw [← ctl_run] at g4
      have g5 := toCtl_finish g3
      obtain ⟨ho, del, hdel⟩ := hout m' v o env nn g5 g4 hkk
      have hne : o ≠ .result false 0 := by
        rintro rfl
        have hc := ctl_log m h2
        have hread : (at_ I py38 ps i l t n f m).read nn = (at_ I py38 ps i l t n f N).inf.inf.items.get? k := by
          simp only [State.read, hkk]
          exact hM m (by omega)
        rw [hread] at hc
        refine hno ⟨m, v, nn, m', env, hkk, hc, g1, fun j hj hle => ?_, g5⟩
        rw [ctl_run]
        exact g2 j hj hle
      obtain ⟨m'', v', e1, e2⟩ := Controller.C95_again hf.ctl m' v nn o env g3 (g2 m' g1 (Nat.le_refl _)) (by
        rcases ho with rfl | ⟨r, d, rfl⟩
        · exact .inl ⟨rfl, del, by rw [← ctl_run]; exact hdel⟩
        · by_cases hd0 : d = 0
          · subst hd0
            cases r with
            | false => exact absurd rfl hne
            | true => exact .inl ⟨rfl, del, by rw [← ctl_run]; exact hdel⟩
          · exact .inr ⟨r, d, rfl, hd0⟩)
      exact ⟨m'', v', by omega, e2⟩
  obtain ⟨m, v, h1, h2⟩ := late R
  obtain ⟨m', o, env, g1, g2, g3⟩ := Controller.ends hf.ctl (Controller.called m h2)
  have g4 := g2 m' g1 (Nat.le_refl _)
  rw [← ctl_run] at g4
  have g5 := toCtl_finish g3
  obtain rfl := hR m' v o env nn (by omega) g5 g4 hkk
  have hc := ctl_log m h2
  have hread : (at_ I py38 ps i l t n f m).read nn = (at_ I py38 ps i l t n f N).inf.inf.items.get? k := by
    simp only [State.read, hkk]
    exact hM m (by omega)
  rw [hread] at hc
  refine hno ⟨m, v, nn, m', env, hkk, hc, g1, fun j hj hle => ?_, g5⟩
  rw [ctl_run]
  exact g2 j hj hle

end Run

/-! ### An example -/

private def pod (name : String) (v : Nat) : Source.Obj :=
  .real (.typed (some (some "ns".toList, some name.toList)) v)

private def a : NamespacedName := ⟨some "ns".toList, some "a".toList⟩

/-- A limiter that always says five seconds. -/
private def five : Iface Unit NamespacedName Unit := ⟨fun _ _ _ => ((), .delay 5), fun _ _ => (), fun _ _ => 0⟩

/-- The object `a` is listed.  Then, in every round, the worker gets a request and its reconciler ends, if there is
a request; there is time for what was put off; the handler goes on.  The reconciler fails in the first round. -/
private def run : Nat → Ev Unit := fun m =>
  match m with
  | 0 => .inf .register
  | 1 => .inf .start
  | 2 => .inf (.replace [pod "a" 1])
  | 3 => .inf .pop
  | 4 => .deliver
  | 5 => .add
  | m + 6 =>
    match m % 18 with
    | 0 => .ctl (.take 0)
    | 1 => .ctl (.finish 0 (if m < 18 then .raised else .result false 0) ())
    | 2 => .ctl (.queue (.putDone 0))
    | 3 => .ctl (.requeued 0)
    | 4 => .ctl (.wake 0)
    | 5 => .ctl (.queue .loop)
    | 6 => .ctl (.queue .loop)
    | 7 => .ctl (.queue (.wake .item))
    | 8 => .ctl (.queue .loop)
    | 9 => .ctl (.queue .loop)
    | 10 => .ctl (.queue (.tick 10))
    | 11 => .ctl (.queue .loop)
    | 12 => .ctl (.queue .loop)
    | 13 => .ctl (.queue .loop)
    | 14 => .ctl (.queue (.wake .heartbeat))
    | 15 => .ctl (.queue .loop)
    | 16 => .deliver
    | _ => .add

/-- The informer after the first moves. -/
private def inf₀ : SharedInformer.State Val Meta.Obj :=
  SharedInformer.exec Meta.keyFunc SharedInformer.init [.register, .start, .replace [pod "a" 1], .pop]

/-- A state of this run. -/
private def st (c : WorkQueue.State NamespacedName) (clock : ℚ) (puts chan : List (NamespacedName × ℚ))
    (heap : DelayHeap.Heap ℚ NamespacedName) (pc : DelayQueue.Pc NamespacedName) (w : Controller.Pc NamespacedName) :
    Controller.State Unit NamespacedName :=
  ⟨⟨⟨c, clock, false, puts, chan, heap, pc⟩, ()⟩, fun v => if v = 0 then w else .ended⟩

/-- The states of the first round. -/
private def one (c : ℚ) : Nat → Controller.State Unit NamespacedName
  | 0 => st ⟨[a], [], [a], false⟩ c [] [] ⟨[], [], 0, 0⟩ .top .idle
  | 1 => st ⟨[], [a], [], false⟩ c [] [] ⟨[], [], 0, 0⟩ .top (.reconciling a)
  | 2 => st ⟨[], [a], [], false⟩ c [(a, c + 5)] [] ⟨[], [], 0, 0⟩ .top (.requeuing a false)
  | 3 => st ⟨[], [a], [], false⟩ c [] [(a, c + 5)] ⟨[], [], 0, 0⟩ .top (.requeuing a false)
  | 4 => st ⟨[], [], [], false⟩ c [] [(a, c + 5)] ⟨[], [], 0, 0⟩ .top .sleeping
  | 5 => st ⟨[], [], [], false⟩ c [] [(a, c + 5)] ⟨[], [], 0, 0⟩ .top .idle
  | 6 => st ⟨[], [], [], false⟩ c [] [(a, c + 5)] ⟨[], [], 0, 0⟩ (.popping c) .idle
  | 7 => st ⟨[], [], [], false⟩ c [] [(a, c + 5)] ⟨[], [], 0, 0⟩ (.sleeping none) .idle
  | 8 => st ⟨[], [], [], false⟩ c [] [] ⟨[], [], 0, 0⟩ (.woke (some (a, c + 5))) .idle
  | 9 => st ⟨[], [], [], false⟩ c [] [] ⟨[⟨c + 5, 0, some a⟩], [(a, (c + 5, 0))], 1, 1⟩ .draining .idle
  | 10 => st ⟨[], [], [], false⟩ c [] [] ⟨[⟨c + 5, 0, some a⟩], [(a, (c + 5, 0))], 1, 1⟩ .top .idle
  | 11 => st ⟨[], [], [], false⟩ (c + 10) [] [] ⟨[⟨c + 5, 0, some a⟩], [(a, (c + 5, 0))], 1, 1⟩ .top .idle
  | 12 => st ⟨[], [], [], false⟩ (c + 10) [] [] ⟨[⟨c + 5, 0, some a⟩], [(a, (c + 5, 0))], 1, 1⟩
      (.popping (c + 10)) .idle
  | 13 => st ⟨[a], [], [a], false⟩ (c + 10) [] [] ⟨[], [], 1, 0⟩ (.popping (c + 10)) .idle
  | 14 => st ⟨[a], [], [a], false⟩ (c + 10) [] [] ⟨[], [], 1, 0⟩ (.sleeping none) .idle
  | 15 => st ⟨[a], [], [a], false⟩ (c + 10) [] [] ⟨[], [], 1, 0⟩ (.woke none) .idle
  | _ => st ⟨[a], [], [a], false⟩ (c + 10) [] [] ⟨[], [], 1, 0⟩ .top .idle

/-- The states of the other rounds; in the second one there is still a request. -/
private def more (c : ℚ) (k : Nat) : Nat → Controller.State Unit NamespacedName
  | 0 => if k = 1 then st ⟨[a], [], [a], false⟩ c [] [] ⟨[], [], 1, 0⟩ .top .idle
      else st ⟨[], [], [], false⟩ c [] [] ⟨[], [], 1, 0⟩ .top .idle
  | 1 => if k = 1 then st ⟨[], [a], [], false⟩ c [] [] ⟨[], [], 1, 0⟩ .top (.reconciling a)
      else st ⟨[], [], [], false⟩ c [] [] ⟨[], [], 1, 0⟩ .top .idle
  | 2 | 3 | 4 | 5 => st ⟨[], [], [], false⟩ c [] [] ⟨[], [], 1, 0⟩ .top .idle
  | 6 => st ⟨[], [], [], false⟩ c [] [] ⟨[], [], 1, 0⟩ (.popping c) .idle
  | 7 | 8 | 9 | 10 => st ⟨[], [], [], false⟩ c [] [] ⟨[], [], 1, 0⟩ (.sleeping none) .idle
  | 11 | 12 | 13 | 14 => st ⟨[], [], [], false⟩ (c + 10) [] [] ⟨[], [], 1, 0⟩ (.sleeping none) .idle
  | 15 => st ⟨[], [], [], false⟩ (c + 10) [] [] ⟨[], [], 1, 0⟩ (.woke none) .idle
  | _ => st ⟨[], [], [], false⟩ (c + 10) [] [] ⟨[], [], 1, 0⟩ .top .idle

private def during (c : ℚ) (k j : Nat) : State Unit :=
  ⟨inf₀, 1, [], if k = 0 then one c j else more c k j⟩

private theorem sent₀ : inf₀.sent = [[.onAdd (pod "a" 1)]] := by decide +kernel

private theorem during_step (c : ℚ) (k : Nat) (j : Nat) (hj : j < 18) :
    (step five true [] 0 (during c k j) (run (6 + 18 * k + j))).1 = during c k (j + 1) := by
  have hr : run (6 + 18 * k + j) = run (6 + 18 * min k 1 + j) := by
    rw [show 6 + 18 * k + j = (18 * k + j) + 6 by omega, show 6 + 18 * min k 1 + j = (18 * min k 1 + j) + 6 by omega]
    simp only [run, show (18 * k + j) % 18 = (18 * min k 1 + j) % 18 by omega,
      show (18 * k + j < 18) = (18 * min k 1 + j < 18) by rw [eq_iff_iff]; omega]
  rw [hr]
  have e1 : c < c + 5 := by linarith
  have e2 : ¬ (c + 10 < c + 5) := by linarith
  have e3 : ¬ (c + 5 ≤ c) := by linarith
  rcases Nat.eq_zero_or_pos k with rfl | hk
  · interval_cases j <;>
    norm_num [run, during, one, st, step, sent₀, Controller.step, Controller.foreign, Controller.State.call,
      Controller.State.setPc, Controller.afterReconcile, Controller.finally_,
      RateLimitingQueue.step, RateLimitingQueue.addRateLimited, five, DelayQueue.step, DelayQueue.loopStep,
      DelayQueue.wakeStep, DelayQueue.addAfter, DelayQueue.file, DelayHeap.insert, DelayHeap.insertEntry, PyDict.has,
      PyDict.get?, PyDict.set, PyDict.del, Heapq.heappush_nil, Heapq.heappop_one, DelayHeap.peek, DelayHeap.peekLoop,
      DelayHeap.pop, DelayHeap.popLoop, WorkQueue.add, WorkQueue.step, WorkQueue.get, WorkQueue.done, PySet.add,
      PySet.remove, e1, e2, e3] <;>
    (funext v; split <;> rfl)
  · rw [show min k 1 = 1 by omega]
    have hk0 : k ≠ 0 := by omega
    by_cases hk1 : k = 1 <;> interval_cases j <;>
    norm_num [run, during, more, hk0, hk1, st, step, sent₀, Controller.step, Controller.foreign, Controller.State.call,
      Controller.State.setPc, Controller.afterReconcile, Controller.finally_,
      RateLimitingQueue.step, RateLimitingQueue.addRateLimited, five, DelayQueue.step, DelayQueue.loopStep,
      DelayQueue.wakeStep, DelayQueue.addAfter, DelayQueue.file, DelayHeap.insert, DelayHeap.insertEntry, PyDict.has,
      PyDict.get?, PyDict.set, PyDict.del, Heapq.heappush_nil, Heapq.heappop_one, DelayHeap.peek, DelayHeap.peekLoop,
      DelayHeap.pop, DelayHeap.popLoop, WorkQueue.add, WorkQueue.step, WorkQueue.get, WorkQueue.done, PySet.add,
      PySet.remove, e1, e2, e3] <;>
    first | rfl | (funext v; split <;> rfl)

private theorem round (k : Nat) : ∀ j, j ≤ 18 →
    at_ five true [] 0 () 100 1 run (6 + 18 * k + j) = during (100 + 10 * k) k j := by
  have go : ∀ k : Nat, at_ five true [] 0 () 100 1 run (6 + 18 * k) = during (100 + 10 * k) k 0 →
      ∀ j, j ≤ 18 → at_ five true [] 0 () 100 1 run (6 + 18 * k + j) = during (100 + 10 * k) k j := by
    intro k h j
    induction j with
    | zero => intro _; exact h
    | succ j ih =>
      intro hj
      rw [← Nat.add_assoc, at_succ, ih (by omega)]
      exact during_step _ k j (by omega)
  refine go k ?_
  induction k with
  | zero =>
    simp only [at_, List.range_succ, List.range_zero, List.nil_append, List.map_cons, List.map_nil, exec, run,
      Nat.mul_zero, Nat.add_zero, List.cons_append]
    have h4 : ∀ c, (exec five true [] 0 (⟨SharedInformer.init, 0, [], c⟩ : State Unit) [.inf .register, .inf .start,
        .inf (.replace [pod "a" 1]), .inf .pop, .deliver] : State Unit) = ⟨inf₀, 1, [a], c⟩ := by
      intro c
      have : (exec five true [] 0 (⟨SharedInformer.init, 0, [], c⟩ : State Unit) [.inf .register, .inf .start,
        .inf (.replace [pod "a" 1]), .inf .pop] : State Unit) = ⟨inf₀, 0, [], c⟩ := rfl
      rw [show ([.inf .register, .inf .start, .inf (.replace [pod "a" 1]), .inf .pop, .deliver] : List (Ev Unit)) =
        [.inf .register, .inf .start, .inf (.replace [pod "a" 1]), .inf .pop] ++ [.deliver] from rfl, exec_append,
        this]
      simp only [exec, step, sent₀]
      rfl
    have := h4 (Controller.init () 100 1)
    simp only [exec] at this
    simp only [init]
    rw [this]
    norm_num [step, Controller.step, Controller.foreign, Controller.State.call, RateLimitingQueue.step, DelayQueue.step,
      WorkQueue.step, WorkQueue.add, Controller.init, DelayQueue.init, WorkQueue.init, PySet.add, during, one, st,
      DelayHeap.init]
  | succ k ih =>
    have := go k ih 18 (le_refl _)
    rw [show 6 + 18 * (k + 1) = 6 + 18 * k + 18 by omega, this]
    have hc : (100 : ℚ) + 10 * ((k + 1 : Nat) : ℚ) = 100 + 10 * k + 10 := by push_cast; ring
    rw [hc]
    by_cases hk : k = 0
    · subst hk; simp [during, one, more]
    · simp [during, more, hk]

private theorem run_later (k j : Nat) (hj : j < 18) : run (6 + 18 * (k + 1) + j) = run (24 + j) := by
  rw [show 6 + 18 * (k + 1) + j = (18 * (k + 1) + j) + 6 by omega, show 24 + j = (18 + j) + 6 by omega]
  simp only [run, show (18 * (k + 1) + j) % 18 = (18 + j) % 18 by omega, show ¬ (18 * (k + 1) + j < 18) by omega,
    show ¬ (18 + j < 18) by omega]

private theorem later (N j : Nat) (hj : j < 18) :
    N ≤ 6 + 18 * (N + 1) + j ∧ run (6 + 18 * (N + 1) + j) = run (24 + j) :=
  ⟨by omega, run_later N j hj⟩

private theorem run_workers (m : Nat) : (at_ five true [] 0 () 100 1 run m).ctl.workers 0 ≠ .ended ∧
    ∀ v, v ≠ 0 → (at_ five true [] 0 () 100 1 run m).ctl.workers v = .ended := by
  by_cases hm : 6 ≤ m
  · have := round ((m - 6) / 18) ((m - 6) % 18) (by omega)
    rw [show 6 + 18 * ((m - 6) / 18) + (m - 6) % 18 = m by omega] at this
    rw [this]
    have hj : (m - 6) % 18 < 18 := by omega
    generalize (m - 6) % 18 = j at hj
    simp only [during]
    split
    · interval_cases j <;> simp +contextual [one, st]
    · by_cases hk : (m - 6) / 18 = 1 <;> interval_cases j <;> simp +contextual [more, st, hk]
  · have hm : m < 6 := by omega
    have : (at_ five true [] 0 () 100 1 run m).ctl.workers = fun w => if w < 1 then .idle else .ended := by
      interval_cases m <;> rfl
    rw [this]
    exact ⟨by simp, fun v hv => by simp [hv]⟩

-- this is a fair run
private theorem run_fair : Endless five true [] 0 () 100 1 run := by
  refine ⟨⟨?_, ?_, ?_, ?_, ?_, ?_, ?_, ⟨0, ?_, ?_, ?_⟩, ?_, ?_⟩, ?_, ?_⟩
  · intro m e h
    cases hm : run m with
    | inf e' => simp only [hm, toCtl] at h; cases h; rfl
    | deliver => simp only [hm, toCtl] at h; cases h; rfl
    | add => simp only [hm, toCtl] at h; split at h <;> cases h <;> rfl
    | ctl e' =>
      simp only [hm, toCtl] at h
      subst h
      simp only [run] at hm
      split at hm
      all_goals first | cases hm | (split at hm <;> cases hm <;> rfl)
  · intro T
    obtain ⟨k, hk⟩ := exists_nat_ge (T - 100)
    refine ⟨6 + 18 * (k + 1) + 0, ?_⟩
    rw [← ctl_run, round (k + 1) 0 (by omega)]
    have : (0 : ℚ) ≤ k := Nat.cast_nonneg k
    have hc : (100 : ℚ) + 10 * ((k + 1 : Nat) : ℚ) = 100 + 10 * k + 10 := by push_cast; ring
    rw [hc]
    simp only [during, more, Nat.add_eq_zero_iff, one_ne_zero, and_false, if_false]
    split <;> simp only [st] <;> linarith
  · exact fun N => ⟨_, (later N 5 (by omega)).1, by simp only [(later N 5 (by omega)).2]; rfl⟩
  · exact fun N => ⟨_, (later N 14 (by omega)).1, by simp only [(later N 14 (by omega)).2]; rfl⟩
  · intro N
    refine ⟨6 + 18 * (N + 1) + 2, by omega, ?_⟩
    rw [← ctl_run, round (N + 1) 2 (by omega)]
    simp [during, more, st]
  · intro _ N
    exfalso
    rename_i h
    obtain ⟨m, h1, h2⟩ := h 24
    have := round ((m - 6) / 18) ((m - 6) % 18) (by omega)
    rw [show 6 + 18 * ((m - 6) / 18) + (m - 6) % 18 = m by omega] at this
    rw [← ctl_run, this] at h2
    have hj : (m - 6) % 18 < 18 := by omega
    generalize (m - 6) % 18 = j at hj h2
    have hk : (m - 6) / 18 ≠ 0 := by omega
    have h3 := h2.2
    simp only [during, hk, if_false] at h3
    by_cases hk : (m - 6) / 18 = 1 <;> interval_cases j <;> simp [more, st, hk] at h3
  · intro e N h
    have := h (6 + 18 * (N + 1) + 2) (by omega)
    rw [← ctl_run, round (N + 1) 2 (by omega)] at this
    simp [during, more, st] at this
  · intro m; rw [← ctl_run]; exact (run_workers m).1
  · exact fun N => ⟨_, (later N 0 (by omega)).1, by simp only [(later N 0 (by omega)).2]; rfl⟩
  · exact fun N => ⟨_, (later N 4 (by omega)).1, by simp only [(later N 4 (by omega)).2]; rfl⟩
  · intro w N hw
    have : w = 0 := by by_contra h; exact hw (by rw [← ctl_run]; exact (run_workers N).2 w h)
    subst this
    exact ⟨_, .result false 0, (), (later N 1 (by omega)).1, by simp only [(later N 1 (by omega)).2]; rfl⟩
  · intro w N hw
    have : w = 0 := by by_contra h; exact hw (by rw [← ctl_run]; exact (run_workers N).2 w h)
    subst this
    exact ⟨_, (later N 3 (by omega)).1, by simp only [(later N 3 (by omega)).2]; rfl⟩
  · exact fun N => ⟨_, (later N 16 (by omega)).1, by rw [(later N 16 (by omega)).2]; rfl⟩
  · exact fun N => ⟨_, (later N 17 (by omega)).1, by rw [(later N 17 (by omega)).2]; rfl⟩

private theorem inf_later (m : Nat) (hm : 4 ≤ m) : (at_ five true [] 0 () 100 1 run m).inf = inf₀ := by
  by_cases h6 : 6 ≤ m
  · have := round ((m - 6) / 18) ((m - 6) % 18) (by omega)
    rw [show 6 + 18 * ((m - 6) / 18) + (m - 6) % 18 = m by omega] at this
    rw [this]
    rfl
  · have : m < 6 := by omega
    interval_cases m <;> rw [at_, inf_exec] <;> rfl

-- the hypotheses of C98_called (a notification to come after four moves), C98_current and
-- C98_succeeds (the reconciler fails once, and not from move 24 on)
example : Endless five true [] 0 () 100 1 run ∧
    (∀ m e, run m = .inf e → Ev.selects 0 e ∧ EvAll Proper e) ∧
    (at_ five true [] 0 () 100 1 run 4).inf.sent[0]? = some ([] ++ .onAdd (pod "a" 1) :: []) ∧
    (at_ five true [] 0 () 100 1 run 4).delivered = 0 ∧ Named (.onAdd (pod "a" 1)) ∧ About (.onAdd (pod "a" 1)) a ∧
    Accepted [] (.onAdd (pod "a" 1)) ∧ noteKey Meta.keyFunc (.onAdd (pod "a" 1)) = some (some "ns/a".toList) ∧
    (∀ m, 4 ≤ m → (at_ five true [] 0 () 100 1 run m).inf.inf.items.get? (some "ns/a".toList) = some (pod "a" 1)) ∧
    (∀ m w o env, run m = .ctl (.finish w o env) → (o = .raised ∨ ∃ r d, o = .result r d) ∧
      ∀ nn, (five.when (at_ five true [] 0 () 100 1 run m).ctl.rq.lim nn env).2 = .delay 5) ∧
    (∀ m w o env, 24 ≤ m → run m = .ctl (.finish w o env) → o = .result false 0) ∧
    run 7 = .ctl (.finish 0 .raised ()) ∧ (at_ five true [] 0 () 100 1 run 7).ctl.workers 0 = .reconciling a := by
  have hnames : Names (pod "a" 1) a := .typed _ _ _
  refine ⟨run_fair, ?_, ?_, rfl, ?_, ⟨_, by simp [objects], hnames⟩, ?_, by decide +kernel, ?_, ?_, ?_, rfl, ?_⟩
  · intro m e h
    simp only [run] at h
    split at h
    all_goals first
      | (cases h; done)
      | (cases h; simp [SharedInformer.Spec.Ev.selects, EvAll, pod, Proper])
      | (split at h <;> cases h)
  · rw [inf_later 4 (le_refl _), sent₀]
    rfl
  · intro y hy
    simp only [objects, List.mem_singleton] at hy
    subst hy
    exact ⟨a, hnames⟩
  · intro p hp
    cases hp
  · intro m hm
    rw [inf_later m hm]
    decide +kernel
  · intro m w o env h
    refine ⟨?_, fun _ => rfl⟩
    simp only [run] at h
    split at h
    all_goals first
      | cases h
      | (split at h <;> cases h; split <;> simp)
  · intro m w o env hm h
    simp only [run] at h
    split at h
    all_goals first
      | cases h
      | (rename_i m'
         split at h <;> cases h
         rw [if_neg (by omega)])
  · have := round 0 1 (by omega)
    simp only [Nat.mul_zero, Nat.add_zero] at this
    rw [this]
    rfl

end Aiok8s.System
