import Verif.Proof.Whole
import Verif.Spec.WholeIdle
import Verif.Props.SystemIdle
import Mathlib.Tactic.IntervalCases
/-!
# C115: when time passes the reconciler has seen what the API server has sent
-/
namespace Aiok8s.Whole
open Aiok8s Aiok8s.RateLimiters Aiok8s.Whole.Spec Aiok8s.Source.Spec
open Aiok8s.Reflector (Access)
open Aiok8s.Meta (Val NamespacedName)
open Aiok8s.Informer (Note)
open Aiok8s.Follow.Spec (held Clean)
open Aiok8s.System.Spec (lastSeen Called Free InHand)
variable {σ ε G : Type} [DecidableEq G]

private theorem handlerOk (s : State σ) (a : Act ε) : Follow.Spec.HandlerOk (toFollow s a) := by
  cases a with
  | refl a =>
    simp only [toFollow]
    split
    · rename_i h
      cases a <;> first | trivial | (simp [other] at h)
    · trivial
  | check due => simp only [toFollow]; split <;> trivial
  | pop => simp only [toFollow]; split <;> first | exact fun _ => rfl | trivial
  | _ => trivial

private theorem lists_of (s : State σ) (a : Act ε) (h : Follow.Spec.Lists (toFollow s a)) : Lists a := by
  cases a with
  | refl a =>
    simp only [toFollow] at h
    split at h
    · cases a with
      | tasks b => cases b <;> first | trivial | exact absurd h id
      | _ => exact absurd h id
    · exact absurd h id
  | check due =>
    simp only [toFollow] at h
    split at h <;> exact absurd h id
  | pop =>
    simp only [toFollow] at h
    split at h <;> exact absurd h id
  | _ => exact absurd h id

section
variable (A : Access Meta.Obj G) (ver : Nat → String) (hinj : Function.Injective ver) (p : ℚ)
  (I : Iface σ NamespacedName ε) (py38 : Bool) (ps : List Source.Pred) (i : Nat) (l : σ) (t : ℚ) (n : Nat)
  {f : Nat → Act ε} {L : Nat}

local notation "W" => at_ A ver p I py38 ps i l t n f

private theorem started_mono {a b : Nat} (hab : a ≤ b) (h : (W a).sys.inf.started = true) :
    (W b).sys.inf.started = true := by
  induction b, hab using Nat.le_induction with
  | base => exact h
  | succ b _ ih =>
    have e : (W (b + 1)).sys = (System.step I py38 ps i (W b).sys (toSystem A ver p (W b) (f b))).1 := rfl
    rw [e, System.inf_step]
    cases toSystem A ver p (W b) (f b) with
    | inf e => exact (System.started_step Meta.keyFunc _ e).2 (Or.inl ih)
    | _ => exact ih

include hinj

/-- After a list that came at a clean moment, the cache will be what the server had. -/
private theorem will_at (hserve : ∀ m c, f m = .change c → Follow.Spec.Serves A (.change c)) {ok : Bool}
    (hL : f L = .refl (.tasks (.replaced ok)))
    (hposs : (Follow.step A Meta.keyFunc ver p (view (W L)) (toFollow (W L) (f L))).isSome)
    (hclean : Clean Meta.keyFunc (view (W L))) (d : Nat) (hno : ∀ j, L < j → j < L + 1 + d → ¬ Lists (f j)) :
    ∃ v, Follow.Good A Meta.keyFunc ver (view (W (L + 1 + d))) v ∧
      Follow.Will Meta.keyFunc ver (view (W (L + 1 + d))) v := by
  have hs : ∀ m, Follow.Spec.Serves A (toFollow (W m) (f m)) := by
    intro m
    cases hf : toFollow (W m) (f m) with
    | change c => exact hserve m c (toFollow_change hf)
    | _ => trivial
  have hfol := follow_at (A := A) (ver := ver) (p := p) (I := I) (py38 := py38) (ps := ps) (i := i) (l := l)
    (t := t) (n := n) (f := f) hinj hs
  have hgood := fun m => Follow.good_at (A := A) (key := Meta.keyFunc) (ver := ver) (p := p)
    (f := fun m => toFollow (W m) (f m)) hinj hs m
  induction d with
  | zero =>
    obtain ⟨s', hs'⟩ := Option.isSome_iff_exists.1 hposs
    obtain ⟨⟨m0, g0⟩, hi, -⟩ := hgood L
    rw [← hfol] at g0 hi
    have hto : toFollow (W L) (f L) = .tasks (.replaced ok) := by
      rw [hL] at hs' ⊢
      simp only [toFollow] at hs' ⊢
      split at hs'
      · rename_i h; rw [if_pos h]
      · rw [never_none] at hs'; cases hs'
    have hnext : view (W (L + 1)) = s' := by
      rw [hfol]
      apply Follow.at_some
      rw [← hfol]
      exact hs'
    rw [hto] at hs'
    obtain ⟨m1, g1, e1, p1⟩ := Follow.good_step hinj g0 hs' trivial
    have hh : s'.hist = (view (W L)).hist := by
      rcases hist_step hs' with h | ⟨c, h, -⟩
      · exact h
      · cases h
    refine ⟨m1, ?_, ?_⟩
    · rw [Nat.add_zero, hnext]; exact g1
    · rw [Nat.add_zero, hnext]
      exact Follow.will_list e1 p1 (hh ▸ g1.le) hi hclean
  | succ d ih =>
    obtain ⟨v, g, w⟩ := ih fun j h1 h2 => hno j h1 (by omega)
    have hno' := hno (L + 1 + d) (by omega) (by omega)
    rw [show L + 1 + (d + 1) = (L + 1 + d) + 1 by omega]
    generalize L + 1 + d = m at *
    rcases Follow.at_cases (A := A) (key := Meta.keyFunc) (ver := ver) (p := p)
      (f := fun m => toFollow (W m) (f m)) m with h | h
    · rw [hfol (m + 1), h, ← hfol m]
      exact ⟨v, g, w⟩
    · rw [← hfol m, ← hfol (m + 1)] at h
      obtain ⟨m1, g1, e1, p1⟩ := Follow.good_step hinj g h (hs m)
      exact ⟨m1, g1, Follow.will_effect e1 w g.le p1 (fun hl => hno' (lists_of _ _ hl)) (handlerOk _ _)⟩

/-- **C115**: on an idle event loop, whenever time passes while some worker waits for an item: the cache is exactly
what the API server had at some version `v`, the one the reflector took note of; if a watch is open, `v` is all that
the server has sent.  For every object that the server had then and that is not in a worker's hands, the reconciler
was last called with that very object in the cache; for an object of which the handler was told and that the server
did not have any more, when the cache did not hold it.  The last list must have come at a clean moment (C100), the
handler be due at every check, and its predicates accept everything.  Missing: other lists, and deletions found out
by a list. -/
theorem C115_seen_partial (hidle : IdleWhole A ver p I py38 ps i l t n f)
    (hserve : ∀ m c, f m = .change c → Follow.Spec.Serves A (.change c) ∧ Proper (.real c.obj))
    (hdue : ∀ m due, f m = .check due → due i = true) {ok : Bool} (hL : f L = .refl (.tasks (.replaced ok)))
    (hposs : (Follow.step A Meta.keyFunc ver p (view (W L)) (toFollow (W L) (f L))).isSome)
    (hclean : Clean Meta.keyFunc (view (W L))) {m : Nat} (hm : L < m) (hno : ∀ j, L < j → j < m → ¬ Lists (f j))
    {d : ℚ} (hd : 0 < d) (htick : f m = .sys (.ctl (.queue (.tick d)))) {ns : List (Note Val Meta.Obj)}
    (hreg : (W m).sys.inf.sent[i]? = some ns) (hacc : ∀ x ∈ ns, Accepted ps x) (hfree : Free (W m).sys) :
    ∃ v, v ≤ (W m).hist.length ∧ (W m).refl.last = ver v ∧ (Watching (W m) → v = (W m).pos) ∧
      ∀ k, (W m).sys.inf.inf.items.get? k = (held Meta.keyFunc ((W m).hist.take v) k).map .real ∧
        (¬ InHand (W m).sys k →
          (∀ o, held Meta.keyFunc ((W m).hist.take v) k = some o →
            lastSeen k (upTo A ver p I py38 ps i l t n f m) = some (.real o)) ∧
          (held Meta.keyFunc ((W m).hist.take v) k = none → (∃ x ∈ ns, noteKey Meta.keyFunc x = some k) →
            (∀ x, .onDelete x ∈ ns → noteKey Meta.keyFunc (.onDelete x) = some k → Proper x) →
            Called k (upTo A ver p I py38 ps i l t n f m) ∧
            lastSeen k (upTo A ver p I py38 ps i l t n f m) = none)) := by
  have hstill := hidle m d htick hd
  have hs : ∀ m, Follow.Spec.Serves A (toFollow (W m) (f m)) := by
    intro m
    cases hf : toFollow (W m) (f m) with
    | change c => exact (hserve m c (toFollow_change hf)).1
    | _ => trivial
  obtain ⟨v, hg, hw⟩ := will_at A ver hinj p I py38 ps i l t n (fun m c h => (hserve m c h).1) hL hposs hclean
    (m - (L + 1)) (fun j h1 h2 => hno j h1 (by omega))
  rw [show L + 1 + (m - (L + 1)) = m by omega] at hg hw
  have hst : (W m).sys.inf.started = true := by
    refine started_mono A ver p I py38 ps i l t n hm.le ?_
    by_contra hcon
    obtain ⟨s', hs'⟩ := Option.isSome_iff_exists.1 hposs
    rw [hL] at hs'
    simp only [toFollow, Bool.eq_false_iff.2 hcon, Bool.false_and, Bool.false_eq_true, if_false, never_none] at hs'
    cases hs'
  have hdr := System.quiet_drained (shared_good m) hstill.sys hst
  obtain ⟨hl, log, hi, hv⟩ := hw
  have hitems : ∀ k, (W m).sys.inf.inf.items.get? k = (held Meta.keyFunc ((W m).hist.take v) k).map .real := by
    intro k
    have := hv k
    rw [Informer.eventual_drained hi hdr k] at this
    exact this
  refine ⟨v, hg.le, hl, ?_, fun k => ⟨hitems k, fun hk => ?_⟩⟩
  · intro hwatch
    have hc := hg.ctl
    have hres := hstill.resume
    have hsto := hstill.stored
    rcases hwatch with hpc | ⟨w, hpc⟩
    · simp only [Follow.Ctl, view, hpc] at hc
      obtain ⟨-, -, hf⟩ := hc
      cases hq : (W m).refl.queue with
      | nil => rw [hq] at hf; cases hf; rfl
      | cons x rest =>
        exfalso
        simp only [Follow.step, Follow.answers, Bool.false_eq_true, if_false, Follow.move, ReflectorTasks.step, view,
          hpc, hq] at hres
        cases he : (W m).refl.errTask <;> simp [he] at hres
    · exfalso
      simp only [Follow.Ctl, view, hpc] at hc
      obtain ⟨-, -, -, ⟨c, e, -, hcur, -⟩, -⟩ := hc
      simp [Follow.step, Follow.answers, Follow.move, ReflectorTasks.step, view, hpc, hcur] at hsto
  · have hsys := sys_at (A := A) (ver := ver) (p := p) (I := I) (py38 := py38) (ps := ps) (i := i) (l := l)
      (t := t) (n := n) (f := f) m
    have hup := upTo_sys (A := A) (ver := ver) (p := p) (I := I) (py38 := py38) (ps := ps) (i := i) (l := l)
      (t := t) (n := n) (f := f) m
    have mem : ∀ e ∈ System.Spec.informerEvents ((List.range m).map fun m => toSystem A ver p (W m) (f m)),
        ∃ j, toSystem A ver p (W j) (f j) = .inf e := by
      intro e h
      obtain ⟨x, h1, h2⟩ := List.mem_filterMap.1 h
      obtain ⟨j, -, rfl⟩ := List.mem_map.1 h1
      split at h2
      · rename_i e' heq
        cases h2
        exact ⟨j, heq⟩
      · cases h2
    have hsel : ∀ e ∈ System.Spec.informerEvents ((List.range m).map fun m => toSystem A ver p (W m) (f m)),
        SharedInformer.Spec.Ev.selects i e := by
      intro e h
      obtain ⟨j, hj⟩ := mem e h
      exact selects_at hdue j e hj
    have hprop : ∀ e ∈ System.Spec.informerEvents ((List.range m).map fun m => toSystem A ver p (W m) (f m)),
        EvAll Proper e := by
      intro e h
      obtain ⟨j, hj⟩ := mem e h
      exact proper_at hinj hs (fun m c h => (hserve m c h).2) j e hj
    have hq := hstill.sys
    have hit := hitems k
    rw [hup]
    simp only [System.Spec.at_] at hsys
    rw [hsys] at hreg hfree hk hq hit
    simp only [System.Spec.upTo]
    have main := System.quiet_current I py38 ps i l t n _ hsel hprop ns hreg hacc d hq hfree k hk
    constructor
    · intro o ho
      rw [ho] at hit
      rw [(main (System.told_cached I py38 ps i l t n _ hsel ns hreg k _ hit)).2, hit]
      rfl
    · intro ho hsome hpr
      rw [ho] at hit
      rcases Source.last_seen Meta.keyFunc k ns with ⟨hnone, -⟩ | ⟨pre, x, post, h1, h2, h3, -⟩
      · obtain ⟨x, hx, hxk⟩ := hsome
        exact absurd hxk (hnone x hx)
      · have hm := main ⟨pre, x, post, by rw [hreg, h1], h2, h3, by
          rintro y rfl
          exact hpr y (by rw [h1]; simp) h2⟩
        exact ⟨hm.1, by rw [hm.2, hit]; rfl⟩

end

/-! ### A concrete run -/

private def ver0 (n : Nat) : String := String.ofList (List.replicate n 'a')

private theorem ver0_inj : Function.Injective ver0 := by
  intro a b h
  have := congrArg (fun s : String => s.toList.length) h
  simpa [ver0] using this

private def A0 : Access Meta.Obj Unit where
  isExpected _ := true
  gvk _ := some ()
  isObject _ := true
  version
    | .typed _ v => some (ver0 v)
    | _ => none
  expected := none

private def pod (name : String) (v : Nat) : Meta.Obj := .typed (some (some "ns".toList, some name.toList)) v

/-- A limiter that always says five seconds. -/
private def five : Iface Unit NamespacedName Unit := ⟨fun _ _ _ => ((), .delay 5), fun _ _ => (), fun _ _ => 0⟩

/-- `a` and `b` are listed and reconciled; then `a` is modified and `b` deleted, which is handled; then `c` is made,
which the server does not send. -/
private def begin0 : List (Act Unit) :=
  [.sys (.ctl (.queue .loop)), .sys (.ctl (.queue .loop)), .register, .start, .change (.put (pod "a" 1)),
    .change (.put (pod "b" 2)), .refl (.tasks .list), .refl (.listed 2 [pod "b" 2, pod "a" 1]),
    .refl (.tasks (.replaced true)), .refl (.opened 2), .pop, .pop, .sys .deliver, .sys .add, .sys .deliver, .sys .add,
    .sys (.ctl (.take 0)), .sys (.ctl (.finish 0 (.result false 0) ())), .sys (.ctl (.take 0)),
    .sys (.ctl (.finish 0 (.result false 0) ())), .change (.put (pod "a" 3)), .refl .event, .refl (.tasks .resume),
    .change (.del (pod "b" 4)), .refl (.tasks .stored), .refl .event, .refl (.tasks .resume), .refl (.tasks .stored),
    .change (.put (pod "c" 5)), .pop, .pop, .sys .deliver, .sys .add, .sys .add, .sys .deliver, .sys .add,
    .sys (.ctl (.take 0)), .sys (.ctl (.finish 0 (.result false 0) ())), .sys (.ctl (.take 0)),
    .sys (.ctl (.finish 0 (.result false 0) ()))]

private def run0 (m : Nat) : Act Unit :=
  match begin0[m]? with
  | some a => a
  | none => if m = 40 then .sys (.ctl (.queue (.tick 1))) else .sys .deliver

private abbrev T (m : Nat) : State Unit := at_ A0 ver0 1 five true [] 0 () 100 1 run0 m

private theorem t40 : (T 40).sys.inf.inf.q.queue = [] ∧ (T 40).sys.inf.started = true ∧ (T 40).sys.todo = [] ∧
    (T 40).sys.inf.sent[0]?.bind (·[(T 40).sys.delivered]?) = none ∧ (T 40).sys.ctl.workers 0 = .idle ∧
    (T 40).refl.pc = .waiting ∧ (T 40).refl.queue = [] ∧ (T 40).pos = 4 ∧
    (T 40).hist.length = 5 := by
  decide +kernel

private theorem t_workers_any (m w : Nat) (h0 : w ≠ 0) : (T m).sys.ctl.workers w = .ended := by
  rw [show (T m).sys = _ from sys_at m]
  refine System.ended_exec five true [] 0 w _ _ ?_
  simp [System.init, Controller.init, h0]

private theorem t_workers (w : Nat) (h0 : w ≠ 0) : (T 40).sys.ctl.workers w = .ended := t_workers_any 40 w h0

private theorem pop_nothing (m : Nat) (hst : (T m).sys.inf.started = true) (hq : (T m).sys.inf.inf.q.queue = []) :
    System.step five true [] 0 (T m).sys (.inf .pop) = ((T m).sys, []) := by
  obtain ⟨log, h1, -⟩ := shared_good (A := A0) (ver := ver0) (p := 1) (I := five) (py38 := true) (ps := []) (i := 0)
    (l := ()) (t := 100) (n := 1) (f := run0) m
  rcases SharedInformer.pop_inf h1 with ⟨-, h2, -⟩ | ⟨k, h2, -⟩
  · simp only [System.step, SharedInformer.step, hst, if_true, h2]
  · rw [hq] at h2; cases h2

private theorem t_still (d : ℚ) : Still A0 ver0 1 five true [] 0 (T 40) d := by
  obtain ⟨hq, hst, htodo, hdel, hw, hpc, hqu, -⟩ := t40
  have he : (T 40).refl.errTask = .waiting := by decide +kernel
  refine ⟨?_, ?_, ?_, ?_, ?_, ?_⟩
  · simp [Follow.step, Follow.answers, Follow.move, ReflectorTasks.step, view, hpc, hqu, he]
  · simp [Follow.step, Follow.answers, view, hpc]
  · exact pop_nothing 40 hst hq
  · simp [System.step, hdel]
  · simp [System.step, htodo]
  · refine ⟨DelayQueue.quiet_of_sleeping (t := none) (by decide +kernel) (by decide +kernel) (by decide +kernel)
      (by decide +kernel) nofun, fun w => ?_⟩
    have h2 : WorkQueue.get (T 40).sys.ctl.rq.q.core = ((T 40).sys.ctl.rq.q.core, .blocked) := by decide +kernel
    by_cases hw0 : w = 0
    · subst hw0; simp [Controller.step, hw, h2]
    · simp [Controller.step, t_workers w hw0]

private theorem run0_mem (m : Nat) : run0 m ∈ begin0 ∨ (m = 40 ∧ run0 m = .sys (.ctl (.queue (.tick 1)))) ∨
    run0 m = .sys .deliver := by
  unfold run0
  cases h : begin0[m]? with
  | some a => exact Or.inl (List.mem_of_getElem? h)
  | none =>
    by_cases hm : m = 40
    · exact Or.inr (Or.inl ⟨hm, by simp [hm]⟩)
    · exact Or.inr (Or.inr (by simp [hm]))

-- the hypotheses of `C115_seen_partial`; the server has sent four of its five changes
example : IdleWhole A0 ver0 1 five true [] 0 () 100 1 run0 ∧
    (∀ m c, run0 m = .change c → Follow.Spec.Serves A0 (.change c) ∧ Proper (.real c.obj)) ∧
    (∀ m due, run0 m = .check due → due 0 = true) ∧ run0 8 = .refl (.tasks (.replaced true)) ∧
    (Follow.step A0 Meta.keyFunc ver0 1 (view (T 8)) (toFollow (T 8) (run0 8))).isSome ∧
    Clean Meta.keyFunc (view (T 8)) ∧ (∀ j, 8 < j → j < 40 → ¬ Lists (run0 j)) ∧
    run0 40 = .sys (.ctl (.queue (.tick 1))) ∧
    (∃ ns, (T 40).sys.inf.sent[0]? = some ns ∧ (∀ x ∈ ns, Accepted [] x) ∧
      (∃ x ∈ ns, noteKey Meta.keyFunc x = some (some "ns/b".toList)) ∧
      ∀ x, .onDelete x ∈ ns → Proper x) ∧
    Free (T 40).sys ∧ Watching (T 40) ∧ (∀ k, ¬ InHand (T 40).sys k) ∧ (T 40).pos = 4 ∧ (T 40).hist.length = 5 ∧
    held Meta.keyFunc ((T 40).hist.take 4) (some "ns/a".toList) = some (pod "a" 3) ∧
    held Meta.keyFunc ((T 40).hist.take 4) (some "ns/b".toList) = none ∧
    lastSeen (some "ns/a".toList) (upTo A0 ver0 1 five true [] 0 () 100 1 run0 40) = some (.real (pod "a" 3)) := by
  obtain ⟨-, -, -, -, hw, hpc, -, hpos, hlen⟩ := t40
  refine ⟨?_, ?_, ?_, rfl, by decide +kernel, ?_, ?_, rfl, ?_, ⟨0, hw⟩, Or.inl hpc, ?_, hpos, hlen, by decide +kernel,
    by decide +kernel, by decide +kernel⟩
  · intro m d h _
    rcases run0_mem m with hm | ⟨rfl, -⟩ | hm
    · rw [h] at hm; simp [begin0] at hm
    · exact t_still d
    · rw [h] at hm; simp at hm
  · intro m c h
    rcases run0_mem m with hm | ⟨-, hm⟩ | hm
    · rw [h] at hm
      simp [begin0] at hm
      rcases hm with rfl | rfl | rfl | rfl | rfl <;>
        exact ⟨by simp [Follow.Spec.Serves, Reflector.Spec.Wanted, A0], trivial⟩
    · rw [h] at hm; cases hm
    · rw [h] at hm; cases hm
  · intro m due h
    rcases run0_mem m with hm | ⟨-, hm⟩ | hm
    · rw [h] at hm; simp [begin0] at hm
    · rw [h] at hm; cases hm
    · rw [h] at hm; cases hm
  · have hi : (T 8).sys.inf.inf.q.items = [] := by decide +kernel
    intro items v _ k
    refine ⟨?_, ?_⟩
    · rintro - ⟨d, h1, -⟩
      simp [Informer.Spec.pending, view, hi, PyDict.get?] at h1
    · intro h1
      simp [Informer.Spec.pending, view, hi, PyDict.get?] at h1
  · have : ∀ j < 40, 8 < j → ¬ Lists (run0 j) := by
      intro j h1 h2
      interval_cases j <;> exact id
    exact fun j h1 h2 => this j h2 h1
  · have hns : (T 40).sys.inf.sent[0]? = some [.onAdd (.real (pod "b" 2)), .onAdd (.real (pod "a" 1)),
        .onUpdate (.real (pod "a" 1)) (.real (pod "a" 3)), .onDelete (.real (pod "b" 4))] := by decide +kernel
    refine ⟨_, hns, ?_, ⟨_, List.mem_cons_self, by decide +kernel⟩, ?_⟩
    · intro x _; simp [Accepted]
    · intro x hx
      simp at hx
      subst hx
      trivial
  · rintro k ⟨w, nn, h, -⟩
    by_cases hw0 : w = 0
    · subst hw0; rw [hw] at h; cases h
    · rw [t_workers w hw0] at h; cases h

end Aiok8s.Whole
