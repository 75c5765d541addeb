import Verif.Spec.Whole
import Verif.Props.FollowEndless
import Verif.Props.SystemEndless
/-!
# From the API server to the reconciler: runs of the whole are runs of its parts
-/
namespace Aiok8s.Whole
open Aiok8s Aiok8s.RateLimiters Aiok8s.Whole.Spec Aiok8s.Source.Spec
open Aiok8s.Reflector (Access)
open Aiok8s.Meta (Val NamespacedName)
open Aiok8s.Informer (Note)
open Aiok8s.SharedInformer.Spec (Ev.selects)
variable {σ ε G : Type} [DecidableEq G]
variable {A : Access Meta.Obj G} {ver : Nat → String} {p : ℚ} {I : Iface σ NamespacedName ε} {py38 : Bool}
  {ps : List Source.Pred} {i : Nat} {l : σ} {t : ℚ} {n : Nat} {f : Nat → Act ε}

local notation "W" => at_ A ver p I py38 ps i l t n f

/-- The moves of server, reflector, queue and indexer. -/
local notation "fF" => fun m => toFollow (at_ A ver p I py38 ps i l t n f m) (f m)

/-- The moves of shared informer, handler and controller. -/
local notation "fS" => fun m => toSystem A ver p (at_ A ver p I py38 ps i l t n f m) (f m)

/-! ### Shared informer, handler and controller -/

theorem sys_at (m : Nat) : (W m).sys = System.Spec.at_ I py38 ps i l t n fS m := by
  induction m with
  | zero => rfl
  | succ m ih =>
    simp only [System.Spec.at_, List.range_succ, List.map_append, List.map_cons, List.map_nil,
      System.exec_append] at ih ⊢
    rw [← ih]
    rfl

theorem upTo_sys (m : Nat) :
    upTo A ver p I py38 ps i l t n f m = System.Spec.upTo I py38 ps i l t n fS m := by
  induction m with
  | zero => rfl
  | succ m ih =>
    have h := sys_at (A := A) (ver := ver) (p := p) (I := I) (py38 := py38) (ps := ps) (i := i) (l := l)
      (t := t) (n := n) (f := f) m
    simp only [System.Spec.upTo, System.Spec.at_, List.range_succ, List.map_append, List.map_cons, List.map_nil,
      System.logOf_append] at ih h ⊢
    rw [← ih, ← h]
    simp only [System.logOf, List.append_nil]
    rfl

theorem shared_good (m : Nat) : SharedInformer.Good Meta.keyFunc (W m).sys.inf := by
  rw [sys_at]
  simp only [System.Spec.at_, System.inf_exec]
  exact SharedInformer.good_exec _ (SharedInformer.good_init _)

/-! ### Server, reflector, queue and indexer -/

theorem never_none (s : Follow.State Val Meta.Obj) : Follow.step A Meta.keyFunc ver p s never = none := by
  have h : ¬ (0 : ℚ) ≤ -1 := by norm_num
  simp only [never, Follow.step, Follow.answers, Follow.move, ReflectorTasks.step, if_neg h]
  rfl

theorem move_inf {s s' : Follow.State Val Meta.Obj} {a : ReflectorTasks.Act Meta.Obj}
    (h : Follow.move A p s a = some s') : s'.inf = s.inf := by
  unfold Follow.move at h
  split at h <;> cases h
  rfl

/-- The call of the queue that a move of the reflector ends. -/
def ends : Follow.Act Meta.Obj → Bool
  | .tasks (.replaced _) | .tasks .stored | .tasks (.resynced _) => true
  | _ => false

theorem refl_inf {s s' : Follow.State Val Meta.Obj} {a : Follow.Act Meta.Obj} (ho : other a = false)
    (he : ends a = false) (h : Follow.step A Meta.keyFunc ver p s a = some s') : s'.inf = s.inf := by
  cases a with
  | change c => cases ho
  | pop g => cases ho
  | listed m items =>
    simp only [Follow.step] at h
    split at h
    · exact move_inf h
    · cases h
  | opened m =>
    simp only [Follow.step] at h
    split at h
    · obtain ⟨s1, h1, rfl⟩ := Option.map_eq_some_iff.1 h
      exact move_inf (s' := s1) h1
    · cases h
  | event =>
    simp only [Follow.step] at h
    split at h
    · obtain ⟨s1, h1, rfl⟩ := Option.map_eq_some_iff.1 h
      exact move_inf (s' := s1) h1
    · cases h
  | bookmark o =>
    simp only [Follow.step] at h
    split at h
    · exact move_inf h
    · cases h
  | fault o => exact move_inf h
  | tasks a =>
    simp only [Follow.step] at h
    split at h
    · cases h
    · cases a <;> first
        | (cases he; done)
        | exact move_inf h

theorem idle_inf (s : System.State σ) : (System.step I py38 ps i s (idle : System.Ev ε)).1.inf = s.inf := rfl

/-- The indexer of the shared informer changes like that behind the reflector. -/
theorem inf_step {s : State σ} {a : Act ε} (hg : SharedInformer.Good Meta.keyFunc s.sys.inf)
    (hc : ∃ m, Follow.Good A Meta.keyFunc ver (view s) m) :
    (System.step I py38 ps i s.sys (toSystem A ver p s a)).1.inf.inf =
      ((Follow.step A Meta.keyFunc ver p (view s) (toFollow s a)).getD (view s)).inf := by
  have hcall : ∀ e : Informer.Ev Val Meta.Obj, s.sys.inf.started = true → (∀ h, e ≠ .pop h) →
      (System.step I py38 ps i s.sys (.inf (toShared e))).1.inf.inf =
        (Informer.step Meta.keyFunc s.sys.inf.inf e).1 := by
    intro e hs he
    cases e with
    | pop h => exact absurd rfl (he h)
    | _ => simp [System.step, toShared, SharedInformer.step, SharedInformer.onQueue, hs]
  have hlast : toSystem A ver p s a = (match Follow.step A Meta.keyFunc ver p (view s) (toFollow s a) with
        | some _ => seen s a
        | none => idle) →
      (∀ s', Follow.step A Meta.keyFunc ver p (view s) (toFollow s a) = some s' →
        (System.step I py38 ps i s.sys (seen s a)).1.inf.inf = s'.inf) →
      (System.step I py38 ps i s.sys (toSystem A ver p s a)).1.inf.inf =
        ((Follow.step A Meta.keyFunc ver p (view s) (toFollow s a)).getD (view s)).inf := by
    intro h1 h2
    rw [h1]
    cases h : Follow.step A Meta.keyFunc ver p (view s) (toFollow s a) with
    | none => rfl
    | some s' => exact h2 s' h
  cases a with
  | start => rw [show toFollow s .start = never from rfl, never_none]; rfl
  | register => rw [show toFollow s .register = never from rfl, never_none]; rfl
  | sys e =>
    rw [show toFollow s (.sys e) = never from rfl, never_none]
    cases e with
    | deliver =>
      show (System.step I py38 ps i s.sys .deliver).1.inf.inf = s.sys.inf.inf
      simp only [System.step]
      split <;> rfl
    | add =>
      show (System.step I py38 ps i s.sys .add).1.inf.inf = s.sys.inf.inf
      simp only [System.step]
      split <;> rfl
    | _ => rfl
  | change c =>
    refine hlast rfl fun s' h => ?_
    simp only [toFollow, Follow.step] at h
    split at h <;> cases h
    rfl
  | pop =>
    refine hlast rfl fun s' h => ?_
    simp only [toFollow] at h
    cases hst : s.sys.inf.started with
    | false =>
      simp only [hst, Bool.false_eq_true, if_false, never_none] at h
      cases h
    | true =>
      simp only [hst, if_true, Follow.step] at h
      split at h <;> cases h
      rename_i hq
      obtain ⟨log, hi, -⟩ := hg
      rcases SharedInformer.pop_inf hi with ⟨h1, -⟩ | ⟨k, -, -, -, h5, -⟩
      · exact absurd h1 hq
      · simp only [seen, System.step, SharedInformer.step, hst, if_true, h5]
        rfl
  | check due =>
    refine hlast rfl fun s' h => ?_
    simp only [toFollow] at h
    cases hst : s.sys.inf.started with
    | false =>
      simp only [hst, Bool.false_eq_true, if_false, never_none] at h
      cases h
    | true =>
      simp only [hst, if_true, Follow.step, Follow.answers] at h
      exact (move_inf h).symm
  | refl a =>
    refine hlast rfl fun s' h => ?_
    simp only [toFollow] at h
    cases hst : s.sys.inf.started with
    | false =>
      simp only [hst, Bool.false_and, Bool.false_eq_true, if_false, never_none] at h
      cases h
    | true =>
      cases ho : other a with
      | true =>
        simp only [ho, Bool.not_true, Bool.and_false, Bool.false_eq_true, if_false, never_none] at h
        cases h
      | false =>
        simp only [hst, ho, Bool.not_false, Bool.and_true, if_true] at h
        obtain ⟨m, -, -, hctl⟩ := hc
        cases he : ends a with
        | false =>
          rw [refl_inf ho he h]
          simp only [seen]
          split <;> first
            | (cases he; done)
            | rfl
            | (rename_i heq; cases heq; done)
            | (rename_i heq; cases heq; cases he; done)
        | true =>
          simp only [ends] at he
          split at he
          · rename_i ok
            simp only [Follow.step, Follow.answers, Bool.false_eq_true, if_false] at h
            split at h
            · rename_i items v e hpc hcur
              simp only [Follow.Ctl, hpc] at hctl
              rw [hctl.1] at hcur
              cases hcur
              have hcur := hctl.1
              obtain ⟨s1, h1, h2⟩ := Option.bind_eq_some_iff.1 h
              rw [move_inf h2]
              simp only [Follow.take] at h1
              split at h1
              · cases h1
                simp only [seen]
                rw [show s.cur = some _ from hcur]
                exact hcall _ hst nofun
              · cases h1
            · cases h
          · simp only [Follow.step, Follow.answers, Bool.false_eq_true, if_false] at h
            split at h
            · rename_i v e hpc hcur
              rw [move_inf h]
              simp only [seen]
              rw [show s.cur = some _ from hcur]
              refine hcall _ hst ?_
              simp only [Follow.Ctl, hpc] at hctl
              obtain ⟨-, -, -, ⟨c, e', -, hcur', hd⟩, -⟩ := hctl
              rw [hcur] at hcur'
              cases hcur'
              rintro g rfl
              cases c with
              | put o => rcases hd with hd | hd <;> cases hd
              | del o => cases hd
            · cases h
          · rename_i ok
            simp only [Follow.step, Follow.answers, Bool.false_eq_true, if_false] at h
            split at h
            · obtain ⟨s1, h1, h2⟩ := Option.bind_eq_some_iff.1 h
              rw [move_inf h2]
              simp only [Follow.take] at h1
              split at h1
              · cases h1
                exact hcall .resync hst nofun
              · cases h1
            · cases h
          · cases he

theorem follow_at (hinj : Function.Injective ver) (hs : ∀ m, Follow.Spec.Serves A (toFollow (W m) (f m)))
    (m : Nat) : view (W m) = Follow.Spec.at_ A Meta.keyFunc ver p fF m := by
  induction m with
  | zero => rfl
  | succ m ih =>
    have hg := (Follow.good_at (A := A) (key := Meta.keyFunc) (ver := ver) (p := p) (f := fF) hinj hs m).1
    rw [← ih] at hg
    have hi := inf_step (I := I) (py38 := py38) (ps := ps) (i := i) (p := p) (a := f m) (shared_good m) hg
    have e : Follow.Spec.at_ A Meta.keyFunc ver p fF (m + 1) =
      (Follow.step A Meta.keyFunc ver p (view (W m)) (toFollow (W m) (f m))).getD (view (W m)) := by
      rw [ih]; rfl
    rw [e]
    simp only [at_, step, view] at hi ⊢
    rw [hi]

/-! ### What the queue is called with -/

theorem move_hist {s s' : Follow.State Val Meta.Obj} {a : ReflectorTasks.Act Meta.Obj}
    (h : Follow.move A p s a = some s') : s'.hist = s.hist := by
  unfold Follow.move at h
  split at h <;> cases h
  rfl

theorem take_hist {s s' : Follow.State Val Meta.Obj} {e : Informer.Ev Val Meta.Obj} {ok : Bool}
    (h : Follow.take Meta.keyFunc s e ok = some s') : s'.hist = s.hist := by
  unfold Follow.take at h
  simp only at h
  split at h <;> cases h
  rfl

theorem hist_step {s s' : Follow.State Val Meta.Obj} {a : Follow.Act Meta.Obj}
    (h : Follow.step A Meta.keyFunc ver p s a = some s') :
    s'.hist = s.hist ∨ ∃ c, a = .change c ∧ s'.hist = s.hist ++ [c] := by
  cases a with
  | change c =>
    simp only [Follow.step] at h
    split at h <;> cases h
    exact Or.inr ⟨c, rfl, rfl⟩
  | pop g =>
    simp only [Follow.step] at h
    split at h <;> cases h
    exact Or.inl rfl
  | listed m items =>
    simp only [Follow.step] at h
    split at h
    · exact Or.inl (move_hist h)
    · cases h
  | opened m =>
    simp only [Follow.step] at h
    split at h
    · obtain ⟨s1, h1, rfl⟩ := Option.map_eq_some_iff.1 h
      exact Or.inl (move_hist (s' := s1) h1)
    · cases h
  | event =>
    simp only [Follow.step] at h
    split at h
    · obtain ⟨s1, h1, rfl⟩ := Option.map_eq_some_iff.1 h
      exact Or.inl (move_hist (s' := s1) h1)
    · cases h
  | bookmark o =>
    simp only [Follow.step] at h
    split at h
    · exact Or.inl (move_hist h)
    · cases h
  | fault o => exact Or.inl (move_hist h)
  | tasks a =>
    simp only [Follow.step] at h
    split at h
    · cases h
    split at h
    · split at h
      · obtain ⟨s1, h1, h2⟩ := Option.bind_eq_some_iff.1 h
        exact Or.inl ((move_hist h2).trans (take_hist h1))
      · cases h
    · split at h
      · have := move_hist h
        exact Or.inl this
      · cases h
    · split at h
      · obtain ⟨s1, h1, h2⟩ := Option.bind_eq_some_iff.1 h
        exact Or.inl ((move_hist h2).trans (take_hist h1))
      · cases h
    · exact Or.inl (move_hist h)

theorem toFollow_change {s : State σ} {a : Act ε} {c : Follow.Change Meta.Obj} (h : toFollow s a = .change c) :
    a = .change c := by
  cases a with
  | change d => cases h; rfl
  | refl a =>
    simp only [toFollow] at h
    split at h
    · rename_i hb
      subst h
      simp [other] at hb
    · cases h
  | check due =>
    simp only [toFollow] at h
    split at h <;> cases h
  | pop =>
    simp only [toFollow] at h
    split at h <;> cases h
  | _ => cases h

/-- The server has only Kubernetes objects. -/
theorem hist_proper (ho : ∀ m c, f m = .change c → Proper (.real c.obj)) (m : Nat) :
    ∀ c ∈ (W m).hist, Proper (.real c.obj) := by
  induction m with
  | zero => intro c hc; cases hc
  | succ m ih =>
    have e : (W (m + 1)).hist =
      ((Follow.step A Meta.keyFunc ver p (view (W m)) (toFollow (W m) (f m))).getD (view (W m))).hist := rfl
    rw [e]
    cases h : Follow.step A Meta.keyFunc ver p (view (W m)) (toFollow (W m) (f m)) with
    | none => exact ih
    | some s' =>
      rcases hist_step h with h1 | ⟨c, h1, h2⟩
      · rw [Option.getD_some, h1]; exact ih
      · rw [Option.getD_some, h2]
        intro d hd
        rcases List.mem_append.1 hd with hd | hd
        · exact ih d hd
        · rw [List.mem_singleton.1 hd]
          exact ho m c (toFollow_change h1)

theorem held_mem {h : List (Follow.Change Meta.Obj)} {k : Val} {o : Meta.Obj}
    (ho : Follow.Spec.held Meta.keyFunc h k = some o) : ∃ c ∈ h, c.obj = o := by
  induction h using List.reverseRecOn with
  | nil => cases ho
  | append_singleton h c ih =>
    rw [Follow.held_snoc] at ho
    split at ho
    · cases c with
      | put o' => cases ho; exact ⟨.put o, by simp, rfl⟩
      | del o' => cases ho
    · obtain ⟨d, hd, e⟩ := ih ho
      exact ⟨d, by simp [hd], e⟩

theorem toSystem_cases {s : State σ} {a : Act ε} {e : SharedInformer.Ev Val Meta.Obj}
    (h : toSystem A ver p s a = .inf e) : e = .start ∨ e = .register ∨ e = .resync ∨ e = .pop ∨
      (∃ due, a = .check due ∧ e = .check due) ∨
      ∃ e', s.cur = some e' ∧ e = toShared e' ∧
        ((∃ items v, s.refl.pc = .replacing items v) ∨ ∃ v, s.refl.pc = .storing v) := by
  cases a with
  | start => cases h; exact Or.inl rfl
  | register => cases h; exact Or.inr (Or.inl rfl)
  | sys e' => cases e' <;> cases h
  | change c =>
    simp only [toSystem, seen] at h
    split at h <;> cases h
  | check due =>
    simp only [toSystem, seen] at h
    split at h <;> cases h
    exact Or.inr (Or.inr (Or.inr (Or.inr (Or.inl ⟨due, rfl, rfl⟩))))
  | pop =>
    simp only [toSystem, seen] at h
    split at h <;> cases h
    exact Or.inr (Or.inr (Or.inr (Or.inl rfl)))
  | refl a =>
    simp only [toSystem] at h
    split at h
    · rename_i s' hs
      simp only [toFollow] at hs
      split at hs
      · simp only [seen] at h
        split at h
        · rename_i ok heq
          cases heq
          split at h
          · rename_i e' hcur
            cases h
            simp only [Follow.step, Follow.answers, Bool.false_eq_true, if_false] at hs
            split at hs
            · rename_i items v e hpc _
              exact Or.inr (Or.inr (Or.inr (Or.inr (Or.inr ⟨e', hcur, rfl, Or.inl ⟨items, v, hpc⟩⟩))))
            · cases hs
          · cases h
        · rename_i heq
          cases heq
          split at h
          · rename_i e' hcur
            cases h
            simp only [Follow.step, Follow.answers, Bool.false_eq_true, if_false] at hs
            split at hs
            · rename_i v e hpc _
              exact Or.inr (Or.inr (Or.inr (Or.inr (Or.inr ⟨e', hcur, rfl, Or.inr ⟨v, hpc⟩⟩))))
            · cases hs
          · cases h
        · cases h
          exact Or.inr (Or.inr (Or.inl rfl))
        · rename_i heq; cases heq
        · rename_i heq; cases heq
        · cases h
      · rw [never_none] at hs; cases hs
    · cases h

theorem selects_at (hd : ∀ m due, f m = .check due → due i = true) (m : Nat)
    (e : SharedInformer.Ev Val Meta.Obj) (h : toSystem A ver p (W m) (f m) = .inf e) : Ev.selects i e := by
  rcases toSystem_cases h with rfl | rfl | rfl | rfl | ⟨due, h1, rfl⟩ | ⟨e', -, rfl, -⟩
  · trivial
  · trivial
  · trivial
  · trivial
  · exact hd m due h1
  · cases e' <;> trivial

theorem proper_at (hinj : Function.Injective ver) (hs : ∀ m, Follow.Spec.Serves A (toFollow (W m) (f m)))
    (ho : ∀ m c, f m = .change c → Proper (.real c.obj)) (m : Nat)
    (e : SharedInformer.Ev Val Meta.Obj) (h : toSystem A ver p (W m) (f m) = .inf e) : EvAll Proper e := by
  have hp := hist_proper (A := A) (ver := ver) (p := p) (I := I) (py38 := py38) (ps := ps) (i := i) (l := l)
    (t := t) (n := n) ho m
  rcases toSystem_cases h with rfl | rfl | rfl | rfl | ⟨due, -, rfl⟩ | ⟨e', hcur, rfl, hpc⟩
  · trivial
  · trivial
  · trivial
  · trivial
  · trivial
  · obtain ⟨v, -, -, hctl⟩ := (Follow.good_at (A := A) (key := Meta.keyFunc) (ver := ver) (p := p)
      (f := fF) hinj hs m).1
    rw [← follow_at hinj hs m] at hctl
    rcases hpc with ⟨items, w, hpc⟩ | ⟨w, hpc⟩
    · simp only [Follow.Ctl, view, hpc] at hctl
      obtain ⟨h1, q, -, -, h2⟩ := hctl
      rw [hcur] at h1
      cases h1
      intro x hx
      obtain ⟨o, ho', rfl⟩ := List.mem_map.1 hx
      obtain ⟨g1, g2, -⟩ := Follow.content_spec Meta.keyFunc ((W m).hist.take q)
      obtain ⟨k, hk⟩ := (PyDict.mem_values g1).1 (h2.mem_iff.1 ho')
      rw [g2] at hk
      obtain ⟨c, hc, rfl⟩ := held_mem hk
      exact hp c (List.mem_of_mem_take hc)
    · simp only [Follow.Ctl, view, hpc] at hctl
      obtain ⟨-, -, -, ⟨c, e'', g1, g2, g3⟩, -⟩ := hctl
      rw [hcur] at g2
      cases g2
      have hc := hp c (List.mem_of_getElem? g1)
      cases c with
      | put o => rcases g3 with rfl | rfl <;> exact hc
      | del o => cases g3; exact hc

end Aiok8s.Whole
