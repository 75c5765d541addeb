import Verif.Proof.Builder
import Mathlib.Data.List.NodupEquivFin
import Verif.Props.Manager
/-!
# `build_controller`: C86
-/
set_option linter.unusedSimpArgs false
set_option linter.unusedSectionVars false
namespace Aiok8s.Builder
open Aiok8s
variable {G : Type} [DecidableEq G]

/-- **C86**: when `build_controller` has returned, its controller is among the manager's runnables exactly
once, it watches the kind asked for and nothing else, and the cache has an informer for that kind; whatever
other tasks do meanwhile and later. -/
theorem C86_built (es : List (Ev G)) (b : Nat) (g : G) (h : (exec init es).builds b = .done g) :
    (exec init es).m.runnables.count (2 * b) = 1 ∧ (exec init es).m.watches (2 * b) = [g] ∧
    ∃ i, (exec init es).m.im.map.get? g = some i := by
  have := (inv_exec es (inv_init (G := G))).calls b
  unfold CallInv at this
  rw [h] at this
  exact this

/-- **C86**: before `manager.start` is called, `build_controller` returns by its own steps. -/
theorem C86_returns (es : List (Ev G)) (hes : ∀ e ∈ es, isStart e = false) (b : Nat) (g : G)
    (h : (exec init es).builds b = .getting g) :
    ∃ more, (∀ e ∈ more, stepOf b e = true) ∧ (exec init (es ++ more)).builds b = .done g := by
  have hi := inv_exec es (inv_init (G := G))
  have hc := hi.calls b
  unfold CallInv at hc
  rw [h] at hc
  obtain ⟨-, -, hask⟩ := hc
  have hq := quiet_run es hes
  obtain ⟨more, h1, h2, h3, i, st, h4⟩ := asked hq.im hask
  refine ⟨more ++ [.go b], ?_, ?_⟩
  · intro e he
    rcases List.mem_append.1 he with he | he
    · exact h1 e he
    · rw [List.mem_singleton.1 he]; simp [stepOf]
  · rw [exec_append, exec_append]
    generalize hs : exec (exec init es) more = s at *
    have hb : s.builds b = .getting g := by rw [h2]; exact h
    have hl : s.m.ctlLock (2 * b) = false := by rw [h3]; exact hq.free _
    simp [exec, step, hb, h4, hl, State.setBuild]

/-- **C86**, for at most one call of `manager.start`: a controller built at any time is started at most
once. -/
theorem C86_once_partial (es : List (Ev G)) (h : es.countP isStart ≤ 1) (b : Nat) :
    ((exec init es).m.starts.map (·.1)).count (2 * b) ≤ 1 := by
  have hc := (inv_exec es (inv_init (G := G))).calls b
  have hr : (exec init es).m.runnables.count (2 * b) ≤ 1 := by
    unfold CallInv at hc
    split at hc
    · omega
    · omega
    · omega
    · omega
  refine le_trans ?_ hr
  rw [exec_trace]
  exact (Manager.C71_once_partial _ (le_trans (trace_start es init) h)).sublist.count_le _

private theorem alone (es : List (Ev G)) (h : es.countP isStart ≤ 1) (b n n' : Nat) (p p' : Manager.CPc G)
    (hn : (exec init es).m.starts[n]? = some (2 * b, p)) (hn' : (exec init es).m.starts[n']? = some (2 * b, p')) :
    n' = n := by
  have hc := C86_once_partial es h b
  refine Classical.byContradiction fun hne => ?_
  have key : ∀ i j : Nat, i < j → ((exec init es).m.starts.map (·.1))[i]? = some (2 * b) →
      ((exec init es).m.starts.map (·.1))[j]? = some (2 * b) → False := by
    intro i j hij hi hj
    obtain ⟨hi1, hi2⟩ := List.getElem?_eq_some_iff.1 hi
    obtain ⟨hj1, hj2⟩ := List.getElem?_eq_some_iff.1 hj
    have : List.Duplicate (2 * b) ((exec init es).m.starts.map (·.1)) :=
      List.duplicate_iff_exists_distinct_get.2 ⟨⟨i, hi1⟩, ⟨j, hj1⟩, hij, hi2.symm, hj2.symm⟩
    have := List.duplicate_iff_two_le_count.1 this
    omega
  have h1 : ((exec init es).m.starts.map (·.1))[n]? = some (2 * b) := by simp [hn]
  have h2 : ((exec init es).m.starts.map (·.1))[n']? = some (2 * b) := by simp [hn']
  rcases Nat.lt_or_gt_of_ne hne with h3 | h3
  · exact key _ _ h3 h2 h1
  · exact key _ _ h3 h1 h2

/-- **C86**, when `build_controller` returned before the only call of `manager.start`: once the workers of its
controller run, their queue is fed by exactly one handler, on the informer for the kind asked for, which is
running and has synced.  Missing: calls that overlap the start (`C86_refuted_race`, `C86_refuted_late`) and
overlapping starts (`C72_refuted_overlap`). -/
theorem C86_connected_partial (pre post : List (Ev G)) (hpre : ∀ e ∈ pre, isStart e = false)
    (hone : post.countP isStart ≤ 1) (b : Nat) (g : G) (h : (exec init pre).builds b = .done g) (n : Nat)
    (hn : (exec init (pre ++ post)).m.starts[n]? = some (2 * b, .working)) :
    ∃ i, Manager.fed (exec init (pre ++ post)).m n = [i] ∧
      (exec init (pre ++ post)).m.im.map.get? g = some i ∧
      i ∈ (exec init (pre ++ post)).m.im.running ∧ i ∈ (exec init (pre ++ post)).m.im.synced := by
  have hw := (C86_built pre b g h).2.1
  have honly := fun n' p' => alone (pre ++ post) (by
    have : pre.countP isStart = 0 := List.countP_eq_zero.2 fun e he => by simp [hpre e he]
    rw [List.countP_append]; omega) b n n' _ p' hn
  have hq := quiet_run pre hpre
  have hd : (exec init (pre ++ post)).builds b = .done g := by rw [exec_append]; exact done_exec post h
  have hw' := (C86_built _ b g hd).2.1
  rw [exec_append, exec_trace] at hn hw' honly ⊢
  rw [exec_trace] at hw hn hw' hq honly ⊢
  rw [show (init : State G).m = Manager.init from rfl, ← Manager.exec_append] at hn hw' honly ⊢
  obtain ⟨ws, h1, h2, h3⟩ := Manager.C72_connected_partial _ _ n (2 * b) (by
    intro d p hp
    have := hq.fresh.none
    rw [show (init : State G).m = Manager.init from rfl] at this
    rw [this] at hp; cases hp) (fun n' p' hne hp => absurd (honly n' p' hp) hne) hn
  rw [show (init : State G).m = Manager.init from rfl] at hw
  rw [hw] at h1
  rw [hw'] at h2
  have hws : ws = [g] := by
    obtain ⟨a, ha⟩ := h1
    obtain ⟨c, hc⟩ := h2
    rw [← ha] at hc
    simp only [List.cons_append, List.nil_append, List.cons.injEq, true_and, List.append_eq_nil_iff] at hc
    rw [← ha, hc.1]; rfl
  rw [hws] at h3
  obtain ⟨i, is, ⟨h4, h5, h6⟩, h7, h8⟩ := List.forall₂_cons_left_iff.1 h3
  rw [List.forall₂_nil_left_iff.1 h7] at h8
  exact ⟨i, h8, h4, h5, h6⟩

/-- **C86**, for at most one call of `manager.start`: when the informers have synced, the manager's next
look and the steps of its controller's `start` bring a built controller to its workers. -/
theorem C86_works_partial (es : List (Ev G)) (h : es.countP isStart ≤ 1) (b m : Nat) (g : G) (fs : List Nat)
    (hb : (exec init es).builds b = .done g) (hm : (exec init es).m.mgr m = .waiting fs)
    (hfs : ∀ i ∈ fs, i ∈ (exec init es).m.im.synced)
    (hs : ∀ g i, (exec init es).m.im.map.get? g = some i → i ∈ (exec init es).m.im.synced) :
    ∃ (n : Nat) (more : List (Manager.Ev G)), (∀ e ∈ more, Manager.stepOf n e = true) ∧
      (exec init (es ++ .mgr (.poll m) :: more.map .mgr)).m.starts[n]? = some (2 * b, .working) := by
  obtain ⟨hcount, hw, i, hi⟩ := C86_built es b g hb
  have hsc : (trace init es).countP Manager.isStart ≤ 1 := le_trans (trace_start es init) h
  have he : (exec init es).m = Manager.exec Manager.init (trace init es) := exec_trace es init
  have hall := Manager.C71_all_partial (trace init es) hsc m fs (by rw [← he]; exact hm) (by rw [← he]; exact hfs)
  have hsingle : (exec init es).m.starts = [] := by
    rw [he]
    rw [he] at hm
    rcases Manager.fresh_or_single (trace init es) Manager.fresh_init hsc with h' | ⟨m', h'⟩
    · exact h'.none
    · by_cases hmm : m = m'
      · subst hmm; exact (h'.before (.inr ⟨fs, hm⟩)).1
      · rw [h'.others m hmm] at hm; cases hm
  have hlock : ∀ c, (exec init es).m.ctlLock c = false := by
    rw [he] at hsingle ⊢
    exact free_exec _ (fun _ _ => rfl) hsingle
  have hall' : Manager.allSynced (exec init es).m fs = true := by
    simpa only [Manager.allSynced, List.all_eq_true, decide_eq_true_eq] using hfs
  obtain ⟨n, hn⟩ : ∃ n : Nat, (exec init es).m.runnables[n]? = some (2 * b) := by
    have : 2 * b ∈ (exec init es).m.runnables := by
      rw [← List.count_pos_iff]; omega
    exact List.mem_iff_getElem?.1 this
  have hstep : (step (exec init es) (.mgr (.poll m))).m = Manager.step (exec init es).m (.poll m) := by
    simp [step, others]
  have hst : (Manager.step (exec init es).m (.poll m)).starts[n]? = some (2 * b, .pending) := by
    simp [Manager.step, hm, hall', Manager.startAll, Manager.State.setMgr, hsingle, hn]
  have hkeep : (Manager.step (exec init es).m (.poll m)).im = (exec init es).m.im ∧
      (Manager.step (exec init es).m (.poll m)).watches = (exec init es).m.watches ∧
      (Manager.step (exec init es).m (.poll m)).ctlLock = (exec init es).m.ctlLock := by
    simp [Manager.step, hm, hall', Manager.startAll, Manager.State.setMgr]
  have hex : Manager.exec Manager.init (trace init es ++ [.poll m]) = Manager.step (exec init es).m (.poll m) := by
    rw [Manager.exec_append, ← he]; rfl
  obtain ⟨more, h1, h2, -⟩ := Manager.C72_progress (trace init es ++ [.poll m]) n (2 * b) _ (by rw [hex]; exact hst) (.inl rfl)
    (by rw [hex, hkeep.2.2]; exact hlock _)
    (by rw [hex, hkeep.1, hkeep.2.1, hw]; intro g' hg'; rw [List.mem_singleton.1 hg']; exact ⟨i, hi⟩)
    (by rw [hex, hkeep.1]; exact hs)
  refine ⟨n, more, h1, ?_⟩
  rw [Manager.exec_append, hex] at h2
  rw [exec_append]
  show (exec (step (exec init es) (.mgr (.poll m))) (more.map .mgr)).m.starts[n]? = _
  rw [(lift_exec more ?_ _).1, hstep]
  · exact h2
  · intro e hme
    have := h1 e hme
    cases e with
    | cache e => cases e <;> simp [Manager.stepOf] at this <;> rfl
    | ctl k => rfl
    | _ => simp [Manager.stepOf] at this

/-- **C86 fails** when `build_controller` is still waiting for the cache while its controller is started:
nothing ever feeds the queue of that call of `start`, although it goes on to its workers and `build_controller` returns
as if all were well. -/
theorem C86_refuted_race (es more : List (Ev G)) (hone : (es ++ more).countP isStart ≤ 1) (b n : Nat) (g : G)
    (p : Manager.CPc G) (h : (exec init es).builds b = .getting g) (hn : (exec init es).m.starts[n]? = some (2 * b, p))
    (hs : p ≠ .pending) (hp : p ≠ .entering) : Manager.fed (exec init (es ++ more)).m n = [] := by
  have hc := (inv_exec es (inv_init (G := G))).calls b
  unfold CallInv at hc
  rw [h] at hc
  have hi : Manager.CInv (fun _ => True) (fun _ => []) (exec init es).m := by
    rw [exec_trace]; exact Manager.cinv_exec _ (Manager.cinv_init _)
  have hb := blind_exec (trace (exec init es) more) (blind_of hi hn hs hp hc.2.1)
  rw [← exec_trace, ← exec_append] at hb
  obtain ⟨p', hp', -⟩ := hb.call
  have honly := fun n' q => alone (es ++ more) hone b n n' p' q hp'
  rw [exec_trace] at hb hp' honly ⊢
  have ha : Manager.AInv Manager.init n (2 * b) (Manager.exec (init : State G).m (trace init (es ++ more))) :=
    Manager.ainv_exec _ Manager.qinv_init (Manager.ainv_refl Manager.qinv_init (by
      intro d q hq; simp [Manager.init] at hq))
  rw [Manager.fed_eq_reg ha (fun n' q hne hq => absurd (honly n' q hq) hne) hp']
  exact hb.reg

/-- **C86 fails** for a call that raises: the controller it has made stays in the manager, without
watches, and is started with the others; that call of its `start` never gets a handler. -/
theorem C86_refuted_failed (es more : List (Ev G)) (b : Nat) (h : (exec init es).builds b = .idle) :
    let s := exec init (es ++ .build b none :: more)
    s.builds b = .failed ∧ s.m.runnables.count (2 * b) = 1 ∧ s.m.watches (2 * b) = [] := by
  intro s
  have hf : s.builds b = .failed := by
    show (exec init (es ++ .build b none :: more)).builds b = _
    rw [exec_append]
    have key : ∀ (as : List (Ev G)) (s : State G), s.builds b = .failed → (exec s as).builds b = .failed := by
      intro as
      induction as with
      | nil => intro s h; exact h
      | cons a as ih =>
        intro s h
        apply ih
        cases a with
        | mgr e => simp only [step]; split <;> exact h
        | build d g' =>
          simp only [step]
          split
          · rename_i hd
            have : b ≠ d := by rintro rfl; rw [h] at hd; cases hd
            cases g' <;> simp [State.setBuild, this, h]
          · exact h
        | go d =>
          simp only [step]
          split
          · rename_i g' hd
            have : b ≠ d := by rintro rfl; rw [h] at hd; cases hd
            split
            · split
              · exact h
              · simp [State.setBuild, this, h]
            · exact h
          · exact h
    refine key more _ ?_
    simp [step, h, State.setBuild]
  have hc := (inv_exec (es ++ .build b none :: more) (inv_init (G := G))).calls b
  unfold CallInv at hc
  rw [show (exec init (es ++ .build b none :: more)).builds b = .failed from hf] at hc
  exact ⟨hf, hc⟩

/-- **C86 fails** after the start: once the calls of `manager.start` are in `gather`, the controller of a
new call of `build_controller` is never started, whether or not that call returns. -/
theorem C86_refuted_late (es more : List (Ev G)) (b : Nat) (g : G)
    (h : ∀ m, (exec init es).m.mgr m = .idle ∨ (exec init es).m.mgr m = .running ∨
      (exec init es).m.mgr m = .failed)
    (hb : (exec init es).builds b = .idle) (hm : ∀ e ∈ more, isStart e = false) :
    let s := exec init (es ++ .build b (some g) :: more)
    2 * b ∈ s.m.runnables ∧ 2 * b ∉ s.m.starts.map (·.1) := by
  intro s
  have hpre : 2 * b ∉ (exec init es).m.starts.map (·.1) := by
    intro hmem
    have hr : 2 * b ∈ (exec init es).m.runnables := by
      rw [exec_trace] at hmem ⊢
      exact started_added _ (by simp [init, Manager.init]) _ hmem
    have hc := (inv_exec es (inv_init (G := G))).calls b
    unfold CallInv at hc
    rw [hb] at hc
    exact List.count_eq_zero.1 hc.1 hr
  have hs : s.m = Manager.exec Manager.init (trace init es ++ .add (2 * b) ::
      (.cache (.call (4 * b + 1) g) :: trace (step (exec init es) (.build b (some g))) more)) := by
    show (exec init (es ++ .build b (some g) :: more)).m = _
    rw [exec_append, exec_trace, trace, Manager.exec_append, exec_trace]
    rw [Manager.exec_append]
    simp only [moves, hb]
    rfl
  rw [hs]
  rw [exec_trace] at h hpre
  refine Manager.C71_refuted_late _ _ (2 * b) h hpre ?_
  intro e he
  rcases List.mem_cons.1 he with rfl | he
  · rfl
  · exact trace_no_start more _ hm e he

/-! ## Runs -/

/-- Two controllers are built for the kinds 0 and 1, and the manager is started. -/
def exBuild : List (Ev Nat) :=
  [.build 0 (some 0), .build 1 (some 1), .mgr (.cache (.look 1)), .mgr (.cache (.look 5)), .mgr (.cache (.make 5)),
   .mgr (.cache (.make 1)), .go 1, .go 0]

def exStart : List (Ev Nat) :=
  [.mgr (.start 0), .mgr (.enter 0), .mgr .cacheTask, .mgr (.cache (.sync 0)), .mgr (.cache (.sync 1)), .mgr (.poll 0),
   .mgr (.ctl 0), .mgr (.ctl 0), .mgr (.ctl 0), .mgr (.cache (.look 0)), .mgr (.cache (.make 0)), .mgr (.ctl 0), .mgr (.ctl 0),
   .mgr (.ctl 0)]

-- `C86_built`, `C86_connected_partial`, `C86_once_partial`
example : (∀ e ∈ exBuild, isStart e = false) ∧ (exec init exBuild).builds 0 = .done 0 ∧
    (exec init exBuild).builds 1 = .done 1 ∧
    (exec init (exBuild ++ exStart)).m.starts[0]? = some (2 * 0, .working) ∧
    Manager.fed (exec init (exBuild ++ exStart)).m 0 = [1] ∧
    (exBuild ++ exStart).countP isStart ≤ 1 := by
  refine ⟨by decide, by decide, by decide, by decide, by decide, by decide⟩

-- `C86_works_partial`: the informers have synced
example : (exec init (exBuild ++ exStart.take 5)).m.mgr 0 = .waiting [0, 1] ∧
    (exec init (exBuild ++ exStart.take 5)).builds 1 = .done 1 ∧
    (exec init (exBuild ++ exStart.take 5)).m.im.synced = [1, 0] ∧
    (exec init (exBuild ++ exStart.take 5)).m.im.map.values = [0, 1] := by
  refine ⟨by decide, by decide, by decide, by decide⟩

-- `C86_returns`: two calls in the middle
example : (exec init (exBuild.take 4)).builds 0 = .getting 0 ∧ (exec init (exBuild.take 4)).builds 1 = .getting 1 := by
  decide

/-- The kind 0 has been asked for before; `build_controller` for it overlaps `manager.start`. -/
def exRace : List (Ev Nat) :=
  [.mgr (.cache (.call 3 0)), .mgr (.cache (.look 3)), .mgr (.cache (.make 3)), .mgr (.start 0), .mgr (.enter 0),
   .mgr .cacheTask, .build 0 (some 0), .mgr (.cache (.look 1)), .mgr (.cache (.make 1)), .mgr (.cache (.sync 0)),
   .mgr (.poll 0), .mgr (.ctl 0), .mgr (.ctl 0)]

def exRaceRest : List (Ev Nat) :=
  [.mgr (.cache (.poll 1)), .go 0, .mgr (.ctl 0), .mgr (.ctl 0), .go 0]

-- `C86_refuted_race`: the call returns, the workers run, and nothing feeds their queue
example : (exec init exRace).builds 0 = .getting 0 ∧
    (exec init exRace).m.starts[0]? = some (2 * 0, .watching []) ∧
    (exec init (exRace ++ exRaceRest)).builds 0 = .done 0 ∧
    (exec init (exRace ++ exRaceRest)).m.starts[0]? = some (0, .working) ∧
    (exec init (exRace ++ exRaceRest)).m.watches 0 = [0] ∧ (exRace ++ exRaceRest).countP isStart ≤ 1 := by
  refine ⟨by decide, by decide, by decide, by decide, by decide, by decide⟩

-- `C86_refuted_failed`
example : (exec init exBuild).builds 2 = .idle := by decide

private theorem exMgr : ∀ m, (exec init (exBuild ++ exStart)).m.mgr m = if m = 0 then .running else .idle := by
  intro m
  by_cases h : m = 0
  · subst h; decide
  · have : (exec init (exBuild ++ exStart)).m.mgr = fun d => if d = 0 then Manager.MPc.running else
        if d = 0 then Manager.MPc.waiting [0, 1] else if d = 0 then Manager.MPc.entering else Manager.MPc.idle := rfl
    rw [this]; simp [h]

-- `C86_refuted_late`
example : (∀ m, (exec init (exBuild ++ exStart)).m.mgr m = .idle ∨ (exec init (exBuild ++ exStart)).m.mgr m = .running ∨
    (exec init (exBuild ++ exStart)).m.mgr m = .failed) ∧ (exec init (exBuild ++ exStart)).builds 2 = .idle := by
  refine ⟨fun m => ?_, by decide⟩
  rw [exMgr]
  by_cases h : m = 0 <;> simp [h]

end Aiok8s.Builder
