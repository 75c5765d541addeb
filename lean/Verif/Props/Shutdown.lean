import Verif.Proof.Shutdown
/-!
# C83: the end of `manager.start`
-/
namespace Aiok8s.Shutdown

/-- Every task below `manager.start` is told to stop, at once, when the call is cancelled while it waits
for its children, if nothing has failed so far; and nothing goes on or begins afterwards, whatever
happens. -/
theorem C83_cancel {s s1 s2 : State} {as : List Act} (hr : Reach s) (hm : s.mgr = .running)
    (hs : Sound s) (h1 : step s .cancel = some s1) (h2 : exec s1 as = some s2) : Told s2 :=
  told_exec (told_cancel (inv_reach hr) hs hm h1) h2

/-- After that the tasks make exactly the steps that are still to be made to end, in any order: a
sequence of moves cannot be longer than that. -/
theorem C83_steps {s s1 s2 : State} {as : List Act} (hr : Reach s) (hm : s.mgr = .running)
    (hs : Sound s) (h1 : step s .cancel = some s1) (h2 : exec s1 as = some s2)
    (hc : Act.cancel ∉ as) : as.length + s2.todo = s1.todo :=
  told_count (told_cancel (inv_reach hr) hs hm h1) h2 hc

/-- When no move is left then every task has ended, every queue that was made has been shut down and
`manager.start` has raised.  Also after further cancellations.

Missing from the full claim ("when `manager.start` has ended nothing it has started goes on"): it is false
if the call is cancelled while the caches sync, or ends because a child has failed, and the call does not
wait for all its children (`C83_refuted_...` below). -/
theorem C83_over_partial {s s1 s2 : State} {as : List Act} (hr : Reach s) (hm : s.mgr = .running)
    (hs : Sound s) (h1 : step s .cancel = some s1) (h2 : exec s1 as = some s2)
    (hq : ∀ a, a ≠ Act.cancel → step s2 a = none) : Over s2 := by
  have hi1 := inv_step (inv_reach hr) h1
  have hd1 : Doomed s1 := by
    simp only [step, hm, Option.some.injEq] at h1
    subst h1
    exact Or.inl rfl
  exact over_quiet (inv_exec hi1 h2) (C83_cancel hr hm hs h1 h2) (doomed_exec hd1 h2) hq

/-- No task is lost sight of: a call of `manager.start` with `n` informers and controllers of these numbers of
workers has either made no task for the informers or one each, no task for the controllers or one each,
and a controller has made no worker or all of its own, whoever is cancelled and whatever has ended; while
`cache.start` or the `start` of a controller is in its `gather` it has made them. -/
theorem C83_tasks {n : Nat} {ks : List Nat} {as : List Act} {s : State}
    (h : exec (init n ks) as = some s) :
    (s.infs = [] ∨ s.infs.length = n) ∧ (s.cache = .running → s.infs.length = n) ∧
    (s.ctls = [] ∨ s.ctls.map Ctl.conc = ks) ∧
    ∀ c ∈ s.ctls, (c.workers = [] ∨ c.workers.length = c.conc) ∧
      (c.pc = .working → c.workers.length = c.conc) := by
  have h0 : Sized n ks (init n ks) := ⟨rfl, rfl, Or.inl rfl, Or.inl rfl, by simp [init]⟩
  have h1 := sized_exec h0 h
  have hi := inv_reach ⟨n, ks, as, h⟩
  refine ⟨h1.infs, fun hc => h1.infs.resolve_left (hi.nonempty hc), h1.ctls, ?_⟩
  intro c hc
  exact ⟨h1.workers c hc, fun hp => (h1.workers c hc).resolve_left ((hi.ctls c hc).nonempty hp)⟩

/-- However a controller's `start` ends, the queue it has made has been shut down. -/
theorem C83_queue {s : State} (hr : Reach s) {c : Ctl} (hc : c ∈ s.ctls) {o : Outcome}
    (ho : c.pc = .ended o) (hq : c.queue = true) : c.shut = true :=
  ((inv_reach hr).ctls c hc).shut o ho hq

/-- A controller has a queue, which has not been shut down, all the time from its beginning until its `start`
ends, also while it is told to stop; a controller whose task has not begun has made none. -/
theorem C83_open {s : State} (hr : Reach s) {c : Ctl} (hc : c ∈ s.ctls) :
    (c.pc = .preparing ∨ c.pc = .stopping ∨ c.pc = .working ∨ c.pc = .waking →
      c.queue = true ∧ c.shut = false) ∧
    (c.pc = .pending → c.queue = false ∧ c.shut = false) := by
  obtain ⟨n, ks, as, h⟩ := hr
  have := kept_exec (by simp [init]) h c hc
  simp only [Ctl.Kept] at this
  constructor
  · rintro (h | h | h | h) <;> rw [h] at this <;> exact this
  · intro h
    rw [h] at this
    exact this

/-- `manager.start` returns only if there is no informer and no controller has a worker. -/
theorem C83_returns {s : State} (hr : Reach s) (hm : s.mgr = .ended .returned) :
    s.infs = [] ∧ ∀ c ∈ s.ctls, c.pc = .ended .returned ∧ c.workers = [] := by
  have hi := inv_reach hr
  obtain ⟨n, ks, as, h⟩ := hr
  have h0 : Inv (init n ks) :=
    ⟨fun _ => rfl, by simp [init], by simp [init], by simp [init], fun _ => rfl⟩
  have := ret_exec h0 (by rintro (h1 | h1) <;> cases h1) h (Or.inr hm)
  refine ⟨hi.empty (Or.inr (Or.inr this.1)), ?_⟩
  intro c hc
  have hp := this.2 c hc
  exact ⟨hp, (hi.ctls c hc).empty (Or.inr (Or.inr (Or.inr hp)))⟩

/-- A controller that fails, or the cache, makes `manager.start` raise. -/
theorem C83_raises {s : State} (hm : s.mgr = .running)
    (hf : s.cache = .ended .failed ∨ ∃ c ∈ s.ctls, c.pc = .ended .failed) :
    exec s [.mgrTold, .mgrWakes] = some { s with mgr := .ended .failed } := by
  have hj : s.joined = some .failed := by
    unfold State.joined
    rw [if_pos]
    rcases hf with h | ⟨c, hc, h⟩
    · exact Or.inl h
    · right
      rw [List.any_eq_true]
      exact ⟨c, hc, by simp [h]⟩
  simp [exec, step, hm, hj]

/-- The full claim is that a `manager.start` that has ended leaves nothing behind.  False: after the
call has ended, however it did, an informer that runs goes on until it raises. -/
theorem C83_refuted_informer {s s' : State} {as : List Act} {i : Nat} (hr : Reach s)
    {o : Outcome} (hm : s.mgr = .ended o) (hi : s.infs[i]? = some .running)
    (h : exec s as = some s') (ha : Act.infRaises i ∉ as) : s'.infs[i]? = some .running := by
  have hc : s.cache ≠ .pending := by
    intro h1
    have := (inv_reach hr).empty (Or.inr (Or.inl h1))
    rw [this] at hi
    cases hi
  have key : ∀ (as : List Act) (s : State), (∃ o, s.mgr = .ended o) → s.infs[i]? = some .running →
      s.cache ≠ .pending → exec s as = some s' → Act.infRaises i ∉ as →
      s'.infs[i]? = some .running := by
    intro as
    induction as with
    | nil =>
      intro s _ hi _ h _
      cases h
      exact hi
    | cons a as ih =>
      intro s hm hi hc h ha
      simp only [exec] at h
      simp only [List.mem_cons, not_or] at ha
      cases hs : step s a with
      | none =>
        rw [hs] at h
        cases h
      | some s1 =>
        rw [hs] at h
        obtain ⟨h1, h2, h3⟩ := inf_stays hm hi hc (Ne.symm ha.1) hs
        exact ih s1 h1 h2 h3 h ha.2
  exact key as s ⟨o, hm⟩ hi hc h ha

/-- And so does a worker. -/
theorem C83_refuted_worker {s s' : State} {as : List Act} {c w : Nat} {x : Ctl} (hr : Reach s)
    {o : Outcome} (hm : s.mgr = .ended o) (hx : s.ctls[c]? = some x)
    (hw : x.workers[w]? = some .running)
    (h : exec s as = some s') (ha : Act.workerRaises c w ∉ as) :
    ∃ y, s'.ctls[c]? = some y ∧ y.workers[w]? = some .running := by
  have hp : x.pc = .working ∨ x.pc = .waking ∨ x.pc = .ended .failed := by
    have hci := (inv_reach hr).ctls x (mem_of_get hx)
    have h0 : x.workers ≠ [] := List.ne_nil_of_mem (mem_of_get hw)
    cases hpc : x.pc with
    | pending => exact absurd (hci.empty (Or.inl hpc)) h0
    | preparing => exact absurd (hci.empty (Or.inr (Or.inl hpc))) h0
    | stopping => exact absurd (hci.empty (Or.inr (Or.inr (Or.inl hpc)))) h0
    | working => exact Or.inl rfl
    | waking => exact Or.inr (Or.inl rfl)
    | ended o =>
      cases o with
      | returned => exact absurd (hci.empty (Or.inr (Or.inr (Or.inr hpc)))) h0
      | failed => exact Or.inr (Or.inr rfl)
  have key : ∀ (as : List Act) (s : State) (x : Ctl), (∃ o, s.mgr = .ended o) → s.ctls[c]? = some x →
      (x.pc = .working ∨ x.pc = .waking ∨ x.pc = .ended .failed) → x.workers[w]? = some .running →
      exec s as = some s' → Act.workerRaises c w ∉ as →
      ∃ y, s'.ctls[c]? = some y ∧ y.workers[w]? = some .running := by
    intro as
    induction as with
    | nil =>
      intro s x _ hx _ hw h _
      cases h
      exact ⟨x, hx, hw⟩
    | cons a as ih =>
      intro s x hm hx hp hw h ha
      simp only [exec] at h
      simp only [List.mem_cons, not_or] at ha
      cases hs : step s a with
      | none =>
        rw [hs] at h
        cases h
      | some s1 =>
        rw [hs] at h
        obtain ⟨h1, y, h2, h3, h4⟩ := worker_stays hm hx hp hw (Ne.symm ha.1) hs
        exact ih s1 y h1 h2 h3 h4 h ha.2
  exact key as s x ⟨o, hm⟩ hx hp hw h ha

/-- Two informers and two controllers, with two workers and one, at work. -/
private def busy : List Act :=
  [.start, .cacheRuns, .synced, .begins 0, .begins 1, .ready 0, .ready 1]

/-- Cancelled while the caches sync, `manager.start` has ended and the informers run. -/
theorem C83_refuted_sync : ∃ s, exec (init 2 [1]) [.start, .cacheRuns, .cancel] = some s ∧
    s.mgr = .ended .failed ∧ s.infs = [.running, .running] := ⟨_, rfl, rfl, rfl⟩

/-- A controller that cannot be started ends `manager.start`; the informers and the workers of the other
controller run. -/
theorem C83_refuted_raise : ∃ s,
    exec (init 1 [1, 1]) [.start, .cacheRuns, .synced, .begins 0, .ready 0, .begins 1, .prepRaises 1,
      .mgrTold, .mgrWakes] = some s ∧
    s.mgr = .ended .failed ∧ s.infs = [.running] ∧
    s.ctls[0]?.map (fun c => (c.pc, c.workers)) = some (.working, [.running]) :=
  ⟨_, rfl, rfl, rfl, rfl⟩

/-- A reconciler that raises `CancelledError` (because something it awaits was cancelled) ends
`manager.start`; everything else runs, also the other worker of its own controller. -/
theorem C83_refuted_reconciler : ∃ s,
    exec (init 2 [2, 1]) (busy ++ [.workerRaises 0 1, .ctlTold 0, .ctlWakes 0, .mgrTold, .mgrWakes])
      = some s ∧
    s.mgr = .ended .failed ∧ s.infs = [.running, .running] ∧
    s.ctls.map (fun c => (c.pc, c.workers))
      = [(.ended .failed, [.running, .ended]), (.working, [.running])] :=
  ⟨_, rfl, rfl, rfl, rfl⟩

/-- Cancelled while it runs, `manager.start` may have ended before the informers have. -/
theorem C83_refuted_early : ∃ s,
    exec (init 2 [2, 1]) (busy ++ [.cancel, .workerEnds 1 0, .ctlTold 1, .ctlWakes 1, .mgrTold,
      .mgrWakes]) = some s ∧
    s.mgr = .ended .failed ∧ s.cache = .running ∧ s.infs = [.stopping, .stopping] :=
  ⟨_, rfl, rfl, rfl, rfl⟩

/-- Cancelled after an informer has raised, but before the call has noticed, `manager.start` leaves the
other informer running. -/
theorem C83_refuted_unsound : ∃ s,
    exec (init 2 []) [.start, .cacheRuns, .synced, .infRaises 0, .cacheTold, .cancel, .cacheWakes,
      .mgrTold, .mgrWakes] = some s ∧
    s.mgr = .ended .failed ∧ s.infs = [.ended, .running] :=
  ⟨_, rfl, rfl, rfl⟩

/- The hypotheses of `C83_cancel`, `C83_steps` and `C83_over_partial` are met, with one controller that has
workers and one that is being started, and one whose task has not run. -/
example : ∃ s s1 s2, exec (init 2 [2, 1, 1])
      [.start, .cacheRuns, .synced, .begins 0, .begins 1, .ready 0] = some s ∧
    s.mgr = .running ∧ Sound s ∧ step s .cancel = some s1 ∧ s1.todo = 11 ∧
    exec s1 [.workerEnds 0 1, .ctlTold 0, .mgrTold, .infEnds 1, .cacheTold, .prepEnds 1, .mgrWakes,
      .infEnds 0, .ctlWakes 0, .cacheWakes, .workerEnds 0 0] = some s2 ∧ s2.todo = 0 ∧
    s2.ctls.map (fun c => (c.queue, c.shut)) = [(true, true), (true, true), (false, false)] := by
  refine ⟨_, _, _, rfl, rfl, ⟨by decide, by decide⟩, rfl, by decide, rfl, by decide, by decide⟩

/- `C83_returns`: no informers, and a controller without workers. -/
example : ∃ s, exec (init 0 [0]) [.start, .synced, .begins 0, .ready 0, .cacheRuns, .mgrTold, .mgrWakes]
      = some s ∧ s.mgr = .ended .returned ∧ s.ctls.length = 1 := ⟨_, rfl, rfl, rfl⟩

/- `C83_queue`: a controller that could not be started. -/
example : ∃ s, exec (init 1 [1]) [.start, .cacheRuns, .synced, .begins 0, .prepRaises 0] = some s ∧
    s.ctls = [⟨.ended .failed, 1, [], true, true⟩] := ⟨_, rfl, rfl⟩

/- `C83_raises`: `C83_refuted_raise` up to `mgrTold`.  `C83_refuted_informer`, `C83_refuted_worker`: the
last states of `C83_refuted_sync`, `C83_refuted_raise` and `C83_refuted_reconciler`. -/
example : ∃ s, exec (init 1 [1]) [.start, .cacheRuns, .synced, .begins 0, .prepRaises 0] = some s ∧
    s.mgr = .running ∧ (∃ c ∈ s.ctls, c.pc = .ended .failed) :=
  ⟨_, rfl, rfl, _, List.mem_cons_self, rfl⟩
example : ∃ s s', exec (init 2 [1]) [.start, .cacheRuns, .cancel] = some s ∧
    exec s [.infRaises 0, .cacheTold, .cacheWakes] = some s' ∧
    s'.infs = [.ended, .running] := ⟨_, _, rfl, rfl, rfl⟩
example : ∃ s, exec (init 2 [2, 1])
      (busy ++ [.workerRaises 0 1, .ctlTold 0, .ctlWakes 0, .mgrTold, .mgrWakes]) = some s ∧
    ∃ x, s.ctls[0]? = some x ∧ x.workers[0]? = some .running :=
  ⟨_, rfl, _, rfl, rfl⟩

end Aiok8s.Shutdown
