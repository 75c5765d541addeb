import Verif.Proof.ManagerOnce
/-!
# The manager and the start of controllers: C71, C72
-/
set_option linter.unusedSimpArgs false
set_option linter.unusedSectionVars false
namespace Aiok8s.Manager
open Aiok8s
variable {G : Type} [DecidableEq G]

/-! ## C71 -/

/-- **C71**, for at most one call of `manager.start`: the runnables whose `start` has been called are, in
this order, the first ones added, each as often as it was added.  Missing: runnables added after the start
(`C71_refuted_late`) and further calls (`C71_refuted_again`). -/
theorem C71_once_partial (es : List (Ev G)) (h : es.countP isStart ≤ 1) :
    ((exec init es).starts.map (·.1)) <+: (exec init es).runnables := by
  rcases fresh_or_single es fresh_init h with h | ⟨m, h⟩
  · rw [h.none]; exact List.nil_prefix
  · exact h.pre

/-- **C71**, for at most one call: when the informers it waits for have synced, all runnables added so far
are started. -/
theorem C71_all_partial (es : List (Ev G)) (h : es.countP isStart ≤ 1) (m : Nat) (fs : List Nat)
    (hm : (exec init es).mgr m = .waiting fs) (hs : ∀ i ∈ fs, i ∈ (exec init es).im.synced) :
    let s := exec init (es ++ [.poll m])
    s.starts.map (·.1) = (exec init es).runnables ∧ s.mgr m = .running ∧ s.lock = false := by
  intro s
  have hsing : Single m (exec init es) := by
    rcases fresh_or_single es fresh_init h with h | ⟨m', h⟩
    · rw [h.idle] at hm; cases hm
    · by_cases he : m = m'
      · rw [he]; exact h
      · rw [h.others m he] at hm; cases hm
  obtain ⟨h1, -⟩ := hsing.before (.inr ⟨fs, hm⟩)
  have hs' : allSynced (exec init es) fs = true := by
    simpa only [allSynced, List.all_eq_true, decide_eq_true_eq] using hs
  have he : s = step (exec init es) (.poll m) := by
    show exec init (es ++ [.poll m]) = _
    rw [exec_append]; rfl
  rw [he]
  simp only [step, hm, hs', if_true, startAll, State.setMgr, h1, List.nil_append, List.map_map, and_true]
  have : ((fun x : Nat × CPc G => x.1) ∘ fun c => (c, CPc.pending)) = id := rfl
  rw [this, List.map_id]

/-- **C71**: the first call of `manager.start` to get the mutex waits for exactly the informers requested so
far, and runs these. -/
theorem C71_waits (es : List (Ev G)) (m : Nat) (hm : (exec init es).mgr m = .entering)
    (h0 : ∀ d, (exec init es).mgr d = .idle ∨ (exec init es).mgr d = .entering) :
    (exec init (es ++ [.enter m])).mgr m = .waiting (exec init es).im.map.values ∧
    (exec init (es ++ [.enter m, .cacheTask])).im.running = (exec init es).im.map.values := by
  have ho := once_exec es (once_init (G := G))
  have hl : (exec init es).lock = false := by
    cases hl : (exec init es).lock with
    | false => rfl
    | true =>
      obtain ⟨d, fs, hd⟩ := ho.held hl
      rcases h0 d with h | h <;> (rw [h] at hd; cases hd)
  have hs : (exec init es).started = false := by
    cases hs : (exec init es).started with
    | false => rfl
    | true =>
      obtain ⟨d, hd⟩ := ho.done hs
      rcases h0 d with h | h <;> (rw [h] at hd; cases hd)
  have hr := (ho.none hl hs).2
  rw [exec_append, exec_append]
  simp [step, hm, hl, hs, State.setMgr, exec, InformersMap.step, hr]

/-- **C71**: no runnable is started before every informer that had been requested from the cache before
`manager.start` was called is running and has synced; however often `start` is called. -/
theorem C71_synced_first (pre post : List (Ev G)) (hpre : ∀ e ∈ pre, isStart e = false) (g : G) (i : Nat)
    (hi : (exec init pre).im.map.get? g = some i) (hs : (exec init (pre ++ post)).starts ≠ []) :
    i ∈ (exec init (pre ++ post)).im.running ∧ i ∈ (exec init (pre ++ post)).im.synced := by
  have hf := fresh_exec pre (fresh_init (G := G)) hpre
  have hw : Waits i (exec init pre) := by
    refine ⟨⟨g, hi⟩, im_inv_exec pre InformersMap.inv_init, ?_, ?_, ?_⟩
    · intro m fs hm; rw [hf.idle] at hm; cases hm
    · intro h; rw [hf.not] at h; cases h
    · intro h; exact absurd hf.none h
  rw [exec_append] at hs ⊢
  have h := waits_exec post hw
  exact ⟨h.im.run i (h.starts hs), h.starts hs⟩

private theorem quiet_step {s : State G} (h : ∀ m, s.mgr m = .idle ∨ s.mgr m = .running ∨ s.mgr m = .failed)
    (e : Ev G) (he : isStart e = false) :
    (∀ m, (step s e).mgr m = .idle ∨ (step s e).mgr m = .running ∨ (step s e).mgr m = .failed) ∧
    (step s e).starts.map (·.1) = s.starts.map (·.1) := by
  cases e with
  | cache e => simp only [step]; split <;> exact ⟨h, rfl⟩
  | add c => exact ⟨h, rfl⟩
  | watch c g => simp only [step]; split <;> exact ⟨h, rfl⟩
  | start m => simp [isStart] at he
  | cacheTask => simp only [step]; split <;> exact ⟨h, rfl⟩
  | ctl n => exact ⟨by simpa only [step, (ctl_mgr s n).1] using h, ctl_fst s n⟩
  | enter m =>
    simp only [step]
    split
    · rename_i hm; rcases h m with h' | h' | h' <;> (rw [h'] at hm; cases hm)
    · exact ⟨h, rfl⟩
  | poll m =>
    simp only [step]
    split
    · rename_i hm; rcases h m with h' | h' | h' <;> (rw [h'] at hm; cases hm)
    · exact ⟨h, rfl⟩

private theorem quiet_exec (es : List (Ev G)) : ∀ {s : State G},
    (∀ m, s.mgr m = .idle ∨ s.mgr m = .running ∨ s.mgr m = .failed) → (∀ e ∈ es, isStart e = false) →
    (exec s es).starts.map (·.1) = s.starts.map (·.1) := by
  induction es with
  | nil => intro s _ _; rfl
  | cons e es ih =>
    intro s h he
    have := quiet_step h e (he e (by simp))
    exact (ih this.1 (fun e' h' => he e' (by simp [h']))).trans this.2

/-- **C71 fails** for runnables added later: once the calls of `manager.start` are in `gather`, nothing
ever starts a runnable, whatever is added. -/
theorem C71_refuted_late (es more : List (Ev G)) (c : Nat)
    (h : ∀ m, (exec init es).mgr m = .idle ∨ (exec init es).mgr m = .running ∨ (exec init es).mgr m = .failed)
    (hc : c ∉ (exec init es).starts.map (·.1)) (hm : ∀ e ∈ more, isStart e = false) :
    c ∈ (exec init (es ++ .add c :: more)).runnables ∧
    c ∉ (exec init (es ++ .add c :: more)).starts.map (·.1) := by
  have happ : ∀ (as : List (Ev G)) (s : State G), c ∈ s.runnables → c ∈ (exec s as).runnables := by
    intro as
    induction as with
    | nil => intro s h; exact h
    | cons a as ih =>
      intro s h
      apply ih
      cases a with
      | cache e => simp only [step]; split <;> exact h
      | add d => exact List.mem_append_left _ h
      | watch c g => simp only [step]; split <;> exact h
      | start m => simp only [step]; split <;> exact h
      | cacheTask => simp only [step]; split <;> exact h
      | ctl n => simpa only [step, (ctl_mgr s n).2.2.1] using h
      | enter m =>
        simp only [step]
        split
        · split
          · exact h
          · split <;> exact h
        · exact h
      | poll m =>
        simp only [step]
        split
        · split <;> exact h
        · exact h
  rw [exec_append]
  refine ⟨happ more _ (by simp [step]), ?_⟩
  have : (exec (exec init es) (.add c :: more)).starts.map (·.1) = (exec init es).starts.map (·.1) := by
    refine quiet_exec (.add c :: more) h ?_
    intro e he
    rcases List.mem_cons.1 he with rfl | he
    · rfl
    · exact hm e he
  rw [this]; exact hc

/-- **C71**: however often and by whomever `manager.start` is called, no informer is run twice. -/
theorem C71_run_once (es : List (Ev G)) : (exec init es).im.running.Nodup :=
  (once_exec es once_init).nodup

/-- **C71 fails** for a call that comes when another one is in its `gather`: it starts every runnable again,
and then raises. -/
theorem C71_refuted_again (es : List (Ev G)) (m0 m : Nat) (h0 : (exec init es).mgr m0 = .running)
    (hm : (exec init es).mgr m = .idle) :
    let s := exec init (es ++ [.start m, .enter m])
    s.starts.map (·.1) = (exec init es).starts.map (·.1) ++ (exec init es).runnables ∧ s.mgr m = .failed := by
  intro s
  have ho := once_exec es (once_init (G := G))
  have hs := ho.run m0 h0
  have hl : (exec init es).lock = false := by
    cases hl : (exec init es).lock with
    | false => rfl
    | true => rw [ho.lock hl] at hs; cases hs
  have he : s = step (step (exec init es) (.start m)) (.enter m) := by
    show exec init (es ++ [.start m, .enter m]) = _
    rw [exec_append]; rfl
  rw [he]
  have : ((fun x : Nat × CPc G => x.1) ∘ fun c => (c, CPc.pending)) = id := rfl
  simp [step, hm, hl, hs, State.setMgr, startAll, this]

/-! ## C72 -/

/-- **C72**: when the workers of a call of `_Controller.start` run, it has registered exactly one handler for
each watch made before it got the mutex, in order, each on the informer of its kind, which is running and has
synced. -/
theorem C72_registered (pre post : List (Ev G)) (n c : Nat)
    (hpre : ∀ (d : Nat) (p : CPc G), (exec init pre).starts[n]? = some (d, p) → p = .pending ∨ p = .entering)
    (h : (exec init (pre ++ post)).starts[n]? = some (c, .working)) :
    let s := exec init (pre ++ post)
    ∃ ws, (exec init pre).watches c <+: ws ∧ ws <+: s.watches c ∧
      List.Forall₂ (fun g i => s.im.map.get? g = some i ∧ i ∈ s.im.running ∧ i ∈ s.im.synced) ws (reg s n) := by
  intro s
  have h0 := cinv_exec pre (cinv_init (G := G) fun _ => True)
  have h1 := cinv_exec post h0.rebase
  rw [← exec_append] at h1
  obtain ⟨ws, a, b, d, e⟩ := h1.call n c _ h
  refine ⟨ws, a hpre, b, ?_⟩
  have key : ∀ (ws : List G) (is : List Nat), For s ws is → (∀ i ∈ is, i ∈ s.im.synced) →
      List.Forall₂ (fun g i => s.im.map.get? g = some i ∧ i ∈ s.im.running ∧ i ∈ s.im.synced) ws is := by
    intro ws is hf
    unfold For at hf
    induction hf with
    | nil => intro _; exact .nil
    | cons hab _ ih =>
      intro hi
      exact .cons ⟨hab, h1.im.run _ (hi _ (by simp)), hi _ (by simp)⟩ (ih fun i h => hi i (by simp [h]))
  exact key ws _ d e

/-- **C72**, for a call of `start` that is alone — when it begins, every other call of `start` of the same
controller runs its workers already, and no further one begins: when its workers run, their queue is fed by
exactly one handler for each watch made before the call got the mutex, in order, each on the informer of its
kind, which is running and has synced.  Missing: calls that overlap (`C72_refuted_overlap`). -/
theorem C72_connected_partial (pre post : List (Ev G)) (n c : Nat)
    (hpre : ∀ (d : Nat) (p : CPc G), (exec init pre).starts[n]? = some (d, p) → p = .pending)
    (halone : ∀ (n' : Nat) (p : CPc G), n' ≠ n → (exec init (pre ++ post)).starts[n']? = some (c, p) →
      p = .pending ∨ (exec init pre).starts[n']? = some (c, .working))
    (h : (exec init (pre ++ post)).starts[n]? = some (c, .working)) :
    let s := exec init (pre ++ post)
    ∃ ws, (exec init pre).watches c <+: ws ∧ ws <+: s.watches c ∧
      List.Forall₂ (fun g i => s.im.map.get? g = some i ∧ i ∈ s.im.running ∧ i ∈ s.im.synced) ws (fed s n) := by
  intro s
  have hq : QInv (exec init pre) := qinv_exec pre qinv_init
  have ha : AInv (exec init pre) n c s := by
    show AInv _ n c (exec init (pre ++ post))
    rw [exec_append]
    exact ainv_exec post hq (ainv_refl hq hpre)
  rw [fed_eq_reg ha halone h]
  exact C72_registered pre post n c (fun d p hp => .inl (hpre d p hp)) h

/-- **C72 fails** when two calls of `start` of one controller overlap: `self.queue` is the queue of the call
that began last, so a call that waits for the mutex when another one begins has a queue that nothing will ever
feed, although its workers will take from it. -/
theorem C72_refuted_overlap (es more : List (Ev G)) (n n' c : Nat)
    (h : (exec init es).starts[n]? = some (c, .entering)) (h' : (exec init es).starts[n']? = some (c, .pending))
    (hl : (exec init es).ctlLock c = false) (hf : fed (exec init es) n = []) :
    fed (exec init (es ++ .ctl n' :: more)) n = [] := by
  have hq : QInv (exec init es) := qinv_exec es qinv_init
  have hc := cinv_exec es (cinv_init (G := G) fun _ => True)
  have hnn : n ≠ n' := by rintro rfl; rw [h] at h'; cases h'
  have hgot : ∀ (k d : Nat) (g : G) (q : Nat) (todo : List G),
      (exec init es).starts[k]? = some (d, .getting g q todo) → q ≠ n := by
    rintro k d g q todo hk rfl
    obtain ⟨p', h5, -⟩ := hq.arg k d g q todo hk
    rw [h, Option.some.injEq, Prod.mk.injEq] at h5
    have h6 := (hc.call k d _ hk).1
    rw [← h5.1, hl] at h6; cases h6
  rw [exec_append]
  have e1 : step (exec init es) (.ctl n') =
      { (exec init es).setCtl n' c .entering with queue := fun d => if d = c then n' else (exec init es).queue d } := by
    simp only [step, ctlStep, h']
  refine (lost_exec (c := c) more (qinv_step hq (.ctl n')) ?_).fed
  rw [e1]
  refine ⟨⟨.entering, ?_, by simp⟩, by simpa using Ne.symm hnn, ?_, hf⟩
  · show ((exec init es).setCtl n' c _).starts[n]? = _
    rw [getElem?_setCtl h', if_neg hnn]; exact h
  · intro k d g q todo hk
    have hk : ((exec init es).setCtl n' c .entering).starts[k]? = _ := hk
    rw [getElem?_setCtl h'] at hk
    split at hk
    · simp only [Option.some.injEq, Prod.mk.injEq] at hk; cases hk.2
    · exact hgot k d g q todo hk

/-- **C72**: nobody can change the watches of a controller while a call of its `start` goes through them,
and no two calls do at the same time. -/
theorem C72_exclusive (es : List (Ev G)) (n c : Nat) (p : CPc G)
    (h : (exec init es).starts[n]? = some (c, p)) (hb : p ≠ .pending) (hp : p ≠ .entering)
    (hw : p ≠ .working) :
    (∀ g, (step (exec init es) (.watch c g)).watches = (exec init es).watches) ∧
    ∀ (n' : Nat) (p' : CPc G), (exec init es).starts[n']? = some (c, p') → p' ≠ .pending →
      p' ≠ .entering → p' ≠ .working → n' = n := by
  have h0 := cinv_exec es (cinv_init (G := G) fun _ => True)
  have hc : ∀ q : CPc G, q ≠ .pending → q ≠ .entering → q ≠ .working → crit q = true := by
    intro q h0 h1 h2; cases q <;> simp [crit] at *
  refine ⟨?_, ?_⟩
  · intro g
    have := (h0.call n c p h).lock (hc p hb hp hw)
    simp only [step, this, if_true]
  · intro n' p' h' h1 h2 h3
    exact h0.mutex n' n c p' p h' h (hc p' h1 h2 h3) (hc p hb hp hw)

/-- A step of the call `n` of `_Controller.start` (in the controller or in the cache). -/
def stepOf (n : Nat) : Ev G → Bool
  | .ctl k => k == n
  | .cache (.look k) => k == 2 * n
  | .cache (.make k) => k == 2 * n
  | .cache (.poll k) => k == 2 * n
  | _ => false

private theorem go (n c : Nat) (todo : List G) : ∀ s : State G, s.starts[n]? = some (c, .watching todo) →
    ready (s.im.tasks (2 * n)) → (∀ g ∈ todo, ∃ i, s.im.map.get? g = some i ∧ i ∈ s.im.synced) →
    (∀ i ∈ s.im.map.values, i ∈ s.im.synced) →
    ∃ more, (∀ e ∈ more, stepOf n e = true) ∧ (exec s more).starts[n]? = some (c, .working) ∧
      (exec s more).ctlLock c = false := by
  induction todo with
  | nil =>
    intro s hn _ _ hv
    refine ⟨[.ctl n, .ctl n], by simp [stepOf], ?_⟩
    have h1 : step s (.ctl n) = s.setCtl n c (.syncing s.im.map.values) := by
      simp only [step, ctlStep, hn]
    have h2 : (s.setCtl n c (.syncing s.im.map.values)).starts[n]? = some (c, .syncing s.im.map.values) := by
      rw [getElem?_setCtl hn]; simp
    simp only [exec, h1]
    have hall : allSynced (s.setCtl n c (.syncing s.im.map.values)) s.im.map.values = true := by
      simp only [allSynced, List.all_eq_true, decide_eq_true_eq]; exact hv
    simp only [step, ctlStep, h2, hall, if_true, and_true]
    rw [getElem?_setCtl h2]; simp
  | cons g todo ih =>
    intro s hn hr hg hv
    obtain ⟨i, hi, his⟩ := hg g (by simp)
    have hcall : InformersMap.step s.im (.call (2 * n) g) = s.im.setPc (2 * n) (.entering g) := by
      simp only [InformersMap.step]
      split
      · rfl
      · rfl
      · rename_i h5 h6
        revert hr
        cases ht : s.im.tasks (2 * n) with
        | idle => exact absurd ht h5
        | returned a b e => exact absurd ht (h6 _ _ _)
        | _ => intro h2; exact h2.elim
    let s1 : State G := { s.setCtl n c (.getting g (s.queue c) todo) with im := s.im.setPc (2 * n) (.entering g) }
    let s2 : State G := { s1 with im := s1.im.setPc (2 * n) (.looked g (some i) s.im.started) }
    let s3 : State G := { s2 with im := s2.im.setPc (2 * n) (.returned g i s.im.started) }
    let s4 : State G := { s3.setCtl n c (.watching todo) with handlers := s.handlers ++ [(i, n, s.queue c)] }
    have e1 : step s (.ctl n) = s1 := by
      simp only [step, ctlStep, hn, hcall]; rfl
    have e2 : step s1 (.cache (.look (2 * n))) = s2 := by
      have : s1.im.tasks (2 * n) = .entering g := by simp [s1, InformersMap.State.setPc]
      have h' : s1.im.map.get? g = some i := hi
      simp only [step, foreign, if_true, InformersMap.step, this, h']; rfl
    have e3 : step s2 (.cache (.make (2 * n))) = s3 := by
      have : s2.im.tasks (2 * n) = .looked g (some i) s.im.started := by simp [s2, InformersMap.State.setPc]
      have h' : i ∈ s2.im.synced := his
      simp only [step, foreign, if_true, InformersMap.step, this, InformersMap.orAdd, h', decide_true, Bool.not_true,
        Bool.and_false, Bool.false_eq_true, if_false]
      rfl
    have hn3 : s3.starts[n]? = some (c, .getting g (s.queue c) todo) := by
      show (s.setCtl n c (.getting g (s.queue c) todo)).starts[n]? = _
      rw [getElem?_setCtl hn]; simp
    have e4 : step s3 (.ctl n) = s4 := by
      have : s3.im.tasks (2 * n) = .returned g i s.im.started := by simp [s3, InformersMap.State.setPc]
      simp only [step, ctlStep, hn3, this]; rfl
    have hn4 : s4.starts[n]? = some (c, .watching todo) := by
      show (s3.setCtl n c (.watching todo)).starts[n]? = _
      rw [getElem?_setCtl hn3]; simp
    have hr4 : ready (s4.im.tasks (2 * n)) := by
      show ready (s3.im.tasks (2 * n))
      simp [s3, InformersMap.State.setPc, ready]
    obtain ⟨more, h1, h2⟩ := ih s4 hn4 hr4 (fun g' h' => hg g' (by simp [h'])) hv
    refine ⟨.ctl n :: .cache (.look (2 * n)) :: .cache (.make (2 * n)) :: .ctl n :: more, ?_, ?_⟩
    · intro e he
      simp only [List.mem_cons] at he
      rcases he with rfl | rfl | rfl | rfl | he
      · simp [stepOf]
      · simp [stepOf]
      · simp [stepOf]
      · simp [stepOf]
      · exact h1 e he
    · simp only [exec, e1, e2, e3, e4]; exact h2

/-- **C72**, progress: when the informers requested so far have synced and the watched kinds are among
them, a call of `start` that can have the mutex reaches its workers by its own steps, and gives the mutex back. -/
theorem C72_progress (es : List (Ev G)) (n c : Nat) (p : CPc G) (h : (exec init es).starts[n]? = some (c, p))
    (hp : p = .pending ∨ p = .entering) (hl : (exec init es).ctlLock c = false)
    (hg : ∀ g ∈ (exec init es).watches c, ∃ i, (exec init es).im.map.get? g = some i)
    (hs : ∀ g i, (exec init es).im.map.get? g = some i → i ∈ (exec init es).im.synced) :
    ∃ more, (∀ e ∈ more, stepOf n e = true) ∧
      (exec init (es ++ more)).starts[n]? = some (c, .working) ∧ (exec init (es ++ more)).ctlLock c = false := by
  have h0 := cinv_exec es (cinv_init (G := G) fun _ => True)
  have from_ : ∀ s : State G, s.starts[n]? = some (c, .entering) → s.im.tasks (2 * n) = .idle → s.ctlLock c = false →
      s.im = (exec init es).im → s.watches = (exec init es).watches →
      ∃ more, (∀ e ∈ more, stepOf n e = true) ∧ (exec s more).starts[n]? = some (c, .working) ∧
        (exec s more).ctlLock c = false := by
    intro s h hc hl him hws
    let s1 : State G := { s.setCtl n c (.watching (s.watches c)) with
      ctlLock := fun d => if d = c then true else s.ctlLock d }
    have e1 : step s (.ctl n) = s1 := by simp [step, ctlStep, h, hl, s1]
    have hn1 : s1.starts[n]? = some (c, .watching (s.watches c)) := by
      show (s.setCtl n c _).starts[n]? = _
      rw [getElem?_setCtl h]; simp
    obtain ⟨more, h1, h2⟩ := go n c (s.watches c) s1 hn1
      (by show ready (s.im.tasks (2 * n)); rw [hc]; trivial)
      (fun g hgw => by
        rw [hws] at hgw
        obtain ⟨i, hi⟩ := hg g hgw
        refine ⟨i, ?_, ?_⟩
        · show s.im.map.get? g = _; rw [him]; exact hi
        · show i ∈ s.im.synced; rw [him]; exact hs g i hi)
      (fun i hi => by
        have hi : i ∈ s.im.map.values := hi
        show i ∈ s.im.synced
        rw [him] at hi ⊢
        obtain ⟨g, hgi⟩ := (PyDict.mem_values h0.im.wf).1 hi; exact hs g i hgi)
    refine ⟨.ctl n :: more, ?_, ?_⟩
    · intro e he
      rcases List.mem_cons.1 he with rfl | he
      · simp [stepOf]
      · exact h1 e he
    · simp only [exec, e1]; exact h2
  have hc := h0.call n c _ h
  rcases hp with rfl | rfl
  · have e1 : step (exec init es) (.ctl n) = { (exec init es).setCtl n c .entering with
        queue := fun d => if d = c then n else (exec init es).queue d } := by
      simp only [step, ctlStep, h]
    obtain ⟨more, h1, h2⟩ := from_ (step (exec init es) (.ctl n))
      (by rw [e1]; show ((exec init es).setCtl n c _).starts[n]? = _; rw [getElem?_setCtl h]; simp)
      (by rw [e1]; exact hc.2) (by rw [e1]; exact hl) (by rw [e1]; rfl) (by rw [e1]; rfl)
    refine ⟨.ctl n :: more, ?_, ?_⟩
    · intro e he
      rcases List.mem_cons.1 he with rfl | he
      · simp [stepOf]
      · exact h1 e he
    · rw [exec_append]; exact h2
  · obtain ⟨more, h1, h2⟩ := from_ _ h hc.2 hl rfl rfl
    exact ⟨more, h1, by rw [exec_append]; exact h2⟩

/-! ## Runs -/

/-- A manager with two controllers (7 and 8) built as in `builder.py`, started; 7 watches the kinds 0 and 1,
8 watches 1. -/
def exRun : List (Ev Nat) :=
  [.add 7, .cache (.call 1 0), .cache (.look 1), .cache (.make 1), .watch 7 0,
   .add 8, .cache (.call 3 1), .cache (.look 3), .cache (.make 3), .watch 8 1, .watch 7 1,
   .start 0, .enter 0, .cacheTask, .poll 0, .cache (.sync 0), .cache (.sync 1)]

/-- The calls of `start`, to their ends. -/
def exRest : List (Ev Nat) :=
  [.poll 0, .ctl 0, .ctl 1, .ctl 0, .ctl 0, .ctl 1, .ctl 1, .cache (.look 0), .cache (.make 0), .cache (.look 2),
   .cache (.make 2), .ctl 0, .ctl 1, .ctl 1, .ctl 1, .ctl 0, .cache (.look 0), .cache (.make 0), .ctl 0,
   .ctl 0, .ctl 0]

-- `C71_once_partial`, `C71_all_partial`: the hypotheses hold, and there is something to start
example : exRun.countP isStart ≤ 1 ∧ (exec init exRun).mgr 0 = .waiting [0, 1] ∧
    (∀ i ∈ [0, 1], i ∈ (exec init exRun).im.synced) ∧ (exec init exRun).runnables = [7, 8] ∧
    (exec init (exRun ++ exRest)).starts.map (·.1) = [7, 8] := by
  refine ⟨by decide, by decide, by decide, by decide, by decide⟩

-- `C71_waits`: a state with a caller at the mutex
example : (exec init (exRun.take 12)).mgr 0 = .entering ∧ (exec init (exRun.take 12)).im.map.values = [0, 1] ∧
    ∀ d, (exec init (exRun.take 12)).mgr d = .idle ∨ (exec init (exRun.take 12)).mgr d = .entering := by
  refine ⟨by decide, by decide, fun d => ?_⟩
  have : (exec init (exRun.take 12)).mgr = fun d => if d = 0 then MPc.entering else MPc.idle := rfl
  rw [this]
  by_cases h : d = 0 <;> simp [h]

-- `C71_synced_first`
example : (∀ e ∈ exRun.take 11, isStart e = false) ∧ (exec init (exRun.take 11)).im.map.get? 1 = some 1 ∧
    (exec init (exRun.take 11 ++ (exRun.drop 11 ++ exRest))).starts ≠ [] := by
  refine ⟨by decide, by decide, by decide⟩

private theorem exMgr : ∀ m, (exec init (exRun ++ exRest)).mgr m = if m = 0 then .running else .idle := by
  intro m
  by_cases h : m = 0
  · subst h; decide
  · have : (exec init (exRun ++ exRest)).mgr = fun d => if d = 0 then MPc.running else
        if d = 0 then MPc.waiting [0, 1] else if d = 0 then MPc.entering else MPc.idle := rfl
    rw [this]; simp [h]

-- `C71_refuted_late`: the controller 9 is added when the manager runs
example : (∀ m, (exec init (exRun ++ exRest)).mgr m = .idle ∨ (exec init (exRun ++ exRest)).mgr m = .running ∨
    (exec init (exRun ++ exRest)).mgr m = .failed) ∧ 9 ∉ (exec init (exRun ++ exRest)).starts.map (·.1) := by
  refine ⟨fun m => ?_, by decide⟩
  rw [exMgr]
  by_cases h : m = 0 <;> simp [h]

-- `C71_refuted_again`
example : (exec init (exRun ++ exRest)).mgr 0 = .running ∧
    (exec init (exRun ++ exRest)).mgr 1 = .idle ∧
    (exec init (exRun ++ exRest ++ [.start 1, .enter 1])).starts.map (·.1) = [7, 8, 7, 8] := by
  refine ⟨by decide, by decide, by decide⟩

-- `C71_run_once`: two calls, of which one waits for the mutex
example : (exec init (exRun ++ .start 1 :: exRest ++ [.enter 1, .cacheTask])).im.running = [0, 1] := by decide

-- `C72_registered`, `C72_connected_partial`: both controllers reach their workers
example : (∀ (d : Nat) (p : CPc Nat), (exec init exRun).starts[0]? = some (d, p) → p = .pending) ∧
    (exec init (exRun ++ exRest)).starts[0]? = some (7, .working) ∧
    (exec init (exRun ++ exRest)).starts[1]? = some (8, .working) ∧
    (exec init exRun).watches 7 = [0, 1] ∧ fed (exec init (exRun ++ exRest)) 0 = [0, 1] ∧
    fed (exec init (exRun ++ exRest)) 1 = [1] := by
  refine ⟨?_, by decide, by decide, by decide, by decide, by decide⟩
  intro d p h
  have : (exec init exRun).starts = [] := by decide
  rw [this] at h; cases h

-- `C72_connected_partial`: no other call
example : ∀ (n' : Nat) (p : CPc Nat), n' ≠ 0 → (exec init (exRun ++ exRest)).starts[n']? = some (7, p) →
    p = .pending ∨ (exec init exRun).starts[n']? = some (7, .working) := by
  intro n' p hn h
  have hs : (exec init (exRun ++ exRest)).starts = [(7, .working), (8, .working)] := by decide
  rw [hs] at h
  match n' with
  | 0 => exact absurd rfl hn
  | 1 => simp at h
  | n + 2 => simp at h

/-- `manager.start` is called again while the first call's controllers wait for their mutexes. -/
def exTwice : List (Ev Nat) :=
  [.add 7, .cache (.call 1 0), .cache (.look 1), .cache (.make 1), .watch 7 0, .start 0, .start 1, .enter 0,
   .cacheTask, .cache (.sync 0), .poll 0, .enter 1, .ctl 0]

/-- Both calls go on. -/
def exTwiceRest : List (Ev Nat) :=
  [.ctl 0, .ctl 0, .cache (.look 0), .cache (.make 0), .ctl 0, .ctl 0, .ctl 0,
   .ctl 1, .ctl 1, .cache (.look 2), .cache (.make 2), .ctl 1, .ctl 1, .ctl 1]

-- `C72_refuted_overlap`: the workers of both calls run, one queue is fed twice, the other one not at all
example : (exec init exTwice).starts = [(7, .entering), (7, .pending)] ∧ (exec init exTwice).ctlLock 7 = false ∧
    fed (exec init exTwice) 0 = [] ∧
    (exec init (exTwice ++ .ctl 1 :: exTwiceRest)).starts = [(7, .working), (7, .working)] ∧
    fed (exec init (exTwice ++ .ctl 1 :: exTwiceRest)) 0 = [] ∧
    fed (exec init (exTwice ++ .ctl 1 :: exTwiceRest)) 1 = [0, 0] := by
  refine ⟨by decide, by decide, by decide, by decide, by decide, by decide⟩

-- `C72_exclusive`: a call that goes through the watches
example : (exec init (exRun ++ exRest.take 5)).starts[0]? = some (7, .getting 0 0 [1]) := by decide

-- `C72_progress`: right after the manager's last poll
example : (exec init (exRun ++ exRest.take 1)).starts[0]? = some (7, .pending) ∧
    (exec init (exRun ++ exRest.take 1)).ctlLock 7 = false ∧
    (∀ g ∈ (exec init (exRun ++ exRest.take 1)).watches 7,
      ∃ i, (exec init (exRun ++ exRest.take 1)).im.map.get? g = some i) ∧
    (∀ i ∈ (exec init (exRun ++ exRest.take 1)).im.map.values,
      i ∈ (exec init (exRun ++ exRest.take 1)).im.synced) := by
  refine ⟨by decide, by decide, ?_, by decide⟩
  have hw : (exec init (exRun ++ exRest.take 1)).watches 7 = [0, 1] := by decide
  rw [hw]
  intro g hg
  simp only [List.mem_cons, List.not_mem_nil, or_false] at hg
  rcases hg with rfl | rfl
  · exact ⟨0, by decide⟩
  · exact ⟨1, by decide⟩

end Aiok8s.Manager
