import Verif.Model.Manager
import Verif.Spec.Manager
import Verif.Proof.InformersMap
import Mathlib.Data.List.Forall2
/-! # Invariants of the manager and its controllers -/
set_option linter.unusedSectionVars false
set_option linter.unusedSimpArgs false
namespace Aiok8s.Manager
open Aiok8s
variable {G : Type} [DecidableEq G]

theorem exec_append (as bs : List (Ev G)) : ∀ s : State G, exec s (as ++ bs) = exec (exec s as) bs := by
  induction as with
  | nil => intro s; rfl
  | cons a as ih => intro s; exact ih _

/-- The map of informers only moves by its own moves. -/
theorem im_step (s : State G) (e : Ev G) : (step s e).im = s.im ∨ ∃ e', (step s e).im = InformersMap.step s.im e' := by
  cases e with
  | cache e => simp only [step]; split; exacts [.inr ⟨e, rfl⟩, .inl rfl]
  | add c => exact .inl rfl
  | watch c g => simp only [step]; split <;> exact .inl rfl
  | start m => simp only [step]; split <;> exact .inl rfl
  | enter m =>
    simp only [step]; split
    · split
      · exact .inl rfl
      · split <;> exact .inl rfl
    · exact .inl rfl
  | cacheTask => simp only [step]; split; exacts [.inl rfl, .inr ⟨.start, rfl⟩]
  | poll m =>
    simp only [step]; split
    · split <;> exact .inl rfl
    · exact .inl rfl
  | ctl n =>
    simp only [step, ctlStep]
    split
    · exact .inl rfl
    · exact .inl rfl
    · split <;> exact .inl rfl
    · exact .inl rfl
    · rename_i g _ _; exact .inr ⟨.call (2 * n) g, rfl⟩
    · split <;> exact .inl rfl
    · split <;> exact .inl rfl
    · exact .inl rfl

theorem im_inv_step {s : State G} (h : InformersMap.Inv s.im) (e : Ev G) : InformersMap.Inv (step s e).im := by
  rcases im_step s e with he | ⟨e', he⟩
  · rw [he]; exact h
  · rw [he]; exact InformersMap.inv_step h e'

theorem im_inv_exec (es : List (Ev G)) : ∀ {s : State G}, InformersMap.Inv s.im →
    InformersMap.Inv (exec s es).im := by
  induction es with
  | nil => intro s h; exact h
  | cons e es ih => intro s h; exact ih (im_inv_step h e)

theorem get_step {s : State G} (e : Ev G) {g : G} {i : Nat} (h : s.im.map.get? g = some i) :
    (step s e).im.map.get? g = some i := by
  rcases im_step s e with he | ⟨e', he⟩
  · rw [he]; exact h
  · rw [he]; exact InformersMap.map_step _ e' g i h

theorem synced_im_step (s : InformersMap.State G) (e : InformersMap.Ev G) {i : Nat} (h : i ∈ s.synced) :
    i ∈ (InformersMap.step s e).synced := by
  cases e with
  | call c g => simp only [InformersMap.step]; split <;> exact h
  | look c => simp only [InformersMap.step]; split <;> exact h
  | poll c =>
    simp only [InformersMap.step]; split
    · split <;> exact h
    · exact h
  | start => exact h
  | sync i =>
    simp only [InformersMap.step]; split
    · exact List.mem_cons_of_mem _ h
    · exact h
  | make c =>
    simp only [InformersMap.step]
    split
    · rename_i g' found started _
      have hor : (InformersMap.orAdd s g' found).1.synced = s.synced := by
        cases found with
        | some j => rfl
        | none => simp only [InformersMap.orAdd, InformersMap.addInformer]; split <;> rfl
      rw [← hor] at h
      split <;> exact h
    · exact h

theorem synced_step {s : State G} (e : Ev G) {i : Nat} (h : i ∈ s.im.synced) :
    i ∈ (step s e).im.synced := by
  rcases im_step s e with he | ⟨e', he⟩
  · rw [he]; exact h
  · rw [he]; exact synced_im_step _ e' h

/-! ## One call of `manager.start` -/

theorem fst_setCtl {s : State G} {n c : Nat} {p q : CPc G} (h : s.starts[n]? = some (c, p)) :
    (s.setCtl n c q).starts.map (·.1) = s.starts.map (·.1) := by
  have hl : n < s.starts.length := (List.getElem?_eq_some_iff.1 h).1
  have hv : s.starts[n] = (c, p) := (List.getElem?_eq_some_iff.1 h).2
  apply List.ext_getElem
  · simp [State.setCtl]
  · intro i h1 h2
    simp only [State.setCtl, List.getElem_map, List.getElem_set]
    split
    · rename_i he; subst he; rw [hv]
    · rfl

theorem ctl_fst (s : State G) (n : Nat) : (ctlStep s n).starts.map (·.1) = s.starts.map (·.1) := by
  simp only [ctlStep]
  split
  · rfl
  · rename_i c h; exact fst_setCtl h
  · rename_i c h
    split
    · rfl
    · exact fst_setCtl h
  · rename_i c h; exact fst_setCtl h
  · rename_i c g todo h; exact fst_setCtl h
  · rename_i c g todo h
    split
    · exact fst_setCtl h
    · rfl
  · rename_i c fs h
    split
    · exact fst_setCtl h
    · rfl
  · rfl

theorem ctl_mgr (s : State G) (n : Nat) : (ctlStep s n).mgr = s.mgr ∧ (ctlStep s n).started = s.started ∧
    (ctlStep s n).runnables = s.runnables ∧ (ctlStep s n).lock = s.lock := by
  simp only [ctlStep]
  split
  · exact ⟨rfl, rfl, rfl, rfl⟩
  · exact ⟨rfl, rfl, rfl, rfl⟩
  · split <;> exact ⟨rfl, rfl, rfl, rfl⟩
  · exact ⟨rfl, rfl, rfl, rfl⟩
  · exact ⟨rfl, rfl, rfl, rfl⟩
  · split <;> exact ⟨rfl, rfl, rfl, rfl⟩
  · split <;> exact ⟨rfl, rfl, rfl, rfl⟩
  · exact ⟨rfl, rfl, rfl, rfl⟩

/-- Nobody has called `start`. -/
structure Fresh (s : State G) : Prop where
  idle : ∀ m, s.mgr m = .idle
  none : s.starts = []
  not : s.started = false

theorem fresh_init : Fresh (init : State G) := ⟨fun _ => rfl, rfl, rfl⟩

theorem fresh_step {s : State G} (h : Fresh s) (e : Ev G) (he : isStart e = false) : Fresh (step s e) := by
  obtain ⟨h1, h2, h3⟩ := h
  cases e with
  | cache e => simp only [step]; split <;> exact ⟨h1, h2, h3⟩
  | add c => exact ⟨h1, h2, h3⟩
  | watch c g => simp only [step]; split <;> exact ⟨h1, h2, h3⟩
  | start m => simp [isStart] at he
  | enter m => simp only [step, h1]; exact ⟨h1, h2, h3⟩
  | cacheTask => simp only [step]; split <;> exact ⟨h1, h2, h3⟩
  | poll m => simp only [step, h1]; exact ⟨h1, h2, h3⟩
  | ctl n =>
    obtain ⟨a, b, -, -⟩ := ctl_mgr s n
    refine ⟨by simpa only [step, a] using h1, ?_, by simpa only [step, b] using h3⟩
    have := ctl_fst s n
    rw [h2] at this
    simpa [step] using this

theorem fresh_exec (es : List (Ev G)) : ∀ {s : State G}, Fresh s → (∀ e ∈ es, isStart e = false) →
    Fresh (exec s es) := by
  induction es with
  | nil => intro s h _; exact h
  | cons e es ih =>
    intro s h he
    exact ih (fresh_step h e (he e (by simp))) (fun e' h' => he e' (by simp [h']))

/-- Only the task `m` has called `start`, once. -/
structure Single (m : Nat) (s : State G) : Prop where
  others : ∀ d, d ≠ m → s.mgr d = .idle
  before : s.mgr m = .entering ∨ (∃ fs, s.mgr m = .waiting fs) → s.starts = [] ∧ s.started = false
  now : s.mgr m = .entering ∨ (∃ fs, s.mgr m = .waiting fs) ∨ s.mgr m = .running
  pre : s.starts.map (·.1) <+: s.runnables

theorem single_step {s : State G} {m : Nat} (h : Single m s) (e : Ev G) (he : isStart e = false) :
    Single m (step s e) := by
  cases e with
  | cache e => simp only [step]; split <;> exact ⟨h.others, h.before, h.now, h.pre⟩
  | add c => exact ⟨h.others, h.before, h.now, h.pre.trans (List.prefix_append _ _)⟩
  | watch c g => simp only [step]; split <;> exact ⟨h.others, h.before, h.now, h.pre⟩
  | start m => simp [isStart] at he
  | cacheTask => simp only [step]; split <;> exact ⟨h.others, h.before, h.now, h.pre⟩
  | ctl n =>
    obtain ⟨a, b, c, -⟩ := ctl_mgr s n
    refine ⟨by simpa only [step, a] using h.others, ?_, by simpa only [step, a] using h.now, ?_⟩
    · intro hm
      simp only [step, a] at hm
      obtain ⟨h1, h2⟩ := h.before hm
      have := ctl_fst s n
      rw [h1] at this
      exact ⟨by simpa [step] using this, by simpa only [step, b] using h2⟩
    · show (ctlStep s n).starts.map _ <+: (ctlStep s n).runnables
      rw [ctl_fst, c]; exact h.pre
  | enter d =>
    by_cases hd : d = m
    · subst hd
      simp only [step]
      split
      · rename_i hp
        obtain ⟨h1, h2⟩ := h.before (.inl hp)
        split
        · exact h
        · simp only [h2, Bool.false_eq_true, if_false]
          refine ⟨?_, fun _ => ⟨h1, h2⟩, .inr (.inl ⟨s.im.map.values, by simp [State.setMgr]⟩), h.pre⟩
          intro d hd
          simp only [State.setMgr, if_neg hd]
          exact h.others d hd
      · exact h
    · simp only [step, h.others d hd]; exact h
  | poll d =>
    by_cases hd : d = m
    · subst hd
      simp only [step]
      split
      · rename_i fs hp
        obtain ⟨h1, h2⟩ := h.before (.inr ⟨fs, hp⟩)
        split
        · refine ⟨?_, ?_, .inr (.inr (by simp [State.setMgr])), ?_⟩
          · intro d hd
            simp only [State.setMgr, if_neg hd]
            exact h.others d hd
          · intro hm
            simp [State.setMgr] at hm
          · simp only [State.setMgr, startAll, h1, List.nil_append, List.map_map]
            have : ((fun x : Nat × CPc G => x.1) ∘ fun c => (c, CPc.pending)) = id := rfl
            rw [this, List.map_id]
            exact List.prefix_rfl
        · exact h
      · exact h
    · simp only [step, h.others d hd]; exact h

theorem single_exec (es : List (Ev G)) {m : Nat} : ∀ {s : State G}, Single m s → (∀ e ∈ es, isStart e = false) →
    Single m (exec s es) := by
  induction es with
  | nil => intro s h _; exact h
  | cons e es ih =>
    intro s h he
    exact ih (single_step h e (he e (by simp))) (fun e' h' => he e' (by simp [h']))

theorem single_start {s : State G} (h : Fresh s) (m : Nat) : Single m (step s (.start m)) := by
  simp only [step, h.idle m]
  refine ⟨?_, fun _ => ⟨h.none, h.not⟩, .inl (by simp [State.setMgr]), ?_⟩
  · intro d hd
    simp only [State.setMgr, if_neg hd]
    exact h.idle d
  · simp only [State.setMgr, h.none, List.map_nil, List.nil_prefix]

/-- At most one call of `start`. -/
theorem fresh_or_single (es : List (Ev G)) : ∀ {s : State G}, Fresh s → es.countP isStart ≤ 1 →
    Fresh (exec s es) ∨ ∃ m, Single m (exec s es) := by
  induction es with
  | nil => intro s h _; exact .inl h
  | cons e es ih =>
    intro s h hc
    by_cases he : isStart e = true
    · rw [List.countP_cons_of_pos he] at hc
      have h0 : es.countP isStart = 0 := by omega
      rw [List.countP_eq_zero] at h0
      cases e with
      | start m =>
        exact .inr ⟨m, single_exec es (single_start h m) (fun e h' => by simpa using h0 e h')⟩
      | _ => simp [isStart] at he
    · rw [List.countP_cons_of_neg he] at hc
      exact ih (fresh_step h e (by simpa using he)) hc

/-! ## Waiting for the informers -/

/-- `i` is an informer that somebody asked for before `start` was called. -/
structure Waits (i : Nat) (s : State G) : Prop where
  mem : ∃ g, s.im.map.get? g = some i
  im : InformersMap.Inv s.im
  wait : ∀ m fs, s.mgr m = .waiting fs → i ∈ fs
  started : s.started = true → i ∈ s.im.synced
  starts : s.starts ≠ [] → i ∈ s.im.synced

theorem waits_step {s : State G} {i : Nat} (h : Waits i s) (e : Ev G) : Waits i (step s e) := by
  have hmem : ∃ g, (step s e).im.map.get? g = some i := by
    obtain ⟨g, hg⟩ := h.mem
    exact ⟨g, get_step e hg⟩
  have him := im_inv_step h.im e
  have hsyn : i ∈ s.im.synced → i ∈ (step s e).im.synced := synced_step e
  have hval : i ∈ s.im.map.values := (PyDict.mem_values h.im.wf).2 h.mem
  revert hmem him hsyn
  cases e with
  | cache e =>
    simp only [step]; split
    · intro a b c; exact ⟨a, b, h.wait, fun x => c (h.started x), fun x => c (h.starts x)⟩
    · intro a b c; exact h
  | add c => intro a b c; exact ⟨a, b, h.wait, h.started, h.starts⟩
  | watch c g => simp only [step]; split <;> (intro a b c; exact ⟨a, b, h.wait, h.started, h.starts⟩)
  | start m =>
    simp only [step]; split
    · intro a b c
      refine ⟨a, b, ?_, h.started, h.starts⟩
      intro d fs hd
      simp only [State.setMgr] at hd
      split at hd
      · cases hd
      · exact h.wait d fs hd
    · intro a b c; exact h
  | cacheTask =>
    simp only [step]; split
    · intro a b c; exact h
    · intro a b c; exact ⟨a, b, h.wait, fun x => c (h.started x), fun x => c (h.starts x)⟩
  | ctl n =>
    intro a b c
    obtain ⟨x, y, -, -⟩ := ctl_mgr s n
    refine ⟨a, b, ?_, ?_, ?_⟩
    · intro d fs hd
      rw [step, x] at hd
      exact h.wait d fs hd
    · intro hs
      rw [step, y] at hs
      exact c (h.started hs)
    · intro hs
      refine c (h.starts ?_)
      intro h0
      apply hs
      have := ctl_fst s n
      rw [h0] at this
      simpa [step] using this
  | enter d =>
    simp only [step]; split
    · split
      · intro a b c; exact h
      · split
        · rename_i hst
          intro a b c
          refine ⟨a, b, ?_, h.started, fun _ => h.started hst⟩
          intro e fs he
          simp only [State.setMgr, startAll] at he
          split at he
          · cases he
          · exact h.wait e fs he
        · intro a b c
          refine ⟨a, b, ?_, h.started, h.starts⟩
          intro e fs he
          simp only [State.setMgr] at he
          split at he
          · cases he; exact hval
          · exact h.wait e fs he
    · intro a b c; exact h
  | poll d =>
    simp only [step]; split
    · rename_i fs hd
      split
      · rename_i hs
        have hi : i ∈ s.im.synced := by
          simp only [allSynced, List.all_eq_true, decide_eq_true_eq] at hs
          exact hs i (h.wait d fs hd)
        intro a b c
        refine ⟨a, b, ?_, fun _ => hi, fun _ => hi⟩
        intro e fs he
        simp only [State.setMgr, startAll] at he
        split at he
        · cases he
        · exact h.wait e fs he
      · intro a b c; exact h
    · intro a b c; exact h

theorem waits_exec (es : List (Ev G)) {i : Nat} : ∀ {s : State G}, Waits i s → Waits i (exec s es) := by
  induction es with
  | nil => intro s h; exact h
  | cons e es ih => intro s h; exact ih (waits_step h e)

/-! ## Controllers -/

/-- A call of `_Controller.start` that holds the mutex of its controller. -/
def crit : CPc G → Bool
  | .pending => false
  | .entering => false
  | .working => false
  | _ => true

/-- A caller of `get` that asked for the kind `g` last. -/
def asksFor (g : G) : InformersMap.Pc G → Prop
  | .idle => False
  | .entering h => h = g
  | .looked h _ _ => h = g
  | .waiting h _ => h = g
  | .returned h _ _ => h = g

/-- A caller of `get` that may call. -/
def ready : InformersMap.Pc G → Prop
  | .idle => True
  | .returned _ _ _ => True
  | _ => False

/-- These informers are the ones for these kinds. -/
def For (s : State G) (ws : List G) (is : List Nat) : Prop :=
  List.Forall₂ (fun g i => s.im.map.get? g = some i) ws is

/-- What holds of the call `n` for the controller `c`; `W` is a prefix of its watches at the time the
call gets the mutex, if `N`. -/
def CallInv (N : Prop) (W : List G) (s : State G) (n c : Nat) : CPc G → Prop
  | .pending => reg s n = [] ∧ s.im.tasks (2 * n) = .idle
  | .entering => reg s n = [] ∧ s.im.tasks (2 * n) = .idle
  | .watching todo => s.ctlLock c = true ∧ ready (s.im.tasks (2 * n)) ∧
      ∃ done, s.watches c = done ++ todo ∧ For s done (reg s n)
  | .getting g _ todo => s.ctlLock c = true ∧ asksFor g (s.im.tasks (2 * n)) ∧
      ∃ done, s.watches c = done ++ g :: todo ∧ For s done (reg s n)
  | .syncing fs => s.ctlLock c = true ∧ For s (s.watches c) (reg s n) ∧ ∀ i ∈ reg s n, i ∈ fs
  | .working => ∃ ws, (N → W <+: ws) ∧ ws <+: s.watches c ∧ For s ws (reg s n) ∧
      ∀ i ∈ reg s n, i ∈ s.im.synced

/-- All calls. -/
structure CInv (N : Nat → Prop) (W : Nat → List G) (s : State G) : Prop where
  im : InformersMap.Inv s.im
  grow : ∀ c, W c <+: s.watches c
  mutex : ∀ (n n' c : Nat) (p p' : CPc G), s.starts[n]? = some (c, p) → s.starts[n']? = some (c, p') →
    crit p = true → crit p' = true → n = n'
  later : ∀ n : Nat, s.starts[n]? = none → reg s n = [] ∧ s.im.tasks (2 * n) = .idle
  call : ∀ (n c : Nat) (p : CPc G), s.starts[n]? = some (c, p) → CallInv (N n) (W c) s n c p

theorem For.step {s : State G} {ws : List G} {is : List Nat} (h : For s ws is) (e : Ev G) :
    For (step s e) ws is :=
  List.Forall₂.imp (fun _ _ h => get_step e h) h

theorem CallInv.lock {N : Prop} {W : List G} {s : State G} {n c : Nat} {p : CPc G}
    (h : CallInv N W s n c p) (hp : crit p = true) : s.ctlLock c = true := by
  cases p with
  | pending => simp [crit] at hp
  | entering => simp [crit] at hp
  | working => simp [crit] at hp
  | watching todo => exact h.1
  | getting g q todo => exact h.1
  | syncing fs => exact h.1

theorem cinv_init (N : Nat → Prop) : CInv N (fun _ => []) (init : State G) := by
  refine ⟨InformersMap.inv_init, fun _ => List.nil_prefix, ?_, ?_, ?_⟩
  · intro n n' c p p' h; simp [init] at h
  · intro n _; exact ⟨rfl, rfl⟩
  · intro n c p h; simp [init] at h

/-- What a call sees of a move that is not its own. -/
theorem CallInv.keep {N : Prop} {W : List G} {s s' : State G} {n c : Nat} {p : CPc G}
    (h : CallInv N W s n c p)
    (hget : ∀ g i, s.im.map.get? g = some i → s'.im.map.get? g = some i)
    (hsyn : ∀ i, i ∈ s.im.synced → i ∈ s'.im.synced)
    (hw : s.watches c <+: s'.watches c)
    (hwl : s.ctlLock c = true → s'.watches c = s.watches c)
    (hl : crit p = true → s.ctlLock c = true → s'.ctlLock c = true)
    (hfed : reg s' n = reg s n)
    (hidle : s.im.tasks (2 * n) = .idle → s'.im.tasks (2 * n) = .idle)
    (hready : ready (s.im.tasks (2 * n)) → ready (s'.im.tasks (2 * n)))
    (hask : ∀ g, asksFor g (s.im.tasks (2 * n)) → asksFor g (s'.im.tasks (2 * n))) :
    CallInv N W s' n c p := by
  have hfor : ∀ ws is, For s ws is → For s' ws is := fun ws is h => List.Forall₂.imp (fun _ _ h => hget _ _ h) h
  cases p with
  | pending => exact ⟨hfed.trans h.1, hidle h.2⟩
  | entering => exact ⟨hfed.trans h.1, hidle h.2⟩
  | watching todo =>
    obtain ⟨h1, h2, d, h3, h4⟩ := h
    exact ⟨hl rfl h1, hready h2, d, (hwl h1).trans h3, by rw [hfed]; exact hfor _ _ h4⟩
  | getting g q todo =>
    obtain ⟨h1, h2, d, h3, h4⟩ := h
    exact ⟨hl rfl h1, hask g h2, d, (hwl h1).trans h3, by rw [hfed]; exact hfor _ _ h4⟩
  | syncing fs =>
    obtain ⟨h1, h2, h3⟩ := h
    exact ⟨hl rfl h1, by rw [hwl h1, hfed]; exact hfor _ _ h2, by rw [hfed]; exact h3⟩
  | working =>
    obtain ⟨ws, h1, h2, h3, h4⟩ := h
    exact ⟨ws, h1, h2.trans hw, by rw [hfed]; exact hfor _ _ h3, by rw [hfed]; exact fun i hi => hsyn i (h4 i hi)⟩

/-- Moves of the cache that are not calls of this caller. -/
theorem tasks_im_step (s : InformersMap.State G) (e : InformersMap.Ev G) (k : Nat)
    (hk : ∀ g, e ≠ .call k g) :
    (s.tasks k = .idle → (InformersMap.step s e).tasks k = .idle) ∧
    (ready (s.tasks k) → ready ((InformersMap.step s e).tasks k)) ∧
    (∀ g, asksFor g (s.tasks k) → asksFor g ((InformersMap.step s e).tasks k)) := by
  have same : ∀ s' : InformersMap.State G, s'.tasks k = s.tasks k →
      (s.tasks k = .idle → s'.tasks k = .idle) ∧
      (ready (s.tasks k) → ready (s'.tasks k)) ∧
      (∀ g, asksFor g (s.tasks k) → asksFor g (s'.tasks k)) := by
    intro s' h; rw [h]; exact ⟨id, id, fun _ => id⟩
  cases e with
  | call c g =>
    have hc : k ≠ c := by rintro rfl; exact hk g rfl
    apply same
    simp only [InformersMap.step]
    split
    · simp [InformersMap.State.setPc, hc]
    · simp [InformersMap.State.setPc, hc]
    · rfl
  | look c =>
    simp only [InformersMap.step]
    split
    · rename_i g hc
      by_cases h : k = c
      · subst h
        simp only [hc, InformersMap.State.setPc, if_true]
        refine ⟨by simp, by simp [ready], fun g' h => ?_⟩
        simpa [asksFor] using h
      · exact same _ (by simp [InformersMap.State.setPc, h])
    · exact same _ rfl
  | make c =>
    simp only [InformersMap.step]
    split
    · rename_i g found started hc
      have hor : (InformersMap.orAdd s g found).1.tasks = s.tasks := by
        cases found with
        | some j => rfl
        | none => simp only [InformersMap.orAdd, InformersMap.addInformer]; split <;> rfl
      by_cases h : k = c
      · subst h
        rw [hc]
        split
        · simp only [InformersMap.State.setPc, if_true]
          exact ⟨by simp, by simp [ready], fun g' h => by simpa [asksFor] using h⟩
        · simp only [InformersMap.State.setPc, if_true]
          exact ⟨by simp, by simp [ready], fun g' h => by simpa [asksFor] using h⟩
      · split
        · exact same _ (by simp [InformersMap.State.setPc, h, hor])
        · exact same _ (by simp [InformersMap.State.setPc, h, hor])
    · exact same _ rfl
  | poll c =>
    simp only [InformersMap.step]
    split
    · rename_i g i hc
      split
      · by_cases h : k = c
        · subst h
          simp only [hc, InformersMap.State.setPc, if_true]
          exact ⟨by simp, by simp [ready], fun g' h => by simpa [asksFor] using h⟩
        · exact same _ (by simp [InformersMap.State.setPc, h])
      · exact same _ rfl
    · exact same _ rfl
  | start => exact same _ rfl
  | sync i => simp only [InformersMap.step]; split <;> exact same _ rfl

/-- A move that changes neither the calls nor the handlers. -/
theorem CInv.simple {N : Nat → Prop} {W : Nat → List G} {s s' : State G} (h : CInv N W s)
    (him : InformersMap.Inv s'.im)
    (hst : s'.starts = s.starts) (hh : s'.handlers = s.handlers) (hl : s'.ctlLock = s.ctlLock)
    (hw : ∀ c, s.watches c <+: s'.watches c)
    (hwl : ∀ c, s.ctlLock c = true → s'.watches c = s.watches c)
    (hget : ∀ g i, s.im.map.get? g = some i → s'.im.map.get? g = some i)
    (hsyn : ∀ i, i ∈ s.im.synced → i ∈ s'.im.synced)
    (hidle : ∀ n, s.im.tasks (2 * n) = .idle → s'.im.tasks (2 * n) = .idle)
    (hready : ∀ n, ready (s.im.tasks (2 * n)) → ready (s'.im.tasks (2 * n)))
    (hask : ∀ n g, asksFor g (s.im.tasks (2 * n)) → asksFor g (s'.im.tasks (2 * n))) : CInv N W s' := by
  have hfed : ∀ n, reg s' n = reg s n := by intro n; simp only [reg, hh]
  refine ⟨him, fun c => (h.grow c).trans (hw c), ?_, ?_, ?_⟩
  · rw [hst]; exact h.mutex
  · intro n hn
    rw [hst] at hn
    exact ⟨(hfed n).trans (h.later n hn).1, hidle n (h.later n hn).2⟩
  · intro n c p hn
    rw [hst] at hn
    exact (h.call n c p hn).keep hget hsyn (hw c) (hwl c) (fun _ hc => by rw [hl]; exact hc) (hfed n) (hidle n)
      (hready n) (hask n)

/-- The manager calls `start` of every runnable. -/
theorem CInv.startAll {N : Nat → Prop} {W : Nat → List G} {s : State G} (h : CInv N W s) :
    CInv N W (startAll s) := by
  have hget : ∀ (n c : Nat) (p : CPc G), (Manager.startAll s).starts[n]? = some (c, p) →
      s.starts[n]? = some (c, p) ∨ s.starts[n]? = none ∧ p = .pending := by
    intro n c p hn
    simp only [Manager.startAll] at hn
    by_cases hlt : n < s.starts.length
    · rw [List.getElem?_append_left hlt] at hn; exact .inl hn
    · rw [List.getElem?_append_right (by omega), List.getElem?_map] at hn
      refine .inr ⟨by simp; omega, ?_⟩
      cases hr : s.runnables[n - s.starts.length]? with
      | none => rw [hr] at hn; cases hn
      | some c' =>
        rw [hr] at hn
        simp only [Option.map_some, Option.some.injEq, Prod.mk.injEq] at hn
        exact hn.2.symm
  refine ⟨h.im, h.grow, ?_, ?_, ?_⟩
  · intro n n' c p p' hn hn' hp hp'
    rcases hget n c p hn with h1 | ⟨-, rfl⟩
    · rcases hget n' c p' hn' with h2 | ⟨-, rfl⟩
      · exact h.mutex n n' c p p' h1 h2 hp hp'
      · simp [crit] at hp'
    · simp [crit] at hp
  · intro n hn
    refine h.later n ?_
    simp only [Manager.startAll, List.getElem?_eq_none_iff, List.length_append] at hn ⊢
    omega
  · intro n c p hn
    rcases hget n c p hn with h1 | ⟨h1, rfl⟩
    · have := h.call n c p h1
      cases p <;> exact this
    · exact h.later n h1

theorem getElem?_setCtl {s : State G} {n c : Nat} {p q : CPc G} (h : s.starts[n]? = some (c, p)) (k : Nat) :
    (s.setCtl n c q).starts[k]? = if k = n then some (c, q) else s.starts[k]? := by
  have hl : n < s.starts.length := (List.getElem?_eq_some_iff.1 h).1
  simp only [State.setCtl, List.getElem?_set]
  by_cases hk : k = n
  · subst hk; simp [hl]
  · rw [if_neg (fun e => hk e.symm), if_neg hk]

/-- A move of the call `n`. -/
theorem CInv.own {N : Nat → Prop} {W : Nat → List G} {s s' : State G} {n c : Nat} {p q : CPc G} (h : CInv N W s)
    (hp : s.starts[n]? = some (c, p)) (hst : s'.starts = (s.setCtl n c q).starts)
    (him : InformersMap.Inv s'.im)
    (hw : s'.watches = s.watches)
    (hfed : ∀ k, k ≠ n → reg s' k = reg s k)
    (hget : ∀ g i, s.im.map.get? g = some i → s'.im.map.get? g = some i)
    (hsyn : ∀ i, i ∈ s.im.synced → i ∈ s'.im.synced)
    (htask : ∀ k, k ≠ n → s'.im.tasks (2 * k) = s.im.tasks (2 * k))
    (hlock : ∀ d, d ≠ c → s'.ctlLock d = s.ctlLock d)
    (hlock' : ∀ (k : Nat) (p : CPc G), k ≠ n → s.starts[k]? = some (c, p) → crit p = true → s'.ctlLock c = true)
    (hcrit : crit q = true → crit p = true ∨ s.ctlLock c = false)
    (hcall : CallInv (N n) (W c) s' n c q) : CInv N W s' := by
  have hget' : ∀ k, s'.starts[k]? = if k = n then some (c, q) else s.starts[k]? := by
    intro k; rw [hst]; exact getElem?_setCtl hp k
  refine ⟨him, fun d => by rw [hw]; exact h.grow d, ?_, ?_, ?_⟩
  · have key : ∀ k p', k ≠ n → s.starts[k]? = some (c, p') → crit p' = true → crit q = true → False := by
      intro k p' hk hs hp' hq
      rcases hcrit hq with h1 | h1
      · exact hk (h.mutex k n c p' p hs hp hp' h1)
      · rw [(h.call k c p' hs).lock hp'] at h1; cases h1
    intro k k' d p1 p2 hk hk' h1 h2
    rw [hget'] at hk hk'
    split at hk
    · rename_i e; subst e
      split at hk'
      · rename_i e; exact e.symm
      · rename_i e
        simp only [Option.some.injEq, Prod.mk.injEq] at hk
        obtain ⟨rfl, rfl⟩ := hk
        exact (key k' p2 e hk' h2 h1).elim
    · rename_i e
      split at hk'
      · rename_i e'; subst e'
        simp only [Option.some.injEq, Prod.mk.injEq] at hk'
        obtain ⟨rfl, rfl⟩ := hk'
        exact (key k p1 e hk h1 h2).elim
      · exact h.mutex k k' d p1 p2 hk hk' h1 h2
  · intro k hk
    rw [hget'] at hk
    split at hk
    · cases hk
    · rename_i e
      exact ⟨(hfed k e).trans (h.later k hk).1, (htask k e).trans (h.later k hk).2⟩
  · intro k d p' hk
    rw [hget'] at hk
    split at hk
    · rename_i e; subst e
      simp only [Option.some.injEq, Prod.mk.injEq] at hk
      obtain ⟨rfl, rfl⟩ := hk
      exact hcall
    · rename_i e
      refine (h.call k d p' hk).keep hget hsyn (by rw [hw]; exact List.prefix_rfl) (fun _ => by rw [hw]) ?_ (hfed k e)
        (by rw [htask k e]; exact id) (by rw [htask k e]; exact id) (by rw [htask k e]; exact fun _ => id)
      intro h1 h2
      by_cases hd : d = c
      · subst hd; exact hlock' k p' e hk h1
      · rw [hlock d hd]; exact h2

theorem forall₂_snoc {A B : Type} {R : A → B → Prop} {as : List A} {bs : List B} (h : List.Forall₂ R as bs)
    {a : A} {b : B} (hab : R a b) : List.Forall₂ R (as ++ [a]) (bs ++ [b]) := by
  induction h with
  | nil => exact .cons hab .nil
  | cons h1 _ ih => exact .cons h1 ih

theorem For.mem {s : State G} {ws : List G} {is : List Nat} (h : For s ws is) {i : Nat} (hi : i ∈ is) :
    ∃ g ∈ ws, s.im.map.get? g = some i := by
  unfold For at h
  induction h with
  | nil => cases hi
  | cons h1 _ ih =>
    rcases List.mem_cons.1 hi with rfl | hi
    · exact ⟨_, List.mem_cons_self, h1⟩
    · obtain ⟨g, hg, hgi⟩ := ih hi
      exact ⟨g, List.mem_cons_of_mem _ hg, hgi⟩

theorem CInv.ctl {N : Nat → Prop} {W : Nat → List G} {s : State G} (h : CInv N W s) (n : Nat) :
    CInv N W (ctlStep s n) := by
  simp only [ctlStep]
  split
  · exact h
  · -- begins
    rename_i c hn
    have hcall := h.call n c _ hn
    exact h.own (q := .entering) hn rfl h.im rfl (fun _ _ => rfl) (fun _ _ => id) (fun _ => id) (fun _ _ => rfl)
      (fun _ _ => rfl) (fun k p' _ hk hp' => (h.call k c p' hk).lock hp') (fun h => by simp [crit] at h) hcall
  · -- gets the mutex
    rename_i c hn
    split
    · exact h
    · rename_i hl
      have hl : s.ctlLock c = false := by simpa using hl
      have hcall := h.call n c _ hn
      refine h.own hn rfl h.im rfl (fun _ _ => rfl) (fun _ _ => id) (fun _ => id) (fun _ _ => rfl)
        (fun d hd => by simp [hd]) (fun _ _ _ _ _ => by simp) (fun _ => .inr hl) ?_
      exact ⟨by simp, by show ready (s.im.tasks (2 * n)); rw [hcall.2]; trivial, [], rfl,
        by show For _ [] (reg s n); rw [hcall.1]; exact .nil⟩
  · -- all watches have been started
    rename_i c hn
    obtain ⟨h1, h2, d, h3, h4⟩ := h.call n c _ hn
    rw [List.append_nil] at h3
    subst h3
    refine h.own hn rfl h.im rfl (fun _ _ => rfl) (fun _ _ => id) (fun _ => id) (fun _ _ => rfl)
      (fun _ _ => rfl) (fun _ _ _ _ _ => h1) (fun _ => .inl rfl) ?_
    refine ⟨h1, h4, ?_⟩
    intro i hi
    obtain ⟨g, -, hg⟩ := For.mem h4 hi
    exact (PyDict.mem_values h.im.wf).2 ⟨g, hg⟩
  · -- calls `get_informer`
    rename_i c g todo hn
    obtain ⟨h1, h2, d, h3, h4⟩ := h.call n c _ hn
    have hcall : InformersMap.step s.im (.call (2 * n) g) = s.im.setPc (2 * n) (.entering g) := by
      simp only [InformersMap.step]
      split
      · rfl
      · rfl
      · rename_i h5 h6
        revert h2
        cases ht : s.im.tasks (2 * n) with
        | idle => exact absurd ht h5
        | returned a b e => exact absurd ht (h6 _ _ _)
        | _ => intro h2; exact h2.elim
    refine h.own hn rfl (InformersMap.inv_step h.im (.call (2 * n) g)) rfl (fun _ _ => rfl)
      (fun g' i hg => InformersMap.map_step s.im (.call (2 * n) g) g' i hg) (fun i hi => synced_im_step s.im (.call (2 * n) g) hi) ?_ (fun _ _ => rfl)
      (fun _ _ _ _ _ => h1) (fun _ => .inl rfl) ?_
    · intro k hk
      simp only [hcall, InformersMap.State.setPc]
      rw [if_neg (by omega)]
    · refine ⟨h1, ?_, d, h3, ?_⟩
      · simp only [hcall, InformersMap.State.setPc, if_true]; rfl
      · exact List.Forall₂.imp (fun g' i hg => InformersMap.map_step s.im (.call (2 * n) g) g' i hg) h4
  · -- registers its handler
    rename_i c g q todo hn
    split
    · rename_i g' i b ht
      obtain ⟨h1, h2, d, h3, h4⟩ := h.call n c _ hn
      rw [ht] at h2
      have h2 : g' = g := h2
      subst h2
      have hg : s.im.map.get? g' = some i := h.im.given (2 * n) g' i (by rw [ht]; rfl)
      refine h.own hn rfl h.im rfl ?_ (fun _ _ => id) (fun _ => id) (fun _ _ => rfl)
        (fun _ _ => rfl) (fun _ _ _ _ _ => h1) (fun _ => .inl rfl) ?_
      · intro k hk
        simp only [reg, State.setCtl, List.filter_append, List.map_append]
        have : (n == k) = false := by simpa using fun e => hk e.symm
        simp [this]
      · refine ⟨h1, ?_, d ++ [g'], ?_, ?_⟩
        · show ready (s.im.tasks (2 * n)); rw [ht]; trivial
        · show s.watches c = _; rw [h3]; simp
        · have : reg { s.setCtl n c (.watching todo) with handlers := s.handlers ++ [(i, n, q)] } n = reg s n ++ [i] := by
            simp [reg, List.filter_append]
          rw [this]
          exact forall₂_snoc h4 hg
    · exact h
  · -- all informers have synced
    rename_i c fs hn
    split
    · rename_i hs
      obtain ⟨h1, h2, h3⟩ := h.call n c _ hn
      refine h.own hn rfl h.im rfl (fun _ _ => rfl) (fun _ _ => id) (fun _ => id) (fun _ _ => rfl)
        (fun d hd => by simp [hd]) ?_ (fun h => by simp [crit] at h) ?_
      · intro k p hk hkp hp
        exact absurd (h.mutex k n c p _ hkp hn hp rfl) hk
      · refine ⟨s.watches c, fun _ => h.grow c, List.prefix_rfl, h2, ?_⟩
        intro i hi
        simp only [allSynced, List.all_eq_true, decide_eq_true_eq] at hs
        exact hs i (h3 i hi)
    · exact h
  · exact h

theorem cinv_step {N : Nat → Prop} {W : Nat → List G} {s : State G} (h : CInv N W s) (e : Ev G) :
    CInv N W (step s e) := by
  have him := im_inv_step h.im e
  have same : ∀ {s' : State G}, s'.im = s.im → s'.starts = s.starts → s'.handlers = s.handlers →
      s'.ctlLock = s.ctlLock → s'.watches = s.watches → CInv N W s' := by
    intro s' a b c d e
    refine h.simple (by rw [a]; exact h.im) b c d (fun _ => by rw [e]; exact List.prefix_rfl) (fun _ _ => by rw [e])
      (by rw [a]; exact fun _ _ => id) (by rw [a]; exact fun _ => id) (by rw [a]; exact fun _ => id)
      (by rw [a]; exact fun _ => id) (by rw [a]; exact fun _ _ => id)
  cases e with
  | cache e =>
    by_cases hf : foreign e = true
    · simp only [step, hf, if_true] at him ⊢
      have hk : ∀ n g, e ≠ .call (2 * n) g := by
        rintro n g rfl
        simp [foreign] at hf
      refine h.simple him rfl rfl rfl (fun _ => List.prefix_rfl) (fun _ _ => rfl)
        (fun g i hg => InformersMap.map_step s.im e g i hg) (fun i hi => synced_im_step s.im e hi) ?_ ?_ ?_
      · exact fun n => (tasks_im_step s.im e (2 * n) (hk n)).1
      · exact fun n => (tasks_im_step s.im e (2 * n) (hk n)).2.1
      · exact fun n => (tasks_im_step s.im e (2 * n) (hk n)).2.2
    · simp only [step, hf]; exact h
  | add c => exact same rfl rfl rfl rfl rfl
  | watch c g =>
    simp only [step]
    split
    · exact h
    · rename_i hl
      refine h.simple h.im rfl rfl rfl ?_ ?_ (fun _ _ => id) (fun _ => id) (fun _ => id) (fun _ => id) (fun _ _ => id)
      · intro d
        show s.watches d <+: if d = c then s.watches c ++ [g] else s.watches d
        split
        · rename_i e; subst e; exact List.prefix_append _ _
        · exact List.prefix_rfl
      · intro d hd
        show (if d = c then s.watches c ++ [g] else s.watches d) = s.watches d
        split
        · rename_i e; subst e; exact absurd hd hl
        · rfl
  | start m => simp only [step]; split <;> exact same rfl rfl rfl rfl rfl
  | enter m =>
    simp only [step]; split
    · split
      · exact h
      · split
        · have := h.startAll
          exact this.simple this.im rfl rfl rfl (fun _ => List.prefix_rfl) (fun _ _ => rfl) (fun _ _ => id)
            (fun _ => id) (fun _ => id) (fun _ => id) (fun _ _ => id)
        · exact same rfl rfl rfl rfl rfl
    · exact h
  | cacheTask =>
    simp only [step] at him ⊢
    split
    · exact h
    · rename_i hc
      rw [if_neg hc] at him
      exact h.simple him rfl rfl rfl (fun _ => List.prefix_rfl) (fun _ _ => rfl)
        (fun g i hg => hg) (fun i hi => hi) (fun _ => id) (fun _ => id) (fun _ _ => id)
  | poll m =>
    simp only [step]; split
    · split
      · have := h.startAll
        exact this.simple this.im rfl rfl rfl (fun _ => List.prefix_rfl) (fun _ _ => rfl) (fun _ _ => id)
          (fun _ => id) (fun _ => id) (fun _ => id) (fun _ _ => id)
      · exact h
    · exact h
  | ctl n => exact h.ctl n

theorem cinv_exec {N : Nat → Prop} {W : Nat → List G} (es : List (Ev G)) : ∀ {s : State G}, CInv N W s →
    CInv N W (exec s es) := by
  induction es with
  | nil => intro s h; exact h
  | cons e es ih => intro s h; exact ih (cinv_step h e)

/-- A fresh look at a state: the watches so far will be started by the calls that have not begun. -/
theorem CInv.rebase {N : Nat → Prop} {W : Nat → List G} {s : State G} (h : CInv N W s) :
    CInv (fun n => ∀ (c : Nat) (p : CPc G), s.starts[n]? = some (c, p) → p = .pending ∨ p = .entering)
      s.watches s := by
  refine ⟨h.im, fun _ => List.prefix_rfl, h.mutex, h.later, ?_⟩
  intro n c p hn
  have := h.call n c p hn
  cases p with
  | working =>
    obtain ⟨ws, -, h2, h3, h4⟩ := this
    refine ⟨ws, ?_, h2, h3, h4⟩
    intro hN
    rcases hN c _ hn with h | h <;> cases h
  | _ => exact this

/-! ## The queue of a controller -/

/-- Queues have been made by calls of the same controller that have begun. -/
structure QInv (s : State G) : Prop where
  queue : ∀ (n c : Nat) (p : CPc G), s.starts[n]? = some (c, p) → p ≠ .pending →
    ∃ p', s.starts[s.queue c]? = some (c, p') ∧ p' ≠ .pending
  arg : ∀ (n c : Nat) (g : G) (q : Nat) (todo : List G), s.starts[n]? = some (c, .getting g q todo) →
    ∃ p', s.starts[q]? = some (c, p') ∧ p' ≠ .pending
  hand : ∀ h ∈ s.handlers, (∃ c p, s.starts[h.2.1]? = some (c, p) ∧ p ≠ .pending) ∧
    ∃ c p, s.starts[h.2.2]? = some (c, p) ∧ p ≠ .pending

theorem qinv_init : QInv (init : State G) := by
  refine ⟨?_, ?_, ?_⟩
  · intro n c p h; simp [init] at h
  · intro n c g q todo h; simp [init] at h
  · intro h hh; simp [init] at hh

/-- The calls of `start` after one move: the old ones with one of them moved, or new ones that have not begun. -/
theorem starts_step (s : State G) (e : Ev G) (k c : Nat) (p : CPc G) (h : s.starts[k]? = some (c, p)) :
    ∃ p', (step s e).starts[k]? = some (c, p') ∧ (e ≠ .ctl k → p' = p) ∧ (p ≠ .pending → p' ≠ .pending) ∧
      (p = .working → p' = .working) := by
  have same : ∀ s' : State G, s'.starts = s.starts → ∃ p', s'.starts[k]? = some (c, p') ∧ (e ≠ .ctl k → p' = p) ∧
      (p ≠ .pending → p' ≠ .pending) ∧ (p = .working → p' = .working) :=
    fun s' hs => ⟨p, by rw [hs]; exact h, fun _ => rfl, id, id⟩
  have all : ∀ s' : State G, s'.starts = (startAll s).starts → ∃ p', s'.starts[k]? = some (c, p') ∧
      (e ≠ .ctl k → p' = p) ∧ (p ≠ .pending → p' ≠ .pending) ∧ (p = .working → p' = .working) := by
    intro s' hs
    refine ⟨p, ?_, fun _ => rfl, id, id⟩
    have hlt : k < s.starts.length := (List.getElem?_eq_some_iff.1 h).1
    rw [hs, startAll, List.getElem?_append_left hlt]; exact h
  cases e with
  | cache e => simp only [step]; split <;> exact same _ rfl
  | add c => exact same _ rfl
  | watch c g => simp only [step]; split <;> exact same _ rfl
  | start m => simp only [step]; split <;> exact same _ rfl
  | cacheTask => simp only [step]; split <;> exact same _ rfl
  | enter m =>
    simp only [step]; split
    · split
      · exact same _ rfl
      · split
        · exact all _ rfl
        · exact same _ rfl
    · exact same _ rfl
  | poll m =>
    simp only [step]; split
    · split
      · exact all _ rfl
      · exact same _ rfl
    · exact same _ rfl
  | ctl n =>
    have move : ∀ (s' : State G) (c' : Nat) (r q : CPc G), s.starts[n]? = some (c', r) →
        s'.starts = (s.setCtl n c' q).starts → r ≠ .working → q ≠ .pending →
        ∃ p', s'.starts[k]? = some (c, p') ∧ (Ev.ctl (G := G) n ≠ .ctl k → p' = p) ∧
          (p ≠ .pending → p' ≠ .pending) ∧ (p = .working → p' = .working) := by
      intro s' c' r q hr hs hw hq
      by_cases hk : k = n
      · subst hk
        rw [hr, Option.some.injEq, Prod.mk.injEq] at h
        obtain ⟨rfl, rfl⟩ := h
        exact ⟨q, by rw [hs, getElem?_setCtl hr]; simp, fun h => absurd rfl h, fun _ => hq, fun h => absurd h hw⟩
      · exact ⟨p, by rw [hs, getElem?_setCtl hr, if_neg hk]; exact h, fun _ => rfl, id, id⟩
    simp only [step, ctlStep]
    split
    · exact same _ rfl
    · rename_i hr; exact move _ _ _ _ hr rfl (by simp) (by simp)
    · rename_i hr
      split
      · exact same _ rfl
      · exact move _ _ _ _ hr rfl (by simp) (by simp)
    · rename_i hr; exact move _ _ _ _ hr rfl (by simp) (by simp)
    · rename_i hr; exact move _ _ _ _ hr rfl (by simp) (by simp)
    · rename_i hr
      split
      · exact move _ _ _ _ hr rfl (by simp) (by simp)
      · exact same _ rfl
    · rename_i hr
      split
      · exact move _ _ _ _ hr rfl (by simp) (by simp)
      · exact same _ rfl
    · exact same _ rfl

/-- One move, as far as queues and handlers are concerned. -/
inductive QMove (s s' : State G) : Ev G → Prop
  /-- nothing happens, or the call `n` does something else -/
  | other (e : Ev G) : s'.queue = s.queue → s'.handlers = s.handlers →
      (∀ (k c : Nat) (g : G) (q : Nat) (todo : List G), s'.starts[k]? = some (c, .getting g q todo) →
        s.starts[k]? = some (c, .getting g q todo)) →
      (∀ (k c : Nat) (p : CPc G), s'.starts[k]? = some (c, p) → p ≠ .pending →
        ∃ p', s.starts[k]? = some (c, p') ∧ p' ≠ .pending) → QMove s s' e
  /-- a call begins -/
  | begin_ (n c : Nat) : s.starts[n]? = some (c, .pending) → s'.starts = (s.setCtl n c .entering).starts →
      s'.queue = (fun d => if d = c then n else s.queue d) → s'.handlers = s.handlers → QMove s s' (.ctl n)
  /-- a call of `source.start` -/
  | source (n c : Nat) (g : G) (todo : List G) : s.starts[n]? = some (c, .watching (g :: todo)) →
      s'.starts = (s.setCtl n c (.getting g (s.queue c) todo)).starts → s'.queue = s.queue →
      s'.handlers = s.handlers → QMove s s' (.ctl n)
  /-- a handler -/
  | handler (n c : Nat) (g : G) (q : Nat) (todo : List G) (i : Nat) : s.starts[n]? = some (c, .getting g q todo) →
      s'.starts = (s.setCtl n c (.watching todo)).starts → s'.queue = s.queue →
      s'.handlers = s.handlers ++ [(i, n, q)] → QMove s s' (.ctl n)

theorem qmove (s : State G) (e : Ev G) : QMove s (step s e) e := by
  have same : ∀ (e : Ev G) (s' : State G), s'.starts = s.starts → s'.queue = s.queue → s'.handlers = s.handlers →
      QMove s s' e := by
    intro e s' h1 h2 h3
    exact .other e h2 h3 (fun k c g q todo => by rw [h1]; exact id)
      (fun k c p h hp => ⟨p, by rw [← h1]; exact h, hp⟩)
  have all : ∀ (e : Ev G) (s' : State G), s'.starts = (startAll s).starts → s'.queue = s.queue →
      s'.handlers = s.handlers → QMove s s' e := by
    intro e s' h1 h2 h3
    have key : ∀ (k c : Nat) (p : CPc G), s'.starts[k]? = some (c, p) → p ≠ .pending → s.starts[k]? = some (c, p) := by
      intro k c p hk hp
      rw [h1, startAll] at hk
      by_cases hlt : k < s.starts.length
      · rw [List.getElem?_append_left hlt] at hk; exact hk
      · rw [List.getElem?_append_right (by omega), List.getElem?_map] at hk
        cases hr : s.runnables[k - s.starts.length]? with
        | none => rw [hr] at hk; cases hk
        | some c' =>
          rw [hr] at hk
          simp only [Option.map_some, Option.some.injEq, Prod.mk.injEq] at hk
          exact absurd hk.2.symm hp
    exact .other e h2 h3 (fun k c g q todo h => key k c _ h (by simp)) (fun k c p h hp => ⟨p, key k c p h hp, hp⟩)
  cases e with
  | cache e => simp only [step]; split <;> exact same _ _ rfl rfl rfl
  | add c => exact same _ _ rfl rfl rfl
  | watch c g => simp only [step]; split <;> exact same _ _ rfl rfl rfl
  | start m => simp only [step]; split <;> exact same _ _ rfl rfl rfl
  | cacheTask => simp only [step]; split <;> exact same _ _ rfl rfl rfl
  | enter m =>
    simp only [step]; split
    · split
      · exact same _ _ rfl rfl rfl
      · split
        · exact all _ _ rfl rfl rfl
        · exact same _ _ rfl rfl rfl
    · exact same _ _ rfl rfl rfl
  | poll m =>
    simp only [step]; split
    · split
      · exact all _ _ rfl rfl rfl
      · exact same _ _ rfl rfl rfl
    · exact same _ _ rfl rfl rfl
  | ctl n =>
    have move : ∀ (s' : State G) (c' : Nat) (r q : CPc G), s.starts[n]? = some (c', r) →
        s'.starts = (s.setCtl n c' q).starts → s'.queue = s.queue → s'.handlers = s.handlers → r ≠ .pending →
        (∀ g q' todo, q ≠ .getting g q' todo) → QMove s s' (.ctl n) := by
      intro s' c' r q hr h1 h2 h3 h4 h5
      refine .other _ h2 h3 ?_ ?_
      · intro k c g q' todo hk
        rw [h1, getElem?_setCtl hr] at hk
        split at hk
        · simp only [Option.some.injEq, Prod.mk.injEq] at hk
          exact absurd hk.2 (h5 _ _ _)
        · exact hk
      · intro k c p hk hp
        rw [h1, getElem?_setCtl hr] at hk
        split at hk
        · rename_i he
          simp only [Option.some.injEq, Prod.mk.injEq] at hk
          exact ⟨r, by rw [he, hr, hk.1], h4⟩
        · exact ⟨p, hk, hp⟩
    simp only [step, ctlStep]
    split
    · exact same _ _ rfl rfl rfl
    · rename_i c hr; exact .begin_ n c hr rfl rfl rfl
    · rename_i hr
      split
      · exact same _ _ rfl rfl rfl
      · exact move _ _ _ _ hr rfl rfl rfl (by simp) (by simp)
    · rename_i hr; exact move _ _ _ _ hr rfl rfl rfl (by simp) (by simp)
    · rename_i c g todo hr; exact .source n c g todo hr rfl rfl rfl
    · rename_i c g q todo hr
      split
      · rename_i g' i b ht; exact .handler n c g q todo i hr rfl rfl rfl
      · exact same _ _ rfl rfl rfl
    · rename_i hr
      split
      · exact move _ _ _ _ hr rfl rfl rfl (by simp) (by simp)
      · exact same _ _ rfl rfl rfl
    · exact same _ _ rfl rfl rfl

theorem qinv_step {s : State G} (h : QInv s) (e : Ev G) : QInv (step s e) := by
  have keep : ∀ (k c : Nat), (∃ p, s.starts[k]? = some (c, p) ∧ p ≠ .pending) →
      ∃ p, (step s e).starts[k]? = some (c, p) ∧ p ≠ .pending := by
    rintro k c ⟨p, hp, hq⟩
    obtain ⟨p', h1, -, h3, -⟩ := starts_step s e k c p hp
    exact ⟨p', h1, h3 hq⟩
  have keep' : ∀ k : Nat, (∃ c p, s.starts[k]? = some (c, p) ∧ p ≠ .pending) →
      ∃ c p, (step s e).starts[k]? = some (c, p) ∧ p ≠ .pending := by
    rintro k ⟨c, hc⟩; exact ⟨c, keep k c hc⟩
  have hm := qmove s e
  generalize step s e = s' at *
  cases hm with
  | other _ h1 h2 h3 h4 =>
    refine ⟨?_, ?_, ?_⟩
    · intro n c p hn hp
      obtain ⟨p', h5, h6⟩ := h4 n c p hn hp
      rw [h1]; exact keep _ _ (h.queue n c p' h5 h6)
    · intro n c g q todo hn
      exact keep _ _ (h.arg n c g q todo (h3 n c g q todo hn))
    · rw [h2]
      intro a ha
      exact ⟨keep' _ (h.hand a ha).1, keep' _ (h.hand a ha).2⟩
  | begin_ n c hr h1 h2 h3 =>
    have hn : s'.starts[n]? = some (c, .entering) := by rw [h1, getElem?_setCtl hr]; simp
    refine ⟨?_, ?_, ?_⟩
    · intro k d p hk hp
      rw [h2]
      show ∃ p', s'.starts[if d = c then n else s.queue d]? = _ ∧ _
      by_cases hd : d = c
      · subst hd; rw [if_pos rfl]; exact ⟨_, hn, by simp⟩
      · rw [if_neg hd]
        rw [h1, getElem?_setCtl hr] at hk
        split at hk
        · simp only [Option.some.injEq, Prod.mk.injEq] at hk; exact absurd hk.1.symm hd
        · exact keep _ _ (h.queue k d p hk hp)
    · intro k d g q todo hk
      rw [h1, getElem?_setCtl hr] at hk
      split at hk
      · simp only [Option.some.injEq, Prod.mk.injEq] at hk; cases hk.2
      · exact keep _ _ (h.arg k d g q todo hk)
    · rw [h3]
      intro a ha
      exact ⟨keep' _ (h.hand a ha).1, keep' _ (h.hand a ha).2⟩
  | source n c g todo hr h1 h2 h3 =>
    refine ⟨?_, ?_, ?_⟩
    · intro k d p hk hp
      rw [h2]
      rw [h1, getElem?_setCtl hr] at hk
      split at hk
      · simp only [Option.some.injEq, Prod.mk.injEq] at hk
        rw [← hk.1]; exact keep _ _ (h.queue n c _ hr (by simp))
      · exact keep _ _ (h.queue k d p hk hp)
    · intro k d g' q todo' hk
      rw [h1, getElem?_setCtl hr] at hk
      split at hk
      · simp only [Option.some.injEq, Prod.mk.injEq, CPc.getting.injEq] at hk
        rw [← hk.2.2.1, ← hk.1]; exact keep _ _ (h.queue n c _ hr (by simp))
      · exact keep _ _ (h.arg k d g' q todo' hk)
    · rw [h3]
      intro a ha
      exact ⟨keep' _ (h.hand a ha).1, keep' _ (h.hand a ha).2⟩
  | handler n c g q todo i hr h1 h2 h3 =>
    refine ⟨?_, ?_, ?_⟩
    · intro k d p hk hp
      rw [h2]
      rw [h1, getElem?_setCtl hr] at hk
      split at hk
      · simp only [Option.some.injEq, Prod.mk.injEq] at hk
        rw [← hk.1]; exact keep _ _ (h.queue n c _ hr (by simp))
      · exact keep _ _ (h.queue k d p hk hp)
    · intro k d g' q' todo' hk
      rw [h1, getElem?_setCtl hr] at hk
      split at hk
      · simp only [Option.some.injEq, Prod.mk.injEq] at hk; cases hk.2
      · exact keep _ _ (h.arg k d g' q' todo' hk)
    · rw [h3]
      intro a ha
      rcases List.mem_append.1 ha with ha | ha
      · exact ⟨keep' _ (h.hand a ha).1, keep' _ (h.hand a ha).2⟩
      · rw [List.mem_singleton.1 ha]
        exact ⟨⟨c, keep n c ⟨_, hr, by simp⟩⟩, ⟨c, keep q c (h.arg n c g q todo hr)⟩⟩

theorem qinv_exec (es : List (Ev G)) : ∀ {s : State G}, QInv s → QInv (exec s es) := by
  induction es with
  | nil => intro s h; exact h
  | cons e es ih => intro s h; exact ih (qinv_step h e)

/-- The other calls of `start` of the controller `c` have not begun, or had reached their workers in the
state `s0`. -/
def Alone (s0 : State G) (n c : Nat) (s : State G) : Prop :=
  ∀ (n' : Nat) (p : CPc G), n' ≠ n → s.starts[n']? = some (c, p) → p = .pending ∨ s0.starts[n']? = some (c, .working)

/-- What a call that is alone does to the queues. -/
structure AInv (s0 : State G) (n c : Nat) (s : State G) : Prop where
  kept : ∀ (k d : Nat), s0.starts[k]? = some (d, .working) → s.starts[k]? = some (d, .working)
  own : Alone s0 n c s → ∀ p, s.starts[n]? = some (c, p) → p ≠ .pending → s.queue c = n ∧
    ∀ g q todo, p = .getting g q todo → q = n
  hand : Alone s0 n c s → (∀ d p, s.starts[n]? = some (d, p) → d = c) → ∀ h ∈ s.handlers, h.2.2 = n ↔ h.2.1 = n

theorem alone_back {s0 s : State G} {n c : Nat} (hk : ∀ (k d : Nat), s0.starts[k]? = some (d, .working) →
    s.starts[k]? = some (d, .working)) (e : Ev G) (h : Alone s0 n c (step s e)) : Alone s0 n c s := by
  intro n' p hn hp
  obtain ⟨p', h1, h2, h3, h4⟩ := starts_step s e n' c p hp
  rcases h n' p' hn h1 with h5 | h5
  · left
    refine Classical.byContradiction fun hc => h3 hc h5
  · exact .inr h5

theorem ainv_step {s0 s : State G} {n c : Nat} (hq : QInv s) (h : AInv s0 n c s) (e : Ev G) :
    AInv s0 n c (step s e) := by
  have hback := alone_back (n := n) (c := c) h.kept e
  have hst := starts_step s e
  have hkept : ∀ (k d : Nat), s0.starts[k]? = some (d, .working) → (step s e).starts[k]? = some (d, .working) := by
    intro k d hk
    obtain ⟨p', h1, -, -, h4⟩ := hst k d _ (h.kept k d hk)
    rw [h1, h4 rfl]
  have hbackc : (∀ d p, (step s e).starts[n]? = some (d, p) → d = c) → ∀ d p, s.starts[n]? = some (d, p) → d = c := by
    intro hc d p hp
    obtain ⟨p', h1, -⟩ := hst n d p hp
    exact hc d p' h1
  have hm := qmove s e
  generalize step s e = s' at *
  cases hm with
  | other _ h1 h2 h3 h4 =>
    refine ⟨hkept, ?_, ?_⟩
    · intro ha p hp hpp
      obtain ⟨p', h5, h6⟩ := h4 n c p hp hpp
      refine ⟨by rw [h1]; exact (h.own (hback ha) p' h5 h6).1, ?_⟩
      rintro g q todo rfl
      exact (h.own (hback ha) _ (h3 n c g q todo hp) (by simp)).2 g q todo rfl
    · intro ha hc; rw [h2]; exact h.hand (hback ha) (hbackc hc)
  | begin_ k d hr h1 h2 h3 =>
    refine ⟨hkept, ?_, ?_⟩
    · intro ha p hp hpp
      by_cases hkn : k = n
      · subst hkn
        rw [h1, getElem?_setCtl hr] at hp
        simp only [if_true, Option.some.injEq, Prod.mk.injEq] at hp
        obtain ⟨rfl, rfl⟩ := hp
        exact ⟨by rw [h2]; simp, by simp⟩
      · by_cases hd : d = c
        · subst hd
          have : s'.starts[k]? = some (d, .entering) := by rw [h1, getElem?_setCtl hr]; simp
          rcases ha k _ hkn this with h5 | h5
          · cases h5
          · have := h.kept k d h5
            rw [hr] at this; cases this
        · rw [h1, getElem?_setCtl hr, if_neg (Ne.symm hkn)] at hp
          obtain ⟨h5, h6⟩ := h.own (hback ha) p hp hpp
          refine ⟨?_, h6⟩
          rw [h2]; simp [Ne.symm hd, h5]
    · intro ha hc; rw [h3]; exact h.hand (hback ha) (hbackc hc)
  | source k d g todo hr h1 h2 h3 =>
    refine ⟨hkept, ?_, ?_⟩
    · intro ha p hp hpp
      rw [h2]
      rw [h1, getElem?_setCtl hr] at hp
      split at hp
      · rename_i hkn
        subst hkn
        simp only [Option.some.injEq, Prod.mk.injEq] at hp
        obtain ⟨rfl, rfl⟩ := hp
        have h5 := (h.own (hback ha) _ hr (by simp)).1
        refine ⟨h5, ?_⟩
        intro g' q todo' he
        simp only [CPc.getting.injEq] at he
        rw [← he.2.1]; exact h5
      · exact h.own (hback ha) p hp hpp
    · intro ha hc; rw [h3]; exact h.hand (hback ha) (hbackc hc)
  | handler k d g q todo i hr h1 h2 h3 =>
    refine ⟨hkept, ?_, ?_⟩
    · intro ha p hp hpp
      rw [h2]
      rw [h1, getElem?_setCtl hr] at hp
      split at hp
      · rename_i hkn
        subst hkn
        simp only [Option.some.injEq, Prod.mk.injEq] at hp
        obtain ⟨rfl, rfl⟩ := hp
        exact ⟨(h.own (hback ha) _ hr (by simp)).1, by simp⟩
      · exact h.own (hback ha) p hp hpp
    · intro ha hc
      rw [h3]
      intro a hmem
      rcases List.mem_append.1 hmem with hmem | hmem
      · exact h.hand (hback ha) (hbackc hc) a hmem
      · rw [List.mem_singleton.1 hmem]
        show q = n ↔ k = n
        constructor
        · rintro rfl
          refine Classical.byContradiction fun hkn => ?_
          obtain ⟨p', h5, -⟩ := hq.arg k d g q todo hr
          have hd : d = c := hbackc hc d p' h5
          subst hd
          rcases hback ha k _ hkn hr with h6 | h6
          · cases h6
          · have := h.kept k d h6
            rw [hr] at this; cases this
        · rintro rfl
          have hd : d = c := hbackc hc d _ hr
          subst hd
          exact (h.own (hback ha) _ hr (by simp)).2 g q todo rfl

theorem ainv_exec {s0 : State G} {n c : Nat} (es : List (Ev G)) : ∀ {s : State G}, QInv s → AInv s0 n c s →
    AInv s0 n c (exec s es) := by
  induction es with
  | nil => intro s _ h; exact h
  | cons e es ih => intro s hq h; exact ih (qinv_step hq e) (ainv_step hq h e)

/-- At the beginning of a call. -/
theorem ainv_refl {s : State G} {n c : Nat} (hq : QInv s)
    (hn : ∀ d p, s.starts[n]? = some (d, p) → p = .pending) : AInv s n c s := by
  refine ⟨fun _ _ => id, ?_, ?_⟩
  · intro _ p hp hpp; exact absurd (hn c p hp) hpp
  · intro _ _ a ha
    obtain ⟨⟨d, p, h1, h2⟩, d', p', h3, h4⟩ := hq.hand a ha
    constructor
    · intro h; rw [h] at h3; exact absurd (hn _ _ h3) h4
    · intro h; rw [h] at h1; exact absurd (hn _ _ h1) h2

/-- The queue of a call that is alone is fed by its own handlers. -/
theorem fed_eq_reg {s0 s : State G} {n c : Nat} {p : CPc G} (h : AInv s0 n c s) (ha : Alone s0 n c s)
    (hn : s.starts[n]? = some (c, p)) : fed s n = reg s n := by
  have hc : ∀ d p, s.starts[n]? = some (d, p) → d = c := by
    intro d p' hp
    rw [hn, Option.some.injEq, Prod.mk.injEq] at hp
    exact hp.1.symm
  have := h.hand ha hc
  unfold fed reg
  congr 1
  apply List.filter_congr
  intro a hmem
  have := this a hmem
  rw [Bool.eq_iff_iff]
  simpa using this

/-- The queue of the call `n` is fed by nothing and known to nobody who could feed it. -/
structure Lost (n c : Nat) (s : State G) : Prop where
  call : ∃ p, s.starts[n]? = some (c, p) ∧ p ≠ .pending
  queue : s.queue c ≠ n
  arg : ∀ (k d : Nat) (g : G) (q : Nat) (todo : List G), s.starts[k]? = some (d, .getting g q todo) → q ≠ n
  fed : fed s n = []

theorem lost_step {s : State G} {n c : Nat} (hq : QInv s) (h : Lost n c s) (e : Ev G) : Lost n c (step s e) := by
  have hcall : ∃ p, (step s e).starts[n]? = some (c, p) ∧ p ≠ .pending := by
    obtain ⟨p, h1, h2⟩ := h.call
    obtain ⟨p', h3, -, h4, -⟩ := starts_step s e n c p h1
    exact ⟨p', h3, h4 h2⟩
  have hm := qmove s e
  generalize step s e = s' at *
  obtain ⟨p, hp, hpp⟩ := h.call
  cases hm with
  | other _ h1 h2 h3 h4 =>
    refine ⟨hcall, by rw [h1]; exact h.queue, fun k d g q todo hk => h.arg k d g q todo (h3 k d g q todo hk), ?_⟩
    have := h.fed; unfold Manager.fed at this ⊢; rw [h2]; exact this
  | begin_ k d hr h1 h2 h3 =>
    have hkn : k ≠ n := by rintro rfl; rw [hp, Option.some.injEq, Prod.mk.injEq] at hr; exact hpp hr.2
    refine ⟨hcall, ?_, ?_, ?_⟩
    · rw [h2]; simp only; split
      · exact hkn
      · exact h.queue
    · intro k' d' g q todo hk
      rw [h1, getElem?_setCtl hr] at hk
      split at hk
      · simp only [Option.some.injEq, Prod.mk.injEq] at hk; cases hk.2
      · exact h.arg k' d' g q todo hk
    · have := h.fed; unfold Manager.fed at this ⊢; rw [h3]; exact this
  | source k d g todo hr h1 h2 h3 =>
    refine ⟨hcall, by rw [h2]; exact h.queue, ?_, ?_⟩
    · intro k' d' g' q todo' hk
      rw [h1, getElem?_setCtl hr] at hk
      split at hk
      · simp only [Option.some.injEq, Prod.mk.injEq, CPc.getting.injEq] at hk
        rw [← hk.2.2.1]
        by_cases hd : d = c
        · rw [hd]; exact h.queue
        · intro he
          obtain ⟨p', h5, -⟩ := hq.queue k d _ hr (by simp)
          rw [he, hp, Option.some.injEq, Prod.mk.injEq] at h5
          exact hd h5.1.symm
      · exact h.arg k' d' g' q todo' hk
    · have := h.fed; unfold Manager.fed at this ⊢; rw [h3]; exact this
  | handler k d g q todo i hr h1 h2 h3 =>
    have hqn := h.arg k d g q todo hr
    refine ⟨hcall, by rw [h2]; exact h.queue, ?_, ?_⟩
    · intro k' d' g' q' todo' hk
      rw [h1, getElem?_setCtl hr] at hk
      split at hk
      · simp only [Option.some.injEq, Prod.mk.injEq] at hk; cases hk.2
      · exact h.arg k' d' g' q' todo' hk
    · have := h.fed
      unfold Manager.fed at this ⊢
      rw [h3, List.filter_append, List.map_append, this]
      simp [hqn]

theorem lost_exec {n c : Nat} (es : List (Ev G)) : ∀ {s : State G}, QInv s → Lost n c s →
    Lost n c (exec s es) := by
  induction es with
  | nil => intro s _ h; exact h
  | cons e es ih => intro s hq h; exact ih (qinv_step hq e) (lost_step hq h e)

end Aiok8s.Manager
