import Verif.Spec.Builder
import Verif.Proof.Manager
/-! # Invariants of `build_controller` -/
set_option linter.unusedSectionVars false
set_option linter.unusedSimpArgs false
namespace Aiok8s.Builder
open Aiok8s
variable {G : Type} [DecidableEq G]

theorem exec_append (as bs : List (Ev G)) : ∀ s : State G, exec s (as ++ bs) = exec (exec s as) bs := by
  induction as with
  | nil => intro s; rfl
  | cons a as ih => intro s; exact ih _

/-- A move seen by the manager. -/
def moves (s : State G) : Ev G → List (Manager.Ev G)
  | .mgr e => if others e then [e] else []
  | .build b g =>
    match s.builds b with
    | .idle =>
      match g with
      | none => [.add (2 * b)]
      | some g => [.add (2 * b), .cache (.call (4 * b + 1) g)]
    | _ => []
  | .go b =>
    match s.builds b with
    | .getting g =>
      match s.m.im.tasks (4 * b + 1) with
      | .returned _ _ _ => if s.m.ctlLock (2 * b) then [] else [.watch (2 * b) g]
      | _ => []
    | _ => []

theorem step_moves (s : State G) (e : Ev G) : (step s e).m = Manager.exec s.m (moves s e) := by
  cases e with
  | mgr e => simp only [step, moves]; split <;> rfl
  | build b g =>
    cases hb : s.builds b with
    | idle => cases g <;> simp [step, moves, hb, Manager.exec, State.setBuild]
    | getting g' => simp [step, moves, hb, Manager.exec]
    | done g' => simp [step, moves, hb, Manager.exec]
    | failed => simp [step, moves, hb, Manager.exec]
  | go b =>
    cases hb : s.builds b with
    | getting g =>
      cases ht : s.m.im.tasks (4 * b + 1) with
      | returned g' i st =>
        by_cases hl : s.m.ctlLock (2 * b) = true
        · simp [step, moves, hb, ht, hl, Manager.exec]
        · simp [step, moves, hb, ht, hl, Manager.exec, State.setBuild]
      | _ => simp [step, moves, hb, ht, Manager.exec]
    | _ => simp [step, moves, hb, Manager.exec]

theorem moves_start (s : State G) (e : Ev G) : ((moves s e).countP Manager.isStart) ≤ if isStart e then 1 else 0 := by
  cases e with
  | mgr e =>
    simp only [moves]
    split
    · simp only [isStart, List.countP_cons, List.countP_nil]
      split <;> simp_all
    · simp
  | build b g =>
    simp only [moves]
    split
    · cases g <;> simp [Manager.isStart, isStart]
    · simp
  | go b =>
    simp only [moves]
    split
    · split
      · split <;> simp [Manager.isStart, isStart]
      · simp
    · simp

/-- The run seen by the manager. -/
def trace (s : State G) : List (Ev G) → List (Manager.Ev G)
  | [] => []
  | e :: es => moves s e ++ trace (step s e) es

theorem exec_trace (es : List (Ev G)) : ∀ s : State G, (exec s es).m = Manager.exec s.m (trace s es) := by
  induction es with
  | nil => intro s; rfl
  | cons e es ih =>
    intro s
    show (exec (step s e) es).m = _
    rw [ih, trace, Manager.exec_append, step_moves]

theorem trace_start (es : List (Ev G)) : ∀ s : State G,
    (trace s es).countP Manager.isStart ≤ es.countP isStart := by
  induction es with
  | nil => intro s; exact le_refl _
  | cons e es ih =>
    intro s
    rw [trace, List.countP_append, List.countP_cons]
    have := moves_start s e
    have := ih (step s e)
    omega

theorem trace_no_start (es : List (Ev G)) (s : State G) (h : ∀ e ∈ es, isStart e = false) :
    ∀ e ∈ trace s es, Manager.isStart e = false := by
  have h1 := trace_start es s
  have h2 : es.countP isStart = 0 := by
    rw [List.countP_eq_zero]; intro a ha; simp [h a ha]
  rw [h2] at h1
  have h3 := List.countP_eq_zero.1 (Nat.le_zero.1 h1)
  intro e he
  simpa using h3 e he

/-! ## What moves of others leave alone -/

theorem ctl_frame (s : Manager.State G) (n : Nat) : (Manager.ctlStep s n).runnables = s.runnables ∧
    (Manager.ctlStep s n).watches = s.watches := by
  simp only [Manager.ctlStep]
  repeat' split
  all_goals exact ⟨rfl, rfl⟩

theorem frame (s : Manager.State G) (e : Manager.Ev G) (he : others e = true) (b : Nat) :
    (Manager.step s e).runnables.count (2 * b) = s.runnables.count (2 * b) ∧
    (Manager.step s e).watches (2 * b) = s.watches (2 * b) := by
  cases e with
  | cache e => simp only [Manager.step]; split <;> exact ⟨rfl, rfl⟩
  | add c =>
    simp only [others, beq_iff_eq] at he
    refine ⟨?_, rfl⟩
    have : c ≠ 2 * b := by omega
    simp [Manager.step, List.count_cons, this]
  | watch c g =>
    simp only [others, beq_iff_eq] at he
    simp only [Manager.step]
    split
    · exact ⟨rfl, rfl⟩
    · refine ⟨rfl, ?_⟩
      have : 2 * b ≠ c := by omega
      simp [this]
  | start m => simp only [Manager.step]; split <;> exact ⟨rfl, rfl⟩
  | enter m =>
    simp only [Manager.step]; split
    · split
      · exact ⟨rfl, rfl⟩
      · split <;> exact ⟨rfl, rfl⟩
    · exact ⟨rfl, rfl⟩
  | cacheTask => simp only [Manager.step]; split <;> exact ⟨rfl, rfl⟩
  | poll m =>
    simp only [Manager.step]; split
    · split <;> exact ⟨rfl, rfl⟩
    · exact ⟨rfl, rfl⟩
  | ctl n =>
    obtain ⟨h1, h2⟩ := ctl_frame s n
    simp only [Manager.step, h1, h2, and_self]

theorem frame_tasks (s : Manager.State G) (e : Manager.Ev G) (he : others e = true) (b : Nat) :
    (s.im.tasks (4 * b + 1) = .idle → (Manager.step s e).im.tasks (4 * b + 1) = .idle) ∧
    (∀ g, Manager.asksFor g (s.im.tasks (4 * b + 1)) → Manager.asksFor g ((Manager.step s e).im.tasks (4 * b + 1))) := by
  have same : ∀ s' : Manager.State G, s'.im = s.im →
      (s.im.tasks (4 * b + 1) = .idle → s'.im.tasks (4 * b + 1) = .idle) ∧
      (∀ g, Manager.asksFor g (s.im.tasks (4 * b + 1)) → Manager.asksFor g (s'.im.tasks (4 * b + 1))) := by
    intro s' h; rw [h]; exact ⟨id, fun _ => id⟩
  have im : ∀ e' : InformersMap.Ev G, (∀ g, e' ≠ .call (4 * b + 1) g) → ∀ s' : Manager.State G,
      s'.im = InformersMap.step s.im e' →
      (s.im.tasks (4 * b + 1) = .idle → s'.im.tasks (4 * b + 1) = .idle) ∧
      (∀ g, Manager.asksFor g (s.im.tasks (4 * b + 1)) → Manager.asksFor g (s'.im.tasks (4 * b + 1))) := by
    intro e' hk s' h
    rw [h]
    obtain ⟨a, -, c⟩ := Manager.tasks_im_step s.im e' (4 * b + 1) hk
    exact ⟨a, c⟩
  cases e with
  | cache e =>
    simp only [Manager.step]; split
    · refine im e ?_ _ rfl
      rintro g rfl
      simp only [others, beq_iff_eq] at he
      omega
    · exact same _ rfl
  | add c => exact same _ rfl
  | watch c g => simp only [Manager.step]; split <;> exact same _ rfl
  | start m => simp only [Manager.step]; split <;> exact same _ rfl
  | enter m =>
    simp only [Manager.step]; split
    · split
      · exact same _ rfl
      · split <;> exact same _ rfl
    · exact same _ rfl
  | cacheTask =>
    simp only [Manager.step]; split
    · exact same _ rfl
    · exact im .start (by simp) _ rfl
  | poll m =>
    simp only [Manager.step]; split
    · split <;> exact same _ rfl
    · exact same _ rfl
  | ctl n =>
    simp only [Manager.step, Manager.ctlStep]
    split
    · exact same _ rfl
    · exact same _ rfl
    · split <;> exact same _ rfl
    · exact same _ rfl
    · rename_i g _ _
      refine im (.call (2 * n) g) ?_ _ rfl
      intro g' h
      injection h with h1 _
      omega
    · split <;> exact same _ rfl
    · split <;> exact same _ rfl
    · exact same _ rfl

/-! ## The calls -/

/-- What holds of the call `b`. -/
def CallInv (s : State G) (b : Nat) : Prop :=
  match s.builds b with
  | .idle => s.m.runnables.count (2 * b) = 0 ∧ s.m.watches (2 * b) = [] ∧ s.m.im.tasks (4 * b + 1) = .idle
  | .getting g => s.m.runnables.count (2 * b) = 1 ∧ s.m.watches (2 * b) = [] ∧
      Manager.asksFor g (s.m.im.tasks (4 * b + 1))
  | .done g => s.m.runnables.count (2 * b) = 1 ∧ s.m.watches (2 * b) = [g] ∧
      ∃ i, s.m.im.map.get? g = some i
  | .failed => s.m.runnables.count (2 * b) = 1 ∧ s.m.watches (2 * b) = []

structure Inv (s : State G) : Prop where
  im : InformersMap.Inv s.m.im
  calls : ∀ b, CallInv s b

theorem inv_init : Inv (init : State G) := ⟨InformersMap.inv_init, fun b => ⟨rfl, rfl, rfl⟩⟩

theorem CallInv.keep {s s' : State G} {b : Nat} (h : CallInv s b) (hb : s'.builds b = s.builds b)
    (h1 : s'.m.runnables.count (2 * b) = s.m.runnables.count (2 * b))
    (h2 : s'.m.watches (2 * b) = s.m.watches (2 * b))
    (h3 : s.m.im.tasks (4 * b + 1) = .idle → s'.m.im.tasks (4 * b + 1) = .idle)
    (h4 : ∀ g, Manager.asksFor g (s.m.im.tasks (4 * b + 1)) → Manager.asksFor g (s'.m.im.tasks (4 * b + 1)))
    (h5 : ∀ g i, s.m.im.map.get? g = some i → s'.m.im.map.get? g = some i) : CallInv s' b := by
  unfold CallInv at h ⊢
  rw [hb]
  cases hp : s.builds b with
  | idle =>
    rw [hp] at h
    simp only at h ⊢
    exact ⟨h1.trans h.1, h2.trans h.2.1, h3 h.2.2⟩
  | getting g =>
    rw [hp] at h
    simp only at h ⊢
    exact ⟨h1.trans h.1, h2.trans h.2.1, h4 g h.2.2⟩
  | done g =>
    rw [hp] at h
    simp only at h ⊢
    obtain ⟨a, c, i, hi⟩ := h
    exact ⟨h1.trans a, h2.trans c, i, h5 g i hi⟩
  | failed =>
    rw [hp] at h
    simp only at h ⊢
    exact ⟨h1.trans h.1, h2.trans h.2⟩

theorem inv_step {s : State G} (h : Inv s) (e : Ev G) : Inv (step s e) := by
  have him : InformersMap.Inv (step s e).m.im := by
    rw [step_moves]; exact Manager.im_inv_exec _ h.im
  refine ⟨him, ?_⟩
  clear him
  intro b
  cases e with
  | mgr e =>
    simp only [step]
    split
    · rename_i he
      obtain ⟨h1, h2⟩ := frame s.m e he b
      obtain ⟨h3, h4⟩ := frame_tasks s.m e he b
      exact (h.calls b).keep rfl h1 h2 h3 h4 (fun g i hg => Manager.get_step e hg)
    · exact h.calls b
  | build d g =>
    simp only [step]
    split
    · rename_i hd
      by_cases hbd : b = d
      · subst hbd
        have hc := h.calls b
        unfold CallInv at hc
        rw [hd] at hc
        simp only at hc
        cases g with
        | none =>
          simp [CallInv, State.setBuild, Manager.step, hc.1, hc.2.1]
        | some g =>
          have h1 : (4 * b + 1) % 2 = 1 := by omega
          simp [CallInv, State.setBuild, Manager.step, Manager.foreign, hc.1, hc.2.1, h1, InformersMap.step, hc.2.2,
            InformersMap.State.setPc, Manager.asksFor]
      · have hne : 2 * d ≠ 2 * b := by omega
        have hnt : 4 * b + 1 ≠ 4 * d + 1 := by omega
        have h1 : (4 * d + 1) % 2 = 1 := by omega
        cases g with
        | none =>
          refine (h.calls b).keep (by simp [State.setBuild, hbd]) ?_ rfl id (fun _ => id) (fun _ _ => id)
          simp [State.setBuild, Manager.step, List.count_cons, hne]
        | some g =>
          obtain ⟨a, -, c⟩ := Manager.tasks_im_step s.m.im (.call (4 * d + 1) g) (4 * b + 1)
            (by intro g' he; injection he with he _; omega)
          refine (h.calls b).keep (by simp [State.setBuild, hbd]) ?_ ?_ ?_ ?_ ?_
          · simp [State.setBuild, Manager.step, List.count_cons, hne, Manager.foreign, h1]
          · simp [State.setBuild, Manager.step, Manager.foreign, h1]
          · simpa [State.setBuild, Manager.step, Manager.foreign, h1] using a
          · simpa [State.setBuild, Manager.step, Manager.foreign, h1] using c
          · intro g' i hg
            have := InformersMap.map_step s.m.im (.call (4 * d + 1) g) g' i hg
            simpa [State.setBuild, Manager.step, Manager.foreign, h1] using this
    · exact h.calls b
  | go d =>
    simp only [step]
    split
    · rename_i g hd
      split
      · rename_i g' i st ht
        split
        · exact h.calls b
        · rename_i hl
          have hl' : s.m.ctlLock (2 * d) = false := by simpa using hl
          by_cases hbd : b = d
          · subst hbd
            have hc := h.calls b
            unfold CallInv at hc
            rw [hd] at hc
            simp only [ht, Manager.asksFor] at hc
            have hg : s.m.im.map.get? g = some i := by
              rw [← hc.2.2]
              exact h.im.given (4 * b + 1) g' i (by rw [ht]; rfl)
            simp [CallInv, State.setBuild, Manager.step, hl', hc.1, hc.2.1, hg]
          · have hne : 2 * b ≠ 2 * d := by omega
            refine (h.calls b).keep (by simp [State.setBuild, hbd]) ?_ ?_ ?_ ?_ ?_ <;>
              simp [State.setBuild, Manager.step, hl', hne, hbd]
      · exact h.calls b
    · exact h.calls b

theorem inv_exec (es : List (Ev G)) : ∀ {s : State G}, Inv s → Inv (exec s es) := by
  induction es with
  | nil => intro s h; exact h
  | cons e es ih => intro s h; exact ih (inv_step h e)

theorem done_step {s : State G} {b : Nat} {g : G} (h : s.builds b = .done g) (e : Ev G) :
    (step s e).builds b = .done g := by
  cases e with
  | mgr e => simp only [step]; split <;> exact h
  | build d g' =>
    simp only [step]
    split
    · rename_i hd
      have : b ≠ d := by rintro rfl; rw [h] at hd; cases hd
      cases g' <;> simp [State.setBuild, this, h]
    · exact h
  | go d =>
    simp only [step]
    split
    · rename_i g' hd
      have : b ≠ d := by rintro rfl; rw [h] at hd; cases hd
      split
      · split
        · exact h
        · simp [State.setBuild, this, h]
      · exact h
    · exact h

theorem done_exec (es : List (Ev G)) {b : Nat} {g : G} : ∀ {s : State G}, s.builds b = .done g →
    (exec s es).builds b = .done g := by
  induction es with
  | nil => intro s h; exact h
  | cons e es ih => intro s h; exact ih (done_step h e)

/-! ## A call of `start` that found no watches -/

/-- The call `n` of `_Controller.start` is past the mutex and has found nothing to watch. -/
structure Blind (n c : Nat) (s : Manager.State G) : Prop where
  call : ∃ p, s.starts[n]? = some (c, p) ∧ (p = .watching [] ∨ (∃ fs, p = .syncing fs) ∨ p = .working)
  reg : Manager.reg s n = []

theorem blind_ctl {s : Manager.State G} {n c : Nat} (h : Blind n c s) (k : Nat) : Blind n c (Manager.ctlStep s k) := by
  obtain ⟨⟨p, hp, hq⟩, hf⟩ := h
  by_cases hk : k = n
  · subst hk
    rcases hq with rfl | ⟨fs, rfl⟩ | rfl
    · simp only [Manager.ctlStep, hp]
      refine ⟨⟨.syncing s.im.map.values, by rw [Manager.getElem?_setCtl hp]; simp, .inr (.inl ⟨_, rfl⟩)⟩, hf⟩
    · simp only [Manager.ctlStep, hp]
      split
      · refine ⟨⟨.working, ?_, .inr (.inr rfl)⟩, hf⟩
        show (s.setCtl k c .working).starts[k]? = _
        rw [Manager.getElem?_setCtl hp]; simp
      · exact ⟨⟨_, hp, .inr (.inl ⟨_, rfl⟩)⟩, hf⟩
    · simp only [Manager.ctlStep, hp]
      exact ⟨⟨_, hp, .inr (.inr rfl)⟩, hf⟩
  · have keep : ∀ (s' : Manager.State G) (c' : Nat) (q r : Manager.CPc G), s.starts[k]? = some (c', r) →
        s'.starts = (s.setCtl k c' q).starts → Manager.reg s' n = Manager.reg s n → Blind n c s' := by
      intro s' c' q r hr hs hf'
      refine ⟨⟨p, ?_, hq⟩, hf'.trans hf⟩
      rw [hs, Manager.getElem?_setCtl hr, if_neg (Ne.symm hk)]; exact hp
    have here : Blind n c s := ⟨⟨p, hp, hq⟩, hf⟩
    simp only [Manager.ctlStep]
    split
    · exact here
    · rename_i hr; exact keep _ _ _ _ hr rfl rfl
    · rename_i hr
      split
      · exact here
      · exact keep _ _ _ _ hr rfl rfl
    · rename_i hr; exact keep _ _ _ _ hr rfl rfl
    · rename_i hr; exact keep _ _ _ _ hr rfl rfl
    · rename_i hr
      split
      · refine keep _ _ _ _ hr rfl ?_
        simp [Manager.reg, List.filter_append, hk]
      · exact here
    · rename_i hr
      split
      · exact keep _ _ _ _ hr rfl rfl
      · exact here
    · exact here

theorem blind_startAll {s : Manager.State G} {n c : Nat} (h : Blind n c s) : Blind n c (Manager.startAll s) := by
  obtain ⟨⟨p, hp, hq⟩, hf⟩ := h
  refine ⟨⟨p, ?_, hq⟩, hf⟩
  have hlt : n < s.starts.length := (List.getElem?_eq_some_iff.1 hp).1
  simp only [Manager.startAll]
  rw [List.getElem?_append_left hlt]; exact hp

theorem blind_step {s : Manager.State G} {n c : Nat} (h : Blind n c s) (e : Manager.Ev G) :
    Blind n c (Manager.step s e) := by
  have same : ∀ s' : Manager.State G, s'.starts = s.starts → s'.handlers = s.handlers → Blind n c s' := by
    intro s' h1 h2
    refine ⟨?_, ?_⟩
    · rw [h1]; exact h.call
    · simp only [Manager.reg, h2]; exact h.reg
  have all : ∀ s' : Manager.State G, s'.starts = (Manager.startAll s).starts → s'.handlers = s.handlers →
      Blind n c s' := by
    intro s' h1 h2
    have := blind_startAll h
    refine ⟨?_, ?_⟩
    · rw [h1]; exact this.call
    · simp only [Manager.reg, h2]; exact h.reg
  cases e with
  | cache e => simp only [Manager.step]; split; exacts [same _ rfl rfl, h]
  | add c => exact same _ rfl rfl
  | watch c g => simp only [Manager.step]; split; exacts [h, same _ rfl rfl]
  | start m => simp only [Manager.step]; split; exacts [same _ rfl rfl, h]
  | enter m =>
    simp only [Manager.step]; split
    · split
      · exact h
      · split
        · exact all _ rfl rfl
        · exact same _ rfl rfl
    · exact h
  | cacheTask => simp only [Manager.step]; split; exacts [h, same _ rfl rfl]
  | poll m =>
    simp only [Manager.step]; split
    · split
      · exact all _ rfl rfl
      · exact h
    · exact h
  | ctl k => exact blind_ctl h k

theorem blind_exec (es : List (Manager.Ev G)) {n c : Nat} : ∀ {s : Manager.State G}, Blind n c s →
    Blind n c (Manager.exec s es) := by
  induction es with
  | nil => intro s h; exact h
  | cons e es ih => intro s h; exact ih (blind_step h e)

/-- A call of `start` past the mutex of a controller without watches. -/
theorem blind_of {s : Manager.State G} {N : Nat → Prop} {W : Nat → List G} (h : Manager.CInv N W s) {n c : Nat}
    {p : Manager.CPc G} (hn : s.starts[n]? = some (c, p)) (hb : p ≠ .pending) (hp : p ≠ .entering)
    (hw : s.watches c = []) :
    Blind n c s := by
  have hc := h.call n c p hn
  have nil : ∀ is, Manager.For s [] is → is = [] := by
    intro is h; cases h; rfl
  cases p with
  | pending => exact absurd rfl hb
  | entering => exact absurd rfl hp
  | watching todo =>
    obtain ⟨-, -, d, h1, h2⟩ := hc
    rw [hw] at h1
    have h3 := List.append_eq_nil_iff.1 h1.symm
    rw [h3.1] at h2
    refine ⟨⟨_, hn, .inl (by rw [h3.2])⟩, nil _ h2⟩
  | getting g q todo =>
    obtain ⟨-, -, d, h1, h2⟩ := hc
    rw [hw] at h1
    simp at h1
  | syncing fs =>
    obtain ⟨-, h1, -⟩ := hc
    rw [hw] at h1
    exact ⟨⟨_, hn, .inr (.inl ⟨_, rfl⟩)⟩, nil _ h1⟩
  | working =>
    obtain ⟨ws, -, h1, h2, -⟩ := hc
    rw [hw] at h1
    rw [List.prefix_nil.1 h1] at h2
    exact ⟨⟨_, hn, .inr (.inr rfl)⟩, nil _ h2⟩

theorem started_added_step {s : Manager.State G} (h : ∀ c ∈ s.starts.map (·.1), c ∈ s.runnables) (e : Manager.Ev G) :
    ∀ c ∈ (Manager.step s e).starts.map (·.1), c ∈ (Manager.step s e).runnables := by
  have all : ∀ c ∈ (Manager.startAll s).starts.map (·.1), c ∈ s.runnables := by
    intro c hc
    simp only [Manager.startAll, List.map_append, List.mem_append] at hc
    rcases hc with hc | hc
    · exact h c hc
    · simpa using hc
  cases e with
  | cache e => simp only [Manager.step]; split <;> exact h
  | add d => intro c hc; exact List.mem_append_left _ (h c hc)
  | watch c g => simp only [Manager.step]; split <;> exact h
  | start m => simp only [Manager.step]; split <;> exact h
  | enter m =>
    simp only [Manager.step]; split
    · split
      · exact h
      · split
        · exact all
        · exact h
    · exact h
  | cacheTask => simp only [Manager.step]; split <;> exact h
  | poll m =>
    simp only [Manager.step]; split
    · split
      · exact all
      · exact h
    · exact h
  | ctl n => simp only [Manager.step, Manager.ctl_fst, (ctl_frame s n).1]; exact h

theorem started_added (es : List (Manager.Ev G)) : ∀ {s : Manager.State G}, (∀ c ∈ s.starts.map (·.1), c ∈ s.runnables) →
    ∀ c ∈ (Manager.exec s es).starts.map (·.1), c ∈ (Manager.exec s es).runnables := by
  induction es with
  | nil => intro s h; exact h
  | cons e es ih => intro s h; exact ih (started_added_step h e)

theorem free_step {s : Manager.State G} (h : s.starts = [] → ∀ c, s.ctlLock c = false) (e : Manager.Ev G) :
    (Manager.step s e).starts = [] → ∀ c, (Manager.step s e).ctlLock c = false := by
  have all : (Manager.startAll s).starts = [] → ∀ c, s.ctlLock c = false := by
    intro h'
    exact h (List.append_eq_nil_iff.1 h').1
  cases e with
  | cache e => simp only [Manager.step]; split <;> exact h
  | add d => exact h
  | watch c g => simp only [Manager.step]; split <;> exact h
  | start m => simp only [Manager.step]; split <;> exact h
  | enter m =>
    simp only [Manager.step]; split
    · split
      · exact h
      · split
        · exact all
        · exact h
    · exact h
  | cacheTask => simp only [Manager.step]; split <;> exact h
  | poll m =>
    simp only [Manager.step]; split
    · split
      · exact all
      · exact h
    · exact h
  | ctl n =>
    intro hn
    have h1 := Manager.ctl_fst s n
    simp only [Manager.step] at hn
    rw [hn] at h1
    have h2 : s.starts = [] := by simpa using h1.symm
    simp only [Manager.step, Manager.ctlStep, h2, List.getElem?_nil]
    exact h h2

theorem free_exec (es : List (Manager.Ev G)) : ∀ {s : Manager.State G}, (s.starts = [] → ∀ c, s.ctlLock c = false) →
    (Manager.exec s es).starts = [] → ∀ c, (Manager.exec s es).ctlLock c = false := by
  induction es with
  | nil => intro s h; exact h
  | cons e es ih => intro s h; exact ih (free_step h e)

/-- Moves that the manager and its controllers make by themselves are moves of the whole. -/
theorem lift_exec (as : List (Manager.Ev G)) (h : ∀ e ∈ as, others e = true) : ∀ s : State G,
    (exec s (as.map .mgr)).m = Manager.exec s.m as ∧ (exec s (as.map .mgr)).builds = s.builds := by
  induction as with
  | nil => intro s; exact ⟨rfl, rfl⟩
  | cons a as ih =>
    intro s
    have ha := h a (by simp)
    have := ih (fun e he => h e (by simp [he])) (step s (.mgr a))
    simpa [exec, Manager.exec, step, ha] using this

/-! ## Before `manager.start` is called -/

/-- A caller of `get` that has not seen the cache started. -/
def calm : InformersMap.Pc G → Prop
  | .looked _ _ st => st = false
  | .waiting _ _ => False
  | _ => True

structure Calm (s : InformersMap.State G) : Prop where
  not : s.started = false
  calm : ∀ c, calm (s.tasks c)

theorem calm_setPc {s : InformersMap.State G} (h : Calm s) (c : Nat) {p : InformersMap.Pc G} (hp : calm p) :
    Calm (s.setPc c p) := by
  refine ⟨h.not, fun d => ?_⟩
  simp only [InformersMap.State.setPc]
  split
  · exact hp
  · exact h.calm d

theorem calm_step {s : InformersMap.State G} (h : Calm s) (e : InformersMap.Ev G) (he : Manager.foreign e = true) :
    Calm (InformersMap.step s e) := by
  cases e with
  | call d g => simp only [InformersMap.step]; split; exacts [calm_setPc h _ trivial, calm_setPc h _ trivial, h]
  | look d => simp only [InformersMap.step]; split; exacts [calm_setPc h _ h.not, h]
  | make d =>
    simp only [InformersMap.step]; split
    · rename_i g found st hd
      have hst : st = false := by have := h.calm d; rw [hd] at this; exact this
      have : Calm (InformersMap.orAdd s g found).1 := by
        cases found with
        | some j => exact h
        | none =>
          simp only [InformersMap.orAdd, InformersMap.addInformer]; split
          · exact h
          · exact ⟨h.not, h.calm⟩
      simp only [hst, Bool.false_and, Bool.false_eq_true, if_false]
      exact calm_setPc this _ trivial
    · exact h
  | poll d =>
    simp only [InformersMap.step]; split
    · split
      · exact calm_setPc h _ trivial
      · exact h
    · exact h
  | start => simp [Manager.foreign] at he
  | sync i =>
    simp only [InformersMap.step]; split
    · exact ⟨h.not, h.calm⟩
    · exact h

/-- Nothing has been started. -/
structure Quiet (s : Manager.State G) : Prop where
  fresh : Manager.Fresh s
  free : ∀ c, s.ctlLock c = false
  im : Calm s.im
  tasks : s.cacheTasks = 0

theorem quiet_init : Quiet (Manager.init : Manager.State G) :=
  ⟨Manager.fresh_init, fun _ => rfl, ⟨rfl, fun _ => trivial⟩, rfl⟩

theorem quiet_step {s : Manager.State G} (h : Quiet s) (e : Manager.Ev G) (he : Manager.isStart e = false) :
    Quiet (Manager.step s e) := by
  have hf := Manager.fresh_step h.fresh e he
  have hidle := h.fresh.idle
  have hst := h.fresh.none
  cases e with
  | cache e =>
    revert hf
    simp only [Manager.step]; split
    · rename_i hfo; intro hf; exact ⟨hf, h.free, calm_step h.im e hfo, h.tasks⟩
    · intro _; exact h
  | add d => exact ⟨hf, h.free, h.im, h.tasks⟩
  | watch d g =>
    revert hf
    simp only [Manager.step]; split <;> (intro hf; exact ⟨hf, h.free, h.im, h.tasks⟩)
  | start m => simp [Manager.isStart] at he
  | enter m => simp only [Manager.step, hidle]; exact h
  | cacheTask => simp only [Manager.step, h.tasks, if_true]; exact h
  | poll m => simp only [Manager.step, hidle]; exact h
  | ctl n => simp only [Manager.step, Manager.ctlStep, hst, List.getElem?_nil]; exact h

theorem quiet_exec (es : List (Manager.Ev G)) : ∀ {s : Manager.State G}, Quiet s →
    (∀ e ∈ es, Manager.isStart e = false) → Quiet (Manager.exec s es) := by
  induction es with
  | nil => intro s h _; exact h
  | cons e es ih => intro s h he; exact ih (quiet_step h e (he e (by simp))) (fun e' h' => he e' (by simp [h']))

theorem quiet_run (es : List (Ev G)) (h : ∀ e ∈ es, isStart e = false) : Quiet (exec init es).m := by
  rw [exec_trace]
  exact quiet_exec _ quiet_init (trace_no_start es init h)

/-- A caller of `get` comes to its end before the cache is started. -/
theorem asked {s : State G} {b : Nat} {g : G} (hc : Calm s.m.im) (hask : Manager.asksFor g (s.m.im.tasks (4 * b + 1))) :
    ∃ more, (∀ e ∈ more, stepOf b e = true) ∧ (exec s more).builds = s.builds ∧
      (exec s more).m.ctlLock = s.m.ctlLock ∧ ∃ i st, (exec s more).m.im.tasks (4 * b + 1) = .returned g i st := by
  have look : ∀ (s : State G) (found : Option Nat) (g : G), s.m.im.tasks (4 * b + 1) = .looked g found false →
      (exec s [.mgr (.cache (.make (4 * b + 1)))]).builds = s.builds ∧
      (exec s [.mgr (.cache (.make (4 * b + 1)))]).m.ctlLock = s.m.ctlLock ∧
      ∃ i st, (exec s [.mgr (.cache (.make (4 * b + 1)))]).m.im.tasks (4 * b + 1) = .returned g i st := by
    intro s found g ht
    refine ⟨rfl, rfl, ?_⟩
    simp [exec, step, others, Manager.step, Manager.foreign, InformersMap.step, ht, InformersMap.State.setPc]
  have hcalm := hc.calm (4 * b + 1)
  cases ht : s.m.im.tasks (4 * b + 1) with
  | idle => rw [ht] at hask; exact hask.elim
  | entering g' =>
    rw [ht] at hask
    have hg : g' = g := hask
    subst hg
    have h1 : (step s (.mgr (.cache (.look (4 * b + 1))))).m.im.tasks (4 * b + 1) =
        .looked g' (s.m.im.map.get? g') false := by
      simp [step, others, Manager.step, Manager.foreign, InformersMap.step, ht, InformersMap.State.setPc, hc.not]
    refine ⟨[.mgr (.cache (.look (4 * b + 1))), .mgr (.cache (.make (4 * b + 1)))], by simp [stepOf], ?_⟩
    exact look _ _ _ h1
  | looked g' found st =>
    rw [ht] at hask hcalm
    have hg : g' = g := hask
    have hs : st = false := hcalm
    subst hg hs
    exact ⟨[.mgr (.cache (.make (4 * b + 1)))], by simp [stepOf], look _ _ _ ht⟩
  | waiting g' i => rw [ht] at hcalm; exact hcalm.elim
  | returned g' i st =>
    rw [ht] at hask
    have hg : g' = g := hask
    subst hg
    exact ⟨[], by simp, rfl, rfl, i, st, ht⟩

end Aiok8s.Builder
