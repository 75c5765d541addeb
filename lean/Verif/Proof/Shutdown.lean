import Verif.Spec.Shutdown
/-!
# Lemmas about the tasks below `manager.start`
-/
namespace Aiok8s.Shutdown

/-- What holds of a controller. -/
structure CtlInv (c : Ctl) : Prop where
  empty : c.pc = .pending ∨ c.pc = .preparing ∨ c.pc = .stopping ∨ c.pc = .ended .returned →
    c.workers = []
  nonempty : c.pc = .working → c.workers ≠ []
  noQueue : c.pc = .pending → c.queue = false
  shut : ∀ o, c.pc = .ended o → c.queue = true → c.shut = true

/-- What holds of every reachable state. -/
structure Inv (s : State) : Prop where
  empty : s.cache = .none ∨ s.cache = .pending ∨ s.cache = .ended .returned → s.infs = []
  nonempty : s.cache = .running → s.infs ≠ []
  idle : s.cache = .none ↔ s.mgr = .idle
  ctls : ∀ c ∈ s.ctls, CtlInv c
  noCtls : s.mgr = .idle ∨ s.mgr = .waiting → s.ctls = []

theorem mem_set {α : Type} {l : List α} {i : Nat} {a x : α} (h : x ∈ l.set i a) : x ∈ l ∨ x = a :=
  List.mem_or_eq_of_mem_set h

theorem onCtl_some {s s' : State} {c : Nat} {f : Ctl → Option Ctl} (h : s.onCtl c f = some s') :
    ∃ x y, s.ctls[c]? = some x ∧ f x = some y ∧ s' = { s with ctls := s.ctls.set c y } := by
  unfold State.onCtl at h
  split at h
  · cases h
  · rename_i x hx
    split at h
    · cases h
    · rename_i y hy
      exact ⟨x, y, hx, hy, (Option.some.inj h).symm⟩

theorem mem_of_get {α : Type} {l : List α} {i : Nat} {x : α} (h : l[i]? = some x) : x ∈ l :=
  List.mem_of_getElem? h

theorem inv_onCtl {s s' : State} {c : Nat} {f : Ctl → Option Ctl} (hi : Inv s)
    (h : s.onCtl c f = some s') (hf : ∀ x y, CtlInv x → f x = some y → CtlInv y) : Inv s' := by
  obtain ⟨x, y, hx, hy, rfl⟩ := onCtl_some h
  have hm := mem_of_get hx
  refine ⟨hi.empty, hi.nonempty, hi.idle, ?_, ?_⟩
  · intro z hz
    rcases mem_set hz with h1 | rfl
    · exact hi.ctls z h1
    · exact hf x _ (hi.ctls x hm) hy
  · intro h1
    exfalso
    have := hi.noCtls h1
    rw [this] at hm
    cases hm

theorem ctlInv_finish {x : Ctl} {o : Outcome} (h : o = .returned → x.workers = []) :
    CtlInv (x.finish o) := by
  refine ⟨?_, ?_, ?_, ?_⟩
  · rintro (h1 | h1 | h1 | h1)
    · simp [Ctl.finish] at h1
    · simp [Ctl.finish] at h1
    · simp [Ctl.finish] at h1
    · simp only [Ctl.finish, CtlPc.ended.injEq] at h1
      exact h h1
  · intro h1
    simp [Ctl.finish] at h1
  · intro h1
    simp [Ctl.finish] at h1
  · intro _ _ _
    rfl

theorem ctlInv_endWorker {a : Leaf} {w : Nat} {x y : Ctl} (hx : CtlInv x)
    (h : Ctl.endWorker a w x = some y) : CtlInv y := by
  unfold Ctl.endWorker at h
  split at h
  · rename_i hw
    cases h
    have hne : x.workers ≠ [] := List.ne_nil_of_mem (mem_of_get hw)
    refine ⟨?_, ?_, hx.noQueue, hx.shut⟩
    · intro h1
      exact absurd (hx.empty h1) hne
    · intro _ h2
      apply hne
      simpa using h2
  · cases h

theorem ctlInv_ask {x : Ctl} (hx : CtlInv x) : CtlInv x.ask := by
  obtain ⟨pc, conc, ws, q, sh⟩ := x
  cases pc with
  | pending =>
    refine ⟨?_, ?_, ?_, ?_⟩
    · rintro (h | h | h | h) <;> simp [Ctl.ask] at h
    · intro h
      simp [Ctl.ask] at h
    · intro h
      simp [Ctl.ask] at h
    · intro o _ hq
      have := hx.noQueue rfl
      simp only [Ctl.ask] at hq
      simp only at this
      rw [this] at hq
      cases hq
  | preparing =>
    refine ⟨?_, ?_, ?_, ?_⟩
    · intro _
      exact hx.empty (Or.inr (Or.inl rfl))
    · intro h
      simp [Ctl.ask] at h
    · intro h
      simp [Ctl.ask] at h
    · intro o h
      simp [Ctl.ask] at h
  | working =>
    refine ⟨?_, ?_, ?_, ?_⟩
    · rintro (h | h | h | h) <;> simp [Ctl.ask] at h
    · intro _ h
      apply hx.nonempty rfl
      simpa [Ctl.ask] using h
    · intro h
      simp [Ctl.ask] at h
    · intro o h
      simp [Ctl.ask] at h
  | stopping => exact hx
  | waking => exact hx
  | ended o => exact hx

theorem inv_step {s s' : State} {a : Act} (hi : Inv s) (h : step s a = some s') : Inv s' := by
  cases a with
  | start =>
    simp only [step] at h
    split at h
    · rename_i hm
      cases h
      refine ⟨?_, ?_, ?_, hi.ctls, ?_⟩
      · intro _
        exact hi.empty (Or.inl (hi.idle.2 hm))
      · intro h1
        cases h1
      · simp
      · intro _
        exact hi.noCtls (Or.inl hm)
    · cases h
  | cacheRuns =>
    simp only [step] at h
    split at h
    · rename_i hc
      have hn : s.mgr ≠ .idle := by
        intro h1
        have := hi.idle.2 h1
        rw [hc] at this
        cases this
      split at h
      · cases h
        refine ⟨?_, ?_, ?_, hi.ctls, hi.noCtls⟩
        · intro _
          exact hi.empty (Or.inr (Or.inl hc))
        · intro h1
          cases h1
        · simp [hn]
      · rename_i h0
        cases h
        refine ⟨?_, ?_, ?_, hi.ctls, hi.noCtls⟩
        · rintro (h1 | h1 | h1) <;> cases h1
        · intro _ h1
          simp only [List.replicate_eq_nil_iff] at h1
          exact h0 h1
        · simp [hn]
    · cases h
  | synced =>
    simp only [step] at h
    split at h
    · rename_i hm
      split at h
      · cases h
      · cases h
        refine ⟨hi.empty, hi.nonempty, ?_, ?_, ?_⟩
        · have := hi.idle
          rw [hm] at this
          simp only [reduceCtorEq, iff_false] at this ⊢
          exact this
        · intro c hc
          simp only [List.mem_map] at hc
          obtain ⟨k, -, rfl⟩ := hc
          exact ⟨fun _ => rfl, by simp, fun _ => rfl, by simp⟩
        · rintro (h1 | h1) <;> cases h1
    · cases h
  | begins c =>
    refine inv_onCtl hi h ?_
    intro x y hx hy
    split at hy
    · rename_i hp
      cases hy
      exact ⟨fun _ => hx.empty (Or.inl hp), by simp, by simp, by simp⟩
    · cases hy
  | ready c =>
    refine inv_onCtl hi h ?_
    intro x y hx hy
    split at hy
    · rename_i hp
      split at hy
      · cases hy
        exact ctlInv_finish fun _ => hx.empty (Or.inr (Or.inl hp))
      · rename_i h0
        cases hy
        exact ⟨by simp, by simpa using h0, by simp, by simp⟩
    · cases hy
  | prepRaises c =>
    refine inv_onCtl hi h ?_
    intro x y hx hy
    split at hy
    · cases hy
      exact ctlInv_finish (by simp)
    · cases hy
  | prepEnds c =>
    refine inv_onCtl hi h ?_
    intro x y hx hy
    split at hy
    · cases hy
      exact ctlInv_finish (by simp)
    · cases hy
  | infRaises i =>
    simp only [step] at h
    split at h
    · rename_i hw
      have hne : s.infs ≠ [] := List.ne_nil_of_mem (mem_of_get hw)
      cases h
      exact ⟨fun h1 => absurd (hi.empty h1) hne, fun _ h2 => hne (by simpa using h2), hi.idle, hi.ctls,
        hi.noCtls⟩
    · cases h
  | infEnds i =>
    simp only [step] at h
    split at h
    · rename_i hw
      have hne : s.infs ≠ [] := List.ne_nil_of_mem (mem_of_get hw)
      cases h
      exact ⟨fun h1 => absurd (hi.empty h1) hne, fun _ h2 => hne (by simpa using h2), hi.idle, hi.ctls,
        hi.noCtls⟩
    · cases h
  | workerRaises c w => exact inv_onCtl hi h fun x y hx hy => ctlInv_endWorker hx hy
  | workerEnds c w => exact inv_onCtl hi h fun x y hx hy => ctlInv_endWorker hx hy
  | cacheTold =>
    simp only [step] at h
    split at h
    · rename_i hc
      have hn := hi.idle
      rw [hc] at hn
      split at h
      · cases h
        exact ⟨by simp, by simp, by simpa using hn, hi.ctls, hi.noCtls⟩
      · cases h
    · cases h
  | cacheWakes =>
    simp only [step] at h
    split at h
    · rename_i hc
      have hn := hi.idle
      rw [hc] at hn
      cases h
      exact ⟨by simp, by simp, by simpa using hn, hi.ctls, hi.noCtls⟩
    · cases h
  | ctlTold c =>
    refine inv_onCtl hi h ?_
    intro x y hx hy
    split at hy
    · rename_i hp
      split at hy
      · cases hy
        exact ⟨by simp, by simp, by simp, by simp⟩
      · cases hy
    · cases hy
  | ctlWakes c =>
    refine inv_onCtl hi h ?_
    intro x y hx hy
    split at hy
    · cases hy
      exact ctlInv_finish (by simp)
    · cases hy
  | mgrTold =>
    simp only [step] at h
    have hn := hi.idle
    split at h
    · rename_i hm _
      cases h
      rw [hm] at hn
      exact ⟨hi.empty, hi.nonempty, by simpa using hn, hi.ctls, by simp⟩
    · rename_i hm _
      cases h
      rw [hm] at hn
      exact ⟨hi.empty, hi.nonempty, by simpa using hn, hi.ctls, by simp⟩
    · cases h
  | mgrWakes =>
    simp only [step] at h
    have hn := hi.idle
    split at h
    · rename_i hm
      cases h
      rw [hm] at hn
      exact ⟨hi.empty, hi.nonempty, by simpa using hn, hi.ctls, by simp⟩
    · cases h
  | cancel =>
    have key : s.mgr ≠ .idle → Inv { askCache s with mgr := .stopping, ctls := s.ctls.map Ctl.ask } := by
      intro hm
      have hn : s.cache ≠ .none := fun h1 => hm (hi.idle.1 h1)
      have hc : ∀ c ∈ s.ctls.map Ctl.ask, CtlInv c := by
        intro c hc
        obtain ⟨x, hx, rfl⟩ := List.mem_map.1 hc
        exact ctlInv_ask (hi.ctls x hx)
      obtain ⟨mgr, cache, n, infs, ks, ctls⟩ := s
      cases cache with
      | none => exact absurd rfl hn
      | pending => exact ⟨fun _ => hi.empty (Or.inr (Or.inl rfl)), by simp [askCache],
          by simp [askCache], hc, by simp⟩
      | running => exact ⟨by simp [askCache], fun _ h2 => hi.nonempty rfl (by simpa [askCache] using h2),
          by simp [askCache], hc, by simp⟩
      | waking => exact ⟨hi.empty, hi.nonempty, by simp [askCache], hc, by simp⟩
      | ended o => exact ⟨hi.empty, hi.nonempty, by simp [askCache], hc, by simp⟩
    simp only [step] at h
    have hn := hi.idle
    split at h
    · rename_i hm
      cases h
      rw [hm] at hn
      exact ⟨hi.empty, hi.nonempty, by simpa using hn, hi.ctls, by simp⟩
    · rename_i hm
      cases h
      exact key (by rw [hm]; simp)
    · rename_i hm
      cases h
      exact key (by rw [hm]; simp)
    · rename_i hm
      cases h
      rw [hm] at hn
      exact ⟨hi.empty, hi.nonempty, by simpa using hn, hi.ctls, by simp⟩
    · cases h

theorem inv_exec {s s' : State} {as : List Act} (hi : Inv s) (h : exec s as = some s') : Inv s' := by
  induction as generalizing s with
  | nil =>
    cases h
    exact hi
  | cons a as ih =>
    simp only [exec] at h
    cases hs : step s a with
    | none =>
      rw [hs] at h
      cases h
    | some s1 =>
      rw [hs] at h
      exact ih (inv_step hi hs) h

theorem inv_reach {s : State} (h : Reach s) : Inv s := by
  obtain ⟨n, ks, as, h⟩ := h
  refine inv_exec ?_ h
  exact ⟨fun _ => rfl, by simp [init], by simp [init], by simp [init], fun _ => rfl⟩

theorem ask_ne (l : Leaf) : l.ask ≠ .running := by
  cases l <;> simp [Leaf.ask]

/-- Cancelling `manager.start` while it waits for its children. -/
theorem told_cancel {s s' : State} (hi : Inv s) (hs : Sound s) (hm : s.mgr = .running)
    (h : step s .cancel = some s') : Told s' := by
  simp only [step, hm, Option.some.injEq] at h
  subst h
  have hn : s.cache ≠ .none := fun h1 => by
    have := hi.idle.1 h1
    rw [hm] at this
    cases this
  have hw : ∀ c ∈ s.ctls.map Ctl.ask, ∀ l ∈ c.workers, l ≠ .running := by
    intro c hc l hl
    obtain ⟨x, hx, rfl⟩ := List.mem_map.1 hc
    have hxi := hi.ctls x hx
    have hxs := hs.ctls x hx
    obtain ⟨pc, conc, ws, q, sh⟩ := x
    have h0 : ∀ {ws : List Leaf}, ws = [] → l ∈ ws → l ≠ .running := by
      intro ws h1 h2
      rw [h1] at h2
      cases h2
    cases pc with
    | pending => exact h0 (hxi.empty (Or.inl rfl)) hl
    | preparing => exact h0 (hxi.empty (Or.inr (Or.inl rfl))) hl
    | stopping => exact h0 (hxi.empty (Or.inr (Or.inr (Or.inl rfl)))) hl
    | working =>
      simp only [Ctl.ask, List.mem_map] at hl
      obtain ⟨l', -, rfl⟩ := hl
      exact ask_ne l'
    | waking => exact absurd rfl hxs.1
    | ended o =>
      cases o with
      | returned => exact h0 (hxi.empty (Or.inr (Or.inr (Or.inr rfl)))) hl
      | failed => exact absurd rfl hxs.2
  have hp : ∀ c ∈ s.ctls.map Ctl.ask, c.pc ≠ .pending ∧ c.pc ≠ .preparing := by
    intro c hc
    obtain ⟨x, hx, rfl⟩ := List.mem_map.1 hc
    obtain ⟨pc, conc, ws, q, sh⟩ := x
    cases pc <;> simp [Ctl.ask]
  obtain ⟨mgr, cache, n, infs, ks, ctls⟩ := s
  have h0 : infs = [] → ∀ l ∈ infs, l ≠ Leaf.running := by
    intro h1 l h2
    rw [h1] at h2
    cases h2
  cases cache with
  | none => exact absurd rfl hn
  | pending => exact ⟨h0 (hi.empty (Or.inr (Or.inl rfl))), hw, hp, by simp [askCache], by simp⟩
  | running =>
    refine ⟨?_, hw, hp, by simp [askCache], by simp⟩
    intro l hl
    simp only [askCache, List.mem_map] at hl
    obtain ⟨l', -, rfl⟩ := hl
    exact ask_ne l'
  | waking => exact absurd rfl hs.cache.1
  | ended o =>
    cases o with
    | returned => exact ⟨h0 (hi.empty (Or.inr (Or.inr rfl))), hw, hp, by simp [askCache], by simp⟩
    | failed => exact absurd rfl hs.cache.2

theorem sum_set {l : List Leaf} {i : Nat} {a b : Leaf} (h : l[i]? = some a) (hb : b.todo + 1 = a.todo) :
    ((l.set i b).map Leaf.todo).sum + 1 = (l.map Leaf.todo).sum := by
  induction l generalizing i with
  | nil => simp at h
  | cons x xs ih =>
    cases i with
    | zero =>
      simp only [List.getElem?_cons_zero, Option.some.injEq] at h
      subst h
      simp only [List.set_cons_zero, List.map_cons, List.sum_cons]
      omega
    | succ i =>
      simp only [List.getElem?_cons_succ] at h
      have := ih h
      simp only [List.set_cons_succ, List.map_cons, List.sum_cons]
      omega

/-- Steps a controller and its workers still have to make. -/
def Ctl.todo (c : Ctl) : Nat := c.pc.todo + (c.workers.map Leaf.todo).sum

theorem sum_ctl {l : List Ctl} {i : Nat} {a b : Ctl} (h : l[i]? = some a) (hb : b.todo + 1 = a.todo) :
    ((l.set i b).map fun c => c.pc.todo + (c.workers.map Leaf.todo).sum).sum + 1
      = (l.map fun c => c.pc.todo + (c.workers.map Leaf.todo).sum).sum := by
  unfold Ctl.todo at hb
  induction l generalizing i with
  | nil => simp at h
  | cons x xs ih =>
    cases i with
    | zero =>
      simp only [List.getElem?_cons_zero, Option.some.injEq] at h
      subst h
      simp only [List.set_cons_zero, List.map_cons, List.sum_cons]
      omega
    | succ i =>
      simp only [List.getElem?_cons_succ] at h
      have := ih h
      simp only [List.set_cons_succ, List.map_cons, List.sum_cons]
      omega

theorem told_onCtl {s s' : State} {c : Nat} {f : Ctl → Option Ctl} (ht : Told s)
    (h : s.onCtl c f = some s')
    (hf : ∀ x y, x.pc ≠ .pending → x.pc ≠ .preparing → (∀ l ∈ x.workers, l ≠ .running) →
      f x = some y → (y.pc ≠ .pending ∧ y.pc ≠ .preparing) ∧ (∀ l ∈ y.workers, l ≠ .running) ∧
        y.todo + 1 = x.todo) :
    Told s' ∧ s'.todo + 1 = s.todo := by
  obtain ⟨x, y, hx, hy, rfl⟩ := onCtl_some h
  have hm := mem_of_get hx
  obtain ⟨h1, h2, h3⟩ := hf x y (ht.ctls x hm).1 (ht.ctls x hm).2 (ht.workers x hm) hy
  refine ⟨⟨ht.infs, ?_, ?_, ht.cache, ht.mgr⟩, ?_⟩
  · intro z hz
    rcases mem_set hz with h4 | rfl
    · exact ht.workers z h4
    · exact h2
  · intro z hz
    rcases mem_set hz with h4 | rfl
    · exact ht.ctls z h4
    · exact h1
  · have := sum_ctl hx h3
    simp only [State.todo]
    omega

theorem told_worker {x y : Ctl} {w : Nat} (h0 : x.pc ≠ .pending) (h1 : x.pc ≠ .preparing)
    (h2 : ∀ l ∈ x.workers, l ≠ .running) (h : Ctl.endWorker .stopping w x = some y) :
    (y.pc ≠ .pending ∧ y.pc ≠ .preparing) ∧ (∀ l ∈ y.workers, l ≠ .running) ∧
        y.todo + 1 = x.todo := by
  unfold Ctl.endWorker at h
  split at h
  · rename_i hw
    cases h
    refine ⟨⟨h0, h1⟩, ?_, ?_⟩
    · intro l hl
      rcases mem_set hl with h3 | rfl
      · exact h2 l h3
      · simp
    · have := sum_set (b := .ended) hw rfl
      simp only [Ctl.todo]
      omega
  · cases h

/-- Once every task has been told to stop, every step is one of the steps counted. -/
theorem told_step {s s' : State} {a : Act} (ht : Told s) (hc : a ≠ .cancel) (h : step s a = some s') :
    Told s' ∧ s'.todo + 1 = s.todo := by
  cases a with
  | start =>
    simp only [step] at h
    split at h
    · rename_i hm
      exact absurd hm ht.mgr.1
    · cases h
  | cacheRuns =>
    simp only [step] at h
    split at h
    · rename_i hm
      exact absurd hm ht.cache.2
    · cases h
  | synced =>
    simp only [step] at h
    split at h
    · rename_i hm
      exact absurd hm ht.mgr.2.1
    · cases h
  | begins c =>
    refine told_onCtl ht h ?_
    intro x y h0 h1 h2 hy
    split at hy
    · rename_i hp
      exact absurd hp h0
    · cases hy
  | ready c =>
    refine told_onCtl ht h ?_
    intro x y h0 h1 h2 hy
    split at hy
    · rename_i hp
      exact absurd hp h1
    · cases hy
  | prepRaises c =>
    refine told_onCtl ht h ?_
    intro x y h0 h1 h2 hy
    split at hy
    · rename_i hp
      exact absurd hp h1
    · cases hy
  | prepEnds c =>
    refine told_onCtl ht h ?_
    intro x y h0 h1 h2 hy
    split at hy
    · rename_i hp
      cases hy
      refine ⟨by simp [Ctl.finish], h2, ?_⟩
      simp only [Ctl.todo, Ctl.finish, hp, CtlPc.todo]
      omega
    · cases hy
  | infRaises i =>
    simp only [step] at h
    split at h
    · rename_i hw
      exact absurd rfl (ht.infs _ (mem_of_get hw))
    · cases h
  | infEnds i =>
    simp only [step] at h
    split at h
    · rename_i hw
      cases h
      refine ⟨⟨?_, ht.workers, ht.ctls, ht.cache, ht.mgr⟩, ?_⟩
      · intro l hl
        rcases mem_set hl with h3 | rfl
        · exact ht.infs l h3
        · simp
      · have := sum_set (b := .ended) hw rfl
        simp only [State.todo]
        omega
    · cases h
  | workerRaises c w =>
    refine told_onCtl ht h ?_
    intro x y h0 h1 h2 hy
    unfold Ctl.endWorker at hy
    split at hy
    · rename_i hw
      exact absurd rfl (h2 _ (mem_of_get hw))
    · cases hy
  | workerEnds c w => exact told_onCtl ht h fun x y h0 h1 h2 hy => told_worker h0 h1 h2 hy
  | cacheTold =>
    simp only [step] at h
    split at h
    · rename_i hm
      split at h
      · cases h
        refine ⟨⟨ht.infs, ht.workers, ht.ctls, by simp, ht.mgr⟩, ?_⟩
        simp only [State.todo, hm, CachePc.todo]
        omega
      · cases h
    · cases h
  | cacheWakes =>
    simp only [step] at h
    split at h
    · rename_i hm
      cases h
      refine ⟨⟨ht.infs, ht.workers, ht.ctls, by simp, ht.mgr⟩, ?_⟩
      simp only [State.todo, hm, CachePc.todo]
      omega
    · cases h
  | ctlTold c =>
    refine told_onCtl ht h ?_
    intro x y h0 h1 h2 hy
    split at hy
    · rename_i hp
      split at hy
      · cases hy
        refine ⟨by simp, h2, ?_⟩
        simp only [Ctl.todo, hp, CtlPc.todo]
        omega
      · cases hy
    · cases hy
  | ctlWakes c =>
    refine told_onCtl ht h ?_
    intro x y h0 h1 h2 hy
    split at hy
    · rename_i hp
      cases hy
      refine ⟨by simp [Ctl.finish], h2, ?_⟩
      simp only [Ctl.todo, Ctl.finish, hp, CtlPc.todo]
      omega
    · cases hy
  | mgrTold =>
    simp only [step] at h
    split at h
    · rename_i hm _
      exact absurd hm ht.mgr.2.2
    · rename_i hm _
      cases h
      refine ⟨⟨ht.infs, ht.workers, ht.ctls, ht.cache, by simp⟩, ?_⟩
      simp only [State.todo, hm, MgrPc.todo]
      omega
    · cases h
  | mgrWakes =>
    simp only [step] at h
    split at h
    · rename_i hm
      cases h
      refine ⟨⟨ht.infs, ht.workers, ht.ctls, ht.cache, by simp⟩, ?_⟩
      simp only [State.todo, hm, MgrPc.todo]
      omega
    · cases h
  | cancel => exact absurd rfl hc

theorem told_again {s s' : State} (ht : Told s) (h : step s .cancel = some s') : Told s' := by
  simp only [step] at h
  have key : Told { askCache s with mgr := .stopping, ctls := s.ctls.map Ctl.ask } := by
    refine ⟨?_, ?_, ?_, ?_, by simp⟩
    · intro l hl
      show l ≠ .running
      obtain ⟨mgr, cache, n, infs, ks, ctls⟩ := s
      cases cache with
      | running =>
        simp only [askCache, List.mem_map] at hl
        obtain ⟨l', -, rfl⟩ := hl
        exact ask_ne l'
      | none => exact ht.infs l hl
      | pending => exact ht.infs l hl
      | waking => exact ht.infs l hl
      | ended o => exact ht.infs l hl
    · intro c hc l hl
      obtain ⟨x, hx, rfl⟩ := List.mem_map.1 hc
      have hw := ht.workers x hx
      obtain ⟨pc, conc, ws, q, sh⟩ := x
      cases pc with
      | working =>
        simp only [Ctl.ask, List.mem_map] at hl
        obtain ⟨l', -, rfl⟩ := hl
        exact ask_ne l'
      | pending => exact hw l hl
      | preparing => exact hw l hl
      | stopping => exact hw l hl
      | waking => exact hw l hl
      | ended o => exact hw l hl
    · intro c hc
      obtain ⟨x, hx, rfl⟩ := List.mem_map.1 hc
      obtain ⟨pc, conc, ws, q, sh⟩ := x
      cases pc <;> simp [Ctl.ask]
    · obtain ⟨mgr, cache, n, infs, ks, ctls⟩ := s
      have := ht.cache
      cases cache <;> simp_all [askCache]
  split at h
  · cases h
    exact ⟨ht.infs, ht.workers, ht.ctls, ht.cache, by simp⟩
  · cases h
    exact key
  · cases h
    exact key
  · cases h
    exact ⟨ht.infs, ht.workers, ht.ctls, ht.cache, by simp⟩
  · cases h

/-- A call of `manager.start` that has been cancelled does not return. -/
def Doomed (s : State) : Prop :=
  s.mgr = .stopping ∨ s.mgr = .waking .failed ∨ s.mgr = .ended .failed

theorem onCtl_mgr {s s' : State} {c : Nat} {f : Ctl → Option Ctl} (h : s.onCtl c f = some s') :
    s'.mgr = s.mgr ∧ s'.infs = s.infs ∧ s'.cache = s.cache := by
  obtain ⟨x, y, -, -, rfl⟩ := onCtl_some h
  exact ⟨rfl, rfl, rfl⟩

theorem askCache_mgr (s : State) : (askCache s).mgr = s.mgr := by
  unfold askCache
  split <;> rfl

theorem doomed_step {s s' : State} {a : Act} (hd : Doomed s) (h : step s a = some s') : Doomed s' := by
  unfold Doomed at hd ⊢
  cases a with
  | begins c => rw [(onCtl_mgr h).1]; exact hd
  | ready c => rw [(onCtl_mgr h).1]; exact hd
  | prepRaises c => rw [(onCtl_mgr h).1]; exact hd
  | prepEnds c => rw [(onCtl_mgr h).1]; exact hd
  | workerRaises c w => rw [(onCtl_mgr h).1]; exact hd
  | workerEnds c w => rw [(onCtl_mgr h).1]; exact hd
  | ctlTold c => rw [(onCtl_mgr h).1]; exact hd
  | ctlWakes c => rw [(onCtl_mgr h).1]; exact hd
  | _ =>
    simp only [step] at h
    repeat' split at h
    all_goals first
      | (cases h; done)
      | (cases h; simp_all; done)

theorem told_exec {s s' : State} {as : List Act} (ht : Told s) (h : exec s as = some s') :
    Told s' := by
  induction as generalizing s with
  | nil =>
    cases h
    exact ht
  | cons a as ih =>
    simp only [exec] at h
    cases hs : step s a with
    | none =>
      rw [hs] at h
      cases h
    | some s1 =>
      rw [hs] at h
      by_cases hc : a = .cancel
      · subst hc
        exact ih (told_again ht hs) h
      · exact ih (told_step ht hc hs).1 h

theorem doomed_exec {s s' : State} {as : List Act} (hd : Doomed s) (h : exec s as = some s') :
    Doomed s' := by
  induction as generalizing s with
  | nil =>
    cases h
    exact hd
  | cons a as ih =>
    simp only [exec] at h
    cases hs : step s a with
    | none =>
      rw [hs] at h
      cases h
    | some s1 =>
      rw [hs] at h
      exact ih (doomed_step hd hs) h

theorem told_count {s s' : State} {as : List Act} (ht : Told s) (h : exec s as = some s')
    (hc : Act.cancel ∉ as) : as.length + s'.todo = s.todo := by
  induction as generalizing s with
  | nil =>
    cases h
    simp
  | cons a as ih =>
    simp only [exec] at h
    simp only [List.mem_cons, not_or] at hc
    cases hs : step s a with
    | none =>
      rw [hs] at h
      cases h
    | some s1 =>
      rw [hs] at h
      obtain ⟨h1, h2⟩ := told_step ht (Ne.symm hc.1) hs
      have := ih h1 h hc.2
      simp only [List.length_cons]
      omega

/-- Nothing can happen any more, but for another cancellation. -/
def Quiet (s : State) : Prop := ∀ a, a ≠ Act.cancel → step s a = none

theorem get_of_mem {α : Type} {l : List α} {x : α} (h : x ∈ l) : ∃ i : Nat, l[i]? = some x :=
  List.mem_iff_getElem?.1 h

theorem over_quiet {s : State} (hi : Inv s) (ht : Told s) (hd : Doomed s) (hq : Quiet s) : Over s := by
  have hinf : ∀ l ∈ s.infs, l = Leaf.ended := by
    intro l hl
    cases l with
    | running => exact absurd rfl (ht.infs _ hl)
    | stopping =>
      obtain ⟨i, hg⟩ := get_of_mem hl
      have := hq (.infEnds i) (by simp)
      simp [step, hg] at this
    | ended => rfl
  have hw : ∀ c ∈ s.ctls, ∀ l ∈ c.workers, l = Leaf.ended := by
    intro c hc l hl
    cases l with
    | running => exact absurd rfl (ht.workers c hc _ hl)
    | stopping =>
      obtain ⟨i, hg⟩ := get_of_mem hc
      obtain ⟨j, hj⟩ := get_of_mem hl
      have := hq (.workerEnds i j) (by simp)
      simp [step, State.onCtl, Ctl.endWorker, hg, hj] at this
    | ended => rfl
  have hp : ∀ c ∈ s.ctls, ∃ o, c.pc = .ended o := by
    intro c hc
    obtain ⟨i, hg⟩ := get_of_mem hc
    cases hpc : c.pc with
    | pending => exact absurd hpc (ht.ctls c hc).1
    | preparing => exact absurd hpc (ht.ctls c hc).2
    | stopping =>
      have := hq (.prepEnds i) (by simp)
      simp [step, State.onCtl, hg, hpc] at this
    | working =>
      have hne := (hi.ctls c hc).nonempty hpc
      obtain ⟨l, hl⟩ := List.exists_mem_of_ne_nil _ hne
      have hl2 := hw c hc l hl
      subst hl2
      have := hq (.ctlTold i) (by simp)
      simp [step, State.onCtl, hg, hpc, hl] at this
    | waking =>
      have := hq (.ctlWakes i) (by simp)
      simp [step, State.onCtl, hg, hpc] at this
    | ended o => exact ⟨o, rfl⟩
  have hcache : ∃ o, s.cache = .ended o := by
    cases hcc : s.cache with
    | none => exact absurd hcc ht.cache.1
    | pending => exact absurd hcc ht.cache.2
    | running =>
      obtain ⟨l, hl⟩ := List.exists_mem_of_ne_nil _ (hi.nonempty hcc)
      have hl2 := hinf l hl
      subst hl2
      have := hq .cacheTold (by simp)
      simp [step, hcc, hl] at this
    | waking =>
      have := hq .cacheWakes (by simp)
      simp [step, hcc] at this
    | ended o => exact ⟨o, rfl⟩
  refine ⟨hinf, hw, hp, ?_, hcache, ?_⟩
  · intro c hc
    obtain ⟨o, ho⟩ := hp c hc
    exact (hi.ctls c hc).shut o ho
  · rcases hd with h1 | h1 | h1
    · exfalso
      have hj : ∃ o, s.joined = some o := by
        unfold State.joined
        split
        · exact ⟨_, rfl⟩
        · rename_i hn
          simp only [not_or] at hn
          rw [if_pos]
          · exact ⟨_, rfl⟩
          · constructor
            · obtain ⟨o, ho⟩ := hcache
              cases o with
              | returned => exact ho
              | failed => exact absurd ho hn.1
            · rw [List.all_eq_true]
              intro c hc
              obtain ⟨o, ho⟩ := hp c hc
              cases o with
              | returned => simp [ho]
              | failed =>
                exfalso
                apply hn.2
                rw [List.any_eq_true]
                exact ⟨c, hc, by simp [ho]⟩
      obtain ⟨o, hj⟩ := hj
      have := hq .mgrTold (by simp)
      simp [step, h1, hj] at this
    · exfalso
      have := hq .mgrWakes (by simp)
      simp [step, h1] at this
    · exact h1

/-- Once `manager.start` has ended, nobody asks an informer to stop. -/
theorem inf_stays {s s' : State} {a : Act} {i : Nat} (hm : ∃ o, s.mgr = .ended o)
    (hr : s.infs[i]? = some .running) (hc : s.cache ≠ .pending) (ha : a ≠ .infRaises i)
    (h : step s a = some s') :
    (∃ o, s'.mgr = .ended o) ∧ s'.infs[i]? = some .running ∧ s'.cache ≠ .pending := by
  obtain ⟨o, hm⟩ := hm
  have hset : ∀ j, j ≠ i → (s.infs.set j .ended)[i]? = some .running := by
    intro j hj
    rw [List.getElem?_set_ne hj]
    exact hr
  have key : ∀ {c : Nat} {f : Ctl → Option Ctl}, s.onCtl c f = some s' →
      (∃ o, s'.mgr = .ended o) ∧ s'.infs[i]? = some .running ∧ s'.cache ≠ .pending := by
    intro c f h
    obtain ⟨h1, h2, h3⟩ := onCtl_mgr h
    rw [h1, h2, h3]
    exact ⟨⟨o, hm⟩, hr, hc⟩
  cases a with
  | begins c => exact key h
  | ready c => exact key h
  | prepRaises c => exact key h
  | prepEnds c => exact key h
  | workerRaises c w => exact key h
  | workerEnds c w => exact key h
  | ctlTold c => exact key h
  | ctlWakes c => exact key h
  | start => simp [step, hm] at h
  | synced => simp [step, hm] at h
  | cancel => simp [step, hm] at h
  | mgrTold => simp [step, hm] at h
  | mgrWakes => simp [step, hm] at h
  | cacheRuns =>
    simp only [step] at h
    cases h
  | cacheTold =>
    simp only [step] at h
    split at h
    · split at h
      · cases h
        exact ⟨⟨o, hm⟩, hr, by simp⟩
      · cases h
    · cases h
  | cacheWakes =>
    simp only [step] at h
    split at h
    · cases h
      exact ⟨⟨o, hm⟩, hr, by simp⟩
    · cases h
  | infRaises j =>
    simp only [step] at h
    split at h
    · cases h
      refine ⟨⟨o, hm⟩, hset j ?_, hc⟩
      rintro rfl
      exact ha rfl
    · cases h
  | infEnds j =>
    simp only [step] at h
    split at h
    · rename_i hj
      cases h
      refine ⟨⟨o, hm⟩, hset j ?_, hc⟩
      rintro rfl
      rw [hr] at hj
      cases hj
    · cases h

/-- Once `manager.start` has ended, nobody asks a worker to stop. -/
theorem worker_stays {s s' : State} {a : Act} {c w : Nat} {x : Ctl} (hm : ∃ o, s.mgr = .ended o)
    (hx : s.ctls[c]? = some x) (hp : x.pc = .working ∨ x.pc = .waking ∨ x.pc = .ended .failed)
    (hw : x.workers[w]? = some .running)
    (ha : a ≠ .workerRaises c w) (h : step s a = some s') :
    (∃ o, s'.mgr = .ended o) ∧ ∃ y, s'.ctls[c]? = some y ∧
      (y.pc = .working ∨ y.pc = .waking ∨ y.pc = .ended .failed) ∧
      y.workers[w]? = some .running := by
  obtain ⟨o, hm⟩ := hm
  have key : ∀ {d : Nat} {f : Ctl → Option Ctl}, s.onCtl d f = some s' →
      (d = c → ∀ y, f x = some y → (y.pc = .working ∨ y.pc = .waking ∨ y.pc = .ended .failed) ∧
        y.workers[w]? = some .running) →
      (∃ o, s'.mgr = .ended o) ∧ ∃ y, s'.ctls[c]? = some y ∧
        (y.pc = .working ∨ y.pc = .waking ∨ y.pc = .ended .failed) ∧
        y.workers[w]? = some .running := by
    intro d f h hf
    obtain ⟨x', y, hx', hy, rfl⟩ := onCtl_some h
    refine ⟨⟨o, hm⟩, ?_⟩
    by_cases hd : d = c
    · subst hd
      rw [hx] at hx'
      cases hx'
      refine ⟨y, ?_, hf rfl y hy⟩
      have : d < s.ctls.length := by
        rw [List.getElem?_eq_some_iff] at hx
        exact hx.1
      simp [this]
    · refine ⟨x, ?_, hp, hw⟩
      show (s.ctls.set d y)[c]? = some x
      rw [List.getElem?_set_ne hd]
      exact hx
  cases a with
  | begins d =>
    refine key h ?_
    rintro rfl y hy
    rcases hp with h1 | h1 | h1 <;> simp [h1] at hy
  | ready d =>
    refine key h ?_
    rintro rfl y hy
    rcases hp with h1 | h1 | h1 <;> simp [h1] at hy
  | prepRaises d =>
    refine key h ?_
    rintro rfl y hy
    rcases hp with h1 | h1 | h1 <;> simp [h1] at hy
  | prepEnds d =>
    refine key h ?_
    rintro rfl y hy
    rcases hp with h1 | h1 | h1 <;> simp [h1] at hy
  | workerRaises d v =>
    refine key h ?_
    rintro rfl y hy
    unfold Ctl.endWorker at hy
    split at hy
    · cases hy
      refine ⟨hp, ?_⟩
      show (x.workers.set v .ended)[w]? = _
      rw [List.getElem?_set_ne]
      · exact hw
      · rintro rfl
        exact ha rfl
    · cases hy
  | workerEnds d v =>
    refine key h ?_
    rintro rfl y hy
    unfold Ctl.endWorker at hy
    split at hy
    · rename_i hv
      cases hy
      refine ⟨hp, ?_⟩
      show (x.workers.set v .ended)[w]? = _
      rw [List.getElem?_set_ne]
      · exact hw
      · rintro rfl
        rw [hw] at hv
        cases hv
    · cases hy
  | ctlTold d =>
    refine key h ?_
    rintro rfl y hy
    split at hy
    · split at hy
      · cases hy
        exact ⟨Or.inr (Or.inl rfl), hw⟩
      · cases hy
    · cases hy
  | ctlWakes d =>
    refine key h ?_
    rintro rfl y hy
    split at hy
    · cases hy
      exact ⟨Or.inr (Or.inr rfl), hw⟩
    · cases hy
  | start => simp [step, hm] at h
  | synced => simp [step, hm] at h
  | cancel => simp [step, hm] at h
  | mgrTold => simp [step, hm] at h
  | mgrWakes => simp [step, hm] at h
  | _ =>
    simp only [step] at h
    repeat' split at h
    all_goals first
      | (cases h; done)
      | (cases h; exact ⟨⟨o, hm⟩, x, hx, hp, hw⟩)

/-- `manager.start` is about to return or has returned. -/
def Returning (s : State) : Prop := s.mgr = .waking .returned ∨ s.mgr = .ended .returned

/-- All its children have returned. -/
def AllReturned (s : State) : Prop :=
  s.cache = .ended .returned ∧ ∀ c ∈ s.ctls, c.pc = .ended .returned

theorem ret_onCtl {s s' : State} {c : Nat} {f : Ctl → Option Ctl} (hi : Inv s)
    (ha : Returning s → AllReturned s) (h : s.onCtl c f = some s')
    (hf : ∀ x, x.pc = .ended .returned → x.workers = [] → f x = none) :
    Returning s' → AllReturned s' := by
  intro hr
  obtain ⟨x, y, hx, hy, rfl⟩ := onCtl_some h
  have h1 := ha hr
  have hm := mem_of_get hx
  have hp := h1.2 x hm
  rw [hf x hp ((hi.ctls x hm).empty (Or.inr (Or.inr (Or.inr hp))))] at hy
  cases hy

theorem ret_step {s s' : State} {a : Act} (hi : Inv s) (ha : Returning s → AllReturned s)
    (h : step s a = some s') : Returning s' → AllReturned s' := by
  have hw : ∀ {l : Leaf} {w : Nat} (x : Ctl), x.pc = .ended .returned → x.workers = [] →
      Ctl.endWorker l w x = none := by
    intro l w x _ h0
    simp [Ctl.endWorker, h0]
  cases a with
  | begins c => exact ret_onCtl hi ha h fun x hx _ => by simp [hx]
  | ready c => exact ret_onCtl hi ha h fun x hx _ => by simp [hx]
  | prepRaises c => exact ret_onCtl hi ha h fun x hx _ => by simp [hx]
  | prepEnds c => exact ret_onCtl hi ha h fun x hx _ => by simp [hx]
  | ctlTold c => exact ret_onCtl hi ha h fun x hx _ => by simp [hx]
  | ctlWakes c => exact ret_onCtl hi ha h fun x hx _ => by simp [hx]
  | workerRaises c w => exact ret_onCtl hi ha h hw
  | workerEnds c w => exact ret_onCtl hi ha h hw
  | mgrTold =>
    simp only [step] at h
    split at h
    · rename_i o hm hj
      cases h
      rintro (hr | hr)
      · simp only [MgrPc.waking.injEq] at hr
        subst hr
        unfold State.joined at hj
        split at hj
        · cases hj
        · split at hj
          · rename_i hb
            refine ⟨hb.1, ?_⟩
            intro c hc
            have := List.all_eq_true.1 hb.2 c hc
            simpa using this
          · cases hj
      · cases hr
    · cases h
      rintro (hr | hr) <;> cases hr
    · cases h
  | mgrWakes =>
    simp only [step] at h
    split at h
    · rename_i o hm
      cases h
      rintro (hr | hr)
      · cases hr
      · simp only [MgrPc.ended.injEq] at hr
        subst hr
        exact ha (Or.inl hm)
    · cases h
  | _ =>
    simp only [step] at h
    repeat' split at h
    all_goals first
      | (cases h; done)
      | (cases h; rintro (hr | hr) <;> cases hr; done)
      | (cases h
         intro hr
         have h1 := ha hr
         simp_all [AllReturned]
         done)

theorem ret_exec {s s' : State} {as : List Act} (hi : Inv s) (ha : Returning s → AllReturned s)
    (h : exec s as = some s') : Returning s' → AllReturned s' := by
  induction as generalizing s with
  | nil =>
    cases h
    exact ha
  | cons a as ih =>
    simp only [exec] at h
    cases hs : step s a with
    | none =>
      rw [hs] at h
      cases h
    | some s1 =>
      rw [hs] at h
      exact ih (inv_step hi hs) (ret_step hi ha hs) h

/-- No task is forgotten. -/
structure Sized (n : Nat) (ks : List Nat) (s : State) : Prop where
  informers : s.informers = n
  runnables : s.runnables = ks
  infs : s.infs = [] ∨ s.infs.length = n
  ctls : s.ctls = [] ∨ s.ctls.map Ctl.conc = ks
  workers : ∀ c ∈ s.ctls, c.workers = [] ∨ c.workers.length = c.conc

theorem sized_onCtl {n : Nat} {ks : List Nat} {s s' : State} {c : Nat} {f : Ctl → Option Ctl}
    (hi : Sized n ks s) (h : s.onCtl c f = some s')
    (hf : ∀ x y, (x.workers = [] ∨ x.workers.length = x.conc) → f x = some y →
      y.conc = x.conc ∧ (y.workers = [] ∨ y.workers.length = y.conc)) : Sized n ks s' := by
  obtain ⟨x, y, hx, hy, rfl⟩ := onCtl_some h
  have hm := mem_of_get hx
  obtain ⟨h1, h2⟩ := hf x y (hi.workers x hm) hy
  refine ⟨hi.informers, hi.runnables, hi.infs, ?_, ?_⟩
  · rcases hi.ctls with h0 | h0
    · rw [h0] at hm
      cases hm
    · right
      show (s.ctls.set c y).map Ctl.conc = ks
      rw [List.map_set, h1, ← h0]
      apply List.ext_getElem?
      intro i
      rw [List.getElem?_set]
      split
      · rename_i hci
        subst hci
        obtain ⟨hlt, hxe⟩ := List.getElem?_eq_some_iff.1 hx
        simp [hlt, hxe]
      · rfl
  · intro z hz
    rcases mem_set hz with h3 | rfl
    · exact hi.workers z h3
    · exact h2

theorem sized_step {n : Nat} {ks : List Nat} {s s' : State} {a : Act} (hi : Sized n ks s)
    (h : step s a = some s') : Sized n ks s' := by
  have leaf : ∀ (b : Leaf) (w : Nat) (x y : Ctl), (x.workers = [] ∨ x.workers.length = x.conc) →
      Ctl.endWorker b w x = some y → y.conc = x.conc ∧ (y.workers = [] ∨ y.workers.length = y.conc) := by
    intro b w x y hx hy
    unfold Ctl.endWorker at hy
    split at hy
    · cases hy
      refine ⟨rfl, ?_⟩
      simpa using hx
    · cases hy
  have inf : ∀ i, (s.infs.set i Leaf.ended = [] ∨ (s.infs.set i Leaf.ended).length = n) := by
    intro i
    simpa using hi.infs
  cases a with
  | workerRaises c w => exact sized_onCtl hi h (leaf _ _)
  | workerEnds c w => exact sized_onCtl hi h (leaf _ _)
  | begins c =>
    refine sized_onCtl hi h ?_
    intro x y hx hy
    split at hy <;> cases hy
    exact ⟨rfl, hx⟩
  | ready c =>
    refine sized_onCtl hi h ?_
    intro x y hx hy
    split at hy
    · split at hy <;> cases hy
      · exact ⟨rfl, hx⟩
      · exact ⟨rfl, Or.inr (by simp)⟩
    · cases hy
  | prepRaises c =>
    refine sized_onCtl hi h ?_
    intro x y hx hy
    split at hy <;> cases hy
    exact ⟨rfl, hx⟩
  | prepEnds c =>
    refine sized_onCtl hi h ?_
    intro x y hx hy
    split at hy <;> cases hy
    exact ⟨rfl, hx⟩
  | ctlTold c =>
    refine sized_onCtl hi h ?_
    intro x y hx hy
    split at hy
    · split at hy <;> cases hy
      exact ⟨rfl, hx⟩
    · cases hy
  | ctlWakes c =>
    refine sized_onCtl hi h ?_
    intro x y hx hy
    split at hy <;> cases hy
    exact ⟨rfl, hx⟩
  | infRaises i =>
    simp only [step] at h
    split at h <;> cases h
    exact ⟨hi.informers, hi.runnables, inf i, hi.ctls, hi.workers⟩
  | infEnds i =>
    simp only [step] at h
    split at h <;> cases h
    exact ⟨hi.informers, hi.runnables, inf i, hi.ctls, hi.workers⟩
  | cacheRuns =>
    simp only [step] at h
    split at h
    · split at h <;> cases h
      · exact ⟨hi.informers, hi.runnables, hi.infs, hi.ctls, hi.workers⟩
      · exact ⟨hi.informers, hi.runnables, Or.inr (by simp [hi.informers]), hi.ctls, hi.workers⟩
    · cases h
  | synced =>
    simp only [step] at h
    split at h
    · split at h <;> cases h
      refine ⟨hi.informers, hi.runnables, hi.infs, Or.inr ?_, ?_⟩
      · simp [hi.runnables, Function.comp_def]
      · intro c hc
        obtain ⟨k, -, rfl⟩ := List.mem_map.1 hc
        exact Or.inl rfl
    · cases h
  | cancel =>
    have hask : Sized n ks { askCache s with mgr := .stopping, ctls := s.ctls.map Ctl.ask } := by
      have h1 : (askCache s).informers = n ∧ (askCache s).runnables = ks ∧
          ((askCache s).infs = [] ∨ (askCache s).infs.length = n) := by
        unfold askCache
        split
        · exact ⟨hi.informers, hi.runnables, hi.infs⟩
        · exact ⟨hi.informers, hi.runnables, by simpa using hi.infs⟩
        · exact ⟨hi.informers, hi.runnables, hi.infs⟩
      have h2 : ∀ c : Ctl, c.ask.conc = c.conc ∧ c.ask.workers.length = c.workers.length := by
        intro c
        unfold Ctl.ask
        split <;> simp
      refine ⟨h1.1, h1.2.1, h1.2.2, ?_, ?_⟩
      · rcases hi.ctls with h0 | h0
        · exact Or.inl (by simp [h0])
        · right
          rw [← h0, List.map_map]
          exact List.map_congr_left fun c _ => (h2 c).1
      · intro c hc
        obtain ⟨d, hd, rfl⟩ := List.mem_map.1 hc
        rcases hi.workers d hd with h0 | h0
        · left
          apply List.length_eq_zero_iff.1
          rw [(h2 d).2, h0]
          rfl
        · right
          rw [(h2 d).2, (h2 d).1, h0]
    simp only [step] at h
    split at h <;> cases h
    · exact ⟨hi.informers, hi.runnables, hi.infs, hi.ctls, hi.workers⟩
    · exact hask
    · exact hask
    · exact ⟨hi.informers, hi.runnables, hi.infs, hi.ctls, hi.workers⟩
  | _ =>
    simp only [step] at h
    repeat' split at h
    all_goals first
      | (cases h; done)
      | (cases h; exact ⟨hi.informers, hi.runnables, hi.infs, hi.ctls, hi.workers⟩)

theorem sized_exec {n : Nat} {ks : List Nat} : ∀ {as : List Act} {s s' : State}, Sized n ks s →
    exec s as = some s' → Sized n ks s'
  | [], s, s', hi, h => by cases h; exact hi
  | a :: as, s, s', hi, h => by
    simp only [exec] at h
    cases hs : step s a with
    | none => rw [hs] at h; cases h
    | some s1 =>
      rw [hs] at h
      exact sized_exec (sized_step hi hs) h

/-- The queue of a controller is there and open from its beginning to its end, and not before or after. -/
def Ctl.Kept (c : Ctl) : Prop :=
  match c.pc with
  | .pending => c.queue = false ∧ c.shut = false
  | .preparing | .stopping | .working | .waking => c.queue = true ∧ c.shut = false
  | .ended _ => c.shut = c.queue

theorem kept_onCtl {s s' : State} {c : Nat} {f : Ctl → Option Ctl} (hi : ∀ x ∈ s.ctls, x.Kept)
    (h : s.onCtl c f = some s') (hf : ∀ x y, x.Kept → f x = some y → y.Kept) : ∀ x ∈ s'.ctls, x.Kept := by
  obtain ⟨x, y, hx, hy, rfl⟩ := onCtl_some h
  intro z hz
  rcases mem_set hz with h1 | rfl
  · exact hi z h1
  · exact hf x _ (hi x (mem_of_get hx)) hy

theorem kept_endWorker {a : Leaf} {w : Nat} {x y : Ctl} (hx : x.Kept)
    (h : Ctl.endWorker a w x = some y) : y.Kept := by
  unfold Ctl.endWorker at h
  split at h
  · cases h; exact hx
  · cases h

theorem kept_ask {x : Ctl} (hx : x.Kept) : x.ask.Kept := by
  obtain ⟨pc, conc, ws, q, sh⟩ := x
  cases pc <;> simp only [Ctl.Kept, Ctl.ask] at hx ⊢ <;> first | exact hx | (rw [hx.1, hx.2])

theorem kept_step {s s' : State} {a : Act} (hi : ∀ x ∈ s.ctls, x.Kept) (h : step s a = some s') :
    ∀ x ∈ s'.ctls, x.Kept := by
  cases a with
  | begins c =>
    refine kept_onCtl hi h fun x y hx hy => ?_
    obtain ⟨pc, conc, ws, q, sh⟩ := x
    cases pc <;> simp only at hy <;> cases hy
    exact ⟨rfl, hx.2⟩
  | ready c =>
    refine kept_onCtl hi h fun x y hx hy => ?_
    obtain ⟨pc, conc, ws, q, sh⟩ := x
    cases pc <;> simp only at hy <;> try cases hy
    split at hy <;> cases hy
    · exact hx.1.symm
    · exact hx
  | prepRaises c =>
    refine kept_onCtl hi h fun x y hx hy => ?_
    obtain ⟨pc, conc, ws, q, sh⟩ := x
    cases pc <;> simp only at hy <;> cases hy
    exact hx.1.symm
  | prepEnds c =>
    refine kept_onCtl hi h fun x y hx hy => ?_
    obtain ⟨pc, conc, ws, q, sh⟩ := x
    cases pc <;> simp only at hy <;> cases hy
    exact hx.1.symm
  | ctlTold c =>
    refine kept_onCtl hi h fun x y hx hy => ?_
    obtain ⟨pc, conc, ws, q, sh⟩ := x
    cases pc <;> simp only at hy <;> try cases hy
    split at hy <;> cases hy
    exact hx
  | ctlWakes c =>
    refine kept_onCtl hi h fun x y hx hy => ?_
    obtain ⟨pc, conc, ws, q, sh⟩ := x
    cases pc <;> simp only at hy <;> cases hy
    exact hx.1.symm
  | workerRaises c w => exact kept_onCtl hi h fun x y hx hy => kept_endWorker hx hy
  | workerEnds c w => exact kept_onCtl hi h fun x y hx hy => kept_endWorker hx hy
  | synced =>
    simp only [step] at h
    split at h
    · split at h
      · cases h
      · cases h
        intro x hx
        obtain ⟨k, -, rfl⟩ := List.mem_map.1 hx
        exact ⟨rfl, rfl⟩
    · cases h
  | cancel =>
    simp only [step] at h
    split at h <;> cases h
    · exact hi
    · intro x hx
      obtain ⟨k, hk, rfl⟩ := List.mem_map.1 hx
      exact kept_ask (hi k hk)
    · intro x hx
      obtain ⟨k, hk, rfl⟩ := List.mem_map.1 hx
      exact kept_ask (hi k hk)
    · exact hi
  | _ =>
    simp only [step] at h
    repeat' split at h
    all_goals first | (cases h; done) | (cases h; exact hi)

theorem kept_exec {s s' : State} {as : List Act} (hi : ∀ x ∈ s.ctls, x.Kept) (h : exec s as = some s') :
    ∀ x ∈ s'.ctls, x.Kept := by
  induction as generalizing s with
  | nil => cases h; exact hi
  | cons a as ih =>
    obtain ⟨s1, h1, h2⟩ := Option.bind_eq_some_iff.1 h
    exact ih (kept_step hi h1) h2

end Aiok8s.Shutdown
