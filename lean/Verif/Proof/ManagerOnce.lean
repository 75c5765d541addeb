import Verif.Proof.Manager
import Mathlib.Data.List.Nodup
/-! # The cache is started once, whoever calls `manager.start` -/
set_option linter.unusedSectionVars false
set_option linter.unusedSimpArgs false
namespace Aiok8s.Manager
open Aiok8s
variable {G : Type} [DecidableEq G]

theorem running_im_step (s : InformersMap.State G) (e : InformersMap.Ev G) (h : e ≠ .start) :
    (InformersMap.step s e).running = s.running := by
  cases e with
  | call c g => simp only [InformersMap.step]; split <;> rfl
  | look c => simp only [InformersMap.step]; split <;> rfl
  | poll c =>
    simp only [InformersMap.step]; split
    · split <;> rfl
    · rfl
  | start => exact absurd rfl h
  | sync i => simp only [InformersMap.step]; split <;> rfl
  | make c =>
    have ha : ∀ (g : G) (o : Option Nat), (InformersMap.orAdd s g o).1.running = s.running := by
      intro g o
      cases o with
      | some i => rfl
      | none => simp only [InformersMap.orAdd, InformersMap.addInformer]; split <;> rfl
    simp only [InformersMap.step]
    split
    · split <;> exact ha _ _
    · rfl

theorem values_nodup {s : InformersMap.State G} (h : InformersMap.Inv s) : s.map.values.Nodup := by
  have h1 : s.map.Nodup := List.Nodup.of_map _ h.wf
  refine h1.map_on ?_
  rintro ⟨g, i⟩ hg ⟨g', i'⟩ hg' (rfl : i = i')
  rw [h.inj g g' i (PyDict.mem_get? h.wf hg) (PyDict.mem_get? h.wf hg')]

/-- Who has the mutex, and how often the cache has been started. -/
structure Once (s : State G) : Prop where
  im : InformersMap.Inv s.im
  lock : s.lock = true → s.started = false
  held : s.lock = true → ∃ m fs, s.mgr m = .waiting fs
  done : s.started = true → ∃ m, s.mgr m = .running
  wait : ∀ m fs, s.mgr m = .waiting fs → s.lock = true
  uniq : ∀ m fs m' fs', s.mgr m = .waiting fs → s.mgr m' = .waiting fs' → m = m'
  run : ∀ m, s.mgr m = .running → s.started = true
  none : s.lock = false → s.started = false → s.cacheTasks = 0 ∧ s.im.running = []
  le : s.cacheTasks ≤ 1
  tasks : s.cacheTasks = 1 → s.im.running = []
  nodup : s.im.running.Nodup

theorem once_init : Once (init : State G) := by
  refine ⟨InformersMap.inv_init, ?_, ?_, ?_, ?_, ?_, ?_, ?_, ?_, ?_, ?_⟩ <;>
    simp [init, InformersMap.init]

theorem ctl_running (s : State G) (n : Nat) : (ctlStep s n).im.running = s.im.running ∧
    (ctlStep s n).cacheTasks = s.cacheTasks := by
  simp only [ctlStep]
  split
  · exact ⟨rfl, rfl⟩
  · exact ⟨rfl, rfl⟩
  · split <;> exact ⟨rfl, rfl⟩
  · exact ⟨rfl, rfl⟩
  · exact ⟨running_im_step _ _ (by simp), rfl⟩
  · split <;> exact ⟨rfl, rfl⟩
  · split <;> exact ⟨rfl, rfl⟩
  · exact ⟨rfl, rfl⟩

/-- A move that leaves the manager alone. -/
theorem Once.keep {s s' : State G} (h : Once s) (hi : InformersMap.Inv s'.im) (h1 : s'.mgr = s.mgr)
    (h2 : s'.lock = s.lock) (h3 : s'.started = s.started) (h4 : s'.cacheTasks = s.cacheTasks)
    (h5 : s'.im.running = s.im.running) : Once s' := by
  refine ⟨hi, ?_, ?_, ?_, ?_, ?_, ?_, ?_, ?_, ?_, ?_⟩ <;> simp only [h1, h2, h3, h4, h5]
  exacts [h.lock, h.held, h.done, h.wait, h.uniq, h.run, h.none, h.le, h.tasks, h.nodup]

theorem once_step {s : State G} (h : Once s) (e : Ev G) : Once (step s e) := by
  have hi := im_inv_step h.im e
  cases e with
  | cache e =>
    refine h.keep hi ?_ ?_ ?_ ?_ ?_ <;> simp only [step] <;> split <;> try rfl
    rename_i hf
    exact running_im_step _ _ (by rintro rfl; simp [foreign] at hf)
  | add c => exact h.keep hi rfl rfl rfl rfl rfl
  | watch c g => refine h.keep hi ?_ ?_ ?_ ?_ ?_ <;> simp only [step] <;> split <;> rfl
  | ctl n =>
    obtain ⟨h1, h2, -, h3⟩ := ctl_mgr s n
    obtain ⟨h4, h5⟩ := ctl_running s n
    exact h.keep hi h1 h3 h2 h5 h4
  | start m =>
    simp only [step]
    split
    · rename_i hm
      have hs : ∀ d p, (s.setMgr m .entering).mgr d = p → p = .entering ∨ s.mgr d = p := by
        intro d p hd
        simp only [State.setMgr] at hd
        split at hd
        · exact .inl hd.symm
        · exact .inr hd
      have hb : ∀ d p, s.mgr d = p → p ≠ .idle → (s.setMgr m .entering).mgr d = p := by
        intro d p hd hp
        have : d ≠ m := by rintro rfl; rw [hm] at hd; exact hp hd.symm
        simpa only [State.setMgr, if_neg this] using hd
      refine ⟨h.im, h.lock, ?_, ?_, ?_, ?_, ?_, h.none, h.le, h.tasks, h.nodup⟩
      · intro hl
        obtain ⟨d, fs, hd⟩ := h.held hl
        exact ⟨d, fs, hb d _ hd (by simp)⟩
      · intro hl
        obtain ⟨d, hd⟩ := h.done hl
        exact ⟨d, hb d _ hd (by simp)⟩
      · intro d fs hd
        rcases hs d _ hd with h' | h'
        · cases h'
        · exact h.wait d fs h'
      · intro d fs d' fs' hd hd'
        rcases hs d _ hd with h' | h'
        · cases h'
        · rcases hs d' _ hd' with h'' | h''
          · cases h''
          · exact h.uniq _ _ _ _ h' h''
      · intro d hd
        rcases hs d _ hd with h' | h'
        · cases h'
        · exact h.run d h'
    · exact h
  | enter m =>
    rw [step] at hi ⊢
    split
    · rename_i hm
      simp only [hm] at hi
      split
      · exact h
      · rename_i hl
        have hl : s.lock = false := by simpa using hl
        have hnw : ∀ d fs, s.mgr d ≠ .waiting fs := by
          intro d fs hd; have := h.wait d fs hd; rw [hl] at this; cases this
        split
        · rename_i hst
          refine ⟨h.im, h.lock, ?_, ?_, ?_, ?_, ?_, h.none, h.le, h.tasks, h.nodup⟩
          · intro hl'; have hl' : s.lock = true := hl'; rw [hl] at hl'; cases hl'
          · intro _
            obtain ⟨d, hd⟩ := h.done hst
            refine ⟨d, ?_⟩
            have : d ≠ m := by rintro rfl; rw [hm] at hd; cases hd
            simpa only [State.setMgr, startAll, if_neg this] using hd
          · intro d fs hd
            simp only [State.setMgr, startAll] at hd
            split at hd
            · cases hd
            · exact absurd hd (hnw d fs)
          · intro d fs d' fs' hd
            simp only [State.setMgr, startAll] at hd
            split at hd
            · cases hd
            · exact absurd hd (hnw d fs)
          · intro d hd; exact hst
        · rename_i hst
          have hst : s.started = false := by simpa using hst
          obtain ⟨h1, h2⟩ := h.none hl hst
          refine ⟨h.im, fun _ => hst, fun _ => ⟨m, _, if_pos rfl⟩, ?_, fun _ _ _ => rfl, ?_, ?_, ?_, ?_,
            fun _ => h2, h.nodup⟩
          · intro h'; have h' : s.started = true := h'; rw [hst] at h'; cases h'
          · have key : ∀ d fs, (if d = m then MPc.waiting s.im.map.values else s.mgr d) = .waiting fs → d = m := by
              intro d fs hd
              by_contra hne
              rw [if_neg hne] at hd
              exact hnw d fs hd
            intro d fs d' fs' hd hd'
            rw [key d fs hd, key d' fs' hd']
          · intro d hd
            simp only [State.setMgr] at hd
            split at hd
            · cases hd
            · exact h.run d hd
          · intro h'; cases h'
          · show s.cacheTasks + 1 ≤ 1; omega
    · exact h
  | cacheTask =>
    rw [step] at hi ⊢
    split
    · exact h
    · rename_i hc
      simp only [hc, if_false] at hi
      have hle := h.le
      have hr := h.tasks (by omega)
      refine ⟨hi, h.lock, h.held, h.done, h.wait, h.uniq, h.run, ?_, ?_, ?_, ?_⟩
      · intro h1 h2; exact absurd (h.none h1 h2).1 hc
      · show s.cacheTasks - 1 ≤ 1; omega
      · intro h'; have h' : s.cacheTasks - 1 = 1 := h'; omega
      · show (s.im.running ++ s.im.map.values).Nodup
        rw [hr]; simpa using values_nodup h.im
  | poll m =>
    rw [step]
    split
    · rename_i fs hm
      split
      · have hl := h.wait m fs hm
        have hnw : ∀ d fs', (if d = m then MPc.running else s.mgr d) ≠ .waiting fs' := by
          intro d fs' hd
          split at hd
          · cases hd
          · rename_i hne; exact hne (h.uniq _ _ _ _ hd hm)
        refine ⟨h.im, ?_, ?_, fun _ => ⟨m, if_pos rfl⟩, ?_, ?_, fun _ _ => rfl, ?_, h.le, h.tasks, h.nodup⟩
        · intro h'; cases h'
        · intro h'; cases h'
        · intro d fs' hd; exact absurd hd (hnw d fs')
        · intro d fs' d' fs'' hd; exact absurd hd (hnw d fs')
        · intro _ h'; cases h'
      · exact h
    · exact h

theorem once_exec (es : List (Ev G)) : ∀ {s : State G}, Once s → Once (exec s es) := by
  induction es with
  | nil => intro s h; exact h
  | cons e es ih => intro s h; exact ih (once_step h e)

end Aiok8s.Manager
