import Verif.Proof.InformersMap
import Mathlib.Tactic.Linarith
import Mathlib.Tactic.NormNum
import Mathlib.Tactic.Positivity
import Mathlib.Tactic.FieldSimp
import Mathlib.Tactic.Ring
/-!
# The map of informers: C58, C59, C70
-/
set_option linter.unusedSimpArgs false
namespace Aiok8s.InformersMap
open Aiok8s
variable {G : Type} [DecidableEq G]

/-- **C58**: whatever the order in which tasks call `get`, two tasks are given the same informer (or wait
for the same one) if and only if they asked for the same kind. -/
theorem C58_same (es : List (Ev G)) (c d : Nat) (g h : G) (i j : Nat)
    (hc : given ((exec init es).tasks c) = some (g, i)) (hd : given ((exec init es).tasks d) = some (h, j)) :
    g = h ↔ i = j := by
  have inv := inv_exec es (inv_init (G := G))
  have h1 := inv.given c g i hc
  have h2 := inv.given d h j hd
  constructor
  · rintro rfl
    rw [h1] at h2
    exact Option.some.inj h2
  · rintro rfl
    exact inv.inj g h i h1 h2

/-- **C58**: also later calls give the same informer. -/
theorem C58_stable (es more : List (Ev G)) (c d : Nat) (g : G) (i j : Nat)
    (hc : given ((exec init es).tasks c) = some (g, i))
    (hd : given ((exec init (es ++ more)).tasks d) = some (g, j)) : i = j := by
  have h1 := map_exec more g i _ ((inv_exec es (inv_init (G := G))).given c g i hc)
  have h2 := (inv_exec (es ++ more) (inv_init (G := G))).given d g j hd
  rw [exec_append] at h2
  rw [h1] at h2
  exact Option.some.inj h2

/-- **C58**, for informers that somebody was given before the start: `start` runs them, and once such an
informer has synced, a task that waits for it returns.  Missing: informers requested after the start, see
`C58_refuted`. -/
theorem C58_run_partial (es more : List (Ev G)) (c d : Nat) (g : G) (i : Nat)
    (hc : given ((exec init es).tasks c) = some (g, i)) :
    let s := exec init (es ++ .start :: more)
    i ∈ s.running ∧
    (i ∈ (step s (.sync i)).synced) ∧
    (s.tasks d = .waiting g i → (exec s [.sync i, .poll d]).tasks d = .returned g i true) := by
  intro s
  have inv := inv_exec es (inv_init (G := G))
  have hr : i ∈ s.running := by
    show i ∈ (exec init (es ++ .start :: more)).running
    rw [exec_append]
    refine running_exec more i _ ?_
    exact List.mem_append_right _ ((PyDict.mem_values inv.wf).2 ⟨g, inv.given c g i hc⟩)
  refine ⟨hr, by simp [step, hr], fun hd => ?_⟩
  simp only [exec, step, hr, if_true, hd, List.mem_cons, true_or, State.setPc]

/-- A move that is not `start`. -/
def notStart : Ev G → Bool
  | .start => false
  | _ => true

/-- **C58** is false for informers requested after the start: nobody runs them, and the caller waits for
ever (unless `start` is called again). -/
theorem C58_refuted (es : List (Ev G)) (c : Nat) (g : G) (hs : (exec init es).started = true)
    (hn : (exec init es).map.get? g = none) (hc : (exec init es).tasks c = .idle) :
    ∃ i, ∀ more : List (Ev G), (∀ e ∈ more, notStart e = true) →
      let s := exec init (es ++ [.call c g, .look c, .make c] ++ more)
      s.tasks c = .waiting g i ∧ i ∉ s.running := by
  have inv := inv_exec es (inv_init (G := G))
  refine ⟨(exec init es).made, fun more hm => ?_⟩
  rw [List.append_assoc, exec_append]
  generalize exec init es = s at *
  have hnr : s.made ∉ s.running := fun h => Nat.lt_irrefl _ (inv.runb _ h)
  have hns : s.made ∉ s.synced := fun h => hnr (inv.run _ h)
  rw [exec_append]
  have h0 : (exec s [.call c g, .look c, .make c]).tasks c = .waiting g s.made ∧
      s.made ∉ (exec s [.call c g, .look c, .make c]).running ∧
      s.made ∉ (exec s [.call c g, .look c, .make c]).synced := by
    simp [exec, step, hc, State.setPc, hn, hs, orAdd, addInformer, hns, hnr]
  generalize exec s [.call c g, .look c, .make c] = s' at h0
  generalize s.made = i at h0
  clear hn hc hs inv hnr hns
  induction more generalizing s' with
  | nil => exact ⟨h0.1, h0.2.1⟩
  | cons e more ih =>
    refine ih (fun e he => hm e (by simp [he])) (step s' e) ?_
    have hset : ∀ (t : State G) (d : Nat) (p : Pc G), t.tasks c = .waiting g i → i ∉ t.running → i ∉ t.synced →
        d ≠ c → (t.setPc d p).tasks c = .waiting g i ∧ i ∉ (t.setPc d p).running ∧
        i ∉ (t.setPc d p).synced := by
      intro t d p h1 h2 h3 hd
      refine ⟨?_, h2, h3⟩
      simp only [State.setPc]
      rw [if_neg (Ne.symm hd)]
      exact h1
    obtain ⟨h1, h2, h3⟩ := h0
    cases e with
    | start => exact absurd (hm .start (by simp)) (by simp [notStart])
    | sync j =>
      simp only [step]
      split
      · rename_i hj
        refine ⟨h1, h2, ?_⟩
        simp only [List.mem_cons, not_or]
        refine ⟨?_, h3⟩
        rintro rfl
        exact h2 hj
      · exact ⟨h1, h2, h3⟩
    | call d g' =>
      simp only [step]
      split
      · refine hset _ _ _ h1 h2 h3 ?_
        rintro rfl
        simp_all
      · refine hset _ _ _ h1 h2 h3 ?_
        rintro rfl
        simp_all
      · exact ⟨h1, h2, h3⟩
    | look d =>
      simp only [step]
      split
      · refine hset _ _ _ h1 h2 h3 ?_
        rintro rfl
        simp_all
      · exact ⟨h1, h2, h3⟩
    | poll d =>
      simp only [step]
      split
      · rename_i g' j hd
        split
        · rename_i hj
          refine hset _ _ _ h1 h2 h3 ?_
          rintro rfl
          rw [h1] at hd
          cases hd
          exact h3 hj
        · exact ⟨h1, h2, h3⟩
      · exact ⟨h1, h2, h3⟩
    | make d =>
      simp only [step]
      split
      · rename_i g' found started hd
        have hdc : d ≠ c := by
          rintro rfl
          rw [h1] at hd
          cases hd
        have ha : (orAdd s' g' found).1.tasks c = .waiting g i ∧ i ∉ (orAdd s' g' found).1.running ∧
            i ∉ (orAdd s' g' found).1.synced := by
          cases found with
          | some j => exact ⟨h1, h2, h3⟩
          | none => simp only [orAdd, addInformer]; split <;> exact ⟨h1, h2, h3⟩
        split <;> exact hset _ _ _ ha.1 ha.2.1 ha.2.2 hdc
      · exact ⟨h1, h2, h3⟩

/-- Two kinds, three tasks racing for them, the start, and a late request. -/
private def sample : List (Ev Nat) :=
  [.call 0 5, .call 1 5, .call 2 6, .look 0, .look 1, .make 1, .make 0, .look 2, .make 2, .start,
    .sync 0, .call 0 5, .look 0, .make 0]

example : given ((exec init sample).tasks 0) = some (5, 0) ∧ given ((exec init sample).tasks 1) = some (5, 0) ∧
    given ((exec init sample).tasks 2) = some (6, 1) ∧ (exec init sample).started = true ∧
    (exec init sample).map.get? 7 = none ∧ (exec init sample).tasks 3 = .idle ∧
    cacheGet ((exec init sample).tasks 0) = some (.read 0) ∧
    cacheGet ((exec init sample).tasks 1) = some .notStarted := by decide

/-! ## C70 -/

/-- **C70**: when `_InformerCache.get` answers from a reader, then the informer is the one for the kind,
it is running and it has synced; before the start the answer is `CacheNotStartedError`. -/
theorem C70_synced (es : List (Ev G)) (c : Nat) :
    (∀ i, cacheGet ((exec init es).tasks c) = some (.read i) → ∃ g, given ((exec init es).tasks c) = some (g, i) ∧
      (exec init es).map.get? g = some i ∧ i ∈ (exec init es).synced ∧ i ∈ (exec init es).running) ∧
    (.start ∉ es → ∀ a, cacheGet ((exec init es).tasks c) = some a → a = .notStarted) := by
  have inv := inv_exec es (inv_init (G := G))
  have part : ∀ i, cacheGet ((exec init es).tasks c) = some (.read i) → ∃ g,
      given ((exec init es).tasks c) = some (g, i) ∧
      (exec init es).map.get? g = some i ∧ i ∈ (exec init es).synced ∧ i ∈ (exec init es).running := by
    intro i h
    cases hc : (exec init es).tasks c with
    | returned g j b =>
      rw [hc] at h
      cases b with
      | false => simp [cacheGet] at h
      | true =>
        simp only [cacheGet, if_true, Option.some.injEq, Answer.read.injEq] at h
        subst h
        exact ⟨g, rfl, inv.given c g j (by rw [hc]; rfl), inv.ret c g j hc, inv.run j (inv.ret c g j hc)⟩
    | idle => rw [hc] at h; cases h
    | entering g => rw [hc] at h; cases h
    | looked g f b => rw [hc] at h; cases h
    | waiting g j => rw [hc] at h; cases h
  have hread : ∀ i, cacheGet ((exec init es).tasks c) = some (.read i) → i ∈ (exec init es).running := by
    intro i h
    obtain ⟨_, _, _, _, hr⟩ := part i h
    exact hr
  refine ⟨part, fun hns a h => ?_⟩
  · have hrun : ∀ (es : List (Ev G)) (s : State G), .start ∉ es → (exec s es).running = s.running := by
      intro es
      induction es with
      | nil => intro s _; rfl
      | cons e es ih =>
        intro s hn
        simp only [List.mem_cons, not_or] at hn
        rw [exec, ih _ hn.2]
        cases e with
        | start => exact absurd rfl hn.1
        | call c g => simp only [step]; split <;> rfl
        | look c => simp only [step]; split <;> rfl
        | poll c =>
          simp only [step]; split
          · split <;> rfl
          · rfl
        | sync i => simp only [step]; split <;> rfl
        | make c =>
          simp only [step]
          split
          · rename_i g' found started _
            have : (orAdd s g' found).1.running = s.running := by
              cases found with
              | some j => rfl
              | none => simp only [orAdd, addInformer]; split <;> rfl
            split <;> exact this
          · rfl
    cases a with
    | notStarted => rfl
    | read i =>
      have hr := hread i h
      rw [hrun es init hns] at hr
      cases hr

private theorem started_exec (es : List (Ev G)) : ∀ s : State G, s.started = true → (exec s es).started = true := by
  induction es with
  | nil => intro s h; exact h
  | cons e es ih =>
    intro s h
    refine ih _ ?_
    cases e with
    | start => rfl
    | call c g => simp only [step]; split <;> exact h
    | look c => simp only [step]; split <;> exact h
    | poll c => simp only [step]; split <;> (try split) <;> exact h
    | sync i => simp only [step]; split <;> exact h
    | make c =>
      simp only [step]
      split
      · rename_i g' found st heq
        have hor : (orAdd s g' found).1.started = true := by
          cases found with
          | some j => exact h
          | none => simp only [orAdd, addInformer]; split <;> exact h
        split <;> exact hor
      · exact h

/-- **C70**, the other half: a call that passes the mutex after `start` never ends with
`CacheNotStartedError`: it answers from the informer or waits for it. -/
theorem C70_started (es more : List (Ev G)) (c : Nat) (g : G)
    (hc : (exec init (es ++ .start :: more)).tasks c = .entering g) :
    let s := exec init (es ++ .start :: more ++ [.look c, .make c])
    ∃ i, s.tasks c = .waiting g i ∨ cacheGet (s.tasks c) = some (.read i) := by
  intro s
  have hst : (exec init (es ++ .start :: more)).started = true := by
    rw [exec_append]
    exact started_exec more _ rfl
  have hs : s = exec (exec init (es ++ .start :: more)) [.look c, .make c] := exec_append _ _ _
  rw [hs]
  generalize exec init (es ++ .start :: more) = t at hc hst
  have hl : step t (.look c) = t.setPc c (.looked g (t.map.get? g) true) := by
    simp only [step, hc, hst]
  have htask : (t.setPc c (.looked g (t.map.get? g) true)).tasks c = .looked g (t.map.get? g) true := by
    simp [State.setPc]
  show ∃ i, (step (step t (.look c)) (.make c)).tasks c = _ ∨ cacheGet ((step (step t (.look c)) (.make c)).tasks c) = _
  rw [hl]
  generalize t.setPc c (.looked g (t.map.get? g) true) = u at htask
  refine ⟨(orAdd u g (t.map.get? g)).2, ?_⟩
  simp only [step, htask]
  split
  · left; simp [State.setPc]
  · right; simp [State.setPc, cacheGet]

example : (exec init ([.call 0 5, .look 0, .make 0] ++ .start :: [.sync 0, .call 1 5] : List (Ev Nat))).tasks 1 =
    .entering 5 := by decide

/-! ## C59 -/

/-- **C59** is false: whatever the random number, the resync period is less than 18 percent of the
configured one (and zero, which means no resync at all, for the number zero). -/
theorem C59_refuted (resync u : ℚ) (hr : 0 < resync) (h0 : 0 ≤ u) (h1 : u < 1) :
    0 ≤ resyncPeriod resync u ∧ resyncPeriod resync u < 18 / 100 * resync ∧ (u = 0 → resyncPeriod resync u = 0) ∧
    ¬ (9 / 10 * resync ≤ resyncPeriod resync u ∧ resyncPeriod resync u ≤ 11 / 10 * resync) := by
  have hlt : resyncPeriod resync u < 18 / 100 * resync := by
    unfold resyncPeriod
    nlinarith
  refine ⟨by unfold resyncPeriod; positivity, hlt, by rintro rfl; simp [resyncPeriod], fun h => ?_⟩
  nlinarith [h.1]

/-- **C59**, what is left of it: the period is bounded by the configured one, and every period below 18
percent of it is given for some random number.  Missing: the intended bounds, see `C59_refuted`. -/
theorem C59_range_partial (resync p : ℚ) (hr : 0 < resync) :
    (∃ u, 0 ≤ u ∧ u < 1 ∧ resyncPeriod resync u = p) ↔ 0 ≤ p ∧ p < 18 / 100 * resync := by
  constructor
  · rintro ⟨u, h0, h1, rfl⟩
    exact ⟨(C59_refuted resync u hr h0 h1).1, (C59_refuted resync u hr h0 h1).2.1⟩
  · rintro ⟨h0, h1⟩
    refine ⟨p / (18 / 100 * resync), by positivity, ?_, ?_⟩
    · rw [div_lt_one (by positivity)]; exact h1
    · unfold resyncPeriod
      field_simp
      ring

/-- the default period of ten hours -/
example : resyncPeriod 36000 (1 / 2) = 3240 := by norm_num [resyncPeriod]

end Aiok8s.InformersMap
