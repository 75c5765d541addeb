import Verif.Spec.Monitor
import Mathlib.Data.List.Basic
/-!
# The tasks inside `pop` are the sleeping and the notified ones
-/
namespace Aiok8s.Monitor
variable {σ Op Out : Type}

theorem exec_append (m : Machine σ Op Out) (s : State σ) (as bs : List (Ev Op)) :
    exec m s (as ++ bs) = exec m (exec m s as) bs := by
  induction as generalizing s with
  | nil => rfl
  | cons a as ih => exact ih _

/-- Nobody is there twice, and exactly the tasks inside `pop` are there. -/
def Tasks (s : State σ) (b : Nat → Bool) : Prop :=
  (s.asleep ++ s.woken).Nodup ∧ ∀ t, b t = true ↔ t ∈ s.asleep ++ s.woken

private theorem wakeAll_perm (b : Bool) (s : State σ) :
    ((wakeAll b s).asleep ++ (wakeAll b s).woken).Perm (s.asleep ++ s.woken) := by
  cases b with
  | false => exact .refl _
  | true => simpa [wakeAll] using List.perm_append_comm

private theorem tasks_perm {s s' : State σ} {b : Nat → Bool}
    (h : (s'.asleep ++ s'.woken).Perm (s.asleep ++ s.woken)) (ht : Tasks s b) : Tasks s' b :=
  ⟨h.nodup_iff.2 ht.1, fun t => by rw [ht.2 t, h.mem_iff]⟩

private theorem attempt_tasks (m : Machine σ Op Out) {s : State σ} {b : Nat → Bool} (ht : Tasks s b) (t : Nat)
    (o : Op) (hn : b t = false) :
    ((attempt m s t o).2 = none → Tasks (attempt m s t o).1 (fun u => if t = u then true else b u)) ∧
    (∀ a, (attempt m s t o).2 = some a → Tasks (attempt m s t o).1 b) := by
  have hw := tasks_perm (wakeAll_perm (m.notifies s.core o) { s with core := (m.step s.core o).1 })
    (show Tasks { s with core := (m.step s.core o).1 } b from ht)
  simp only [attempt]
  generalize wakeAll (m.notifies s.core o) { s with core := (m.step s.core o).1 } = s' at hw
  split
  · refine ⟨fun _ => ?_, by simp⟩
    have hp : (s'.asleep ++ [t] ++ s'.woken).Perm (t :: (s'.asleep ++ s'.woken)) := by
      rw [List.append_assoc]
      exact List.perm_middle
    have hnt : t ∉ s'.asleep ++ s'.woken := by rw [← hw.2 t]; simp [hn]
    refine ⟨hp.nodup_iff.2 (List.nodup_cons.2 ⟨hnt, hw.1⟩), fun u => ?_⟩
    rw [hp.mem_iff, List.mem_cons, ← hw.2 u]
    by_cases h : t = u
    · simp [h]
    · simp [h, Ne.symm h]
  · exact ⟨by simp, fun _ _ => hw⟩

private theorem erase_tasks {s : State σ} {b : Nat → Bool} (ht : Tasks s b) (t : Nat) :
    Tasks { s with asleep := s.asleep.erase t, woken := s.woken.erase t } (fun u => if t = u then false else b u) := by
  obtain ⟨h1, h2⟩ := ht
  rw [List.nodup_append] at h1
  obtain ⟨ha, hw, hd⟩ := h1
  refine ⟨List.nodup_append.2 ⟨ha.erase t, hw.erase t, ?_⟩, fun u => ?_⟩
  · intro x hx y hy
    exact hd x (List.mem_of_mem_erase hx) y (List.mem_of_mem_erase hy)
  · have := h2 u
    simp only [List.mem_append, ha.mem_erase_iff, hw.mem_erase_iff] at this ⊢
    by_cases h : t = u
    · simp [h]
    · simp [h, Ne.symm h, this]

theorem tasks_trace (m : Machine σ Op Out) {s : State σ} {b : Nat → Bool} (ht : Tasks s b) (es : List (Ev Op))
    (hp : ∀ e ∈ es, Proper m e) : Tasks (exec m s es) (fun t => inside t (b t) (trace m s es)) := by
  induction es generalizing s b with
  | nil => exact ht
  | cons e es ih =>
    have hpe := hp e (List.mem_cons_self ..)
    have hps : ∀ e ∈ es, Proper m e := fun e he => hp e (List.mem_cons_of_mem _ he)
    simp only [exec, trace]
    cases e with
    | call o =>
      simp only [Proper] at hpe
      refine ih (b := b) ?_ hps
      simp only [step, hpe]
      exact tasks_perm (wakeAll_perm _ _) ht
    | cancel t => exact ih (b := fun u => if t = u then false else b u) (erase_tasks ht t) hps
    | pop t o =>
      simp only [Proper] at hpe
      by_cases hin : t ∉ s.asleep ∧ t ∉ s.woken
      · have hbt : b t = false := by
          have := ht.2 t
          simp only [List.mem_append, hin.1, hin.2, or_self, iff_false] at this
          simpa using this
        obtain ⟨h1, h2⟩ := attempt_tasks m ht t o hbt
        have hst : step m s (.pop t o) = attempt m s t o := by simp only [step, hpe, hin]; simp
        rw [hst]
        cases ha : (attempt m s t o).2 with
        | none => exact ih (b := fun u => if t = u then true else b u) (h1 ha) hps
        | some a => exact ih (b := b) (h2 a ha) hps
      · have hbt : b t = true := by
          rw [ht.2 t, List.mem_append]
          by_contra hc
          exact hin ⟨fun h => hc (.inl h), fun h => hc (.inr h)⟩
        have hst : step m s (.pop t o) = (s, none) := by
          simp only [step]; rw [if_neg (fun h => hin h.2)]
        rw [hst]
        refine ih (b := fun u => if t = u then true else b u) ⟨ht.1, fun u => ?_⟩ hps
        rw [← ht.2 u]
        by_cases h : t = u
        · simp [← h, hbt]
        · simp [h]
    | resume t o =>
      simp only [Proper] at hpe
      by_cases hin : t ∈ s.woken
      · have hst : step m s (.resume t o) = attempt m { s with woken := s.woken.erase t } t o := by
          simp only [step, hpe, hin]; simp
        have hna : t ∉ s.asleep := by
          have := ht.1
          rw [List.nodup_append] at this
          exact fun h => this.2.2 t h t hin rfl
        have hs : Tasks { s with woken := s.woken.erase t } (fun u => if t = u then false else b u) := by
          have := erase_tasks ht t
          rwa [List.erase_of_not_mem hna] at this
        obtain ⟨h1, h2⟩ := attempt_tasks m hs t o (by simp)
        have hbt : b t = true := by rw [ht.2 t]; simp [hin]
        rw [hst]
        cases ha : (attempt m { s with woken := s.woken.erase t } t o).2 with
        | none =>
          refine ih (b := b) ?_ hps
          have : b = fun u => if t = u then true else if t = u then false else b u := by
            funext u
            by_cases h : t = u
            · simp [← h, hbt]
            · simp [h]
          rw [this]
          exact h1 ha
        | some a => exact ih (b := fun u => if t = u then false else b u) (h2 a ha) hps
      · have hst : step m s (.resume t o) = (s, none) := by
          simp only [step]; rw [if_neg (fun h => hin h.2)]
        rw [hst]
        exact ih (b := b) ht hps

/-- The calls that took place. -/
theorem core_exec (m : Machine σ Op Out) (es : List (Ev Op)) : ∀ (s : State σ),
    ∃ os : List Op, (exec m s es).core = os.foldl (fun c o => (m.step c o).1) s.core ∧
      ∀ o, m.isPop o = false → (o ∈ os ↔ .call o ∈ es) := by
  have wcore : ∀ b (s : State σ), (wakeAll b s).core = s.core := by
    intro b s; cases b <;> rfl
  have acore : ∀ (s : State σ) t o, (attempt m s t o).1.core = (m.step s.core o).1 := by
    intro s t o
    simp only [attempt]
    split <;> simp [wcore]
  induction es with
  | nil => intro s; exact ⟨[], rfl, by simp⟩
  | cons e es ih =>
    intro s
    obtain ⟨os, h1, h2⟩ := ih (step m s e).1
    have skip : (step m s e).1.core = s.core → (∀ o, m.isPop o = false → e ≠ .call o) →
        ∃ os : List Op, (exec m s (e :: es)).core = os.foldl (fun c o => (m.step c o).1) s.core ∧
          ∀ o, m.isPop o = false → (o ∈ os ↔ .call o ∈ e :: es) := by
      intro hc he
      refine ⟨os, by rw [← hc]; exact h1, fun o ho => ?_⟩
      rw [h2 o ho, List.mem_cons]
      simp [Ne.symm (he o ho)]
    have does : ∀ o', (step m s e).1.core = (m.step s.core o').1 →
        (∀ o, m.isPop o = false → (o = o' ↔ e = .call o)) →
        ∃ os : List Op, (exec m s (e :: es)).core = os.foldl (fun c o => (m.step c o).1) s.core ∧
          ∀ o, m.isPop o = false → (o ∈ os ↔ .call o ∈ e :: es) := by
      intro o' hc he
      refine ⟨o' :: os, by rw [List.foldl_cons, ← hc]; exact h1, fun o ho => ?_⟩
      rw [List.mem_cons, List.mem_cons, h2 o ho, he o ho]
      exact ⟨fun h => h.imp Eq.symm id, fun h => h.imp Eq.symm id⟩
    cases e with
    | call o =>
      cases hp : m.isPop o with
      | true =>
        refine skip (by simp [step, hp]) ?_
        rintro o' ho' ⟨⟩
        rw [hp] at ho'; cases ho'
      | false => exact does o (by simp [step, hp, wcore]) (fun o' _ => by simp [eq_comm])
    | pop t o =>
      by_cases hc : m.isPop o ∧ t ∉ s.asleep ∧ t ∉ s.woken
      · refine does o (by simp only [step]; rw [if_pos hc, acore]) ?_
        intro o' ho'
        simp only [reduceCtorEq, iff_false]
        rintro rfl
        rw [hc.1] at ho'; cases ho'
      · exact skip (by simp only [step]; rw [if_neg hc]) (by simp)
    | resume t o =>
      by_cases hc : m.isPop o ∧ t ∈ s.woken
      · refine does o (by simp only [step]; rw [if_pos hc, acore]) ?_
        intro o' ho'
        simp only [reduceCtorEq, iff_false]
        rintro rfl
        rw [hc.1] at ho'; cases ho'
      · exact skip (by simp only [step]; rw [if_neg hc]) (by simp)
    | cancel t => exact skip rfl (by simp)

/-- No answer means "went to sleep". -/
theorem answers (m : Machine σ Op Out) (hcall : ∀ s o, m.isPop o = false → m.isBlocked (m.step s o).2 = false)
    (es : List (Ev Op)) : ∀ (s : State σ) e a, (e, some a) ∈ trace m s es → m.isBlocked a = false := by
  have hatt : ∀ (s : State σ) t o a, (attempt m s t o).2 = some a → m.isBlocked a = false := by
    intro s t o a h
    simp only [attempt] at h
    split at h
    · simp at h
    · rename_i hb
      simp only [Option.some.injEq] at h
      rw [← h]; simpa using hb
  induction es with
  | nil => intro s e a h; simp [trace] at h
  | cons e' es ih =>
    intro s e a h
    simp only [trace, List.mem_cons, Prod.mk.injEq] at h
    rcases h with ⟨rfl, h⟩ | h
    · cases e with
      | call o =>
        simp only [step] at h
        split at h
        · simp at h
        · rename_i hp
          simp only [Option.some.injEq] at h
          rw [h]; exact hcall _ _ (by simpa using hp)
      | pop t o =>
        simp only [step] at h
        split at h
        · exact hatt _ _ _ _ h.symm
        · simp at h
      | resume t o =>
        simp only [step] at h
        split at h
        · exact hatt _ _ _ _ h.symm
        · simp at h
      | cancel t => simp [step] at h
    · exact ih _ _ _ h

/-- A notified task whose attempt does not sleep gets its answer. -/
theorem resumes (m : Machine σ Op Out) (s : State σ) (t : Nat) (o : Op) (hp : m.isPop o = true)
    (ht : t ∈ s.woken) (hb : m.isBlocked (m.step s.core o).2 = false) :
    (step m s (.resume t o)).2 = some (m.step s.core o).2 := by
  simp [step, hp, ht, attempt, hb]

end Aiok8s.Monitor
