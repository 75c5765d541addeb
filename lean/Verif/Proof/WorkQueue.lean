import Verif.Spec.WorkQueue
/-! # Invariants of the work queue -/
set_option linter.unusedSimpArgs false
namespace Aiok8s.WorkQueue
variable {α : Type} [DecidableEq α]

/-- The bookkeeping invariant. -/
structure Inv (s : State α) : Prop where
  nodup : s.queue.Nodup
  q_dirty : ∀ x ∈ s.queue, x ∈ s.dirty
  q_proc : ∀ x ∈ s.queue, x ∉ s.processing
  dirty_cov : ∀ x ∈ s.dirty, x ∈ s.queue ∨ x ∈ s.processing

theorem inv_init : Inv (init : State α) := by
  constructor <;> simp [init]

theorem inv_step {s : State α} (h : Inv s) (o : Op α) : Inv (step s o).1 := by
  obtain ⟨h1, h2, h3, h4⟩ := h
  cases o with
  | len => exact ⟨h1, h2, h3, h4⟩
  | isShuttingDown => exact ⟨h1, h2, h3, h4⟩
  | shutDown => exact ⟨h1, h2, h3, h4⟩
  | add x =>
    simp only [step, add]
    split
    · exact ⟨h1, h2, h3, h4⟩
    · split
      · exact ⟨h1, h2, h3, h4⟩
      · rename_i hx
        split
        · constructor <;> grind [PySet.mem_add]
        · constructor <;> grind [PySet.mem_add]
  | get =>
    simp only [step, get]
    split
    · split <;> exact ⟨h1, h2, h3, h4⟩
    · constructor <;> grind [PySet.mem_add, PySet.mem_remove]
  | done x =>
    simp only [step, done]
    split
    · split
      · constructor <;> grind [PySet.mem_remove]
      · constructor <;> grind [PySet.mem_remove]
    · exact ⟨h1, h2, h3, h4⟩

theorem inv_exec {s : State α} (h : Inv s) (os : List (Op α)) : Inv (exec s os) := by
  induction os generalizing s with
  | nil => exact h
  | cons o os ih => exact ih (inv_step h o)

theorem exec_append (s : State α) (as bs : List (Op α)) :
    exec s (as ++ bs) = exec (exec s as) bs := by
  induction as generalizing s with
  | nil => rfl
  | cons a as ih => exact ih _

theorem trace_append (s : State α) (as bs : List (Op α)) :
    trace s (as ++ bs) = trace s as ++ trace (exec s as) bs := by
  induction as generalizing s with
  | nil => rfl
  | cons a as ih => simp [trace, exec, ih]

/-- Split a trace at a cut of its list of calls. -/
theorem trace_split {s : State α} {os : List (Op α)} {a b : List (Op α × Out α)}
    (h : trace s os = a ++ b) :
    ∃ as bs, os = as ++ bs ∧ trace s as = a ∧ trace (exec s as) bs = b := by
  induction a generalizing s os with
  | nil => exact ⟨[], os, rfl, rfl, h⟩
  | cons p a ih =>
    cases os with
    | nil => simp [trace] at h
    | cons o os =>
      simp [trace] at h
      obtain ⟨hp, h⟩ := h
      obtain ⟨as, bs, rfl, h1, h2⟩ := ih h
      exact ⟨o :: as, bs, rfl, by simp [trace, h1, hp], h2⟩

theorem trace_cons_inv {s : State α} {os : List (Op α)} {p : Op α × Out α}
    {b : List (Op α × Out α)} (h : trace s os = p :: b) :
    ∃ bs, os = p.1 :: bs ∧ (step s p.1).2 = p.2 ∧ trace (step s p.1).1 bs = b := by
  cases os with
  | nil => simp [trace] at h
  | cons o os =>
    simp [trace] at h
    obtain ⟨rfl, h⟩ := h
    exact ⟨os, rfl, rfl, h⟩

/-- The correspondence with the reference. -/
structure Sim (s : State α) (r : Ref α) : Prop where
  inv : Inv s
  line : r.line = s.queue
  closed : r.closed = s.shuttingDown
  busy : ∀ x, r.busy x = if x ∈ s.processing then some (decide (x ∈ s.dirty)) else none

theorem sim_init : Sim (init : State α) Ref.empty :=
  ⟨inv_init, rfl, rfl, by simp [init, Ref.empty]⟩

theorem sim_step {s : State α} {r : Ref α} (h : Sim s r) (o : Op α) :
    Sim (step s o).1 (r.step o).1 ∧ (step s o).2 = (r.step o).2 := by
  have hi := inv_step h.inv o
  obtain ⟨⟨h1, h2, h3, h4⟩, hl, hc, hb⟩ := h
  obtain ⟨d, p, q, sd⟩ := s
  obtain ⟨line, busy, closed⟩ := r
  simp only at h1 h2 h3 h4 hl hc hb
  subst hl hc
  cases o with
  | len => exact ⟨⟨hi, rfl, rfl, hb⟩, rfl⟩
  | isShuttingDown => exact ⟨⟨hi, rfl, rfl, hb⟩, rfl⟩
  | shutDown => exact ⟨⟨hi, rfl, rfl, hb⟩, rfl⟩
  | add x =>
    have hbx := hb x
    cases closed with
    | true => exact ⟨⟨hi, by simp [step, add, Ref.step], by simp [step, add, Ref.step],
        by simpa [step, add, Ref.step] using hb⟩, by simp [step, Ref.step]⟩
    | false =>
      by_cases hq : x ∈ line
      · have hd := h2 x hq
        simp [step, add, Ref.step, hq, hd] at hi ⊢
        exact ⟨hi, rfl, rfl, hb⟩
      · by_cases hp : x ∈ p
        · simp [hp] at hbx
          by_cases hd : x ∈ d
          · simp [step, add, Ref.step, hq, hd, hbx] at hi ⊢
            refine ⟨hi, rfl, rfl, fun y => ?_⟩
            have := hb y
            simp only [Ref.mark]
            split
            · rename_i h; subst h; simp [hp, hd]
            · exact this
          · simp [step, add, Ref.step, hq, hd, hbx, hp] at hi ⊢
            refine ⟨hi, rfl, rfl, fun y => ?_⟩
            have := hb y
            simp only [Ref.mark, PySet.mem_add]
            split
            · rename_i h; subst h; simp [hp]
            · rename_i h; simp [h, this]
        · simp [hp] at hbx
          have hd : x ∉ d := fun hd => (h4 x hd).elim hq hp
          simp [step, add, Ref.step, hq, hd, hbx, hp] at hi ⊢
          refine ⟨hi, rfl, rfl, fun y => ?_⟩
          have := hb y
          simp only [PySet.mem_add]
          by_cases h : y = x
          · subst h; simp [hp, hbx]
          · simp [h, this]
  | get =>
    cases line with
    | nil =>
      cases closed
      · exact ⟨⟨hi, rfl, rfl, hb⟩, rfl⟩
      · exact ⟨⟨hi, rfl, rfl, hb⟩, rfl⟩
    | cons x rest =>
      simp [step, get, Ref.step] at hi ⊢
      refine ⟨hi, rfl, rfl, ?_⟩
      intro y
      have := hb y
      simp only [Ref.mark, PySet.mem_add, PySet.mem_remove]
      grind
  | done x =>
    have hbx := hb x
    by_cases hp : x ∈ p
    · by_cases hd : x ∈ d
      · simp [hp, hd] at hbx
        simp [step, done, Ref.step, hp, hd, hbx] at hi ⊢
        refine ⟨hi, rfl, rfl, ?_⟩
        intro y
        have := hb y
        simp only [Ref.mark, PySet.mem_remove]
        grind
      · simp [hp, hd] at hbx
        simp [step, done, Ref.step, hp, hd, hbx] at hi ⊢
        refine ⟨hi, rfl, rfl, ?_⟩
        intro y
        have := hb y
        simp only [Ref.mark, PySet.mem_remove]
        grind
    · simp [hp] at hbx
      simp [step, done, Ref.step, hp, hbx] at hi ⊢
      exact ⟨hi, rfl, rfl, hb⟩

theorem sim_trace {s : State α} {r : Ref α} (h : Sim s r) (os : List (Op α)) :
    trace s os = r.trace os := by
  induction os generalizing s r with
  | nil => rfl
  | cons o os ih =>
    obtain ⟨h1, h2⟩ := sim_step h o
    simp [trace, Ref.trace, h2, ih h1]

/-- An item in progress stays in progress until its `done` succeeds. -/
theorem processing_stays {s : State α} {x : α} {os : List (Op α)} (hx : x ∈ s.processing)
    (hn : (Op.done x, Out.ok) ∉ trace s os) : x ∈ (exec s os).processing := by
  induction os generalizing s with
  | nil => exact hx
  | cons o os ih =>
    simp only [trace, List.mem_cons, not_or] at hn
    refine ih ?_ hn.2
    cases o with
    | len => exact hx
    | isShuttingDown => exact hx
    | shutDown => exact hx
    | add y => simp only [step, add]; grind
    | get => simp only [step, get]; grind [PySet.mem_add]
    | done y =>
      have := hn.1
      simp only [step, done] at this ⊢
      grind [PySet.mem_remove]

/-- `get` returning `x` means `x` was first in line, and puts it in progress. -/
theorem get_item {s : State α} {x : α} (h : (get s).2 = .item x) :
    x ∈ s.queue ∧ x ∈ (get s).1.processing ∧ (Inv s → x ∉ (get s).1.dirty) := by
  unfold get at h ⊢
  split at h
  · split at h <;> simp at h
  · rename_i y rest hq
    simp at h; subst h
    simp [hq, PySet.mem_add, PySet.mem_remove]

theorem done_item {s : State α} {x y : α} : (done s x).2 ≠ .item y := by
  unfold done; grind

/-- Not dirty, and no accepted `add` since: still not dirty. -/
theorem not_dirty_stays {s : State α} {x : α} {os : List (Op α)} (hx : x ∉ s.dirty)
    (hn : s.shuttingDown = true ∨
      ∀ as bs, os = as ++ Op.add x :: bs → Op.shutDown ∈ as) : x ∉ (exec s os).dirty := by
  induction os generalizing s with
  | nil => exact hx
  | cons o os ih =>
    have key : x ∉ (step s o).1.dirty ∧ ((step s o).1.shuttingDown = true ∨
        ∀ as bs, os = as ++ Op.add x :: bs → Op.shutDown ∈ as) := by
      have tail : o ≠ .shutDown → (∀ as bs, o :: os = as ++ Op.add x :: bs → Op.shutDown ∈ as) →
          ∀ as bs, os = as ++ Op.add x :: bs → Op.shutDown ∈ as := by
        intro ho hh as bs hab
        have := hh (o :: as) bs (by simp [hab])
        simp only [List.mem_cons] at this
        rcases this with h | h
        · exact absurd h.symm ho
        · exact h
      cases o with
      | len => exact ⟨hx, hn.imp id (tail (by simp))⟩
      | isShuttingDown => exact ⟨hx, hn.imp id (tail (by simp))⟩
      | shutDown => exact ⟨hx, Or.inl rfl⟩
      | add y =>
        constructor
        · by_cases hyx : y = x
          · subst hyx
            rcases hn with hn | hn
            · simp [step, add, hn, hx]
            · have := hn [] os rfl; simp at this
          · simp only [step, add]; grind [PySet.mem_add]
        · rcases hn with hn | hn
          · left; simp only [step, add]; grind
          · exact Or.inr (tail (by simp) hn)
      | get =>
        constructor
        · simp only [step, get]; grind [PySet.mem_remove]
        · rcases hn with hn | hn
          · left; simp only [step, get]; grind
          · exact Or.inr (tail (by simp) hn)
      | done y =>
        constructor
        · simp only [step, done]; grind
        · rcases hn with hn | hn
          · left; simp only [step, done]; grind
          · exact Or.inr (tail (by simp) hn)
    exact ih key.1 key.2

theorem shuttingDown_stays {s : State α} (h : s.shuttingDown = true) (os : List (Op α)) :
    (exec s os).shuttingDown = true := by
  induction os generalizing s with
  | nil => exact h
  | cons o os ih =>
    apply ih
    cases o <;> simp only [step, add, get, done, shutDown] <;> grind

theorem shuttingDown_only {s : State α} (h : s.shuttingDown = false) {os : List (Op α)}
    (hn : Op.shutDown ∉ os) : (exec s os).shuttingDown = false := by
  induction os generalizing s with
  | nil => exact h
  | cons o os ih =>
    simp at hn
    apply ih _ hn.2
    cases o <;> simp only [step, add, get, done, shutDown] <;> grind

/-- Dirty stays dirty until the item is delivered. -/
theorem dirty_stays {s : State α} {x : α} {os : List (Op α)} (hx : x ∈ s.dirty)
    (hn : (Op.get, Out.item x) ∉ trace s os) : x ∈ (exec s os).dirty := by
  induction os generalizing s with
  | nil => exact hx
  | cons o os ih =>
    simp only [trace, List.mem_cons, not_or] at hn
    refine ih ?_ hn.2
    cases o with
    | len => exact hx
    | isShuttingDown => exact hx
    | shutDown => exact hx
    | add y => simp only [step, add]; grind [PySet.mem_add]
    | done y => simp only [step, done]; grind
    | get =>
      have := hn.1
      simp only [step, get] at this ⊢
      grind [PySet.mem_remove]

/-- A waiting item reaches the front after as many `get`s as there are items before it. -/
theorem delivered_by {s : State α} {x : α} {pre post : List α} {os : List (Op α)}
    (hq : s.queue = pre ++ x :: post) (hg : pre.length < gets os) :
    (Op.get, Out.item x) ∈ trace s os := by
  induction os generalizing s pre post with
  | nil => simp [gets] at hg
  | cons o os ih =>
    simp only [trace, List.mem_cons]
    cases o with
    | len => exact Or.inr (ih hq (by simpa [gets] using hg))
    | isShuttingDown => exact Or.inr (ih hq (by simpa [gets] using hg))
    | shutDown => exact Or.inr (ih hq (by simpa [gets] using hg))
    | add y =>
      right
      have : ∃ post', (step s (.add y)).1.queue = pre ++ x :: post' := by
        simp only [step, add]
        split
        · exact ⟨post, hq⟩
        · split
          · exact ⟨post, hq⟩
          · split
            · exact ⟨post, hq⟩
            · exact ⟨post ++ [y], by simp [hq]⟩
      obtain ⟨post', hp⟩ := this
      exact ih hp (by simpa [gets] using hg)
    | done y =>
      right
      have : ∃ post', (step s (.done y)).1.queue = pre ++ x :: post' := by
        simp only [step, done]
        split
        · split
          · exact ⟨post ++ [y], by simp [hq]⟩
          · exact ⟨post, hq⟩
        · exact ⟨post, hq⟩
      obtain ⟨post', hp⟩ := this
      exact ih hp (by simpa [gets] using hg)
    | get =>
      cases pre with
      | nil => left; simp [step, get, hq]
      | cons p pre =>
        right
        apply ih (pre := pre) (post := post)
        · simp [step, get, hq]
        · simp [gets] at hg ⊢; omega

end Aiok8s.WorkQueue
