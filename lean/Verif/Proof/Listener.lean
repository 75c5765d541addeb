import Verif.Spec.Listener
/-!
# Lemmas about the listener
-/
set_option linter.unusedSimpArgs false
namespace Aiok8s.Listener
open Spec
variable {N : Type}

/-- Facts about reachable states. -/
structure Inv (s : State N) : Prop where
  /-- something is handed over only if there is something -/
  put : s.putDone = true → s.cur.isSome
  join : s.joining = true → s.cur.isSome
  /-- not both -/
  one : s.joining = true → s.putDone = false ∧ s.got = none
  /-- nothing is buffered unless something is held -/
  held : s.cur = none → s.pend = []
  addLen : s.addQ.length ≤ 1
  nextLen : s.nextQ.length ≤ 1
  /-- only a handed over notification is in the second queue -/
  next : s.nextQ ≠ [] → s.putDone = true ∨ s.joining = true
  /-- `_run` ends after `_pop` -/
  ended : s.run = .ended → s.popEnded = true
  stop : s.popEnded = true → s.stopAdd = true

theorem inv_init : Inv (init : State N) := by
  constructor <;> simp [init]

theorem inv_step {s s' : State N} {a : Act N} {c : Option N} (h : Inv s)
    (hs : step s a = some (s', c)) : Inv s' := by
  obtain ⟨addQ, got, cur, pd, jn, pend, nextQ, run, sa, pe⟩ := s
  obtain ⟨h1, h2, h3, h4, h5, h6, h7, h8, h9⟩ := h
  simp only at h1 h2 h3 h4 h5 h6 h7 h8 h9
  cases a with
  | put n =>
    cases addQ <;> simp [step] at hs
    obtain ⟨rfl, -⟩ := hs
    constructor <;> simp_all
  | getTask =>
    cases pe <;> cases jn <;> cases got <;> cases addQ <;> simp [step] at hs
    obtain ⟨rfl, -⟩ := hs
    constructor <;> simp_all
  | putTask =>
    cases pe <;> cases jn <;> cases pd <;> cases cur <;> cases nextQ <;> simp [step] at hs
    obtain ⟨rfl, -⟩ := hs
    constructor <;> simp_all
  | popResume =>
    cases pe <;> cases jn <;> cases sa <;> simp [step] at hs
    · obtain ⟨-, rfl, -⟩ := hs
      cases got <;> cases cur <;> cases pd <;> constructor <;> simp_all [takeGot]
    · obtain ⟨rfl, -⟩ := hs
      constructor <;> simp_all
  | joined =>
    cases jn <;> cases nextQ <;> simp [step] at hs
    obtain ⟨rfl, -⟩ := hs
    cases pend <;> constructor <;> simp_all
  | runGet =>
    cases run <;> cases nextQ <;> simp [step] at hs
    obtain ⟨rfl, -⟩ := hs
    constructor <;> simp_all
  | runResume =>
    cases run <;> cases pe <;> simp [step] at hs <;> obtain ⟨rfl, -⟩ := hs <;>
      constructor <;> simp_all
  | handlerEnds ok =>
    cases run <;> simp [step] at hs
    obtain ⟨rfl, -⟩ := hs
    cases ok <;> constructor <;> simp_all
  | wake =>
    cases run <;> simp [step] at hs
    obtain ⟨rfl, -⟩ := hs
    constructor <;> simp_all
  | stop =>
    simp [step] at hs
    obtain ⟨rfl, -⟩ := hs
    constructor <;> simp_all

theorem accepted_append (as bs : List (Act N)) :
    accepted (as ++ bs) = accepted as ++ accepted bs := by
  induction as with
  | nil => rfl
  | cons a as ih => cases a <;> simp [accepted, ih]

/-- As long as `_pop` runs, an action neither loses nor reorders anything. -/
theorem flow_step {s s' : State N} {a : Act N} {c : Option N} (h : Inv s)
    (hs : step s a = some (s', c)) (hp : s'.popEnded = false) :
    c.toList ++ inFlight s' = inFlight s ++ accepted [a] := by
  obtain ⟨addQ, got, cur, pd, jn, pend, nextQ, run, sa, pe⟩ := s
  obtain ⟨h1, h2, h3, h4, h5, h6, h7, h8, h9⟩ := h
  simp only at h1 h2 h3 h4 h5 h6 h7 h8 h9
  cases a with
  | put n =>
    cases addQ <;> simp [step] at hs
    obtain ⟨rfl, rfl⟩ := hs
    simp [inFlight, accepted]
  | getTask =>
    cases pe <;> cases jn <;> cases got <;> cases addQ <;> simp [step] at hs
    obtain ⟨rfl, rfl⟩ := hs
    simp [inFlight, accepted]
  | putTask =>
    cases pe <;> cases jn <;> cases pd <;> cases cur <;> cases nextQ <;> simp [step] at hs
    obtain ⟨rfl, rfl⟩ := hs
    simp [inFlight, accepted]
  | popResume =>
    cases pe <;> cases jn <;> cases sa <;> simp [step] at hs
    · obtain ⟨-, rfl, rfl⟩ := hs
      cases got <;> cases cur <;> cases pd <;> simp_all [takeGot, inFlight, accepted]
    · obtain ⟨rfl, rfl⟩ := hs
      simp at hp
  | joined =>
    cases jn <;> cases nextQ <;> simp [step] at hs
    obtain ⟨rfl, rfl⟩ := hs
    cases pend <;> simp_all [inFlight, accepted]
  | runGet =>
    cases run <;> cases nextQ <;> simp [step] at hs
    obtain ⟨rfl, rfl⟩ := hs
    simp_all [inFlight, accepted]
  | runResume =>
    cases run <;> cases pe <;> simp [step] at hs <;> obtain ⟨rfl, rfl⟩ := hs <;>
      simp_all [inFlight, accepted]
  | handlerEnds ok =>
    cases run <;> simp [step] at hs
    obtain ⟨rfl, rfl⟩ := hs
    cases ok <;> simp_all [inFlight, accepted]
  | wake =>
    cases run <;> simp [step] at hs
    obtain ⟨rfl, rfl⟩ := hs
    simp_all [inFlight, accepted]
  | stop =>
    simp [step] at hs
    obtain ⟨rfl, rfl⟩ := hs
    simp_all [inFlight, accepted]

/-- Once `_pop` has returned it stays so and the handler is not called any more. -/
theorem ended_step {s s' : State N} {a : Act N} {c : Option N}
    (hs : step s a = some (s', c)) (hp : s.popEnded = true) : s'.popEnded = true ∧ c = none := by
  obtain ⟨addQ, got, cur, pd, jn, pend, nextQ, run, sa, pe⟩ := s
  simp only at hp
  subst hp
  cases a with
  | put n =>
    cases addQ <;> simp [step] at hs
    obtain ⟨rfl, rfl⟩ := hs; simp
  | getTask | putTask | popResume => simp [step] at hs
  | joined =>
    cases jn <;> cases nextQ <;> simp [step] at hs
    obtain ⟨rfl, rfl⟩ := hs; simp
  | runGet =>
    cases run <;> cases nextQ <;> simp [step] at hs
    obtain ⟨rfl, rfl⟩ := hs; simp
  | runResume => cases run <;> simp [step] at hs <;> obtain ⟨rfl, rfl⟩ := hs <;> simp
  | handlerEnds ok =>
    cases run <;> simp [step] at hs
    obtain ⟨rfl, rfl⟩ := hs; simp
  | wake =>
    cases run <;> simp [step] at hs
    obtain ⟨rfl, rfl⟩ := hs; simp
  | stop =>
    simp [step] at hs
    obtain ⟨rfl, rfl⟩ := hs; simp

theorem exec_cons {s s' : State N} {a : Act N} {as : List (Act N)} {cs : List N}
    (h : exec s (a :: as) = some (s', cs)) :
    ∃ s1 c cs', step s a = some (s1, c) ∧ exec s1 as = some (s', cs') ∧ cs = c.toList ++ cs' := by
  simp only [exec] at h
  cases h1 : step s a with
  | none => rw [h1] at h; simp at h
  | some r =>
    obtain ⟨s1, c⟩ := r
    rw [h1] at h
    simp only at h
    cases h2 : exec s1 as with
    | none => rw [h2] at h; simp at h
    | some r =>
      obtain ⟨s2, cs'⟩ := r
      rw [h2] at h
      simp only [Option.some.injEq, Prod.mk.injEq] at h
      obtain ⟨rfl, rfl⟩ := h
      exact ⟨s1, c, cs', rfl, h2, rfl⟩

theorem inv_exec (as : List (Act N)) : ∀ {s s' : State N} {cs : List N}, Inv s →
    exec s as = some (s', cs) → Inv s' := by
  induction as with
  | nil => intro s s' cs h he; simp [exec] at he; obtain ⟨rfl, -⟩ := he; exact h
  | cons a as ih =>
    intro s s' cs h he
    obtain ⟨s1, c, cs', h1, h2, -⟩ := exec_cons he
    exact ih (inv_step h h1) h2

theorem ended_exec (as : List (Act N)) : ∀ {s s' : State N} {cs : List N},
    s.popEnded = true → exec s as = some (s', cs) → s'.popEnded = true ∧ cs = [] := by
  induction as with
  | nil => intro s s' cs h he; simp [exec] at he; obtain ⟨rfl, rfl⟩ := he; exact ⟨h, rfl⟩
  | cons a as ih =>
    intro s s' cs h he
    obtain ⟨s1, c, cs', h1, h2, rfl⟩ := exec_cons he
    obtain ⟨h3, rfl⟩ := ended_step h1 h
    obtain ⟨h4, rfl⟩ := ih h3 h2
    exact ⟨h4, rfl⟩

/-- As long as `_pop` runs: calls, then what is in flight, are what was in flight, then what was
accepted. -/
theorem flow_exec (as : List (Act N)) : ∀ {s s' : State N} {cs : List N}, Inv s →
    exec s as = some (s', cs) → s'.popEnded = false →
    cs ++ inFlight s' = inFlight s ++ accepted as := by
  induction as with
  | nil => intro s s' cs h he _; simp [exec] at he; obtain ⟨rfl, rfl⟩ := he; simp [accepted]
  | cons a as ih =>
    intro s s' cs h he hp
    obtain ⟨s1, c, cs', h1, h2, rfl⟩ := exec_cons he
    have hp1 : s1.popEnded = false := by
      cases hc : s1.popEnded with
      | false => rfl
      | true =>
        have := (ended_exec as hc h2).1
        simp [hp] at this
    rw [List.append_assoc, ih (inv_step h h1) h2 hp, ← List.append_assoc, flow_step h h1 hp1,
      List.append_assoc, ← accepted_append]
    rfl

theorem prefix_exec (as : List (Act N)) : ∀ {s s' : State N} {cs : List N}, Inv s →
    exec s as = some (s', cs) → s.popEnded = false →
    cs <+: inFlight s ++ accepted as := by
  induction as with
  | nil => intro s s' cs h he _; simp [exec] at he; obtain ⟨rfl, rfl⟩ := he; simp
  | cons a as ih =>
    intro s s' cs h he hp
    obtain ⟨s1, c, cs', h1, h2, rfl⟩ := exec_cons he
    by_cases hp1 : s1.popEnded = false
    · have h3 := flow_step h h1 hp1
      have h4 := ih (inv_step h h1) h2 hp1
      have : inFlight s ++ accepted (a :: as) = c.toList ++ (inFlight s1 ++ accepted as) := by
        rw [← List.append_assoc, h3, List.append_assoc, ← accepted_append]; rfl
      rw [this]
      exact List.prefix_append_right_inj _ |>.2 h4
    · obtain ⟨-, rfl⟩ := ended_exec as (by simpa using hp1) h2
      have hc : c = none := by
        cases a with
        | popResume =>
          simp only [step] at h1
          split at h1
          · simp at h1
          · split at h1
            · simp at h1; exact h1.2.symm
            · split at h1
              · simp at h1; exact h1.2.symm
              · simp at h1
        | runResume =>
          simp only [step] at h1
          split at h1
          · simp only [hp, Bool.false_eq_true, if_false, Option.some.injEq, Prod.mk.injEq] at h1
            rw [← h1.1] at hp1
            simp at hp1
          · simp [hp] at h1
          · simp at h1
        | put | getTask | putTask | joined | runGet | handlerEnds | wake | stop =>
          simp only [step] at h1
          repeat' split at h1
          all_goals (simp at h1; try exact h1.2.symm)
      subst hc
      simp

/-- What is still to do: every notification weighs what separates it from its call's end. -/
def work (s : State N) : Nat :=
  12 * s.addQ.length + 11 * s.got.toList.length + 10 * s.pend.length
    + (if s.putDone then 2 else if s.joining then 1 else 9 * s.cur.toList.length)
    + 5 * s.nextQ.length
    + (match s.run with | .got _ => 4 | .handling _ => 3 | .sleeping => 2 | .waiting => 1 | .ended => 0)
    + (if s.popEnded then 0 else 1)

theorem work_step {s s' : State N} {a : Act N} {c : Option N} (h : Inv s)
    (ha : Act.internal a) (hs : step s a = some (s', c)) : work s' < work s := by
  obtain ⟨addQ, got, cur, pd, jn, pend, nextQ, run, sa, pe⟩ := s
  obtain ⟨h1, h2, h3, h4, h5, h6, h7, h8, h9⟩ := h
  simp only at h1 h2 h3 h4 h5 h6 h7 h8 h9
  cases a with
  | put n | stop => simp [Act.internal] at ha
  | getTask =>
    cases pe <;> cases jn <;> cases got <;> cases addQ <;> simp [step] at hs
    obtain ⟨rfl, rfl⟩ := hs
    simp [work]; omega
  | putTask =>
    cases pe <;> cases jn <;> cases pd <;> cases cur <;> cases nextQ <;> simp [step] at hs
    obtain ⟨rfl, rfl⟩ := hs
    simp [work]
  | popResume =>
    cases pe <;> cases jn <;> cases sa <;> simp [step] at hs
    · obtain ⟨h10, rfl, rfl⟩ := hs
      cases got <;> cases cur <;> cases pd <;> simp_all [takeGot, work] <;> omega
    · obtain ⟨rfl, rfl⟩ := hs
      simp [work]
  | joined =>
    cases jn <;> cases nextQ <;> simp [step] at hs
    obtain ⟨rfl, rfl⟩ := hs
    cases pend <;> simp_all [work] ; omega
  | runGet =>
    cases run <;> cases nextQ <;> simp [step] at hs
    obtain ⟨rfl, rfl⟩ := hs
    simp [work]; omega
  | runResume =>
    cases run <;> cases pe <;> simp [step] at hs <;> obtain ⟨rfl, rfl⟩ := hs <;>
      simp [work]
  | handlerEnds ok =>
    cases run <;> simp [step] at hs
    obtain ⟨rfl, rfl⟩ := hs
    cases ok <;> simp [work]
  | wake =>
    cases run <;> simp [step] at hs
    obtain ⟨rfl, rfl⟩ := hs
    simp [work]

theorem work_exec (as : List (Act N)) : ∀ {s s' : State N} {cs : List N}, Inv s →
    (∀ a ∈ as, Act.internal a) → exec s as = some (s', cs) → as.length + work s' ≤ work s := by
  induction as with
  | nil => intro s s' cs h _ he; simp [exec] at he; obtain ⟨rfl, rfl⟩ := he; simp
  | cons a as ih =>
    intro s s' cs h ha he
    obtain ⟨s1, c, cs', h1, h2, rfl⟩ := exec_cons he
    have h3 := work_step h (ha a (by simp)) h1
    have h4 := ih (inv_step h h1) (fun b hb => ha b (by simp [hb])) h2
    simp only [List.length_cons]
    omega

end Aiok8s.Listener
