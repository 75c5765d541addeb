import Verif.Spec.Listeners
import Verif.Props.Listener
import Mathlib.Algebra.BigOperators.Group.List.Basic
import Mathlib.Data.List.Perm.Basic
/-!
# C116: a listener with the tasks of several runs
-/
namespace Aiok8s.Listeners
open Aiok8s.Listeners.Spec
open Aiok8s.Listener (RunPhase)
variable {N : Type}

/-! ### One action -/

private theorem sum_set {α : Type} (f : α → Nat) (l : List α) : ∀ (j : Nat) (a b : α), l[j]? = some a →
    ((l.set j b).map f).sum + f a = (l.map f).sum + f b := by
  induction l with
  | nil => intro j a b h; simp at h
  | cons c l ih =>
    intro j a b h
    cases j with
    | zero =>
      simp only [List.getElem?_cons_zero, Option.some.injEq] at h
      subst h
      simp only [List.set_cons_zero, List.map_cons, List.sum_cons]
      omega
    | succ j =>
      have := ih j a b (by simpa using h)
      simp only [List.set_cons_succ, List.map_cons, List.sum_cons]
      omega

/-- What is left to do for a pair. -/
private def effort (q : Pair N) : Nat :=
  9 * q.got.toList.length + (if q.putDone then 2 else if q.joining then 1 else 7 * q.cur.toList.length) +
  match q.run with
  | .got _ => 3
  | .handling _ => 2
  | .sleeping => 1
  | _ => 0

/-- What is left to do. -/
private def work (s : State N) : Nat :=
  10 * s.addQ.length + 8 * s.pend.length + 4 * s.nextQ.length + (s.pairs.map effort).sum

/-- No task has been stopped, and the locals of every pair fit. -/
private structure Fits (s : State N) (q : Pair N) : Prop where
  alive : q.ended = false
  run : q.run ≠ .ended
  put : q.putDone = true → q.cur.isSome ∧ q.joining = false
  join : q.joining = true → q.cur.isSome ∧ (s.nextQ = [] → q.free = true)

private structure Inv (s : State N) : Prop where
  stopAdd : s.stopAdd = false
  stopNext : s.stopNext = false
  fits : ∀ q ∈ s.pairs, Fits s q
  pend : s.pend ≠ [] → ∃ q ∈ s.pairs, q.cur.isSome

private theorem inv_init : Inv (init : State N) := ⟨rfl, rfl, by simp [init], by simp [init]⟩

/-- A pair's action. -/
private theorem pair_cases {s s' : State N} {a : Act N} {c : Option N} (h : step s a = some (s', c))
    (ha : Act.internal a = true) : ∃ j q, a.pair = some j ∧ s.pairs[j]? = some q ∧ pairStep s q a = some (s', c) := by
  cases a <;> first | (simp [Act.internal] at ha; done) | skip
  all_goals
    simp only [step, Act.pair] at h ⊢
    split at h
    · cases h
    · rename_i q hq
      exact ⟨_, q, rfl, hq, h⟩

private theorem mem_set {α : Type} {l : List α} {j : Nat} {b x : α} (h : x ∈ l.set j b) : x ∈ l ∨ x = b :=
  (List.mem_or_eq_of_mem_set h)

private theorem inv_set {s : State N} {j : Nat} {q q' : Pair N} (hi : Inv s) (hq : s.pairs[j]? = some q)
    {a p n : List N} (hf : Fits { s with addQ := a, pend := p, nextQ := n } q')
    (hn : ∀ r : Pair N, Fits s r → Fits { s with addQ := a, pend := p, nextQ := n } r)
    (hp : p ≠ [] → q'.cur.isSome ∨ (s.pend ≠ [] ∧ q.cur = none)) :
    Inv ({ s with addQ := a, pend := p, nextQ := n }.set j q') := by
  have hlt : j < s.pairs.length := (List.getElem?_eq_some_iff.1 hq).1
  have hset : ∀ r, Fits { s with addQ := a, pend := p, nextQ := n } r →
      Fits ({ s with addQ := a, pend := p, nextQ := n }.set j q') r := fun r h => ⟨h.alive, h.run, h.put, h.join⟩
  refine ⟨hi.stopAdd, hi.stopNext, fun r hr => ?_, fun h => ?_⟩
  · rcases mem_set hr with h | rfl
    · exact hset r (hn r (hi.fits r h))
    · exact hset _ hf
  · rcases hp h with h1 | ⟨h1, h2⟩
    · exact ⟨q', List.mem_iff_getElem?.2 ⟨j, by simp [State.set, hlt]⟩, h1⟩
    · obtain ⟨r, hr, hc⟩ := hi.pend h1
      obtain ⟨m, hm⟩ := List.mem_iff_getElem?.1 hr
      have : j ≠ m := by
        rintro rfl
        rw [hq] at hm
        cases hm
        rw [h2] at hc
        cases hc
      exact ⟨r, List.mem_iff_getElem?.2 ⟨m, by simp [State.set, this, hm]⟩, hc⟩

private theorem fits_same {s : State N} {a p : List N} : ∀ r : Pair N, Fits s r →
    Fits { s with addQ := a, pend := p, nextQ := s.nextQ } r := fun _ h => ⟨h.alive, h.run, h.put, h.join⟩

private theorem inv_pair {s s' : State N} {a : Act N} {c : Option N} {j : Nat} {q : Pair N} (hi : Inv s)
    (hj : a.pair = some j) (hq : s.pairs[j]? = some q) (h : pairStep s q a = some (s', c)) : Inv s' := by
  have hf := hi.fits q (List.mem_of_getElem? hq)
  have hkeep : s.pend ≠ [] → q.cur.isSome ∨ (s.pend ≠ [] ∧ q.cur = none) := by
    intro hp
    cases hc : q.cur with
    | none => exact Or.inr ⟨hp, rfl⟩
    | some _ => exact Or.inl rfl
  cases a <;> simp only [Act.pair, Option.some.injEq, reduceCtorEq] at hj <;> subst hj
  case getTask j =>
    simp only [pairStep] at h
    split at h
    · cases h
    · split at h
      · cases h
        exact inv_set (p := s.pend) (n := s.nextQ) hi hq ⟨hf.alive, hf.run, hf.put, hf.join⟩ fits_same hkeep
      · cases h
  case putTask j =>
    simp only [pairStep] at h
    split at h
    · cases h
    · rename_i hcon
      split at h
      · rename_i n hc _
        cases h
        refine inv_set (a := s.addQ) (p := s.pend) (n := [n]) hi hq ?_ ?_ (fun _ => Or.inl (by simp [hc]))
        · have hjn : q.joining = false := by
            cases hj : q.joining <;> simp_all
          exact ⟨hf.alive, hf.run, fun _ => ⟨by simp [hc], hjn⟩, fun h => by simp [hjn] at h⟩
        · exact fun r hr => ⟨hr.alive, hr.run, hr.put, fun h => ⟨(hr.join h).1, fun h => by cases h⟩⟩
      · cases h
  case popResume j =>
    simp only [pairStep] at h
    split at h
    · cases h
    · rw [if_neg (by simp [hi.stopAdd])] at h
      split at h
      · cases h
        have k1 : q.cur.isSome → (takeGot q s.pend).1.isSome := by
          unfold takeGot
          cases q.got <;> cases q.cur <;> simp
        have k2 : (takeGot q s.pend).2 ≠ [] → (takeGot q s.pend).1.isSome ∨ (s.pend ≠ [] ∧ q.cur = none) := by
          unfold takeGot
          cases q.got <;> cases q.cur <;> simp
        exact inv_set (q' := ⟨none, (takeGot q s.pend).1, false, q.putDone, s.nextQ.isEmpty, q.ended, q.run⟩)
          (a := s.addQ) (n := s.nextQ) hi hq
          ⟨hf.alive, hf.run, fun h => by simp at h, fun h => ⟨k1 (hf.put h).1, fun h => by
            simp only at h; simp [h]⟩⟩ fits_same k2
      · cases h
  case joined j =>
    simp only [pairStep] at h
    split at h
    · cases h
      refine inv_set (a := s.addQ) (n := s.nextQ) hi hq ?_ fits_same ?_
      · exact ⟨hf.alive, hf.run, fun h => by have := hf.put h; simp_all, fun h => by simp at h⟩
      · intro hp
        left
        cases hpend : s.pend with
        | nil => rw [hpend] at hp; exact absurd rfl hp
        | cons x r => simp
    · cases h
  case runGet j =>
    simp only [pairStep] at h
    split at h
    · rename_i n r hrun hn
      cases h
      refine ⟨hi.stopAdd, hi.stopNext, fun r' hr => ?_, fun h => ?_⟩
      · obtain ⟨r0, h0, rfl⟩ := List.mem_map.1 hr
        rcases mem_set h0 with h | rfl
        · have := hi.fits r0 h
          exact ⟨this.alive, this.run, this.put, fun h => ⟨(this.join h).1, fun h => by
            simp only at h; simp [h]⟩⟩
        · exact ⟨hf.alive, by simp, hf.put, fun h => ⟨(hf.join h).1, fun h => by
            simp only at h; simp [h]⟩⟩
      · obtain ⟨r0, h0, hc⟩ := hi.pend h
        obtain ⟨m, hm⟩ := List.mem_iff_getElem?.1 h0
        have hlt : j < s.pairs.length := (List.getElem?_eq_some_iff.1 hq).1
        by_cases hjm : j = m
        · subst hjm
          rw [hq] at hm
          cases hm
          exact ⟨_, List.mem_map.2 ⟨{ q with run := .got n }, List.mem_iff_getElem?.2 ⟨j, by simp [hlt]⟩, rfl⟩, hc⟩
        · exact ⟨_, List.mem_map.2 ⟨r0, List.mem_iff_getElem?.2 ⟨m, by simp [hjm, hm]⟩, rfl⟩, hc⟩
    · cases h
  case runResume j =>
    simp only [pairStep, hi.stopNext, Bool.false_eq_true, if_false] at h
    split at h
    · cases h
      exact inv_set (a := s.addQ) (p := s.pend) (n := s.nextQ) hi hq ⟨hf.alive, by simp, hf.put, hf.join⟩ fits_same hkeep
    · cases h
    · cases h
  case handlerEnds j ok =>
    simp only [pairStep] at h
    split at h
    · cases h
      exact inv_set (a := s.addQ) (p := s.pend) (n := s.nextQ) hi hq
        ⟨hf.alive, by cases ok <;> simp, hf.put, hf.join⟩ fits_same hkeep
    · cases h
  case wake j =>
    simp only [pairStep] at h
    split at h
    · cases h
      exact inv_set (a := s.addQ) (p := s.pend) (n := s.nextQ) hi hq ⟨hf.alive, by simp, hf.put, hf.join⟩ fits_same hkeep
    · cases h

private theorem inv_step {s s' : State N} {a : Act N} {c : Option N} (hi : Inv s) (ha : a ≠ .stop)
    (h : step s a = some (s', c)) : Inv s' := by
  by_cases hint : Act.internal a = true
  · obtain ⟨j, q, h1, h2, h3⟩ := pair_cases h hint
    exact inv_pair hi h1 h2 h3
  · cases a <;> first | (exact absurd rfl hint) | skip
    case newRun =>
      cases h
      refine ⟨hi.stopAdd, hi.stopNext, fun q hq => ?_, fun hp => ?_⟩
      · rcases List.mem_append.1 hq with h | h
        · have := hi.fits q h
          exact ⟨this.alive, this.run, this.put, this.join⟩
        · simp only [List.mem_singleton] at h
          subst h
          exact ⟨rfl, by simp [Pair.new], by simp [Pair.new], by simp [Pair.new]⟩
      · obtain ⟨q, hq, hc⟩ := hi.pend hp
        exact ⟨q, List.mem_append_left _ hq, hc⟩
    case put n =>
      simp only [step] at h
      split at h <;> cases h
      exact ⟨hi.stopAdd, hi.stopNext, fun q hq => by
        have := hi.fits q hq
        exact ⟨this.alive, this.run, this.put, this.join⟩, hi.pend⟩
    case stop => exact absurd rfl ha

section
open Classical

private theorem count_set (s : State N) {j : Nat} {q : Pair N} (hq : s.pairs[j]? = some q) (q' : Pair N)
    (a p n : List N) (x : N) :
    (inFlight ({ s with addQ := a, pend := p, nextQ := n }.set j q')).count x + (holds q).count x +
        s.addQ.count x + s.pend.count x + s.nextQ.count x =
      (inFlight s).count x + (holds q').count x + a.count x + p.count x + n.count x := by
  have h1 := sum_set (fun r : Pair N => (holds r).count x) s.pairs j q q' hq
  have hcomp : (List.count x ∘ holds : Pair N → Nat) = fun r => (holds r).count x := rfl
  simp only [inFlight, List.count_append, List.count_flatMap, hcomp, State.set]
  omega

private theorem work_set (s : State N) {j : Nat} {q : Pair N} (hq : s.pairs[j]? = some q) (q' : Pair N)
    (a p n : List N) :
    work ({ s with addQ := a, pend := p, nextQ := n }.set j q') + effort q + 10 * s.addQ.length +
        8 * s.pend.length + 4 * s.nextQ.length =
      work s + effort q' + 10 * a.length + 8 * p.length + 4 * n.length := by
  have h2 := sum_set (effort (N := N)) s.pairs j q q' hq
  simp only [work, State.set]
  omega

/-- What comes in goes out. -/
private theorem flow_pair {s s' : State N} {a : Act N} {c : Option N} {j : Nat} {q : Pair N} (hi : Inv s)
    (hj : a.pair = some j) (hq : s.pairs[j]? = some q) (h : pairStep s q a = some (s', c)) (x : N) :
    c.toList.count x + (inFlight s').count x = (inFlight s).count x ∧ work s' < work s := by
  have hf := hi.fits q (List.mem_of_getElem? hq)
  have h1 := fun q' a p n => count_set s hq q' a p n x
  have h2 := fun q' a p n => work_set s hq q' a p n
  have hput := hf.put
  have hjoin := hf.join
  cases a <;> simp only [Act.pair, Option.some.injEq, reduceCtorEq] at hj <;> subst hj
  case runGet j =>
    simp only [pairStep] at h
    split at h
    · rename_i n r hrun hn
      obtain ⟨got, cur, putDone, joining, free, ended, run⟩ := q
      simp only at hrun hput hjoin
      subst hrun
      cases h
      have h1 := sum_set (fun r : Pair N => (holds r).count x) s.pairs j _ ⟨got, cur, putDone, joining, free, ended, .got n⟩ hq
      have h2 := sum_set (effort (N := N)) s.pairs j _ ⟨got, cur, putDone, joining, free, ended, .got n⟩ hq
      have hcomp : (List.count x ∘ holds : Pair N → Nat) = fun r => (holds r).count x := rfl
      have e1 : ((List.count x ∘ holds) ∘ fun q : Pair N => { q with free := q.free || r.isEmpty }) =
        fun q => (holds q).count x := rfl
      have e2 : (effort ∘ fun q : Pair N => { q with free := q.free || r.isEmpty }) = effort := rfl
      simp only [inFlight, work, List.count_append, List.count_flatMap, hn, List.map_map, e1, e2]
      simp only [hcomp]
      simp only [holds, effort, List.count_append, List.count_cons, List.count_nil, List.length_cons,
        Option.toList_none] at h1 h2 ⊢
      constructor <;> omega
    · cases h
  case getTask j =>
    simp only [pairStep] at h
    split at h
    · cases h
    · rename_i hcon
      split at h
      · rename_i n r hg hn
        obtain ⟨got, cur, putDone, joining, free, ended, run⟩ := q
        simp only at hg hput hjoin hcon
        subst hg
        cases h
        show _ + List.count x (inFlight (({ s with addQ := r, pend := s.pend, nextQ := s.nextQ } : State N).set j ⟨some n, cur, putDone, joining, free, ended, run⟩)) = _ ∧ work (({ s with addQ := r, pend := s.pend, nextQ := s.nextQ } : State N).set j ⟨some n, cur, putDone, joining, free, ended, run⟩) < _
        have h1 := h1 ⟨some n, cur, putDone, joining, free, ended, run⟩ r s.pend s.nextQ
        have h2 := h2 ⟨some n, cur, putDone, joining, free, ended, run⟩ r s.pend s.nextQ
        generalize State.set _ j _ = Z at h1 h2 ⊢
        simp only [holds, effort, List.count_append, List.count_cons, List.count_nil, List.length_cons, List.length_nil,
          Option.toList_none, Option.toList_some, hn] at h1 h2 ⊢
        constructor <;> omega
      · cases h
  case putTask j =>
    simp only [pairStep] at h
    split at h
    · cases h
    · rename_i hcon
      split at h
      · rename_i n hg hn
        obtain ⟨got, cur, putDone, joining, free, ended, run⟩ := q
        simp only at hg hput hjoin hcon
        subst hg
        cases h
        have hc : putDone = false ∧ joining = false := by
          cases putDone <;> cases joining <;> simp_all
        obtain ⟨rfl, rfl⟩ := hc
        show _ + List.count x (inFlight (({ s with addQ := s.addQ, pend := s.pend, nextQ := [n] } : State N).set j ⟨got, some n, true, false, free, ended, run⟩)) = _ ∧ work (({ s with addQ := s.addQ, pend := s.pend, nextQ := [n] } : State N).set j ⟨got, some n, true, false, free, ended, run⟩) < _
        have h1 := h1 ⟨got, some n, true, false, free, ended, run⟩ s.addQ s.pend [n]
        have h2 := h2 ⟨got, some n, true, false, free, ended, run⟩ s.addQ s.pend [n]
        generalize State.set _ j _ = Z at h1 h2 ⊢
        simp only [holds, effort, List.count_append, List.count_cons, List.count_nil, List.length_cons, List.length_nil,
          Option.toList_none, Option.toList_some, hn, Bool.or_false, Bool.true_or, Bool.false_eq_true, if_true,
          if_false] at h1 h2 ⊢
        constructor <;> omega
      · cases h
  case popResume j =>
    simp only [pairStep] at h
    split at h
    · cases h
    · rename_i hcon
      rw [if_neg (by simp [hi.stopAdd])] at h
      split at h
      · rename_i hgo
        obtain ⟨got, cur, putDone, joining, free, ended, run⟩ := q
        simp only at hgo hput hjoin hcon
        have hjf : joining = false := by
          cases joining <;> simp_all
        subst hjf
        cases h
        cases got with
        | none =>
          have hp : putDone = true := by simpa using hgo
          subst hp
          show _ + List.count x (inFlight (({ s with addQ := s.addQ, pend := s.pend, nextQ := s.nextQ } : State N).set j ⟨none, cur, false, true, s.nextQ.isEmpty, ended, run⟩)) = _ ∧ work (({ s with addQ := s.addQ, pend := s.pend, nextQ := s.nextQ } : State N).set j ⟨none, cur, false, true, s.nextQ.isEmpty, ended, run⟩) < _
          have h1 := h1 ⟨none, cur, false, true, s.nextQ.isEmpty, ended, run⟩ s.addQ s.pend s.nextQ
          have h2 := h2 ⟨none, cur, false, true, s.nextQ.isEmpty, ended, run⟩ s.addQ s.pend s.nextQ
          generalize State.set _ j _ = Z at h1 h2 ⊢
          simp only [takeGot, holds, effort, List.count_append, List.count_nil, List.length_nil,
            Option.toList_none, Bool.true_or, Bool.or_true, Bool.or_false, Bool.false_eq_true, if_true, if_false] at h1 h2 ⊢
          constructor <;> omega
        | some m =>
          cases cur with
          | none =>
            have hp : putDone = false := by
              cases putDone with
              | false => rfl
              | true => have := (hput rfl).1; simp at this
            subst hp
            show _ + List.count x (inFlight (({ s with addQ := s.addQ, pend := s.pend, nextQ := s.nextQ } : State N).set j ⟨none, some m, false, false, s.nextQ.isEmpty, ended, run⟩)) = _ ∧ work (({ s with addQ := s.addQ, pend := s.pend, nextQ := s.nextQ } : State N).set j ⟨none, some m, false, false, s.nextQ.isEmpty, ended, run⟩) < _
            have h1 := h1 ⟨none, some m, false, false, s.nextQ.isEmpty, ended, run⟩ s.addQ s.pend s.nextQ
            have h2 := h2 ⟨none, some m, false, false, s.nextQ.isEmpty, ended, run⟩ s.addQ s.pend s.nextQ
            generalize State.set _ j _ = Z at h1 h2 ⊢
            simp only [takeGot, holds, effort, List.count_append, List.count_nil, List.count_cons, List.length_nil, List.length_cons,
              Option.toList_none, Option.toList_some, Bool.or_false, Bool.false_eq_true, if_false] at h1 h2 ⊢
            constructor <;> omega
          | some n =>
            show _ + List.count x (inFlight (({ s with addQ := s.addQ, pend := (s.pend ++ [m]), nextQ := s.nextQ } : State N).set j ⟨none, some n, false, putDone, s.nextQ.isEmpty, ended, run⟩)) = _ ∧ work (({ s with addQ := s.addQ, pend := (s.pend ++ [m]), nextQ := s.nextQ } : State N).set j ⟨none, some n, false, putDone, s.nextQ.isEmpty, ended, run⟩) < _
            have h1 := h1 ⟨none, some n, false, putDone, s.nextQ.isEmpty, ended, run⟩ s.addQ (s.pend ++ [m]) s.nextQ
            have h2 := h2 ⟨none, some n, false, putDone, s.nextQ.isEmpty, ended, run⟩ s.addQ (s.pend ++ [m]) s.nextQ
            generalize State.set _ j _ = Z at h1 h2 ⊢
            cases putDone <;>
            simp only [takeGot, holds, effort, List.count_append, List.count_nil, List.count_cons, List.length_nil, List.length_cons,
              List.length_append, Bool.true_or, Option.toList_none, Option.toList_some, Bool.or_true, Bool.or_false, Bool.false_eq_true,
              if_true, if_false] at h1 h2 ⊢ <;>
            constructor <;> omega
      · cases h
  case joined j =>
    simp only [pairStep] at h
    split at h
    · rename_i hjo
      obtain ⟨got, cur, putDone, joining, free, ended, run⟩ := q
      simp only at hjo hput hjoin
      have hjt : joining = true := by cases joining <;> simp_all
      subst hjt
      have hp : putDone = false := by
        cases putDone with
        | false => rfl
        | true => have := (hput rfl).2; simp at this
      subst hp
      cases h
      show _ + List.count x (inFlight (({ s with addQ := s.addQ, pend := s.pend.tail, nextQ := s.nextQ } : State N).set j ⟨got, s.pend.head?, false, false, free, ended, run⟩)) = _ ∧ work (({ s with addQ := s.addQ, pend := s.pend.tail, nextQ := s.nextQ } : State N).set j ⟨got, s.pend.head?, false, false, free, ended, run⟩) < _
      have h1 := h1 ⟨got, s.pend.head?, false, false, free, ended, run⟩ s.addQ s.pend.tail s.nextQ
      have h2 := h2 ⟨got, s.pend.head?, false, false, free, ended, run⟩ s.addQ s.pend.tail s.nextQ
      generalize State.set _ j _ = Z at h1 h2 ⊢
      cases hpe : s.pend <;>
      simp only [holds, effort, hpe, List.count_append, List.count_nil, List.count_cons, List.length_nil, List.length_cons,
        List.head?_nil, List.head?_cons, List.tail_nil, List.tail_cons, Option.toList_none, Option.toList_some,
        Bool.or_true, Bool.or_false, Bool.false_eq_true, if_true, if_false] at h1 h2 ⊢ <;>
      constructor <;> omega
    · cases h
  case runResume j =>
    simp only [pairStep, hi.stopNext, Bool.false_eq_true, if_false] at h
    split at h
    · rename_i n hrun
      obtain ⟨got, cur, putDone, joining, free, ended, run⟩ := q
      simp only at hrun hput hjoin
      subst hrun
      cases h
      show _ + List.count x (inFlight (({ s with addQ := s.addQ, pend := s.pend, nextQ := s.nextQ } : State N).set j ⟨got, cur, putDone, joining, free, ended, .handling n⟩)) = _ ∧ work (({ s with addQ := s.addQ, pend := s.pend, nextQ := s.nextQ } : State N).set j ⟨got, cur, putDone, joining, free, ended, .handling n⟩) < _
      have h1 := h1 ⟨got, cur, putDone, joining, free, ended, .handling n⟩ s.addQ s.pend s.nextQ
      have h2 := h2 ⟨got, cur, putDone, joining, free, ended, .handling n⟩ s.addQ s.pend s.nextQ
      generalize State.set _ j _ = Z at h1 h2 ⊢
      simp only [holds, effort, List.count_append, List.count_nil, List.count_cons,
        Option.toList_some] at h1 h2 ⊢
      constructor <;> omega
    · cases h
    · cases h
  case handlerEnds j ok =>
    simp only [pairStep] at h
    split at h
    · rename_i n hrun
      obtain ⟨got, cur, putDone, joining, free, ended, run⟩ := q
      simp only at hrun hput hjoin
      subst hrun
      cases h
      cases ok
      · show _ + List.count x (inFlight (({ s with addQ := s.addQ, pend := s.pend, nextQ := s.nextQ } : State N).set j ⟨got, cur, putDone, joining, free, ended, .sleeping⟩)) = _ ∧ work (({ s with addQ := s.addQ, pend := s.pend, nextQ := s.nextQ } : State N).set j ⟨got, cur, putDone, joining, free, ended, .sleeping⟩) < _
        have h1 := h1 ⟨got, cur, putDone, joining, free, ended, .sleeping⟩ s.addQ s.pend s.nextQ
        have h2 := h2 ⟨got, cur, putDone, joining, free, ended, .sleeping⟩ s.addQ s.pend s.nextQ
        generalize State.set _ j _ = Z at h1 h2 ⊢
        simp only [holds, effort, List.count_append, List.count_nil, Option.toList_none, Bool.false_eq_true,
          if_false] at h1 h2 ⊢
        constructor <;> omega
      · show _ + List.count x (inFlight (({ s with addQ := s.addQ, pend := s.pend, nextQ := s.nextQ } : State N).set j ⟨got, cur, putDone, joining, free, ended, .waiting⟩)) = _ ∧ work (({ s with addQ := s.addQ, pend := s.pend, nextQ := s.nextQ } : State N).set j ⟨got, cur, putDone, joining, free, ended, .waiting⟩) < _
        have h1 := h1 ⟨got, cur, putDone, joining, free, ended, .waiting⟩ s.addQ s.pend s.nextQ
        have h2 := h2 ⟨got, cur, putDone, joining, free, ended, .waiting⟩ s.addQ s.pend s.nextQ
        generalize State.set _ j _ = Z at h1 h2 ⊢
        simp only [holds, effort, List.count_append, List.count_nil, Option.toList_none, if_true] at h1 h2 ⊢
        constructor <;> omega
    · cases h
  case wake j =>
    simp only [pairStep] at h
    split at h
    · rename_i hrun
      obtain ⟨got, cur, putDone, joining, free, ended, run⟩ := q
      simp only at hrun hput hjoin
      subst hrun
      cases h
      show _ + List.count x (inFlight (({ s with addQ := s.addQ, pend := s.pend, nextQ := s.nextQ } : State N).set j ⟨got, cur, putDone, joining, free, ended, .waiting⟩)) = _ ∧ work (({ s with addQ := s.addQ, pend := s.pend, nextQ := s.nextQ } : State N).set j ⟨got, cur, putDone, joining, free, ended, .waiting⟩) < _
      have h1 := h1 ⟨got, cur, putDone, joining, free, ended, .waiting⟩ s.addQ s.pend s.nextQ
      have h2 := h2 ⟨got, cur, putDone, joining, free, ended, .waiting⟩ s.addQ s.pend s.nextQ
      generalize State.set _ j _ = Z at h1 h2 ⊢
      simp only [holds, effort, List.count_append, List.count_nil, Option.toList_none] at h1 h2 ⊢
      constructor <;> omega
    · cases h

/-! ### Sequences of actions -/

private theorem exec_cons {s s' : State N} {a : Act N} {as : List (Act N)} {cs : List N}
    (h : exec s (a :: as) = some (s', cs)) : ∃ s1 c cs', step s a = some (s1, c) ∧ exec s1 as = some (s', cs') ∧
      cs = c.toList ++ cs' := by
  simp only [exec] at h
  split at h
  · cases h
  · rename_i s1 c h1
    split at h
    · cases h
    · rename_i s2 cs' h2
      cases h
      exact ⟨s1, c, cs', h1, h2, rfl⟩

private theorem inv_exec (as : List (Act N)) : ∀ {s s' : State N} {cs : List N}, Inv s → Act.stop ∉ as →
    exec s as = some (s', cs) → Inv s' := by
  induction as with
  | nil => intro s s' cs hi _ h; cases h; exact hi
  | cons a as ih =>
    intro s s' cs hi ha h
    obtain ⟨s1, c, cs', h1, h2, -⟩ := exec_cons h
    exact ih (inv_step hi (fun e => ha (by simp [e])) h1) (fun e => ha (by simp [e])) h2

private theorem accepted_cons (a : Act N) (as : List (Act N)) : accepted (a :: as) = accepted [a] ++ accepted as := by
  cases a <;> rfl

private theorem flow_step {s s' : State N} {a : Act N} {c : Option N} (hi : Inv s) (ha : a ≠ .stop)
    (h : step s a = some (s', c)) (x : N) :
    c.toList.count x + (inFlight s').count x = (inFlight s).count x + (accepted [a]).count x := by
  by_cases hint : Act.internal a = true
  · obtain ⟨j, q, h1, h2, h3⟩ := pair_cases h hint
    rw [(flow_pair hi h1 h2 h3 x).1]
    cases a <;> first | rfl | (simp [Act.internal] at hint)
  · cases a <;> first | (exact absurd rfl hint) | skip
    case newRun =>
      cases h
      simp [inFlight, accepted, holds, Pair.new]
    case put n =>
      simp only [step] at h
      split at h
      · rename_i hq
        cases h
        simp only [inFlight, accepted, hq, List.count_append, List.count_nil, Option.toList_none]
        omega
      · cases h
    case stop => exact absurd rfl ha

private theorem flow_exec (as : List (Act N)) (x : N) : ∀ {s s' : State N} {cs : List N}, Inv s → Act.stop ∉ as →
    exec s as = some (s', cs) → cs.count x + (inFlight s').count x = (inFlight s).count x + (accepted as).count x := by
  induction as with
  | nil => intro s s' cs _ _ h; cases h; simp [accepted]
  | cons a as ih =>
    intro s s' cs hi ha h
    obtain ⟨s1, c, cs', h1, h2, rfl⟩ := exec_cons h
    have e1 := flow_step hi (fun e => ha (by simp [e])) h1 x
    have e2 := ih (inv_step hi (fun e => ha (by simp [e])) h1) (fun e => ha (by simp [e])) h2
    rw [accepted_cons, List.count_append, List.count_append]
    omega

private theorem work_exec [hn : Nonempty N] (as : List (Act N)) : ∀ {s s' : State N} {cs : List N}, Inv s →
    (∀ a ∈ as, Act.internal a = true) → exec s as = some (s', cs) → as.length + work s' ≤ work s := by
  induction as with
  | nil => intro s s' cs _ _ h; cases h; simp
  | cons a as ih =>
    intro s s' cs hi ha h
    obtain ⟨s1, c, cs', h1, h2, -⟩ := exec_cons h
    have hint := ha a (by simp)
    have hs : a ≠ .stop := by rintro rfl; cases hint
    obtain ⟨j, q, k1, k2, k3⟩ := pair_cases h1 hint
    have e1 : work s1 < work s := (flow_pair hi k1 k2 k3 hn.some).2
    have e2 := ih (inv_step hi hs h1) (fun b hb => ha b (by simp [hb])) h2
    simp only [List.length_cons]
    omega

private theorem length_pair {s s' : State N} {a : Act N} {c : Option N} {q : Pair N}
    (h : pairStep s q a = some (s', c)) : s'.pairs.length = s.pairs.length := by
  cases a <;> simp only [pairStep] at h <;> (repeat' split at h) <;> cases h <;> simp [State.set]

private theorem length_exec (as : List (Act N)) : ∀ {s s' : State N} {cs : List N}, exec s as = some (s', cs) →
    s'.pairs.length = s.pairs.length + (as.filter (fun a => match a with | .newRun => true | _ => false)).length := by
  induction as with
  | nil => intro s s' cs h; cases h; rfl
  | cons a as ih =>
    intro s s' cs h
    obtain ⟨s1, c, cs', h1, h2, rfl⟩ := exec_cons h
    have e := ih h2
    by_cases hint : Act.internal a = true
    · obtain ⟨j, q, k1, k2, k3⟩ := pair_cases h1 hint
      rw [e, length_pair k3]
      cases a <;> first | rfl | (simp [Act.internal] at hint)
    · cases a <;> first | (exact absurd rfl hint) | skip
      case newRun =>
        cases h1
        rw [e]
        simp
        omega
      case put n =>
        simp only [step] at h1
        split at h1 <;> cases h1
        rw [e]
        simp
      case stop =>
        cases h1
        rw [e]
        simp

private theorem quiet {s : State N} (hi : Inv s) (hp : s.pairs ≠ [])
    (hq : ∀ b, Act.internal b = true → step s b = none) : inFlight s = [] := by
  have hpair : ∀ j q a, s.pairs[j]? = some q → Act.internal a = true → a.pair = some j → pairStep s q a = none := by
    intro j q a h1 h2 h3
    have := hq a h2
    cases a <;> first | (simp [Act.internal] at h2; done) | skip
    all_goals
      simp only [Act.pair, Option.some.injEq] at h3
      subst h3
      simpa only [step, Act.pair, h1] using this
  have hw : ∀ (j : Nat) (q : Pair N), s.pairs[j]? = some q → q.run = .waiting := by
    intro j q h
    have hf := hi.fits q (List.mem_of_getElem? h)
    have a1 := hpair j q (.runResume j) h rfl rfl
    have a2 := hpair j q (.handlerEnds j true) h rfl rfl
    have a3 := hpair j q (.wake j) h rfl rfl
    simp only [pairStep, hi.stopNext] at a1 a2 a3
    cases hr : q.run with
    | waiting => rfl
    | got n => simp [hr] at a1
    | handling n => simp [hr] at a2
    | sleeping => simp [hr] at a3
    | ended => exact absurd hr hf.run
  obtain ⟨q0, r0, h0⟩ := List.exists_cons_of_ne_nil hp
  have g0 : s.pairs[0]? = some q0 := by simp [h0]
  have hnext : s.nextQ = [] := by
    have a1 := hpair 0 q0 (.runGet 0) g0 rfl rfl
    simp only [pairStep, hw 0 q0 g0] at a1
    cases hn : s.nextQ with
    | nil => rfl
    | cons n r => simp [hn] at a1
  have hidle : ∀ (j : Nat) (q : Pair N), s.pairs[j]? = some q → q.joining = false ∧ q.putDone = false ∧ q.got = none ∧ q.cur = none := by
    intro j q h
    have hf := hi.fits q (List.mem_of_getElem? h)
    have hj : q.joining = false := by
      cases hj : q.joining with
      | false => rfl
      | true =>
        have a1 := hpair j q (.joined j) h rfl rfl
        simp [pairStep, hj, (hf.join hj).2 hnext] at a1
    have a2 := hpair j q (.popResume j) h rfl rfl
    have a3 := hpair j q (.putTask j) h rfl rfl
    simp only [pairStep, hf.alive, hj, hi.stopAdd] at a2 a3
    have hpd : q.putDone = false := by
      cases hpd : q.putDone with
      | false => rfl
      | true => simp [hpd] at a2
    have hg : q.got = none := by
      cases hg : q.got with
      | none => rfl
      | some m => simp [hg] at a2
    refine ⟨hj, hpd, hg, ?_⟩
    cases hc : q.cur with
    | none => rfl
    | some m => simp [hpd, hc, hnext] at a3
  have hadd : s.addQ = [] := by
    obtain ⟨k1, k2, k3, k4⟩ := hidle 0 q0 g0
    have a1 := hpair 0 q0 (.getTask 0) g0 rfl rfl
    simp only [pairStep, (hi.fits q0 (List.mem_of_getElem? g0)).alive, k1, k3] at a1
    cases hn : s.addQ with
    | nil => rfl
    | cons n r => simp [hn] at a1
  have hpend : s.pend = [] := by
    by_contra hne
    obtain ⟨q, hm, hc⟩ := hi.pend hne
    obtain ⟨j, hj⟩ := List.mem_iff_getElem?.1 hm
    rw [(hidle j q hj).2.2.2] at hc
    cases hc
  simp only [inFlight, hadd, hpend, hnext, List.nil_append, List.flatMap_eq_nil_iff]
  intro q hm
  obtain ⟨j, hj⟩ := List.mem_iff_getElem?.1 hm
  obtain ⟨k1, k2, k3, k4⟩ := hidle j q hj
  simp [holds, hw j q hj, k1, k2, k3, k4]

/-! ### The theorems -/

/-- **C116**, what holds: with the tasks of any number of runs, each accepted notification is on its way or the handler
has been called with it, exactly once. -/
theorem C116_each_once_partial (as : List (Act N)) (s : State N) (cs : List N) (ha : Act.stop ∉ as)
    (h : exec init as = some (s, cs)) : (cs ++ inFlight s).Perm (accepted as) := by
  rw [List.perm_iff_count]
  intro x
  have := flow_exec as x inv_init ha h
  rw [List.count_append, this]
  simp [inFlight, init]

/-- **C116**, what holds: nothing gets stuck.  At any moment before a stop there is a bound on what the tasks of all runs
and the handler can go on to do without new notifications and runs, and when they can do no more, the handler has been
called with every accepted notification, exactly once. -/
theorem C116_delivered_partial [Nonempty N] (as : List (Act N)) (s : State N) (cs : List N) (ha : Act.stop ∉ as)
    (hr : Act.newRun ∈ as) (h : exec init as = some (s, cs)) :
    ∃ bound, ∀ (bs : List (Act N)) (s' : State N) (ds : List N), (∀ b ∈ bs, Act.internal b) →
      exec s bs = some (s', ds) →
      bs.length ≤ bound ∧
      ((∀ b, Act.internal b → step s' b = none) → (cs ++ ds).Perm (accepted as)) := by
  have hi := inv_exec as inv_init ha h
  refine ⟨work s, fun bs s' ds hb hx => ⟨?_, fun hq => ?_⟩⟩
  · have := work_exec bs hi hb hx
    omega
  · have hbs : Act.stop ∉ bs := fun hm => by have := hb _ hm; cases this
    have hi' := inv_exec bs hi hbs hx
    have hp : s'.pairs ≠ [] := by
      have e1 := length_exec as h
      have e2 := length_exec bs hx
      have e3 : 0 < (as.filter (fun a => match a with | .newRun => true | _ => false)).length :=
        List.length_pos_iff.2 (List.ne_nil_of_mem (List.mem_filter.2 ⟨hr, rfl⟩))
      intro e
      rw [e] at e2
      simp at e2
      omega
    have hf := quiet hi' hp hq
    rw [List.perm_iff_count]
    intro x
    have e1 := flow_exec as x inv_init ha h
    have e2 := flow_exec bs x hi hbs hx
    have e3 : (accepted bs).count x = 0 := by
      have : accepted bs = [] := by
        clear e2 hx hbs
        induction bs with
        | nil => rfl
        | cons b bs ih =>
          rw [accepted_cons, ih (fun c hc => hb c (by simp [hc]))]
          have := hb b (by simp)
          cases b <;> first | rfl | cases this
      rw [this, List.count_nil]
    rw [hf, List.count_nil] at e2
    rw [List.count_append]
    simp only [inFlight, init, List.flatMap_nil, List.append_nil, List.count_nil] at e1
    simp only [inFlight] at e2
    omega

end

/-! ### One run -/

/-- The same action of a listener with one pair of tasks. -/
private def one : Act N → Listener.Act N
  | .newRun => .stop
  | .put n => .put n
  | .getTask _ => .getTask
  | .putTask _ => .putTask
  | .popResume _ => .popResume
  | .joined _ => .joined
  | .runGet _ => .runGet
  | .runResume _ => .runResume
  | .handlerEnds _ ok => .handlerEnds ok
  | .wake _ => .wake
  | .stop => .stop

private def view (s : State N) (q : Pair N) : Listener.State N :=
  ⟨s.addQ, q.got, q.cur, q.putDone, q.joining, s.pend, s.nextQ, q.run, s.stopAdd, q.ended⟩

/-- There is one pair of tasks. -/
private structure One (s : State N) (q : Pair N) : Prop where
  pairs : s.pairs = [q]
  next : s.stopNext = q.ended
  free : q.joining = true → q.free = true → s.nextQ = []

private theorem one_step {s s' : State N} {q : Pair N} {a : Act N} {c : Option N} (hi : One s q) (ha : a ≠ .newRun)
    (h : step s a = some (s', c)) : ∃ q', One s' q' ∧ Listener.step (view s q) (one a) = some (view s' q', c) := by
  obtain ⟨addQ, pend, nextQ, pairs, stopAdd, stopNext⟩ := s
  obtain ⟨hp, hn, hfree⟩ := hi
  simp only at hp hn hfree
  subst hp hn
  obtain ⟨got, cur, putDone, joining, free, ended, run⟩ := q
  by_cases hint : Act.internal a = true
  · obtain ⟨j, q, h1, h2, h3⟩ := pair_cases h hint
    cases j with
    | succ j => simp at h2
    | zero =>
      simp only [List.getElem?_cons_zero, Option.some.injEq] at h2
      subst h2
      cases a <;> simp only [Act.pair, Option.some.injEq, reduceCtorEq] at h1 <;> subst h1
      case getTask =>
        simp only [pairStep] at h3
        split at h3
        · cases h3
        · rename_i hc
          split at h3
          · cases h3
            obtain ⟨rfl, rfl⟩ : ended = false ∧ joining = false := by simpa using hc
            exact ⟨_, ⟨rfl, rfl, hfree⟩, rfl⟩
          · cases h3
      case putTask =>
        simp only [pairStep] at h3
        split at h3
        · cases h3
        · rename_i hc
          split at h3
          · cases h3
            obtain ⟨⟨rfl, rfl⟩, rfl⟩ : (ended = false ∧ joining = false) ∧ putDone = false := by simpa using hc
            exact ⟨_, ⟨rfl, rfl, fun h => by simp at h⟩, rfl⟩
          · cases h3
      case popResume =>
        simp only [pairStep] at h3
        split at h3
        · cases h3
        · rename_i hc
          split at h3
          · rename_i hs
            cases h3
            obtain ⟨rfl, rfl⟩ : ended = false ∧ joining = false := by simpa using hc
            subst hs
            exact ⟨_, ⟨rfl, rfl, hfree⟩, rfl⟩
          · rename_i hs
            split at h3
            · rename_i hg
              cases h3
              obtain ⟨rfl, rfl⟩ : ended = false ∧ joining = false := by simpa using hc
              obtain rfl : stopAdd = false := by simpa using hs
              refine ⟨_, ⟨rfl, rfl, fun _ h => List.isEmpty_iff.1 h⟩, ?_⟩
              cases got <;> cases cur <;> cases putDone <;> first | rfl | (simp at hg)
            · cases h3
      case joined =>
        simp only [pairStep] at h3
        split at h3
        · rename_i hj
          simp only [Bool.and_eq_true] at hj
          obtain ⟨rfl, rfl⟩ := hj
          cases hfree rfl rfl
          cases h3
          exact ⟨_, ⟨rfl, rfl, fun h => by simp at h⟩, rfl⟩
        · cases h3
      case runGet =>
        simp only [pairStep] at h3
        split at h3
        · cases h3
          refine ⟨_, ⟨rfl, rfl, fun h1 h2 => ?_⟩, rfl⟩
          simp only [Bool.or_eq_true] at h1 h2
          rcases h2 with h2 | h2
          · have := hfree h1 h2
            cases this
          · simpa using h2
        · cases h3
      case runResume =>
        simp only [pairStep] at h3
        split at h3
        · cases ended <;> simp at h3 <;> obtain ⟨rfl, rfl⟩ := h3 <;> exact ⟨_, ⟨rfl, rfl, hfree⟩, rfl⟩
        · cases ended <;> simp at h3
          obtain ⟨rfl, rfl⟩ := h3
          exact ⟨_, ⟨rfl, rfl, hfree⟩, rfl⟩
        · cases h3
      case handlerEnds =>
        simp only [pairStep] at h3
        split at h3
        · cases h3
          exact ⟨_, ⟨rfl, rfl, hfree⟩, rfl⟩
        · cases h3
      case wake =>
        simp only [pairStep] at h3
        split at h3
        · cases h3
          exact ⟨_, ⟨rfl, rfl, hfree⟩, rfl⟩
        · cases h3
  · cases a <;> first | (exact absurd rfl hint) | skip
    case newRun => exact absurd rfl ha
    case put n =>
      simp only [step] at h
      split at h <;> cases h
      exact ⟨_, ⟨rfl, rfl, hfree⟩, rfl⟩
    case stop =>
      cases h
      exact ⟨_, ⟨rfl, rfl, hfree⟩, rfl⟩

private theorem one_exec (as : List (Act N)) : ∀ {s s' : State N} {q : Pair N} {cs : List N}, One s q → Act.newRun ∉ as →
    exec s as = some (s', cs) →
    ∃ q', One s' q' ∧ Listener.exec (view s q) (as.map one) = some (view s' q', cs) := by
  induction as with
  | nil => intro s s' q cs hi _ h; cases h; exact ⟨q, hi, rfl⟩
  | cons a as ih =>
    intro s s' q cs hi ha h
    obtain ⟨s1, c, cs', h1, h2, rfl⟩ := exec_cons h
    obtain ⟨q1, hi1, e1⟩ := one_step hi (fun e => ha (by simp [e])) h1
    obtain ⟨q', hi', e2⟩ := ih hi1 (fun e => ha (by simp [e])) h2
    exact ⟨q', hi', by simp [Listener.exec, e1, e2]⟩

/-- **C116**, what holds: with the tasks of one run the handler is called with the accepted notifications in order, none
twice and none left out before the last, and one call at a time; also with a stop at any moment. -/
theorem C116_one_run_partial (as : List (Act N)) (s : State N) (cs : List N) (ha : Act.newRun ∉ as)
    (h : exec init (.newRun :: as) = some (s, cs)) : cs <+: accepted as ∧ calling s ≤ 1 := by
  obtain ⟨s1, c, cs', h1, h2, rfl⟩ := exec_cons h
  cases h1
  obtain ⟨q, hi, e⟩ := one_exec as (q := Pair.new) ⟨rfl, rfl, by simp [Pair.new]⟩ ha h2
  have hp := Listener.C37_prefix (as.map one) _ _ e
  have hacc : Listener.Spec.accepted (as.map one) = accepted as := by
    clear h h2 e hp
    induction as with
    | nil => rfl
    | cons a as ih =>
      have := ih (fun e => ha (by simp [e]))
      cases a <;> simp [one, Listener.Spec.accepted, accepted, this]
  refine ⟨by simpa [hacc] using hp, ?_⟩
  unfold calling
  refine Nat.le_trans (List.length_filter_le _ _) ?_
  rw [hi.pairs]
  exact Nat.le_refl 1

example : ∃ s, exec (init : State Nat) [.newRun, .put 7, .getTask 0, .popResume 0, .putTask 0, .put 8, .getTask 0,
      .popResume 0, .runGet 0, .runResume 0, .joined 0, .putTask 0] = some (s, [7]) ∧ calling s = 1 ∧
      s.nextQ = [8] := ⟨_, rfl, by decide, rfl⟩

/-! ### The end of one run -/

private theorem stopped_step {s s' : State N} {a : Act N} {c : Option N} (hs : s.stopNext = true)
    (h : step s a = some (s', c)) : c = none ∧ s'.stopNext = true := by
  by_cases hint : Act.internal a = true
  · obtain ⟨j, q, -, -, h3⟩ := pair_cases h hint
    cases a <;> simp only [pairStep] at h3 <;> (repeat' split at h3) <;> cases h3 <;> first | exact ⟨rfl, hs⟩ | exact ⟨rfl, rfl⟩ |
      (exfalso; simp_all)
  · cases a <;> first | (exact absurd rfl hint) | skip
    case newRun => cases h; exact ⟨rfl, hs⟩
    case put n =>
      simp only [step] at h
      split at h <;> cases h
      exact ⟨rfl, hs⟩
    case stop => cases h; exact ⟨rfl, hs⟩

/-- **C116** is false of the code: when one run has ended and one `_pop` has noticed, the handler is not called any more,
however many other runs go on or start. -/
theorem C116_refuted_end (bs : List (Act N)) : ∀ (s s1 s2 : State N) (j : Nat) (q : Pair N) (c : Option N) (ds : List N),
    s.stopAdd = true → s.pairs[j]? = some q → q.ended = false → step s (.popResume j) = some (s1, c) →
    exec s1 bs = some (s2, ds) → c = none ∧ ds = [] := by
  have gone : ∀ (bs : List (Act N)) {s s2 : State N} {ds : List N}, s.stopNext = true → exec s bs = some (s2, ds) →
      ds = [] := by
    intro bs
    induction bs with
    | nil => intro s s2 ds _ h; cases h; rfl
    | cons b bs ih =>
      intro s s2 ds hs h
      obtain ⟨s1, c, cs, h1, h2, rfl⟩ := exec_cons h
      obtain ⟨rfl, hs1⟩ := stopped_step hs h1
      rw [ih hs1 h2]
      rfl
  intro s s1 s2 j q c ds hst hq he hp hx
  simp only [step, Act.pair, hq, pairStep, hst, if_true] at hp
  split at hp
  · cases hp
  · cases hp
    exact ⟨rfl, gone bs rfl hx⟩

/-- Of two runs the first ends: what the second accepts from then on does not reach the handler. -/
example : ∃ s, exec (init : State Nat) [.newRun, .newRun, .put 7, .stop, .popResume 0, .getTask 1, .popResume 1,
      .runResume 1, .put 8] = some (s, []) ∧ s.addQ = [8] ∧ s.stopNext = true := ⟨_, rfl, rfl, rfl⟩

/-- Two runs, both of whose handler calls have begun: the notifications 1 and 2 are taken by the two `_pop`s. -/
private def crossing : List (Act Nat) :=
  [.newRun, .newRun, .put 1, .getTask 0, .popResume 0, .put 2, .getTask 1, .popResume 1,
   .putTask 1, .runGet 0, .putTask 0, .runGet 1, .runResume 0, .runResume 1]

/-- **C116** is false of the code: with the tasks of two runs, the handler is called with the later notification first,
and no end of a call lies between. -/
theorem C116_refuted_order : ∃ (as : List (Act Nat)) (s : State Nat), Act.stop ∉ as ∧ accepted as = [1, 2] ∧
    exec init as = some (s, [2, 1]) := by
  refine ⟨crossing, _, by decide, by decide, rfl⟩

/-- **C116** is false of the code: with the tasks of two runs, two calls of one handler run at the same time. -/
theorem C116_refuted_overlap : ∃ (as : List (Act Nat)) (s : State Nat) (cs : List Nat), Act.stop ∉ as ∧
    exec init as = some (s, cs) ∧ calling s = 2 := by
  refine ⟨crossing, _, _, by decide, rfl, by decide⟩

/-- The theorems apply to three notifications, two runs and one failing call: in the end the handler has been called
with all three. -/
example : ∃ s, exec (init : State Nat) ([.newRun, .put 7, .getTask 0, .newRun] ++ [.popResume 0, .put 8, .getTask 1]) =
    some (s, []) ∧ inFlight s = [7, 8] := ⟨_, rfl, rfl⟩

example : ∃ s, exec (init : State Nat) (crossing ++ [.popResume 0, .popResume 1, .joined 0, .joined 1,
      .handlerEnds 0 true, .handlerEnds 1 false, .put 3, .getTask 1, .popResume 1, .putTask 1, .popResume 1, .runGet 0,
      .joined 1, .runResume 0, .handlerEnds 0 true, .wake 1]) = some (s, [2, 1, 3]) ∧ inFlight s = [] ∧
    s = ⟨[], [], [], s.pairs, false, false⟩ ∧ s.pairs.length = 2 := ⟨_, rfl, rfl, rfl, rfl⟩

end Aiok8s.Listeners
