import Verif.Spec.ListenerTime
import Verif.Proof.Listener
import Mathlib.Tactic.Linarith
import Mathlib.Tactic.NormNum
/-!
# Lemmas on the times of a listener
-/
set_option linter.unusedSimpArgs false
namespace Aiok8s.ListenerTime
open Aiok8s.Listener (State Act)
open Spec
variable {N : Type}

theorem puts_append (l m : List (ℚ × Obs N)) : puts (l ++ m) = puts l ++ puts m := by
  induction l with
  | nil => rfl
  | cons e l ih => obtain ⟨t, o⟩ := e; cases o <;> simp [puts, ih]

theorem calls_append (l m : List (ℚ × Obs N)) : calls (l ++ m) = calls l ++ calls m := by
  induction l with
  | nil => rfl
  | cons e l ih => obtain ⟨t, o⟩ := e; cases o <;> simp [calls, ih]

theorem ends_append (l m : List (ℚ × Obs N)) : ends (l ++ m) = ends l ++ ends m := by
  induction l with
  | nil => rfl
  | cons e l ih => obtain ⟨t, o⟩ := e; cases o <;> simp [ends, ih]

/-- More ends do not change when the handler was ready. -/
theorem ready_append {pz t0 : ℚ} {es fs : List (ℚ × Bool)} {i : Nat} {f : ℚ} (h : ready pz t0 es i = some f) :
    ready pz t0 (es ++ fs) i = some f := by
  cases i with
  | zero => exact h
  | succ i =>
    simp only [ready, Option.map_eq_some_iff] at h ⊢
    obtain ⟨e, he, hf⟩ := h
    refine ⟨e, ?_, hf⟩
    rw [List.getElem?_append_left (List.getElem?_eq_some_iff.1 he).1]
    exact he

theorem ready_last {pz t0 : ℚ} {es : List (ℚ × Bool)} {t : ℚ} {ok : Bool} :
    ready pz t0 (es ++ [(t, ok)]) (es ++ [(t, ok)]).length = some (t + if ok then 0 else pz) := by
  simp [ready]

theorem ready_none {pz t0 : ℚ} {es : List (ℚ × Bool)} : ready pz t0 es (es.length + 1) = none := by
  simp [ready]

theorem nostop_step {s s' : State N} {a : Act N} {c : Option N} (ha : a ≠ .stop)
    (h1 : Listener.step s a = some (s', c)) (h : s.stopAdd = false) : s'.stopAdd = false := by
  cases a with
  | stop => exact absurd rfl ha
  | put | getTask | putTask | popResume | joined | runGet | runResume | handlerEnds | wake =>
    simp only [Listener.step] at h1
    repeat' split at h1
    all_goals simp at h1
    all_goals (obtain ⟨rfl, -⟩ := h1; exact h)

theorem running {s : State N} (hi : Listener.Inv s) (hs : s.stopAdd = false) : s.popEnded = false := by
  cases hp : s.popEnded with
  | false => rfl
  | true => rw [hi.stop hp] at hs; cases hs

/-- When the tasks can do nothing, the handler is in a call, the pause is on or there is nothing left to do. -/
theorem quiet {s : State N} (hi : Listener.Inv s) (hs : s.stopAdd = false)
    (hq : ∀ b, Listener.Spec.Act.own b = true → b ≠ .wake → Listener.step s b = none) :
    inCall s = true ∨ s.run = .sleeping ∨ Listener.Spec.inFlight s = [] := by
  have hpe := running hi hs
  obtain ⟨addQ, got, cur, pd, jn, pend, nextQ, run, sa, pe⟩ := s
  obtain ⟨h1, h2, h3, h4, h5, h6, h7, h8, h9⟩ := hi
  simp only at h1 h2 h3 h4 h5 h6 h7 h8 h9 hs hpe
  subst hs hpe
  have q1 := hq .getTask rfl nofun
  have q2 := hq .putTask rfl nofun
  have q3 := hq .popResume rfl nofun
  have q4 := hq .joined rfl nofun
  have q5 := hq .runGet rfl nofun
  have q6 := hq .runResume rfl nofun
  clear hq
  cases run with
  | got n => simp [Listener.step] at q6
  | handling n => left; rfl
  | sleeping => right; left; rfl
  | ended => simp at h8
  | waiting =>
    right; right
    cases nextQ with
    | cons n r => simp [Listener.step] at q5
    | nil =>
      cases jn with
      | true => simp [Listener.step] at q4
      | false =>
        simp [Listener.step] at q3
        obtain ⟨rfl, rfl⟩ := q3
        cases cur with
        | some n => simp [Listener.step] at q2
        | none =>
          cases addQ with
          | cons n r => simp [Listener.step] at q1
          | nil => simp [Listener.Spec.inFlight, h4]

/-- What holds of a listener that is not stopped; `idle`: and of an idle event loop. -/
structure J (idle : Prop) (t0 : ℚ) (s : TState N) (log : List (ℚ × Obs N)) : Prop where
  inv : Listener.Inv s.l
  ns : s.l.stopAdd = false
  flow : (calls log).map Prod.snd ++ Listener.Spec.inFlight s.l = (puts log).map Prod.snd
  cnt : (calls log).length = (ends log).length + if inCall s.l then 1 else 0
  rdy : inCall s.l = false → ∃ f, ready 60 t0 (ends log) (ends log).length = some f ∧
    (s.l.run = .sleeping → f = s.wake) ∧ (s.l.run ≠ .sleeping → f ≤ s.now)
  past : ∀ e ∈ puts log, e.1 ≤ s.now
  done : ∀ i < (calls log).length, ∃ p n f t, (puts log)[i]? = some (p, n) ∧ ready 60 t0 (ends log) i = some f ∧
    (calls log)[i]? = some (t, n) ∧ max p f ≤ t ∧ (idle → t = max p f)
  due : idle → ∀ p n f, (puts log)[(calls log).length]? = some (p, n) →
    ready 60 t0 (ends log) (calls log).length = some f → s.now ≤ max p f

theorem j_init (idle : Prop) (t0 : ℚ) : J idle t0 (init t0 : TState N) [] where
  inv := Listener.inv_init
  ns := rfl
  flow := rfl
  cnt := rfl
  rdy _ := ⟨t0, rfl, nofun, fun _ => le_refl _⟩
  past := by simp [puts]
  done := by simp [calls]
  due _ p n f h := by simp [puts] at h

/-- Nothing is seen. -/
theorem j_silent {idle : Prop} {t0 : ℚ} {s : TState N} {log : List (ℚ × Obs N)} (h : J idle t0 s log) {l : State N}
    {a : Act N} (hs : Listener.step s.l a = some (l, none)) (ha : a ≠ .stop) (hacc : Listener.Spec.accepted [a] = [])
    (hc : inCall l = inCall s.l)
    (hr : inCall s.l = false → (l.run = .sleeping ↔ s.l.run = .sleeping) ∨
      (s.l.run = .sleeping ∧ l.run ≠ .sleeping ∧ s.wake ≤ s.now)) :
    J idle t0 { s with l := l } log := by
  have hi := Listener.inv_step h.inv hs
  have hn := nostop_step ha hs h.ns
  have hf := Listener.flow_step h.inv hs (running hi hn)
  rw [hacc, List.append_nil, Option.toList_none, List.nil_append] at hf
  refine ⟨hi, hn, by rw [← h.flow]; simp only [hf], by rw [h.cnt]; simp only [hc], ?_, h.past, h.done, h.due⟩
  intro hc'
  rw [hc] at hc'
  obtain ⟨f, hf1, hf2⟩ := h.rdy hc'
  refine ⟨f, hf1, ?_⟩
  rcases hr hc' with hr | ⟨hr1, hr2, hr3⟩
  · exact ⟨fun h1 => hf2.1 (hr.1 h1), fun h1 => hf2.2 fun h2 => h1 (hr.2 h2)⟩
  · exact ⟨fun h1 => absurd h1 hr2, fun _ => (hf2.1 hr1).le.trans hr3⟩

theorem j_step {idle : Prop} {t0 : ℚ} {s s' : TState N} {log : List (ℚ × Obs N)} (h : J idle t0 s log) {a : TAct N}
    {o : Option (Obs N)} (hs : step s a = some (s', o)) (hst : a ≠ .act .stop)
    (hidle : ∀ d, a = .pass d → idle → d ≤ 0 ∨
      ((∀ b, Listener.Spec.Act.own b = true → b ≠ .wake → Listener.step s.l b = none) ∧
          (s.l.run = .sleeping → s.now + d ≤ s.wake))) :
    J idle t0 s' (log ++ (o.map fun o => (s.now, o)).toList) := by
  cases a with
  | pass d =>
    simp only [step] at hs
    split at hs
    case isFalse => cases hs
    case isTrue hd =>
      cases hs
      simp only [Option.map_none, Option.toList_none, List.append_nil]
      refine ⟨h.inv, h.ns, h.flow, h.cnt, ?_, fun e he => le_trans (h.past e he) (by simpa using hd), h.done, ?_⟩
      · intro hc
        obtain ⟨f, h1, h2⟩ := h.rdy hc
        refine ⟨f, h1, h2.1, fun hsl => ?_⟩
        have := h2.2 hsl
        simp only
        linarith
      · intro hi p n f hp hf
        rcases hidle d rfl hi with hd0 | ⟨hq, hw⟩
        · have : d = 0 := le_antisymm hd0 hd
          subst this
          simpa using h.due hi p n f hp hf
        · rcases quiet h.inv h.ns hq with hq | hq | hq
          · rw [h.cnt, if_pos hq, ready_none] at hf
            cases hf
          · have hic : inCall s.l = false := by simp [inCall, hq]
            obtain ⟨f', h1, h2⟩ := h.rdy hic
            have h2 := h2.1 hq
            rw [h.cnt, hic] at hf
            simp only [Bool.false_eq_true, if_false, Nat.add_zero] at hf
            rw [h1] at hf
            cases hf
            rw [h2]
            exact le_trans (hw hq) (le_max_right _ _)
          · have := congrArg List.length h.flow
            rw [hq] at this
            simp only [List.append_nil, List.length_map] at this
            rw [this, List.getElem?_eq_none (le_refl _)] at hp
            cases hp
  | act a =>
    simp only [step] at hs
    cases hl : Listener.step s.l a with
    | none => rw [hl] at hs; cases hs
    | some r =>
      obtain ⟨l, c⟩ := r
      rw [hl] at hs
      have ha : a ≠ .stop := fun hc => hst (by rw [hc])
      have hi := Listener.inv_step h.inv hl
      have hn := nostop_step ha hl h.ns
      have hf := Listener.flow_step h.inv hl (running hi hn)
      cases a with
      | stop => exact absurd rfl ha
      | getTask =>
        simp only at hs
        have hl' := hl
        simp only [Listener.step] at hl
        repeat' split at hl
        all_goals cases hl
        cases hs
        simpa using j_silent h hl' ha rfl rfl fun _ => .inl Iff.rfl
      | putTask =>
        simp only at hs
        have hl' := hl
        simp only [Listener.step] at hl
        repeat' split at hl
        all_goals cases hl
        cases hs
        simpa using j_silent h hl' ha rfl rfl fun _ => .inl Iff.rfl
      | popResume =>
        simp only at hs
        have hl' := hl
        simp only [Listener.step] at hl
        repeat' split at hl
        all_goals cases hl
        all_goals cases hs
        all_goals simpa using j_silent h hl' ha rfl rfl fun _ => .inl Iff.rfl
      | joined =>
        simp only at hs
        have hl' := hl
        simp only [Listener.step] at hl
        repeat' split at hl
        all_goals cases hl
        cases hs
        simpa using j_silent h hl' ha rfl rfl fun _ => .inl Iff.rfl
      | runGet =>
        simp only at hs
        have hl' := hl
        simp only [Listener.step] at hl
        split at hl
        case h_2 => cases hl
        case h_1 hr _ =>
          cases hl
          cases hs
          simpa using j_silent h hl' ha rfl (by simp [inCall, hr]) fun _ => .inl (by simp [hr])
      | wake =>
        simp only at hs
        split at hs
        case isFalse => cases hs
        case isTrue hw =>
          cases hs
          have hl' := hl
          simp only [Listener.step] at hl
          split at hl
          case h_2 => cases hl
          case h_1 hr =>
            cases hl
            simpa using j_silent h hl' ha rfl (by simp [inCall, hr]) fun _ => .inr ⟨hr, nofun, hw⟩
      | put n =>
        simp only [Option.some.injEq, Prod.mk.injEq] at hs
        obtain ⟨rfl, rfl⟩ := hs
        simp only [Listener.step] at hl
        split at hl
        case h_2 => cases hl
        case h_1 ha0 =>
          cases hl
          simp only [Option.map_some, Option.toList_some]
          refine ⟨hi, hn, ?_, ?_, ?_, ?_, ?_, ?_⟩
          · simp only [Option.toList_none, List.nil_append, Listener.Spec.accepted] at hf
            rw [calls_append, puts_append]
            simp only [calls, puts, List.append_nil, List.map_append, List.map_cons, List.map_nil]
            rw [hf, ← List.append_assoc, h.flow]
          · rw [calls_append, ends_append]
            simp only [calls, ends, List.append_nil]
            exact h.cnt
          · rw [ends_append]
            simp only [ends, List.append_nil]
            exact h.rdy
          · rw [puts_append]
            intro e he
            rcases List.mem_append.1 he with he | he
            · exact h.past e he
            · simp [puts] at he; rw [he]
          · rw [calls_append, ends_append, puts_append]
            simp only [calls, ends, puts, List.append_nil]
            intro i hi'
            obtain ⟨p, m, f, t, h1, h2, h3, h4⟩ := h.done i hi'
            refine ⟨p, m, f, t, ?_, h2, h3, h4⟩
            rw [List.getElem?_append_left (List.getElem?_eq_some_iff.1 h1).1]
            exact h1
          · rw [calls_append, ends_append, puts_append]
            simp only [calls, ends, puts, List.append_nil]
            intro hid p m f hp hf'
            rcases Nat.lt_or_ge (calls log).length (puts log).length with hlt | hge
            · rw [List.getElem?_append_left hlt] at hp
              exact h.due hid p m f hp hf'
            · rw [List.getElem?_append_right hge] at hp
              have := (List.getElem?_eq_some_iff.1 hp).1
              simp only [List.length_cons, List.length_nil] at this
              have h0 : (calls log).length - (puts log).length = 0 := by omega
              rw [h0] at hp
              cases hp
              exact le_max_left _ _
      | runResume =>
        simp only [Option.some.injEq, Prod.mk.injEq] at hs
        obtain ⟨rfl, rfl⟩ := hs
        have hpe := running h.inv h.ns
        simp only [Listener.step, hpe] at hl
        split at hl
        case h_3 => cases hl
        case h_2 => cases hl
        case h_1 n hr =>
          simp only [Bool.false_eq_true, if_false] at hl
          cases hl
          simp only [Option.map_some, Option.toList_some]
          have hic : inCall s.l = false := by simp [inCall, hr]
          obtain ⟨f, hf1, hf2⟩ := h.rdy hic
          have hf2 := hf2.2 (by rw [hr]; nofun)
          have hcnt := h.cnt
          rw [hic] at hcnt
          simp only [Bool.false_eq_true, if_false, Nat.add_zero] at hcnt
          -- the notification
          have hp : ∃ p, (puts log)[(calls log).length]? = some (p, n) := by
            have h1 : ((puts log).map Prod.snd)[(calls log).length]? = some n := by
              rw [← h.flow, List.getElem?_append_right (by simp)]
              simp [Listener.Spec.inFlight, hr]
            rw [List.getElem?_map, Option.map_eq_some_iff] at h1
            obtain ⟨⟨p, n'⟩, h2, rfl⟩ := h1
            exact ⟨p, h2⟩
          obtain ⟨p, hp⟩ := hp
          have hpast := h.past _ (List.mem_of_getElem? hp)
          refine ⟨hi, hn, ?_, ?_, ?_, ?_, ?_, ?_⟩
          · rw [calls_append, puts_append]
            simp only [calls, puts, List.append_nil, List.map_append, List.map_cons, List.map_nil]
            rw [← h.flow, List.append_assoc]
            congr 1
            simpa [Listener.Spec.accepted] using hf
          · rw [calls_append, ends_append]
            simp [calls, ends, inCall, hcnt]
          · intro hc
            simp [inCall] at hc
          · rw [puts_append]
            simpa [puts] using h.past
          · rw [calls_append, ends_append, puts_append]
            simp only [calls, ends, puts, List.append_nil, List.length_append, List.length_cons, List.length_nil]
            intro i hi'
            rcases Nat.lt_or_ge i (calls log).length with hlt | hge
            · obtain ⟨p, m, f, t, h1, h2, h3, h4⟩ := h.done i hlt
              refine ⟨p, m, f, t, h1, h2, ?_, h4⟩
              rw [List.getElem?_append_left hlt]
              exact h3
            · have : i = (calls log).length := by omega
              subst this
              rw [← hcnt] at hf1
              refine ⟨p, n, f, s.now, hp, hf1, by simp, max_le hpast hf2, fun hid => ?_⟩
              exact le_antisymm (h.due hid p n f hp hf1) (max_le hpast hf2)
          · rw [calls_append, ends_append]
            simp only [calls, ends, List.append_nil, List.length_append, List.length_cons, List.length_nil]
            intro hid p m f hp hf'
            rw [hcnt, ready_none] at hf'
            cases hf'
      | handlerEnds ok =>
        have hl2 : ∃ n, s.l.run = .handling n ∧ l = { s.l with run := if ok then .waiting else .sleeping } ∧
            c = none := by
          simp only [Listener.step] at hl
          split at hl
          case h_2 => cases hl
          case h_1 n hr => cases hl; exact ⟨n, hr, rfl, rfl⟩
        obtain ⟨n, hr, hl2, rfl⟩ := hl2
        have hs2 : s' = ⟨l, s.now, if ok then s.wake else s.now + 60⟩ ∧ o = some (.ends ok) := by
          cases ok <;> (cases hs; exact ⟨rfl, rfl⟩)
        obtain ⟨rfl, rfl⟩ := hs2
        simp only [Option.map_some, Option.toList_some]
        have hic : inCall s.l = true := by simp [inCall, hr]
        have hic' : inCall l = false := by rw [hl2]; cases ok <;> simp [inCall]
        have hcnt := h.cnt
        rw [if_pos hic] at hcnt
        refine ⟨hi, hn, ?_, ?_, ?_, ?_, ?_, ?_⟩
        · rw [calls_append, puts_append]
          simp only [calls, puts, List.append_nil]
          rw [← h.flow]
          congr 1
          simpa [Listener.Spec.accepted] using hf
        · rw [calls_append, ends_append]
          simp only [calls, ends, List.append_nil, List.length_append, List.length_cons, List.length_nil, hic']
          simpa using hcnt
        · intro _
          rw [ends_append]
          simp only [ends]
          refine ⟨_, ready_last, ?_⟩
          rw [hl2]
          cases ok <;> simp
        · rw [puts_append]
          simpa [puts] using h.past
        · rw [calls_append, ends_append, puts_append]
          simp only [calls, ends, puts, List.append_nil]
          intro i hi'
          obtain ⟨p, m, f, t, h1, h2, h3, h4⟩ := h.done i hi'
          exact ⟨p, m, f, t, h1, ready_append h2, h3, h4⟩
        · rw [calls_append, ends_append, puts_append]
          simp only [calls, ends, puts, List.append_nil]
          intro _ p m f hp hf'
          rw [hcnt] at hf'
          have := ready_last (pz := 60) (t0 := t0) (es := ends log) (t := s.now) (ok := ok)
          simp only [List.length_append, List.length_cons, List.length_nil] at this
          rw [this] at hf'
          cases hf'
          refine le_trans ?_ (le_max_right _ _)
          split <;> linarith

theorem exec_cons {s s' : TState N} {a : TAct N} {as : List (TAct N)} {log : List (ℚ × Obs N)}
    (h : exec s (a :: as) = some (s', log)) :
    ∃ s1 o log', step s a = some (s1, o) ∧ exec s1 as = some (s', log') ∧
      log = (o.map fun o => (s.now, o)).toList ++ log' := by
  simp only [exec] at h
  split at h
  case h_1 => cases h
  case h_2 s1 o h1 =>
    split at h
    case h_1 => cases h
    case h_2 s2 log' h2 => cases h; exact ⟨s1, o, log', h1, h2, rfl⟩

theorem j_exec {idle : Prop} {t0 : ℚ} (as : List (TAct N)) : ∀ {s s' : TState N} {log log' : List (ℚ × Obs N)},
    J idle t0 s log → exec s as = some (s', log') → Going as → (idle → Idle s as) → J idle t0 s' (log ++ log') := by
  induction as with
  | nil => intro s s' log log' h he _ _; cases he; simpa using h
  | cons a as ih =>
    intro s s' log log' h he hg hid
    obtain ⟨s1, o, l2, h1, h2, rfl⟩ := exec_cons he
    rw [← List.append_assoc]
    refine ih (j_step h h1 (fun hc => hg a (by simp) .stop hc rfl) ?_) h2
      (fun b hb => hg b (by simp [hb])) (fun hi => (hid hi).2 _ _ h1)
    intro d hd hi
    have := (hid hi).1
    rw [hd] at this
    exact this

end Aiok8s.ListenerTime
