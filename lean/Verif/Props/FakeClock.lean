import Verif.Proof.FakeClock
/-!
# C47, C48: timers and tickers of the fake clock

The histories are those of a clock started at time `t0`: `pre` happens before the timer or ticker is
made, `post` afterwards.  Its queue is number `made pre` (queues are numbered in the order they are
made) and it is made at time `lastTime t0 pre`.
-/
set_option linter.unusedSimpArgs false
namespace Aiok8s.FakeClock
open Spec

private theorem split {t0 : ℚ} {pre post : List Op} {o : Op} {s : State} {outs : List Out}
    (h : exec (init t0) (pre ++ o :: post) = some (s, outs)) :
    ∃ a b out, Good a ∧ a.time = lastTime t0 pre ∧ a.queues.length = made pre ∧
      run a o = some (b, out) ∧ exec b post = some (s, outs.drop (pre.length + 1)) ∧
      outs[pre.length]? = some out := by
  rw [exec_append] at h
  obtain ⟨⟨a, oa⟩, h1, h⟩ := Option.bind_eq_some_iff.1 h
  obtain ⟨⟨s', ob⟩, h2, h⟩ := Option.map_eq_some_iff.1 h
  cases h
  obtain ⟨b, out, outs', h3, h4, rfl⟩ := exec_cons h2
  have hl := exec_length h1
  obtain ⟨e1, e2⟩ := exec_time h1
  refine ⟨a, b, out, good_exec (good_init t0) h1, e1, by simpa [init] using e2, h3, ?_, ?_⟩
  · have : (oa ++ out :: outs').drop (pre.length + 1) = outs' := by
      rw [← hl, List.drop_append]
      simp
    rw [this]
    exact h4
  · simp only
    rw [← hl]
    simp

/-- C47: what happens to a timer, and what its users see of it, is as if it were alone: see
`Spec.Timer`. -/
theorem C47_alone {t0 d : ℚ} {pre post : List Op} {s : State} {outs : List Out}
    (h : exec (init t0) (pre ++ .newTimer d :: post) = some (s, outs)) :
    let v := Timer.exec (made pre) ⟨lastTime t0 pre, some (lastTime t0 pre + d), []⟩ post
    s.queues[made pre]? = some v.1.queue ∧ agree (outs.drop (pre.length + 1)) v.2 := by
  obtain ⟨a, b, out, h1, h2, h3, h4, h5, -⟩ := split h
  have := sees_new h1 d h4
  rw [h3, h2] at this
  obtain ⟨i1, i2⟩ := sees_exec (good_run h1 h4) this h5
  exact ⟨i1.queue, i2⟩

/-- C47: a timer that is not stopped or reset fires once, at the first change of the time that
reaches its deadline, with that time; what has been received from its queue and what is still in it
is nothing else. -/
theorem C47_once {t0 d : ℚ} {pre post : List Op} {s : State} {outs : List Out}
    (h : exec (init t0) (pre ++ .newTimer d :: post) = some (s, outs))
    (hu : ∀ o ∈ post, touches (made pre) o = false) :
    ∃ c, s.queues[made pre]? = some c ∧
      received (made pre) post (outs.drop (pre.length + 1)) ++ c =
        ((times (lastTime t0 pre) post).find? fun t => decide (lastTime t0 pre + d ≤ t)).toList := by
  obtain ⟨h1, h2⟩ := C47_alone h
  refine ⟨_, h1, ?_⟩
  rw [timer_once _ _ post _ hu h2 (by simp)]
  simp

private theorem exec_append_timer (q : Nat) (v : Timer) (a b : List Op) :
    (v.exec q (a ++ b)) = (((v.exec q a).1.exec q b).1,
      (v.exec q a).2 ++ ((v.exec q a).1.exec q b).2) := by
  induction a generalizing v with
  | nil => rfl
  | cons o a ih => simp [Timer.exec, ih]

private theorem agree_append {es fs : List (Option Out)} {outs : List Out}
    (h : agree outs (es ++ fs)) :
    agree (outs.take es.length) es ∧ agree (outs.drop es.length) fs := by
  induction es generalizing outs with
  | nil => exact ⟨by simp [agree], by simpa using h⟩
  | cons e es ih =>
    cases outs with
    | nil => simp [agree] at h
    | cons o outs =>
      obtain ⟨h1, h2⟩ := h
      obtain ⟨i1, i2⟩ := ih h2
      exact ⟨⟨h1, i1⟩, i2⟩

private theorem exec_timer_length (q : Nat) (v : Timer) (a : List Op) :
    (v.exec q a).2.length = a.length := by
  induction a generalizing v with
  | nil => rfl
  | cons o a ih => simp [Timer.exec, ih]

/-- Not pending any more: nothing more comes, and users are told so. -/
private theorem idle (q : Nat) (v : Timer) (os : List Op) (outs : List Out) (hv : v.due = none)
    (ha : agree outs (v.exec q os).2) :
    received q os outs ++ (v.exec q os).1.queue = v.queue ∧
      ∀ (i : Nat) (o : Op), os[i]? = some o → touches q o = true → outs[i]? = some (Out.bool false) := by
  induction os generalizing v outs with
  | nil => cases outs <;> simp [received, Timer.exec]
  | cons o os ih =>
    cases outs with
    | nil => simp [Timer.exec, agree] at ha
    | cons out outs =>
      obtain ⟨a1, a2⟩ := ha
      obtain ⟨now, due, queue⟩ := v
      simp only at hv
      subst hv
      have fin : ∀ (v' : Timer), v'.due = none → v'.queue = queue →
          (Timer.run q ⟨now, none, queue⟩ o).1 = v' →
          received q (o :: os) (out :: outs) = received q os outs →
          (touches q o = true → out = .bool false) →
          received q (o :: os) (out :: outs) ++
            (Timer.exec q ⟨now, none, queue⟩ (o :: os)).1.queue = queue ∧
          ∀ (i : Nat) (p : Op), (o :: os)[i]? = some p → touches q p = true →
            (out :: outs)[i]? = some (Out.bool false) := by
        intro v' e1 e2 e3 e4 e5
        rw [e3] at a2
        obtain ⟨i1, i2⟩ := ih v' outs e1 a2
        refine ⟨?_, ?_⟩
        · rw [e4, Timer.exec, e3]
          simp only
          rw [i1, e2]
        · intro i p hp ht
          cases i with
          | zero =>
            simp only [List.getElem?_cons_zero, Option.some.injEq] at hp ⊢
            subst hp
            exact e5 ht
          | succ i =>
            simp only [List.getElem?_cons_succ] at hp ⊢
            exact i2 i p hp ht
      cases o with
      | newTimer d => exact fin _ rfl rfl rfl rfl (by simp [touches])
      | newTicker d => exact fin _ rfl rfl rfl rfl (by simp [touches])
      | setTime t => exact fin ⟨t, none, queue⟩ rfl rfl rfl rfl (by simp [touches])
      | step d => exact fin ⟨now + d, none, queue⟩ rfl rfl rfl rfl (by simp [touches])
      | stop q' =>
        by_cases hq : q' = q
        · subst hq
          refine fin ⟨now, none, queue⟩ rfl rfl (by simp [Timer.run]) rfl ?_
          intro _
          exact a1 _ (by simp [Timer.run])
        · exact fin ⟨now, none, queue⟩ rfl rfl (by simp [Timer.run, hq]) rfl
            (by simp [touches, hq])
      | reset q' d =>
        by_cases hq : q' = q
        · subst hq
          refine fin ⟨now, none, queue⟩ rfl rfl (by simp [Timer.run]) rfl ?_
          intro _
          exact a1 _ (by simp [Timer.run])
        · exact fin ⟨now, none, queue⟩ rfl rfl (by simp [Timer.run, hq]) rfl
            (by simp [touches, hq])
      | recv q' =>
        by_cases hq : q' = q
        · subst hq
          cases queue with
          | nil =>
            have := a1 .empty (by simp [Timer.run])
            subst this
            exact fin ⟨now, none, []⟩ rfl rfl (by simp [Timer.run]) rfl (by simp [touches])
          | cons y c =>
            have := a1 (.time y) (by simp [Timer.run])
            subst this
            have hrun : (Timer.run q' ⟨now, none, y :: c⟩ (.recv q')).1 = ⟨now, none, c⟩ := by
              simp [Timer.run]
            rw [hrun] at a2
            obtain ⟨i1, i2⟩ := ih ⟨now, none, c⟩ outs rfl a2
            refine ⟨?_, ?_⟩
            · have hrec : received q' (.recv q' :: os) (.time y :: outs) =
                  y :: received q' os outs := by simp [received]
              rw [hrec, Timer.exec, hrun]
              simp only [List.cons_append]
              exact congrArg (y :: ·) i1
            · intro i p hp ht
              cases i with
              | zero =>
                simp only [List.getElem?_cons_zero, Option.some.injEq] at hp
                subst hp
                simp [touches] at ht
              | succ i =>
                simp only [List.getElem?_cons_succ] at hp ⊢
                exact i2 i p hp ht
        · refine fin ⟨now, none, queue⟩ rfl rfl (by simp [Timer.run, hq]) ?_ (by simp [touches])
          cases out <;> simp [received, hq]

private theorem received_append (q : Nat) (a b : List Op) (oa ob : List Out)
    (h : oa.length = a.length) :
    received q (a ++ b) (oa ++ ob) = received q a oa ++ received q b ob := by
  induction a generalizing oa with
  | nil =>
    have : oa = [] := by simpa using h
    subst this
    simp [received]
  | cons o a ih =>
    cases oa with
    | nil => simp at h
    | cons x oa =>
      have hl : oa.length = a.length := by simpa using h
      have := ih oa hl
      cases o with
      | recv q' =>
        by_cases hq : q' = q <;> cases x <;> simp [received, hq, this]
      | _ => simp [received, this]

private theorem due_after (q : Nat) (v : Timer) (os : List Op)
    (hu : ∀ o ∈ os, touches q o = false) :
    (v.exec q os).1.now = lastTime v.now os ∧
    (v.exec q os).1.due = v.due.bind fun x =>
      if ((times v.now os).find? fun t => decide (x ≤ t)).isSome then none else some x := by
  induction os generalizing v with
  | nil => cases hdue : v.due <;> simp [Timer.exec, times, hdue, lastTime]
  | cons o os ih =>
    have hu' := fun p (hp : p ∈ os) => hu p (List.mem_cons_of_mem _ hp)
    have ht := hu o (List.mem_cons_self ..)
    have hl : ∀ (a b : ℚ) (l : List ℚ), (a :: l).getLastD b = l.getLastD a :=
      fun a b l => List.getLastD_cons ..
    have setCase : ∀ t, ((v.setTime t).exec q os).1.now = (t :: times t os).getLastD v.now ∧
        ((v.setTime t).exec q os).1.due = v.due.bind fun x =>
          if ((t :: times t os).find? fun t => decide (x ≤ t)).isSome then none else some x := by
      intro t
      have hnow : (v.setTime t).now = t := by
        obtain ⟨now, due, queue⟩ := v
        cases due with
        | none => rfl
        | some x => simp only [Timer.setTime]; split <;> rfl
      obtain ⟨i1, i2⟩ := ih (v.setTime t) hu'
      rw [hnow] at i1 i2
      refine ⟨by rw [i1, hl]; rfl, ?_⟩
      rw [i2]
      obtain ⟨now, due, queue⟩ := v
      cases due with
      | none => rfl
      | some x =>
        simp only [Timer.setTime]
        by_cases hx : x ≤ t <;> simp [hx]
    cases o with
    | newTimer d => exact ih v hu'
    | newTicker d => exact ih v hu'
    | setTime t => exact setCase t
    | step d => exact setCase (v.now + d)
    | stop q' =>
      have hne : ¬ q' = q := by simpa [touches] using ht
      simp only [Timer.exec, Timer.run, if_neg hne]
      exact ih v hu'
    | reset q' d =>
      have hne : ¬ q' = q := by simpa [touches] using ht
      simp only [Timer.exec, Timer.run, if_neg hne]
      exact ih v hu'
    | recv q' =>
      simp only [Timer.exec, Timer.run]
      split
      · split
        · exact ih { v with queue := _ } hu'
        · exact ih v hu'
      · exact ih v hu'

/-- C47: `stop` and `reset` report whether the timer was still pending: whether no change of the time
so far has reached its deadline.  (`a`: what happens between the making of the timer and the first
`stop` or `reset` of it.) -/
theorem C47_reports {t0 d : ℚ} {pre a b : List Op} {o : Op} {s : State} {outs : List Out}
    (h : exec (init t0) (pre ++ .newTimer d :: (a ++ o :: b)) = some (s, outs))
    (hu : ∀ p ∈ a, touches (made pre) p = false) (ho : touches (made pre) o = true) :
    outs[pre.length + 1 + a.length]? =
      some (.bool ((times (lastTime t0 pre) a).all fun t => decide (t < lastTime t0 pre + d))) := by
  obtain ⟨-, h2⟩ := C47_alone h
  rw [exec_append_timer] at h2
  obtain ⟨-, h4⟩ := agree_append h2
  rw [exec_timer_length, List.drop_drop] at h4
  rw [← List.head?_drop]
  obtain ⟨-, hdue⟩ := due_after (made pre) ⟨lastTime t0 pre, some (lastTime t0 pre + d), []⟩ a hu
  generalize hv : (Timer.exec (made pre) ⟨lastTime t0 pre, some (lastTime t0 pre + d), []⟩ a).1 = v
    at h4 hdue
  generalize outs.drop (pre.length + 1 + a.length) = os at h4 ⊢
  cases os with
  | nil => simp [Timer.exec, agree] at h4
  | cons out os =>
    obtain ⟨h5, -⟩ := h4
    have hb : v.due.isSome =
        (times (lastTime t0 pre) a).all fun t => decide (t < lastTime t0 pre + d) := by
      rw [hdue]
      simp only [Option.bind_some]
      rw [Bool.eq_iff_iff, List.all_eq_true]
      constructor
      · intro hs x hx
        have hn : ((times (lastTime t0 pre) a).find?
            fun t => decide (lastTime t0 pre + d ≤ t)) = none := by
          cases hf : (times (lastTime t0 pre) a).find?
              fun t => decide (lastTime t0 pre + d ≤ t) with
          | none => rfl
          | some y => simp [hf] at hs
        have := List.find?_eq_none.1 hn x hx
        simpa using this
      · intro hall
        have hn : ((times (lastTime t0 pre) a).find?
            fun t => decide (lastTime t0 pre + d ≤ t)) = none := by
          rw [List.find?_eq_none]
          intro x hx
          simpa using hall x hx
        simp [hn]
    have key : ∀ x, (v.run (made pre) o).2 = some (.bool x) → x = v.due.isSome →
        out = .bool v.due.isSome := fun x h1 h2 => h2 ▸ h5 _ h1
    simp only [List.head?_cons, Option.some.injEq]
    rw [← hb]
    cases o with
    | stop q' =>
      have hq : q' = made pre := by simpa [touches] using ho
      exact key v.due.isSome (by simp [Timer.run, hq]) rfl
    | reset q' x =>
      have hq : q' = made pre := by simpa [touches] using ho
      exact key v.due.isSome (by simp [Timer.run, hq]) rfl
    | _ => simp [touches] at ho

/-- C47: a stopped timer does not fire: after `stop` the timer's queue gets nothing more, whatever
happens (also if `reset` is called), and `stop` and `reset` then report `False`. -/
theorem C47_stopped {t0 d : ℚ} {pre a b : List Op} {s : State} {outs : List Out}
    (h : exec (init t0) (pre ++ .newTimer d :: (a ++ .stop (made pre) :: b)) = some (s, outs))
    (hu : ∀ p ∈ a, touches (made pre) p = false) :
    (∃ c, s.queues[made pre]? = some c ∧
      received (made pre) (a ++ .stop (made pre) :: b) (outs.drop (pre.length + 1)) ++ c =
        ((times (lastTime t0 pre) a).find? fun t => decide (lastTime t0 pre + d ≤ t)).toList) ∧
    ∀ (i : Nat) (o : Op), b[i]? = some o → touches (made pre) o = true →
      outs[pre.length + 1 + a.length + 1 + i]? = some (Out.bool false) := by
  obtain ⟨h1, h2⟩ := C47_alone h
  rw [exec_append_timer] at h1 h2
  obtain ⟨h3, h4⟩ := agree_append h2
  rw [exec_timer_length] at h3 h4
  have hlen : (outs.drop (pre.length + 1)).length = a.length + (b.length + 1) := by
    have := exec_length h
    simp only [List.length_append, List.length_cons] at this
    rw [List.length_drop]
    omega
  generalize hv : (Timer.exec (made pre) ⟨lastTime t0 pre, some (lastTime t0 pre + d), []⟩ a).1 = v
    at h1 h4
  have honce := timer_once (made pre) ⟨lastTime t0 pre, some (lastTime t0 pre + d), []⟩ a _ hu h3
    (by simp)
  rw [hv] at honce
  simp only [List.nil_append, Option.bind_some] at honce
  have hidx : ∀ i, outs[pre.length + 1 + a.length + 1 + i]? =
      ((outs.drop (pre.length + 1)).drop a.length)[i + 1]? := by
    intro i
    rw [List.drop_drop, List.getElem?_drop]
    congr 1
    omega
  simp only [hidx]
  generalize hrest : outs.drop (pre.length + 1) = rest at h3 h4 honce hlen ⊢
  have hsplit : rest = rest.take a.length ++ rest.drop a.length := (List.take_append_drop ..).symm
  have htl : (rest.take a.length).length = a.length := by
    rw [List.length_take]
    omega
  generalize rest.drop a.length = tl at h4 hsplit ⊢
  cases tl with
  | nil => simp [Timer.exec, agree] at h4
  | cons out tl =>
    obtain ⟨-, h5⟩ := h4
    have hrun : (v.run (made pre) (.stop (made pre))).1 = ⟨v.now, none, v.queue⟩ := by
      simp [Timer.run]
    rw [hrun] at h5
    obtain ⟨i1, i2⟩ := idle (made pre) ⟨v.now, none, v.queue⟩ b tl rfl h5
    refine ⟨⟨_, h1, ?_⟩, ?_⟩
    · rw [hsplit, received_append _ _ _ _ _ htl]
      have hrec : received (made pre) (.stop (made pre) :: b) (out :: tl) =
          received (made pre) b tl := rfl
      rw [hrec, List.append_assoc]
      have hq : received (made pre) b tl ++
          (Timer.exec (made pre) v (.stop (made pre) :: b)).1.queue = v.queue := by
        rw [Timer.exec, hrun]
        exact i1
      rw [hq]
      exact honce
    · intro i o hi ho
      simp only [List.getElem?_cons_succ]
      exact i2 i o hi ho

/-- C47: the deadline set by `reset` replaces the old one: a pending timer that is reset behaves as
one made then. -/
theorem C47_reset {t0 d d' : ℚ} {pre a b : List Op} {s : State} {outs : List Out}
    (h : exec (init t0) (pre ++ .newTimer d :: (a ++ .reset (made pre) d' :: b)) = some (s, outs))
    (hu : ∀ p ∈ a, touches (made pre) p = false) (hv : ∀ p ∈ b, touches (made pre) p = false)
    (hp : ∀ t ∈ times (lastTime t0 pre) a, t < lastTime t0 pre + d) :
    let now := lastTime (lastTime t0 pre) a
    ∃ c, s.queues[made pre]? = some c ∧
      received (made pre) (a ++ .reset (made pre) d' :: b) (outs.drop (pre.length + 1)) ++ c =
        ((times now b).find? fun t => decide (now + d' ≤ t)).toList := by
  obtain ⟨h1, h2⟩ := C47_alone h
  rw [exec_append_timer] at h1 h2
  obtain ⟨h3, h4⟩ := agree_append h2
  rw [exec_timer_length] at h3 h4
  have hlen : (outs.drop (pre.length + 1)).length = a.length + (b.length + 1) := by
    have := exec_length h
    simp only [List.length_append, List.length_cons] at this
    rw [List.length_drop]
    omega
  have honce := timer_once (made pre) ⟨lastTime t0 pre, some (lastTime t0 pre + d), []⟩ a _ hu h3
    (by simp)
  have hn : ((times (lastTime t0 pre) a).find?
      fun t => decide (lastTime t0 pre + d ≤ t)) = none := by
    rw [List.find?_eq_none]
    intro x hx
    simpa using hp x hx
  obtain ⟨hnow, hdue⟩ := due_after (made pre)
    ⟨lastTime t0 pre, some (lastTime t0 pre + d), []⟩ a hu
  simp only [List.nil_append, Option.bind_some, hn, Option.toList, List.append_eq_nil_iff,
    Option.isSome_none, Bool.false_eq_true, if_false] at honce hdue hnow
  generalize hv' : (Timer.exec (made pre) ⟨lastTime t0 pre, some (lastTime t0 pre + d), []⟩ a).1 = v
    at h1 h4 hdue hnow honce
  generalize hrest : outs.drop (pre.length + 1) = rest at h3 h4 honce hlen ⊢
  have hsplit : rest = rest.take a.length ++ rest.drop a.length := (List.take_append_drop ..).symm
  have htl : (rest.take a.length).length = a.length := by
    rw [List.length_take]
    omega
  generalize rest.drop a.length = tl at h4 hsplit ⊢
  cases tl with
  | nil => simp [Timer.exec, agree] at h4
  | cons out tl =>
    obtain ⟨-, h5⟩ := h4
    have hrun : (v.run (made pre) (.reset (made pre) d')).1 =
        ⟨v.now, some (v.now + d'), v.queue⟩ := by
      simp [Timer.run, hdue]
    rw [hrun] at h5
    have := timer_once (made pre) ⟨v.now, some (v.now + d'), v.queue⟩ b tl hv h5
      (fun _ => honce.2)
    refine ⟨_, h1, ?_⟩
    rw [hsplit, received_append _ _ _ _ _ htl, honce.1, List.nil_append]
    have hrec : received (made pre) (.reset (made pre) d' :: b) (out :: tl) =
        received (made pre) b tl := rfl
    rw [hrec]
    simp only [Option.bind_some, honce.2, List.nil_append, hnow] at this
    rw [Timer.exec, hrun, honce.2, hnow]
    exact this

/-- C47, C48: no timer or ticker blocks the clock: if no ticker has a negative interval, every
operation returns. -/
theorem C48_never_blocks (t0 : ℚ) (os : List Op) (hd : ∀ d, Op.newTicker d ∈ os → 0 ≤ d) :
    ∃ s outs, exec (init t0) os = some (s, outs) := by
  obtain ⟨⟨s, outs⟩, h⟩ := exec_some os (good_init t0) (by simp [init]) hd
  exact ⟨s, outs, h⟩

/-- C48: at most one tick is buffered (and at most one time in a timer's queue). -/
theorem C48_buffer {t0 : ℚ} {os : List Op} {s : State} {outs : List Out}
    (h : exec (init t0) os = some (s, outs)) {q : Nat} {c : List ℚ} (hq : s.queues[q]? = some c) :
    c.length ≤ 1 :=
  (good_exec (good_init t0) h).small c (List.mem_of_getElem? hq)

/-- C48: what the users of a ticker get is as in `Spec.Ticker`: one tick, with the time the clock is
set to, whenever a point of the grid is passed for the first time, unless the last tick has not been
read. -/
theorem C48_alone {t0 d : ℚ} {pre post : List Op} {s : State} {outs : List Out} (hd : 0 < d)
    (h : exec (init t0) (pre ++ .newTicker d :: post) = some (s, outs)) :
    let start := lastTime t0 pre
    let v := Ticker.exec (made pre) start d ⟨start, start, []⟩ post
    s.queues[made pre]? = some v.1.queue ∧ agree (outs.drop (pre.length + 1)) v.2 := by
  obtain ⟨a, b, out, h1, h2, h3, h4, h5, -⟩ := split h
  have := sees_ticker_new h1 d h4
  rw [h3, h2] at this
  obtain ⟨i1, i2⟩ := sees_ticker_exec hd (good_run h1 h4) this h5
  exact ⟨i1.queue, i2⟩

private theorem high_eq (q : Nat) (start d : ℚ) (v : Ticker) (os : List Op) :
    (v.exec q start d os).1.high = (times v.now os).foldl max v.high := by
  induction os generalizing v with
  | nil => rfl
  | cons o os ih =>
    simp only [Ticker.exec]
    rw [ih]
    cases o with
    | recv q' =>
      simp only [Ticker.run, times]
      split
      · split <;> rfl
      · rfl
    | _ => rfl

private theorem le_foldl_max (l : List ℚ) (x : ℚ) : x ≤ l.foldl max x := by
  induction l generalizing x with
  | nil => exact le_rfl
  | cons y l ih => exact le_trans (le_max_left x y) (ih (max x y))

/-- C48: a ticker always has exactly one next tick, and that lies in the future, on the original grid,
and is the first such point after all times there have been since it was made. -/
theorem C48_next {t0 d : ℚ} {pre post : List Op} {s : State} {outs : List Out} (hd : 0 < d)
    (h : exec (init t0) (pre ++ .newTicker d :: post) = some (s, outs)) :
    let start := lastTime t0 pre
    let latest := (times start post).foldl max start
    ∃ w n, s.waiters.filter (fun w => w.queue == made pre) = [w] ∧
      w.target = start + (n : Nat) * d ∧ 1 ≤ n ∧ s.time < w.target ∧ latest < w.target ∧
      w.target - d ≤ latest := by
  obtain ⟨a, b, out, h1, h2, h3, h4, h5, -⟩ := split h
  have hb := sees_ticker_new h1 d h4
  rw [h3, h2] at hb
  obtain ⟨i1, -⟩ := sees_ticker_exec hd (good_run h1 h4) hb h5
  have hhigh := high_eq (made pre) (lastTime t0 pre) d ⟨lastTime t0 pre, lastTime t0 pre, []⟩ post
  simp only at hhigh
  obtain ⟨j1, -, j3, j4⟩ := i1
  rw [hhigh] at j3 j4
  intro start latest
  have hlat : start ≤ latest := le_foldl_max _ _
  have hn0 : 0 ≤ ticks start d latest := by
    rw [le_ticks hd]
    simpa using hlat
  have hgood := good_exec (good_run h1 h4) h5
  obtain ⟨hmem, -⟩ := (mem_iff_find hgood.nodup).1 j3
  have hlt : latest < start + (ticks start d latest + 1) * d := by
    have : ¬ (ticks start d latest + 1 ≤ ticks start d latest) := by omega
    rw [le_ticks hd] at this
    push_cast at this
    exact not_le.1 this
  refine ⟨⟨start + (ticks start d latest + 1) * d, made pre, d, true⟩,
    (ticks start d latest + 1).toNat, ?_, ?_, by omega, ?_, hlt, ?_⟩
  · have hnd := hgood.nodup
    generalize s.waiters = ws at hmem hnd
    clear * - hmem hnd
    induction ws with
    | nil => simp at hmem
    | cons u ws ih =>
      simp only [List.map_cons, List.nodup_cons] at hnd
      rcases List.mem_cons.1 hmem with he | hm
      · subst he
        rw [List.filter_cons, if_pos (by simp)]
        congr 1
        rw [List.filter_eq_nil_iff]
        intro x hx
        simp only [beq_iff_eq]
        intro hq
        exact hnd.1 (List.mem_map.2 ⟨x, hx, hq⟩)
      · have hne : u.queue ≠ made pre := fun he =>
          hnd.1 (List.mem_map.2 ⟨_, hm, he.symm⟩)
        rw [List.filter_cons, if_neg (by simpa using hne)]
        exact ih hm hnd.2
  · have : (((ticks start d latest + 1).toNat : ℤ) : ℚ) = ((ticks start d latest + 1 : ℤ) : ℚ) := by
      rw [Int.toNat_of_nonneg (by omega)]
    simp only [Int.cast_natCast] at this
    rw [this]
    push_cast
    ring
  · rw [j1]
    exact lt_of_le_of_lt j4 hlt
  · have := (le_ticks (start := start) (t := latest) hd (ticks start d latest)).1 le_rfl
    show start + (ticks start d latest + 1) * d - d ≤ latest
    linarith

/-- Why C48 is about positive intervals: with a negative one the loop of lines 97-98 does not end,
however long it runs, at the first change of the time that reaches the first tick, and the clock's
lock stays taken. -/
theorem C48_negative {t0 d t : ℚ} (hd : d < 0) (ht : t0 + d ≤ t) :
    exec (init t0) [.newTicker d, .setTime t] = none ∧
      ∀ n, catchUp t d n (t0 + d) = none := by
  refine ⟨?_, fun n => catchUp_neg hd n ht⟩
  simp [exec, run, setTimeLocked, init, fireAll, fireCell, ht, hd.ne, catchUp_neg hd _ ht]

private theorem toNat_lits : Int.toNat 4 = 4 ∧ Int.toNat 2 = 2 ∧ Int.toNat 3 = 3 ∧
    Int.toNat 1 = 1 ∧ Int.toNat 5 = 5 := by decide

/-! ### Cases that meet the hypotheses -/

/-- A timer for 5, made at time 1 beside a ticker; the time passes 6 at 7; the timer is read. -/
example : exec (init 0) ([.newTicker 2, .setTime 1] ++ .newTimer 5 :: [.step 4, .step 2, .recv 1,
      .step 9]) =
    some (⟨16, [⟨18, 0, 2, true⟩], [[5], []]⟩, [.none, .none, .none, .none, .none, .time 7, .none]) ∧
    (∀ o ∈ [Op.step 4, .step 2, .recv 1, .step 9], touches 1 o = false) := by
  refine ⟨?_, by simp [touches]⟩
  norm_num [exec, run, setTimeLocked, init, fireAll, fireCell, catchUp, rounds, toNat_lits]

/-- A timer is stopped in time; a second `stop` reports `False`. -/
example : exec (init 0) ([] ++ .newTimer 5 :: ([.step 4] ++ .stop 0 :: [.step 9, .stop 0])) =
    some (⟨13, [], [[]]⟩, [.none, .none, .bool true, .none, .bool false]) := by
  norm_num [exec, run, setTimeLocked, init, fireAll, fireCell, catchUp, rounds, toNat_lits]

/-- A timer is reset at 4 for 14. -/
example : exec (init 0) ([] ++ .newTimer 5 :: ([.step 4] ++ .reset 0 10 :: [.step 9, .step 1])) =
    some (⟨14, [], [[14]]⟩, [.none, .none, .bool true, .none, .none]) ∧
    ∀ t ∈ times 0 [.step 4], t < 0 + (5 : ℚ) := by
  constructor
  · norm_num [exec, run, setTimeLocked, init, fireAll, fireCell, catchUp, rounds, resetFirst]
  · norm_num [times]

/-- A ticker with interval 2 jumps over several points of its grid. -/
example : exec (init 1) ([] ++ .newTicker 2 :: [.setTime 8, .recv 0, .setTime 2]) =
    some (⟨2, [⟨9, 0, 2, true⟩], [[]]⟩, [.none, .none, .time 8, .none]) := by
  norm_num [exec, run, setTimeLocked, init, fireAll, fireCell, catchUp, rounds, toNat_lits]

example : ∀ d, Op.newTicker d ∈ [Op.newTicker 2, .setTime 8, .newTicker 0] → 0 ≤ d := by
  intro d h
  simp at h
  rcases h with rfl | rfl <;> norm_num

end Aiok8s.FakeClock
