import Verif.Proof.Listener
/-!
# C37: a listener delivers notifications once and in order; C62: slow handlers
-/
set_option linter.unusedSimpArgs false
namespace Aiok8s.Listener
open Spec
variable {N : Type}

private theorem nostop_step {s s' : State N} {a : Act N} {c : Option N} (ha : a ≠ .stop)
    (h1 : step s a = some (s', c)) (h : s.stopAdd = false) : s'.stopAdd = false := by
  cases a with
  | stop => exact absurd rfl ha
  | put | getTask | putTask | popResume | joined | runGet | runResume | handlerEnds | wake =>
    simp only [step] at h1
    repeat' split at h1
    all_goals simp at h1
    all_goals (obtain ⟨rfl, -⟩ := h1; exact h)

private theorem nostop_exec (as : List (Act N)) : ∀ {s s' : State N} {cs : List N},
    Act.stop ∉ as → exec s as = some (s', cs) → s.stopAdd = false → s'.stopAdd = false := by
  induction as with
  | nil => intro s s' cs _ he h; simp [exec] at he; obtain ⟨rfl, -⟩ := he; exact h
  | cons a as ih =>
    intro s s' cs ha he h
    simp only [List.mem_cons, not_or] at ha
    obtain ⟨s1, c, cs', h1, h2, -⟩ := exec_cons he
    exact ih ha.2 h2 (nostop_step (fun h => ha.1 h.symm) h1 h)

private theorem running {as : List (Act N)} {s : State N} {cs : List N} (ha : Act.stop ∉ as)
    (h : exec init as = some (s, cs)) : s.popEnded = false := by
  cases hp : s.popEnded with
  | false => rfl
  | true =>
    have := (inv_exec as inv_init h).stop hp
    rw [nostop_exec as ha h rfl] at this
    simp at this

/-- **C37**: before a stop, whatever the interleaving of producer, buffer and handler and whatever
handler calls raise: what the handler has been called with, followed by what is in flight, is
exactly the sequence of accepted notifications. -/
theorem C37_order (as : List (Act N)) (s : State N) (cs : List N) (ha : Act.stop ∉ as)
    (h : exec init as = some (s, cs)) : cs ++ inFlight s = accepted as := by
  have := flow_exec as inv_init h (running ha h)
  simpa [inFlight, init] using this

/-- **C37**, also with a stop at any moment: the handler is called with the accepted notifications
in order, none twice and none left out before the last. -/
theorem C37_prefix (as : List (Act N)) (s : State N) (cs : List N)
    (h : exec init as = some (s, cs)) : cs <+: accepted as := by
  have := prefix_exec as inv_init h rfl
  simpa [inFlight, init] using this

/-- **C37**: nothing gets stuck.  At any moment before a stop there is a bound on what tasks and
handler can go on to do without new notifications, and when they can do no more, the handler has
been called with everything accepted. -/
theorem C37_delivered (as : List (Act N)) (s : State N) (cs : List N) (ha : Act.stop ∉ as)
    (h : exec init as = some (s, cs)) :
    ∃ bound, ∀ (bs : List (Act N)) (s' : State N) (ds : List N), (∀ b ∈ bs, Act.internal b) →
      exec s bs = some (s', ds) →
      bs.length ≤ bound ∧
      ((∀ b, Act.internal b → step s' b = none) → cs ++ ds = accepted as) := by
  have hi := inv_exec as inv_init h
  refine ⟨work s, fun bs s' ds hb hx => ?_⟩
  have hw := work_exec bs hi hb hx
  refine ⟨by omega, fun hq => ?_⟩
  have hbs : Act.stop ∉ bs := fun hc => by simpa [Act.internal] using hb _ hc
  have hi' := inv_exec bs hi hx
  have hrun := nostop_exec bs hbs hx (nostop_exec as ha h rfl)
  have hpe : s'.popEnded = false := by
    cases hp : s'.popEnded with
    | false => rfl
    | true => have := hi'.stop hp; rw [hrun] at this; simp at this
  have hflow := flow_exec bs hi hx hpe
  have hacc : accepted bs = [] := by
    clear hq hi' hrun hpe hflow hw hx hbs
    induction bs with
    | nil => rfl
    | cons b bs ih =>
      have := hb b (by simp)
      cases b <;> simp [Act.internal] at this <;>
        simpa [accepted] using ih fun b hb' => hb b (by simp [hb'])
  have hfl : inFlight s' = [] := by
    obtain ⟨addQ, got, cur, pd, jn, pend, nextQ, run, sa, pe⟩ := s'
    obtain ⟨h1, h2, h3, h4, h5, h6, h7, h8, h9⟩ := hi'
    simp only at h1 h2 h3 h4 h5 h6 h7 h8 h9 hrun hpe
    subst hrun hpe
    have q1 := hq .getTask rfl
    have q2 := hq .putTask rfl
    have q3 := hq .popResume rfl
    have q4 := hq .joined rfl
    have q5 := hq .runGet rfl
    have q6 := hq .runResume rfl
    have q7 := hq (.handlerEnds true) rfl
    have q8 := hq .wake rfl
    clear hq
    cases run with
    | got n => simp [step] at q6
    | handling n => simp [step] at q7
    | sleeping => simp [step] at q8
    | ended => simp at h8
    | waiting =>
      cases nextQ with
      | cons n r => simp [step] at q5
      | nil =>
        cases jn with
        | true => simp [step] at q4
        | false =>
          simp [step] at q3
          obtain ⟨rfl, rfl⟩ := q3
          cases cur with
          | some n => simp [step] at q2
          | none =>
            cases addQ with
            | cons n r => simp [step] at q1
            | nil => simp [inFlight, h4]
  have horder := C37_order as s cs ha h
  rw [hfl, hacc, List.append_nil, List.append_nil] at hflow
  rw [hflow, horder]

/-- **C37**: after a stop has been noticed the handler is not called any more. -/
theorem C37_stopped (bs : List (Act N)) (s s1 s2 : State N) (ds : List N) (c : Option N)
    (hst : s.stopAdd = true)
    (hp : step s .popResume = some (s1, c)) (hx : exec s1 bs = some (s2, ds)) :
    c = none ∧ ds = [] := by
  simp only [step, hst, if_true] at hp
  split at hp
  · simp at hp
  · simp at hp
    obtain ⟨rfl, rfl⟩ := hp
    exact ⟨rfl, (ended_exec bs rfl hx).2⟩

/-- Four notifications while the first call lasts (it raises in the end): two are buffered. -/
example : ∃ s : State Nat, exec init [.put 1, .getTask, .popResume, .putTask, .popResume, .runGet,
      .runResume, .joined, .put 2, .getTask, .popResume, .put 3, .getTask, .put 4, .popResume] =
        some (s, [1]) ∧ inFlight s = [2, 3, 4] ∧
    ∃ s', exec s [.handlerEnds false, .putTask, .popResume, .wake, .runGet, .runResume] =
      some (s', [2]) ∧ inFlight s' = [3, 4] :=
  ⟨_, rfl, rfl, _, rfl, rfl⟩

/-! ## C62 -/

/-- **C62** is false: a call that does not end blocks `_add` and so everyone else.  Here a handler
is in its first call; two more notifications fill buffer and queues, and nothing the listener's own
tasks do, in any order and for any length, lets `_add` accept the fourth. -/
theorem C62_refuted : ∃ (as : List (Act Nat)) (s : State Nat),
    exec init as = some (s, [1]) ∧ Act.stop ∉ as ∧ accepted as = [1, 2, 3] ∧
    ∀ (bs : List (Act Nat)) (s' : State Nat) (ds : List Nat), (∀ b ∈ bs, Act.own b) →
      exec s bs = some (s', ds) → s' = s ∧ ∀ n, step s' (.put n) = none := by
  refine ⟨[.put 1, .getTask, .popResume, .putTask, .popResume, .runGet, .runResume, .joined,
    .put 2, .getTask, .popResume, .putTask, .popResume, .put 3], _, rfl, by decide, rfl, ?_⟩
  intro bs s' ds hb hx
  cases bs with
  | nil => simp [exec] at hx; obtain ⟨rfl, -⟩ := hx; exact ⟨rfl, fun _ => rfl⟩
  | cons b bs =>
    exfalso
    obtain ⟨s1, c, cs', h1, -⟩ := exec_cons hx
    have := hb b (by simp)
    cases b <;> simp [Act.own] at this <;> simp [step] at h1

/-- **C62**, what does hold: while the second queue is empty, also during a call, the listener's own
tasks get to a state in which `_add` is accepted and then taken over, so that `_add` returns.
Missing: the second queue filled by an earlier notification, see `C62_refuted`. -/
theorem C62_partial (as : List (Act N)) (s : State N) (cs : List N) (ha : Act.stop ∉ as)
    (h : exec init as = some (s, cs)) (hn : s.nextQ = []) (n : N) :
    ∃ (bs : List (Act N)) (s' : State N), (∀ b ∈ bs, Act.own b) ∧ exec s bs = some (s', []) ∧
      s'.run = s.run ∧ ∃ s2 s3, step s' (.put n) = some (s2, none) ∧
        step s2 .getTask = some (s3, none) ∧ s3.addQ = [] := by
  have hi := inv_exec as inv_init h
  have hpe := running ha h
  have hsa := nostop_exec as ha h rfl
  obtain ⟨addQ, got, cur, pd, jn, pend, nextQ, run, sa, pe⟩ := s
  obtain ⟨h1, h2, h3, h4, h5, h6, h7, h8, h9⟩ := hi
  simp only at h1 h2 h3 h4 h5 h6 h7 h8 h9 hn hpe hsa
  subst hn hpe hsa
  -- get out of `join`, empty `got`, take what is in the first queue, empty `got` again
  have key : ∀ (addQ : List N) (got cur : Option N) (pd : Bool) (pend : List N),
      addQ.length ≤ 1 → ∃ (bs : List (Act N)) (s' : State N), (∀ b ∈ bs, Act.own b) ∧
        exec ⟨addQ, got, cur, pd, false, pend, [], run, false, false⟩ bs = some (s', []) ∧
        s'.run = run ∧ s'.addQ = [] ∧ s'.got = none ∧ s'.joining = false ∧ s'.popEnded = false := by
    intro addQ got cur pd pend hlen
    -- with `got` empty and no put pending
    have fin : ∀ (addQ : List N) (cur : Option N) (pend : List N), addQ.length ≤ 1 →
        ∃ (bs : List (Act N)) (s' : State N), (∀ b ∈ bs, Act.own b) ∧
        exec ⟨addQ, none, cur, false, false, pend, [], run, false, false⟩ bs = some (s', []) ∧
        s'.run = run ∧ s'.addQ = [] ∧ s'.got = none ∧ s'.joining = false ∧ s'.popEnded = false := by
      intro addQ cur pend hlen
      cases addQ with
      | nil => exact ⟨[], _, by simp, rfl, rfl, rfl, rfl, rfl, rfl⟩
      | cons m r =>
        cases r with
        | cons _ _ => simp at hlen
        | nil =>
          refine ⟨[.getTask, .popResume], _, ?_, rfl, rfl, rfl, rfl, rfl, rfl⟩
          intro b hb; simp at hb; rcases hb with rfl | rfl <;> rfl
    cases pd with
    | true =>
      obtain ⟨bs, s', hb, hx, hr⟩ := fin addQ
        (takeGot ⟨addQ, got, cur, true, false, pend, [], run, false, false⟩).2.head?
        (takeGot ⟨addQ, got, cur, true, false, pend, [], run, false, false⟩).2.tail hlen
      refine ⟨.popResume :: .joined :: bs, s', ?_, ?_, hr⟩
      · intro b hb'; simp at hb'
        rcases hb' with rfl | rfl | hb'
        · rfl
        · rfl
        · exact hb b hb'
      · simp [exec, step, hx]
    | false =>
      cases got with
      | none => exact fin addQ cur pend hlen
      | some m =>
        obtain ⟨bs, s', hb, hx, hr⟩ := fin addQ
          (takeGot ⟨addQ, some m, cur, false, false, pend, [], run, false, false⟩).1
          (takeGot ⟨addQ, some m, cur, false, false, pend, [], run, false, false⟩).2 hlen
        refine ⟨.popResume :: bs, s', ?_, ?_, hr⟩
        · intro b hb'; simp at hb'
          rcases hb' with rfl | hb'
          · rfl
          · exact hb b hb'
        · simp [exec, step, hx]
  have done : ∀ s' : State N, s'.addQ = [] → s'.got = none → s'.joining = false →
      s'.popEnded = false → ∃ s2 s3, step s' (.put n) = some (s2, none) ∧
        step s2 .getTask = some (s3, none) ∧ s3.addQ = [] := by
    intro s' e1 e2 e3 e4
    exact ⟨{ s' with addQ := [n] }, { s' with addQ := [], got := some n }, by simp [step, e1],
      by simp [step, e2, e3, e4], rfl⟩
  cases jn with
  | false =>
    obtain ⟨bs, s', hb, hx, hr, e1, e2, e3, e4⟩ := key addQ got cur pd pend h5
    exact ⟨bs, s', hb, hx, hr, done s' e1 e2 e3 e4⟩
  | true =>
    obtain ⟨bs, s', hb, hx, hr, e1, e2, e3, e4⟩ := key addQ got pend.head? pd pend.tail h5
    refine ⟨.joined :: bs, s', ?_, ?_, hr, done s' e1 e2 e3 e4⟩
    · intro b hb'; simp at hb'
      rcases hb' with rfl | hb'
      · rfl
      · exact hb b hb'
    · simp [exec, step, hx]

/-- The hypotheses of `C62_partial` with a call running. -/
example : ∃ s : State Nat, exec init [.put 1, .getTask, .popResume, .putTask, .popResume, .runGet,
      .runResume, .put 2] = some (s, [1]) ∧ s.nextQ = [] ∧ s.run = .handling 1 ∧ s.addQ = [2] :=
  ⟨_, rfl, rfl, rfl, rfl⟩

end Aiok8s.Listener
