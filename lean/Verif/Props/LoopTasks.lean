import Verif.Spec.LoopTasks
import Mathlib.Tactic.Linarith
import Mathlib.Tactic.Positivity
/-!
# C93: what a loop leaves behind when it ends
-/
namespace Aiok8s.LoopTasks
open Aiok8s

/-- Which rounds may still be waited for by a task, and whether the stop task waits. -/
private structure Inv (c : Cfg) (s : State) : Prop where
  tail : ∀ t ∈ s.rounds.tail, t.getting = false
  headq : s.phase ≠ .waiting → (∀ u, s.phase ≠ .ended .cancelled u) → ∀ t ∈ s.rounds, t.getting = false
  only : ∀ t ∈ s.rounds, t.getting = true → c.withStop = true ∧ t.fired = false
  stop : s.stop = .pending → c.withStop = true ∧ s.isSet = false
  idle : s.phase = .idle → s.rounds = [] ∧ s.stop = .none
  fin : ∀ u, s.phase = .ended .stopped u → s.stop ≠ .pending
  none_ : c.withStop = false → s.stop = .none
  started : c.withStop = true → s.phase ≠ .idle → s.stop ≠ .none

private theorem inv_init (c : Cfg) (now : ℚ) (b : Bool) : Inv c (init now b) := by
  constructor <;> simp [init]

private theorem fire_getting {now : ℚ} {t : Round} (h : (fire now t).getting = true) :
    t.getting = true ∧ (fire now t).fired = t.fired := by
  unfold fire at h ⊢
  split at h
  · simp at h
  · rename_i hn; rw [if_neg hn]; exact ⟨h, rfl⟩

private theorem fire_quiet {now : ℚ} {t : Round} (h : t.getting = false) : (fire now t).getting = false := by
  unfold fire; split <;> simp [h]

private theorem inv_head {c : Cfg} {s : State} (r : ℚ) (hg : ∀ t ∈ s.rounds, t.getting = false)
    (hs : s.stop = .pending → c.withStop = true ∧ s.isSet = false)
    (hn : c.withStop = false → s.stop = .none) (hst : c.withStop = true → s.stop ≠ .none) : Inv c (head c s r) := by
  unfold head
  split
  · rename_i hc
    simp only [Bool.and_eq_true] at hc
    constructor
    · intro t ht; exact hg t (List.mem_of_mem_tail ht)
    · intro _ _ t ht; exact hg t ht
    · intro t ht h; rw [hg t ht] at h; simp at h
    · exact hs
    · simp
    · intro _ _ h; have := (hs h).2; simp_all
    · exact hn
    · intro h _; exact hst h
  · have hg' : ∀ t ∈ (begin_ c s r).rounds, t.getting = false := by
      intro t ht
      simp only [begin_] at ht
      split at ht
      · exact hg t ht
      · rcases List.mem_cons.1 ht with rfl | ht
        · rfl
        · exact hg t ht
    constructor
    · intro t ht; exact hg' t (List.mem_of_mem_tail ht)
    · intro _ _ t ht; exact hg' t ht
    · intro t ht h; rw [hg' t ht] at h; simp at h
    · exact hs
    · simp [begin_]
    · simp [begin_]
    · exact hn
    · intro h _; exact hst h

private theorem inv_step {c : Cfg} {s : State} (h : Inv c s) (e : Ev) : Inv c (step c s e) := by
  cases e with
  | start r =>
    simp only [step]
    split
    · rename_i hp
      obtain ⟨h1, h2⟩ := h.idle hp
      apply inv_head
      · simp [h1]
      · cases c.withStop <;> cases hh : s.isSet <;> simp [hh]
      · intro hw; simp [hw]
      · intro hw; simp only [hw, if_true]; split <;> simp
    · exact h
  | tick d =>
    simp only [step]
    constructor
    · intro t ht
      simp only [← List.map_tail] at ht
      obtain ⟨t', ht', rfl⟩ := List.mem_map.1 ht
      exact fire_quiet (h.tail t' ht')
    · intro h1 h2 t ht
      obtain ⟨t', ht', rfl⟩ := List.mem_map.1 ht
      exact fire_quiet (h.headq h1 h2 t' ht')
    · intro t ht hg
      obtain ⟨t', ht', rfl⟩ := List.mem_map.1 ht
      obtain ⟨h1, h2⟩ := fire_getting hg
      rw [h2]
      exact h.only t' ht' h1
    · exact h.stop
    · intro hp; obtain ⟨h1, h2⟩ := h.idle hp; simp [h1, h2]
    · exact h.fin
    · exact h.none_
    · exact h.started
  | set =>
    obtain ⟨a1, a2, a3, a4, a5, a6, a7, a8⟩ := h
    simp only [step]
    refine ⟨a1, a2, a3, ?_, ?_, ?_, ?_, ?_⟩
    · cases hs : s.stop <;> simp
    · intro hp; obtain ⟨h1, h2⟩ := a5 hp; simp [h1, h2]
    · intro u hu; have := a6 u hu; cases hs : s.stop <;> simp
    · intro hw; simp [a7 hw]
    · intro hw hp; have := a8 hw hp; cases hs : s.stop <;> simp_all
  | clear =>
    obtain ⟨a1, a2, a3, a4, a5, a6, a7, a8⟩ := h
    simp only [step]
    exact ⟨a1, a2, a3, fun hp => ⟨(a4 hp).1, rfl⟩, a5, a6, a7, a8⟩
  | returns =>
    simp only [step]
    split
    · rename_i p hp
      have hq := h.headq (by simp [hp]) (by simp [hp])
      have hall : ∀ t ∈ (if c.sliding then timer s.now p :: s.rounds else s.rounds), t.getting = false := by
        intro t ht
        split at ht
        · rcases List.mem_cons.1 ht with rfl | ht
          · rfl
          · exact hq t ht
        · exact hq t ht
      generalize (if c.sliding then timer s.now p :: s.rounds else s.rounds) = rs at hall
      constructor
      · intro t ht
        cases rs with
        | nil => simp [await_] at ht
        | cons t' ts => exact hall t (List.mem_cons_of_mem _ (by simpa [await_] using ht))
      · simp
      · intro t ht hg
        cases rs with
        | nil => simp [await_] at ht
        | cons t' ts =>
          simp only [await_] at ht
          rcases List.mem_cons.1 ht with rfl | ht
          · simpa using hg
          · rw [hall t (List.mem_cons_of_mem _ ht)] at hg; simp at hg
      · exact h.stop
      · simp
      · simp
      · exact h.none_
      · intro hw _; exact h.started hw (by simp [hp])
    · exact h
  | raises =>
    simp only [step]
    split
    · rename_i p hp
      have hq := h.headq (by simp [hp]) (by simp [hp])
      exact ⟨h.tail, fun _ _ => hq, h.only, h.stop, by simp, by simp, h.none_, fun hw _ => h.started hw (by simp [hp])⟩
    · exact h
  | wake r =>
    simp only [step]
    split
    · rename_i hp
      split
      · apply inv_head
        · intro t ht
          cases hr : s.rounds with
          | nil => simp [hr, cancelGet] at ht
          | cons t' ts =>
            simp only [hr, cancelGet] at ht
            rcases List.mem_cons.1 ht with rfl | ht
            · rfl
            · exact h.tail t (by simp [hr, ht])
        · exact h.stop
        · exact h.none_
        · intro hw; exact h.started hw (by simp [hp])
      · exact h
    · exact h
  | cancel =>
    simp only [step]
    split
    · rename_i p hp
      exact ⟨h.tail, by simp, h.only, h.stop, by simp, by simp, h.none_, fun hw _ => h.started hw (by simp [hp])⟩
    · rename_i hp
      exact ⟨h.tail, by simp, h.only, h.stop, by simp, by simp, h.none_, fun hw _ => h.started hw (by simp [hp])⟩
    · exact h

private theorem inv_run {c : Cfg} (es : List Ev) : ∀ {s : State}, Inv c s → Inv c (run c s es) := by
  induction es with
  | nil => intro s h; exact h
  | cons e es ih => intro s h; exact ih (inv_step h e)

/-- The timers of all rounds but the last have fired. -/
private structure Fired (c : Cfg) (s : State) : Prop where
  tail : ∀ t ∈ s.rounds.tail, t.fired = true
  call : c.sliding = true → (∀ p, s.phase = .calling p → ∀ t ∈ s.rounds, t.fired = true) ∧
    (∀ u, s.phase = .ended .raised u → ∀ t ∈ s.rounds, t.fired = true)
  done : s.stop = .done → s.isSet = true
  idle : s.phase = .idle → s.rounds = []
  none_ : c.withStop = false → s.stop = .none

private theorem fired_init (c : Cfg) (now : ℚ) (b : Bool) : Fired c (init now b) := by
  constructor <;> simp [init]

private theorem fire_fired {now : ℚ} {t : Round} (h : t.fired = true) : (fire now t).fired = true := by
  unfold fire; split <;> simp [h]

private theorem fired_head {c : Cfg} {s : State} (r : ℚ)
    (ht : (c.withStop && s.isSet) = true → ∀ t ∈ s.rounds.tail, t.fired = true)
    (hg : (c.withStop && s.isSet) = false → ∀ t ∈ s.rounds, t.fired = true)
    (hd : s.stop = .done → s.isSet = true) (hn : c.withStop = false → s.stop = .none) : Fired c (head c s r) := by
  unfold head
  split
  · rename_i hc
    exact ⟨ht hc, by simp, hd, by simp, hn⟩
  · rename_i hc
    have hg := hg (by simpa using hc)
    refine ⟨?_, ?_, hd, by simp [begin_], hn⟩
    · intro t h
      simp only [begin_] at h
      split at h
      · exact hg t (List.mem_of_mem_tail h)
      · exact hg t h
    · intro hsl
      simp only [begin_, hsl, if_true]
      exact ⟨fun _ _ => hg, by simp⟩

private theorem fired_step {c : Cfg} {s : State} (h : Fired c s) (e : Ev) (he : e ≠ .clear) :
    Fired c (step c s e) := by
  cases e with
  | clear => exact absurd rfl he
  | start r =>
    simp only [step]
    split
    · rename_i hp
      have h1 := h.idle hp
      apply fired_head
      · simp [h1]
      · simp [h1]
      · cases c.withStop <;> cases hh : s.isSet <;> simp [hh]
      · intro hw; simp [hw]
    · exact h
  | tick d =>
    simp only [step]
    refine ⟨?_, ?_, h.done, ?_, h.none_⟩
    · intro t ht
      simp only [← List.map_tail] at ht
      obtain ⟨t', ht', rfl⟩ := List.mem_map.1 ht
      exact fire_fired (h.tail t' ht')
    · intro hsl
      obtain ⟨h1, h2⟩ := h.call hsl
      constructor
      · intro p hp t ht
        obtain ⟨t', ht', rfl⟩ := List.mem_map.1 ht
        exact fire_fired (h1 p hp t' ht')
      · intro u hu t ht
        obtain ⟨t', ht', rfl⟩ := List.mem_map.1 ht
        exact fire_fired (h2 u hu t' ht')
    · intro hp; simp [h.idle hp]
  | set =>
    simp only [step]
    exact ⟨h.tail, h.call, fun _ => rfl, h.idle, fun hw => by simp [h.none_ hw]⟩
  | returns =>
    simp only [step]
    split
    · rename_i p hp
      refine ⟨?_, by simp, h.done, by simp, h.none_⟩
      intro t ht
      cases hsl : c.sliding with
      | true =>
        simp only [hsl, if_true, await_, List.tail_cons] at ht
        exact (h.call hsl).1 p hp t ht
      | false =>
        simp only [hsl] at ht
        cases hr : s.rounds with
        | nil => simp [hr, await_] at ht
        | cons t' ts =>
          simp only [hr, await_] at ht
          exact h.tail t (by simpa [hr] using ht)
    · exact h
  | raises =>
    simp only [step]
    split
    · rename_i p hp
      exact ⟨h.tail, fun hsl => ⟨by simp, fun _ _ => (h.call hsl).1 p hp⟩, h.done, by simp, h.none_⟩
    · exact h
  | wake r =>
    simp only [step]
    split
    · split
      · rename_i ho
        have htl : ∀ t ∈ (cancelGet s.rounds).tail, t.fired = true := by
          intro t ht
          cases hr : s.rounds with
          | nil => simp [hr, cancelGet] at ht
          | cons t' ts =>
            simp only [hr, cancelGet] at ht
            exact h.tail t (by simpa [hr] using ht)
        apply fired_head
        · intro _; exact htl
        · intro hn t ht
          have hnd : s.stop ≠ .done := by
            intro hd
            have h1 := h.done hd
            cases hw : c.withStop with
            | false => rw [h.none_ hw] at hd; simp at hd
            | true => simp [hw, h1] at hn
          cases hr : s.rounds with
          | nil => simp [hr, cancelGet] at ht
          | cons t' ts =>
            simp only [hr, cancelGet] at ht
            rcases List.mem_cons.1 ht with rfl | ht
            · simpa [over, hr, hnd] using ho
            · exact h.tail t (by simp [hr, ht])
        · exact h.done
        · exact h.none_
      · exact h
    · exact h
  | cancel =>
    simp only [step]
    split
    · exact ⟨h.tail, by simp, h.done, by simp, h.none_⟩
    · exact ⟨h.tail, by simp, h.done, by simp, h.none_⟩
    · exact h

private theorem fired_run {c : Cfg} (es : List Ev) (hn : NeverCleared es) : ∀ {s : State}, Fired c s →
    Fired c (run c s es) := by
  induction es with
  | nil => intro s h; exact h
  | cons e es ih =>
    intro s h
    exact ih (fun hm => hn (List.mem_cons_of_mem _ hm))
      (fired_step h e (fun he => hn (by simp [he])))

private theorem count_getting {rs : List Round} (h : ∀ t ∈ rs.tail, t.getting = false) :
    (rs.filter (·.getting)).length ≤ 1 := by
  cases rs with
  | nil => simp
  | cons t ts =>
    have : ts.filter (·.getting) = [] := by
      rw [List.filter_eq_nil_iff]; intro t ht; simp [h t (by simpa using ht)]
    simp only [List.filter_cons, this]
    split <;> simp

private theorem count_sleeping {rs : List Round} (h : ∀ t ∈ rs.tail, t.fired = true) :
    (rs.filter (!·.fired)).length ≤ 1 := by
  cases rs with
  | nil => simp
  | cons t ts =>
    have : ts.filter (!·.fired) = [] := by
      rw [List.filter_eq_nil_iff]; intro t ht; simp [h t (by simpa using ht)]
    simp only [List.filter_cons, this]
    split <;> simp

/-- **C93 is false**: `jitter_until` ends because the event is set, and the timer of its last round sleeps
on; for every period, however long. -/
theorem C93_refuted_stopped (p : ℚ) (hp : 0 < p) (factor : ℚ) (hf : factor ≤ 0) (now : ℚ) :
    let s := run ⟨p, factor, true, true⟩ (init now false) [.start 0, .returns, .set, .wake 0]
    s.phase = .ended .stopped now ∧ live s = [.timer (now + p)] := by
  have h1 : ¬ factor > 0 := not_lt.2 hf
  have h2 : ¬ p ≤ 0 := not_le.2 hp
  simp [run, step, init, head, begin_, jittered, Loops.jittered, h1, await_, timer, h2, over, cancelGet, live,
    max_eq_right hp.le]

/-- **C93 is false**: `f` raises, or the loop is cancelled, and the task that waits for the stop event is
left; it waits for as long as nobody sets the event, whatever else happens and however long. -/
theorem C93_refuted_forever (c : Cfg) (hc : c.withStop = true) (now r : ℚ) (e : Ev)
    (he : e = .raises ∨ e = .cancel) (es : List Ev) (hs : Ev.set ∉ es) :
    let s := run c (init now false) ([.start r, e] ++ es)
    Task.stop ∈ live s ∧ ∃ x, s.phase = .ended x now := by
  have h0 : ∀ (es : List Ev), Ev.set ∉ es → ∀ (s : State) (x : End), s.stop = .pending → s.phase = .ended x now →
      (run c s es).stop = .pending ∧ (run c s es).phase = .ended x now := by
    intro es
    induction es with
    | nil => intro _ s x h1 h2; exact ⟨h1, h2⟩
    | cons e es ih =>
      intro hs s x h1 h2
      have : (step c s e).stop = .pending ∧ (step c s e).phase = .ended x now := by
        cases e with
        | set => simp at hs
        | _ => simp [step, h1, h2]
      exact ih (fun hm => hs (List.mem_cons_of_mem _ hm)) _ x this.1 this.2
  intro s
  have hstart : ∃ x, (run c (init now false) [.start r, e]).phase = .ended x now ∧
      (run c (init now false) [.start r, e]).stop = .pending := by
    rcases he with rfl | rfl
    · exact ⟨.raised, by simp [run, step, init, head, begin_, hc]⟩
    · exact ⟨.cancelled, by simp [run, step, init, head, begin_, hc]⟩
  obtain ⟨x, h1, h2⟩ := hstart
  have h3 := h0 es hs _ x h2 h1
  have hrun : s = run c (run c (init now false) [.start r, e]) es := by
    simp only [s, run, List.foldl_append]
  rw [hrun]
  exact ⟨by simp [live, h3.1], x, h3.2⟩

/-- **C93 is false**, and the period is not kept either: once the event has been set and cleared again
before the loop looked, it never waits again.  It calls `f` as often as one likes in no time at all, and
leaves the timer of every call behind. -/
theorem C93_refuted_cleared (p : ℚ) (hp : 0 < p) (factor : ℚ) (hf : factor ≤ 0) (now : ℚ) (n : Nat) :
    ∃ es, (∀ e ∈ es, ∀ d, e ≠ .tick d) ∧
      let s := run ⟨p, factor, true, true⟩ (init now false) es
      s.now = now ∧ s.calls = n + 1 ∧ live s = List.replicate n (.timer (now + p)) := by
  have h1 : ¬ factor > 0 := not_lt.2 hf
  have h2 : ¬ p ≤ 0 := not_le.2 hp
  refine ⟨[.start 0, .set, .clear] ++ (List.replicate n [Ev.returns, .wake 0]).flatten, ?_, ?_⟩
  · intro e he d
    simp only [List.mem_append, List.mem_flatten, List.mem_replicate] at he
    rcases he with he | ⟨l, ⟨-, rfl⟩, he⟩ <;> (simp at he; rcases he with rfl | rfl | rfl <;> simp)
  · have h0 : ∀ (n m : Nat), run ⟨p, factor, true, true⟩
        ⟨now, false, .done, List.replicate m ⟨now + p, false, false⟩, .calling p, m + 1⟩
        (List.replicate n [Ev.returns, .wake 0]).flatten =
        ⟨now, false, .done, List.replicate (m + n) ⟨now + p, false, false⟩, .calling p, m + n + 1⟩ := by
      intro n
      induction n with
      | zero => intro m; simp [run]
      | succ n ih =>
        intro m
        rw [List.replicate_succ, List.flatten_cons, run, List.foldl_append]
        have : List.foldl (step ⟨p, factor, true, true⟩)
            ⟨now, false, .done, List.replicate m ⟨now + p, false, false⟩, .calling p, m + 1⟩
            [Ev.returns, .wake 0] =
            ⟨now, false, .done, List.replicate (m + 1) ⟨now + p, false, false⟩, .calling p, m + 1 + 1⟩ := by
          simp [step, head, begin_, jittered, Loops.jittered, h1, await_, timer, h2, over, cancelGet,
            max_eq_right hp.le, List.replicate_succ]
        rw [this]
        have := ih (m + 1)
        rw [run] at this
        rw [this]
        simp [Nat.add_comm, Nat.add_left_comm]
    have hs : run ⟨p, factor, true, true⟩ (init now false) [.start 0, .set, .clear] =
        ⟨now, false, .done, List.replicate 0 ⟨now + p, false, false⟩, .calling p, 0 + 1⟩ := by
      simp [run, step, init, head, begin_, jittered, Loops.jittered, h1]
    have hrun : run ⟨p, factor, true, true⟩ (init now false)
        ([.start 0, .set, .clear] ++ (List.replicate n [Ev.returns, .wake 0]).flatten) =
        ⟨now, false, .done, List.replicate n ⟨now + p, false, false⟩, .calling p, n + 1⟩ := by
      have h3 := h0 n 0
      rw [← hs] at h3
      simp only [run, ← List.foldl_append] at h3 ⊢
      simpa using h3
    rw [hrun]
    simp [live, List.filter_replicate]

/-- **C93**, the part that holds: if nobody clears the event, a loop never has more than three tasks, before
its end or after it: the one that waits for the event, one timer, and one that waits for that timer;
`jitter_loop` never has more than the timer. -/
theorem C93_few_partial (c : Cfg) (now : ℚ) (b : Bool) (es : List Ev) (hn : NeverCleared es) :
    (live (run c (init now b) es)).length ≤ (if c.withStop then 3 else 1) := by
  have hi := inv_run es (inv_init c now b)
  have hf := fired_run es hn (fired_init c now b)
  generalize run c (init now b) es = s at *
  have h1 := count_sleeping hf.tail
  have h2 := count_getting hi.tail
  cases hw : c.withStop with
  | true =>
    simp only [live, List.length_append, List.length_map]
    split <;> simp <;> omega
  | false =>
    have h3 : s.rounds.filter (·.getting) = [] := by
      rw [List.filter_eq_nil_iff]
      intro t ht hg
      have := (hi.only t ht hg).1
      simp [hw] at this
    simp [live, hi.none_ hw, h3]
    omega

/-- **C93**, the part that holds: when the loop has ended because the event is set, only timers are left
(if nobody cleared the event, at most one). -/
theorem C93_stopped_partial (c : Cfg) (now : ℚ) (b : Bool) (es : List Ev) (u : ℚ)
    (h : (run c (init now b) es).phase = .ended .stopped u) :
    (∀ x ∈ live (run c (init now b) es), ∃ due, x = .timer due) ∧
    (NeverCleared es → (live (run c (init now b) es)).length ≤ 1) := by
  have hi := inv_run es (inv_init c now b)
  have hf := fun hn => fired_run es hn (fired_init c now b)
  generalize run c (init now b) es = s at *
  have h3 : s.rounds.filter (·.getting) = [] := by
    rw [List.filter_eq_nil_iff]
    intro t ht hg
    rw [hi.headq (by simp [h]) (by simp [h]) t ht] at hg
    simp at hg
  have h4 : live s = (s.rounds.filter (!·.fired)).map (.timer ·.due) := by
    simp [live, hi.fin u h, h3]
  rw [h4]
  refine ⟨?_, ?_⟩
  · intro x hx
    obtain ⟨t, -, rfl⟩ := List.mem_map.1 hx
    exact ⟨_, rfl⟩
  · intro hn
    rw [List.length_map]
    exact count_sleeping (hf hn).tail

/-- **C93**, the part that holds: when `f` raised in a loop that waits between the calls (`sliding`), only
the task that waits for the event is left, if nobody cleared the event. -/
theorem C93_raised_partial (c : Cfg) (hc : c.sliding = true) (now : ℚ) (b : Bool) (es : List Ev)
    (hn : NeverCleared es) (u : ℚ) (h : (run c (init now b) es).phase = .ended .raised u) :
    ∀ x ∈ live (run c (init now b) es), x = .stop := by
  have hi := inv_run es (inv_init c now b)
  have hf := fired_run es hn (fired_init c now b)
  generalize run c (init now b) es = s at *
  have h3 : s.rounds.filter (·.getting) = [] := by
    rw [List.filter_eq_nil_iff]
    intro t ht hg
    rw [hi.headq (by simp [h]) (by simp [h]) t ht] at hg
    simp at hg
  have h4 : s.rounds.filter (!·.fired) = [] := by
    rw [List.filter_eq_nil_iff]
    intro t ht
    simp [(hf.call hc).2 u h t ht]
  intro x hx
  simp only [live, h3, h4, List.map_nil, List.append_nil] at hx
  split at hx <;> simp_all

/-- Timers sleep no longer than the longest period. -/
private structure Due (c : Cfg) (s : State) : Prop where
  due : ∀ t ∈ s.rounds, t.fired = false → s.now < t.due ∧ t.due ≤ s.now + longest c
  fin : ∀ x u, s.phase = .ended x u → ∀ t ∈ s.rounds, t.fired = false → t.due ≤ u + longest c
  call : ∀ p, s.phase = .calling p → p ≤ longest c

private theorem jittered_le {c : Cfg} (hp : 0 ≤ c.period) {r : ℚ} (h : 0 ≤ r ∧ r ≤ 1) : jittered c r ≤ longest c := by
  simp only [jittered, Loops.jittered, longest]
  split
  · rename_i hf
    have hf' : ¬ c.factor ≤ 0 := not_le.2 hf
    simp only [Wait.jitter, if_neg hf', max_eq_right hf.le]
    have h1 : r * c.factor * c.period ≤ 1 * c.factor * c.period :=
      mul_le_mul_of_nonneg_right (mul_le_mul_of_nonneg_right h.2 hf.le) hp
    linarith
  · have : (0 : ℚ) ≤ max 0 c.factor * c.period := mul_nonneg (le_max_left _ _) hp
    linarith

private theorem longest_nonneg {c : Cfg} (hp : 0 ≤ c.period) : 0 ≤ longest c := by
  have : (0 : ℚ) ≤ max 0 c.factor * c.period := mul_nonneg (le_max_left _ _) hp
  simp only [longest]; linarith

private theorem timer_due {c : Cfg} (hp : 0 ≤ c.period) {now p : ℚ} (h : p ≤ longest c)
    (hf : (timer now p).fired = false) : now < (timer now p).due ∧ (timer now p).due ≤ now + longest c := by
  simp only [timer, decide_eq_false_iff_not, not_le] at hf ⊢
  rw [max_eq_right hf.le]
  constructor <;> linarith

private theorem due_head {c : Cfg} (hp : 0 ≤ c.period) {s : State} {r : ℚ} (hr : 0 ≤ r ∧ r ≤ 1)
    (h : ∀ t ∈ s.rounds, t.fired = false → s.now < t.due ∧ t.due ≤ s.now + longest c) : Due c (head c s r) := by
  unfold head
  split
  · refine ⟨h, ?_, by simp⟩
    intro x u hx t ht hf
    simp only [Phase.ended.injEq] at hx
    rw [← hx.2]
    exact (h t ht hf).2
  · refine ⟨?_, by simp [begin_], ?_⟩
    · intro t ht hf
      simp only [begin_] at ht
      split at ht
      · exact h t ht hf
      · rcases List.mem_cons.1 ht with rfl | ht
        · exact timer_due hp (jittered_le hp hr) hf
        · exact h t ht hf
    · intro p hpc
      simp only [begin_, Phase.calling.injEq] at hpc
      rw [← hpc]
      exact jittered_le hp hr

private theorem await_mem {c : Cfg} {rs : List Round} {t : Round} (h : t ∈ await_ c rs) :
    ∃ t' ∈ rs, t'.due = t.due ∧ t'.fired = t.fired := by
  cases rs with
  | nil => simp [await_] at h
  | cons a as =>
    rcases List.mem_cons.1 h with rfl | h
    · exact ⟨a, by simp, rfl, rfl⟩
    · exact ⟨t, List.mem_cons_of_mem _ h, rfl, rfl⟩

private theorem cancelGet_mem {rs : List Round} {t : Round} (h : t ∈ cancelGet rs) :
    ∃ t' ∈ rs, t'.due = t.due ∧ t'.fired = t.fired := by
  cases rs with
  | nil => simp [cancelGet] at h
  | cons a as =>
    rcases List.mem_cons.1 h with rfl | h
    · exact ⟨a, by simp, rfl, rfl⟩
    · exact ⟨t, List.mem_cons_of_mem _ h, rfl, rfl⟩

private theorem due_step {c : Cfg} (hp : 0 ≤ c.period) {s : State} (h : Due c s) (e : Ev) (he : Random e) :
    Due c (step c s e) := by
  cases e with
  | start r =>
    simp only [step]
    split
    · exact due_head hp he h.due
    · exact h
  | tick d =>
    have hd : (0 : ℚ) ≤ max 0 d := le_max_left _ _
    have hm : ∀ t ∈ s.rounds, (fire (s.now + max 0 d) t).fired = false →
        fire (s.now + max 0 d) t = t ∧ t.fired = false ∧ s.now + max 0 d < t.due := by
      intro t ht hf
      unfold fire at hf ⊢
      split at hf
      · simp at hf
      · rename_i hn
        rw [if_neg hn]
        exact ⟨rfl, hf, not_le.1 hn⟩
    simp only [step]
    refine ⟨?_, ?_, h.call⟩
    · intro t ht hf
      obtain ⟨t', ht', rfl⟩ := List.mem_map.1 ht
      obtain ⟨h1, h2, h3⟩ := hm t' ht' hf
      rw [h1]
      have := (h.due t' ht' h2).2
      exact ⟨h3, by linarith⟩
    · intro x u hx t ht hf
      obtain ⟨t', ht', rfl⟩ := List.mem_map.1 ht
      obtain ⟨h1, h2, h3⟩ := hm t' ht' hf
      rw [h1]
      exact h.fin x u hx t' ht' h2
  | set => exact ⟨h.due, h.fin, h.call⟩
  | clear => exact ⟨h.due, h.fin, h.call⟩
  | returns =>
    simp only [step]
    split
    · rename_i p hpc
      refine ⟨?_, by simp, by simp⟩
      intro t ht hf
      obtain ⟨t', ht', h1, h2⟩ := await_mem ht
      rw [← h1]
      rw [← h2] at hf
      split at ht'
      · rcases List.mem_cons.1 ht' with rfl | ht'
        · exact timer_due hp (h.call p hpc) hf
        · exact h.due t' ht' hf
      · exact h.due t' ht' hf
    · exact h
  | raises =>
    simp only [step]
    split
    · refine ⟨h.due, ?_, by simp⟩
      intro x u hx t ht hf
      simp only [Phase.ended.injEq] at hx
      rw [← hx.2]
      exact (h.due t ht hf).2
    · exact h
  | wake r =>
    simp only [step]
    split
    · split
      · apply due_head hp he
        intro t ht hf
        obtain ⟨t', ht', h1, h2⟩ := cancelGet_mem ht
        rw [← h1]
        rw [← h2] at hf
        exact h.due t' ht' hf
      · exact h
    · exact h
  | cancel =>
    have key : Due c { s with phase := .ended .cancelled s.now } := by
      refine ⟨h.due, ?_, by simp⟩
      intro x u hx t ht hf
      simp only [Phase.ended.injEq] at hx
      rw [← hx.2]
      exact (h.due t ht hf).2
    simp only [step]
    split
    · exact key
    · exact key
    · exact h

private theorem due_run {c : Cfg} (hp : 0 ≤ c.period) (es : List Ev) (hr : ∀ e ∈ es, Random e) :
    ∀ {s : State}, Due c s → Due c (run c s es) := by
  induction es with
  | nil => intro s h; exact h
  | cons e es ih =>
    intro s h
    exact ih (fun e he => hr e (List.mem_cons_of_mem _ he)) (due_step hp h e (hr e (by simp)))

/-- **C93**, the part that holds: however the loop ended, one longest period later at most the task that
waits for the event is left, and nothing at all if the event has been set. -/
theorem C93_gone_partial (c : Cfg) (hp : 0 ≤ c.period) (now : ℚ) (b : Bool) (es : List Ev)
    (hr : ∀ e ∈ es, Random e) (x : End) (u : ℚ) (h : (run c (init now b) es).phase = .ended x u)
    (hl : u + longest c ≤ (run c (init now b) es).now) :
    (∀ y ∈ live (run c (init now b) es), y = .stop) ∧
    ((run c (init now b) es).isSet = true → live (run c (init now b) es) = []) := by
  have hi := inv_run es (inv_init c now b)
  have hd := due_run (c := c) hp es hr (s := init now b) ⟨by simp [init], by simp [init], by simp [init]⟩
  generalize run c (init now b) es = s at *
  have h1 : s.rounds.filter (!·.fired) = [] := by
    rw [List.filter_eq_nil_iff]
    intro t ht hf
    have hf : t.fired = false := by simpa using hf
    have h1 := (hd.due t ht hf).1
    have h2 := hd.fin x u h t ht hf
    linarith
  have h2 : s.rounds.filter (·.getting) = [] := by
    rw [List.filter_eq_nil_iff]
    intro t ht hg
    have hf := (hi.only t ht hg).2
    have h1 := (hd.due t ht hf).1
    have h2 := hd.fin x u h t ht hf
    linarith
  constructor
  · intro y hy
    simp only [live, h1, h2, List.map_nil, List.append_nil] at hy
    split at hy <;> simp_all
  · intro hs
    have : s.stop ≠ .pending := fun hc => by have := (hi.stop hc).2; simp [hs] at this
    simp [live, h1, h2, this]

/-- non-vacuity: three rounds, the third cut off by a cancellation, which leaves three tasks; a period later
one is left, and none when the event is set -/
example :
    let c : Cfg := ⟨2, 0, true, true⟩
    let es : List Ev := [.start 0, .tick 1, .returns, .tick 2, .wake 0, .returns, .tick 5, .wake 0, .returns, .cancel]
    NeverCleared es ∧ (∀ e ∈ es, Random e) ∧
    (run c (init 0 false) es).phase = .ended .cancelled 8 ∧
    live (run c (init 0 false) es) = [.stop, .timer 10, .get 10] ∧
    live (run c (init 0 false) (es ++ [.tick 2])) = [.stop] ∧
    live (run c (init 0 false) (es ++ [.tick 2, .set])) = [] := by
  refine ⟨by simp [NeverCleared], ?_, by decide +kernel, by decide +kernel, by decide +kernel, by decide +kernel⟩
  intro e he
  simp at he
  rcases he with rfl | rfl | rfl | rfl | rfl | rfl | rfl | rfl | rfl | rfl <;> norm_num [Random]

/-- non-vacuity: `jitter_loop` with fixed times; `f` raises in its second call -/
example :
    let c : Cfg := ⟨2, 0, false, false⟩
    let es : List Ev := [.start 0, .tick 1, .returns, .tick 1, .wake 0, .raises]
    (run c (init 0 false) es).phase = .ended .raised 2 ∧ live (run c (init 0 false) es) = [.timer 4] := by
  decide +kernel

end Aiok8s.LoopTasks
