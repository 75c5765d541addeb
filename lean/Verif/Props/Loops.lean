import Verif.Model.Loops
import Mathlib.Tactic.Linarith
import Mathlib.Tactic.NormNum
import Mathlib.Tactic.Positivity
/-!
# Periodic loops: C73
-/
set_option linter.unusedSimpArgs false
namespace Aiok8s.Loops
open Aiok8s

/-- Time does not run backwards, and `random.random()` is in `[0, 1)`. -/
structure Env.Sane (env : Env) : Prop where
  dur : ∀ k, 0 ≤ env.dur k
  lag : ∀ k, 0 ≤ env.lag k
  rnd : ∀ k, 0 ≤ env.rnd k ∧ env.rnd k < 1

/-- One call after the other, with this relation between neighbours. -/
def Chain (R : Call → Call → Prop) : List Call → Prop
  | a :: b :: cs => R a b ∧ Chain R (b :: cs)
  | _ => True

private theorem jit_ge {c : Cfg} (hp : 0 ≤ c.period) {r : ℚ} (hr : 0 ≤ r) : c.period ≤ jittered c r := by
  simp only [jittered]
  split
  · rename_i h
    simp only [Wait.jitter]
    rw [if_neg (not_le.2 h)]
    have : 0 ≤ r * c.factor * c.period := by positivity
    linarith
  · exact le_refl _

private theorem jit_le {c : Cfg} (hp : 0 ≤ c.period) {r : ℚ} (hr : r < 1) (h0 : 0 ≤ r) :
    jittered c r ≤ c.period + max 0 c.factor * c.period := by
  simp only [jittered]
  split
  · rename_i h
    simp only [Wait.jitter]
    rw [if_neg (not_le.2 h), max_eq_right (le_of_lt h)]
    have h1 : r * c.factor ≤ c.factor := by nlinarith
    have h2 : r * c.factor * c.period ≤ c.factor * c.period := mul_le_mul_of_nonneg_right h1 hp
    linarith
  · have : 0 ≤ max 0 c.factor * c.period := mul_nonneg (le_max_left _ _) hp
    linarith

private theorem wake_ge (stop : Option ℚ) (now made p : ℚ) : now ≤ wake stop now made p := by
  simp only [wake]
  cases stop with
  | none => exact le_max_left _ _
  | some s => exact le_max_left _ _

/-- If the stop event is not set at the end of the wait, the timer has fired. -/
private theorem wake_due {stop : Option ℚ} {now made p l : ℚ} (hl : 0 ≤ l)
    (h : isSet stop (wake stop now made p + l) = false) :
    wake stop now made p = max now (made + max 0 p) := by
  cases stop with
  | none => rfl
  | some s =>
    have h : wake (some s) now made p + l < s := by simpa [isSet] using h
    simp only [wake] at h ⊢
    have hs : max now (min (max now (made + max 0 p)) s) < s := by linarith
    have h1 : min (max now (made + max 0 p)) s < s := lt_of_le_of_lt (le_max_right _ _) hs
    have h2 : max now (made + max 0 p) < s := by
      rcases min_lt_iff.1 h1 with h | h
      · exact h
      · exact absurd h (lt_irrefl _)
    rw [min_eq_left (le_of_lt h2), max_eq_right (le_max_left _ _)]

/-- The first call, if any, begins at once, before the stop event. -/
private theorem head {c : Cfg} {env : Env} {fuel k : Nat} {now : ℚ} {a : Call} {as : List Call}
    (h : (jitterUntil c env fuel k now).calls = a :: as) :
    a.start = now ∧ a.stop = now + env.dur k ∧ isSet env.stop now = false := by
  cases fuel with
  | zero => simp [jitterUntil] at h
  | succ fuel =>
    simp only [jitterUntil] at h
    split at h
    · cases h
    · rename_i hs
      have hs : isSet env.stop now = false := by simpa using hs
      split at h
      · cases h; exact ⟨rfl, rfl, hs⟩
      · cases h; exact ⟨rfl, rfl, hs⟩

private theorem round (c : Cfg) (env : Env) (fuel k : Nat) (now : ℚ) (h1 : isSet env.stop now = false)
    (h2 : env.fails k = false) :
    jitterUntil c env (fuel + 1) k now =
      let r := jitterUntil c env fuel (k + 1) (wake env.stop (now + env.dur k)
        (if c.sliding then now + env.dur k else now) (jittered c (env.rnd k)) + env.lag k)
      ⟨⟨now, now + env.dur k⟩ :: r.calls, r.fin, r.time⟩ := by
  simp only [jitterUntil, h1, h2, Bool.false_eq_true, if_false]

/-- Two neighbours. -/
private theorem pair {c : Cfg} {env : Env} (hs : env.Sane) : ∀ (fuel k : Nat) (now : ℚ),
    Chain (fun a b => ∃ j, a.stop = a.start + env.dur j ∧
      b.start = max a.stop ((if c.sliding then a.stop else a.start) + max 0 (jittered c (env.rnd j))) + env.lag j)
      (jitterUntil c env fuel k now).calls := by
  intro fuel
  induction fuel with
  | zero => intro k now; trivial
  | succ fuel ih =>
    intro k now
    cases h1 : isSet env.stop now with
    | true => simp only [jitterUntil, h1, if_true]; trivial
    | false =>
      cases h2 : env.fails k with
      | true => simp only [jitterUntil, h1, h2, if_true, Bool.false_eq_true, if_false]; trivial
      | false =>
        rw [round c env fuel k now h1 h2]
        set now' := wake env.stop (now + env.dur k) (if c.sliding then now + env.dur k else now)
          (jittered c (env.rnd k)) + env.lag k with hnow
        have hi := ih (k + 1) now'
        show Chain _ (⟨now, now + env.dur k⟩ :: (jitterUntil c env fuel (k + 1) now').calls)
        cases hc : (jitterUntil c env fuel (k + 1) now').calls with
        | nil => trivial
        | cons b bs =>
          obtain ⟨h3, -, h4⟩ := head hc
          rw [hc] at hi
          refine ⟨⟨k, rfl, ?_⟩, hi⟩
          rw [h3, hnow, wake_due (hs.lag k) (by rw [← hnow]; exact h4)]

private theorem Chain.imp {R S : Call → Call → Prop} (h : ∀ a b, R a b → S a b) : ∀ cs, Chain R cs → Chain S cs
  | [], _ => trivial
  | [_], _ => trivial
  | a :: b :: cs, hc => ⟨h a b hc.1, Chain.imp h (b :: cs) hc.2⟩

/-- **C73**: a sliding loop (`until` and `loop` are) begins the next call at least `period` after the end
of the last one; whatever `f` and the event loop do, and whenever the stop event is set. -/
theorem C73_sliding (c : Cfg) (env : Env) (hs : env.Sane) (hp : 0 ≤ c.period) (hc : c.sliding = true)
    (fuel k : Nat) (now : ℚ) :
    Chain (fun a b => a.start ≤ a.stop ∧ a.stop + c.period ≤ b.start) (jitterUntil c env fuel k now).calls := by
  refine Chain.imp ?_ _ (pair hs fuel k now)
  rintro a b ⟨j, h1, h2⟩
  have hj := jit_ge hp (hs.rnd j).1
  have hl := hs.lag j
  have hd := hs.dur j
  rw [hc, if_pos rfl] at h2
  have := le_max_right a.stop (a.stop + max 0 (jittered c (env.rnd j)))
  have h3 := le_max_right 0 (jittered c (env.rnd j))
  constructor <;> linarith

/-- **C73**: a loop that is not sliding begins the next call at least `period` after the beginning of the
last one, and not before its end. -/
theorem C73_fixed (c : Cfg) (env : Env) (hs : env.Sane) (hp : 0 ≤ c.period) (hc : c.sliding = false)
    (fuel k : Nat) (now : ℚ) :
    Chain (fun a b => a.start ≤ a.stop ∧ a.stop ≤ b.start ∧ a.start + c.period ≤ b.start)
      (jitterUntil c env fuel k now).calls := by
  refine Chain.imp ?_ _ (pair hs fuel k now)
  rintro a b ⟨j, h1, h2⟩
  have hj := jit_ge hp (hs.rnd j).1
  have hl := hs.lag j
  have hd := hs.dur j
  simp only [hc, Bool.false_eq_true, if_false] at h2
  have := le_max_right a.stop (a.start + max 0 (jittered c (env.rnd j)))
  have h4 := le_max_left a.stop (a.start + max 0 (jittered c (env.rnd j)))
  have h3 := le_max_right 0 (jittered c (env.rnd j))
  refine ⟨?_, ?_, ?_⟩ <;> linarith

/-- **C73**: and not much later: if the event loop is idle, the pause is at most
`period * (1 + jitter_factor)`, and exactly `period` without jitter. -/
theorem C73_punctual (c : Cfg) (env : Env) (hs : env.Sane) (hp : 0 ≤ c.period) (hl : ∀ k, env.lag k = 0)
    (fuel k : Nat) (now : ℚ) :
    Chain (fun a b => b.start ≤ max a.stop
        ((if c.sliding then a.stop else a.start) + (c.period + max 0 c.factor * c.period)) ∧
      (c.factor ≤ 0 → b.start = max a.stop ((if c.sliding then a.stop else a.start) + c.period)))
      (jitterUntil c env fuel k now).calls := by
  refine Chain.imp ?_ _ (pair hs fuel k now)
  rintro a b ⟨j, h1, h2⟩
  have hj := jit_ge hp (hs.rnd j).1
  have hj2 := jit_le hp (hs.rnd j).2 (hs.rnd j).1
  rw [hl, add_zero, max_eq_right (le_trans hp hj)] at h2
  constructor
  · rw [h2]
    exact max_le_max (le_refl _) (by linarith)
  · intro hf
    rw [h2]
    have : jittered c (env.rnd j) = c.period := by simp [jittered, not_lt.2 hf]
    rw [this]

/-- **C73**: `until` and `loop` begin the next call `period` after the end of the last one, not sooner, and no
later if the event loop is idle. -/
theorem C73_until_loop (period : ℚ) (env : Env) (hs : env.Sane) (hp : 0 ≤ period) (fuel : Nat) (now : ℚ) :
    let R := fun a b : Call => a.stop + period ≤ b.start ∧ ((∀ k, env.lag k = 0) → b.start = a.stop + period)
    Chain R (until_ period env fuel now).calls ∧ Chain R (loop period env fuel now).calls := by
  have key : ∀ env : Env, env.Sane → Chain (fun a b : Call => a.stop + period ≤ b.start ∧
      ((∀ k, env.lag k = 0) → b.start = a.stop + period)) (jitterUntil ⟨period, 0, true⟩ env fuel 0 now).calls := by
    intro env hs
    refine Chain.imp ?_ _ (pair hs fuel 0 now)
    rintro a b ⟨j, h1, h2⟩
    have hl := hs.lag j
    have hj : jittered ⟨period, 0, true⟩ (env.rnd j) = period := by simp [jittered]
    rw [hj, if_pos rfl, max_eq_right hp, max_eq_right (by linarith)] at h2
    refine ⟨by linarith, fun h => ?_⟩
    rw [h2, h j, add_zero]
  exact ⟨key env hs, key { env with stop := none } ⟨hs.dur, hs.lag, hs.rnd⟩⟩

/-- **C73**: no call begins at or after the time at which the stop event is set. -/
theorem C73_not_after_stop (c : Cfg) (env : Env) (t : ℚ) (ht : env.stop = some t) :
    ∀ (fuel k : Nat) (now : ℚ), ∀ a ∈ (jitterUntil c env fuel k now).calls, a.start < t := by
  intro fuel
  induction fuel with
  | zero => intro k now a ha; cases ha
  | succ fuel ih =>
    intro k now a ha
    simp only [jitterUntil] at ha
    split at ha
    · cases ha
    · rename_i hset
      have hset : now < t := by simpa [isSet, ht] using hset
      split at ha
      · rcases List.mem_cons.1 ha with rfl | ha
        · exact hset
        · cases ha
      · rcases List.mem_cons.1 ha with rfl | ha
        · exact hset
        · exact ih _ _ a ha

/-- **C73**: the loop ends only because the event is set or `f` raised. -/
theorem C73_ends_only (c : Cfg) (env : Env) : ∀ (fuel k : Nat) (now : ℚ),
    ((jitterUntil c env fuel k now).fin = .stopped → ∃ t, env.stop = some t ∧ t ≤ (jitterUntil c env fuel k now).time) ∧
    ((jitterUntil c env fuel k now).fin = .raised → ∃ j, env.fails j = true) ∧
    ((jitterUntil c env fuel k now).fin = .running → (jitterUntil c env fuel k now).calls.length = fuel) := by
  intro fuel
  induction fuel with
  | zero => intro k now; simp [jitterUntil]
  | succ fuel ih =>
    intro k now
    simp only [jitterUntil]
    split
    · rename_i h
      refine ⟨fun _ => ?_, by simp, by simp⟩
      cases hs : env.stop with
      | none => simp [isSet, hs] at h
      | some s => exact ⟨s, rfl, by simpa [isSet, hs] using h⟩
    · split
      · rename_i h
        exact ⟨by simp, fun _ => ⟨k, h⟩, by simp⟩
      · obtain ⟨h1, h2, h3⟩ := ih (k + 1) (wake env.stop (now + env.dur k)
          (if c.sliding then now + env.dur k else now) (jittered c (env.rnd k)) + env.lag k)
        exact ⟨h1, h2, fun h => by simpa using h3 h⟩

/-- **C73**: when the event is set, the loop ends as soon as the call that is under way has ended: with an
idle event loop, at the later of the time of the event, the end of the last call and the beginning. -/
theorem C73_stops_promptly (c : Cfg) (env : Env) (hl : ∀ k, env.lag k = 0) (t : ℚ) (ht : env.stop = some t) :
    ∀ (fuel k : Nat) (now : ℚ), (jitterUntil c env fuel k now).fin = .stopped →
      (jitterUntil c env fuel k now).time =
        max t (((jitterUntil c env fuel k now).calls.getLast?.map (·.stop)).getD now) := by
  intro fuel
  induction fuel with
  | zero => intro k now h; simp [jitterUntil] at h
  | succ fuel ih =>
    intro k now h
    simp only [jitterUntil] at h ⊢
    split at h
    · rename_i hset
      have hset' : t ≤ now := by simpa [isSet, ht] using hset
      simp only [hset, if_true]
      simp [max_eq_right hset']
    · rename_i hset
      simp only [hset]
      split at h
      · cases h
      · rename_i hf
        simp only [hf]
        simp only [Bool.false_eq_true, if_false]
        set now' := wake env.stop (now + env.dur k) (if c.sliding then now + env.dur k else now)
          (jittered c (env.rnd k)) + env.lag k with hnow
        have hi := ih (k + 1) now' h
        rw [hi]
        cases hc : (jitterUntil c env fuel (k + 1) now').calls with
        | cons b bs => simp [List.getLast?_cons]
        | nil =>
          simp only [hc, List.getLast?_nil, Option.map_none, Option.getD_none, List.getLast?_singleton,
            Option.map_some, Option.getD_some]
          -- the loop ended at once, so the event is set at `now'`
          have hset2 : t ≤ now' := by
            cases fuel with
            | zero => simp [jitterUntil] at h
            | succ fuel =>
              simp only [jitterUntil] at h hc
              split at h
              · rename_i h'; simpa [isSet, ht] using h'
              · rename_i h'
                simp only [h'] at hc
                split at h
                · cases h
                · rename_i h''
                  simp [h''] at hc
          rw [max_eq_right hset2]
          rw [hnow, hl, add_zero] at hset2 ⊢
          simp only [wake, ht] at hset2 ⊢
          apply le_antisymm
          · refine max_le (le_max_right _ _) (le_trans (min_le_right _ _) (le_max_left _ _))
          · refine max_le hset2 (le_max_left _ _)

/-- **C73**: without an event and exceptions the loop never ends: for every number there is a run with so
many calls (`loop`, `jitter_loop`). -/
theorem C73_goes_on (c : Cfg) (env : Env) (hf : ∀ k, env.fails k = false) : ∀ (fuel k : Nat) (now : ℚ),
    (jitterLoop c env fuel k now).calls.length = fuel ∧ (jitterLoop c env fuel k now).fin = .running := by
  intro fuel
  induction fuel with
  | zero => intro k now; exact ⟨rfl, rfl⟩
  | succ fuel ih =>
    intro k now
    have h := ih (k + 1) (wake none (now + env.dur k)
          (if c.sliding then now + env.dur k else now) (jittered c (env.rnd k)) + env.lag k)
    simp only [jitterLoop] at h ⊢
    simp only [jitterUntil, isSet, hf, Bool.false_eq_true, if_false, List.length_cons]
    exact ⟨by rw [h.1], h.2⟩

/-! ## Runs -/

/-- Calls of 1 second, stopped at time 9. -/
def exEnv : Env := ⟨fun _ => 1 / 2, fun _ => 1, fun _ => false, fun _ => 0, some 9⟩

theorem exSane : exEnv.Sane := ⟨fun _ => by norm_num [exEnv], fun _ => by norm_num [exEnv],
  fun _ => by norm_num [exEnv]⟩

-- `C73_sliding`, `C73_punctual`, `C73_until_loop`, `C73_not_after_stop`, `C73_stops_promptly`: `until` with period 3
example : until_ 3 exEnv 10 0 = ⟨[⟨0, 1⟩, ⟨4, 5⟩, ⟨8, 9⟩], .stopped, 9⟩ := by decide +kernel
-- `C73_fixed`
example : jitterUntil ⟨3, 0, false⟩ exEnv 10 0 0 = ⟨[⟨0, 1⟩, ⟨3, 4⟩, ⟨6, 7⟩], .stopped, 9⟩ := by decide +kernel
-- with jitter
example : (jitterUntil ⟨2, 1, true⟩ exEnv 10 0 0).calls = [⟨0, 1⟩, ⟨4, 5⟩, ⟨8, 9⟩] := by decide +kernel
-- `C73_goes_on`
example : (loop 3 exEnv 4 0).calls = [⟨0, 1⟩, ⟨4, 5⟩, ⟨8, 9⟩, ⟨12, 13⟩] := by decide +kernel

end Aiok8s.Loops
