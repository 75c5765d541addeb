import Verif.Proof.ReflectorTasks
import Mathlib.Tactic.NormNum
/-!
# C82: the tasks of a reflector

Statements are about every sequence of actions: answers of server and store, events of the watch, the
timer, the cancellation and the steps of the tasks, in any possible order.
-/
namespace Aiok8s.ReflectorTasks
open Aiok8s.Reflector Spec
variable {O G : Type} [DecidableEq G]

/-! ## The calls are those of the sequential model -/

/-- **C82.** Whatever the tasks do and in whatever order, server and store (apart from resyncs) see
exactly the calls that the sequential model of `run` (`Verif.Model.Reflector`, C39-C42) makes for the
answers given so far, in the same order, and `_last_sync_resource_version` is the same. -/
theorem C82_calls (A : Access O G) (p : ℚ) {as : List (Act O)} {s : State O} {L : List (Ev O)}
    (h : exec A p init as = some (s, L)) :
    callsOf L = (run A "" (scripts L)).calls ∧
      (settled s.pc = true → s.last = (run A "" (scripts L)).last) := by
  have hr : Rel A L s := by simpa using rel_exec as (rel_init A) h
  exact ⟨(rel_ok hr).symm, fun hs => (rel_last hr hs).symm⟩

private theorem reach {A : Access O G} {p : ℚ} (b : ℚ) {as : List (Act O)} {s : State O} {L : List (Ev O)}
    (h : exec A p init as = some (s, L)) : Shape s ∧ Stream L s ∧ Timed p b L s := by
  have := all_exec (b := b) as shape_init stream_init (timed_init p b) h
  simpa using this

/-- **C82.** Events are taken in the order in which the watch gives them, none is skipped or taken twice;
and if a watch comes to its normal end, all were taken. -/
theorem C82_stream (A : Access O G) (p : ℚ) {as : List (Act O)} {s : State O} {L : List (Ev O)}
    (h : exec A p init as = some (s, L)) :
    taken L <+: given L ∧
      ∀ L1 b L2, L = L1 ++ .closed b :: L2 → taken L1 = given L1 := by
  have hs := (reach 0 h).2.1
  exact ⟨⟨_, hs.queue.symm⟩, hs.closed⟩

/-! ## When the store is resynced -/

/-- **C82.** The store is resynced only while the reflector opens or reads a watch. -/
theorem C82_scope (A : Access O G) (p : ℚ) {as : List (Act O)} {s : State O} {L : List (Ev O)}
    (h : exec A p init as = some (s, L)) : Scoped false L :=
  (reach 0 h).2.2.within

/-- **C82.** Between a list and the next resync, and between two resyncs, there is at least the resync
period; without a period there is no resync. -/
theorem C82_spaced (A : Access O G) (p b : ℚ) {as : List (Act O)} {s : State O} {L : List (Ev O)}
    (h : exec A p init as = some (s, L)) : Spaced p b L :=
  (reach b h).2.2.spaced

/-- **C82.** If `should_resync` never raised: while the reflector opens or reads a watch, the resync task
waits for a timer that fires at most a period from now (or for none, without a period), or the store is
being resynced, or the error of a failed resync is on its way to end the watch; and the latter is not so if
the tasks have nothing left to do, the watch is read and no event is handled.

Full claim: the same without the assumption about `should_resync`; refuted by
`C82_refuted_raise`. -/
theorem C82_alive_partial (A : Access O G) (p : ℚ) {as : List (Act O)} {s : State O} {L : List (Ev O)}
    (h : exec A p init as = some (s, L)) (hr : as.all (fun a => !isRaise a) = true) :
    (s.pc = .opening ∨ s.pc = .waiting ∨ (∃ v, s.pc = .storing v) →
      (s.resync = .waiting none ∧ p = 0) ∨ (∃ t, s.resync = .waiting (some t) ∧ t ≤ s.now + p) ∨
        s.resync = .running ∨ s.error = true ∨ s.errTask = .got) ∧
    (s.pc = .waiting → (∀ a, own a = true → step A p s a = none) →
      (s.resync = .waiting none ∧ p = 0) ∨ (∃ t, s.resync = .waiting (some t) ∧ t ≤ s.now + p) ∨
        s.resync = .running) := by
  obtain ⟨hsh, -, ht⟩ := reach 0 h
  have ha : Alive s := alive_exec as shape_init (alive_out rfl) hr h
  have hact : active s.resync = true →
      (s.resync = .waiting none ∧ p = 0) ∨ (∃ t, s.resync = .waiting (some t) ∧ t ≤ s.now + p) ∨
        s.resync = .running := by
    intro hx
    cases hres : s.resync with
    | waiting t =>
      cases t with
      | none => exact Or.inl ⟨rfl, ht.never hres⟩
      | some t => exact Or.inr (Or.inl ⟨t, rfl, (ht.wait t hres).2.2⟩)
    | running => exact Or.inr (Or.inr rfl)
    | _ => rw [hres] at hx; simp [active] at hx
  refine ⟨?_, ?_⟩
  · intro hpc
    have hw : inWatches s.pc = true := by
      rcases hpc with h | h | ⟨v, h⟩ <;> rw [h] <;> rfl
    rcases ha hw with hx | ⟨hx, k⟩
    · rcases hact hx with k | k | k
      · exact Or.inl k
      · exact Or.inr (Or.inl k)
      · exact Or.inr (Or.inr (Or.inl k))
    · rcases k with k | k | ⟨x, k, -⟩
      · exact Or.inr (Or.inr (Or.inr (Or.inl k)))
      · exact Or.inr (Or.inr (Or.inr (Or.inr k)))
      · rcases hpc with h | h | ⟨v, h⟩ <;> rw [h] at k <;> cases k
  · intro hpc hq
    obtain ⟨-, -, h3⟩ := quiet_shape hsh hq
    obtain ⟨-, h4, h5⟩ := h3 hpc
    rcases ha (by rw [hpc]; rfl) with hx | ⟨hx, k⟩
    · exact hact hx
    · rcases k with k | k | ⟨x, k, -⟩
      · rw [h4] at k; cases k
      · rw [h5] at k; cases k
      · rw [hpc] at k; cases k

/-- **C82.** A watch is given up because of a resync only if a resync has failed since the last list was
stored: an error of an earlier round does not end this one. -/
theorem C82_cause (A : Access O G) (p : ℚ) {as : List (Act O)} {s : State O} {L : List (Ev O)}
    (h : exec A p init as = some (s, L)) : Caused false L := by
  have := cause_exec as shape_init
    (L := []) ⟨trivial, by simp [init], by simp [init], by simp [init]⟩ h
  simpa using this.seen

/-! ## The tasks come to rest -/

/-- **C82.** Left to themselves, the tasks make at most as many steps as there are events in the queue, and
six more; when they have nothing left to do, the reflector waits for the server, for the store or for its
timer, or it has ended: no error is left in the queue while it reads a watch, and no task is awaited. -/
theorem C82_quiet (A : Access O G) (p : ℚ) {as : List (Act O)} {s : State O} {L : List (Ev O)}
    (h : exec A p init as = some (s, L)) :
    (∀ as' s' L', as'.all own = true → exec A p s as' = some (s', L') →
      as'.length ≤ s.queue.length + 6) ∧
    ((∀ a, own a = true → step A p s a = none) →
      s.pc = .sleeping ∨ s.pc = .listing ∨ (∃ items v, s.pc = .replacing items v) ∨ s.pc = .opening ∨
      (∃ v, s.pc = .storing v) ∨ s.pc = .ended ∨
      (s.pc = .waiting ∧ s.queue = [] ∧ s.error = false ∧ s.errTask = .waiting)) := by
  refine ⟨?_, ?_⟩
  · intro as' s' L' ho he
    have h1 := own_bounded as' ho he
    have h2 := todo_le s
    omega
  · intro hq
    obtain ⟨h1, h2, h3⟩ := quiet_shape (reach 0 h).1 hq
    cases hpc : s.pc with
    | leavingWatch x => exact absurd hpc (h1 x)
    | leaving c => exact absurd hpc (h2 c)
    | waiting => simp [h3 hpc]
    | _ => simp

/-- **C82.** Cancellation: server and store are not called any more (a resync that is due while the tasks
of the watch are awaited excepted); when nothing is left to do, `run` has ended, none of its tasks is left
and nothing happens any more. -/
theorem C82_cancel (A : Access O G) (p : ℚ) {as : List (Act O)} {s s1 : State O} {L e : List (Ev O)}
    (h : exec A p init as = some (s, L)) (hc : step A p s .cancel = some (s1, e))
    {as' : List (Act O)} {s' : State O} {L' : List (Ev O)} (h' : exec A p s1 as' = some (s', L')) :
    callsOf (e ++ L') = [] ∧
    ((∀ a, own a = true → step A p s' a = none) → s'.pc = .ended) ∧
    (s'.pc = .ended → s'.reader = .none ∧ s'.errTask = .none ∧ s'.resync = .none ∧
      ∀ as'' s'' L'', exec A p s' as'' = some (s'', L'') → s''.pc = .ended ∧ L'' = []) := by
  obtain ⟨hsh, hst, ht⟩ := reach 0 h
  have hsh1 := shape_step hsh hc
  obtain ⟨ho, hcalls⟩ := over_exec as' (over_cancel hc) h'
  have hsh' := (all_exec as' hsh1 (stream_step hsh hst hc) (timed_step hsh ht hc) h').1
  have he : callsOf e = [] := by
    simp only [step] at hc
    split at hc
    all_goals first
      | (cases hc; done)
      | (simp at hc; obtain ⟨-, rfl⟩ := hc; rfl)
  refine ⟨by rw [callsOf_append, he, hcalls]; rfl, ?_, ?_⟩
  · intro hq
    obtain ⟨h1, h2, -⟩ := quiet_shape hsh' hq
    rcases ho with k | k | k
    · exact absurd k (h1 _)
    · exact absurd k (h2 _)
    · exact k
  · intro hpc
    have hs := hsh'
    simp only [Shape, hpc] at hs
    exact ⟨hs.1, hs.2.1, hs.2.2, fun as'' s'' L'' hx => ended_exec as'' hsh' hpc hx⟩

/-! ## A run -/

private def A0 : Access Nat Unit := ⟨fun _ => true, fun _ => some (), fun _ => true,
  fun o => some (if o = 1 then "one" else "more"), none⟩

private def ev (o : Nat) : Event Nat := ⟨.added, o, false⟩

/-- A list, a watch, two events, a resync that fails, and the next list. -/
private def acts : List (Act Nat) :=
  [.list, .listed (some ([7], "0")), .replaced true, .watched true, .read (ev 1), .resume, .read (ev 2),
    .stored, .pass 3, .tick (some true), .resynced false, .errGet, .resume, .readerEnds, .tasksEnded,
    .resyncEnds, .gathered, .list]

private def acts1 : List (Act Nat) :=
  [.list, .listed (some ([7], "0")), .replaced true, .watched true, .read (ev 1), .resume, .stored, .pass 3,
    .tick (some true), .resynced true, .readEnd, .resume, .tasksEnded, .watched true, .pass 2,
    .tick (some true), .resynced false, .errGet, .resume, .readerEnds, .tasksEnded, .gathered, .list]

-- `C82_calls`, `C82_stream`, `C82_scope`, `C82_spaced`: such runs exist, with calls, resyncs and errors
example : (exec A0 2 init acts1).map (fun r => callsOf r.2) =
    some [.list "0", .replace [7] "0", .watch "0", .add 1, .watch "one", .list "0"] := by decide +kernel
example : (exec A0 2 init acts1).map (fun r => (resyncs r.2, asks r.2, r.1.last)) =
    some (true, true, "one") := by decide +kernel
-- the second watch of it gave nothing, the first one an event that was taken
example : (exec A0 2 init (acts1.take 13)).map (fun r => ((taken r.2).map (·.object), (given r.2).map (·.object))) =
    some ([1], [1]) := by decide +kernel
-- an event that was given and not taken: the resync fails before
example : (exec A0 2 init (acts.take 9)).map (fun r => ((taken r.2).map (·.object), (given r.2).map (·.object))) =
    some ([1], [1, 2]) := by decide +kernel
-- `C82_cause`: a resync fails while a watch is left because of an event; the error is not taken, and the
-- next watch goes on
example : (exec A0 2 init [.list, .listed (some ([7], "0")), .replaced true, .watched true, .pass 3,
    .tick (some true), .read ⟨.error, 1, false⟩, .resume, .resynced false, .readerEnds, .tasksEnded,
    .gathered]).map (fun r => (failed r.2, r.1.error)) = some (true, true) := by decide +kernel
example : (exec A0 2 init [.list, .listed (some ([7], "0")), .replaced true, .watched true, .pass 3,
    .tick (some true), .read ⟨.error, 1, false⟩, .resume, .resynced false, .readerEnds, .tasksEnded,
    .gathered, .list, .listed (some ([7], "0")), .replaced true, .watched true]).map
    (fun r => (failed r.2, r.1.error, decide (r.1.pc = .waiting))) = some (false, false, true) := by
  decide +kernel
-- without a period the timer does not fire
example : (exec A0 0 init acts).isNone = true := by decide +kernel
-- and it does not fire early
example : (exec A0 4 init acts).isNone = true := by decide +kernel
-- `C82_alive_partial`: `should_resync` did not raise in `acts1`
example : acts1.all (fun a => !isRaise a) = true := by decide +kernel
-- `C82_quiet`: while the watch is read there are states in which nothing is left to do
example : (exec A0 2 init (acts1.take 8)).map (fun r => (decide (r.1.pc = .waiting), (r.1.queue.length, r.1.error,
    decide (r.1.errTask = .waiting)))) = some (true, 0, false, true) := by decide +kernel
-- `C82_cancel`: cancelled while an event is stored and a resync runs
example : (exec A0 2 init [.list, .listed (some ([7], "0")), .replaced true, .watched true, .read (ev 1), .resume,
    .pass 3, .tick (some true), .cancel, .readerEnds, .tasksEnded, .resyncEnds, .gathered]).map
    (fun r => decide (r.1.pc = .ended)) = some true := by decide +kernel

/-! ## `should_resync` raises -/

/-- **C82**, refuted: if `should_resync` raises, the exception ends the resync task and nobody sees it. The
watch goes on, but the store is not resynced any more until the next list, however long the watch lasts. -/
theorem C82_refuted_raise : ∃ (as : List (Act Nat)) (s : State Nat) (L : List (Ev Nat)),
    exec A0 2 init as = some (s, L) ∧ s.pc = .waiting ∧
    (∀ a, own a = true → step A0 2 s a = none) ∧
    (∃ as' s' L', exec A0 2 s as' = some (s', L') ∧ s'.pc = .waiting ∧ callsOf L' = [.add 1] ∧
      s.now + 100 ≤ s'.now) ∧
    ∀ as' s' L', exec A0 2 s as' = some (s', L') → asks L' = false → resyncs L' = false := by
  have hx : exec A0 2 init [.list, .listed (some ([7], "0")), .replaced true, .watched true, .pass 3, .tick none] =
      some (⟨.waiting, "0", "0", 0, 0, .reading, [], .waiting, false, .ended, 3⟩,
        [.call (.list "0"), .call (.replace [7] "0"), .replaced 0, .call (.watch "0"), .opened]) := by
    simp [exec, step, init, timer]
    norm_num
  refine ⟨_, _, _, hx, rfl, ?_, ?_, ?_⟩
  · intro a ha
    cases a <;> simp [own] at ha <;> rfl
  · refine ⟨[.read (ev 1), .resume, .stored, .pass 100], _, _, rfl, rfl, rfl, ?_⟩
    norm_num
  · intro as' s' L' he hl
    exact lost_exec as' ⟨rfl, by simp, by simp⟩ hl he

end Aiok8s.ReflectorTasks
