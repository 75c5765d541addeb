/-!
# Tasks blocked in `pop`

`FIFO.pop` (`aiok8s/cache/fifo.py` lines 111-132) and `DeltaFIFO.pop`
(`aiok8s/cache/delta_fifo.py` lines 140-163) sleep in `self._cond.wait()`, which releases the
lock, and everything that wakes them uses `self._cond.notify_all()`.  A notified task has to
take the lock again before it looks at the queue, so other calls may run in between.  This file
models any number of such tasks and any interleaving of their steps with other calls; what a
call does is a parameter.
-/
namespace Aiok8s.Monitor

/-- A queue as seen by its tasks: what a call does, whether it runs `notify_all()`, which calls
are (attempts of) `pop`, and which answers mean "went to sleep". -/
structure Machine (σ Op Out : Type) where
  step : σ → Op → σ × Out
  notifies : σ → Op → Bool
  isPop : Op → Bool
  isBlocked : Out → Bool

/-- The queue, the tasks asleep in `wait()` and the tasks that were notified (or whose `wait()`
was) but have not run yet.  Tasks are numbers. -/
structure State (σ : Type) where
  core : σ
  asleep : List Nat
  woken : List Nat

/-- What can happen. -/
inductive Ev (Op : Type) where
  /-- some task makes a call that does not block -/
  | call (o : Op)
  /-- task `t` calls `pop` -/
  | pop (t : Nat) (o : Op)
  /-- the notified task `t` gets the lock and goes on -/
  | resume (t : Nat) (o : Op)
  /-- task `t` is cancelled while waiting -/
  | cancel (t : Nat)

variable {σ Op Out : Type}

/-- `notify_all()`: every sleeping task becomes runnable. -/
def wakeAll (b : Bool) (s : State σ) : State σ :=
  if b then { s with asleep := [], woken := s.woken ++ s.asleep } else s

/-- Task `t` executes one attempt of `pop` (`fifo.py` lines 113-132, `delta_fifo.py` lines
142-163).  The attempt may itself notify (it re-queues on `RequeueError`). -/
def attempt (m : Machine σ Op Out) (s : State σ) (t : Nat) (o : Op) : State σ × Option Out :=
  let n := m.notifies s.core o
  let r := m.step s.core o
  let s := wakeAll n { s with core := r.1 }
  if m.isBlocked r.2 then ({ s with asleep := s.asleep ++ [t] }, none) else (s, some r.2)

/-- One event; the answer is given when a call returns or raises. -/
def step (m : Machine σ Op Out) (s : State σ) : Ev Op → State σ × Option Out
  | .call o =>
    if m.isPop o then (s, none)
    else
      let r := m.step s.core o
      (wakeAll (m.notifies s.core o) { s with core := r.1 }, some r.2)
  | .pop t o =>
    if m.isPop o ∧ t ∉ s.asleep ∧ t ∉ s.woken then attempt m s t o else (s, none)
  | .resume t o =>
    if m.isPop o ∧ t ∈ s.woken then attempt m { s with woken := s.woken.erase t } t o
    else (s, none)
  | .cancel t =>
    ({ s with asleep := s.asleep.erase t, woken := s.woken.erase t }, none)

/-- The state after a sequence of events. -/
def exec (m : Machine σ Op Out) (s : State σ) : List (Ev Op) → State σ
  | [] => s
  | e :: es => exec m (step m s e).1 es

/-! ## Invariant -/

/-- What is needed of a queue: `stuck` says that `pop` would sleep. -/
structure Lawful (m : Machine σ Op Out) (stuck : σ → Prop) : Prop where
  /-- an attempt sleeps only in a stuck queue -/
  blocked : ∀ s o, m.isPop o = true → m.isBlocked (m.step s o).2 = true → stuck (m.step s o).1
  /-- a call that takes a queue out of being stuck notifies -/
  notify : ∀ s o, m.isPop o = false → stuck s → m.notifies s o = false → stuck (m.step s o).1
  /-- `pop` on a stuck queue sleeps without notifying -/
  sleeps : ∀ s o, m.isPop o = true → stuck s → stuck (m.step s o).1

/-- If a task sleeps, the queue is stuck. -/
def Inv (stuck : σ → Prop) (s : State σ) : Prop := s.asleep ≠ [] → stuck s.core

theorem inv_wakeAll {stuck : σ → Prop} {s : State σ} {core : σ} {b : Bool}
    (h : b = false → s.asleep ≠ [] → stuck core) : Inv stuck (wakeAll b { s with core := core }) := by
  cases b with
  | true => intro h1; simp [wakeAll] at h1
  | false => intro h1; exact h rfl h1

theorem inv_step {m : Machine σ Op Out} {stuck : σ → Prop} (hl : Lawful m stuck) {s : State σ}
    (h : Inv stuck s) (e : Ev Op) : Inv stuck (step m s e).1 := by
  have hatt : ∀ (s : State σ) (t : Nat) (o : Op), Inv stuck s → m.isPop o = true →
      Inv stuck (attempt m s t o).1 := by
    intro s t o h hp
    simp only [attempt]
    split
    · rename_i hb
      intro _
      have := hl.blocked _ _ hp hb
      simp only [wakeAll]
      split <;> exact this
    · exact inv_wakeAll fun _ hne => hl.sleeps _ _ hp (h hne)
  cases e with
  | call o =>
    simp only [step]
    split
    · exact h
    · rename_i hp
      exact inv_wakeAll fun hn hne => hl.notify _ _ (by simpa using hp) (h hne) hn
  | pop t o =>
    simp only [step]
    split
    · rename_i hp; exact hatt _ _ _ h hp.1
    · exact h
  | resume t o =>
    simp only [step]
    split
    · rename_i hp
      exact hatt _ _ _ (fun hne => h hne) hp.1
    · exact h
  | cancel t =>
    intro hne
    apply h
    intro h0
    simp [step, h0] at hne

theorem inv_exec {m : Machine σ Op Out} {stuck : σ → Prop} (hl : Lawful m stuck)
    (es : List (Ev Op)) : ∀ {s : State σ}, Inv stuck s → Inv stuck (exec m s es) := by
  induction es with
  | nil => intro s h; exact h
  | cons e es ih => intro s h; exact ih (inv_step hl h e)

end Aiok8s.Monitor
