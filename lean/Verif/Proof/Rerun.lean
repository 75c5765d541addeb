import Verif.Model.Rerun
import Verif.Props.Lifecycle
/-! # `run` called again: invariants -/
namespace Aiok8s.Rerun
open Aiok8s.Lifecycle (Ev)
variable {N : Type}

/-- The tasks of the listener have not run. -/
def Fresh (x : Listener.State N) : Prop := restart x = x

/-- Before the first call that got so far has ended. -/
structure PInv (s : State N) : Prop where
  stale : s.stale = false
  inv : Lifecycle.Inv s.life
  stop : s.stop = s.life.stopped
  proc : s.life.proc ≠ .done
  fresh : s.life.proc = .none ∨ s.life.proc = .ready → ∀ (l : Nat) (x : Listener.State N),
    s.life.listeners[l]? = some x → Fresh x

/-- A listener whose events are set. -/
structure Dead (x : Listener.State N) : Prop where
  stop : x.stopAdd = true
  run : x.run = .waiting ∨ (∃ n, x.run = .got n) ∨ x.run = .ended
  pop : x.popEnded = false → x.joining = false ∧ x.cur = none ∧ x.putDone = false

/-- where the tasks of `run` can be -/
def pcOK (s : State N) : Prop :=
  match s.life.run with
  | .idle => False
  | .entering => s.life.proc = .done ∧ s.life.deltas = .idle
  | .running => s.stop = false ∧ ((s.life.proc = .ready ∧ s.life.deltas = .idle) ∨ s.life.proc = .running)
  | .closing | .leaving => s.stop = false ∧ (s.life.proc = .ready ∨ s.life.proc = .running) ∧
      s.life.deltas = .idle
  | .awaiting => s.stop = true ∧ s.life.proc ≠ .none ∧ s.life.deltas = .idle
  | .ended => s.life.proc = .done ∧ s.life.deltas = .idle

/-- After that. -/
structure SInv (s : State N) : Prop where
  stale : s.stale = true
  started : s.life.started = true
  stopped : s.life.stopped = true
  sb : s.life.startedBy = none
  regs : ∀ (r : Nat) (p : Lifecycle.Reg N), s.life.regs[r]? = some p → p = .atLock ∨ ∃ q, p = .ended q
  blk : s.life.block = none ∨ s.life.block = some .deltas
  blkd : s.life.block = some .deltas ↔ s.life.deltas ≠ .idle
  sync : ∀ l ∈ s.life.syncing, l < s.life.listeners.length
  dead : ∀ (l : Nat) (x : Listener.State N), s.life.listeners[l]? = some x → Dead x
  fin : s.life.proc = .done → ∀ (l : Nat) (x : Listener.State N), s.life.listeners[l]? = some x →
    Lifecycle.over x = true
  pc : pcOK s

theorem pinv_init : PInv (init : State N) :=
  ⟨rfl, Lifecycle.inv_init, rfl, by simp [init, Lifecycle.init], by simp [init, Lifecycle.init]⟩

theorem fresh_init : Fresh (Listener.init : Listener.State N) := rfl

theorem fresh_put {x x' : Listener.State N} {n : N} {c : Option N} (h : Fresh x)
    (hs : Listener.step x (.put n) = some (x', c)) : Fresh x' := by
  obtain ⟨addQ, got, cur, pd, jn, pend, nextQ, run, sa, pe⟩ := x
  simp only [Listener.step] at hs
  split at hs
  · simp only [Option.some.injEq, Prod.mk.injEq] at hs
    obtain ⟨rfl, -⟩ := hs
    simp only [Fresh, restart, Listener.State.mk.injEq] at h ⊢
    exact ⟨trivial, h.2⟩
  · cases hs

private theorem fresh_set {L : List (Listener.State N)} (h : ∀ (l : Nat) (x : Listener.State N),
    L[l]? = some x → Fresh x) {l : Nat} {x : Listener.State N} (hx : Fresh x) :
    ∀ (m : Nat) (y : Listener.State N), (L.set l x)[m]? = some y → Fresh y := by
  intro m y hy
  have := List.mem_of_getElem? hy
  rcases List.mem_or_eq_of_mem_set this with h1 | rfl
  · obtain ⟨j, hj⟩ := List.mem_iff_getElem?.1 h1
    exact h j y hj
  · exact hx

private theorem fresh_snoc {L : List (Listener.State N)} (h : ∀ (l : Nat) (x : Listener.State N),
    L[l]? = some x → Fresh x) :
    ∀ (m : Nat) (y : Listener.State N), (L ++ [Listener.init])[m]? = some y → Fresh y := by
  intro m y hy
  have := List.mem_of_getElem? hy
  rcases List.mem_append.1 this with h1 | h1
  · obtain ⟨j, hj⟩ := List.mem_iff_getElem?.1 h1
    exact h j y hj
  · simp only [List.mem_singleton] at h1
    rw [h1]
    exact fresh_init

theorem regNext_same (s : Lifecycle.State N) (r l : Nat) (todo : List N) :
    (Lifecycle.regNext s r l todo).listeners = s.listeners ∧ (Lifecycle.regNext s r l todo).proc = s.proc ∧
    (Lifecycle.regNext s r l todo).stopped = s.stopped := by
  cases todo <;> exact ⟨rfl, rfl, rfl⟩

theorem deltaNext_same (s : Lifecycle.State N) (n : N) (ls : List Nat) :
    (Lifecycle.deltaNext s n ls).listeners = s.listeners ∧ (Lifecycle.deltaNext s n ls).proc = s.proc ∧
    (Lifecycle.deltaNext s n ls).stopped = s.stopped := by
  cases ls <;> exact ⟨rfl, rfl, rfl⟩

/-- Before the listeners are started nothing but `put` happens to them. -/
theorem fresh_step {s s' : Lifecycle.State N} {a : Lifecycle.Act N} {e : List (Ev N)}
    (h : s.proc = .none ∨ s.proc = .ready → ∀ (l : Nat) (x : Listener.State N),
      s.listeners[l]? = some x → Fresh x)
    (hr : a = .enter → s.proc = .none)
    (hs : Lifecycle.step s a = some (s', e)) :
    s'.proc = .none ∨ s'.proc = .ready → ∀ (l : Nat) (x : Listener.State N),
      s'.listeners[l]? = some x → Fresh x := by
  have hput : ∀ {t t' : Lifecycle.State N} {l : Nat} {n : N}, Lifecycle.putTo t l n = some t' →
      (∀ (l : Nat) (x : Listener.State N), t.listeners[l]? = some x → Fresh x) →
      ∀ (l : Nat) (x : Listener.State N), t'.listeners[l]? = some x → Fresh x := by
    intro t t' l n ht hf
    obtain ⟨x, x', c, h1, h2, rfl⟩ := Lifecycle.putTo_spec ht
    exact fresh_set hf (fresh_put (hf l x h1) h2)
  have hputp : ∀ {t t' : Lifecycle.State N} {l : Nat} {n : N}, Lifecycle.putTo t l n = some t' →
      t'.proc = t.proc := by
    intro t t' l n ht
    obtain ⟨x, x', c, h1, h2, rfl⟩ := Lifecycle.putTo_spec ht
    rfl
  intro hp
  cases a with
  | regEnter r =>
    simp only [Lifecycle.step] at hs
    split at hs
    · split at hs
      · cases hs; exact h hp
      · split at hs
        · cases hs; exact h hp
        · cases hs; exact fresh_snoc (h hp)
    · cases hs
  | regBlock r =>
    simp only [Lifecycle.step] at hs
    split at hs
    · simp only [Option.some.injEq, Prod.mk.injEq] at hs
      obtain ⟨rfl, -⟩ := hs
      rw [(regNext_same _ _ _ _).2.1] at hp
      rw [(regNext_same _ _ _ _).1]
      exact fresh_snoc (h hp)
    · cases hs
  | regPut r =>
    simp only [Lifecycle.step] at hs
    split at hs
    · split at hs
      · rename_i t ht
        simp only [Option.some.injEq, Prod.mk.injEq] at hs
        obtain ⟨rfl, -⟩ := hs
        have h' := hput ht (h (by rw [← hputp ht]; exact hp))
        exact h'
      · cases hs
    · cases hs
  | regJoin r =>
    simp only [Lifecycle.step] at hs
    split at hs
    · split at hs
      · simp only [Option.some.injEq, Prod.mk.injEq] at hs
        obtain ⟨rfl, -⟩ := hs
        rw [(regNext_same _ _ _ _).2.1] at hp
        rw [(regNext_same _ _ _ _).1]
        exact h hp
      · cases hs
    · cases hs
  | enter =>
    have := hr rfl
    simp only [Lifecycle.step] at hs
    split at hs
    · cases hs; exact h (Or.inl this)
    · cases hs
  | distribute n b st =>
    simp only [Lifecycle.step] at hs
    split at hs
    · simp only [Option.some.injEq, Prod.mk.injEq] at hs
      obtain ⟨rfl, -⟩ := hs
      rw [(deltaNext_same _ _ _).2.1] at hp
      rw [(deltaNext_same _ _ _).1]
      exact h hp
    · cases hs
  | deltaPut =>
    simp only [Lifecycle.step] at hs
    split at hs
    · split at hs
      · rename_i t ht
        simp only [Option.some.injEq, Prod.mk.injEq] at hs
        obtain ⟨rfl, -⟩ := hs
        have h' := hput ht (h (by rw [← hputp ht]; exact hp))
        exact h'
      · cases hs
    · cases hs
  | deltaJoin =>
    simp only [Lifecycle.step] at hs
    split at hs
    · split at hs
      · simp only [Option.some.injEq, Prod.mk.injEq] at hs
        obtain ⟨rfl, -⟩ := hs
        rw [(deltaNext_same _ _ _).2.1] at hp
        rw [(deltaNext_same _ _ _).1]
        exact h hp
      · cases hs
    · cases hs
  | lis l b =>
    simp only [Lifecycle.step] at hs
    split at hs
    · cases hs
    · cases hs
    · rename_i h1 h2
      split at hs
      · split at hs
        · cases hs
        · split at hs
          · cases hs
          · cases hs
            rcases hp with hp | hp
            · exact absurd hp h1
            · exact absurd hp h2
      · cases hs
  | procStart =>
    simp only [Lifecycle.step] at hs
    split at hs
    · cases hs; simp at hp
    · cases hs
  | procStop =>
    simp only [Lifecycle.step] at hs
    split at hs
    · cases hs; simp at hp
    · cases hs
  | procDone =>
    simp only [Lifecycle.step] at hs
    split at hs
    · split at hs
      · cases hs; simp at hp
      · cases hs
    · cases hs
  | _ =>
    simp only [Lifecycle.step] at hs
    repeat' split at hs
    all_goals first
      | (cases hs; done)
      | (cases hs; exact h hp)

theorem restart_all {L : List (Listener.State N)} (h : ∀ (l : Nat) (x : Listener.State N),
    L[l]? = some x → Fresh x) : L.map restart = L := by
  conv => rhs; rw [← List.map_id L]
  refine List.map_congr_left fun x hx => ?_
  obtain ⟨l, hl⟩ := List.mem_iff_getElem?.1 hx
  exact h l x hl

/-- `_stopped` and the state of the processor. -/
theorem life_flags {s s' : Lifecycle.State N} {a : Lifecycle.Act N} {e : List (Ev N)}
    (hs : Lifecycle.step s a = some (s', e)) :
    (a ≠ .leave → s'.stopped = s.stopped) ∧ (a = .leave → s'.stopped = true) ∧
    (a ≠ .procDone → s.proc ≠ .done → s'.proc ≠ .done) := by
  have hput : ∀ {t t' : Lifecycle.State N} {l : Nat} {n : N}, Lifecycle.putTo t l n = some t' →
      t'.proc = t.proc ∧ t'.stopped = t.stopped := by
    intro t t' l n ht
    obtain ⟨x, x', c, h1, h2, rfl⟩ := Lifecycle.putTo_spec ht
    exact ⟨rfl, rfl⟩
  cases a with
  | regBlock r =>
    simp only [Lifecycle.step] at hs
    split at hs
    · simp only [Option.some.injEq, Prod.mk.injEq] at hs
      obtain ⟨rfl, -⟩ := hs
      rw [(regNext_same _ _ _ _).2.1, (regNext_same _ _ _ _).2.2]
      simp [Lifecycle.State.addListener]
    · cases hs
  | regPut r =>
    simp only [Lifecycle.step] at hs
    split at hs
    · split at hs
      · rename_i t ht
        cases hs
        obtain ⟨h1, h2⟩ := hput ht
        simp [Lifecycle.State.setReg, h1, h2]
      · cases hs
    · cases hs
  | regJoin r =>
    simp only [Lifecycle.step] at hs
    split at hs
    · split at hs
      · simp only [Option.some.injEq, Prod.mk.injEq] at hs
        obtain ⟨rfl, -⟩ := hs
        rw [(regNext_same _ _ _ _).2.1, (regNext_same _ _ _ _).2.2]
        simp
      · cases hs
    · cases hs
  | distribute n b st =>
    simp only [Lifecycle.step] at hs
    split at hs
    · simp only [Option.some.injEq, Prod.mk.injEq] at hs
      obtain ⟨rfl, -⟩ := hs
      rw [(deltaNext_same _ _ _).2.1, (deltaNext_same _ _ _).2.2]
      simp
    · cases hs
  | deltaPut =>
    simp only [Lifecycle.step] at hs
    split at hs
    · split at hs
      · rename_i t ht
        cases hs
        obtain ⟨h1, h2⟩ := hput ht
        simp [h1, h2]
      · cases hs
    · cases hs
  | deltaJoin =>
    simp only [Lifecycle.step] at hs
    split at hs
    · split at hs
      · simp only [Option.some.injEq, Prod.mk.injEq] at hs
        obtain ⟨rfl, -⟩ := hs
        rw [(deltaNext_same _ _ _).2.1, (deltaNext_same _ _ _).2.2]
        simp
      · cases hs
    · cases hs
  | _ =>
    simp only [Lifecycle.step] at hs
    repeat' split at hs
    all_goals first
      | (cases hs; done)
      | (cases hs; simp_all [Lifecycle.State.setReg, Lifecycle.State.addListener])

/-- As long as no such call has ended, the informer does what `Verif.Model.Lifecycle` does. -/
theorem pre_same {s s' : State N} {a : Lifecycle.Act N} {e : List (Ev N)} (h : PInv s)
    (hs : step s (.life a) = some (s', e)) : Lifecycle.step s.life a = some (s'.life, e) := by
  have hsame : ∀ f : State N → State N, (∀ t, (f t).life = t.life) → same s a f = some (s', e) →
      Lifecycle.step s.life a = some (s'.life, e) := by
    intro f hf hh
    simp only [same, Option.map_eq_some_iff] at hh
    obtain ⟨⟨t, e'⟩, h1, h2⟩ := hh
    simp only [Prod.mk.injEq] at h2
    obtain ⟨rfl, rfl⟩ := h2
    rw [h1, hf]
  cases a with
  | enter => exact hsame (fun t => { t with stop := false }) (fun _ => rfl) hs
  | leave => exact hsame (fun t => { t with stop := true }) (fun _ => rfl) hs
  | procDone => exact hsame (fun t => { t with stale := true }) (fun _ => rfl) hs
  | procStart =>
    simp only [step, same, Option.map_eq_some_iff] at hs
    obtain ⟨⟨t, e'⟩, h1, h2⟩ := hs
    simp only [Prod.mk.injEq] at h2
    obtain ⟨rfl, rfl⟩ := h2
    rw [h1]
    simp only [Lifecycle.step] at h1
    split at h1
    · rename_i hp
      simp only [Option.some.injEq, Prod.mk.injEq] at h1
      obtain ⟨rfl, -⟩ := h1
      simp only [restart_all (h.fresh (Or.inr hp))]
    · cases h1
  | procStop =>
    simp only [step] at hs
    split at hs
    · rename_i h1 h2
      rw [h.stop] at h2
      cases hs
      simp only [Lifecycle.step, h1, h2]
    · cases hs
  | lis l b =>
    cases b with
    | runResume =>
      simp only [step, h.stale, Bool.false_eq_true, if_false] at hs
      exact hsame _ (fun _ => rfl) hs
    | _ => exact hsame _ (fun _ => rfl) hs
  | _ => exact hsame _ (fun _ => rfl) hs

/-- Conversely. -/
theorem pre_can {s : State N} {t : Lifecycle.State N} {a : Lifecycle.Act N} {e : List (Ev N)} (h : PInv s)
    (hs : Lifecycle.step s.life a = some (t, e)) :
    ∃ s', step s (.life a) = some (s', e) ∧ s'.life = t := by
  have hsame : ∀ f : State N → State N, (∀ t, (f t).life = t.life) →
      ∃ s', same s a f = some (s', e) ∧ s'.life = t := by
    intro f hf
    exact ⟨f { s with life := t }, by simp [same, hs], hf _⟩
  cases a with
  | enter => exact hsame (fun t => { t with stop := false }) (fun _ => rfl)
  | leave => exact hsame (fun t => { t with stop := true }) (fun _ => rfl)
  | procDone => exact hsame (fun t => { t with stale := true }) (fun _ => rfl)
  | procStart =>
    refine ⟨{ s with life := t }, ?_, rfl⟩
    simp only [step, same, hs, Option.map_some]
    simp only [Lifecycle.step] at hs
    split at hs
    · rename_i hp
      simp only [Option.some.injEq, Prod.mk.injEq] at hs
      obtain ⟨rfl, rfl⟩ := hs
      simp only [restart_all (h.fresh (Or.inr hp))]
    · cases hs
  | procStop =>
    simp only [Lifecycle.step] at hs
    split at hs
    · rename_i h1 h2
      rw [← h.stop] at h2
      cases hs
      exact ⟨{ s with life := { s.life with
        proc := .stopping, listeners := s.life.listeners.map Lifecycle.stopOne } },
        by simp only [step, h1, h2], rfl⟩
    · cases hs
  | lis l b =>
    cases b with
    | runResume =>
      simp only [step, h.stale, Bool.false_eq_true, if_false]
      exact hsame _ (fun _ => rfl)
    | _ => exact hsame _ (fun _ => rfl)
  | _ => exact hsame _ (fun _ => rfl)

/-- The flags of the new state. -/
theorem step_flags {s s' : State N} {a : Lifecycle.Act N} {e : List (Ev N)}
    (hs : step s (.life a) = some (s', e)) :
    (a ≠ .procDone → s'.stale = s.stale) ∧ (a = .procDone → s'.stale = true) ∧
    (a ≠ .leave → a ≠ .enter → s'.stop = s.stop) ∧ (a = .leave → s'.stop = true) ∧
    (a = .enter → s'.stop = false) := by
  have hsame : ∀ f : State N → State N, same s a f = some (s', e) →
      ∃ t, s' = f { s with life := t } := by
    intro f hh
    simp only [same, Option.map_eq_some_iff] at hh
    obtain ⟨⟨t, e'⟩, h1, h2⟩ := hh
    simp only [Prod.mk.injEq] at h2
    exact ⟨t, h2.1.symm⟩
  cases a with
  | enter => obtain ⟨t, rfl⟩ := hsame (fun t => { t with stop := false }) hs; simp
  | leave => obtain ⟨t, rfl⟩ := hsame (fun t => { t with stop := true }) hs; simp
  | procDone => obtain ⟨t, rfl⟩ := hsame (fun t => { t with stale := true }) hs; simp
  | procStart =>
    obtain ⟨t, rfl⟩ := hsame (fun t =>
      { t with life := { t.life with listeners := t.life.listeners.map restart } }) hs
    simp
  | procStop =>
    simp only [step] at hs
    split at hs
    · cases hs; simp
    · cases hs
  | lis l b =>
    cases b with
    | runResume =>
      simp only [step] at hs
      split at hs
      · repeat' split at hs
        all_goals first
          | (cases hs; done)
          | (cases hs; simp)
      · obtain ⟨t, rfl⟩ := hsame id hs; simp
    | _ => obtain ⟨t, rfl⟩ := hsame id hs; simp
  | _ => obtain ⟨t, rfl⟩ := hsame id hs; simp

/-- What happens in a listener whose events are set. -/
theorem dead_step {x x' : Listener.State N} {a : Listener.Act N} {c : Option N} (h : Dead x)
    (h1 : a ≠ .runResume) (hs : Listener.step x a = some (x', c)) : Dead x' ∧ c = none := by
  obtain ⟨addQ, got, cur, pd, jn, pend, nextQ, run, sa, pe⟩ := x
  obtain ⟨hst, hrun, hpop⟩ := h
  simp only at hst hrun hpop
  subst hst
  cases a with
  | runResume => exact absurd rfl h1
  | put n =>
    simp only [Listener.step] at hs
    split at hs
    · cases hs; exact ⟨⟨rfl, hrun, hpop⟩, rfl⟩
    · cases hs
  | getTask =>
    simp only [Listener.step] at hs
    split at hs
    · cases hs
    · split at hs
      · cases hs; exact ⟨⟨rfl, hrun, hpop⟩, rfl⟩
      · cases hs
  | putTask =>
    simp only [Listener.step] at hs
    split at hs
    · cases hs
    · rename_i hc
      split at hs
      · cases pe with
        | true => simp at hc
        | false => cases (hpop rfl).2.1
      · cases hs
  | popResume =>
    simp only [Listener.step] at hs
    split at hs
    · cases hs
    · cases hs; exact ⟨⟨rfl, hrun, by simp⟩, rfl⟩
  | joined =>
    simp only [Listener.step] at hs
    split at hs
    · cases hs
    · rename_i hc
      split at hs
      · cases hs
        refine ⟨⟨rfl, hrun, ?_⟩, rfl⟩
        intro hp
        simp only at hp
        have := (hpop hp).1
        simp only [this] at hc
        simp at hc
      · cases hs
  | runGet =>
    simp only [Listener.step] at hs
    split at hs
    · cases hs; exact ⟨⟨rfl, Or.inr (Or.inl ⟨_, rfl⟩), hpop⟩, rfl⟩
    · cases hs
  | handlerEnds ok =>
    simp only [Listener.step] at hs
    split at hs
    · rcases hrun with e | ⟨n, e⟩ | e <;> cases e
    · cases hs
  | wake =>
    simp only [Listener.step] at hs
    split at hs
    · rcases hrun with e | ⟨n, e⟩ | e <;> cases e
    · cases hs
  | stop => cases hs; exact ⟨⟨rfl, hrun, hpop⟩, rfl⟩

theorem dead_restart {x : Listener.State N} (h : Dead x) : Dead (restart x) :=
  ⟨h.stop, Or.inl rfl, fun _ => ⟨rfl, rfl, rfl⟩⟩

theorem dead_stop {x : Listener.State N} (h : Dead x) : Dead (Lifecycle.stopOne x) :=
  ⟨rfl, h.run, h.pop⟩

theorem dead_runStops {x x' : Listener.State N} (h : Dead x) (hs : runStops x = some x') :
    Dead x' ∧ x' = { x with run := .ended } := by
  simp only [runStops] at hs
  split at hs <;> cases hs
  · exact ⟨⟨h.stop, Or.inr (Or.inr rfl), h.pop⟩, rfl⟩
  · exact ⟨⟨h.stop, Or.inr (Or.inr rfl), h.pop⟩, rfl⟩

theorem get_map {A B : Type} {L : List A} {f : A → B} {l : Nat} {y : B} (h : (L.map f)[l]? = some y) :
    ∃ x, L[l]? = some x ∧ y = f x := by
  simp only [List.getElem?_map, Option.map_eq_some_iff] at h
  obtain ⟨x, h1, h2⟩ := h
  exact ⟨x, h1, h2.symm⟩

/-- The first call that got so far ends. -/
theorem sinv_done {s s' : State N} {e : List (Ev N)} (h : PInv s)
    (hs : step s (.life .procDone) = some (s', e)) : SInv s' := by
  have hl := pre_same h hs
  have hi' := Lifecycle.inv_step (by simp) h.inv hl
  have hfl := step_flags hs
  have hstale := hfl.2.1 rfl
  have hstop := hfl.2.2.1 (by simp) (by simp)
  have hpd : s'.life.proc = .done ∧ s'.life.stopped = s.life.stopped := by
    simp only [Lifecycle.step] at hl
    split at hl
    · split at hl
      · simp only [Option.some.injEq, Prod.mk.injEq] at hl
        rw [← hl.1]
        exact ⟨rfl, rfl⟩
      · cases hl
    · cases hl
  obtain ⟨hpd, hsto⟩ := hpd
  have hpc := hi'.pc
  unfold Lifecycle.pcOK at hpc
  have hsd : s'.life.started = true ∧ s'.life.stopped = true ∧ (s'.life.run = .awaiting ∨ s'.life.run = .ended) ∧
      s'.life.deltas = .idle := by
    cases hr : s'.life.run with
    | idle => rw [hr] at hpc; simp [hpd] at hpc
    | entering => rw [hr] at hpc; simp [hpd] at hpc
    | running => rw [hr] at hpc; simp [hpd] at hpc
    | closing => rw [hr] at hpc; simp [hpd] at hpc
    | leaving => rw [hr] at hpc; simp [hpd] at hpc
    | awaiting => rw [hr] at hpc; exact ⟨hpc.1, hpc.2.1, Or.inl rfl, hpc.2.2.2⟩
    | ended =>
      rw [hr] at hpc
      simp only [hpd] at hpc
      rcases hpc.2 with ⟨-, -, e⟩ | ⟨e1, e2, -⟩
      · cases e
      · exact ⟨e1, e2, Or.inr rfl, hpc.1⟩
  obtain ⟨h1, h2, h3, h4⟩ := hsd
  have hsb := hi'.free (Or.inr h2)
  have hregs : ∀ (r : Nat) (p : Lifecycle.Reg N), s'.life.regs[r]? = some p → p = .atLock ∨ ∃ q, p = .ended q := by
    intro r p hp
    cases p with
    | atLock => exact Or.inl rfl
    | ended q => exact Or.inr ⟨q, rfl⟩
    | atBlock => have := (hi'.sb r).2 ⟨_, hp, rfl⟩; rw [hsb] at this; cases this
    | adding l t => have := (hi'.sb r).2 ⟨_, hp, rfl⟩; rw [hsb] at this; cases this
    | joining l t => have := (hi'.sb r).2 ⟨_, hp, rfl⟩; rw [hsb] at this; cases this
  refine ⟨hstale, h1, h2, hsb, hregs, ?_, hi'.blkd, hi'.sync.1, ?_, hi'.fin, ?_⟩
  · cases hb : s'.life.block with
    | none => exact Or.inl rfl
    | some b =>
      cases b with
      | deltas => exact Or.inr rfl
      | reg r =>
        obtain ⟨p, hp, hq⟩ := (hi'.blk r).1 hb
        rcases hregs r p hp with rfl | ⟨q, rfl⟩ <;> simp [Lifecycle.hasBlock] at hq
  · intro l x hx
    have ho := hi'.fin hpd l x hx
    have hst := (hi'.stop l x hx).2 (Or.inr hpd)
    obtain ⟨addQ, got, cur, pd, jn, pend, nextQ, run, sa, pe⟩ := x
    simp only [Lifecycle.over, Bool.and_eq_true] at ho
    refine ⟨hst, Or.inr (Or.inr ?_), ?_⟩
    · have := ho.2
      simp only at this ⊢
      split at this
      · rfl
      · cases this
    · intro hp
      simp only at hp
      simp only [hp] at ho
      simp at ho
  · unfold pcOK
    rcases h3 with h3 | h3
    · rw [h3]
      refine ⟨?_, by rw [hpd]; simp, h4⟩
      rw [hstop, h.stop, ← hsto]
      exact h2
    · rw [h3]
      exact ⟨hpd, h4⟩

/-- Before that. -/
theorem pinv_step {s s' : State N} {a : Lifecycle.Act N} {e : List (Ev N)} (h : PInv s)
    (ha : a ≠ .cancelAgain) (hd : a ≠ .procDone) (hs : step s (.life a) = some (s', e)) : PInv s' := by
  have hl := pre_same h hs
  have hi' := Lifecycle.inv_step ha h.inv hl
  obtain ⟨f1, -, f3, f4, f5⟩ := step_flags hs
  obtain ⟨g1, g2, g3⟩ := life_flags hl
  have hent : a = .enter → s.life.proc = .none ∧ s.life.stopped = false := by
    rintro rfl
    have hpc := h.inv.pc
    unfold Lifecycle.pcOK at hpc
    simp only [Lifecycle.step] at hl
    split at hl
    · rename_i e1 e2
      rw [e1] at hpc
      exact ⟨hpc.2.2.1, hpc.2.1⟩
    · cases hl
  refine ⟨by rw [f1 hd, h.stale], hi', ?_, g3 hd h.proc, fresh_step h.fresh (fun e => (hent e).1) hl⟩
  by_cases e1 : a = .leave
  · rw [f4 e1, g2 e1]
  · by_cases e2 : a = .enter
    · rw [f5 e2, g1 e1, (hent e2).2]
    · rw [f3 e1 e2, g1 e1, h.stop]

/-- `run` is called again after a call that has not got so far. -/
theorem pinv_again {s s' : State N} {e : List (Ev N)} (h : PInv s) (hs : step s .again = some (s', e)) :
    PInv s' ∧ e = [] ∧ s.life.started = false ∧ s'.life = { s.life with run := .entering } := by
  simp only [step] at hs
  have hpc := h.inv.pc
  unfold Lifecycle.pcOK at hpc
  split at hs
  · rename_i h1 h2
    cases hs
    rw [h1] at hpc
    simp only [h2] at hpc
    have h3 : s.life.started = false ∧ s.life.stopped = false ∧ s.life.deltas = .idle := by
      rcases hpc.2 with ⟨e1, e2, -⟩ | ⟨-, -, e3⟩
      · exact ⟨e1, e2, hpc.1⟩
      · cases e3
    obtain ⟨i1, i2, i3, i4, i5, i6, i7, i8, i9, i10, i11⟩ := h.inv
    refine ⟨⟨h.stale, ⟨i1, i2, i3, i4, i5, i6, i7, i8, i9, ?_, i11⟩, h.stop, h.proc, h.fresh⟩, rfl, h3.1, rfl⟩
    exact ⟨h3.1, h3.2.1, h2, h3.2.2⟩
  · rename_i h1 h2
    exact absurd h2 h.proc
  · cases hs

/-- No handler is called and no listener is made. -/
def Silent (e : List (Ev N)) : Prop := (∀ l n, Ev.call l n ∉ e) ∧ ∀ l items, Ev.new l items ∉ e

theorem silent_nil : Silent ([] : List (Ev N)) := ⟨by simp, by simp⟩

private theorem dead_set {L : List (Listener.State N)} (h : ∀ (l : Nat) (x : Listener.State N),
    L[l]? = some x → Dead x) {l : Nat} {x : Listener.State N} (hx : Dead x) :
    ∀ (m : Nat) (y : Listener.State N), (L.set l x)[m]? = some y → Dead y := by
  intro m y hy
  rcases List.mem_or_eq_of_mem_set (List.mem_of_getElem? hy) with h1 | rfl
  · obtain ⟨j, hj⟩ := List.mem_iff_getElem?.1 h1
    exact h j y hj
  · exact hx

private theorem over_set {L : List (Listener.State N)} (h : ∀ (l : Nat) (x : Listener.State N),
    L[l]? = some x → Lifecycle.over x = true) {l : Nat} {x : Listener.State N} (hx : Lifecycle.over x = true) :
    ∀ (m : Nat) (y : Listener.State N), (L.set l x)[m]? = some y → Lifecycle.over y = true := by
  intro m y hy
  rcases List.mem_or_eq_of_mem_set (List.mem_of_getElem? hy) with h1 | rfl
  · obtain ⟨j, hj⟩ := List.mem_iff_getElem?.1 h1
    exact h j y hj
  · exact hx

/-- Nothing but the calls of `add_event_handler` changes. -/
private theorem sinv_regs {s : State N} (h : SInv s) (R : List (Lifecycle.Reg N))
    (hr : ∀ (r : Nat) (p : Lifecycle.Reg N), R[r]? = some p → p = .atLock ∨ ∃ q, p = .ended q) :
    SInv { s with life := { s.life with regs := R } } :=
  ⟨h.stale, h.started, h.stopped, h.sb, hr, h.blk, h.blkd, h.sync, h.dead, h.fin, h.pc⟩

private theorem sinv_setReg {s : State N} (h : SInv s) (r : Nat) (q : Lifecycle.Result) :
    SInv { s with life := s.life.setReg r (.ended q) } := by
  refine sinv_regs h _ fun m p hp => ?_
  rcases List.mem_or_eq_of_mem_set (List.mem_of_getElem? hp) with h1 | rfl
  · obtain ⟨j, hj⟩ := List.mem_iff_getElem?.1 h1
    exact h.regs j p hj
  · exact Or.inr ⟨q, rfl⟩

/-- A step of a listener. -/
private theorem sinv_lis {s : State N} (h : SInv s) {l : Nat} {x x' : Listener.State N}
    (hx : s.life.listeners[l]? = some x) (hd : Dead x') (ho : Lifecycle.over x = true → Lifecycle.over x' = true) :
    SInv { s with life := { s.life with listeners := s.life.listeners.set l x' } } :=
  ⟨h.stale, h.started, h.stopped, h.sb, h.regs, h.blk, h.blkd, by simpa using h.sync, dead_set h.dead hd,
    fun hp => over_set (h.fin hp) (ho (h.fin hp l x hx)), h.pc⟩

theorem sinv_running {s : State N} (h : SInv s) (hd : s.life.deltas ≠ .idle) :
    s.life.run = .running ∧ s.life.proc = .running ∧ s.stop = false := by
  have hpc := h.pc
  unfold pcOK at hpc
  cases hr : s.life.run with
  | idle => rw [hr] at hpc; exact hpc.elim
  | entering => rw [hr] at hpc; exact absurd hpc.2 hd
  | running =>
    rw [hr] at hpc
    rcases hpc.2 with ⟨-, e⟩ | e
    · exact absurd e hd
    · exact ⟨rfl, e, hpc.1⟩
  | closing => rw [hr] at hpc; exact absurd hpc.2.2 hd
  | leaving => rw [hr] at hpc; exact absurd hpc.2.2 hd
  | awaiting => rw [hr] at hpc; exact absurd hpc.2.2 hd
  | ended => rw [hr] at hpc; exact absurd hpc.2 hd

/-- A step of `handle_deltas` that goes on. -/
private theorem sinv_deltas {s : State N} (h : SInv s) (hd : s.life.deltas ≠ .idle) (st : List N)
    (d : Lifecycle.DPc N) (hd' : d ≠ .idle) :
    SInv { s with life := { s.life with deltas := d, store := st } } := by
  obtain ⟨h1, h2, h3⟩ := sinv_running h hd
  have hb := h.blkd.2 hd
  refine ⟨h.stale, h.started, h.stopped, h.sb, h.regs, h.blk, ?_, h.sync, h.dead, h.fin, ?_⟩
  · exact ⟨fun _ => hd', fun _ => hb⟩
  · unfold pcOK
    simp only [h1]
    exact ⟨h3, Or.inr h2⟩

private theorem sinv_next {s : State N} (h : SInv s) (hd : s.life.deltas ≠ .idle) (n : N) (ls : List Nat) :
    SInv { s with life := Lifecycle.deltaNext s.life n ls } := by
  cases ls with
  | nil => exact sinv_deltas h hd s.life.store .holding (by simp)
  | cons l ls => exact sinv_deltas h hd s.life.store (.putting n l ls) (by simp)

theorem sinv_again {s s' : State N} {e : List (Ev N)} (h : SInv s) (hs : step s .again = some (s', e)) :
    SInv s' ∧ e = [] ∧ s.life.run = .ended ∧ s'.life = { s.life with run := .entering } := by
  simp only [step] at hs
  have hpc := h.pc
  unfold pcOK at hpc
  split at hs
  · rename_i h1 h2
    rw [h1] at hpc
    rw [h2] at hpc
    cases hpc.1
  · rename_i h1 h2
    cases hs
    rw [h1] at hpc
    refine ⟨⟨h.stale, h.started, h.stopped, h.sb, h.regs, h.blk, h.blkd, h.sync, h.dead, h.fin, ?_⟩, rfl, h1, rfl⟩
    exact hpc
  · cases hs

theorem sinv_step {s s' : State N} {a : Lifecycle.Act N} {e : List (Ev N)} (h : SInv s)
    (ha : a ≠ .cancelAgain) (hs : step s (.life a) = some (s', e)) :
    SInv s' ∧ Silent e ∧ s'.life.listeners.length = s.life.listeners.length := by
  obtain ⟨L, stop, stale⟩ := s
  have hst : stale = true := h.stale
  subst hst
  have hpc := h.pc
  unfold pcOK at hpc
  have hsame : ∀ (f : State N → State N), same ⟨L, stop, true⟩ a f = some (s', e) →
      ∃ t, Lifecycle.step L a = some (t, e) ∧ s' = f ⟨t, stop, true⟩ := by
    intro f hh
    simp only [same, Option.map_eq_some_iff] at hh
    obtain ⟨⟨t, e'⟩, h1, h2⟩ := hh
    simp only [Prod.mk.injEq] at h2
    exact ⟨t, by rw [h1, h2.2], h2.1.symm⟩
  cases a with
  | cancelAgain => exact absurd rfl ha
  | addHandler =>
    obtain ⟨t, h1, rfl⟩ := hsame id hs
    cases h1
    refine ⟨sinv_regs h _ ?_, silent_nil, rfl⟩
    intro r p hp
    rcases List.mem_append.1 (List.mem_of_getElem? hp) with h1 | h1
    · obtain ⟨j, hj⟩ := List.mem_iff_getElem?.1 h1
      exact h.regs j p hj
    · simp only [List.mem_singleton] at h1
      exact Or.inl h1
  | regEnter r =>
    obtain ⟨t, h1, rfl⟩ := hsame id hs
    simp only [Lifecycle.step] at h1
    split at h1
    · rw [if_pos h.stopped] at h1
      cases h1
      exact ⟨sinv_setReg h r .refused, silent_nil, rfl⟩
    · cases h1
  | regBlock r =>
    obtain ⟨t, h1, rfl⟩ := hsame id hs
    simp only [Lifecycle.step] at h1
    split at h1
    · rename_i e1 e2
      rcases h.regs r _ e1 with e | ⟨q, e⟩ <;> cases e
    · cases h1
  | regPut r =>
    obtain ⟨t, h1, rfl⟩ := hsame id hs
    simp only [Lifecycle.step] at h1
    split at h1
    · rename_i e1
      rcases h.regs r _ e1 with e | ⟨q, e⟩ <;> cases e
    · cases h1
  | regJoin r =>
    obtain ⟨t, h1, rfl⟩ := hsame id hs
    simp only [Lifecycle.step] at h1
    split at h1
    · rename_i e1
      rcases h.regs r _ e1 with e | ⟨q, e⟩ <;> cases e
    · cases h1
  | regCancel r =>
    obtain ⟨t, h1, rfl⟩ := hsame id hs
    simp only [Lifecycle.step] at h1
    split at h1
    · cases h1
      exact ⟨sinv_setReg h r .cancelled, silent_nil, rfl⟩
    · rename_i e1
      rcases h.regs r _ e1 with e | ⟨q, e⟩ <;> cases e
    · rename_i e1
      rcases h.regs r _ e1 with e | ⟨q, e⟩ <;> cases e
    · rename_i e1
      rcases h.regs r _ e1 with e | ⟨q, e⟩ <;> cases e
    · cases h1
  | start =>
    obtain ⟨t, h1, rfl⟩ := hsame id hs
    simp only [Lifecycle.step] at h1
    split at h1
    · rename_i e1
      simp only [e1] at hpc
    · cases h1
  | enter =>
    obtain ⟨t, h1, rfl⟩ := hsame (fun t => { t with stop := false }) hs
    simp only [Lifecycle.step] at h1
    split at h1
    · rename_i e1 e2
      cases h1
      simp only [e1] at hpc
      refine ⟨⟨rfl, rfl, h.stopped, h.sb, h.regs, h.blk, h.blkd, h.sync, h.dead, by simp, ?_⟩, silent_nil, rfl⟩
      exact ⟨rfl, Or.inl ⟨rfl, hpc.2⟩⟩
    · cases h1
  | procStart =>
    obtain ⟨t, h1, rfl⟩ := hsame (fun t =>
      { t with life := { t.life with listeners := t.life.listeners.map restart } }) hs
    simp only [Lifecycle.step] at h1
    split at h1
    · rename_i e1
      cases h1
      refine ⟨⟨rfl, h.started, h.stopped, h.sb, h.regs, h.blk, h.blkd, by simpa using h.sync, ?_, by simp, ?_⟩, silent_nil,
        by simp⟩
      · intro l x hx
        obtain ⟨y, h1, rfl⟩ := get_map hx
        exact dead_restart (h.dead l y h1)
      · unfold pcOK
        simp only [e1] at hpc
        cases hr : L.run <;> simp only [hr] at hpc ⊢
        · simp at hpc
        · exact ⟨hpc.1, Or.inr trivial⟩
        · exact ⟨hpc.1, Or.inr trivial, hpc.2.2⟩
        · exact ⟨hpc.1, Or.inr trivial, hpc.2.2⟩
        · exact ⟨hpc.1, by simp, hpc.2.2⟩
        · simp at hpc
    · cases h1
  | deltaBlock =>
    obtain ⟨t, h1, rfl⟩ := hsame id hs
    simp only [Lifecycle.step] at h1
    split at h1
    · rename_i e1 e2 e3 e4
      cases h1
      simp only [e1] at hpc
      refine ⟨⟨rfl, h.started, h.stopped, h.sb, h.regs, Or.inr rfl, by simp, h.sync, h.dead, h.fin, ?_⟩, silent_nil,
        rfl⟩
      unfold pcOK
      simp only [id, e1]
      exact ⟨hpc.1, Or.inr e2⟩
    · cases h1
  | distribute n b st =>
    obtain ⟨t, h1, rfl⟩ := hsame id hs
    simp only [Lifecycle.step] at h1
    split at h1
    · rename_i e1
      simp only [Option.some.injEq, Prod.mk.injEq] at h1
      obtain ⟨rfl, rfl⟩ := h1
      have hd : L.deltas ≠ .idle := by rw [e1]; simp
      have h2 : SInv (⟨{ L with store := st }, stop, true⟩ : State N) := sinv_deltas h hd st L.deltas hd
      refine ⟨sinv_next h2 hd n _, ⟨by simp, by simp⟩, ?_⟩
      show (Lifecycle.deltaNext _ _ _).listeners.length = _
      rw [(deltaNext_same _ _ _).1]
    · cases h1
  | deltaPut =>
    obtain ⟨t, h1, rfl⟩ := hsame id hs
    simp only [Lifecycle.step] at h1
    split at h1
    · rename_i n l ls e1
      have hd : L.deltas ≠ .idle := by rw [e1]; simp
      split at h1
      · rename_i t' ht
        simp only [Option.some.injEq, Prod.mk.injEq] at h1
        obtain ⟨rfl, rfl⟩ := h1
        obtain ⟨x, x', c, k1, k2, rfl⟩ := Lifecycle.putTo_spec ht
        have hdx := (dead_step (h.dead l x k1) (by simp) k2).1
        have h2 := sinv_lis h k1 hdx (fun ho => (Lifecycle.over_stays ho k2).1)
        exact ⟨sinv_deltas h2 hd L.store (.joining n l ls) (by simp), ⟨by simp, by simp⟩, by simp⟩
      · cases h1
    · cases h1
  | deltaJoin =>
    obtain ⟨t, h1, rfl⟩ := hsame id hs
    simp only [Lifecycle.step] at h1
    split at h1
    · rename_i n l ls e1
      have hd : L.deltas ≠ .idle := by rw [e1]; simp
      split at h1
      · simp only [Option.some.injEq, Prod.mk.injEq] at h1
        obtain ⟨rfl, rfl⟩ := h1
        refine ⟨sinv_next h hd n ls, silent_nil, ?_⟩
        show (Lifecycle.deltaNext _ _ _).listeners.length = _
        rw [(deltaNext_same _ _ _).1]
      · cases h1
    · cases h1
  | deltaEnd =>
    obtain ⟨t, h1, rfl⟩ := hsame id hs
    simp only [Lifecycle.step] at h1
    split at h1
    · rename_i e1
      cases h1
      have hd : L.deltas ≠ .idle := by rw [e1]; simp
      obtain ⟨k1, k2, k3⟩ := sinv_running h hd
      refine ⟨⟨rfl, h.started, h.stopped, h.sb, h.regs, Or.inl rfl, by simp, h.sync, h.dead, h.fin, ?_⟩, silent_nil,
        rfl⟩
      unfold pcOK
      simp only at k1 k2 k3
      simp only [id, k1]
      exact ⟨k3, Or.inr k2⟩
    · cases h1
  | check ls =>
    obtain ⟨t, h1, rfl⟩ := hsame id hs
    cases h1
    refine ⟨⟨rfl, h.started, h.stopped, h.sb, h.regs, h.blk, h.blkd, ?_, h.dead, h.fin, h.pc⟩, silent_nil, rfl⟩
    intro l hl
    simp only [id, List.mem_filter, List.mem_range] at hl
    exact hl.1
  | cancel =>
    obtain ⟨t, h1, rfl⟩ := hsame id hs
    simp only [Lifecycle.step] at h1
    split at h1
    · rename_i e1
      cases h1
      simp only [e1] at hpc
      exact ⟨⟨rfl, h.started, h.stopped, h.sb, h.regs, h.blk, h.blkd, h.sync, h.dead, h.fin, hpc⟩, silent_nil, rfl⟩
    · rename_i e1
      simp only [e1] at hpc
      have hp : L.proc = .ready ∨ L.proc = .running := by
        rcases hpc.2 with ⟨e, -⟩ | e
        · exact Or.inl e
        · exact Or.inr e
      split at h1
      · rename_i e2
        cases h1
        exact ⟨⟨rfl, h.started, h.stopped, h.sb, h.regs, h.blk, h.blkd, h.sync, h.dead, h.fin, hpc.1, hp, e2⟩, silent_nil,
          rfl⟩
      · cases h1
        exact ⟨⟨rfl, h.started, h.stopped, h.sb, h.regs, Or.inl rfl, by simp, h.sync, h.dead, h.fin, hpc.1, hp, rfl⟩,
          silent_nil, rfl⟩
    · cases h1
  | reflectorEnds =>
    obtain ⟨t, h1, rfl⟩ := hsame id hs
    simp only [Lifecycle.step] at h1
    split at h1
    · rename_i e1
      cases h1
      simp only [e1] at hpc
      exact ⟨⟨rfl, h.started, h.stopped, h.sb, h.regs, h.blk, h.blkd, h.sync, h.dead, h.fin, hpc⟩, silent_nil, rfl⟩
    · cases h1
  | leave =>
    obtain ⟨t, h1, rfl⟩ := hsame (fun t => { t with stop := true }) hs
    simp only [Lifecycle.step] at h1
    split at h1
    · rename_i e1 e2
      cases h1
      simp only [e1] at hpc
      refine ⟨⟨rfl, h.started, rfl, h.sb, h.regs, h.blk, h.blkd, h.sync, h.dead, h.fin, rfl, ?_, hpc.2.2⟩, silent_nil, rfl⟩
      rcases hpc.2.1 with e | e <;> simp only [e] <;> simp
    · cases h1
  | procStop =>
    simp only [step] at hs
    split at hs
    · rename_i e1
      cases hs
      refine ⟨⟨rfl, h.started, h.stopped, h.sb, h.regs, h.blk, h.blkd, by simpa using h.sync, ?_, by simp, ?_⟩, silent_nil, by simp⟩
      · intro l x hx
        obtain ⟨y, h1, rfl⟩ := get_map hx
        exact dead_stop (h.dead l y h1)
      · unfold pcOK
        simp only [e1] at hpc
        cases hr : L.run <;> simp only [hr] at hpc ⊢
        · simp at hpc
        · simp at hpc
        · simp at hpc
        · simp at hpc
        · exact ⟨trivial, by simp, hpc.2.2⟩
        · simp at hpc
    · cases hs
  | procDone =>
    obtain ⟨t, h1, rfl⟩ := hsame (fun t => { t with stale := true }) hs
    simp only [Lifecycle.step] at h1
    split at h1
    · rename_i e1
      split at h1
      · rename_i e2
        cases h1
        refine ⟨⟨rfl, h.started, h.stopped, h.sb, h.regs, h.blk, h.blkd, h.sync, h.dead, ?_, ?_⟩, silent_nil, rfl⟩
        · intro _ l x hx
          simp only [List.all_eq_true] at e2
          exact e2 x (List.mem_of_getElem? hx)
        · unfold pcOK
          simp only [e1] at hpc
          cases hr : L.run <;> simp only [hr] at hpc ⊢
          · simp at hpc
          · simp at hpc
          · simp at hpc
          · simp at hpc
          · exact ⟨hpc.1, by simp, hpc.2.2⟩
          · simp at hpc
      · cases h1
    · cases h1
  | finish =>
    obtain ⟨t, h1, rfl⟩ := hsame id hs
    simp only [Lifecycle.step] at h1
    split at h1
    · rename_i e1 e2
      cases h1
      simp only [e1] at hpc
      exact ⟨⟨rfl, h.started, h.stopped, h.sb, h.regs, h.blk, h.blkd, h.sync, h.dead, h.fin, e2, hpc.2.2⟩, silent_nil,
        rfl⟩
    · cases h1
  | lis l b =>
    by_cases hb : b = .runResume
    · subst hb
      simp only [step, if_true] at hs
      split at hs
      · cases hs
      · cases hs
      · cases hs
      · rename_i x e3 e1 e2
        split at hs
        · cases hs
        · rename_i x' hx'
          cases hs
          obtain ⟨h1, h2⟩ := dead_runStops (h.dead l x e3) hx'
          refine ⟨sinv_lis h e3 h1 ?_, silent_nil, by simp⟩
          intro ho
          rw [h2]
          simp only [Lifecycle.over, Bool.and_eq_true] at ho ⊢
          exact ⟨ho.1, trivial⟩
    · have hs' : same ⟨L, stop, true⟩ (.lis l b) id = some (s', e) := by
        cases b with
        | runResume => exact absurd rfl hb
        | _ => exact hs
      obtain ⟨t, h1, rfl⟩ := hsame id hs'
      simp only [Lifecycle.step] at h1
      split at h1
      · cases h1
      · cases h1
      · split at h1
        · split at h1
          · cases h1
          · rename_i x hx
            split at h1
            · cases h1
            · rename_i x' c hx'
              simp only [Option.some.injEq, Prod.mk.injEq] at h1
              obtain ⟨rfl, rfl⟩ := h1
              obtain ⟨k1, rfl⟩ := dead_step (h.dead l x hx) hb hx'
              exact ⟨sinv_lis h hx k1 (fun ho => (Lifecycle.over_stays ho hx').1), silent_nil, by simp⟩
        · cases h1

theorem exec_cons {s s' : State N} {a : Act N} {as : List (Act N)} {es : List (Ev N)}
    (h : exec s (a :: as) = some (s', es)) :
    ∃ s1 e es', step s a = some (s1, e) ∧ exec s1 as = some (s', es') ∧ es = e ++ es' := by
  simp only [exec] at h
  split at h
  · cases h
  · rename_i s1 e h1
    split at h
    · cases h
    · rename_i s2 es' h2
      simp only [Option.some.injEq, Prod.mk.injEq] at h
      obtain ⟨rfl, rfl⟩ := h
      exact ⟨s1, e, es', h1, h2, rfl⟩

theorem sinv_exec (as : List (Act N)) : ∀ {s s' : State N} {es : List (Ev N)},
    Act.life .cancelAgain ∉ as → SInv s → exec s as = some (s', es) →
    SInv s' ∧ Silent es ∧ s'.life.listeners.length = s.life.listeners.length := by
  induction as with
  | nil => intro s s' es _ h he; simp [exec] at he; obtain ⟨rfl, rfl⟩ := he; exact ⟨h, silent_nil, rfl⟩
  | cons a as ih =>
    intro s s' es ha h he
    simp only [List.mem_cons, not_or] at ha
    obtain ⟨s1, e, es', h1, h2, rfl⟩ := exec_cons he
    have hstep : SInv s1 ∧ Silent e ∧ s1.life.listeners.length = s.life.listeners.length := by
      cases a with
      | again =>
        obtain ⟨k1, rfl, -, k3⟩ := sinv_again h h1
        exact ⟨k1, silent_nil, by rw [k3]⟩
      | life a => exact sinv_step h (fun e => ha.1 (by rw [e])) h1
    obtain ⟨k1, k2, k3⟩ := ih ha.2 hstep.1 h2
    refine ⟨k1, ⟨?_, ?_⟩, by rw [k3, hstep.2.2]⟩
    · intro l n hm
      rcases List.mem_append.1 hm with hm | hm
      · exact hstep.2.1.1 l n hm
      · exact k2.1 l n hm
    · intro l n hm
      rcases List.mem_append.1 hm with hm | hm
      · exact hstep.2.1.2 l n hm
      · exact k2.2 l n hm

/-- Every reachable state is of one of the two kinds. -/
theorem reach (as : List (Act N)) : ∀ {s s' : State N} {es : List (Ev N)},
    Act.life .cancelAgain ∉ as → PInv s ∨ SInv s → exec s as = some (s', es) → PInv s' ∨ SInv s' := by
  induction as with
  | nil => intro s s' es _ h he; simp [exec] at he; obtain ⟨rfl, rfl⟩ := he; exact h
  | cons a as ih =>
    intro s s' es ha h he
    rcases h with h | h
    · simp only [List.mem_cons, not_or] at ha
      obtain ⟨s1, e, es', h1, h2, rfl⟩ := exec_cons he
      refine ih ha.2 ?_ h2
      cases a with
      | again => exact Or.inl (pinv_again h h1).1
      | life a =>
        have hne : a ≠ .cancelAgain := fun e => ha.1 (by rw [e])
        by_cases hd : a = .procDone
        · subst hd
          exact Or.inr (sinv_done h h1)
        · exact Or.inl (pinv_step h hne hd h1)
    · exact Or.inr (sinv_exec (a :: as) ha h he).1

/-- A call that got so far has ended. -/
theorem sinv_ended {as : List (Act N)} {s : State N} {L : List (Ev N)} (ha : Act.life .cancelAgain ∉ as)
    (h : exec init as = some (s, L)) (hr : s.life.run = .ended) (hst : s.life.started = true) : SInv s := by
  rcases reach as ha (Or.inl pinv_init) h with hp | hp
  · have hpc := hp.inv.pc
    unfold Lifecycle.pcOK at hpc
    rw [hr] at hpc
    rcases hpc.2 with ⟨e, -⟩ | ⟨-, -, e⟩
    · rw [hst] at e; cases e
    · exact absurd e hp.proc
  · exact hp

end Aiok8s.Rerun
