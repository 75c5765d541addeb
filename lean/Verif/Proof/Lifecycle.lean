import Verif.Spec.Lifecycle
import Verif.Proof.Listener
import Mathlib.Data.List.Nodup
/-!
# Lemmas about the life of a shared informer
-/
set_option linter.unusedSimpArgs false
set_option linter.unusedVariables false
namespace Aiok8s.Lifecycle
open Spec
variable {N : Type}

/-- holds `_started_lock` -/
def hasStarted : Reg N → Bool
  | .atBlock | .adding _ _ | .joining _ _ => true
  | _ => false

/-- holds `_block_deltas` -/
def hasBlock : Reg N → Bool
  | .adding _ _ | .joining _ _ => true
  | _ => false

/-- where the tasks of `run` can be -/
def pcOK (s : State N) : Prop :=
  match s.run with
  | .idle | .entering => s.started = false ∧ s.stopped = false ∧ s.proc = .none ∧ s.deltas = .idle
  | .running => s.started = true ∧ s.stopped = false ∧ (s.proc = .ready ∨ s.proc = .running)
  | .closing | .leaving => s.started = true ∧ s.stopped = false ∧
      (s.proc = .ready ∨ s.proc = .running) ∧ s.deltas = .idle
  | .awaiting => s.started = true ∧ s.stopped = true ∧ s.proc ≠ .none ∧ s.deltas = .idle
  | .ended => s.deltas = .idle ∧
      ((s.started = false ∧ s.stopped = false ∧ s.proc = .none) ∨
       (s.started = true ∧ s.stopped = true ∧ s.proc = .done))

/-- the target of a call of `add_event_handler` -/
def regOK (len : Nat) : Reg N → Prop
  | .adding l todo => l < len ∧ todo ≠ []
  | .joining l _ => l < len
  | _ => True

/-- the targets of a distribution -/
def deltaOK (len : Nat) : DPc N → Prop
  | .putting _ l ls | .joining _ l ls => (∀ m ∈ l :: ls, m < len) ∧ (l :: ls).Nodup
  | _ => True

/-- Facts about reachable states. -/
structure Inv (s : State N) : Prop where
  lis : ∀ (l : Nat) (x : Listener.State N), s.listeners[l]? = some x → Listener.Inv x
  stop : ∀ (l : Nat) (x : Listener.State N), s.listeners[l]? = some x →
    (x.stopAdd = true ↔ s.proc = .stopping ∨ s.proc = .done)
  fin : s.proc = .done → ∀ (l : Nat) (x : Listener.State N), s.listeners[l]? = some x → over x = true
  sb : ∀ (r : Nat), s.startedBy = some r ↔ ∃ p, s.regs[r]? = some p ∧ hasStarted p = true
  blk : ∀ (r : Nat), s.block = some (.reg r) ↔ ∃ p, s.regs[r]? = some p ∧ hasBlock p = true
  blkd : s.block = some .deltas ↔ s.deltas ≠ .idle
  reg : ∀ (r : Nat) (p : Reg N), s.regs[r]? = some p → regOK s.listeners.length p
  dt : deltaOK s.listeners.length s.deltas
  sync : (∀ l ∈ s.syncing, l < s.listeners.length) ∧ s.syncing.Nodup
  pc : pcOK s
  free : s.started = false ∨ s.stopped = true → s.startedBy = none

theorem inv_init : Inv (init : State N) := by
  constructor <;> simp [init, pcOK, deltaOK]

theorem over_stays {x x' : Listener.State N} {a : Listener.Act N} {c : Option N} (h : over x = true)
    (hs : Listener.step x a = some (x', c)) : over x' = true ∧ c = none := by
  obtain ⟨addQ, got, cur, pd, jn, pend, nextQ, run, sa, pe⟩ := x
  cases pe with
  | false => simp [over] at h
  | true =>
    cases run with
    | ended =>
      cases a with
      | put n =>
        cases addQ <;> simp [Listener.step] at hs
        obtain ⟨rfl, rfl⟩ := hs; exact ⟨rfl, rfl⟩
      | joined =>
        cases jn <;> cases nextQ <;> simp [Listener.step] at hs
        obtain ⟨rfl, rfl⟩ := hs; exact ⟨rfl, rfl⟩
      | stop => simp [Listener.step] at hs; obtain ⟨rfl, rfl⟩ := hs; exact ⟨rfl, rfl⟩
      | getTask | putTask | popResume | runGet | runResume | handlerEnds | wake =>
        simp [Listener.step] at hs
    | _ => simp [over] at h

/-- only `_stop_add.set()` sets it -/
theorem stop_same {x x' : Listener.State N} {a : Listener.Act N} {c : Option N} (ha : a ≠ .stop)
    (hs : Listener.step x a = some (x', c)) : x'.stopAdd = x.stopAdd := by
  cases a with
  | stop => exact absurd rfl ha
  | put | getTask | putTask | popResume | joined | runGet | runResume | handlerEnds | wake =>
    simp only [Listener.step] at hs
    repeat' split at hs
    all_goals simp at hs
    all_goals (obtain ⟨rfl, -⟩ := hs; rfl)

theorem stop_inv {x : Listener.State N} (h : Listener.Inv x) : Listener.Inv (stopOne x) := by
  have : Listener.step x .stop = some (stopOne x, none) := rfl
  exact Listener.inv_step h this

theorem get_set {A : Type} {l : List A} {r : Nat} {p : A} {q : A} (h : l[r]? = some q) (m : Nat) (y : A) :
    (l.set r p)[m]? = some y ↔ (m = r ∧ y = p) ∨ (m ≠ r ∧ l[m]? = some y) := by
  have hlen : r < l.length := (List.getElem?_eq_some_iff.1 h).1
  rw [List.getElem?_set]
  by_cases hm : r = m
  · subst hm
    rw [if_pos rfl, if_pos hlen]
    simp [eq_comm]
  · rw [if_neg hm]
    have : m ≠ r := fun e => hm e.symm
    simp [this]

/-- The parts of the invariant that are about the listeners after one of them made a step. -/
theorem lis_set {s : State N} (h : Inv s) {l : Nat} {x x' : Listener.State N} {a : Listener.Act N}
    {c : Option N} (hl : s.listeners[l]? = some x) (ha : a ≠ .stop)
    (hx : Listener.step x a = some (x', c)) :
    (∀ (m : Nat) (y : Listener.State N), (s.listeners.set l x')[m]? = some y → Listener.Inv y) ∧
    (∀ (m : Nat) (y : Listener.State N), (s.listeners.set l x')[m]? = some y →
      (y.stopAdd = true ↔ s.proc = .stopping ∨ s.proc = .done)) ∧
    (s.proc = .done → ∀ (m : Nat) (y : Listener.State N), (s.listeners.set l x')[m]? = some y →
      over y = true) := by
  have key : ∀ (m : Nat) (y : Listener.State N), (s.listeners.set l x')[m]? = some y →
      (m = l ∧ y = x') ∨ s.listeners[m]? = some y := by
    intro m y hm
    rcases (get_set hl m y).1 hm with h | h
    · exact .inl h
    · exact .inr h.2
  refine ⟨fun m y hm => ?_, fun m y hm => ?_, fun hd m y hm => ?_⟩
  · rcases key m y hm with ⟨rfl, rfl⟩ | hm
    · exact Listener.inv_step (h.lis _ _ hl) hx
    · exact h.lis _ _ hm
  · rcases key m y hm with ⟨rfl, rfl⟩ | hm
    · rw [stop_same ha hx]; exact h.stop _ _ hl
    · exact h.stop _ _ hm
  · rcases key m y hm with ⟨rfl, rfl⟩ | hm
    · exact (over_stays (h.fin hd _ _ hl) hx).1
    · exact h.fin hd _ _ hm

/-- The parts about a new listener. -/
theorem lis_new {s : State N} (h : Inv s) (hp : s.proc ≠ .stopping ∧ s.proc ≠ .done) :
    (∀ (m : Nat) (y : Listener.State N), (s.listeners ++ [Listener.init])[m]? = some y → Listener.Inv y) ∧
    (∀ (m : Nat) (y : Listener.State N), (s.listeners ++ [Listener.init])[m]? = some y →
      (y.stopAdd = true ↔ s.proc = .stopping ∨ s.proc = .done)) ∧
    (s.proc = .done → ∀ (m : Nat) (y : Listener.State N), (s.listeners ++ [Listener.init])[m]? = some y →
      over y = true) := by
  have key : ∀ (m : Nat) (y : Listener.State N), (s.listeners ++ [Listener.init])[m]? = some y →
      y = Listener.init ∨ s.listeners[m]? = some y := by
    intro m y hm
    rw [List.getElem?_append] at hm
    split at hm
    · exact .inr hm
    · cases hk : m - s.listeners.length with
      | zero => rw [hk] at hm; simp at hm; exact .inl hm.symm
      | succ k => rw [hk] at hm; simp at hm
  refine ⟨fun m y hm => ?_, fun m y hm => ?_, fun hd => absurd hd hp.2⟩
  · rcases key m y hm with rfl | hm
    · exact Listener.inv_init
    · exact h.lis _ _ hm
  · rcases key m y hm with rfl | hm
    · constructor
      · intro h; simp [Listener.init] at h
      · rintro (h | h)
        · exact absurd h hp.1
        · exact absurd h hp.2
    · exact h.stop _ _ hm

theorem sync_new {s : State N} (h : Inv s) :
    (∀ l ∈ s.syncing ++ [s.listeners.length], l < (s.listeners ++ [Listener.init]).length) ∧
    (s.syncing ++ [s.listeners.length]).Nodup := by
  constructor
  · intro l hl
    rcases List.mem_append.1 hl with hl | hl
    · have := h.sync.1 l hl; simp; omega
    · simp at hl; simp; omega
  · rw [List.nodup_append]
    refine ⟨h.sync.2, by simp, ?_⟩
    intro a ha b hb
    simp at hb
    have := h.sync.1 a ha
    omega

theorem regOK_mono {a b : Nat} (h : a ≤ b) {p : Reg N} (hp : regOK a p) : regOK b p := by
  cases p with
  | adding l todo => exact ⟨Nat.lt_of_lt_of_le hp.1 h, hp.2⟩
  | joining l todo => exact Nat.lt_of_lt_of_le hp h
  | _ => trivial

theorem deltaOK_mono {a b : Nat} (h : a ≤ b) {p : DPc N} (hp : deltaOK a p) : deltaOK b p := by
  cases p with
  | putting n l ls => exact ⟨fun m hm => Nat.lt_of_lt_of_le (hp.1 m hm) h, hp.2⟩
  | joining n l ls => exact ⟨fun m hm => Nat.lt_of_lt_of_le (hp.1 m hm) h, hp.2⟩
  | _ => trivial

theorem get_snoc {A : Type} (l : List A) (p : A) (m : Nat) (y : A) :
    (l ++ [p])[m]? = some y ↔ (m = l.length ∧ y = p) ∨ l[m]? = some y := by
  rw [List.getElem?_append]
  split
  · rename_i h
    constructor
    · exact .inr
    · rintro (⟨rfl, -⟩ | h')
      · omega
      · exact h'
  · rename_i h
    constructor
    · intro hm
      cases hk : m - l.length with
      | zero => rw [hk] at hm; simp at hm; exact .inl ⟨by omega, hm.symm⟩
      | succ k => rw [hk] at hm; simp at hm
    · rintro (⟨rfl, rfl⟩ | h')
      · simp
      · exact absurd (List.getElem?_eq_some_iff.1 h').1 h

/-- Replacing the state of one call. -/
theorem ex_set {A : Type} {l : List A} {r : Nat} {p q : A} (h : l[r]? = some q) (f : A → Bool) (m : Nat) :
    (∃ y, (l.set r p)[m]? = some y ∧ f y = true) ↔
      (m = r ∧ f p = true) ∨ (m ≠ r ∧ ∃ y, l[m]? = some y ∧ f y = true) := by
  constructor
  · rintro ⟨y, hy, hf⟩
    rcases (get_set h m y).1 hy with ⟨rfl, rfl⟩ | ⟨hm, hy⟩
    · exact .inl ⟨rfl, hf⟩
    · exact .inr ⟨hm, y, hy, hf⟩
  · rintro (⟨rfl, hf⟩ | ⟨hm, y, hy, hf⟩)
    · exact ⟨p, (get_set h m p).2 (.inl ⟨rfl, rfl⟩), hf⟩
    · exact ⟨y, (get_set h m y).2 (.inr ⟨hm, hy⟩), hf⟩

theorem ex_snoc {A : Type} {l : List A} {p : A} (f : A → Bool) (hf : f p = false) (m : Nat) :
    (∃ y, (l ++ [p])[m]? = some y ∧ f y = true) ↔ ∃ y, l[m]? = some y ∧ f y = true := by
  constructor
  · rintro ⟨y, hy, h⟩
    rcases (get_snoc l p m y).1 hy with ⟨-, rfl⟩ | hy
    · rw [hf] at h; cases h
    · exact ⟨y, hy, h⟩
  · rintro ⟨y, hy, h⟩
    exact ⟨y, (get_snoc l p m y).2 (.inr hy), h⟩

theorem putTo_spec {s s' : State N} {l : Nat} {n : N} (h : putTo s l n = some s') :
    ∃ x x' c, s.listeners[l]? = some x ∧ Listener.step x (.put n) = some (x', c) ∧
      s' = { s with listeners := s.listeners.set l x' } := by
  unfold putTo at h
  split at h
  · cases h
  · rename_i x hx
    split at h
    · cases h
    · rename_i x' c hs
      cases h
      exact ⟨x, x', c, hx, hs, rfl⟩

/-- One call of `add_event_handler` goes on without the locks and the listeners changing. -/
theorem inv_reg {s : State N} (h : Inv s) {r : Nat} {p q : Reg N} (hr : s.regs[r]? = some q)
    (h1 : hasStarted p = hasStarted q) (h2 : hasBlock p = hasBlock q)
    (h3 : regOK s.listeners.length p) : Inv (s.setReg r p) := by
  obtain ⟨i1, i2, i3, i4, i5, i6, i7, i8, i9, i10, i11⟩ := h
  refine ⟨i1, i2, i3, ?_, ?_, i6, ?_, i8, i9, i10, i11⟩
  · intro m
    show s.startedBy = some m ↔ ∃ p', (s.regs.set r p)[m]? = some p' ∧ hasStarted p' = true
    rw [ex_set hr, i4]
    by_cases hm : m = r
    · subst hm; simp [hr, h1]
    · simp [hm]
  · intro m
    show s.block = some (.reg m) ↔ ∃ p', (s.regs.set r p)[m]? = some p' ∧ hasBlock p' = true
    rw [ex_set hr, i5]
    by_cases hm : m = r
    · subst hm; simp [hr, h2]
    · simp [hm]
  · intro m p' hm
    rcases (get_set hr m p').1 hm with ⟨-, rfl⟩ | ⟨-, hm⟩
    · exact h3
    · exact i7 m p' hm

/-- A call that holds both locks ends. -/
theorem inv_release {s : State N} (h : Inv s) {r : Nat} {q : Reg N} (hr : s.regs[r]? = some q)
    (hq : hasBlock q = true) (res : Result) :
    Inv { s.setReg r (.ended res) with startedBy := none, block := none } := by
  have hq' : hasStarted q = true := by cases q <;> simp [hasBlock] at hq <;> rfl
  have hb : s.block = some (.reg r) := (h.blk r).2 ⟨q, hr, hq⟩
  have hsb : s.startedBy = some r := (h.sb r).2 ⟨q, hr, hq'⟩
  obtain ⟨i1, i2, i3, i4, i5, i6, i7, i8, i9, i10, i11⟩ := h
  refine ⟨i1, i2, i3, ?_, ?_, ?_, ?_, i8, i9, i10, fun _ => rfl⟩
  · intro m
    show none = some m ↔ ∃ p', (s.regs.set r (.ended res))[m]? = some p' ∧ hasStarted p' = true
    rw [ex_set hr, ← i4, hsb]
    simp [hasStarted]
    intro h e; exact h e.symm
  · intro m
    show none = some (Holder.reg m) ↔
      ∃ p', (s.regs.set r (.ended res))[m]? = some p' ∧ hasBlock p' = true
    rw [ex_set hr, ← i5, hb]
    simp [hasBlock]
    intro h e; exact h e.symm
  · show none = some Holder.deltas ↔ s.deltas ≠ .idle
    rw [← i6, hb]; simp
  · intro m p' hm
    rcases (get_set hr m p').1 hm with ⟨-, rfl⟩ | ⟨-, hm⟩
    · trivial
    · exact i7 m p' hm

/-- A call that holds only `_started_lock` ends. -/
theorem inv_release1 {s : State N} (h : Inv s) {r : Nat} (hr : s.regs[r]? = some .atBlock)
    (res : Result) : Inv { s.setReg r (.ended res) with startedBy := none } := by
  have hsb : s.startedBy = some r := (h.sb r).2 ⟨_, hr, rfl⟩
  obtain ⟨i1, i2, i3, i4, i5, i6, i7, i8, i9, i10, i11⟩ := h
  refine ⟨i1, i2, i3, ?_, ?_, i6, ?_, i8, i9, i10, fun _ => rfl⟩
  · intro m
    show none = some m ↔ ∃ p', (s.regs.set r (.ended res))[m]? = some p' ∧ hasStarted p' = true
    rw [ex_set hr, ← i4, hsb]
    simp [hasStarted]
    intro h e; exact h e.symm
  · intro m
    show s.block = some (Holder.reg m) ↔
      ∃ p', (s.regs.set r (.ended res))[m]? = some p' ∧ hasBlock p' = true
    rw [ex_set hr, i5]
    by_cases hm : m = r
    · subst hm; simp [hr, hasBlock]
    · simp [hm]
  · intro m p' hm
    rcases (get_set hr m p').1 hm with ⟨-, rfl⟩ | ⟨-, hm⟩
    · trivial
    · exact i7 m p' hm

/-- A new listener. -/
theorem inv_addListener {s : State N} (h : Inv s) (hp : s.proc ≠ .stopping ∧ s.proc ≠ .done) :
    Inv s.addListener := by
  have hl := lis_new h hp
  have hsy := sync_new h
  obtain ⟨i1, i2, i3, i4, i5, i6, i7, i8, i9, i10, i11⟩ := h
  have hlen : s.listeners.length ≤ (s.listeners ++ [Listener.init]).length := by simp
  exact ⟨hl.1, hl.2.1, hl.2.2, i4, i5, i6, fun r p hr => regOK_mono hlen (i7 r p hr),
    deltaOK_mono hlen i8, hsy, i10, i11⟩

/-- One listener makes a step. -/
theorem inv_lis {s : State N} (h : Inv s) {l : Nat} {x x' : Listener.State N} {a : Listener.Act N}
    {c : Option N} (hl : s.listeners[l]? = some x) (ha : a ≠ .stop)
    (hx : Listener.step x a = some (x', c)) : Inv { s with listeners := s.listeners.set l x' } := by
  have hs := lis_set h hl ha hx
  obtain ⟨i1, i2, i3, i4, i5, i6, i7, i8, i9, i10, i11⟩ := h
  refine ⟨hs.1, hs.2.1, hs.2.2, i4, i5, i6, ?_, ?_, ?_, i10, i11⟩
  · intro r p hr; simpa using i7 r p hr
  · simpa using i8
  · simpa using i9

theorem inv_regNext {s : State N} (h : Inv s) {r l : Nat} {q : Reg N} (hr : s.regs[r]? = some q)
    (hq : hasBlock q = true) (hl : l < s.listeners.length) (todo : List N) : Inv (regNext s r l todo) := by
  cases todo with
  | nil => exact inv_release h hr hq _
  | cons n todo =>
    have hq' : hasStarted q = true := by cases q <;> simp [hasBlock] at hq <;> rfl
    exact inv_reg h hr (by rw [hq']; rfl) (by rw [hq]; rfl) ⟨hl, by simp⟩

theorem inv_deltaNext {s : State N} (h : Inv s) (hd : s.deltas ≠ .idle) (hr : s.run = .running) (n : N)
    (ls : List Nat) (h1 : ∀ m ∈ ls, m < s.listeners.length) (h2 : ls.Nodup) :
    Inv (deltaNext s n ls) := by
  have hb := h.blkd.2 hd
  obtain ⟨i1, i2, i3, i4, i5, i6, i7, i8, i9, i10, i11⟩ := h
  unfold pcOK at i10
  rw [hr] at i10
  cases ls with
  | nil =>
    refine ⟨i1, i2, i3, i4, i5, ?_, i7, trivial, i9, ?_, i11⟩
    · show s.block = some .deltas ↔ _
      simp [hb, deltaNext]
    · unfold pcOK deltaNext; simp only [hr]; exact i10
  | cons l ls =>
    refine ⟨i1, i2, i3, i4, i5, ?_, i7, ⟨h1, h2⟩, i9, ?_, i11⟩
    · show s.block = some .deltas ↔ _
      simp [hb, deltaNext]
    · unfold pcOK deltaNext; simp only [hr]; exact i10

/-- Deltas are handled only while `run` runs. -/
theorem deltas_running {s : State N} (h : Inv s) (hd : s.deltas ≠ .idle) : s.run = .running := by
  have hp := h.pc
  unfold pcOK at hp
  cases hr : s.run with
  | running => rfl
  | idle | entering => rw [hr] at hp; exact absurd hp.2.2.2 hd
  | closing | leaving => rw [hr] at hp; exact absurd hp.2.2.2 hd
  | awaiting => rw [hr] at hp; exact absurd hp.2.2.2 hd
  | ended => rw [hr] at hp; exact absurd hp.1 hd

theorem proc_early {s : State N} (h : Inv s) (hst : s.stopped = false) :
    s.proc ≠ .stopping ∧ s.proc ≠ .done := by
  have hp := h.pc
  unfold pcOK at hp
  cases hr : s.run with
  | running =>
    rw [hr] at hp
    rcases hp.2.2 with e | e <;> rw [e] <;> exact ⟨nofun, nofun⟩
  | idle | entering => rw [hr] at hp; rw [hp.2.2.1]; exact ⟨nofun, nofun⟩
  | closing | leaving =>
    rw [hr] at hp
    rcases hp.2.2.1 with e | e <;> rw [e] <;> exact ⟨nofun, nofun⟩
  | awaiting => rw [hr] at hp; rw [hst] at hp; exact absurd hp.2.1 (by simp)
  | ended =>
    rw [hr] at hp
    rcases hp.2 with ⟨-, -, e⟩ | ⟨-, e, -⟩
    · rw [e]; exact ⟨nofun, nofun⟩
    · rw [hst] at e; cases e

theorem holder_early {s : State N} (h : Inv s) {r : Nat} {q : Reg N} (hr : s.regs[r]? = some q)
    (hq : hasStarted q = true) : s.started = true ∧ s.stopped = false := by
  have hsb : s.startedBy = some r := (h.sb r).2 ⟨_, hr, hq⟩
  have hf := h.free
  constructor
  · cases hs : s.started with
    | true => rfl
    | false => rw [hf (.inl hs)] at hsb; cases hsb
  · cases hs : s.stopped with
    | false => rfl
    | true => rw [hf (.inr hs)] at hsb; cases hsb

theorem inv_step {s s' : State N} {a : Act N} {e : List (Ev N)} (ha : a ≠ .cancelAgain) (h : Inv s)
    (hs : step s a = some (s', e)) : Inv s' := by
  cases a with
  | cancelAgain => exact absurd rfl ha
  | addHandler =>
    simp only [step, Option.some.injEq, Prod.mk.injEq] at hs
    obtain ⟨rfl, -⟩ := hs
    obtain ⟨i1, i2, i3, i4, i5, i6, i7, i8, i9, i10, i11⟩ := h
    refine ⟨i1, i2, i3, ?_, ?_, i6, ?_, i8, i9, i10, i11⟩
    · intro m
      show s.startedBy = some m ↔ ∃ p', (s.regs ++ [Reg.atLock])[m]? = some p' ∧ hasStarted p' = true
      rw [ex_snoc hasStarted rfl]; exact i4 m
    · intro m
      show s.block = some (.reg m) ↔ ∃ p', (s.regs ++ [Reg.atLock])[m]? = some p' ∧ hasBlock p' = true
      rw [ex_snoc hasBlock rfl]; exact i5 m
    · intro r p hr
      rcases (get_snoc _ _ r p).1 hr with ⟨-, rfl⟩ | hr
      · trivial
      · exact i7 r p hr
  | regEnter r =>
    simp only [step] at hs
    split at hs
    · rename_i hr hsb
      split at hs
      · simp only [Option.some.injEq, Prod.mk.injEq] at hs
        obtain ⟨rfl, -⟩ := hs
        exact inv_reg h hr rfl rfl trivial
      · rename_i hst
        split at hs
        · rename_i hstd
          simp only [Option.some.injEq, Prod.mk.injEq] at hs
          obtain ⟨rfl, -⟩ := hs
          obtain ⟨i1, i2, i3, i4, i5, i6, i7, i8, i9, i10, i11⟩ := h
          refine ⟨i1, i2, i3, ?_, ?_, i6, ?_, i8, i9, i10, ?_⟩
          · intro m
            show some r = some m ↔ ∃ p', (s.regs.set r .atBlock)[m]? = some p' ∧ hasStarted p' = true
            rw [ex_set hr, ← i4, hsb]
            simp [hasStarted, eq_comm]
          · intro m
            show s.block = some (Holder.reg m) ↔
              ∃ p', (s.regs.set r .atBlock)[m]? = some p' ∧ hasBlock p' = true
            rw [ex_set hr, i5]
            by_cases hm : m = r
            · subst hm; simp [hr, hasBlock]
            · simp [hm]
          · intro m p' hm
            rcases (get_set hr m p').1 hm with ⟨-, rfl⟩ | ⟨-, hm⟩
            · trivial
            · exact i7 m p' hm
          · show s.started = false ∨ s.stopped = true → _
            rw [hstd]
            rintro (h | h)
            · cases h
            · exact absurd h hst
        · simp only [Option.some.injEq, Prod.mk.injEq] at hs
          obtain ⟨rfl, -⟩ := hs
          exact inv_reg (inv_addListener h (proc_early h (by simpa using hst))) hr rfl rfl trivial
    · cases hs
  | regBlock r =>
    simp only [step] at hs
    split at hs
    · rename_i hr hb
      simp only [Option.some.injEq, Prod.mk.injEq] at hs
      obtain ⟨rfl, -⟩ := hs
      have he := holder_early h hr rfl
      have h' := inv_addListener h (proc_early h he.2)
      have hlen : s.listeners.length < s.addListener.listeners.length := by
        simp [State.addListener]
      -- with `adding` in place of `atBlock` the state is consistent
      have h2 : ∀ todo : List N, Inv ({ s.addListener with block := some (.reg r) }.setReg r
          (.joining s.listeners.length todo)) := by
        intro todo
        obtain ⟨i1, i2, i3, i4, i5, i6, i7, i8, i9, i10, i11⟩ := h'
        have hr' : s.addListener.regs[r]? = some .atBlock := hr
        refine ⟨i1, i2, i3, ?_, ?_, ?_, ?_, i8, i9, i10, i11⟩
        · intro m
          show s.addListener.startedBy = some m ↔ ∃ p',
            (s.addListener.regs.set r (.joining s.listeners.length todo))[m]? = some p' ∧
              hasStarted p' = true
          rw [ex_set hr', i4]
          by_cases hm : m = r
          · subst hm; simp [hr', hasStarted]
          · simp [hm]
        · intro m
          show some (Holder.reg r) = some (Holder.reg m) ↔ ∃ p',
            (s.addListener.regs.set r (.joining s.listeners.length todo))[m]? = some p' ∧
              hasBlock p' = true
          have hbm : ¬ s.addListener.block = some (Holder.reg m) := by
            show ¬ s.block = _; rw [hb]; simp
          rw [ex_set hr', ← i5]
          simp [hbm, hasBlock, eq_comm]
        · show some (Holder.reg r) = some Holder.deltas ↔ s.addListener.deltas ≠ .idle
          rw [← i6]; show _ ↔ s.block = _; rw [hb]; simp
        · intro m p' hm
          rcases (get_set hr' m p').1 hm with ⟨-, rfl⟩ | ⟨-, hm⟩
          · exact hlen
          · exact i7 m p' hm
      have h3 := inv_regNext (h2 s.store) (r := r) (l := s.listeners.length)
        (q := .joining s.listeners.length s.store)
        (by
          show (s.regs.set r (.joining s.listeners.length s.store))[r]? = _
          exact (get_set hr r _).2 (.inl ⟨rfl, rfl⟩)) rfl hlen s.store
      have e : regNext ({ s.addListener with block := some (.reg r) }.setReg r
          (.joining s.listeners.length s.store)) r s.listeners.length s.store =
          regNext { s.addListener with block := some (.reg r) } r s.listeners.length s.store := by
        cases s.store with
        | nil => simp [regNext, State.setReg]
        | cons n todo => simp [regNext, State.setReg]
      rw [← e]
      exact h3
    · cases hs
  | regPut r =>
    simp only [step] at hs
    split at hs
    · rename_i l n todo hr
      split at hs
      · rename_i s1 hp
        simp only [Option.some.injEq, Prod.mk.injEq] at hs
        obtain ⟨rfl, -⟩ := hs
        obtain ⟨x, x', c, hx, hst, rfl⟩ := putTo_spec hp
        have h1 := inv_lis h hx (by simp) hst
        refine inv_reg h1 hr rfl rfl ?_
        have := (h.reg r _ hr).1
        simpa [regOK] using this
      · cases hs
    · cases hs
  | regJoin r =>
    simp only [step] at hs
    split at hs
    · rename_i l todo hr
      split at hs
      · simp only [Option.some.injEq, Prod.mk.injEq] at hs
        obtain ⟨rfl, -⟩ := hs
        exact inv_regNext h hr rfl (h.reg r _ hr) todo
      · cases hs
    · cases hs
  | regCancel r =>
    simp only [step] at hs
    split at hs
    · rename_i hr
      simp only [Option.some.injEq, Prod.mk.injEq] at hs
      obtain ⟨rfl, -⟩ := hs
      exact inv_reg h hr rfl rfl trivial
    · rename_i hr
      simp only [Option.some.injEq, Prod.mk.injEq] at hs
      obtain ⟨rfl, -⟩ := hs
      exact inv_release1 h hr _
    · rename_i hr
      simp only [Option.some.injEq, Prod.mk.injEq] at hs
      obtain ⟨rfl, -⟩ := hs
      exact inv_release h hr rfl _
    · rename_i hr
      simp only [Option.some.injEq, Prod.mk.injEq] at hs
      obtain ⟨rfl, -⟩ := hs
      exact inv_release h hr rfl _
    · cases hs
  | start =>
    simp only [step] at hs
    split at hs
    · rename_i hr
      simp only [Option.some.injEq, Prod.mk.injEq] at hs
      obtain ⟨rfl, -⟩ := hs
      obtain ⟨i1, i2, i3, i4, i5, i6, i7, i8, i9, i10, i11⟩ := h
      refine ⟨i1, i2, i3, i4, i5, i6, i7, i8, i9, ?_, i11⟩
      unfold pcOK at i10 ⊢
      simp only [hr] at i10
      exact i10
    · cases hs
  | enter =>
    simp only [step] at hs
    split at hs
    · rename_i hr hsb
      simp only [Option.some.injEq, Prod.mk.injEq] at hs
      obtain ⟨rfl, -⟩ := hs
      obtain ⟨i1, i2, i3, i4, i5, i6, i7, i8, i9, i10, i11⟩ := h
      unfold pcOK at i10
      simp only [hr] at i10
      refine ⟨i1, ?_, ?_, i4, i5, i6, i7, i8, i9, ?_, fun _ => hsb⟩
      · intro l x hx
        rw [i2 l x hx, i10.2.2.1]; simp
      · intro hd; cases hd
      · exact ⟨rfl, i10.2.1, .inl rfl⟩
    · cases hs
  | procStart =>
    simp only [step] at hs
    split at hs
    · rename_i hr
      simp only [Option.some.injEq, Prod.mk.injEq] at hs
      obtain ⟨rfl, -⟩ := hs
      obtain ⟨i1, i2, i3, i4, i5, i6, i7, i8, i9, i10, i11⟩ := h
      refine ⟨i1, ?_, ?_, i4, i5, i6, i7, i8, i9, ?_, i11⟩
      · intro l x hx
        rw [i2 l x hx, hr]; simp
      · intro hd; cases hd
      · unfold pcOK at i10 ⊢
        cases hrun : s.run with
        | idle | entering => rw [hrun] at i10; rw [hr] at i10; exact nomatch i10.2.2.1
        | running => rw [hrun] at i10; exact ⟨i10.1, i10.2.1, .inr rfl⟩
        | closing | leaving => rw [hrun] at i10; exact ⟨i10.1, i10.2.1, .inr rfl, i10.2.2.2⟩
        | awaiting => rw [hrun] at i10; exact ⟨i10.1, i10.2.1, nofun, i10.2.2.2⟩
        | ended =>
          rw [hrun] at i10; rw [hr] at i10
          rcases i10.2 with ⟨-, -, e⟩ | ⟨-, -, e⟩ <;> cases e
    · cases hs
  | deltaBlock =>
    simp only [step] at hs
    split at hs
    · rename_i hrun hproc hdel hb
      simp only [Option.some.injEq, Prod.mk.injEq] at hs
      obtain ⟨rfl, -⟩ := hs
      obtain ⟨i1, i2, i3, i4, i5, i6, i7, i8, i9, i10, i11⟩ := h
      refine ⟨i1, i2, i3, i4, ?_, ?_, i7, trivial, i9, ?_, i11⟩
      · intro m
        rw [← i5 m, hb]; simp
      · simp
      · unfold pcOK at i10 ⊢
        simp only [hrun] at i10 ⊢
        exact i10
    · cases hs
  | distribute n sy st =>
    simp only [step] at hs
    split at hs
    · rename_i hdel
      simp only [Option.some.injEq, Prod.mk.injEq] at hs
      obtain ⟨rfl, -⟩ := hs
      have hne : s.deltas ≠ .idle := by rw [hdel]; simp
      have hrun := deltas_running h hne
      have h1 : Inv { s with store := st } := by
        obtain ⟨i1, i2, i3, i4, i5, i6, i7, i8, i9, i10, i11⟩ := h
        exact ⟨i1, i2, i3, i4, i5, i6, i7, i8, i9, i10, i11⟩
      refine inv_deltaNext h1 hne hrun n _ ?_ ?_
      · intro m hm
        cases sy with
        | true => exact h.sync.1 m hm
        | false => simpa using hm
      · cases sy with
        | true => exact h.sync.2
        | false => exact List.nodup_range
    · cases hs
  | deltaPut =>
    simp only [step] at hs
    split at hs
    · rename_i n l ls hdel
      split at hs
      · rename_i s1 hp
        simp only [Option.some.injEq, Prod.mk.injEq] at hs
        obtain ⟨rfl, -⟩ := hs
        obtain ⟨x, x', c, hx, hst, rfl⟩ := putTo_spec hp
        have hne : s.deltas ≠ .idle := by rw [hdel]; simp
        have hrun := deltas_running h hne
        have hb := h.blkd.2 hne
        have hdt := h.dt
        have h1 := inv_lis h hx (by simp) hst
        obtain ⟨i1, i2, i3, i4, i5, i6, i7, i8, i9, i10, i11⟩ := h1
        refine ⟨i1, i2, i3, i4, i5, ?_, i7, ?_, i9, ?_, i11⟩
        · show s.block = _ ↔ _; simp [hb]
        · rw [hdel] at hdt; simpa [deltaOK] using hdt
        · unfold pcOK at i10 ⊢
          simp only [hrun] at i10 ⊢
          exact i10
      · cases hs
    · cases hs
  | deltaJoin =>
    simp only [step] at hs
    split at hs
    · rename_i n l ls hdel
      split at hs
      · simp only [Option.some.injEq, Prod.mk.injEq] at hs
        obtain ⟨rfl, -⟩ := hs
        have hne : s.deltas ≠ .idle := by rw [hdel]; simp
        have hdt := h.dt
        rw [hdel] at hdt
        exact inv_deltaNext h hne (deltas_running h hne) n ls
          (fun m hm => hdt.1 m (by simp [hm])) (List.nodup_cons.1 hdt.2).2
      · cases hs
    · cases hs
  | deltaEnd =>
    simp only [step] at hs
    split at hs
    · rename_i hdel
      simp only [Option.some.injEq, Prod.mk.injEq] at hs
      obtain ⟨rfl, -⟩ := hs
      have hne : s.deltas ≠ .idle := by rw [hdel]; simp
      have hrun := deltas_running h hne
      have hb := h.blkd.2 hne
      obtain ⟨i1, i2, i3, i4, i5, i6, i7, i8, i9, i10, i11⟩ := h
      refine ⟨i1, i2, i3, i4, ?_, ?_, i7, trivial, i9, ?_, i11⟩
      · intro m
        rw [← i5 m, hb]; simp
      · simp
      · unfold pcOK at i10 ⊢
        simp only [hrun] at i10 ⊢
        exact i10
    · cases hs
  | check ls =>
    simp only [step, Option.some.injEq, Prod.mk.injEq] at hs
    obtain ⟨rfl, -⟩ := hs
    obtain ⟨i1, i2, i3, i4, i5, i6, i7, i8, i9, i10, i11⟩ := h
    refine ⟨i1, i2, i3, i4, i5, i6, i7, i8, ⟨?_, ?_⟩, i10, i11⟩
    · intro l hl
      simp at hl; exact hl.1
    · exact List.nodup_range.filter _
  | cancel =>
    simp only [step] at hs
    split at hs
    · rename_i hr
      simp only [Option.some.injEq, Prod.mk.injEq] at hs
      obtain ⟨rfl, -⟩ := hs
      obtain ⟨i1, i2, i3, i4, i5, i6, i7, i8, i9, i10, i11⟩ := h
      refine ⟨i1, i2, i3, i4, i5, i6, i7, i8, i9, ?_, i11⟩
      unfold pcOK at i10 ⊢
      simp only [hr] at i10 ⊢
      exact ⟨i10.2.2.2, .inl ⟨i10.1, i10.2.1, i10.2.2.1⟩⟩
    · rename_i hr
      split at hs
      · rename_i hdel
        simp only [Option.some.injEq, Prod.mk.injEq] at hs
        obtain ⟨rfl, -⟩ := hs
        obtain ⟨i1, i2, i3, i4, i5, i6, i7, i8, i9, i10, i11⟩ := h
        refine ⟨i1, i2, i3, i4, i5, i6, i7, i8, i9, ?_, i11⟩
        unfold pcOK at i10 ⊢
        simp only [hr] at i10 ⊢
        exact ⟨i10.1, i10.2.1, i10.2.2, hdel⟩
      · rename_i hdel
        simp only [Option.some.injEq, Prod.mk.injEq] at hs
        obtain ⟨rfl, -⟩ := hs
        have hne : s.deltas ≠ .idle := fun e => hdel e
        have hb := h.blkd.2 hne
        obtain ⟨i1, i2, i3, i4, i5, i6, i7, i8, i9, i10, i11⟩ := h
        refine ⟨i1, i2, i3, i4, ?_, ?_, i7, trivial, i9, ?_, i11⟩
        · intro m
          rw [← i5 m, hb]; simp
        · simp
        · unfold pcOK at i10 ⊢
          simp only [hr] at i10 ⊢
          exact ⟨i10.1, i10.2.1, i10.2.2, trivial⟩
    · cases hs
  | reflectorEnds =>
    simp only [step] at hs
    split at hs
    · rename_i hr
      simp only [Option.some.injEq, Prod.mk.injEq] at hs
      obtain ⟨rfl, -⟩ := hs
      obtain ⟨i1, i2, i3, i4, i5, i6, i7, i8, i9, i10, i11⟩ := h
      refine ⟨i1, i2, i3, i4, i5, i6, i7, i8, i9, ?_, i11⟩
      unfold pcOK at i10 ⊢
      simp only [hr] at i10 ⊢
      exact i10
    · cases hs
  | leave =>
    simp only [step] at hs
    split at hs
    · rename_i hr hsb
      simp only [Option.some.injEq, Prod.mk.injEq] at hs
      obtain ⟨rfl, -⟩ := hs
      obtain ⟨i1, i2, i3, i4, i5, i6, i7, i8, i9, i10, i11⟩ := h
      refine ⟨i1, i2, i3, i4, i5, i6, i7, i8, i9, ?_, fun _ => hsb⟩
      unfold pcOK at i10 ⊢
      simp only [hr] at i10 ⊢
      refine ⟨i10.1, trivial, ?_, i10.2.2.2⟩
      rcases i10.2.2.1 with e | e <;> rw [e] <;> nofun
    · cases hs
  | procStop =>
    simp only [step] at hs
    split at hs
    · rename_i hproc hst
      simp only [Option.some.injEq, Prod.mk.injEq] at hs
      obtain ⟨rfl, -⟩ := hs
      obtain ⟨i1, i2, i3, i4, i5, i6, i7, i8, i9, i10, i11⟩ := h
      have key : ∀ (l : Nat) (x : Listener.State N), (s.listeners.map stopOne)[l]? = some x →
          ∃ y, s.listeners[l]? = some y ∧ x = stopOne y := by
        intro l x hx
        rw [List.getElem?_map] at hx
        obtain ⟨y, hy, rfl⟩ := Option.map_eq_some_iff.1 hx
        exact ⟨y, hy, rfl⟩
      refine ⟨?_, ?_, ?_, i4, i5, i6, ?_, ?_, ?_, ?_, i11⟩
      · intro l x hx
        obtain ⟨y, hy, rfl⟩ := key l x hx
        exact stop_inv (i1 l y hy)
      · intro l x hx
        obtain ⟨y, hy, rfl⟩ := key l x hx
        simp [stopOne]
      · intro hd; cases hd
      · intro r p hr; simpa using i7 r p hr
      · simpa using i8
      · simpa using i9
      · unfold pcOK at i10 ⊢
        cases hrun : s.run with
        | idle | entering => rw [hrun] at i10; rw [hproc] at i10; exact nomatch i10.2.2.1
        | running => rw [hrun] at i10; rw [hst] at i10; exact nomatch i10.2.1
        | closing | leaving => rw [hrun] at i10; rw [hst] at i10; exact nomatch i10.2.1
        | awaiting => rw [hrun] at i10; exact ⟨i10.1, i10.2.1, nofun, i10.2.2.2⟩
        | ended =>
          rw [hrun] at i10; rw [hproc] at i10
          rcases i10.2 with ⟨-, -, e⟩ | ⟨-, -, e⟩ <;> cases e
    · cases hs
  | procDone =>
    simp only [step] at hs
    split at hs
    · rename_i hproc
      split at hs
      · rename_i hall
        simp only [Option.some.injEq, Prod.mk.injEq] at hs
        obtain ⟨rfl, -⟩ := hs
        obtain ⟨i1, i2, i3, i4, i5, i6, i7, i8, i9, i10, i11⟩ := h
        refine ⟨i1, ?_, ?_, i4, i5, i6, i7, i8, i9, ?_, i11⟩
        · intro l x hx
          rw [i2 l x hx, hproc]; simp
        · intro _ l x hx
          exact List.all_eq_true.1 hall x (List.mem_of_getElem? hx)
        · unfold pcOK at i10 ⊢
          cases hrun : s.run with
          | idle | entering => rw [hrun] at i10; rw [hproc] at i10; exact nomatch i10.2.2.1
          | running => rw [hrun] at i10; rw [hproc] at i10; rcases i10.2.2 with e | e <;> cases e
          | closing | leaving =>
            rw [hrun] at i10; rw [hproc] at i10; rcases i10.2.2.1 with e | e <;> cases e
          | awaiting => rw [hrun] at i10; exact ⟨i10.1, i10.2.1, nofun, i10.2.2.2⟩
          | ended =>
            rw [hrun] at i10; rw [hproc] at i10
            rcases i10.2 with ⟨-, -, e⟩ | ⟨-, -, e⟩ <;> cases e
      · cases hs
    · cases hs
  | finish =>
    simp only [step] at hs
    split at hs
    · rename_i hrun hproc
      simp only [Option.some.injEq, Prod.mk.injEq] at hs
      obtain ⟨rfl, -⟩ := hs
      obtain ⟨i1, i2, i3, i4, i5, i6, i7, i8, i9, i10, i11⟩ := h
      refine ⟨i1, i2, i3, i4, i5, i6, i7, i8, i9, ?_, i11⟩
      unfold pcOK at i10 ⊢
      simp only [hrun] at i10 ⊢
      exact ⟨i10.2.2.2, .inr ⟨i10.1, i10.2.1, hproc⟩⟩
    · cases hs
  | lis l a =>
    simp only [step] at hs
    split at hs
    · cases hs
    · cases hs
    · split at hs
      · rename_i hint
        split at hs
        · cases hs
        · rename_i x hx
          split at hs
          · cases hs
          · rename_i x' c hst
            simp only [Option.some.injEq, Prod.mk.injEq] at hs
            obtain ⟨rfl, -⟩ := hs
            refine inv_lis h hx ?_ hst
            rintro rfl
            simp [internal] at hint
      · cases hs

theorem exec_cons {s s' : State N} {a : Act N} {as : List (Act N)} {es : List (Ev N)}
    (h : exec s (a :: as) = some (s', es)) :
    ∃ s1 e es', step s a = some (s1, e) ∧ exec s1 as = some (s', es') ∧ es = e ++ es' := by
  simp only [exec] at h
  split at h
  · cases h
  · rename_i s1 e h1
    split at h
    · cases h
    · rename_i s2 es' h2
      simp only [Option.some.injEq, Prod.mk.injEq] at h
      obtain ⟨rfl, rfl⟩ := h
      exact ⟨s1, e, es', h1, h2, rfl⟩

theorem inv_exec (as : List (Act N)) : ∀ {s s' : State N} {es : List (Ev N)}, Act.cancelAgain ∉ as →
    Inv s → exec s as = some (s', es) → Inv s' := by
  induction as with
  | nil => intro s s' es _ h he; simp [exec] at he; obtain ⟨rfl, -⟩ := he; exact h
  | cons a as ih =>
    intro s s' es ha h he
    simp only [List.mem_cons, not_or] at ha
    obtain ⟨s1, e, es', h1, h2, -⟩ := exec_cons he
    exact ih ha.2 (inv_step (fun e => ha.1 e.symm) h h1) h2

/-! ## What is still to do -/

def regWork (k : Nat) : Reg N → Nat
  | .atLock => 14 * k + 6
  | .atBlock => 14 * k + 5
  | .adding _ todo => 14 * todo.length + 1
  | .joining _ todo => 14 * todo.length + 2
  | .ended _ => 0

def deltaWork : DPc N → Nat
  | .idle => 0
  | .holding => 1
  | .putting _ _ ls => 14 * ls.length + 16
  | .joining _ _ ls => 14 * ls.length + 3

def runWork : RPc → Nat
  | .idle => 6 | .entering => 5 | .running => 4 | .closing => 3 | .leaving => 2 | .awaiting => 1
  | .ended => 0

def procWork : PPc → Nat
  | .none => 4 | .ready => 3 | .running => 2 | .stopping => 1 | .done => 0

/-- Every own action makes this smaller. -/
def work (s : State N) : Nat :=
  (s.listeners.map Listener.work).sum + (s.regs.map (regWork s.store.length)).sum + deltaWork s.deltas
    + runWork s.run + procWork s.proc

theorem sum_set {A : Type} (f : A → Nat) : ∀ (l : List A) (i : Nat) (x y : A), l[i]? = some y →
    ((l.set i x).map f).sum + f y = (l.map f).sum + f x
  | [], i, x, y, h => by simp at h
  | a :: l, 0, x, y, h => by
    simp at h; subst h; simp; omega
  | a :: l, i + 1, x, y, h => by
    have := sum_set f l i x y (by simpa using h)
    simp only [List.set_cons_succ, List.map_cons, List.sum_cons]; omega

theorem work_put {x x' : Listener.State N} {n : N} {c : Option N}
    (h : Listener.step x (.put n) = some (x', c)) : Listener.work x' = Listener.work x + 12 := by
  obtain ⟨addQ, got, cur, pd, jn, pend, nextQ, run, sa, pe⟩ := x
  cases addQ <;> simp [Listener.step] at h
  obtain ⟨rfl, -⟩ := h
  simp [Listener.work]; omega

theorem work_init : Listener.work (Listener.init : Listener.State N) = 2 := rfl

theorem work_stop (x : Listener.State N) : Listener.work (stopOne x) = Listener.work x := rfl

theorem internal_eq (a : Listener.Act N) : internal a = Listener.Spec.Act.internal a := by
  cases a <;> rfl

theorem work_step {s s' : State N} {a : Act N} {e : List (Ev N)} (ha : own a = true) (h : Inv s)
    (hs : step s a = some (s', e)) : work s' < work s := by
  cases a with
  | addHandler | regCancel | start | deltaBlock | distribute | check | cancel | cancelAgain =>
    simp [own] at ha
  | regEnter r =>
    simp only [step] at hs
    split at hs
    · rename_i hr hsb
      split at hs
      · simp only [Option.some.injEq, Prod.mk.injEq] at hs
        obtain ⟨rfl, -⟩ := hs
        have := sum_set (regWork s.store.length) s.regs r (.ended .refused) _ hr
        simp [-List.map_set, work, State.setReg, regWork] at this ⊢; omega
      · split at hs
        · simp only [Option.some.injEq, Prod.mk.injEq] at hs
          obtain ⟨rfl, -⟩ := hs
          have := sum_set (regWork s.store.length) s.regs r .atBlock _ hr
          simp [-List.map_set, work, State.setReg, regWork] at this ⊢; omega
        · simp only [Option.some.injEq, Prod.mk.injEq] at hs
          obtain ⟨rfl, -⟩ := hs
          have := sum_set (regWork s.store.length) s.regs r (.ended (.registered s.listeners.length)) _ hr
          simp [-List.map_set, work, State.setReg, State.addListener, regWork, work_init] at this ⊢; omega
    · cases hs
  | regBlock r =>
    simp only [step] at hs
    split at hs
    · rename_i hr hb
      simp only [Option.some.injEq, Prod.mk.injEq] at hs
      obtain ⟨rfl, -⟩ := hs
      cases hst : s.store with
      | nil =>
        have := sum_set (regWork s.store.length) s.regs r (.ended (.registered s.listeners.length)) _ hr
        simp [-List.map_set, work, regNext, State.setReg, State.addListener, regWork, work_init, hst] at this ⊢; omega
      | cons n todo =>
        have := sum_set (regWork s.store.length) s.regs r (.adding s.listeners.length (n :: todo)) _ hr
        simp [-List.map_set, work, regNext, State.setReg, State.addListener, regWork, work_init, hst] at this ⊢; omega
    · cases hs
  | regPut r =>
    simp only [step] at hs
    split at hs
    · rename_i l n todo hr
      split at hs
      · rename_i s1 hp
        simp only [Option.some.injEq, Prod.mk.injEq] at hs
        obtain ⟨rfl, -⟩ := hs
        obtain ⟨x, x', c, hx, hst, rfl⟩ := putTo_spec hp
        have h1 := sum_set (regWork s.store.length) s.regs r (.joining l todo) _ hr
        have h2 := sum_set Listener.work s.listeners l x' _ hx
        have h3 := work_put hst
        simp [-List.map_set, work, State.setReg, regWork] at h1 ⊢; omega
      · cases hs
    · cases hs
  | regJoin r =>
    simp only [step] at hs
    split at hs
    · rename_i l todo hr
      split at hs
      · simp only [Option.some.injEq, Prod.mk.injEq] at hs
        obtain ⟨rfl, -⟩ := hs
        cases todo with
        | nil =>
          have := sum_set (regWork s.store.length) s.regs r (.ended (.registered l)) _ hr
          simp [-List.map_set, work, regNext, State.setReg, regWork] at this ⊢; omega
        | cons n todo =>
          have := sum_set (regWork s.store.length) s.regs r (.adding l (n :: todo)) _ hr
          simp [-List.map_set, work, regNext, State.setReg, regWork] at this ⊢; omega
      · cases hs
    · cases hs
  | enter =>
    simp only [step] at hs
    split at hs
    · rename_i hr hsb
      simp only [Option.some.injEq, Prod.mk.injEq] at hs
      obtain ⟨rfl, -⟩ := hs
      have hp := h.pc
      unfold pcOK at hp
      rw [hr] at hp
      simp [-List.map_set, work, hr, hp.2.2.1, runWork, procWork]; try omega
    · cases hs
  | procStart =>
    simp only [step] at hs
    split at hs
    · rename_i hr
      simp only [Option.some.injEq, Prod.mk.injEq] at hs
      obtain ⟨rfl, -⟩ := hs
      simp [-List.map_set, work, hr, procWork]
    · cases hs
  | deltaPut =>
    simp only [step] at hs
    split at hs
    · rename_i n l ls hdel
      split at hs
      · rename_i s1 hp
        simp only [Option.some.injEq, Prod.mk.injEq] at hs
        obtain ⟨rfl, -⟩ := hs
        obtain ⟨x, x', c, hx, hst, rfl⟩ := putTo_spec hp
        have h2 := sum_set Listener.work s.listeners l x' _ hx
        have h3 := work_put hst
        simp [-List.map_set, work, hdel, deltaWork] at h2 ⊢; omega
      · cases hs
    · cases hs
  | deltaJoin =>
    simp only [step] at hs
    split at hs
    · rename_i n l ls hdel
      split at hs
      · simp only [Option.some.injEq, Prod.mk.injEq] at hs
        obtain ⟨rfl, -⟩ := hs
        cases ls <;> simp [-List.map_set, work, hdel, deltaNext, deltaWork] <;> omega
      · cases hs
    · cases hs
  | deltaEnd =>
    simp only [step] at hs
    split at hs
    · rename_i hdel
      simp only [Option.some.injEq, Prod.mk.injEq] at hs
      obtain ⟨rfl, -⟩ := hs
      simp [-List.map_set, work, hdel, deltaWork]
    · cases hs
  | reflectorEnds =>
    simp only [step] at hs
    split at hs
    · rename_i hr
      simp only [Option.some.injEq, Prod.mk.injEq] at hs
      obtain ⟨rfl, -⟩ := hs
      simp [-List.map_set, work, hr, runWork]
    · cases hs
  | leave =>
    simp only [step] at hs
    split at hs
    · rename_i hr hsb
      simp only [Option.some.injEq, Prod.mk.injEq] at hs
      obtain ⟨rfl, -⟩ := hs
      simp [-List.map_set, work, hr, runWork]
    · cases hs
  | procStop =>
    simp only [step] at hs
    split at hs
    · rename_i hproc hst
      simp only [Option.some.injEq, Prod.mk.injEq] at hs
      obtain ⟨rfl, -⟩ := hs
      have e : (Listener.work ∘ stopOne : Listener.State N → Nat) = Listener.work := rfl
      simp [-List.map_set, work, hproc, procWork, e]
    · cases hs
  | procDone =>
    simp only [step] at hs
    split at hs
    · rename_i hproc
      split at hs
      · simp only [Option.some.injEq, Prod.mk.injEq] at hs
        obtain ⟨rfl, -⟩ := hs
        simp [-List.map_set, work, hproc, procWork]
      · cases hs
    · cases hs
  | finish =>
    simp only [step] at hs
    split at hs
    · rename_i hrun hproc
      simp only [Option.some.injEq, Prod.mk.injEq] at hs
      obtain ⟨rfl, -⟩ := hs
      simp [-List.map_set, work, hrun, runWork]
    · cases hs
  | lis l a =>
    simp only [step] at hs
    split at hs
    · cases hs
    · cases hs
    · split at hs
      · rename_i hint
        split at hs
        · cases hs
        · rename_i x hx
          split at hs
          · cases hs
          · rename_i x' c hst
            simp only [Option.some.injEq, Prod.mk.injEq] at hs
            obtain ⟨rfl, -⟩ := hs
            have h1 := Listener.work_step (h.lis l x hx) (by rw [← internal_eq]; exact hint) hst
            have h2 := sum_set Listener.work s.listeners l x' _ hx
            simp [-List.map_set, work]; omega
      · cases hs

theorem own_again {as : List (Act N)} (ha : ∀ a ∈ as, own a = true) : Act.cancelAgain ∉ as :=
  fun h => by have := ha _ h; simp [own] at this

theorem work_exec (as : List (Act N)) : ∀ {s s' : State N} {es : List (Ev N)}, Inv s →
    (∀ a ∈ as, own a = true) → exec s as = some (s', es) → as.length + work s' ≤ work s := by
  induction as with
  | nil => intro s s' es h _ he; simp [exec] at he; obtain ⟨rfl, rfl⟩ := he; simp
  | cons a as ih =>
    intro s s' es h ha he
    obtain ⟨s1, e, es', h1, h2, rfl⟩ := exec_cons he
    have h3 := work_step (ha a (by simp)) h h1
    have hne : a ≠ .cancelAgain := by
      rintro rfl; have := ha .cancelAgain (by simp); simp [own] at this
    have h4 := ih (inv_step hne h h1) (fun b hb => ha b (by simp [hb])) h2
    simp only [List.length_cons]
    omega

/-! ## When nothing can happen any more -/

/-- A listener without a stop that can do nothing is empty. -/
theorem quiet_empty {x : Listener.State N} (hi : Listener.Inv x)
    (hq : ∀ b, internal b = true → Listener.step x b = none) (hst : x.stopAdd = false) :
    Listener.Spec.inFlight x = [] ∧ x.addQ = [] := by
  obtain ⟨addQ, got, cur, pd, jn, pend, nextQ, run, sa, pe⟩ := x
  obtain ⟨h1, h2, h3, h4, h5, h6, h7, h8, h9⟩ := hi
  simp only at h1 h2 h3 h4 h5 h6 h7 h8 h9 hst
  subst hst
  have hpe : pe = false := by cases pe with | false => rfl | true => exact absurd (h9 rfl) (by simp)
  subst hpe
  have q1 := hq .getTask rfl
  have q2 := hq .putTask rfl
  have q3 := hq .popResume rfl
  have q4 := hq .joined rfl
  have q5 := hq .runGet rfl
  have q6 := hq .runResume rfl
  have q7 := hq (.handlerEnds true) rfl
  have q8 := hq .wake rfl
  clear hq
  cases run with
  | got n => simp [Listener.step] at q6
  | handling n => simp [Listener.step] at q7
  | sleeping => simp [Listener.step] at q8
  | ended => simp at h8
  | waiting =>
    cases nextQ with
    | cons n r => simp [Listener.step] at q5
    | nil =>
      cases jn with
      | true => simp [Listener.step] at q4
      | false =>
        simp [Listener.step] at q3
        obtain ⟨rfl, rfl⟩ := q3
        cases cur with
        | some n => simp [Listener.step] at q2
        | none =>
          cases addQ with
          | cons n r => simp [Listener.step] at q1
          | nil => simp [Listener.Spec.inFlight, h4]

/-- A stopped listener that can do nothing has ended. -/
theorem quiet_over {x : Listener.State N} (hi : Listener.Inv x)
    (hq : ∀ b, internal b = true → Listener.step x b = none) (hst : x.stopAdd = true) :
    over x = true := by
  obtain ⟨addQ, got, cur, pd, jn, pend, nextQ, run, sa, pe⟩ := x
  obtain ⟨h1, h2, h3, h4, h5, h6, h7, h8, h9⟩ := hi
  simp only at h1 h2 h3 h4 h5 h6 h7 h8 h9 hst
  subst hst
  have q3 := hq .popResume rfl
  have q4 := hq .joined rfl
  have q5 := hq .runGet rfl
  have q6 := hq .runResume rfl
  have q7 := hq (.handlerEnds true) rfl
  have q8 := hq .wake rfl
  clear hq
  cases run with
  | got n => cases pe <;> simp [Listener.step] at q6
  | handling n => simp [Listener.step] at q7
  | sleeping => simp [Listener.step] at q8
  | ended => have := h8 rfl; simp [over, this]
  | waiting =>
    cases nextQ with
    | cons n r => simp [Listener.step] at q5
    | nil =>
      cases jn with
      | true => simp [Listener.step] at q4
      | false =>
        cases pe with
        | true => simp [Listener.step] at q6
        | false => simp [Listener.step] at q3

/-- Nothing of its own is possible. -/
def Quiet (s : State N) : Prop := ∀ b : Act N, own b = true → step s b = none

theorem quiet_lis {s : State N} (hq : Quiet s) (hp : s.proc ≠ .none ∧ s.proc ≠ .ready) {l : Nat}
    {x : Listener.State N} (hx : s.listeners[l]? = some x) :
    ∀ b, internal b = true → Listener.step x b = none := by
  intro b hb
  have h := hq (.lis l b) rfl
  cases hs : Listener.step x b with
  | none => rfl
  | some p =>
    simp only [step] at h
    split at h
    · rename_i e; exact absurd e hp.1
    · rename_i e; exact absurd e hp.2
    · simp [hb, hx, hs] at h

theorem put_free {x : Listener.State N} (h : x.addQ = []) (n : N) :
    ∃ x', Listener.step x (.put n) = some (x', none) := by
  obtain ⟨addQ, got, cur, pd, jn, pend, nextQ, run, sa, pe⟩ := x
  simp only at h
  subst h
  exact ⟨_, rfl⟩

/-- No call of `add_event_handler` waits while the informer is not stopped and `_block_deltas` is not
held by `handle_deltas`. -/
theorem quiet_regs {s : State N} (h : Inv s) (hq : Quiet s) (hp : s.proc ≠ .ready)
    (hb : s.block ≠ some .deltas) : ∀ (r : Nat) (p : Reg N), s.regs[r]? = some p → Over p := by
  -- somebody who holds `_started_lock` can go on
  have hold : s.startedBy = none := by
    cases hsb : s.startedBy with
    | none => rfl
    | some r =>
      exfalso
      obtain ⟨p, hr, hhp⟩ := (h.sb r).1 hsb
      have he := holder_early h hr hhp
      have hpe := proc_early h he.2
      have hpn : s.proc ≠ .none := by
        have hpc := h.pc
        unfold pcOK at hpc
        cases hrun : s.run with
        | idle | entering => rw [hrun] at hpc; rw [he.1] at hpc; exact nomatch hpc.1
        | running => rw [hrun] at hpc; rcases hpc.2.2 with e | e <;> rw [e] <;> nofun
        | closing | leaving => rw [hrun] at hpc; rcases hpc.2.2.1 with e | e <;> rw [e] <;> nofun
        | awaiting => rw [hrun] at hpc; exact hpc.2.2.1
        | ended =>
          rw [hrun] at hpc
          rcases hpc.2 with ⟨e, -, -⟩ | ⟨-, -, e⟩
          · rw [he.1] at e; cases e
          · rw [e]; nofun
      have empty : ∀ (l : Nat) (x : Listener.State N), s.listeners[l]? = some x → x.addQ = [] := by
        intro l x hx
        refine (quiet_empty (h.lis l x hx) (quiet_lis hq ⟨hpn, hp⟩ hx) ?_).2
        cases hsa : x.stopAdd with
        | false => rfl
        | true =>
          rcases (h.stop l x hx).1 hsa with e | e
          · exact absurd e hpe.1
          · exact absurd e hpe.2
      cases p with
      | atLock => simp [hasStarted] at hhp
      | ended => simp [hasStarted] at hhp
      | atBlock =>
        have hbn : s.block = none := by
          cases hbb : s.block with
          | none => rfl
          | some o =>
            cases o with
            | deltas => exact absurd hbb hb
            | reg r' =>
              obtain ⟨p', hr', hhp'⟩ := (h.blk r').1 hbb
              have hs' : hasStarted p' = true := by cases p' <;> simp [hasBlock] at hhp' <;> rfl
              have hsb' := (h.sb r').2 ⟨p', hr', hs'⟩
              rw [hsb] at hsb'
              cases hsb'
              rw [hr] at hr'; cases hr'
              simp [hasBlock] at hhp'
        have := hq (.regBlock r) rfl
        simp [step, hr, hbn] at this
      | adding l todo =>
        obtain ⟨hl, hne⟩ := h.reg r _ hr
        cases todo with
        | nil => exact hne rfl
        | cons n todo =>
          obtain ⟨x, hx⟩ : ∃ x, s.listeners[l]? = some x := ⟨_, List.getElem?_eq_getElem hl⟩
          obtain ⟨x', hx'⟩ := put_free (empty l x hx) n
          have := hq (.regPut r) rfl
          simp [step, hr, putTo, hx, hx'] at this
      | joining l todo =>
        have hl := h.reg r _ hr
        obtain ⟨x, hx⟩ : ∃ x, s.listeners[l]? = some x := ⟨_, List.getElem?_eq_getElem hl⟩
        have := hq (.regJoin r) rfl
        simp [step, hr, taken, hx, empty l x hx] at this
  intro r p hr
  cases p with
  | ended => trivial
  | atLock =>
    have := hq (.regEnter r) rfl
    simp only [step, hr, hold] at this
    split at this
    · cases this
    · split at this <;> cases this
  | atBlock => have := (h.sb r).2 ⟨_, hr, rfl⟩; rw [hold] at this; cases this
  | adding => have := (h.sb r).2 ⟨_, hr, rfl⟩; rw [hold] at this; cases this
  | joining => have := (h.sb r).2 ⟨_, hr, rfl⟩; rw [hold] at this; cases this

theorem free_of_over {s : State N} (h : Inv s)
    (hr : ∀ (r : Nat) (p : Reg N), s.regs[r]? = some p → Over p) : s.startedBy = none := by
  cases hsb : s.startedBy with
  | none => rfl
  | some r =>
    obtain ⟨p, hp, hhp⟩ := (h.sb r).1 hsb
    have := hr r p hp
    cases p <;> simp [Over] at this
    simp [hasStarted] at hhp

theorem no_ready {s : State N} (hq : Quiet s) : s.proc ≠ .ready := by
  intro e
  have := hq .procStart rfl
  simp [step, e] at this

/-- A cancelled `run` ends. -/
theorem quiet_ended {s : State N} (h : Inv s) (hq : Quiet s)
    (hr : s.run = .closing ∨ s.run = .leaving ∨ s.run = .awaiting) : False := by
  have hpc := h.pc
  unfold pcOK at hpc
  have hnr := no_ready hq
  have hb : s.deltas = .idle → s.block ≠ some .deltas := fun e hb => h.blkd.1 hb e
  rcases hr with hr | hr | hr
  · have := hq .reflectorEnds rfl
    simp [step, hr] at this
  · rw [hr] at hpc
    have hfree := free_of_over h (quiet_regs h hq hnr (hb hpc.2.2.2))
    have := hq .leave rfl
    simp [step, hr, hfree] at this
  · rw [hr] at hpc
    cases hp : s.proc with
    | none => exact hpc.2.2.1 hp
    | ready => exact hnr hp
    | running =>
      have := hq .procStop rfl
      simp [step, hp, hpc.2.1] at this
    | stopping =>
      have hall : s.listeners.all over = true := by
        rw [List.all_eq_true]
        intro x hx
        obtain ⟨l, hl⟩ := List.mem_iff_getElem?.1 hx
        exact quiet_over (h.lis l x hl) (quiet_lis hq (by rw [hp]; exact ⟨nofun, nofun⟩) hl)
          ((h.stop l x hl).2 (.inl hp))
      have := hq .procDone rfl
      simp [step, hp, hall] at this
    | done =>
      have := hq .finish rfl
      simp [step, hr, hp] at this

/-- While `run` runs, `handle_deltas` does not get stuck. -/
theorem quiet_deltas {s : State N} (h : Inv s) (hq : Quiet s) (hr : s.run = .running) :
    s.deltas = .idle := by
  have hpc := h.pc
  unfold pcOK at hpc
  rw [hr] at hpc
  have hp : s.proc = .running := by
    rcases hpc.2.2 with e | e
    · exact absurd e (no_ready hq)
    · exact e
  have empty : ∀ (l : Nat) (x : Listener.State N), s.listeners[l]? = some x → x.addQ = [] := by
    intro l x hx
    refine (quiet_empty (h.lis l x hx) (quiet_lis hq (by rw [hp]; exact ⟨nofun, nofun⟩) hx) ?_).2
    cases hsa : x.stopAdd with
    | false => rfl
    | true => rcases (h.stop l x hx).1 hsa with e | e <;> rw [hp] at e <;> cases e
  have hdt := h.dt
  cases hd : s.deltas with
  | idle => rfl
  | holding =>
    have := hq .deltaEnd rfl
    simp [step, hd] at this
  | putting n l ls =>
    rw [hd] at hdt
    have hl := hdt.1 l (by simp)
    obtain ⟨x, hx⟩ : ∃ x, s.listeners[l]? = some x := ⟨_, List.getElem?_eq_getElem hl⟩
    obtain ⟨x', hx'⟩ := put_free (empty l x hx) n
    have := hq .deltaPut rfl
    simp [step, hd, putTo, hx, hx'] at this
  | joining n l ls =>
    rw [hd] at hdt
    have hl := hdt.1 l (by simp)
    obtain ⟨x, hx⟩ : ∃ x, s.listeners[l]? = some x := ⟨_, List.getElem?_eq_getElem hl⟩
    have := hq .deltaJoin rfl
    simp [step, hd, taken, hx, empty l x hx] at this

/-! ## What the handlers are told -/

theorem calls_append (l : Nat) (a b : List (Ev N)) : calls l (a ++ b) = calls l a ++ calls l b := by
  induction a with
  | nil => rfl
  | cons e a ih => cases e <;> simp only [List.cons_append, calls, ih] <;> split <;> rfl

theorem puts_append (l : Nat) (a b : List (Ev N)) : puts l (a ++ b) = puts l a ++ puts l b := by
  induction a with
  | nil => rfl
  | cons e a ih => cases e <;> simp only [List.cons_append, puts, ih] <;> split <;> rfl

theorem told_append (l : Nat) (a b : List (Ev N)) : told l (a ++ b) = told l a ++ told l b := by
  induction a with
  | nil => rfl
  | cons e a ih =>
    cases e <;> simp only [List.cons_append, told, ih] <;> split <;>
      simp only [List.append_assoc, List.cons_append]

theorem lexec_append (as : List (Listener.Act N)) : ∀ (x x' x2 : Listener.State N) (cs : List N)
    (a : Listener.Act N) (c : Option N), Listener.exec x as = some (x', cs) →
    Listener.step x' a = some (x2, c) → Listener.exec x (as ++ [a]) = some (x2, cs ++ c.toList) := by
  induction as with
  | nil =>
    intro x x' x2 cs a c h hs
    simp [Listener.exec] at h
    obtain ⟨rfl, rfl⟩ := h
    simp [Listener.exec, hs]
  | cons b as ih =>
    intro x x' x2 cs a c h hs
    obtain ⟨s1, c1, cs', h1, h2, rfl⟩ := Listener.exec_cons h
    have := ih s1 x' x2 cs' a c h2 hs
    simp [Listener.exec, h1, this]

/-- The history of every listener is one of `Verif.Model.Listener`. -/
structure Trace (s : State N) (L : List (Ev N)) : Prop where
  none : ∀ (l : Nat), s.listeners[l]? = none → calls l L = [] ∧ puts l L = [] ∧ told l L = []
  some : ∀ (l : Nat) (x : Listener.State N), s.listeners[l]? = some x → ∃ as,
    Listener.exec Listener.init as = some (x, calls l L) ∧ Listener.Spec.accepted as = puts l L ∧
    (x.stopAdd = false → Listener.Act.stop ∉ as)

theorem trace_init : Trace (init : State N) [] := by
  constructor <;> simp [init, calls, puts, told]

/-- Events that no listener notices. -/
def Still (e : List (Ev N)) : Prop := ∀ l, calls l e = [] ∧ puts l e = []

theorem trace_same {s s' : State N} {L e : List (Ev N)} (h : Trace s L)
    (hl : s'.listeners = s.listeners) (he : Still e) (ht : ∀ l, s.listeners[l]? = none → told l e = []) :
    Trace s' (L ++ e) := by
  constructor
  · intro l hn
    rw [hl] at hn
    obtain ⟨h1, h2, h3⟩ := h.none l hn
    rw [calls_append, puts_append, told_append, h1, h2, h3, (he l).1, (he l).2, ht l hn]
    exact ⟨rfl, rfl, rfl⟩
  · intro l x hx
    rw [hl] at hx
    rw [calls_append, puts_append, (he l).1, (he l).2, List.append_nil, List.append_nil]
    exact h.some l x hx

theorem trace_set {s s' : State N} {L e : List (Ev N)} (h : Trace s L) {l : Nat}
    {x x' : Listener.State N} {a : Listener.Act N} {c : Option N} (hx : s.listeners[l]? = some x)
    (hst : Listener.step x a = some (x', c)) (ha : a ≠ .stop)
    (hl : s'.listeners = s.listeners.set l x') (hc : calls l e = c.toList)
    (hp : puts l e = Listener.Spec.accepted [a])
    (ho : ∀ m, m ≠ l → calls m e = [] ∧ puts m e = []) (ht : ∀ m, told m e = []) :
    Trace s' (L ++ e) := by
  constructor
  · intro m hn
    have hne : m ≠ l := by
      rintro rfl
      rw [hl, List.getElem?_set, if_pos rfl, if_pos (List.getElem?_eq_some_iff.1 hx).1] at hn
      cases hn
    have hn' : s.listeners[m]? = none := by
      rw [hl, List.getElem?_set, if_neg (fun e => hne e.symm)] at hn; exact hn
    obtain ⟨h1, h2, h3⟩ := h.none m hn'
    rw [calls_append, puts_append, told_append, h1, h2, h3, (ho m hne).1, (ho m hne).2, ht m]
    exact ⟨rfl, rfl, rfl⟩
  · intro m y hy
    rw [hl] at hy
    rcases (get_set hx m y).1 hy with ⟨rfl, rfl⟩ | ⟨hne, hy⟩
    · obtain ⟨as, h1, h2, h3⟩ := h.some _ x hx
      refine ⟨as ++ [a], ?_, ?_, ?_⟩
      · rw [calls_append, hc]; exact lexec_append as _ _ _ _ _ _ h1 hst
      · rw [puts_append, Listener.accepted_append, h2, hp]
      · intro hs
        rw [stop_same ha hst] at hs
        simp only [List.mem_append, List.mem_singleton, not_or]
        exact ⟨h3 hs, fun e => ha e.symm⟩
    · rw [calls_append, puts_append, (ho m hne).1, (ho m hne).2, List.append_nil, List.append_nil]
      exact h.some m y hy

theorem trace_new {s s' : State N} {L : List (Ev N)} (h : Trace s L) (items : List N)
    (hl : s'.listeners = s.listeners ++ [Listener.init]) :
    Trace s' (L ++ [.new s.listeners.length items]) := by
  have he : ∀ m, calls m [Ev.new s.listeners.length items] = [] ∧
      puts m [Ev.new s.listeners.length items] = [] := fun m => ⟨rfl, rfl⟩
  constructor
  · intro m hn
    rw [hl] at hn
    have hm := List.getElem?_eq_none_iff.1 hn
    simp only [List.length_append, List.length_singleton] at hm
    have hn' : s.listeners[m]? = none := List.getElem?_eq_none_iff.2 (by omega)
    obtain ⟨h1, h2, h3⟩ := h.none m hn'
    rw [calls_append, puts_append, told_append, h1, h2, h3]
    refine ⟨rfl, rfl, ?_⟩
    have : s.listeners.length ≠ m := by omega
    simp [told, this]
  · intro m y hy
    rw [hl] at hy
    rw [calls_append, puts_append, (he m).1, (he m).2, List.append_nil, List.append_nil]
    rcases (get_snoc _ _ m y).1 hy with ⟨rfl, rfl⟩ | hy
    · obtain ⟨h1, h2, -⟩ := h.none s.listeners.length (List.getElem?_eq_none_iff.2 (Nat.le_refl _))
      exact ⟨[], by rw [h1]; rfl, by rw [h2]; rfl, by simp⟩
    · exact h.some m y hy

theorem regNext_listeners (s : State N) (r l : Nat) (todo : List N) :
    (regNext s r l todo).listeners = s.listeners := by cases todo <;> rfl

theorem deltaNext_listeners (s : State N) (n : N) (ls : List Nat) :
    (deltaNext s n ls).listeners = s.listeners := by cases ls <;> rfl

theorem still_nil : Still ([] : List (Ev N)) := fun _ => ⟨rfl, rfl⟩

/-- The targets of what is sent exist. -/
def syncOK (s : State N) : Prop := ∀ l ∈ s.syncing, l < s.listeners.length

theorem trace_step {s s' : State N} {a : Act N} {e L : List (Ev N)} (h : Trace s L) (hy : syncOK s)
    (hs : step s a = some (s', e)) : Trace s' (L ++ e) ∧ syncOK s' := by
  have same : s'.listeners = s.listeners → s'.syncing = s.syncing → e = [] →
      Trace s' (L ++ e) ∧ syncOK s' := by
    intro h1 h2 h3
    refine ⟨trace_same h h1 (h3 ▸ still_nil) (fun l _ => by rw [h3]; rfl), ?_⟩
    unfold syncOK; rw [h1, h2]; exact hy
  have lset : ∀ (l : Nat) (x x' : Listener.State N) (b : Listener.Act N) (c : Option N),
      s.listeners[l]? = some x → Listener.step x b = some (x', c) → b ≠ .stop →
      s'.listeners = s.listeners.set l x' → s'.syncing = s.syncing → calls l e = c.toList →
      puts l e = Listener.Spec.accepted [b] →
      (∀ m, m ≠ l → calls m e = [] ∧ puts m e = []) → (∀ m, told m e = []) →
      Trace s' (L ++ e) ∧ syncOK s' := by
    intro l x x' b c hx hst hb hl hsy hc hp ho ht
    refine ⟨trace_set h hx hst hb hl hc hp ho ht, ?_⟩
    unfold syncOK; rw [hl, hsy, List.length_set]; exact hy
  have newl : ∀ items, s'.listeners = s.listeners ++ [Listener.init] →
      s'.syncing = s.syncing ++ [s.listeners.length] → e = [.new s.listeners.length items] →
      Trace s' (L ++ e) ∧ syncOK s' := by
    intro items hl hsy he
    rw [he]
    refine ⟨trace_new h items hl, ?_⟩
    unfold syncOK
    rw [hl, hsy]
    intro l hm
    rcases List.mem_append.1 hm with hm | hm
    · have := hy l hm; simp; omega
    · simp at hm; simp; omega
  cases a with
  | addHandler => simp [step] at hs; obtain ⟨rfl, rfl⟩ := hs; exact same rfl rfl rfl
  | regEnter r =>
    simp only [step] at hs
    split at hs
    · split at hs
      · simp at hs; obtain ⟨rfl, rfl⟩ := hs; exact same rfl rfl rfl
      · split at hs
        · simp at hs; obtain ⟨rfl, rfl⟩ := hs; exact same rfl rfl rfl
        · simp at hs; obtain ⟨rfl, rfl⟩ := hs; exact newl [] rfl rfl rfl
    · cases hs
  | regBlock r =>
    simp only [step] at hs
    split at hs
    · simp only [Option.some.injEq, Prod.mk.injEq] at hs
      obtain ⟨rfl, rfl⟩ := hs
      refine newl s.store ?_ ?_ rfl
      · rw [regNext_listeners]; rfl
      · cases s.store <;> rfl
    · cases hs
  | regPut r =>
    simp only [step] at hs
    split at hs
    · rename_i l n todo hr
      split at hs
      · rename_i s1 hp
        simp only [Option.some.injEq, Prod.mk.injEq] at hs
        obtain ⟨rfl, rfl⟩ := hs
        obtain ⟨x, x', c, hx, hst, rfl⟩ := putTo_spec hp
        have hc : c = none := by
          obtain ⟨addQ, got, cur, pd, jn, pend, nextQ, run, sa, pe⟩ := x
          cases addQ <;> simp [Listener.step] at hst
          exact hst.2.symm
        subst hc
        refine lset l x x' (.put n) none hx hst (by simp) rfl rfl ?_ ?_ ?_ ?_
        · rfl
        · simp [puts, Listener.Spec.accepted]
        · intro m hm; simp [calls, puts, hm.symm]
        · intro m; rfl
      · cases hs
    · cases hs
  | regJoin r =>
    simp only [step] at hs
    split at hs
    · rename_i l todo hr
      split at hs
      · simp at hs; obtain ⟨rfl, rfl⟩ := hs
        exact same (regNext_listeners _ _ _ _) (by cases todo <;> rfl) rfl
      · cases hs
    · cases hs
  | regCancel r =>
    simp only [step] at hs
    split at hs
    all_goals try (simp at hs; obtain ⟨rfl, rfl⟩ := hs; exact same rfl rfl rfl)
    · cases hs
  | start | procStart | deltaEnd | cancelAgain | reflectorEnds =>
    simp only [step] at hs
    split at hs
    · simp at hs; obtain ⟨rfl, rfl⟩ := hs; exact same rfl rfl rfl
    · cases hs
  | enter | leave | deltaBlock | finish =>
    simp only [step] at hs
    split at hs
    · simp at hs; obtain ⟨rfl, rfl⟩ := hs; exact same rfl rfl rfl
    · cases hs
  | cancel =>
    simp only [step] at hs
    split at hs
    · simp at hs; obtain ⟨rfl, rfl⟩ := hs; exact same rfl rfl rfl
    · split at hs <;> (simp at hs; obtain ⟨rfl, rfl⟩ := hs; exact same rfl rfl rfl)
    · cases hs
  | procDone =>
    simp only [step] at hs
    split at hs
    · split at hs
      · simp at hs; obtain ⟨rfl, rfl⟩ := hs; exact same rfl rfl rfl
      · cases hs
    · cases hs
  | distribute n sy st =>
    simp only [step] at hs
    split at hs
    · simp only [Option.some.injEq, Prod.mk.injEq] at hs
      obtain ⟨rfl, rfl⟩ := hs
      refine ⟨trace_same h (deltaNext_listeners _ _ _) (fun l => ⟨rfl, rfl⟩) ?_, ?_⟩
      · intro l hn
        have hm := List.getElem?_eq_none_iff.1 hn
        have : l ∉ (if sy then s.syncing else List.range s.listeners.length) := by
          cases sy with
          | true => intro hl; have := hy l hl; omega
          | false => intro hl; simp at hl; omega
        simp only [told, if_neg this]
      · unfold syncOK
        rw [deltaNext_listeners]
        have : ∀ ls, (deltaNext { s with store := st } n ls).syncing = s.syncing := by
          intro ls; cases ls <;> rfl
        rw [this]; exact hy
    · cases hs
  | deltaPut =>
    simp only [step] at hs
    split at hs
    · rename_i n l ls hdel
      split at hs
      · rename_i s1 hp
        simp only [Option.some.injEq, Prod.mk.injEq] at hs
        obtain ⟨rfl, rfl⟩ := hs
        obtain ⟨x, x', c, hx, hst, rfl⟩ := putTo_spec hp
        have hc : c = none := by
          obtain ⟨addQ, got, cur, pd, jn, pend, nextQ, run, sa, pe⟩ := x
          cases addQ <;> simp [Listener.step] at hst
          exact hst.2.symm
        subst hc
        refine lset l x x' (.put n) none hx hst (by simp) rfl rfl ?_ ?_ ?_ ?_
        · rfl
        · simp [puts, Listener.Spec.accepted]
        · intro m hm; simp [calls, puts, hm.symm]
        · intro m; rfl
      · cases hs
    · cases hs
  | deltaJoin =>
    simp only [step] at hs
    split at hs
    · rename_i n l ls hdel
      split at hs
      · simp at hs; obtain ⟨rfl, rfl⟩ := hs
        exact same (deltaNext_listeners _ _ _) (by cases ls <;> rfl) rfl
      · cases hs
    · cases hs
  | check ls =>
    simp only [step, Option.some.injEq, Prod.mk.injEq] at hs
    obtain ⟨rfl, rfl⟩ := hs
    refine ⟨trace_same h rfl still_nil (fun l _ => rfl), ?_⟩
    intro l hl
    simp at hl; exact hl.1
  | procStop =>
    simp only [step] at hs
    split at hs
    · simp only [Option.some.injEq, Prod.mk.injEq] at hs
      obtain ⟨rfl, rfl⟩ := hs
      rw [List.append_nil]
      refine ⟨⟨?_, ?_⟩, ?_⟩
      · intro l hn
        refine h.none l ?_
        rw [List.getElem?_map] at hn
        exact Option.map_eq_none_iff.1 hn
      · intro l x hx
        rw [List.getElem?_map] at hx
        obtain ⟨y, hy', rfl⟩ := Option.map_eq_some_iff.1 hx
        obtain ⟨as, h1, h2, h3⟩ := h.some l y hy'
        refine ⟨as ++ [.stop], ?_, ?_, ?_⟩
        · have := lexec_append as _ _ _ _ .stop none h1 rfl
          simpa [stopOne] using this
        · rw [Listener.accepted_append, h2]; simp [Listener.Spec.accepted]
        · intro hf; simp [stopOne] at hf
      · intro l hl; simpa using hy l hl
    · cases hs
  | lis l a =>
    simp only [step] at hs
    split at hs
    · cases hs
    · cases hs
    · split at hs
      · rename_i hint
        split at hs
        · cases hs
        · rename_i x hx
          split at hs
          · cases hs
          · rename_i x' c hst
            simp only [Option.some.injEq, Prod.mk.injEq] at hs
            obtain ⟨rfl, rfl⟩ := hs
            refine lset l x x' a c hx hst ?_ rfl rfl ?_ ?_ ?_ ?_
            · rintro rfl; simp [internal] at hint
            · cases c <;> simp [calls]
            · cases c <;> cases a <;> simp [puts, Listener.Spec.accepted, internal] at hint ⊢
            · intro m hm; cases c <;> simp [calls, puts, hm.symm]
            · intro m; cases c <;> simp [told]
      · cases hs

theorem trace_exec (as : List (Act N)) : ∀ {s s' : State N} {L es : List (Ev N)}, Trace s L → syncOK s →
    exec s as = some (s', es) → Trace s' (L ++ es) ∧ syncOK s' := by
  induction as with
  | nil =>
    intro s s' L es h hy he
    simp [exec] at he; obtain ⟨rfl, rfl⟩ := he; rw [List.append_nil]; exact ⟨h, hy⟩
  | cons a as ih =>
    intro s s' L es h hy he
    obtain ⟨s1, e, es', h1, h2, rfl⟩ := exec_cons he
    obtain ⟨h3, h4⟩ := trace_step h hy h1
    rw [← List.append_assoc]
    exact ih h3 h4 h2

/-- What a call of `add_event_handler` has still to put for listener `l`. -/
def regPending (l : Nat) : Reg N → List N
  | .adding m todo | .joining m todo => if m = l then todo else []
  | _ => []

/-- What the distribution has still to put for listener `l`. -/
def deltaPending (l : Nat) : DPc N → List N
  | .putting n m ls => if l ∈ m :: ls then [n] else []
  | .joining n _ ls => if l ∈ ls then [n] else []
  | _ => []

/-- What is still to be put for listener `l`. -/
def pending (l : Nat) (s : State N) : List N :=
  match s.block with
  | none => []
  | some .deltas => deltaPending l s.deltas
  | some (.reg r) => match s.regs[r]? with
    | some p => regPending l p
    | none => []

def Told (s : State N) (L : List (Ev N)) : Prop := ∀ l, puts l L ++ pending l s = told l L

theorem told_same {s s' : State N} {L : List (Ev N)} (h : Told s L)
    (hp : ∀ l, pending l s' = pending l s) : Told s' (L ++ []) := by
  intro l
  rw [List.append_nil, hp l]; exact h l

theorem pending_reg {s s' : State N} {r : Nat} {p : Reg N} (hi : Inv s) (hr : s.regs[r]? = some p)
    (hb : hasBlock p = false) (q : Reg N) (h1 : s'.block = s.block) (h2 : s'.deltas = s.deltas)
    (h3 : s'.regs = s.regs.set r q) (l : Nat) : pending l s' = pending l s := by
  unfold pending
  rw [h1, h2, h3]
  split
  · rfl
  · rfl
  · rename_i m hm
    have hne : r ≠ m := by
      rintro rfl
      obtain ⟨p', h4, h5⟩ := (hi.blk r).1 hm
      rw [hr] at h4; cases h4; rw [hb] at h5; cases h5
    rw [List.getElem?_set, if_neg hne]

theorem pending_regNext (s : State N) (r l m : Nat) (todo : List N) {p : Reg N}
    (hr : s.regs[r]? = some p) (hb : s.block = some (.reg r)) :
    pending m (regNext s r l todo) = if l = m then todo else [] := by
  have hlt : r < s.regs.length := (List.getElem?_eq_some_iff.1 hr).1
  cases todo with
  | nil => simp [regNext, pending]
  | cons n todo =>
    simp [regNext, pending, State.setReg, hb, List.getElem?_set, hlt, regPending]

theorem pending_deltaNext (s : State N) (n : N) (ls : List Nat) (m : Nat)
    (hb : s.block = some .deltas) :
    pending m (deltaNext s n ls) = if m ∈ ls then [n] else [] := by
  cases ls <;> simp [deltaNext, pending, hb, deltaPending]

theorem told_step {s s' : State N} {a : Act N} {e L : List (Ev N)} (hi : Inv s) (ht : Trace s L)
    (h : Told s L) (ha : a ≠ .cancel ∧ ∀ r, a ≠ .regCancel r)
    (hs : step s a = some (s', e)) : Told s' (L ++ e) := by
  cases a with
  | cancel => exact absurd rfl ha.1
  | regCancel r => exact absurd rfl (ha.2 r)
  | addHandler =>
    simp [step] at hs; obtain ⟨rfl, rfl⟩ := hs
    refine told_same h fun l => ?_
    unfold pending
    show (match s.block with | none => _ | some .deltas => _ | some (.reg r) => _) = _
    split
    · rfl
    · rfl
    · rename_i r hr
      obtain ⟨p', h4, h5⟩ := (hi.blk r).1 hr
      have : (s.regs ++ [Reg.atLock])[r]? = some p' := (get_snoc _ _ r p').2 (.inr h4)
      rw [this, h4]
  | regEnter r =>
    simp only [step] at hs
    split at hs
    · rename_i hr hsb
      split at hs
      · simp at hs; obtain ⟨rfl, rfl⟩ := hs
        refine told_same h fun l => ?_
        exact pending_reg hi hr rfl (.ended .refused) (by rfl) (by rfl) (by rfl) l
      · split at hs
        · simp at hs; obtain ⟨rfl, rfl⟩ := hs
          refine told_same h fun l => ?_
          exact pending_reg hi hr rfl .atBlock (by rfl) (by rfl) (by rfl) l
        · simp at hs; obtain ⟨rfl, rfl⟩ := hs
          intro l
          have h1 : pending l (s.addListener.setReg r (.ended (.registered s.listeners.length))) =
              pending l s := by
            exact pending_reg hi hr rfl (.ended (.registered s.listeners.length)) (by rfl) (by rfl) (by rfl) l
          rw [h1, puts_append, told_append, ← h l]
          simp [puts, told]
    · cases hs
  | regBlock r =>
    simp only [step] at hs
    split at hs
    · rename_i hr hb
      simp only [Option.some.injEq, Prod.mk.injEq] at hs
      obtain ⟨rfl, rfl⟩ := hs
      intro l
      rw [pending_regNext (p := .atBlock) _ _ _ _ _ (by exact hr) (by rfl), puts_append, told_append, ← h l]
      have h0 : pending l s = [] := by simp [pending, hb]
      rw [h0]
      simp [puts, told]
    · cases hs
  | regPut r =>
    simp only [step] at hs
    split at hs
    · rename_i l n todo hr
      split at hs
      · rename_i s1 hp
        simp only [Option.some.injEq, Prod.mk.injEq] at hs
        obtain ⟨rfl, rfl⟩ := hs
        obtain ⟨x, x', c, hx, hst, rfl⟩ := putTo_spec hp
        have hb := (hi.blk r).2 ⟨_, hr, rfl⟩
        have hlt : r < s.regs.length := (List.getElem?_eq_some_iff.1 hr).1
        intro m
        rw [puts_append, told_append, ← h m]
        have h1 : pending m s = if l = m then n :: todo else [] := by simp [pending, hb, hr, regPending]
        rw [h1]
        by_cases hlm : l = m
        · simp [pending, State.setReg, hb, hlt, List.getElem?_set, regPending, puts, told, hlm]
        · simp [pending, State.setReg, hb, hlt, List.getElem?_set, regPending, puts, told, hlm]
      · cases hs
    · cases hs
  | regJoin r =>
    simp only [step] at hs
    split at hs
    · rename_i l todo hr
      split at hs
      · simp at hs; obtain ⟨rfl, rfl⟩ := hs
        have hb := (hi.blk r).2 ⟨_, hr, rfl⟩
        refine told_same h fun m => ?_
        rw [pending_regNext _ _ _ _ _ hr hb]
        simp [pending, hb, hr, regPending]
      · cases hs
    · cases hs
  | start | procStart | cancelAgain | reflectorEnds =>
    simp only [step] at hs
    split at hs
    · simp at hs; obtain ⟨rfl, rfl⟩ := hs; exact told_same h fun _ => rfl
    · cases hs
  | enter | leave | finish =>
    simp only [step] at hs
    split at hs
    · simp at hs; obtain ⟨rfl, rfl⟩ := hs; exact told_same h fun _ => rfl
    · cases hs
  | procDone =>
    simp only [step] at hs
    split at hs
    · split at hs
      · simp at hs; obtain ⟨rfl, rfl⟩ := hs; exact told_same h fun _ => rfl
      · cases hs
    · cases hs
  | procStop =>
    simp only [step] at hs
    split at hs
    · simp at hs; obtain ⟨rfl, rfl⟩ := hs; exact told_same h fun _ => rfl
    · cases hs
  | check ls =>
    simp only [step, Option.some.injEq, Prod.mk.injEq] at hs
    obtain ⟨rfl, rfl⟩ := hs; exact told_same h fun _ => rfl
  | deltaBlock =>
    simp only [step] at hs
    split at hs
    · rename_i hb
      simp at hs; obtain ⟨rfl, rfl⟩ := hs
      exact told_same h fun l => by simp [pending, deltaPending, hb]
    · cases hs
  | deltaEnd =>
    simp only [step] at hs
    split at hs
    · rename_i hd
      have hb := hi.blkd.2 (by rw [hd]; simp)
      simp at hs; obtain ⟨rfl, rfl⟩ := hs
      exact told_same h fun l => by simp [pending, deltaPending, hb, hd]
    · cases hs
  | distribute n sy st =>
    simp only [step] at hs
    split at hs
    · rename_i hd
      have hb := hi.blkd.2 (by rw [hd]; simp)
      simp only [Option.some.injEq, Prod.mk.injEq] at hs
      obtain ⟨rfl, rfl⟩ := hs
      intro l
      have h0 : pending l s = [] := by simp [pending, hb, hd, deltaPending]
      rw [pending_deltaNext _ _ _ _ (by exact hb), puts_append, told_append, ← h l, h0]
      simp only [puts, told, List.append_nil]
    · cases hs
  | deltaPut =>
    simp only [step] at hs
    split at hs
    · rename_i n l ls hd
      have hb := hi.blkd.2 (by rw [hd]; simp)
      split at hs
      · rename_i s1 hp
        simp only [Option.some.injEq, Prod.mk.injEq] at hs
        obtain ⟨rfl, rfl⟩ := hs
        obtain ⟨x, x', c, hx, hst, rfl⟩ := putTo_spec hp
        have hnd : (l :: ls).Nodup := by have := hi.dt; rw [hd] at this; exact this.2
        intro m
        rw [puts_append, told_append, ← h m]
        have h1 : pending m s = if m ∈ l :: ls then [n] else [] := by
          simp [pending, hb, hd, deltaPending]
        rw [h1]
        by_cases hlm : l = m
        · subst hlm
          simp [pending, hb, deltaPending, puts, told, (List.nodup_cons.1 hnd).1]
        · have : m ≠ l := fun e => hlm e.symm
          simp [pending, hb, deltaPending, puts, told, hlm, this]
      · cases hs
    · cases hs
  | deltaJoin =>
    simp only [step] at hs
    split at hs
    · rename_i n l ls hd
      have hb := hi.blkd.2 (by rw [hd]; simp)
      split at hs
      · simp at hs; obtain ⟨rfl, rfl⟩ := hs
        refine told_same h fun m => ?_
        rw [pending_deltaNext _ _ _ _ hb]
        simp [pending, hb, hd, deltaPending]
      · cases hs
    · cases hs
  | lis l a =>
    simp only [step] at hs
    split at hs
    · cases hs
    · cases hs
    · split at hs
      · split at hs
        · cases hs
        · rename_i x hx
          split at hs
          · cases hs
          · rename_i x' c hst
            simp only [Option.some.injEq, Prod.mk.injEq] at hs
            obtain ⟨rfl, rfl⟩ := hs
            intro m
            rw [puts_append, told_append, ← h m]
            cases c <;> simp [pending, puts, told]
      · cases hs

theorem told_exec (as : List (Act N)) : ∀ {s s' : State N} {L es : List (Ev N)}, Inv s → Trace s L →
    Told s L → Act.cancelAgain ∉ as → noCancel as →
    exec s as = some (s', es) → Told s' (L ++ es) := by
  induction as with
  | nil =>
    intro s s' L es _ _ h _ _ he
    simp [exec] at he; obtain ⟨rfl, rfl⟩ := he; rw [List.append_nil]; exact h
  | cons a as ih =>
    intro s s' L es hi ht h hn hc he
    obtain ⟨s1, e, es', h1, h2, rfl⟩ := exec_cons he
    have hi' : Inv s1 := inv_step (fun e => hn (by simp [e])) hi h1
    have ht' := (trace_step ht hi.sync.1 h1).1
    have h' := told_step hi ht h ⟨fun e => hc.1 (by simp [e]), fun r e => hc.2 r (by simp [e])⟩ h1
    rw [← List.append_assoc]
    refine ih hi' ht' h' (fun e => hn (by simp [e])) ⟨fun e => hc.1 (by simp [e]), fun r e => hc.2 r (by simp [e])⟩ h2

/-! ## After the cancellation -/

/-- `run` has been cancelled. -/
def Cancelled (s : State N) : Prop :=
  s.run = .closing ∨ s.run = .leaving ∨ s.run = .awaiting ∨ s.run = .ended

theorem cancelled_step {s s' : State N} {a : Act N} {e : List (Ev N)} (hs : step s a = some (s', e))
    (h : Cancelled s ∨ a = .cancel) : Cancelled s' := by
  unfold Cancelled at h ⊢
  cases a with
  | regPut r =>
    simp only [step] at hs
    split at hs
    · split at hs
      · rename_i s1 hp
        obtain ⟨x, x', c, hx, hst, rfl⟩ := putTo_spec hp
        simp at hs; obtain ⟨rfl, -⟩ := hs
        rcases h with h | h
        · exact h
        · cases h
      · cases hs
    · cases hs
  | deltaPut =>
    simp only [step] at hs
    split at hs
    · split at hs
      · rename_i s1 hp
        obtain ⟨x, x', c, hx, hst, rfl⟩ := putTo_spec hp
        simp at hs; obtain ⟨rfl, -⟩ := hs
        rcases h with h | h
        · exact h
        · cases h
      · cases hs
    · cases hs
  | regBlock r =>
    simp only [step] at hs
    split at hs
    · simp at hs; obtain ⟨rfl, -⟩ := hs
      rcases h with h | h
      · cases hst : s.store <;> exact h
      · cases h
    · cases hs
  | regJoin r =>
    simp only [step] at hs
    split at hs
    · rename_i l todo hr
      split at hs
      · simp at hs; obtain ⟨rfl, -⟩ := hs
        rcases h with h | h
        · cases todo <;> exact h
        · cases h
      · cases hs
    · cases hs
  | distribute n sy st =>
    simp only [step] at hs
    split at hs
    · simp only [Option.some.injEq, Prod.mk.injEq] at hs; obtain ⟨rfl, -⟩ := hs
      rcases h with h | h
      · cases hls : (if sy then s.syncing else List.range s.listeners.length) <;> exact h
      · cases h
    · cases hs
  | deltaJoin =>
    simp only [step] at hs
    split at hs
    · rename_i n l ls hd
      split at hs
      · simp at hs; obtain ⟨rfl, -⟩ := hs
        rcases h with h | h
        · cases ls <;> exact h
        · cases h
      · cases hs
    · cases hs
  | start | enter | reflectorEnds | leave | finish | cancelAgain =>
    simp only [step] at hs
    split at hs
    · simp at hs; obtain ⟨rfl, -⟩ := hs
      simp_all
    · cases hs
  | cancel =>
    simp only [step] at hs
    split at hs
    · simp at hs; obtain ⟨rfl, -⟩ := hs; simp
    · split at hs <;> (simp at hs; obtain ⟨rfl, -⟩ := hs; simp)
    · cases hs
  | _ =>
    simp only [step] at hs
    repeat' split at hs
    all_goals first
      | (cases hs; done)
      | (simp only [Option.some.injEq, Prod.mk.injEq] at hs; obtain ⟨rfl, -⟩ := hs
         rcases h with h | h
         · exact h
         · cases h)

theorem cancelled_exec (as : List (Act N)) : ∀ {s s' : State N} {es : List (Ev N)},
    exec s as = some (s', es) → (Cancelled s ∨ Act.cancel ∈ as) → Cancelled s' := by
  induction as with
  | nil => intro s s' es he h; simp [exec] at he; obtain ⟨rfl, rfl⟩ := he; simpa using h
  | cons a as ih =>
    intro s s' es he h
    obtain ⟨s1, e, es', h1, h2, rfl⟩ := exec_cons he
    refine ih h2 ?_
    rcases h with h | h
    · exact .inl (cancelled_step h1 (.inl h))
    · rcases List.mem_cons.1 h with h | h
      · exact .inl (cancelled_step h1 (.inr h.symm))
      · exact .inr h

/-- Where everything is after `run` has ended. -/
theorem ended_facts {s : State N} (h : Inv s) (hr : s.run = .ended) :
    s.startedBy = none ∧ s.block = none ∧ s.deltas = .idle ∧
    ((s.started = false ∧ s.stopped = false ∧ s.proc = .none) ∨
      (s.started = true ∧ s.stopped = true ∧ s.proc = .done)) := by
  have hpc := h.pc
  unfold pcOK at hpc
  rw [hr] at hpc
  have hsb : s.startedBy = none := by
    refine h.free ?_
    rcases hpc.2 with e | e
    · exact .inl e.1
    · exact .inr e.2.1
  refine ⟨hsb, ?_, hpc.1, hpc.2⟩
  cases hb : s.block with
  | none => rfl
  | some b =>
    cases b with
    | deltas => exact absurd hpc.1 (h.blkd.1 hb)
    | reg r =>
      obtain ⟨p, h1, h2⟩ := (h.blk r).1 hb
      have : s.startedBy = some r := (h.sb r).2 ⟨p, h1, by cases p <;> simp [hasBlock, hasStarted] at h2 ⊢⟩
      rw [hsb] at this; cases this

theorem ended_step {s s' : State N} {a : Act N} {e : List (Ev N)} (h : Inv s) (hr : s.run = .ended)
    (hs : step s a = some (s', e)) :
    a ≠ .cancelAgain ∧ s'.run = .ended ∧ s'.started = s.started ∧ Still e ∧
      (s.started = true → e = [] ∧ s'.listeners.length = s.listeners.length ∧
        s.regs.length ≤ s'.regs.length ∧
        ∀ (r l : Nat), s'.regs[r]? = some (.ended (.registered l)) →
          s.regs[r]? = some (.ended (.registered l))) := by
  obtain ⟨hsb, hb, hd, hc⟩ := ended_facts h hr
  have noreg : ∀ (r : Nat) (p : Reg N), s.regs[r]? = some p → hasStarted p = true → False := by
    intro r p h1 h2
    have := (h.sb r).2 ⟨p, h1, h2⟩
    rw [hsb] at this; cases this
  have regset : ∀ (r : Nat) (q p : Reg N), s.regs[r]? = some q → (∀ l, p ≠ .ended (.registered l)) →
      s.regs.length ≤ (s.regs.set r p).length ∧
        ∀ (m l : Nat), (s.regs.set r p)[m]? = some (.ended (.registered l)) →
          s.regs[m]? = some (.ended (.registered l)) := by
    intro r q p hq hp
    refine ⟨by simp, fun m l hm => ?_⟩
    rcases (get_set hq m _).1 hm with ⟨-, e⟩ | ⟨-, hm⟩
    · exact absurd e.symm (hp l)
    · exact hm
  cases a with
  | addHandler =>
    simp [step] at hs; obtain ⟨rfl, rfl⟩ := hs
    refine ⟨nofun, hr, rfl, still_nil, fun _ => ⟨rfl, rfl, by simp, ?_⟩⟩
    intro r l hm
    rcases (get_snoc _ _ r _).1 hm with ⟨-, e⟩ | hm
    · cases e
    · exact hm
  | regEnter r =>
    simp only [step] at hs
    split at hs
    · rename_i hreg _
      split at hs
      · simp at hs; obtain ⟨rfl, rfl⟩ := hs
        exact ⟨nofun, hr, rfl, still_nil, fun _ => ⟨rfl, rfl, regset r _ _ hreg nofun⟩⟩
      · rename_i hst
        rcases hc with ⟨h1, h2, h3⟩ | ⟨h1, h2, h3⟩
        · rw [h1] at hs
          simp at hs; obtain ⟨rfl, rfl⟩ := hs
          exact ⟨nofun, hr, rfl, fun l => ⟨rfl, rfl⟩, fun e => by rw [h1] at e; cases e⟩
        · exact absurd h2 hst
    · cases hs
  | regBlock r =>
    simp only [step] at hs
    split at hs
    · rename_i hreg _; exact (noreg r _ hreg rfl).elim
    · cases hs
  | regPut r =>
    simp only [step] at hs
    split at hs
    · rename_i hreg; exact (noreg r _ hreg rfl).elim
    · cases hs
  | regJoin r =>
    simp only [step] at hs
    split at hs
    · rename_i hreg; exact (noreg r _ hreg rfl).elim
    · cases hs
  | regCancel r =>
    simp only [step] at hs
    split at hs
    · rename_i hreg
      simp at hs; obtain ⟨rfl, rfl⟩ := hs
      exact ⟨nofun, hr, rfl, still_nil, fun _ => ⟨rfl, rfl, regset r _ _ hreg nofun⟩⟩
    · rename_i hreg; exact (noreg r _ hreg rfl).elim
    · rename_i hreg; exact (noreg r _ hreg rfl).elim
    · rename_i hreg; exact (noreg r _ hreg rfl).elim
    · cases hs
  | start | enter | cancel | cancelAgain | reflectorEnds | leave | finish | deltaBlock =>
    simp [step, hr] at hs
  | deltaPut | deltaJoin | deltaEnd | distribute => simp [step, hd] at hs
  | procStart | procStop | procDone =>
    rcases hc with ⟨h1, h2, h3⟩ | ⟨h1, h2, h3⟩ <;> simp [step, h3] at hs
  | check ls =>
    simp only [step, Option.some.injEq, Prod.mk.injEq] at hs
    obtain ⟨rfl, rfl⟩ := hs
    exact ⟨nofun, hr, rfl, still_nil, fun _ => ⟨rfl, rfl, Nat.le_refl _, fun _ _ => id⟩⟩
  | lis l a =>
    rcases hc with ⟨h1, h2, h3⟩ | ⟨h1, h2, h3⟩
    · simp [step, h3] at hs
    · simp only [step, h3] at hs
      split at hs
      · split at hs
        · cases hs
        · rename_i x hx
          split at hs
          · cases hs
          · rename_i x' c hst
            simp only [Option.some.injEq, Prod.mk.injEq] at hs
            obtain ⟨rfl, rfl⟩ := hs
            obtain ⟨-, rfl⟩ := over_stays (h.fin h3 l x hx) hst
            exact ⟨nofun, hr, rfl, still_nil,
              fun _ => ⟨rfl, by simp, Nat.le_refl _, fun _ _ => id⟩⟩
      · cases hs

theorem ended_exec (as : List (Act N)) : ∀ {s s' : State N} {es : List (Ev N)}, Inv s → s.run = .ended →
    exec s as = some (s', es) →
    Inv s' ∧ s'.run = .ended ∧ s'.started = s.started ∧ Still es ∧
      (s.started = true → es = [] ∧ s'.listeners.length = s.listeners.length ∧
        s.regs.length ≤ s'.regs.length ∧
        ∀ (r l : Nat), s'.regs[r]? = some (.ended (.registered l)) →
          s.regs[r]? = some (.ended (.registered l))) := by
  induction as with
  | nil =>
    intro s s' es h hr he
    simp [exec] at he; obtain ⟨rfl, rfl⟩ := he
    exact ⟨h, hr, rfl, still_nil, fun _ => ⟨rfl, rfl, Nat.le_refl _, fun _ _ => id⟩⟩
  | cons a as ih =>
    intro s s' es h hr he
    obtain ⟨s1, e, es', h1, h2, rfl⟩ := exec_cons he
    obtain ⟨g1, g2, g3, g4, g5⟩ := ended_step h hr h1
    obtain ⟨k0, k1, k2, k3, k4⟩ := ih (inv_step g1 h h1) g2 h2
    refine ⟨k0, k1, k2.trans g3, ?_, ?_⟩
    · intro l
      rw [calls_append, puts_append, (g4 l).1, (g4 l).2, (k3 l).1, (k3 l).2]
      exact ⟨rfl, rfl⟩
    · intro hst
      obtain ⟨a1, a2, a3, a4⟩ := g5 hst
      obtain ⟨b1, b2, b3, b4⟩ := k4 (g3.trans hst)
      exact ⟨by rw [a1, b1]; rfl, b2.trans a2, Nat.le_trans a3 b3, fun r l hm => a4 r l (b4 r l hm)⟩

/-! ## Without a cancellation -/

/-- `run` has not been cancelled, every call that ended has a listener. -/
def Good (s : State N) : Prop :=
  (s.run = .idle ∨ s.run = .entering ∨ s.run = .running) ∧
  ∀ (r : Nat) (q : Result), s.regs[r]? = some (.ended q) → ∃ l, q = .registered l ∧ l < s.listeners.length

theorem good_regs {s s' : State N} (h : Good s) {r : Nat} {q p : Reg N} (hr : s.regs[r]? = some q)
    (h1 : s'.run = s.run) (h2 : s'.regs = s.regs.set r p)
    (h3 : s.listeners.length ≤ s'.listeners.length)
    (h4 : ∀ q, p = .ended q → ∃ l, q = .registered l ∧ l < s'.listeners.length) : Good s' := by
  refine ⟨by rw [h1]; exact h.1, ?_⟩
  rw [h2]
  intro m q' hm
  rcases (get_set hr m _).1 hm with ⟨-, e⟩ | ⟨-, hm⟩
  · exact h4 q' e.symm
  · obtain ⟨l, e, hl⟩ := h.2 m q' hm
    exact ⟨l, e, by omega⟩

theorem good_same {s s' : State N} (h : Good s) (h1 : s'.run = s.run) (h2 : s'.regs = s.regs)
    (h3 : s'.listeners.length = s.listeners.length) : Good s' := by
  unfold Good
  rw [h1, h2, h3]; exact h

theorem good_regNext {s s' : State N} (h : Good s') {r l : Nat} {todo : List N} {q : Reg N}
    (hr : s'.regs[r]? = some q) (hl : l < s'.listeners.length) (he : s = regNext s' r l todo) :
    Good s := by
  subst he
  cases todo with
  | nil =>
    refine good_regs h hr (p := .ended (.registered l)) (by rfl) (by rfl) (by exact Nat.le_refl _) ?_
    intro q e; cases e; exact ⟨l, rfl, hl⟩
  | cons n todo =>
    exact good_regs h hr (p := .adding l (n :: todo)) (by rfl) (by rfl) (by exact Nat.le_refl _) nofun

theorem good_step {s s' : State N} {a : Act N} {e : List (Ev N)} (hi : Inv s) (h : Good s)
    (ha : a ≠ .cancel ∧ ∀ r, a ≠ .regCancel r) (hs : step s a = some (s', e)) : Good s' := by
  have hns : s.stopped = false := by
    have hpc := hi.pc
    unfold pcOK at hpc
    rcases h.1 with e | e | e <;> rw [e] at hpc <;> exact hpc.2.1
  cases a with
  | cancel => exact absurd rfl ha.1
  | regCancel r => exact absurd rfl (ha.2 r)
  | addHandler =>
    simp [step] at hs; obtain ⟨rfl, rfl⟩ := hs
    refine ⟨h.1, ?_⟩
    intro r q hm
    rcases (get_snoc _ _ r _).1 hm with ⟨-, e⟩ | hm
    · cases e
    · exact h.2 r q hm
  | regEnter r =>
    simp only [step] at hs
    split at hs
    · rename_i hreg _
      rw [hns] at hs
      simp only [Bool.false_eq_true, if_false] at hs
      split at hs
      · simp at hs; obtain ⟨rfl, rfl⟩ := hs
        exact good_regs h hreg (p := .atBlock) (by rfl) (by rfl) (by exact Nat.le_refl _) nofun
      · simp at hs; obtain ⟨rfl, rfl⟩ := hs
        refine good_regs h hreg (p := .ended (.registered s.listeners.length)) (by rfl) (by rfl) ?_ ?_
        · simp [State.setReg, State.addListener]
        · intro q e; cases e
          exact ⟨_, rfl, by simp [State.setReg, State.addListener]⟩
    · cases hs
  | regBlock r =>
    simp only [step] at hs
    split at hs
    · rename_i hreg _
      simp only [Option.some.injEq, Prod.mk.injEq] at hs
      obtain ⟨rfl, rfl⟩ := hs
      have h' : Good { s.addListener with block := some (.reg r) } := by
        refine ⟨h.1, ?_⟩
        intro m q hm
        obtain ⟨l, e, hl⟩ := h.2 m q hm
        exact ⟨l, e, by simp [State.addListener]; omega⟩
      exact good_regNext h' (by exact hreg) (by simp [State.addListener]) rfl
    · cases hs
  | regPut r =>
    simp only [step] at hs
    split at hs
    · rename_i l n todo hreg
      split at hs
      · rename_i s1 hp
        simp only [Option.some.injEq, Prod.mk.injEq] at hs
        obtain ⟨rfl, rfl⟩ := hs
        obtain ⟨x, x', c, hx, hst, rfl⟩ := putTo_spec hp
        exact good_regs h hreg (p := .joining l todo) (by rfl) (by rfl)
          (by simp [State.setReg]) nofun
      · cases hs
    · cases hs
  | regJoin r =>
    simp only [step] at hs
    split at hs
    · rename_i l todo hreg
      split at hs
      · simp at hs; obtain ⟨rfl, rfl⟩ := hs
        exact good_regNext h hreg (hi.reg r _ hreg) rfl
      · cases hs
    · cases hs
  | start | enter =>
    simp only [step] at hs
    split at hs
    · simp at hs; obtain ⟨rfl, rfl⟩ := hs
      exact ⟨by simp, h.2⟩
    · cases hs
  | cancelAgain | reflectorEnds | leave | finish =>
    simp only [step] at hs
    split at hs
    · rename_i e _
      rcases h.1 with e' | e' | e' <;> simp_all
    · cases hs
  | procStart | deltaBlock | deltaEnd =>
    simp only [step] at hs
    split at hs
    · simp at hs; obtain ⟨rfl, rfl⟩ := hs; exact good_same h rfl rfl rfl
    · cases hs
  | procDone =>
    simp only [step] at hs
    split at hs
    · split at hs
      · simp at hs; obtain ⟨rfl, rfl⟩ := hs; exact good_same h rfl rfl rfl
      · cases hs
    · cases hs
  | procStop =>
    simp only [step] at hs
    split at hs
    · simp at hs; obtain ⟨rfl, rfl⟩ := hs; exact good_same h rfl rfl (by simp)
    · cases hs
  | check ls =>
    simp only [step, Option.some.injEq, Prod.mk.injEq] at hs
    obtain ⟨rfl, rfl⟩ := hs; exact good_same h rfl rfl rfl
  | distribute n sy st =>
    simp only [step] at hs
    split at hs
    · simp only [Option.some.injEq, Prod.mk.injEq] at hs
      obtain ⟨rfl, rfl⟩ := hs
      cases hls : (if sy then s.syncing else List.range s.listeners.length) <;>
        exact good_same h rfl rfl rfl
    · cases hs
  | deltaPut =>
    simp only [step] at hs
    split at hs
    · split at hs
      · rename_i s1 hp
        simp only [Option.some.injEq, Prod.mk.injEq] at hs
        obtain ⟨rfl, rfl⟩ := hs
        obtain ⟨x, x', c, hx, hst, rfl⟩ := putTo_spec hp
        exact good_same h rfl rfl (by simp)
      · cases hs
    · cases hs
  | deltaJoin =>
    simp only [step] at hs
    split at hs
    · rename_i n l ls hd
      split at hs
      · simp at hs; obtain ⟨rfl, rfl⟩ := hs
        cases ls <;> exact good_same h rfl rfl rfl
      · cases hs
    · cases hs
  | lis l a =>
    simp only [step] at hs
    split at hs
    · cases hs
    · cases hs
    · split at hs
      · split at hs
        · cases hs
        · split at hs
          · cases hs
          · simp only [Option.some.injEq, Prod.mk.injEq] at hs
            obtain ⟨rfl, rfl⟩ := hs
            exact good_same h rfl rfl (by simp)
      · cases hs

theorem good_exec (as : List (Act N)) : ∀ {s s' : State N} {es : List (Ev N)}, Inv s → Good s →
    Act.cancelAgain ∉ as → noCancel as → exec s as = some (s', es) → Good s' := by
  induction as with
  | nil => intro s s' es _ h _ _ he; simp [exec] at he; obtain ⟨rfl, rfl⟩ := he; exact h
  | cons a as ih =>
    intro s s' es hi h hn hc he
    obtain ⟨s1, e, es', h1, h2, rfl⟩ := exec_cons he
    exact ih (inv_step (fun e => hn (by simp [e])) hi h1)
      (good_step hi h ⟨fun e => hc.1 (by simp [e]), fun r e => hc.2 r (by simp [e])⟩ h1)
      (fun e => hn (by simp [e])) ⟨fun e => hc.1 (by simp [e]), fun r e => hc.2 r (by simp [e])⟩ h2

/-! ## A second cancellation -/

theorem again_step {s s' : State N} {a : Act N} {e : List (Ev N)}
    (h : s.run = .ended ∧ s.stopped = false ∧ (s.proc = .ready ∨ s.proc = .running))
    (hs : step s a = some (s', e)) :
    s'.run = .ended ∧ s'.stopped = false ∧ (s'.proc = .ready ∨ s'.proc = .running) := by
  obtain ⟨hr, hst, hp⟩ := h
  cases a with
  | start | enter | cancel | cancelAgain | reflectorEnds | leave | finish | deltaBlock =>
    simp [step, hr] at hs
  | procStop | procDone => rcases hp with hp | hp <;> simp [step, hp, hst] at hs
  | procStart =>
    rcases hp with hp | hp <;> simp [step, hp] at hs
    obtain ⟨rfl, -⟩ := hs; exact ⟨hr, hst, .inr rfl⟩
  | regPut r =>
    simp only [step] at hs
    split at hs
    · split at hs
      · rename_i s1 h1
        obtain ⟨x, x', c, hx, hst, rfl⟩ := putTo_spec h1
        simp at hs; obtain ⟨rfl, -⟩ := hs; exact ⟨hr, ‹_›, hp⟩
      · cases hs
    · cases hs
  | deltaPut =>
    simp only [step] at hs
    split at hs
    · split at hs
      · rename_i s1 h1
        obtain ⟨x, x', c, hx, hst, rfl⟩ := putTo_spec h1
        simp at hs; obtain ⟨rfl, -⟩ := hs; exact ⟨hr, ‹_›, hp⟩
      · cases hs
    · cases hs
  | regBlock r =>
    simp only [step] at hs
    split at hs
    · simp at hs; obtain ⟨rfl, -⟩ := hs
      cases h1 : s.store <;> exact ⟨hr, hst, hp⟩
    · cases hs
  | regJoin r =>
    simp only [step] at hs
    split at hs
    · rename_i l todo _
      split at hs
      · simp at hs; obtain ⟨rfl, -⟩ := hs
        cases todo <;> exact ⟨hr, hst, hp⟩
      · cases hs
    · cases hs
  | distribute n sy st =>
    simp only [step] at hs
    split at hs
    · simp only [Option.some.injEq, Prod.mk.injEq] at hs; obtain ⟨rfl, -⟩ := hs
      cases hls : (if sy then s.syncing else List.range s.listeners.length) <;> exact ⟨hr, hst, hp⟩
    · cases hs
  | deltaJoin =>
    simp only [step] at hs
    split at hs
    · rename_i n l ls hd
      split at hs
      · simp at hs; obtain ⟨rfl, -⟩ := hs
        cases ls <;> exact ⟨hr, hst, hp⟩
      · cases hs
    · cases hs
  | _ =>
    simp only [step] at hs
    repeat' split at hs
    all_goals first
      | (cases hs; done)
      | (simp only [Option.some.injEq, Prod.mk.injEq] at hs; obtain ⟨rfl, -⟩ := hs
         exact ⟨hr, hst, hp⟩)

theorem again_exec (as : List (Act N)) : ∀ {s s' : State N} {es : List (Ev N)},
    (s.run = .ended ∧ s.stopped = false ∧ (s.proc = .ready ∨ s.proc = .running)) →
    exec s as = some (s', es) →
    s'.run = .ended ∧ s'.stopped = false ∧ (s'.proc = .ready ∨ s'.proc = .running) := by
  induction as with
  | nil => intro s s' es h he; simp [exec] at he; obtain ⟨rfl, rfl⟩ := he; exact h
  | cons a as ih =>
    intro s s' es h he
    obtain ⟨s1, e, es', h1, h2, rfl⟩ := exec_cons he
    exact ih (again_step h h1) h2

end Aiok8s.Lifecycle
