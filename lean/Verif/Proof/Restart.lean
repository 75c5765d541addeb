import Verif.Spec.Restart
import Verif.Proof.WorkQueue
import Mathlib.Data.List.Induction
/-! # A controller that is started several times: invariants -/
set_option linter.unusedSimpArgs false
namespace Aiok8s.Restart
variable {α : Type} [DecidableEq α]

/-- What a worker has taken and not finished. -/
def Pc.hold : Pc α → Option (Nat × α)
  | .reconciling q x => some (q, x)
  | .requeuing q x => some (q, x)
  | _ => Option.none

/-- What is true of the states if the calls of `start` do not overlap. -/
structure Inv (s : State α) : Prop where
  fresh : ∀ g, s.made ≤ g → s.calls g = .none
  known : ∀ g, g < s.made → s.calls g ≠ .none
  old : ∀ g, g + 1 < s.made → s.calls g = .ended
  oldW : ∀ w : Nat × Nat, w.1 + 1 ≠ s.made → s.workers w = .none ∨ s.workers w = .ended
  noW : ∀ w : Nat × Nat, (s.calls w.1 = .none ∨ s.calls w.1 = .waiting ∨
    ∃ k a, s.calls w.1 = .preparing k a) → s.workers w = .none
  idle : ∀ w q, s.workers w = .idle q → q = s.cur
  proc : ∀ w q x, (s.workers w).hold = some (q, x) → q = s.cur ∧
    x ∈ (s.queues s.cur).core.processing
  excl : ∀ w w' q q' x, (s.workers w).hold = some (q, x) → (s.workers w').hold = some (q', x) → w = w'
  core : ∀ q, WorkQueue.Inv (s.queues q).core
  arg : ∀ g k q, s.calls g = .preparing k (some q) → q = g

theorem inv_init : Inv (init : State α) := by
  constructor <;> simp [init, Pc.hold, WorkQueue.inv_init]

theorem inv_setCore {s : State α} (h : ∀ q, WorkQueue.Inv (s.queues q).core) (q : Nat) (v : Q α)
    (hv : WorkQueue.Inv v.core) : ∀ p, WorkQueue.Inv ((s.setQ q v).queues p).core := by
  intro p
  simp only [State.setQ]
  split
  · exact hv
  · exact h p

theorem add_proc (s : WorkQueue.State α) (x : α) : (WorkQueue.add s x).processing = s.processing := by
  unfold WorkQueue.add
  split
  · rfl
  · split
    · rfl
    · simp only
      split <;> rfl

/-- `add` to a queue keeps the invariant. -/
theorem inv_add {s : State α} (h : Inv s) (q : Nat) (x : α) : Inv (s.add q x) := by
  have hc : (s.add q x).cur = s.cur := rfl
  have hp : ∀ p, ((s.add q x).queues p).core.processing = (s.queues p).core.processing := by
    intro p
    simp only [State.add, State.setQ]
    split
    · rename_i e
      subst e
      simp [add_proc]
    · rfl
  refine ⟨h.fresh, h.known, h.old, h.oldW, h.noW, h.idle, ?_, h.excl, ?_, h.arg⟩
  · intro w p y hh
    rw [hc, hp]
    exact h.proc w p y hh
  · exact inv_setCore h.core q _ (WorkQueue.inv_step (h.core q) (.add x))

/-- Changing the delayed items and the event of a queue keeps it. -/
theorem inv_setQ {s : State α} (h : Inv s) (q : Nat) (d : List α) (b : Bool) :
    Inv (s.setQ q ⟨(s.queues q).core, d, b⟩) := by
  have hp : ∀ p, ((s.setQ q ⟨(s.queues q).core, d, b⟩).queues p).core = (s.queues p).core := by
    intro p
    simp only [State.setQ]
    split
    · rename_i e
      subst e
      rfl
    · rfl
  refine ⟨h.fresh, h.known, h.old, h.oldW, h.noW, h.idle, ?_, h.excl, ?_, h.arg⟩
  · intro w p y hh
    obtain ⟨h1, h2⟩ := h.proc w p y hh
    refine ⟨h1, ?_⟩
    have : (s.setQ q ⟨(s.queues q).core, d, b⟩).cur = s.cur := rfl
    rw [this, hp]
    exact h2
  · intro p
    rw [hp]
    exact h.core p

theorem inv_addAfter {s : State α} (h : Inv s) (q : Nat) (x : α) (now : Bool) :
    Inv (s.addAfter q x now) := by
  unfold State.addAfter
  split
  · exact h
  · split
    · exact inv_add h q x
    · split
      · exact h
      · exact inv_setQ h q _ _

theorem addAfter_workers (s : State α) (q : Nat) (x : α) (now : Bool) :
    (s.addAfter q x now).workers = s.workers ∧ (s.addAfter q x now).calls = s.calls ∧
      (s.addAfter q x now).made = s.made := by
  unfold State.addAfter
  split
  · simp
  · split
    · simp [State.add, State.setQ]
    · split <;> simp [State.setQ]

/-- A worker exists only below a call that has made its workers. -/
theorem Inv.worker {s : State α} (h : Inv s) {w : Nat × Nat} (hn : s.workers w ≠ .none)
    (he : s.workers w ≠ .ended) : w.1 + 1 = s.made ∧ w.1 = s.cur ∧
      (s.calls w.1 = .working ∨ s.calls w.1 = .ended) := by
  have h1 : w.1 + 1 = s.made := by
    refine Classical.byContradiction fun hc => ?_
    rcases h.oldW w hc with h' | h'
    · exact hn h'
    · exact he h'
  refine ⟨h1, by simp [State.cur]; omega, ?_⟩
  cases hcall : s.calls w.1 with
  | none => exact absurd (h.noW w (Or.inl hcall)) hn
  | waiting => exact absurd (h.noW w (Or.inr (Or.inl hcall))) hn
  | preparing k a => exact absurd (h.noW w (Or.inr (Or.inr ⟨k, a, hcall⟩))) hn
  | working => simp
  | ended => simp

/-- A worker that holds nothing goes somewhere where it holds nothing. -/
theorem inv_setPc {s : State α} (h : Inv s) {w : Nat × Nat} {p : Pc α} (hn : s.workers w ≠ .none)
    (he : s.workers w ≠ .ended) (hp : p.hold = none) (hi : ∀ q, p = .idle q → q = s.cur) :
    Inv (s.setPc w p) := by
  obtain ⟨k1, k2, k3⟩ := h.worker hn he
  refine ⟨h.fresh, h.known, h.old, ?_, ?_, ?_, ?_, ?_, h.core, h.arg⟩
  · intro v hv
    simp only [State.setPc]
    split
    · rename_i e
      subst e
      exact absurd k1 hv
    · exact h.oldW v hv
  · intro v hv
    simp only [State.setPc]
    split
    · rename_i e
      subst e
      exact absurd (h.noW v hv) hn
    · exact h.noW v hv
  · intro v q hv
    simp only [State.setPc] at hv
    split at hv
    · exact hi q hv
    · exact h.idle v q hv
  · intro v q x hv
    simp only [State.setPc] at hv
    split at hv
    · rw [hp] at hv
      simp at hv
    · exact h.proc v q x hv
  · intro v v' q q' x hv hv'
    simp only [State.setPc] at hv hv'
    split at hv
    · rw [hp] at hv
      simp at hv
    · split at hv'
      · rw [hp] at hv'
        simp at hv'
      · exact h.excl v v' q q' x hv hv'

theorem done_ok {s : WorkQueue.State α} {x : α} (hx : x ∈ s.processing) :
    (WorkQueue.done s x).2 = .ok ∧
      (WorkQueue.done s x).1.processing = PySet.remove s.processing x := by
  unfold WorkQueue.done
  rw [if_pos hx]
  simp only
  split <;> simp

/-- Lines 97-98 keep the invariant, and `done` succeeds. -/
theorem inv_finally {s : State α} (h : Inv s) {w : Nat × Nat} {q : Nat} {x : α}
    (hw : (s.workers w).hold = some (q, x)) (b : Bool) :
    Inv (finally_ s w x b).1 ∧ (finally_ s w x b).2 = [.done w q x true] := by
  obtain ⟨h1, h2⟩ := h.proc w q x hw
  obtain ⟨d1, d2⟩ := done_ok h2
  have hn : s.workers w ≠ .none := by
    intro e
    rw [e] at hw
    simp [Pc.hold] at hw
  have he : s.workers w ≠ .ended := by
    intro e
    rw [e] at hw
    simp [Pc.hold] at hw
  obtain ⟨k1, k2, k3⟩ := h.worker hn he
  have hl : (finally_ s w x b).2 = [.done w q x true] := by
    simp [finally_, d1, h1]
  refine ⟨?_, hl⟩
  have hs : ∀ p, p = .next ∨ p = .ended →
      Inv ((s.setQ s.cur { s.queues s.cur with core := (WorkQueue.done (s.queues s.cur).core x).1 }).setPc
        w p) := by
    intro p hp
    have hph : p.hold = none := by rcases hp with rfl | rfl <;> rfl
    refine ⟨h.fresh, h.known, h.old, ?_, ?_, ?_, ?_, ?_, ?_, h.arg⟩
    · intro v hv
      simp only [State.setPc, State.setQ]
      split
      · rename_i e
        subst e
        exact absurd k1 hv
      · exact h.oldW v hv
    · intro v hv
      simp only [State.setPc, State.setQ]
      split
      · rename_i e
        subst e
        exact absurd (h.noW v hv) hn
      · exact h.noW v hv
    · intro v q' hv
      simp only [State.setPc, State.setQ] at hv
      split at hv
      · rcases hp with rfl | rfl <;> simp at hv
      · exact h.idle v q' hv
    · intro v q' y hv
      simp only [State.setPc, State.setQ] at hv
      split at hv
      · rw [hph] at hv
        simp at hv
      · rename_i hvw
        obtain ⟨e1, e2⟩ := h.proc v q' y hv
        refine ⟨e1, ?_⟩
        have hc : ((s.setQ s.cur { s.queues s.cur with
            core := (WorkQueue.done (s.queues s.cur).core x).1 }).setPc w p).cur = s.cur := rfl
        rw [hc]
        simp only [State.setPc, State.setQ, if_true]
        rw [d2, PySet.mem_remove]
        refine ⟨?_, e2⟩
        rintro rfl
        exact hvw (h.excl v w q' q y hv hw)
    · intro v v' q' q'' y hv hv'
      simp only [State.setPc, State.setQ] at hv hv'
      split at hv
      · rw [hph] at hv
        simp at hv
      · split at hv'
        · rw [hph] at hv'
          simp at hv'
        · exact h.excl v v' q' q'' y hv hv'
    · exact inv_setCore h.core _ _ (WorkQueue.inv_step (h.core s.cur) (.done x))
  simp only [finally_]
  split
  · exact hs _ (Or.inl rfl)
  · exact hs _ (Or.inr rfl)

/-- Lines 79-80 keep the invariant and shut down the call's own queue. -/
theorem inv_over {s : State α} (h : Inv s) {g : Nat}
    (hg : s.calls g ≠ .none ∧ s.calls g ≠ .ended) :
    Inv (over s g).1 ∧ (over s g).2 = [.over g g] := by
  have hlt : g < s.made := by
    refine Classical.byContradiction fun hc => ?_
    exact hg.1 (h.fresh g (by omega))
  have hgm : g + 1 = s.made := by
    refine Classical.byContradiction fun hc => ?_
    exact hg.2 (h.old g (by omega))
  have hcur : s.cur = g := by simp [State.cur]; omega
  refine ⟨?_, by simp [over, hcur]⟩
  have h' : Inv (s.setQ s.cur { s.queues s.cur with stopped := true }) := inv_setQ h _ _ _
  refine ⟨?_, ?_, ?_, h'.oldW, ?_, h'.idle, h'.proc, h'.excl, h'.core, ?_⟩
  · intro k hk
    have hk' : s.made ≤ k := hk
    simp only [over, State.setCall]
    rw [if_neg (by omega)]
    exact h.fresh k hk
  · intro k hk
    simp only [over, State.setCall]
    split
    · simp
    · exact h.known k hk
  · intro k hk
    simp only [over, State.setCall]
    split
    · rfl
    · exact h.old k hk
  · intro v hv
    simp only [over, State.setCall] at hv
    split at hv
    · simp at hv
    · exact h.noW v hv
  · intro k j q hk
    simp only [over, State.setCall] at hk
    split at hk
    · simp at hk
    · exact h.arg k j q hk

/-- A call that goes on without being over. -/
theorem inv_setCall {s : State α} (h : Inv s) {g : Nat} {d : Call} (hn : s.calls g ≠ .none)
    (he : s.calls g ≠ .ended) (hd : d ≠ .none)
    (ha : ∀ k q, d = .preparing k (some q) → q = g)
    (hw : (d = .waiting ∨ ∃ k a, d = .preparing k a) → ∀ i, s.workers (g, i) = .none) :
    Inv (s.setCall g d) := by
  refine ⟨?_, ?_, ?_, h.oldW, ?_, h.idle, h.proc, h.excl, h.core, ?_⟩
  · intro k hk
    have hk' : s.made ≤ k := hk
    simp only [State.setCall]
    split
    · rename_i e
      subst e
      exact absurd (h.fresh k hk) hn
    · exact h.fresh k hk
  · intro k hk
    simp only [State.setCall]
    split
    · exact hd
    · exact h.known k hk
  · intro k hk
    simp only [State.setCall]
    split
    · rename_i e
      subst e
      exact absurd (h.old k hk) he
    · exact h.old k hk
  · rintro ⟨v, i⟩ hv
    simp only [State.setCall] at hv
    split at hv
    · rename_i e
      subst e
      rcases hv with hv | hv
      · exact absurd hv hd
      · exact hw hv i
    · exact h.noW (v, i) hv
  · intro k j q hk
    simp only [State.setCall] at hk
    split at hk
    · rename_i e
      rw [e]
      exact ha j q hk
    · exact h.arg k j q hk

/-- A call that is under way is the newest. -/
theorem Inv.newest {s : State α} (h : Inv s) {g : Nat} (hn : s.calls g ≠ .none)
    (he : s.calls g ≠ .ended) : s.cur = g := by
  have hlt : g < s.made := by
    refine Classical.byContradiction fun hc => ?_
    exact hn (h.fresh g (by omega))
  have hgm : g + 1 = s.made := by
    refine Classical.byContradiction fun hc => ?_
    exact he (h.old g (by omega))
  simp [State.cur]
  omega

theorem inv_step {c : Cfg} {s s' : State α} {a : Act α} {l : List (Log α)} (h : Inv s)
    (ha : a = .call → Over s) (hs : step c s a = some (s', l)) : Inv s' := by
  cases a with
  | call =>
    obtain ⟨o1, o2⟩ := ha rfl
    simp only [step, Option.some.injEq, Prod.mk.injEq] at hs
    obtain ⟨rfl, -⟩ := hs
    have hh : ∀ w, (s.workers w).hold = none := by
      intro w
      rcases o2 w with e | e <;> rw [e] <;> rfl
    refine ⟨?_, ?_, ?_, ?_, ?_, ?_, ?_, ?_, ?_, ?_⟩
    · intro g hg
      have hg' : s.made + 1 ≤ g := hg
      simp only [State.setCall, State.setQ]
      rw [if_neg (by omega)]
      exact h.fresh g (by omega)
    · intro g hg
      have hg' : g < s.made + 1 := hg
      simp only [State.setCall, State.setQ]
      split
      · simp
      · exact h.known g (by omega)
    · intro g hg
      have hg' : g + 1 < s.made + 1 := hg
      simp only [State.setCall, State.setQ]
      rw [if_neg (by omega)]
      rcases o1 g with h1 | h1
      · exact absurd h1 (h.known g (by omega))
      · exact h1
    · intro w _
      exact o2 w
    · intro w hw
      simp only [State.setCall, State.setQ] at hw ⊢
      split at hw
      · rename_i e
        refine h.noW w (Or.inl (h.fresh _ (by omega)))
      · exact h.noW w hw
    · intro w q hw
      have hw' : s.workers w = .idle q := hw
      rcases o2 w with e | e <;> rw [e] at hw' <;> simp at hw'
    · intro w q x hw
      have hw' : (s.workers w).hold = some (q, x) := hw
      rw [hh w] at hw'
      simp at hw'
    · intro w w' q q' x hw
      have hw' : (s.workers w).hold = some (q, x) := hw
      rw [hh w] at hw'
      simp at hw'
    · exact inv_setCore (s := { s with made := s.made + 1 }) h.core _ _ WorkQueue.inv_init
    · intro k j q hk
      simp only [State.setCall, State.setQ] at hk
      split at hk
      · simp at hk
      · exact h.arg k j q hk
  | lock g =>
    simp only [step] at hs
    split at hs
    · rename_i hg
      simp only [Option.some.injEq, Prod.mk.injEq] at hs
      obtain ⟨rfl, -⟩ := hs
      exact inv_setCall h (by simp [hg.1]) (by simp [hg.1]) (by simp) (by simp)
        fun _ i => h.noW (g, i) (Or.inr (Or.inl hg.1))
    · simp at hs
  | source g =>
    simp only [step] at hs
    split at hs
    · rename_i k hg
      split at hs
      · simp only [Option.some.injEq, Prod.mk.injEq] at hs
        obtain ⟨rfl, -⟩ := hs
        refine inv_setCall h (by simp [hg]) (by simp [hg]) (by simp) ?_
          fun _ i => h.noW (g, i) (Or.inr (Or.inr ⟨k, _, hg⟩))
        intro k' q e
        simp only [Call.preparing.injEq, Option.some.injEq] at e
        rw [← e.2]
        exact h.newest (by simp [hg]) (by simp [hg])
      · simp at hs
    · simp at hs
  | connect g =>
    simp only [step] at hs
    split at hs
    · rename_i k q hg
      simp only [Option.some.injEq, Prod.mk.injEq] at hs
      obtain ⟨rfl, -⟩ := hs
      have h' : Inv { s with conns := s.conns ++ [(k, q)] } :=
        ⟨h.fresh, h.known, h.old, h.oldW, h.noW, h.idle, h.proc, h.excl, h.core, h.arg⟩
      exact inv_setCall h' (by simp [hg]) (by simp [hg]) (by simp) (by simp)
        fun _ i => h.noW (g, i) (Or.inr (Or.inr ⟨k, _, hg⟩))
    · simp at hs
  | raises g =>
    simp only [step] at hs
    split at hs
    · rename_i hg
      simp only [Option.some.injEq] at hs
      have := (inv_over h (g := g) (by simp [hg])).1
      rw [hs] at this
      exact this
    · rename_i k a hg
      simp only [Option.some.injEq] at hs
      have := (inv_over h (g := g) (by simp [hg])).1
      rw [hs] at this
      exact this
    · simp at hs
  | ready g =>
    simp only [step] at hs
    split at hs
    · rename_i hg
      simp only [Option.some.injEq, Prod.mk.injEq] at hs
      obtain ⟨rfl, -⟩ := hs
      have hnone : ∀ i, s.workers (g, i) = .none := fun i => h.noW (g, i) (Or.inr (Or.inr ⟨_, _, hg⟩))
      have hgm : g + 1 = s.made := by
        refine Classical.byContradiction fun hc => ?_
        by_cases hlt : g < s.made
        · have := h.old g (by omega)
          rw [hg] at this
          simp at this
        · have := h.fresh g (by omega)
          rw [hg] at this
          simp at this
      have hh : ∀ w, ((if w.1 = g ∧ w.2 < c.conc then Pc.next else s.workers w).hold) =
          (s.workers w).hold := by
        intro w
        split
        · rename_i e
          have : w = (g, w.2) := by rw [← e.1]
          rw [this, hnone]
          rfl
        · rfl
      refine ⟨?_, ?_, ?_, ?_, ?_, ?_, ?_, ?_, h.core, ?_⟩
      · intro k hk
        have hk' : s.made ≤ k := hk
        simp only [State.setCall]
        rw [if_neg (by omega)]
        exact h.fresh k hk
      · intro k hk
        simp only [State.setCall]
        split
        · simp
        · exact h.known k hk
      · intro k hk
        have hk' : k + 1 < s.made := hk
        simp only [State.setCall]
        rw [if_neg (by omega)]
        exact h.old k hk
      · intro w hw
        have hw' : w.1 + 1 ≠ s.made := hw
        simp only [State.setCall]
        rw [if_neg (by omega)]
        exact h.oldW w hw
      · intro w hw
        simp only [State.setCall] at hw ⊢
        split at hw
        · simp at hw
        · rename_i e
          rw [if_neg (fun hc => e hc.1)]
          exact h.noW w hw
      · intro w q hw
        simp only [State.setCall] at hw
        split at hw
        · simp at hw
        · exact h.idle w q hw
      · intro w q x hw
        simp only [State.setCall] at hw
        rw [hh] at hw
        exact h.proc w q x hw
      · intro w w' q q' x hw hw'
        simp only [State.setCall] at hw hw'
        rw [hh] at hw hw'
        exact h.excl w w' q q' x hw hw'
      · intro k j q hk
        simp only [State.setCall] at hk
        split at hk
        · simp at hk
        · exact h.arg k j q hk
    · simp at hs
  | ends g =>
    simp only [step] at hs
    split at hs
    · rename_i hg
      simp only [Option.some.injEq] at hs
      have := (inv_over h (g := g) (by simp [hg.1])).1
      rw [hs] at this
      exact this
    · simp at hs
  | event j x =>
    simp only [step] at hs
    split at hs
    · simp only [Option.some.injEq, Prod.mk.injEq] at hs
      obtain ⟨rfl, -⟩ := hs
      exact inv_add h _ _
    · simp at hs
  | release q x =>
    simp only [step] at hs
    split at hs
    · simp only [Option.some.injEq, Prod.mk.injEq] at hs
      obtain ⟨rfl, -⟩ := hs
      exact inv_add (inv_setQ h _ _ _) _ _
    · simp at hs
  | gets w =>
    simp only [step] at hs
    split at hs
    · rename_i hw
      simp only [Option.some.injEq, Prod.mk.injEq] at hs
      obtain ⟨rfl, -⟩ := hs
      exact inv_setPc h (by simp [hw]) (by simp [hw]) rfl (by simp)
    · simp at hs
  | take w =>
    simp only [step] at hs
    split at hs
    · rename_i q hw
      have hq := h.idle w q hw
      split at hs
      · rename_i x hx
        simp only [Option.some.injEq, Prod.mk.injEq] at hs
        obtain ⟨rfl, -⟩ := hs
        obtain ⟨g1, g2, -⟩ := WorkQueue.get_item hx
        have hnp : x ∉ (s.queues q).core.processing := (h.core q).q_proc x g1
        have hmono : ∀ y ∈ (s.queues q).core.processing,
            y ∈ (WorkQueue.get (s.queues q).core).1.processing := by
          intro y hy
          unfold WorkQueue.get
          split
          · split <;> exact hy
          · simp [PySet.mem_add, hy]
        have hnew : ∀ v p, (s.workers v).hold ≠ some (p, x) := by
          intro v p hv
          have := (h.proc v p x hv).2
          rw [← hq] at this
          exact hnp this
        obtain ⟨k1, k2, k3⟩ := h.worker (w := w) (by simp [hw]) (by simp [hw])
        refine ⟨h.fresh, h.known, h.old, ?_, ?_, ?_, ?_, ?_, ?_, h.arg⟩
        · intro v hv
          simp only [State.setPc, State.setQ]
          split
          · rename_i e
            subst e
            exact absurd k1 hv
          · exact h.oldW v hv
        · intro v hv
          simp only [State.setPc, State.setQ]
          split
          · rename_i e
            subst e
            have := h.noW v hv
            rw [hw] at this
            simp at this
          · exact h.noW v hv
        · intro v p hv
          simp only [State.setPc, State.setQ] at hv
          split at hv
          · simp at hv
          · exact h.idle v p hv
        · intro v p y hv
          have hc : ((s.setQ q { s.queues q with core := (WorkQueue.get (s.queues q).core).1 }).setPc w
            (.reconciling q x)).cur = s.cur := rfl
          rw [hc]
          simp only [State.setPc, State.setQ] at hv ⊢
          rw [if_pos hq.symm]
          split at hv
          · simp only [Pc.hold, Option.some.injEq, Prod.mk.injEq] at hv
            obtain ⟨rfl, rfl⟩ := hv
            exact ⟨hq, g2⟩
          · obtain ⟨e1, e2⟩ := h.proc v p y hv
            refine ⟨e1, hmono y ?_⟩
            rw [hq]
            exact e2
        · intro v v' p p' y hv hv'
          simp only [State.setPc, State.setQ] at hv hv'
          split at hv <;> split at hv'
          · rename_i e1 e2
            rw [e1, e2]
          · simp only [Pc.hold, Option.some.injEq, Prod.mk.injEq] at hv
            obtain ⟨rfl, rfl⟩ := hv
            exact absurd hv' (hnew _ _)
          · simp only [Pc.hold, Option.some.injEq, Prod.mk.injEq] at hv'
            obtain ⟨rfl, rfl⟩ := hv'
            exact absurd hv (hnew _ _)
          · exact h.excl v v' p p' y hv hv'
        · exact inv_setCore h.core _ _ (WorkQueue.inv_step (h.core q) .get)
      · simp only [Option.some.injEq, Prod.mk.injEq] at hs
        obtain ⟨rfl, -⟩ := hs
        exact inv_setPc h (by simp [hw]) (by simp [hw]) rfl (by simp)
      · simp at hs
    · simp at hs
  | finish w o =>
    simp only [step] at hs
    split at hs
    · rename_i q x hw
      have hh : (s.workers w).hold = some (q, x) := by rw [hw]; rfl
      cases o with
      | fine =>
        simp only [Option.some.injEq] at hs
        have := (inv_finally h hh true).1
        rw [hs] at this
        exact this
      | bad =>
        simp only [Option.some.injEq] at hs
        have := (inv_finally h hh true).1
        rw [hs] at this
        exact this
      | cancelled =>
        simp only [Option.some.injEq] at hs
        have := (inv_finally h hh (!c.py38)).1
        rw [hs] at this
        exact this
      | again now =>
        simp only [Option.some.injEq, Prod.mk.injEq] at hs
        obtain ⟨rfl, -⟩ := hs
        have h' := inv_addAfter h s.cur x now
        obtain ⟨w1, w2, w3⟩ := addAfter_workers s s.cur x now
        have hsame : ∀ v, (((s.addAfter s.cur x now).setPc w (.requeuing q x)).workers v).hold =
            (s.workers v).hold := by
          intro v
          simp only [State.setPc]
          split
          · rename_i e
            subst e
            rw [hw]
            rfl
          · rw [w1]
        refine ⟨h'.fresh, h'.known, h'.old, ?_, ?_, ?_, ?_, ?_, h'.core, h'.arg⟩
        · intro v hv
          simp only [State.setPc]
          split
          · rename_i e
            subst e
            rcases h'.oldW v hv with e | e <;> rw [w1, hw] at e <;> simp at e
          · exact h'.oldW v hv
        · intro v hv
          simp only [State.setPc]
          split
          · rename_i e
            subst e
            have e := h'.noW v hv
            rw [w1, hw] at e
            simp at e
          · exact h'.noW v hv
        · intro v p hv
          simp only [State.setPc] at hv
          split at hv
          · simp at hv
          · exact h'.idle v p hv
        · intro v p y hv
          rw [hsame] at hv
          refine h'.proc v p y ?_
          rw [w1]
          exact hv
        · intro v v' p p' y hv hv'
          rw [hsame] at hv hv'
          exact h.excl v v' p p' y hv hv'
    · simp at hs
  | requeued w =>
    simp only [step] at hs
    split at hs
    · rename_i q x hw
      have hh : (s.workers w).hold = some (q, x) := by rw [hw]; rfl
      simp only [Option.some.injEq] at hs
      have := (inv_finally h hh true).1
      rw [hs] at this
      exact this
    · simp at hs
  | cancelRequeue w =>
    simp only [step] at hs
    split at hs
    · rename_i q x hw
      have hh : (s.workers w).hold = some (q, x) := by rw [hw]; rfl
      simp only [Option.some.injEq] at hs
      have := (inv_finally h hh (!c.py38)).1
      rw [hs] at this
      exact this
    · simp at hs
  | cancel w =>
    simp only [step] at hs
    split at hs
    · rename_i q hw
      simp only [Option.some.injEq, Prod.mk.injEq] at hs
      obtain ⟨rfl, -⟩ := hs
      exact inv_setPc h (by simp [hw]) (by simp [hw]) rfl (by simp)
    · rename_i hw
      simp only [Option.some.injEq, Prod.mk.injEq] at hs
      obtain ⟨rfl, -⟩ := hs
      exact inv_setPc h (by simp [hw]) (by simp [hw]) rfl (by simp)
    · simp at hs

/-! ## The log -/

/-- Splitting a list with a last element. -/
theorem split_snoc {β : Type} {l pre post : List β} {e d : β} (h : l ++ [e] = pre ++ d :: post) :
    (pre = l ∧ d = e ∧ post = []) ∨ ∃ post', l = pre ++ d :: post' ∧ post = post' ++ [e] := by
  rcases List.eq_nil_or_concat post with rfl | ⟨post', f, rfl⟩
  · left
    have := List.append_inj' h rfl
    simp at this
    exact ⟨this.1.symm, this.2.symm, rfl⟩
  · right
    have h' : l ++ [e] = (pre ++ d :: post') ++ [f] := by simpa using h
    have := List.append_inj' h' rfl
    simp at this
    exact ⟨post', this.1, by simp [this.2]⟩

theorem prefix_snoc {β : Type} {l pre post : List β} {e : β} (h : l ++ [e] = pre ++ post) :
    pre = l ++ [e] ∨ ∃ post', l = pre ++ post' := by
  rcases List.eq_nil_or_concat post with rfl | ⟨post', f, rfl⟩
  · left
    simpa using h.symm
  · right
    have h' : l ++ [e] = (pre ++ post') ++ [f] := by simpa using h
    exact ⟨post', (List.append_inj' h' rfl).1⟩

/-- What the log says about the requests held by the workers. -/
structure HInv (H : Nat × Nat → Option (Nat × α)) (l : List (Log α)) : Prop where
  took : ∀ w q x, H w = some (q, x) → ∃ before between, l = before ++ .took w q x :: between ∧
    ∀ e ∈ between, busies w e = false
  held : ∀ x, (∃ w q, H w = some (q, x)) → begun x l = finished x l + 1
  free : ∀ x, (∀ w q, H w ≠ some (q, x)) → begun x l = finished x l
  excl : Exclusive l
  ret : Returned l
  again : Requeued l

theorem begun_append (x : α) (l m : List (Log α)) : begun x (l ++ m) = begun x l + begun x m :=
  List.countP_append

theorem finished_append (x : α) (l m : List (Log α)) :
    finished x (l ++ m) = finished x l + finished x m :=
  List.countP_append

/-- The bound at the end. -/
theorem HInv.le {H : Nat × Nat → Option (Nat × α)} {l : List (Log α)} (h : HInv H l) (x : α) :
    begun x l ≤ finished x l + 1 := by
  by_cases hx : ∃ w q, H w = some (q, x)
  · rw [h.held x hx]
    exact Nat.le_refl _
  · rw [h.free x (fun w q e => hx ⟨w, q, e⟩)]
    omega

theorem excl_snoc {l : List (Log α)} {e : Log α} (h : Exclusive l)
    (hx : ∀ x, begun x (l ++ [e]) ≤ finished x (l ++ [e]) + 1) : Exclusive (l ++ [e]) := by
  intro pre post x hp
  rcases prefix_snoc hp with rfl | ⟨post', hl⟩
  · exact hx x
  · exact h pre post' x hl

theorem HInv.congr {H H' : Nat × Nat → Option (Nat × α)} {l : List (Log α)} (h : HInv H l)
    (hh : ∀ w, H' w = H w) : HInv H' l := by
  have : H' = H := funext hh
  rw [this]
  exact h

/-- Entries that are not about the workers. -/
def neutral : Log α → Bool
  | .took .. => false
  | .done .. => false
  | .again .. => false
  | _ => true

theorem HInv.neutral {H : Nat × Nat → Option (Nat × α)} {l : List (Log α)} (h : HInv H l) {e : Log α}
    (he : neutral e = true) : HInv H (l ++ [e]) := by
  have hb : ∀ x, begun x (l ++ [e]) = begun x l := by
    intro x
    rw [begun_append]
    cases e <;> simp_all [Restart.neutral, begun]
  have hf : ∀ x, finished x (l ++ [e]) = finished x l := by
    intro x
    rw [finished_append]
    cases e <;> simp_all [Restart.neutral, finished]
  refine ⟨?_, ?_, ?_, ?_, ?_, ?_⟩
  · intro w q x hw
    obtain ⟨b, m, rfl, hm⟩ := h.took w q x hw
    refine ⟨b, m ++ [e], by simp, ?_⟩
    intro d hd
    rcases List.mem_append.mp hd with hd | hd
    · exact hm d hd
    · simp at hd
      subst hd
      cases d <;> simp_all [Restart.neutral, busies]
  · intro x hx
    rw [hb, hf]
    exact h.held x hx
  · intro x hx
    rw [hb, hf]
    exact h.free x hx
  · refine excl_snoc h.excl fun x => ?_
    rw [hb, hf]
    exact h.le x
  · intro pre post w q x ok hp
    rcases split_snoc hp with ⟨-, e1, -⟩ | ⟨post', e1, -⟩
    · subst e1
      simp [Restart.neutral] at he
    · exact h.ret pre post' w q x ok e1
  · intro pre post w q x hp
    rcases split_snoc hp with ⟨-, e1, -⟩ | ⟨post', e1, -⟩
    · subst e1
      simp [Restart.neutral] at he
    · exact h.again pre post' w q x e1

theorem HInv.took' {H H' : Nat × Nat → Option (Nat × α)} {l : List (Log α)} (h : HInv H l)
    {w : Nat × Nat} {q : Nat} {x : α} (hx : ∀ v p, H v ≠ some (p, x)) (hn : H w = none)
    (hw : H' w = some (q, x)) (ho : ∀ v, v ≠ w → H' v = H v) : HInv H' (l ++ [.took w q x]) := by
  have hf : ∀ y, finished y (l ++ [Log.took w q x]) = finished y l := by
    intro y
    rw [finished_append]
    simp [finished]
  have hb : ∀ y, y ≠ x → begun y (l ++ [Log.took w q x]) = begun y l := by
    intro y hy
    rw [begun_append]
    simp [begun, Ne.symm hy]
  have hbx : begun x (l ++ [Log.took w q x]) = begun x l + 1 := by
    rw [begun_append]
    simp [begun]
  have hfree := h.free x hx
  refine ⟨?_, ?_, ?_, ?_, ?_, ?_⟩
  · intro v p y hv
    by_cases e : v = w
    · subst e
      rw [hw] at hv
      simp at hv
      obtain ⟨rfl, rfl⟩ := hv
      exact ⟨l, [], rfl, by simp⟩
    · rw [ho v e] at hv
      obtain ⟨b, m, rfl, hm⟩ := h.took v p y hv
      refine ⟨b, m ++ [.took w q x], by simp, ?_⟩
      intro d hd
      rcases List.mem_append.mp hd with hd | hd
      · exact hm d hd
      · simp at hd
        subst hd
        simp [busies, Ne.symm e]
  · rintro y ⟨v, p, hv⟩
    by_cases e : y = x
    · subst e
      rw [hbx, hf, hfree]
    · rw [hb y e, hf]
      refine h.held y ⟨v, p, ?_⟩
      by_cases e' : v = w
      · subst e'
        rw [hw] at hv
        simp at hv
        exact absurd hv.2.symm e
      · rw [← ho v e']
        exact hv
  · intro y hy
    have e : y ≠ x := by
      rintro rfl
      exact hy w q hw
    rw [hb y e, hf]
    refine h.free y fun v p hv => ?_
    by_cases e' : v = w
    · subst e'
      rw [hn] at hv
      simp at hv
    · exact hy v p (by rw [ho v e']; exact hv)
  · refine excl_snoc h.excl fun y => ?_
    by_cases e : y = x
    · subst e
      rw [hbx, hf, hfree]
      exact Nat.le_refl _
    · rw [hb y e, hf]
      exact h.le y
  · intro pre post v p y ok hp
    rcases split_snoc hp with ⟨-, e1, -⟩ | ⟨post', e1, -⟩
    · simp at e1
    · exact h.ret pre post' v p y ok e1
  · intro pre post v p y hp
    rcases split_snoc hp with ⟨-, e1, -⟩ | ⟨post', e1, -⟩
    · simp at e1
    · exact h.again pre post' v p y e1

theorem HInv.again' {H : Nat × Nat → Option (Nat × α)} {l : List (Log α)} (h : HInv H l)
    {w : Nat × Nat} {q : Nat} {x : α} (hw : H w = some (q, x)) : HInv H (l ++ [.again w q x]) := by
  have hb : ∀ y, begun y (l ++ [Log.again w q x]) = begun y l := by
    intro y
    rw [begun_append]
    simp [begun]
  have hf : ∀ y, finished y (l ++ [Log.again w q x]) = finished y l := by
    intro y
    rw [finished_append]
    simp [finished]
  refine ⟨?_, ?_, ?_, ?_, ?_, ?_⟩
  · intro v p y hv
    obtain ⟨b, m, rfl, hm⟩ := h.took v p y hv
    refine ⟨b, m ++ [.again w q x], by simp, ?_⟩
    intro d hd
    rcases List.mem_append.mp hd with hd | hd
    · exact hm d hd
    · simp at hd
      subst hd
      rfl
  · intro y hy
    rw [hb, hf]
    exact h.held y hy
  · intro y hy
    rw [hb, hf]
    exact h.free y hy
  · refine excl_snoc h.excl fun y => ?_
    rw [hb, hf]
    exact h.le y
  · intro pre post v p y ok hp
    rcases split_snoc hp with ⟨-, e1, -⟩ | ⟨post', e1, -⟩
    · simp at e1
    · exact h.ret pre post' v p y ok e1
  · intro pre post v p y hp
    rcases split_snoc hp with ⟨e0, e1, -⟩ | ⟨post', e1, -⟩
    · simp at e1
      obtain ⟨rfl, rfl, rfl⟩ := e1
      subst e0
      exact h.took v p y hw
    · exact h.again pre post' v p y e1

theorem HInv.done' {H H' : Nat × Nat → Option (Nat × α)} {l : List (Log α)} (h : HInv H l)
    {w : Nat × Nat} {q : Nat} {x : α} (hw : H w = some (q, x))
    (hx : ∀ v p, H v = some (p, x) → v = w) (hn : H' w = none) (ho : ∀ v, v ≠ w → H' v = H v) :
    HInv H' (l ++ [.done w q x true]) := by
  have hb : ∀ y, begun y (l ++ [Log.done w q x true]) = begun y l := by
    intro y
    rw [begun_append]
    simp [begun]
  have hf : ∀ y, y ≠ x → finished y (l ++ [Log.done w q x true]) = finished y l := by
    intro y hy
    rw [finished_append]
    simp [finished, Ne.symm hy]
  have hfx : finished x (l ++ [Log.done w q x true]) = finished x l + 1 := by
    rw [finished_append]
    simp [finished]
  have hheld := h.held x ⟨w, q, hw⟩
  refine ⟨?_, ?_, ?_, ?_, ?_, ?_⟩
  · intro v p y hv
    have e : v ≠ w := by
      rintro rfl
      rw [hn] at hv
      simp at hv
    rw [ho v e] at hv
    obtain ⟨b, m, rfl, hm⟩ := h.took v p y hv
    refine ⟨b, m ++ [.done w q x true], by simp, ?_⟩
    intro d hd
    rcases List.mem_append.mp hd with hd | hd
    · exact hm d hd
    · simp at hd
      subst hd
      simp [busies, Ne.symm e]
  · rintro y ⟨v, p, hv⟩
    have e : v ≠ w := by
      rintro rfl
      rw [hn] at hv
      simp at hv
    rw [ho v e] at hv
    have hy : y ≠ x := by
      rintro rfl
      exact e (hx v p hv)
    rw [hb, hf y hy]
    exact h.held y ⟨v, p, hv⟩
  · intro y hy
    by_cases e : y = x
    · subst e
      rw [hb, hfx, hheld]
    · rw [hb, hf y e]
      refine h.free y fun v p hv => ?_
      by_cases e' : v = w
      · subst e'
        rw [hw] at hv
        simp at hv
        exact e hv.2.symm
      · exact hy v p (by rw [ho v e']; exact hv)
  · refine excl_snoc h.excl fun y => ?_
    by_cases e : y = x
    · subst e
      rw [hb, hfx, hheld]
      omega
    · rw [hb, hf y e]
      exact h.le y
  · intro pre post v p y ok hp
    rcases split_snoc hp with ⟨e0, e1, -⟩ | ⟨post', e1, -⟩
    · simp at e1
      obtain ⟨rfl, rfl, rfl, rfl⟩ := e1
      subst e0
      exact ⟨rfl, h.took v p y hw⟩
    · exact h.ret pre post' v p y ok e1
  · intro pre post v p y hp
    rcases split_snoc hp with ⟨-, e1, -⟩ | ⟨post', e1, -⟩
    · simp at e1
    · exact h.again pre post' v p y e1

theorem hinv_init : HInv (fun w => ((init : State α).workers w).hold) ([] : List (Log α)) := by
  refine ⟨?_, ?_, ?_, ?_, ?_, ?_⟩
  · intro w q x h
    simp [init, Pc.hold] at h
  · rintro x ⟨w, q, h⟩
    simp [init, Pc.hold] at h
  · intro x _
    rfl
  · intro pre post x h
    have := (List.nil_eq_append_iff.mp h).1
    subst this
    simp [begun]
  · intro pre post w q x ok h
    simp at h
  · intro pre post w q x h
    simp at h

/-- What the log says about the calls. -/
structure CInv (n : Nat) (C : Nat → Call) (l : List (Log α)) : Prop where
  own : ShutsOwn l
  fresh : ∀ g, C g = .none ∨ C g = .waiting → feeds g l = []
  prep : ∀ g k a, C g = .preparing k a → feeds g l = List.range k
  work : ∀ g, Log.working g ∈ l → (C g = .working ∨ C g = .ended) ∧ feeds g l = List.range n

theorem feeds_append (q : Nat) (l m : List (Log α)) : feeds q (l ++ m) = feeds q l ++ feeds q m :=
  List.filterMap_append

theorem cinv_init (n : Nat) : CInv n (init : State α).calls ([] : List (Log α)) := by
  refine ⟨?_, ?_, ?_, ?_⟩ <;> intros <;> simp_all [init, feeds, ShutsOwn]

/-- Entries of the workers. -/
theorem CInv.skip {n : Nat} {C : Nat → Call} {l : List (Log α)} (h : CInv n C l) {m : List (Log α)}
    (hm : ∀ e ∈ m, Restart.neutral e = false) : CInv n C (l ++ m) := by
  have hf : ∀ g, feeds g (l ++ m) = feeds g l := by
    intro g
    rw [feeds_append]
    have : feeds g m = [] := by
      unfold feeds
      rw [List.filterMap_eq_nil_iff]
      intro e he
      have := hm e he
      cases e <;> simp_all [Restart.neutral]
    simp [this]
  have hin : ∀ e ∈ l ++ m, Restart.neutral e = true → e ∈ l := by
    intro e he hn
    rcases List.mem_append.mp he with he | he
    · exact he
    · rw [hm e he] at hn
      simp at hn
  refine ⟨?_, ?_, ?_, ?_⟩
  · intro g q hg
    exact h.own g q (hin _ hg rfl)
  · intro g hg
    rw [hf]
    exact h.fresh g hg
  · intro g k hg
    rw [hf]
    exact h.prep g k hg
  · intro g hg
    rw [hf]
    exact h.work g (hin _ hg rfl)

/-- The end of a call. -/
theorem CInv.over {n : Nat} {C : Nat → Call} {l : List (Log α)} (h : CInv n C l) (g : Nat) :
    CInv n (fun k => if k = g then .ended else C k) (l ++ [.over g g]) := by
  have hf : ∀ k, feeds k (l ++ [Log.over g g]) = feeds k l := by
    intro k
    rw [feeds_append]
    simp [feeds]
  refine ⟨?_, ?_, ?_, ?_⟩
  · intro k q hk
    rcases List.mem_append.mp hk with hk | hk
    · exact h.own k q hk
    · simp at hk
      rw [hk.1, hk.2]
  · intro k hk
    rw [hf]
    refine h.fresh k ?_
    split at hk
    · simp at hk
    · exact hk
  · intro k j a hk
    rw [hf]
    refine h.prep k j a ?_
    split at hk
    · simp at hk
    · exact hk
  · intro k hk
    rw [hf]
    have := h.work k (by simpa using hk)
    refine ⟨?_, this.2⟩
    split
    · simp
    · exact this.1

/-- `done` by the worker that holds `x`. -/
theorem hinv_finally {s : State α} {l : List (Log α)} (h : Inv s)
    (hl : HInv (fun w => (s.workers w).hold) l) {w : Nat × Nat} {q : Nat} {x : α}
    (hw : (s.workers w).hold = some (q, x)) (b : Bool) :
    HInv (fun v => ((finally_ s w x b).1.workers v).hold) (l ++ (finally_ s w x b).2) := by
  rw [(inv_finally h hw b).2]
  refine hl.done' hw (fun v p hv => h.excl v w p q x hv hw) ?_ ?_
  · simp only [finally_, State.setPc, if_true]
    split <;> rfl
  · intro v hv
    simp only [finally_, State.setPc, State.setQ]
    rw [if_neg hv]

theorem hinv_step {c : Cfg} {s s' : State α} {a : Act α} {l m : List (Log α)} (h : Inv s)
    (hl : HInv (fun w => (s.workers w).hold) l) (hs : step c s a = some (s', m)) :
    HInv (fun w => (s'.workers w).hold) (l ++ m) := by
  cases a with
  | call =>
    simp only [step, Option.some.injEq, Prod.mk.injEq] at hs
    obtain ⟨rfl, rfl⟩ := hs
    exact hl.neutral rfl
  | lock g =>
    simp only [step] at hs
    split at hs
    · simp only [Option.some.injEq, Prod.mk.injEq] at hs
      obtain ⟨rfl, rfl⟩ := hs
      rw [List.append_nil]
      exact hl
    · simp at hs
  | source g =>
    simp only [step] at hs
    split at hs
    · split at hs
      · simp only [Option.some.injEq, Prod.mk.injEq] at hs
        obtain ⟨rfl, rfl⟩ := hs
        rw [List.append_nil]
        exact hl
      · simp at hs
    · simp at hs
  | connect g =>
    simp only [step] at hs
    split at hs
    · simp only [Option.some.injEq, Prod.mk.injEq] at hs
      obtain ⟨rfl, rfl⟩ := hs
      exact hl.neutral rfl
    · simp at hs
  | raises g =>
    simp only [step] at hs
    split at hs
    · simp only [over, Option.some.injEq, Prod.mk.injEq] at hs
      obtain ⟨rfl, rfl⟩ := hs
      exact hl.neutral rfl
    · simp only [over, Option.some.injEq, Prod.mk.injEq] at hs
      obtain ⟨rfl, rfl⟩ := hs
      exact hl.neutral rfl
    · simp at hs
  | ready g =>
    simp only [step] at hs
    split at hs
    · rename_i hg
      simp only [Option.some.injEq, Prod.mk.injEq] at hs
      obtain ⟨rfl, rfl⟩ := hs
      refine (hl.congr fun w => ?_).neutral rfl
      simp only [State.setCall]
      split
      · rename_i e
        have hwn := h.noW w (Or.inr (Or.inr ⟨_, _, by rw [e.1]; exact hg⟩))
        rw [hwn]
        rfl
      · rfl
    · simp at hs
  | ends g =>
    simp only [step] at hs
    split at hs
    · simp only [over, Option.some.injEq, Prod.mk.injEq] at hs
      obtain ⟨rfl, rfl⟩ := hs
      exact hl.neutral rfl
    · simp at hs
  | event j x =>
    simp only [step] at hs
    split at hs
    · simp only [Option.some.injEq, Prod.mk.injEq] at hs
      obtain ⟨rfl, rfl⟩ := hs
      rw [List.append_nil]
      exact hl
    · simp at hs
  | release q x =>
    simp only [step] at hs
    split at hs
    · simp only [Option.some.injEq, Prod.mk.injEq] at hs
      obtain ⟨rfl, rfl⟩ := hs
      rw [List.append_nil]
      exact hl
    · simp at hs
  | gets w =>
    simp only [step] at hs
    split at hs
    · rename_i hw
      simp only [Option.some.injEq, Prod.mk.injEq] at hs
      obtain ⟨rfl, rfl⟩ := hs
      rw [List.append_nil]
      refine hl.congr fun v => ?_
      simp only [State.setPc]
      split
      · rename_i e
        subst e
        rw [hw]
        rfl
      · rfl
    · simp at hs
  | take w =>
    simp only [step] at hs
    split at hs
    · rename_i q hw
      have hq := h.idle w q hw
      split at hs
      · rename_i x hx
        simp only [Option.some.injEq, Prod.mk.injEq] at hs
        obtain ⟨rfl, rfl⟩ := hs
        obtain ⟨g1, g2, -⟩ := WorkQueue.get_item hx
        have hnp : x ∉ (s.queues q).core.processing := (h.core q).q_proc x g1
        refine hl.took' ?_ (by simp only [hw, Pc.hold]) (by simp [State.setPc, Pc.hold]) ?_
        · intro v p hv
          have := (h.proc v p x hv).2
          rw [← hq] at this
          exact hnp this
        · intro v hv
          simp only [State.setPc, State.setQ]
          rw [if_neg hv]
      · simp only [Option.some.injEq, Prod.mk.injEq] at hs
        obtain ⟨rfl, rfl⟩ := hs
        rw [List.append_nil]
        refine hl.congr fun v => ?_
        simp only [State.setPc]
        split
        · rename_i e
          subst e
          rw [hw]
          rfl
        · rfl
      · simp at hs
    · simp at hs
  | finish w o =>
    simp only [step] at hs
    split at hs
    · rename_i q x hw
      have hh : (s.workers w).hold = some (q, x) := by rw [hw]; rfl
      cases o with
      | fine =>
        simp only [Option.some.injEq] at hs
        have := hinv_finally h hl hh true
        rw [hs] at this
        exact this
      | bad =>
        simp only [Option.some.injEq] at hs
        have := hinv_finally h hl hh true
        rw [hs] at this
        exact this
      | cancelled =>
        simp only [Option.some.injEq] at hs
        have := hinv_finally h hl hh (!c.py38)
        rw [hs] at this
        exact this
      | again now =>
        simp only [Option.some.injEq, Prod.mk.injEq] at hs
        obtain ⟨rfl, rfl⟩ := hs
        obtain ⟨w1, w2, w3⟩ := addAfter_workers s s.cur x now
        rw [← (h.proc w q x hh).1]
        refine (hl.congr fun v => ?_).again' (by simp [State.setPc, Pc.hold])
        simp only [State.setPc]
        split
        · rename_i e
          subst e
          rw [hw]
          rfl
        · rw [← (h.proc w q x hh).1] at w1
          rw [w1]
    · simp at hs
  | requeued w =>
    simp only [step] at hs
    split at hs
    · rename_i q x hw
      have hh : (s.workers w).hold = some (q, x) := by rw [hw]; rfl
      simp only [Option.some.injEq] at hs
      have := hinv_finally h hl hh true
      rw [hs] at this
      exact this
    · simp at hs
  | cancelRequeue w =>
    simp only [step] at hs
    split at hs
    · rename_i q x hw
      have hh : (s.workers w).hold = some (q, x) := by rw [hw]; rfl
      simp only [Option.some.injEq] at hs
      have := hinv_finally h hl hh (!c.py38)
      rw [hs] at this
      exact this
    · simp at hs
  | cancel w =>
    simp only [step] at hs
    split at hs
    · rename_i q hw
      simp only [Option.some.injEq, Prod.mk.injEq] at hs
      obtain ⟨rfl, rfl⟩ := hs
      rw [List.append_nil]
      refine hl.congr fun v => ?_
      simp only [State.setPc]
      split
      · rename_i e
        subst e
        rw [hw]
        rfl
      · rfl
    · rename_i hw
      simp only [Option.some.injEq, Prod.mk.injEq] at hs
      obtain ⟨rfl, rfl⟩ := hs
      rw [List.append_nil]
      refine hl.congr fun v => ?_
      simp only [State.setPc]
      split
      · rename_i e
        subst e
        rw [hw]
        rfl
      · rfl
    · simp at hs

theorem finally_calls (s : State α) (w : Nat × Nat) (x : α) (b : Bool) :
    (finally_ s w x b).1.calls = s.calls := rfl

theorem cinv_step {c : Cfg} {s s' : State α} {a : Act α} {l m : List (Log α)} (h : Inv s)
    (hl : CInv c.sources s.calls l) (hs : step c s a = some (s', m)) :
    CInv c.sources s'.calls (l ++ m) := by
  cases a with
  | call =>
    simp only [step, Option.some.injEq, Prod.mk.injEq] at hs
    obtain ⟨rfl, rfl⟩ := hs
    have hf : ∀ k, feeds k (l ++ [Log.called s.made]) = feeds k l := by
      intro k
      rw [feeds_append]
      simp [feeds]
    refine ⟨?_, ?_, ?_, ?_⟩
    · intro g q hg
      exact hl.own g q (by simpa using hg)
    · intro g hg
      rw [hf]
      simp only [State.setCall, State.setQ] at hg
      split at hg
      · rename_i e
        exact hl.fresh g (Or.inl (h.fresh g (by omega)))
      · exact hl.fresh g hg
    · intro g k a hg
      rw [hf]
      simp only [State.setCall, State.setQ] at hg
      split at hg
      · simp at hg
      · exact hl.prep g k a hg
    · intro g hg
      rw [hf]
      have := hl.work g (by simpa using hg)
      refine ⟨?_, this.2⟩
      simp only [State.setCall, State.setQ]
      split
      · rename_i e
        have hn := h.fresh g (by omega)
        rw [hn] at this
        simp at this
      · exact this.1
  | lock g =>
    simp only [step] at hs
    split at hs
    · rename_i hg
      simp only [Option.some.injEq, Prod.mk.injEq] at hs
      obtain ⟨rfl, rfl⟩ := hs
      rw [List.append_nil]
      refine ⟨hl.own, ?_, ?_, ?_⟩
      · intro k hk
        simp only [State.setCall] at hk
        split at hk
        · simp at hk
        · exact hl.fresh k hk
      · intro k j a hk
        simp only [State.setCall] at hk
        split at hk
        · rename_i e
          simp at hk
          rw [← hk.1]
          subst e
          exact hl.fresh k (Or.inr hg.1)
        · exact hl.prep k j a hk
      · intro k hk
        have := hl.work k hk
        refine ⟨?_, this.2⟩
        simp only [State.setCall]
        split
        · rename_i e
          subst e
          rw [hg.1] at this
          simp at this
        · exact this.1
    · simp at hs
  | source g =>
    simp only [step] at hs
    split at hs
    · rename_i k hg
      split at hs
      · simp only [Option.some.injEq, Prod.mk.injEq] at hs
        obtain ⟨rfl, rfl⟩ := hs
        rw [List.append_nil]
        refine ⟨hl.own, ?_, ?_, ?_⟩
        · intro j hj
          simp only [State.setCall] at hj
          split at hj
          · simp at hj
          · exact hl.fresh j hj
        · intro j i a hj
          simp only [State.setCall] at hj
          split at hj
          · rename_i e
            simp at hj
            rw [← hj.1, e]
            exact hl.prep g k _ hg
          · exact hl.prep j i a hj
        · intro j hj
          have := hl.work j hj
          have e : j ≠ g := by
            rintro rfl
            rw [hg] at this
            simp at this
          refine ⟨?_, this.2⟩
          simp only [State.setCall]
          rw [if_neg e]
          exact this.1
      · simp at hs
    · simp at hs
  | connect g =>
    simp only [step] at hs
    split at hs
    · rename_i k q hg
      simp only [Option.some.injEq, Prod.mk.injEq] at hs
      obtain ⟨rfl, rfl⟩ := hs
      rw [h.arg g k q hg]
      have hf : ∀ j, j ≠ g → feeds j (l ++ [Log.connected g k g]) = feeds j l := by
        intro j hj
        rw [feeds_append]
        simp [feeds, Ne.symm hj]
      have hfg : feeds g (l ++ [Log.connected g k g]) = List.range (k + 1) := by
        rw [feeds_append, hl.prep g k _ hg, List.range_succ]
        simp [feeds]
      refine ⟨?_, ?_, ?_, ?_⟩
      · intro j q hj
        exact hl.own j q (by simpa using hj)
      · intro j hj
        simp only [State.setCall] at hj
        split at hj
        · simp at hj
        · rename_i e
          rw [hf j e]
          exact hl.fresh j hj
      · intro j i a hj
        simp only [State.setCall] at hj
        split at hj
        · rename_i e
          simp at hj
          rw [← hj.1]
          subst e
          exact hfg
        · rename_i e
          rw [hf j e]
          exact hl.prep j i a hj
      · intro j hj
        have := hl.work j (by simpa using hj)
        have e : j ≠ g := by
          rintro rfl
          rw [hg] at this
          simp at this
        rw [hf j e]
        refine ⟨?_, this.2⟩
        simp only [State.setCall]
        rw [if_neg e]
        exact this.1
    · simp at hs
  | raises g =>
    simp only [step] at hs
    split at hs
    · rename_i hg
      simp only [over, h.newest (g := g) (by simp [hg]) (by simp [hg]), Option.some.injEq,
        Prod.mk.injEq] at hs
      obtain ⟨rfl, rfl⟩ := hs
      exact hl.over g
    · rename_i k a hg
      simp only [over, h.newest (g := g) (by simp [hg]) (by simp [hg]), Option.some.injEq,
        Prod.mk.injEq] at hs
      obtain ⟨rfl, rfl⟩ := hs
      exact hl.over g
    · simp at hs
  | ready g =>
    simp only [step] at hs
    split at hs
    · rename_i hg
      simp only [Option.some.injEq, Prod.mk.injEq] at hs
      obtain ⟨rfl, rfl⟩ := hs
      have hf : ∀ k, feeds k (l ++ [Log.working g]) = feeds k l := by
        intro k
        rw [feeds_append]
        simp [feeds]
      refine ⟨?_, ?_, ?_, ?_⟩
      · intro j q hj
        exact hl.own j q (by simpa using hj)
      · intro k hk
        rw [hf]
        simp only [State.setCall] at hk
        split at hk
        · simp at hk
        · exact hl.fresh k hk
      · intro k j a hk
        rw [hf]
        simp only [State.setCall] at hk
        split at hk
        · simp at hk
        · exact hl.prep k j a hk
      · intro k hk
        rw [hf]
        simp only [State.setCall]
        split
        · rename_i e
          subst e
          exact ⟨Or.inl rfl, hl.prep k _ _ hg⟩
        · rename_i e
          rcases List.mem_append.mp hk with hk | hk
          · exact hl.work k hk
          · simp at hk
            exact absurd hk e
    · simp at hs
  | ends g =>
    simp only [step] at hs
    split at hs
    · rename_i hg
      simp only [over, h.newest (g := g) (by simp [hg.1]) (by simp [hg.1]), Option.some.injEq,
        Prod.mk.injEq] at hs
      obtain ⟨rfl, rfl⟩ := hs
      exact hl.over g
    · simp at hs
  | event j x =>
    simp only [step] at hs
    split at hs
    · simp only [Option.some.injEq, Prod.mk.injEq] at hs
      obtain ⟨rfl, rfl⟩ := hs
      exact hl.skip (by simp)
    · simp at hs
  | release q x =>
    simp only [step] at hs
    split at hs
    · simp only [Option.some.injEq, Prod.mk.injEq] at hs
      obtain ⟨rfl, rfl⟩ := hs
      exact hl.skip (by simp)
    · simp at hs
  | gets w =>
    simp only [step] at hs
    split at hs
    · simp only [Option.some.injEq, Prod.mk.injEq] at hs
      obtain ⟨rfl, rfl⟩ := hs
      exact hl.skip (by simp)
    · simp at hs
  | take w =>
    simp only [step] at hs
    split at hs
    · split at hs
      · simp only [Option.some.injEq, Prod.mk.injEq] at hs
        obtain ⟨rfl, rfl⟩ := hs
        exact hl.skip (by simp [Restart.neutral])
      · simp only [Option.some.injEq, Prod.mk.injEq] at hs
        obtain ⟨rfl, rfl⟩ := hs
        exact hl.skip (by simp)
      · simp at hs
    · simp at hs
  | finish w o =>
    simp only [step] at hs
    split at hs
    · rename_i q x hw
      cases o with
      | again now =>
        simp only [Option.some.injEq, Prod.mk.injEq] at hs
        obtain ⟨rfl, rfl⟩ := hs
        have := (addAfter_workers s s.cur x now).2.1
        simp only [State.setPc, this]
        exact hl.skip (by simp [Restart.neutral])
      | _ =>
        simp only [finally_, Option.some.injEq, Prod.mk.injEq] at hs
        obtain ⟨rfl, rfl⟩ := hs
        exact hl.skip (by simp [Restart.neutral])
    · simp at hs
  | requeued w =>
    simp only [step] at hs
    split at hs
    · simp only [finally_, Option.some.injEq, Prod.mk.injEq] at hs
      obtain ⟨rfl, rfl⟩ := hs
      exact hl.skip (by simp [Restart.neutral])
    · simp at hs
  | cancelRequeue w =>
    simp only [step] at hs
    split at hs
    · simp only [finally_, Option.some.injEq, Prod.mk.injEq] at hs
      obtain ⟨rfl, rfl⟩ := hs
      exact hl.skip (by simp [Restart.neutral])
    · simp at hs
  | cancel w =>
    simp only [step] at hs
    split at hs
    · simp only [Option.some.injEq, Prod.mk.injEq] at hs
      obtain ⟨rfl, rfl⟩ := hs
      exact hl.skip (by simp)
    · simp only [Option.some.injEq, Prod.mk.injEq] at hs
      obtain ⟨rfl, rfl⟩ := hs
      exact hl.skip (by simp)
    · simp at hs

/-! ## Sequences of moves -/

theorem exec_append (c : Cfg) (s : State α) (as bs : List (Act α)) :
    exec c s (as ++ bs) = (exec c s as).bind fun p => (exec c p.1 bs).map fun r => (r.1, p.2 ++ r.2) := by
  induction as generalizing s with
  | nil =>
    simp only [List.nil_append, exec, Option.bind_some]
    cases exec c s bs <;> simp
  | cons a as ih =>
    simp only [List.cons_append, exec]
    cases hs : step c s a with
    | none => simp
    | some p =>
      obtain ⟨s', l⟩ := p
      simp only [ih]
      cases he : exec c s' as with
      | none => simp
      | some r =>
        obtain ⟨s'', l'⟩ := r
        simp only [Option.bind_some]
        cases exec c s'' bs <;> simp

/-- Everything that is true if the calls of `start` do not overlap. -/
theorem serial_inv {c : Cfg} {as : List (Act α)} {s : State α} {l : List (Log α)}
    (h : exec c init as = some (s, l)) (hser : Serial c as) :
    Inv s ∧ HInv (fun w => (s.workers w).hold) l ∧ CInv c.sources s.calls l := by
  induction as using List.reverseRecOn generalizing s l with
  | nil =>
    simp only [exec, Option.some.injEq, Prod.mk.injEq] at h
    obtain ⟨rfl, rfl⟩ := h
    exact ⟨inv_init, hinv_init, cinv_init _⟩
  | append_singleton as a ih =>
    rw [exec_append] at h
    cases h1 : exec c init as with
    | none => simp [h1] at h
    | some p =>
      obtain ⟨s1, l1⟩ := p
      have hser1 : Serial c as := by
        intro pre post s' l' e1 e2
        exact hser pre (post ++ [a]) s' l' (by simp [e1]) e2
      obtain ⟨i1, i2, i3⟩ := ih h1 hser1
      simp only [h1, Option.bind_some, exec] at h
      cases h2 : step c s1 a with
      | none => simp [h2] at h
      | some r =>
        obtain ⟨s2, l2⟩ := r
        simp only [h2, List.append_nil, Option.map_some, Option.some.injEq, Prod.mk.injEq] at h
        obtain ⟨rfl, rfl⟩ := h
        refine ⟨inv_step i1 ?_ h2, hinv_step i1 i2 h2, cinv_step i1 i3 h2⟩
        intro e
        subst e
        exact hser as [] s1 l1 rfl h1

end Aiok8s.Restart
