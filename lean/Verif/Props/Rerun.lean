import Verif.Proof.Rerun
import Verif.Spec.Rerun
/-! # C90: `run` of a shared informer called again -/
namespace Aiok8s.Rerun
open Aiok8s.Lifecycle (Ev)
open Aiok8s.Lifecycle.Spec (calls puts told)
open Spec
variable {N : Type}

/-- A run with one handler, from beginning to end. -/
private def first : List (Act Nat) :=
  ([.addHandler, .regEnter 0, .start, .enter, .procStart, .deltaBlock, .distribute 7 false [7], .deltaPut,
    .lis 0 .getTask, .deltaJoin, .deltaEnd, .lis 0 .popResume, .lis 0 .putTask, .lis 0 .popResume, .lis 0 .runGet,
    .lis 0 .runResume, .lis 0 (.handlerEnds true), .lis 0 .joined, .cancel, .reflectorEnds, .leave, .procStop,
    .lis 0 .popResume, .lis 0 .runResume, .procDone, .finish] : List (Lifecycle.Act Nat)).map .life

private def firstEnd : State Nat × List (Ev Nat) := (exec init first).getD (init, [])

/-- The handler has been called and the call has ended. -/
private theorem firstRun : HasRun first firstEnd.1 firstEnd.2 ∧ calls 0 firstEnd.2 = [7] := by
  unfold HasRun
  decide

private theorem calls_silent {e : List (Ev N)} (h : ∀ l n, Ev.call l n ∉ e) (l : Nat) : calls l e = [] := by
  induction e with
  | nil => rfl
  | cons x e ih =>
    have ih' := ih fun m n hm => h m n (List.mem_cons_of_mem _ hm)
    cases x with
    | call m n => exact absurd (List.mem_cons_self ..) (h m n)
    | _ => exact ih'

private theorem regs_step {s s' : State N} {a : Act N} {e : List (Ev N)} (h : SInv s)
    (hs : step s a = some (s', e)) (r l : Nat)
    (hr : s'.life.regs[r]? = some (.ended (.registered l))) :
    s.life.regs[r]? = some (.ended (.registered l)) := by
  have hset : ∀ {L : List (Lifecycle.Reg N)} {k : Nat} {q : Lifecycle.Result}, (∀ m, q ≠ .registered m) →
      (L.set k (.ended q))[r]? = some (.ended (.registered l)) → L[r]? = some (.ended (.registered l)) := by
    intro L k q hq hm
    rw [List.getElem?_set] at hm
    split at hm
    · split at hm
      · simp only [Option.some.injEq, Lifecycle.Reg.ended.injEq] at hm
        exact absurd hm (hq l)
      · cases hm
    · exact hm
  cases a with
  | again => rw [(sinv_again h hs).2.2.2] at hr; exact hr
  | life a =>
    have hsame : ∀ (f : State N → State N), same s a f = some (s', e) →
        ∃ t, Lifecycle.step s.life a = some (t, e) ∧ s' = f { s with life := t } := by
      intro f hh
      simp only [same, Option.map_eq_some_iff] at hh
      obtain ⟨⟨t, e'⟩, h1, h2⟩ := hh
      simp only [Prod.mk.injEq] at h2
      exact ⟨t, by rw [h1, h2.2], h2.1.symm⟩
    cases a with
    | addHandler =>
      obtain ⟨t, h1, rfl⟩ := hsame id hs
      cases h1
      simp only [id, List.getElem?_append] at hr
      split at hr
      · exact hr
      · rw [List.getElem?_singleton] at hr
        split at hr <;> cases hr
    | regEnter k =>
      obtain ⟨t, h1, rfl⟩ := hsame id hs
      simp only [Lifecycle.step] at h1
      split at h1
      · rw [if_pos h.stopped] at h1
        cases h1
        exact hset (by simp) hr
      · cases h1
    | regBlock k =>
      obtain ⟨t, h1, rfl⟩ := hsame id hs
      simp only [Lifecycle.step] at h1
      split at h1
      · rename_i e1 e2
        rcases h.regs k _ e1 with e | ⟨q, e⟩ <;> cases e
      · cases h1
    | regPut k =>
      obtain ⟨t, h1, rfl⟩ := hsame id hs
      simp only [Lifecycle.step] at h1
      split at h1
      · rename_i e1
        rcases h.regs k _ e1 with e | ⟨q, e⟩ <;> cases e
      · cases h1
    | regJoin k =>
      obtain ⟨t, h1, rfl⟩ := hsame id hs
      simp only [Lifecycle.step] at h1
      split at h1
      · rename_i e1
        rcases h.regs k _ e1 with e | ⟨q, e⟩ <;> cases e
      · cases h1
    | regCancel k =>
      obtain ⟨t, h1, rfl⟩ := hsame id hs
      simp only [Lifecycle.step] at h1
      split at h1
      · cases h1
        exact hset (by simp) hr
      · rename_i e1
        rcases h.regs k _ e1 with e | ⟨q, e⟩ <;> cases e
      · rename_i e1
        rcases h.regs k _ e1 with e | ⟨q, e⟩ <;> cases e
      · rename_i e1
        rcases h.regs k _ e1 with e | ⟨q, e⟩ <;> cases e
      · cases h1
    | distribute n b st =>
      obtain ⟨t, h1, rfl⟩ := hsame id hs
      simp only [Lifecycle.step] at h1
      split at h1
      · simp only [Option.some.injEq, Prod.mk.injEq] at h1
        obtain ⟨rfl, -⟩ := h1
        simp only [id] at hr
        generalize (if b = true then s.life.syncing else List.range s.life.listeners.length) = ls at hr
        cases ls <;> exact hr
      · cases h1
    | deltaPut =>
      obtain ⟨t, h1, rfl⟩ := hsame id hs
      simp only [Lifecycle.step] at h1
      split at h1
      · split at h1
        · rename_i t' ht
          cases h1
          obtain ⟨x, x', c, k1, k2, rfl⟩ := Lifecycle.putTo_spec ht
          exact hr
        · cases h1
      · cases h1
    | deltaJoin =>
      obtain ⟨t, h1, rfl⟩ := hsame id hs
      simp only [Lifecycle.step] at h1
      split at h1
      · rename_i n m ls _
        split at h1
        · simp only [Option.some.injEq, Prod.mk.injEq] at h1
          obtain ⟨rfl, -⟩ := h1
          cases ls <;> exact hr
        · cases h1
      · cases h1
    | enter =>
      obtain ⟨t, h1, rfl⟩ := hsame (fun t => { t with stop := false }) hs
      simp only [Lifecycle.step] at h1
      split at h1 <;> cases h1
      exact hr
    | leave =>
      obtain ⟨t, h1, rfl⟩ := hsame (fun t => { t with stop := true }) hs
      simp only [Lifecycle.step] at h1
      split at h1 <;> cases h1
      exact hr
    | procStart =>
      obtain ⟨t, h1, rfl⟩ := hsame (fun t =>
        { t with life := { t.life with listeners := t.life.listeners.map restart } }) hs
      simp only [Lifecycle.step] at h1
      split at h1 <;> cases h1
      exact hr
    | procStop =>
      simp only [step] at hs
      split at hs <;> cases hs
      exact hr
    | procDone =>
      obtain ⟨t, h1, rfl⟩ := hsame (fun t => { t with stale := true }) hs
      simp only [Lifecycle.step] at h1
      repeat' split at h1
      all_goals first
        | (cases h1; done)
        | (cases h1; exact hr)
    | lis k b =>
      cases b with
      | runResume =>
        simp only [step, h.stale, if_true] at hs
        repeat' split at hs
        all_goals first
          | (cases hs; done)
          | (cases hs; exact hr)
      | _ =>
        obtain ⟨t, h1, rfl⟩ := hsame id hs
        simp only [Lifecycle.step] at h1
        repeat' split at h1
        all_goals first
          | (cases h1; done)
          | (cases h1; exact hr)
    | _ =>
      obtain ⟨t, h1, rfl⟩ := hsame id hs
      simp only [Lifecycle.step] at h1
      repeat' split at h1
      all_goals first
        | (cases h1; done)
        | (cases h1; exact hr)

/-- Calls of `add_event_handler` never get a listener any more. -/
private theorem regs_exec (as : List (Act N)) : ∀ {s s' : State N} {es : List (Ev N)},
    Act.life .cancelAgain ∉ as → SInv s → exec s as = some (s', es) →
    ∀ (r l : Nat), s'.life.regs[r]? = some (.ended (.registered l)) →
      s.life.regs[r]? = some (.ended (.registered l)) := by
  induction as with
  | nil => intro s s' es _ _ hx r l; cases hx; exact id
  | cons a as ih =>
    intro s s' es ha h hx r l hr
    obtain ⟨s1, e, es', h1, h2, rfl⟩ := exec_cons hx
    have hn : a ≠ .life .cancelAgain := fun e => ha (by simp [e])
    have hi1 : SInv s1 := by
      cases a with
      | again => exact (sinv_again h h1).1
      | life b => exact (sinv_step h (fun e => hn (by rw [e])) h1).1
    have := ih (fun e => ha (List.mem_cons_of_mem _ e)) hi1 h2 r l hr
    exact regs_step h h1 r l this

/-- **C90** is false of the code: when `run` has ended, no handler is called any more and no new handler is
registered, however often `run` is called again. -/
theorem C90_refuted_silent (as bs : List (Act N)) (s s' : State N) (L es : List (Ev N))
    (h : HasRun as s L) (hb : Act.life .cancelAgain ∉ bs) (hx : exec s bs = some (s', es)) :
    (∀ l, calls l es = []) ∧ (∀ l items, Ev.new l items ∉ es) ∧
    s'.life.listeners.length = s.life.listeners.length ∧
    ∀ (r l : Nat), s.life.regs.length ≤ r → s'.life.regs[r]? ≠ some (.ended (.registered l)) := by
  have hi := sinv_ended h.2.1 h.1 h.2.2.2 h.2.2.1
  obtain ⟨-, h2, h3⟩ := sinv_exec bs hb hi hx
  refine ⟨calls_silent h2.1, h2.2, h3, fun r l hr hm => ?_⟩
  have := regs_exec bs hb hi hx r l hm
  have := (List.getElem?_eq_some_iff.1 this).1
  omega

/-- Another call, a notification and a new handler. -/
example : HasRun first firstEnd.1 firstEnd.2 ∧ ∃ s' es, exec firstEnd.1 ([.again] ++ ([.enter, .procStart,
    .deltaBlock, .distribute 8 false [8], .deltaPut, .lis 0 .getTask, .deltaJoin, .deltaEnd, .addHandler,
    .regEnter 1] : List (Lifecycle.Act Nat)).map .life) = some (s', es) ∧
    es = [.send 8 [0], .put 0 8] ∧ s'.life.regs[1]? = some (.ended .refused) ∧ s'.life.run = .running :=
  ⟨firstRun.1, _, _, rfl, by decide, by decide, by decide⟩

/-- 1: the queue is empty. -/
private def A (x : Listener.State N) : Nat := if x.addQ.isEmpty then 1 else 0

/-- 1: `_pop` can still take something. -/
private def T (x : Listener.State N) : Nat := if x.popEnded = false ∧ x.got.isNone then 1 else 0

/-- A later call, not cancelled, that has put `p` notifications into the queue of listener `l`. -/
private structure Phase (l : Nat) (s : State N) (p : Nat) : Prop where
  run : s.life.run = .entering ∨ s.life.run = .running
  early : s.life.run = .entering ∨ s.life.proc = .ready → p = 0
  none : s.life.listeners[l]? = none → p = 0
  cap : ∀ x, s.life.listeners[l]? = some x → p + A x + T x ≤ 2
  two : p = 2 → ∃ n ls, s.life.deltas = .joining n l ls

private theorem AT_le (x : Listener.State N) : A x + T x ≤ 2 := by
  unfold A T
  split <;> split <;> omega

/-- What a listener's own step does. -/
private theorem AT_step {x x' : Listener.State N} {a : Listener.Act N} {c : Option N} (h : Dead x)
    (ha : Lifecycle.internal a = true) (h1 : a ≠ .runResume) (hs : Listener.step x a = some (x', c)) :
    A x' + T x' ≤ A x + T x := by
  obtain ⟨addQ, got, cur, pd, jn, pend, nextQ, run, sa, pe⟩ := x
  obtain ⟨hst, hrun, hpop⟩ := h
  simp only at hst hrun hpop
  subst hst
  cases a with
  | runResume => exact absurd rfl h1
  | put n => simp [Lifecycle.internal] at ha
  | stop => simp [Lifecycle.internal] at ha
  | getTask =>
    simp only [Listener.step] at hs
    split at hs
    · cases hs
    · rename_i hc
      split at hs
      · cases hs
        cases pe <;> simp [A, T] at hc ⊢
        split <;> omega
      · cases hs
  | popResume =>
    simp only [Listener.step] at hs
    split at hs
    · cases hs
    · cases hs
      simp [A, T]
  | _ =>
    simp only [Listener.step] at hs
    repeat' split at hs
    all_goals first
      | (cases hs; done)
      | (cases hs; simp [A, T])

private theorem puts_cons_put (l m : Nat) (n : N) : (puts l [Ev.put m n]).length = if m = l then 1 else 0 := by
  by_cases h : m = l <;> simp [puts, h]

/-- A listener changes and nothing is put. -/
private theorem phase_lis {l m : Nat} {s : State N} {p : Nat} (h : Phase l s p) {x x' : Listener.State N}
    (hx : s.life.listeners[m]? = some x) (hA : A x' + T x' ≤ A x + T x) :
    Phase l { s with life := { s.life with listeners := s.life.listeners.set m x' } } p := by
  refine ⟨h.run, h.early, ?_, ?_, h.two⟩
  · intro hn
    refine h.none ?_
    simp only [List.getElem?_set] at hn
    split at hn
    · rename_i e
      split at hn
      · cases hn
      · rename_i hlt
        exact List.getElem?_eq_none (by omega)
    · exact hn
  · intro y hy
    simp only [List.getElem?_set] at hy
    split at hy
    · rename_i e
      subst e
      split at hy
      · cases hy
        have := h.cap x hx
        omega
      · cases hy
    · exact h.cap y hy

/-- `handle_deltas` goes on. -/
private theorem phase_deltas {l : Nat} {s : State N} {p : Nat} (h : Phase l s p) (d : Lifecycle.DPc N)
    (st : List N) (b : Option Lifecycle.Holder) (h2 : p ≠ 2) :
    Phase l { s with life := { s.life with deltas := d, store := st, block := b } } p :=
  ⟨h.run, h.early, h.none, h.cap, fun e => absurd e h2⟩

private theorem phase_next {l : Nat} {s : State N} {p : Nat} (h : Phase l s p) (n : N) (ls : List Nat)
    (h2 : p ≠ 2) : Phase l { s with life := Lifecycle.deltaNext s.life n ls } p := by
  cases ls with
  | nil => exact phase_deltas h .holding s.life.store s.life.block h2
  | cons m ls => exact phase_deltas h (.putting n m ls) s.life.store s.life.block h2

private theorem phase_step {l : Nat} {s s' : State N} {p : Nat} {a : Lifecycle.Act N} {e : List (Ev N)}
    (hi : SInv s) (h : Phase l s p) (hc : a ≠ .cancel) (hca : a ≠ .cancelAgain)
    (hs : step s (.life a) = some (s', e)) : Phase l s' (p + (puts l e).length) := by
  have hpc := hi.pc
  unfold pcOK at hpc
  have hsame : ∀ (f : State N → State N), same s a f = some (s', e) →
      ∃ t, Lifecycle.step s.life a = some (t, e) ∧ s' = f { s with life := t } := by
    intro f hh
    simp only [same, Option.map_eq_some_iff] at hh
    obtain ⟨⟨t, e'⟩, h1, h2⟩ := hh
    simp only [Prod.mk.injEq] at h2
    exact ⟨t, by rw [h1, h2.2], h2.1.symm⟩
  cases a with
  | cancel => exact absurd rfl hc
  | cancelAgain => exact absurd rfl hca
  | addHandler =>
    obtain ⟨t, h1, rfl⟩ := hsame id hs
    cases h1
    exact ⟨h.run, h.early, h.none, h.cap, h.two⟩
  | regEnter k =>
    obtain ⟨t, h1, rfl⟩ := hsame id hs
    simp only [Lifecycle.step] at h1
    split at h1
    · rw [if_pos hi.stopped] at h1
      cases h1
      exact ⟨h.run, h.early, h.none, h.cap, h.two⟩
    · cases h1
  | regBlock k =>
    obtain ⟨t, h1, rfl⟩ := hsame id hs
    simp only [Lifecycle.step] at h1
    split at h1
    · rename_i e1 e2
      rcases hi.regs k _ e1 with e | ⟨q, e⟩ <;> cases e
    · cases h1
  | regPut k =>
    obtain ⟨t, h1, rfl⟩ := hsame id hs
    simp only [Lifecycle.step] at h1
    split at h1
    · rename_i e1
      rcases hi.regs k _ e1 with e | ⟨q, e⟩ <;> cases e
    · cases h1
  | regJoin k =>
    obtain ⟨t, h1, rfl⟩ := hsame id hs
    simp only [Lifecycle.step] at h1
    split at h1
    · rename_i e1
      rcases hi.regs k _ e1 with e | ⟨q, e⟩ <;> cases e
    · cases h1
  | regCancel k =>
    obtain ⟨t, h1, rfl⟩ := hsame id hs
    simp only [Lifecycle.step] at h1
    split at h1
    · cases h1
      exact ⟨h.run, h.early, h.none, h.cap, h.two⟩
    · rename_i e1
      rcases hi.regs k _ e1 with e | ⟨q, e⟩ <;> cases e
    · rename_i e1
      rcases hi.regs k _ e1 with e | ⟨q, e⟩ <;> cases e
    · rename_i e1
      rcases hi.regs k _ e1 with e | ⟨q, e⟩ <;> cases e
    · cases h1
  | start =>
    obtain ⟨t, h1, rfl⟩ := hsame id hs
    simp only [Lifecycle.step] at h1
    split at h1
    · rename_i e1
      simp only [e1] at hpc
    · cases h1
  | enter =>
    obtain ⟨t, h1, rfl⟩ := hsame (fun t => { t with stop := false }) hs
    simp only [Lifecycle.step] at h1
    split at h1
    · rename_i e1 e2
      cases h1
      exact ⟨Or.inr rfl, fun _ => h.early (Or.inl e1), h.none, h.cap, h.two⟩
    · cases h1
  | procStart =>
    obtain ⟨t, h1, rfl⟩ := hsame (fun t =>
      { t with life := { t.life with listeners := t.life.listeners.map restart } }) hs
    simp only [Lifecycle.step] at h1
    split at h1
    · rename_i e1
      cases h1
      have h0 : p = 0 := h.early (Or.inr e1)
      subst h0
      refine ⟨h.run, fun _ => rfl, fun _ => rfl, ?_, by simp [puts]⟩
      intro x _
      have := AT_le x
      simp only [puts, List.length_nil]
      omega
    · cases h1
  | deltaBlock =>
    obtain ⟨t, h1, rfl⟩ := hsame id hs
    simp only [Lifecycle.step] at h1
    split at h1
    · rename_i e1 e2 e3 e4
      cases h1
      refine phase_deltas h .holding s.life.store (some .deltas) ?_
      intro e
      obtain ⟨n, ls, e⟩ := h.two e
      rw [e3] at e
      cases e
    · cases h1
  | distribute n b st =>
    obtain ⟨t, h1, rfl⟩ := hsame id hs
    simp only [Lifecycle.step] at h1
    split at h1
    · rename_i e1
      simp only [Option.some.injEq, Prod.mk.injEq] at h1
      obtain ⟨rfl, rfl⟩ := h1
      have h2 : p ≠ 2 := by
        intro e
        obtain ⟨n, ls, e⟩ := h.two e
        rw [e1] at e
        cases e
      exact phase_next (phase_deltas h s.life.deltas st s.life.block h2) n _ h2
    · cases h1
  | deltaPut =>
    obtain ⟨t, h1, rfl⟩ := hsame id hs
    simp only [Lifecycle.step] at h1
    split at h1
    · rename_i n m ls e1
      have hd : s.life.deltas ≠ .idle := by rw [e1]; simp
      obtain ⟨r1, r2, -⟩ := sinv_running hi hd
      have h2 : p ≠ 2 := by
        intro e
        obtain ⟨n, ls, e⟩ := h.two e
        rw [e1] at e
        cases e
      split at h1
      · rename_i t' ht
        simp only [Option.some.injEq, Prod.mk.injEq] at h1
        obtain ⟨rfl, rfl⟩ := h1
        obtain ⟨x, x', c, k1, k2, rfl⟩ := Lifecycle.putTo_spec ht
        have hx : x.addQ = [] ∧ x' = { x with addQ := [n] } := by
          simp only [Listener.step] at k2
          split at k2
          · rename_i e
            cases k2
            exact ⟨e, rfl⟩
          · cases k2
        obtain ⟨hx1, rfl⟩ := hx
        have hlt : m < s.life.listeners.length := (List.getElem?_eq_some_iff.1 k1).1
        have hA : A x = 1 ∧ A { x with addQ := [n] } = 0 ∧ T { x with addQ := [n] } = T x := by
          simp [A, T, hx1]
        rw [puts_cons_put]
        by_cases hm : m = l
        · subst hm
          have hcap := h.cap x k1
          rw [if_pos rfl]
          refine ⟨Or.inr r1, ?_, ?_, ?_, fun _ => ⟨n, ls, rfl⟩⟩
          · intro e
            simp only [id] at e
            rw [r1, r2] at e
            rcases e with e | e <;> cases e
          · intro e
            simp only [id, List.getElem?_set_self hlt] at e
            cases e
          · intro y hy
            simp only [id, List.getElem?_set_self hlt, Option.some.injEq] at hy
            rw [← hy, hA.2.1, hA.2.2]
            omega
        · rw [if_neg hm]
          refine ⟨Or.inr r1, ?_, ?_, ?_, fun e => absurd e h2⟩
          · intro e
            simp only [id] at e
            rw [r1, r2] at e
            rcases e with e | e <;> cases e
          · intro e
            simp only [id, List.getElem?_set_ne hm] at e
            exact h.none e
          · intro y hy
            simp only [id, List.getElem?_set_ne hm] at hy
            exact h.cap y hy
      · cases h1
    · cases h1
  | deltaJoin =>
    obtain ⟨t, h1, rfl⟩ := hsame id hs
    simp only [Lifecycle.step] at h1
    split at h1
    · rename_i n m ls e1
      split at h1
      · rename_i ht
        simp only [Option.some.injEq, Prod.mk.injEq] at h1
        obtain ⟨rfl, rfl⟩ := h1
        refine phase_next h n ls ?_
        intro e2
        obtain ⟨n', ls', e⟩ := h.two e2
        rw [e1] at e
        cases e
        simp only [Lifecycle.taken] at ht
        split at ht
        · cases ht
        · rename_i x hx
          have := h.cap x hx
          simp [A, ht] at this
          omega
      · cases h1
    · cases h1
  | deltaEnd =>
    obtain ⟨t, h1, rfl⟩ := hsame id hs
    simp only [Lifecycle.step] at h1
    split at h1
    · rename_i e1
      cases h1
      refine phase_deltas h .idle s.life.store none ?_
      intro e
      obtain ⟨n, ls, e⟩ := h.two e
      rw [e1] at e
      cases e
    · cases h1
  | check ls =>
    obtain ⟨t, h1, rfl⟩ := hsame id hs
    cases h1
    exact ⟨h.run, h.early, h.none, h.cap, h.two⟩
  | reflectorEnds =>
    obtain ⟨t, h1, rfl⟩ := hsame id hs
    simp only [Lifecycle.step] at h1
    split at h1
    · rename_i e1
      have := h.run
      rw [e1] at this
      rcases this with e | e <;> cases e
    · cases h1
  | leave =>
    obtain ⟨t, h1, rfl⟩ := hsame (fun t => { t with stop := true }) hs
    simp only [Lifecycle.step] at h1
    split at h1
    · rename_i e1 e2
      have := h.run
      rw [e1] at this
      rcases this with e | e <;> cases e
    · cases h1
  | procStop =>
    simp only [step] at hs
    split at hs
    · rename_i e1 e2
      rcases h.run with e | e
      · rw [e] at hpc
        rw [e1] at hpc
        cases hpc.1
      · rw [e] at hpc
        rw [e2] at hpc
        cases hpc.1
    · cases hs
  | procDone =>
    obtain ⟨t, h1, rfl⟩ := hsame (fun t => { t with stale := true }) hs
    simp only [Lifecycle.step] at h1
    split at h1
    · rename_i e1
      rcases h.run with e | e
      · rw [e] at hpc
        rw [e1] at hpc
        cases hpc.1
      · rw [e] at hpc
        rw [e1] at hpc
        rcases hpc.2 with ⟨e, -⟩ | e <;> cases e
    · cases h1
  | finish =>
    obtain ⟨t, h1, rfl⟩ := hsame id hs
    simp only [Lifecycle.step] at h1
    split at h1
    · rename_i e1 e2
      have := h.run
      rw [e1] at this
      rcases this with e | e <;> cases e
    · cases h1
  | lis k b =>
    by_cases hb : b = .runResume
    · subst hb
      simp only [step, hi.stale, if_true] at hs
      split at hs
      · cases hs
      · cases hs
      · cases hs
      · rename_i x hx _ _
        split at hs
        · cases hs
        · rename_i x' hx'
          simp only [Option.some.injEq, Prod.mk.injEq] at hs
          obtain ⟨rfl, rfl⟩ := hs
          have := (dead_runStops (hi.dead k x hx) hx').2
          have hA : A x' + T x' ≤ A x + T x := by
            rw [this]
            exact Nat.le_refl _
          have := phase_lis h hx hA
          simp only [hi.stale] at this
          exact this
    · have hs' : same s (.lis k b) id = some (s', e) := by
        cases b <;> first | exact hs | exact absurd rfl hb
      obtain ⟨t, h1, rfl⟩ := hsame id hs'
      simp only [Lifecycle.step] at h1
      split at h1
      · cases h1
      · cases h1
      · split at h1
        · rename_i hint
          split at h1
          · cases h1
          · rename_i x hx
            split at h1
            · cases h1
            · rename_i x' c hx'
              simp only [Option.some.injEq, Prod.mk.injEq] at h1
              obtain ⟨rfl, rfl⟩ := h1
              have hc0 := (dead_step (hi.dead k x hx) hb hx').2
              subst hc0
              exact phase_lis h hx (AT_step (hi.dead k x hx) hint hb hx')
        · cases h1

private theorem phase_exec (l : Nat) (cs : List (Act N)) : ∀ {s s' : State N} {p : Nat} {es : List (Ev N)},
    SInv s → Phase l s p → Act.again ∉ cs → Act.life .cancel ∉ cs → Act.life .cancelAgain ∉ cs →
    exec s cs = some (s', es) → Phase l s' (p + (puts l es).length) := by
  induction cs with
  | nil =>
    intro s s' p es _ h _ _ _ hx
    cases hx
    exact h
  | cons a cs ih =>
    intro s s' p es hi h n1 n2 n3 hx
    obtain ⟨s1, e, es', h1, h2, rfl⟩ := exec_cons hx
    cases a with
    | again => exact absurd (List.mem_cons_self ..) n1
    | life b =>
      have hb1 : b ≠ .cancel := fun e => n2 (by simp [e])
      have hb2 : b ≠ .cancelAgain := fun e => n3 (by simp [e])
      have := ih (sinv_step hi hb2 h1).1 (phase_step hi h hb1 hb2 h1)
        (fun e => n1 (List.mem_cons_of_mem _ e)) (fun e => n2 (List.mem_cons_of_mem _ e))
        (fun e => n3 (List.mem_cons_of_mem _ e)) h2
      rw [Lifecycle.puts_append, List.length_append, ← Nat.add_assoc]
      exact this

/-- The notification put last is not taken. -/
private theorem stuck_step {l m : Nat} {s s' : State N} {a : Lifecycle.Act N} {e : List (Ev N)} {n : N}
    {ls : List Nat} (hi : SInv s) (h : Phase l s 2) (hd : s.life.deltas = .joining n l ls) (hc : a ≠ .cancel)
    (hs : step s (.life a) = some (s', e)) :
    s'.life.deltas = .joining n l ls ∧ puts m e = [] := by
  have hsame : ∀ (f : State N → State N), same s a f = some (s', e) →
      ∃ t, Lifecycle.step s.life a = some (t, e) ∧ s' = f { s with life := t } := by
    intro f hh
    simp only [same, Option.map_eq_some_iff] at hh
    obtain ⟨⟨t, e'⟩, h1, h2⟩ := hh
    simp only [Prod.mk.injEq] at h2
    exact ⟨t, by rw [h1, h2.2], h2.1.symm⟩
  cases a with
  | cancel => exact absurd rfl hc
  | regEnter k =>
    obtain ⟨t, h1, rfl⟩ := hsame id hs
    simp only [Lifecycle.step] at h1
    split at h1
    · rw [if_pos hi.stopped] at h1
      cases h1
      exact ⟨hd, rfl⟩
    · cases h1
  | regBlock k =>
    obtain ⟨t, h1, rfl⟩ := hsame id hs
    simp only [Lifecycle.step] at h1
    split at h1
    · rename_i e1 e2
      rcases hi.regs k _ e1 with e | ⟨q, e⟩ <;> cases e
    · cases h1
  | regPut k =>
    obtain ⟨t, h1, rfl⟩ := hsame id hs
    simp only [Lifecycle.step] at h1
    split at h1
    · rename_i e1
      rcases hi.regs k _ e1 with e | ⟨q, e⟩ <;> cases e
    · cases h1
  | regJoin k =>
    obtain ⟨t, h1, rfl⟩ := hsame id hs
    simp only [Lifecycle.step] at h1
    split at h1
    · rename_i e1
      rcases hi.regs k _ e1 with e | ⟨q, e⟩ <;> cases e
    · cases h1
  | deltaJoin =>
    obtain ⟨t, h1, rfl⟩ := hsame id hs
    simp only [Lifecycle.step, hd] at h1
    split at h1
    · rename_i ht
      simp only [Lifecycle.taken] at ht
      split at ht
      · cases ht
      · rename_i x hx
        have := h.cap x hx
        simp only [A, ht, if_true] at this
        omega
    · cases h1
  | deltaBlock | distribute _ _ _ | deltaPut | deltaEnd =>
    obtain ⟨t, h1, rfl⟩ := hsame id hs
    simp only [Lifecycle.step, hd] at h1
    first
      | (cases h1; done)
      | (split at h1
         · rename_i e _; cases e
         · cases h1)
  | enter =>
    obtain ⟨t, h1, rfl⟩ := hsame (fun t => { t with stop := false }) hs
    simp only [Lifecycle.step] at h1
    split at h1 <;> cases h1
    exact ⟨hd, rfl⟩
  | leave =>
    obtain ⟨t, h1, rfl⟩ := hsame (fun t => { t with stop := true }) hs
    simp only [Lifecycle.step] at h1
    split at h1 <;> cases h1
    exact ⟨hd, rfl⟩
  | procStart =>
    obtain ⟨t, h1, rfl⟩ := hsame (fun t =>
      { t with life := { t.life with listeners := t.life.listeners.map restart } }) hs
    simp only [Lifecycle.step] at h1
    split at h1 <;> cases h1
    exact ⟨hd, rfl⟩
  | procStop =>
    simp only [step] at hs
    split at hs <;> cases hs
    exact ⟨hd, rfl⟩
  | procDone =>
    obtain ⟨t, h1, rfl⟩ := hsame (fun t => { t with stale := true }) hs
    simp only [Lifecycle.step] at h1
    repeat' split at h1
    all_goals first
      | (cases h1; done)
      | (cases h1; exact ⟨hd, rfl⟩)
  | lis k b =>
    by_cases hb : b = .runResume
    · subst hb
      simp only [step, hi.stale, if_true] at hs
      repeat' split at hs
      all_goals first
        | (cases hs; done)
        | (cases hs; exact ⟨hd, rfl⟩)
    · have hs' : same s (.lis k b) id = some (s', e) := by
        cases b <;> first | exact hs | exact absurd rfl hb
      obtain ⟨t, h1, rfl⟩ := hsame id hs'
      simp only [Lifecycle.step] at h1
      repeat' split at h1
      all_goals first
        | (cases h1; done)
        | (rename_i c _; cases h1; refine ⟨hd, ?_⟩; cases c <;> rfl)
  | _ =>
    obtain ⟨t, h1, rfl⟩ := hsame id hs
    simp only [Lifecycle.step] at h1
    repeat' split at h1
    all_goals first
      | (cases h1; done)
      | (cases h1; exact ⟨hd, rfl⟩)

private theorem stuck_exec (l : Nat) (n : N) (ls : List Nat) (cs : List (Act N)) : ∀ {s s' : State N}
    {es : List (Ev N)}, SInv s → Phase l s 2 → s.life.deltas = .joining n l ls → Act.again ∉ cs →
    Act.life .cancel ∉ cs → Act.life .cancelAgain ∉ cs → exec s cs = some (s', es) →
    s'.life.deltas = .joining n l ls ∧ ∀ m, puts m es = [] := by
  induction cs with
  | nil =>
    intro s s' es _ h hd _ _ _ hx
    cases hx
    exact ⟨hd, fun _ => rfl⟩
  | cons a cs ih =>
    intro s s' es hi h hd n1 n2 n3 hx
    obtain ⟨s1, e, es', h1, h2, rfl⟩ := exec_cons hx
    cases a with
    | again => exact absurd (List.mem_cons_self ..) n1
    | life b =>
      have hb1 : b ≠ .cancel := fun e => n2 (by simp [e])
      have hb2 : b ≠ .cancelAgain := fun e => n3 (by simp [e])
      have hst := fun m => stuck_step (m := m) hi h hd hb1 h1
      have hph := phase_step hi h hb1 hb2 h1
      rw [(hst l).2] at hph
      obtain ⟨k1, k2⟩ := ih (sinv_step hi hb2 h1).1 hph (hst l).1
        (fun e => n1 (List.mem_cons_of_mem _ e)) (fun e => n2 (List.mem_cons_of_mem _ e))
        (fun e => n3 (List.mem_cons_of_mem _ e)) h2
      refine ⟨k1, fun m => ?_⟩
      rw [Lifecycle.puts_append, (hst m).2, k2 m]
      rfl

/-- **C90** is false of the code: as long as a later call is not cancelled, at most two notifications are put
into the queue of a listener, and with the second `handle_deltas` has come to its end: the notification is
never taken. -/
theorem C90_refuted_stuck (as cs : List (Act N)) (s s' : State N) (L es : List (Ev N)) (l : Nat)
    (h : HasRun as s L) (h1 : Act.again ∉ cs) (h2 : Act.life .cancel ∉ cs) (h3 : Act.life .cancelAgain ∉ cs)
    (hx : exec s (.again :: cs) = some (s', es)) :
    (puts l es).length ≤ 2 ∧
    ((puts l es).length = 2 → ∃ n ls, s'.life.deltas = .joining n l ls ∧
      ∀ (ds : List (Act N)) (s2 : State N) (es2 : List (Ev N)), Act.again ∉ ds → Act.life .cancel ∉ ds →
        Act.life .cancelAgain ∉ ds → exec s' ds = some (s2, es2) →
        s2.life.deltas = .joining n l ls ∧ ∀ m, puts m es2 = []) := by
  have hi := sinv_ended h.2.1 h.1 h.2.2.2 h.2.2.1
  obtain ⟨s1, e, es', k1, k2, rfl⟩ := exec_cons hx
  obtain ⟨hi1, rfl, hr, hl⟩ := sinv_again hi k1
  have hpc := hi1.pc
  have hrun : s1.life.run = .entering := by rw [hl]
  unfold pcOK at hpc
  rw [hrun] at hpc
  have hph : Phase l s1 0 := by
    refine ⟨Or.inl hrun, fun _ => rfl, fun _ => rfl, fun x _ => ?_, by simp⟩
    have := AT_le x
    omega
  have hp := phase_exec l cs hi1 hph h1 h2 h3 k2
  have hi' := (sinv_exec cs h3 hi1 k2).1
  rw [Nat.zero_add] at hp
  simp only [List.nil_append]
  refine ⟨?_, fun e => ?_⟩
  · cases hx : s'.life.listeners[l]? with
    | none => have := hp.none hx; omega
    | some x => have := hp.cap x hx; omega
  · obtain ⟨n, ls, hd⟩ := hp.two e
    rw [e] at hp
    exact ⟨n, ls, hd, fun ds s2 es2 g1 g2 g3 g4 => stuck_exec l n ls ds hi' hp hd g1 g2 g3 g4⟩

/-- The first notification is taken by the task of a `_pop` that ends; the second is not taken. -/
example : HasRun first firstEnd.1 firstEnd.2 ∧ ∃ s' es, exec firstEnd.1 (.again :: ([.enter, .procStart,
    .deltaBlock, .distribute 8 false [8], .deltaPut, .lis 0 .getTask, .lis 0 .popResume, .deltaJoin, .deltaEnd,
    .deltaBlock, .distribute 9 false [9], .deltaPut] : List (Lifecycle.Act Nat)).map .life) = some (s', es) ∧
    puts 0 es = [8, 9] ∧ s'.life.deltas = .joining 9 0 [] :=
  ⟨firstRun.1, _, _, rfl, by decide, by decide⟩

/-! ## The end of a later call -/

private theorem exec_snoc (as : List (Act N)) : ∀ {s s' : State N} {a : Act N} {es : List (Ev N)},
    exec s (as ++ [a]) = some (s', es) →
    ∃ t e1 e2, exec s as = some (t, e1) ∧ step t a = some (s', e2) := by
  induction as with
  | nil =>
    intro s s' a es h
    obtain ⟨s1, e, es', h1, h2, rfl⟩ := exec_cons h
    cases h2
    exact ⟨s, [], e, rfl, h1⟩
  | cons b as ih =>
    intro s s' a es h
    obtain ⟨s1, e, es', h1, h2, rfl⟩ := exec_cons h
    obtain ⟨t, e1, e2, h3, h4⟩ := ih h2
    exact ⟨t, e ++ e1, e2, by simp [exec, h1, h3], h4⟩

/-- What the tasks of a listener can still do. -/
private def workL (x : Listener.State N) : Nat :=
  (if x.popEnded then 0 else if x.got.isNone then 2 else 1) + (if x.joining then 1 else 0) +
  (match x.run with | .waiting => 2 | .got _ => 1 | _ => 0)

private def sumL : List (Listener.State N) → Nat
  | [] => 0
  | x :: xs => workL x + sumL xs

private theorem sumL_set : ∀ {L : List (Listener.State N)} {l : Nat} {x x' : Listener.State N},
    L[l]? = some x → workL x' < workL x → sumL (L.set l x') < sumL L
  | [], _, _, _, h, _ => by cases h
  | y :: ys, 0, x, x', h, hw => by
    cases h
    simp only [List.set_cons_zero, sumL]
    omega
  | y :: ys, l + 1, x, x', h, hw => by
    have := sumL_set (L := ys) (l := l) h hw
    simp only [List.set_cons_succ, sumL]
    omega

private theorem sumL_restart : ∀ L : List (Listener.State N), sumL (L.map restart) = 4 * L.length
  | [] => rfl
  | x :: xs => by
    have := sumL_restart xs
    have h : workL (restart x) = 4 := rfl
    simp only [List.map_cons, sumL, List.length_cons, h]
    omega

private theorem sumL_stop : ∀ L : List (Listener.State N), sumL (L.map Lifecycle.stopOne) = sumL L
  | [] => rfl
  | x :: xs => by
    have := sumL_stop xs
    have h : workL (Lifecycle.stopOne x) = workL x := rfl
    simp only [List.map_cons, sumL, h, this]

private theorem workL_step {x x' : Listener.State N} {a : Listener.Act N} {c : Option N} (h : Dead x)
    (ha : Lifecycle.internal a = true) (h1 : a ≠ .runResume) (hs : Listener.step x a = some (x', c)) :
    workL x' < workL x := by
  obtain ⟨addQ, got, cur, pd, jn, pend, nextQ, run, sa, pe⟩ := x
  obtain ⟨hst, hrun, hpop⟩ := h
  simp only at hst hrun hpop
  subst hst
  cases a with
  | runResume => exact absurd rfl h1
  | put n => simp [Lifecycle.internal] at ha
  | stop => simp [Lifecycle.internal] at ha
  | getTask =>
    simp only [Listener.step] at hs
    split at hs
    · cases hs
    · rename_i hc
      split at hs
      · cases hs
        cases pe with
        | true => simp at hc
        | false => simp [workL]
      · cases hs
  | putTask =>
    simp only [Listener.step] at hs
    split at hs
    · cases hs
    · rename_i hc
      split at hs
      · cases pe with
        | true => simp at hc
        | false => cases (hpop rfl).2.1
      · cases hs
  | popResume =>
    simp only [Listener.step] at hs
    split at hs
    · cases hs
    · rename_i hc
      cases hs
      cases pe with
      | true => simp at hc
      | false =>
        cases got <;> simp [workL]
  | joined =>
    simp only [Listener.step] at hs
    split at hs
    · cases hs
    · rename_i hc
      split at hs
      · cases hs
        cases jn with
        | false => simp at hc
        | true =>
          simp only [workL, if_true, Bool.false_eq_true, if_false]
          omega
      · cases hs
  | runGet =>
    simp only [Listener.step] at hs
    split at hs
    · cases hs
      simp only [workL]
      omega
    · cases hs
  | handlerEnds ok =>
    simp only [Listener.step] at hs
    split at hs
    · rcases hrun with e | ⟨n, e⟩ | e <;> cases e
    · cases hs
  | wake =>
    simp only [Listener.step] at hs
    split at hs
    · rcases hrun with e | ⟨n, e⟩ | e <;> cases e
    · cases hs

private theorem workL_runStops {x x' : Listener.State N} (hs : runStops x = some x') : workL x' < workL x := by
  simp only [runStops] at hs
  split at hs <;> cases hs
  · rename_i e; simp only [workL, e]; omega
  · rename_i e; simp only [workL, e]; omega

private def atLock : List (Lifecycle.Reg N) → Nat
  | [] => 0
  | .atLock :: rs => 1 + atLock rs
  | _ :: rs => atLock rs

private theorem atLock_set : ∀ {R : List (Lifecycle.Reg N)} {r : Nat} {q : Lifecycle.Result},
    R[r]? = some .atLock → atLock (R.set r (.ended q)) < atLock R
  | [], _, _, h => by cases h
  | p :: ps, 0, q, h => by
    cases h
    simp only [List.set_cons_zero, atLock]
    omega
  | p :: ps, r + 1, q, h => by
    have := atLock_set (R := ps) (r := r) (q := q) h
    cases p <;> simp only [List.set_cons_succ, atLock] <;> omega

private def procWork (k : Nat) : Lifecycle.PPc → Nat
  | .none | .done => 0
  | .stopping => 1
  | .running => 2
  | .ready => 4 * k + 3

private def runWork : Lifecycle.RPc → Nat
  | .closing => 3
  | .leaving => 2
  | .awaiting => 1
  | _ => 0

/-- What a cancelled call can still do. -/
private def work (s : State N) : Nat :=
  sumL s.life.listeners + atLock s.life.regs + procWork s.life.listeners.length s.life.proc + runWork s.life.run

/-- The call is cancelled. -/
private def Late (s : State N) : Prop :=
  s.life.run = .closing ∨ s.life.run = .leaving ∨ s.life.run = .awaiting ∨ s.life.run = .ended

private theorem late_idle {s : State N} (hi : SInv s) (h : Late s) : s.life.deltas = .idle := by
  have hpc := hi.pc
  unfold pcOK at hpc
  rcases h with e | e | e | e <;> rw [e] at hpc
  · exact hpc.2.2
  · exact hpc.2.2
  · exact hpc.2.2
  · exact hpc.2

private theorem work_step {s s' : State N} {a : Act N} {e : List (Ev N)} (hi : SInv s) (h : Late s)
    (ha : own a = true) (hs : step s a = some (s', e)) : work s' < work s ∧ Late s' := by
  have hd := late_idle hi h
  cases a with
  | again => simp [own] at ha
  | life a =>
    have hsame : ∀ (f : State N → State N), same s a f = some (s', e) →
        ∃ t, Lifecycle.step s.life a = some (t, e) ∧ s' = f { s with life := t } := by
      intro f hh
      simp only [same, Option.map_eq_some_iff] at hh
      obtain ⟨⟨t, e'⟩, h1, h2⟩ := hh
      simp only [Prod.mk.injEq] at h2
      exact ⟨t, by rw [h1, h2.2], h2.1.symm⟩
    cases a with
    | addHandler | regCancel _ | start | deltaBlock | distribute _ _ _ | check _ | cancel | cancelAgain =>
      simp [own, Lifecycle.Spec.own] at ha
    | regEnter k =>
      obtain ⟨t, h1, rfl⟩ := hsame id hs
      simp only [Lifecycle.step] at h1
      split at h1
      · rename_i e1 e2
        rw [if_pos hi.stopped] at h1
        cases h1
        have := atLock_set (q := .refused) e1
        refine ⟨?_, h⟩
        simp only [work, id, Lifecycle.State.setReg]
        omega
      · cases h1
    | regBlock k =>
      obtain ⟨t, h1, rfl⟩ := hsame id hs
      simp only [Lifecycle.step] at h1
      split at h1
      · rename_i e1 e2
        rcases hi.regs k _ e1 with e | ⟨q, e⟩ <;> cases e
      · cases h1
    | regPut k =>
      obtain ⟨t, h1, rfl⟩ := hsame id hs
      simp only [Lifecycle.step] at h1
      split at h1
      · rename_i e1
        rcases hi.regs k _ e1 with e | ⟨q, e⟩ <;> cases e
      · cases h1
    | regJoin k =>
      obtain ⟨t, h1, rfl⟩ := hsame id hs
      simp only [Lifecycle.step] at h1
      split at h1
      · rename_i e1
        rcases hi.regs k _ e1 with e | ⟨q, e⟩ <;> cases e
      · cases h1
    | enter =>
      obtain ⟨t, h1, rfl⟩ := hsame (fun t => { t with stop := false }) hs
      simp only [Lifecycle.step] at h1
      split at h1
      · rename_i e1 e2
        unfold Late at h
        rw [e1] at h
        rcases h with e | e | e | e <;> cases e
      · cases h1
    | procStart =>
      obtain ⟨t, h1, rfl⟩ := hsame (fun t =>
        { t with life := { t.life with listeners := t.life.listeners.map restart } }) hs
      simp only [Lifecycle.step] at h1
      split at h1
      · rename_i e1
        cases h1
        refine ⟨?_, h⟩
        simp only [work, sumL_restart, e1, procWork, List.length_map]
        omega
      · cases h1
    | deltaPut | deltaJoin | deltaEnd =>
      obtain ⟨t, h1, rfl⟩ := hsame id hs
      simp only [Lifecycle.step, hd] at h1
      cases h1
    | reflectorEnds =>
      obtain ⟨t, h1, rfl⟩ := hsame id hs
      simp only [Lifecycle.step] at h1
      split at h1
      · rename_i e1
        cases h1
        refine ⟨?_, Or.inr (Or.inl rfl)⟩
        simp only [work, id, e1, runWork]
        omega
      · cases h1
    | leave =>
      obtain ⟨t, h1, rfl⟩ := hsame (fun t => { t with stop := true }) hs
      simp only [Lifecycle.step] at h1
      split at h1
      · rename_i e1 e2
        cases h1
        refine ⟨?_, Or.inr (Or.inr (Or.inl rfl))⟩
        simp only [work, e1, runWork]
        omega
      · cases h1
    | procStop =>
      simp only [step] at hs
      split at hs
      · rename_i e1 e2
        cases hs
        refine ⟨?_, h⟩
        simp only [work, sumL_stop, e1, procWork]
        omega
      · cases hs
    | procDone =>
      obtain ⟨t, h1, rfl⟩ := hsame (fun t => { t with stale := true }) hs
      simp only [Lifecycle.step] at h1
      split at h1
      · rename_i e1
        split at h1
        · cases h1
          refine ⟨?_, h⟩
          simp only [work, e1, procWork]
          omega
        · cases h1
      · cases h1
    | finish =>
      obtain ⟨t, h1, rfl⟩ := hsame id hs
      simp only [Lifecycle.step] at h1
      split at h1
      · rename_i e1 e2
        cases h1
        refine ⟨?_, Or.inr (Or.inr (Or.inr rfl))⟩
        simp only [work, id, e1, runWork]
        omega
      · cases h1
    | lis k b =>
      by_cases hb : b = .runResume
      · subst hb
        simp only [step, hi.stale, if_true] at hs
        split at hs
        · cases hs
        · cases hs
        · cases hs
        · rename_i x hx _ _
          split at hs
          · cases hs
          · rename_i x' hx'
            simp only [Option.some.injEq, Prod.mk.injEq] at hs
            obtain ⟨rfl, rfl⟩ := hs
            have := sumL_set hx (workL_runStops hx')
            refine ⟨?_, h⟩
            simp only [work, List.length_set]
            omega
      · have hs' : same s (.lis k b) id = some (s', e) := by
          cases b <;> first | exact hs | exact absurd rfl hb
        obtain ⟨t, h1, rfl⟩ := hsame id hs'
        simp only [Lifecycle.step] at h1
        split at h1
        · cases h1
        · cases h1
        · split at h1
          · rename_i hint
            split at h1
            · cases h1
            · rename_i x hx
              split at h1
              · cases h1
              · rename_i x' c hx'
                simp only [Option.some.injEq, Prod.mk.injEq] at h1
                obtain ⟨rfl, rfl⟩ := h1
                have := sumL_set hx (workL_step (hi.dead k x hx) hint hb hx')
                refine ⟨?_, h⟩
                simp only [work, id, List.length_set]
                omega
          · cases h1

private theorem own_noAgain {cs : List (Act N)} (h : ∀ c ∈ cs, own c = true) : Act.life .cancelAgain ∉ cs := by
  intro e
  have := h _ e
  simp [own, Lifecycle.Spec.own] at this

private theorem work_exec (cs : List (Act N)) : ∀ {s s' : State N} {es : List (Ev N)}, SInv s → Late s →
    (∀ c ∈ cs, own c = true) → exec s cs = some (s', es) → cs.length + work s' ≤ work s ∧ Late s' := by
  induction cs with
  | nil => intro s s' es _ h _ hx; cases hx; exact ⟨by simp, h⟩
  | cons a cs ih =>
    intro s s' es hi h ho hx
    obtain ⟨s1, e, es', h1, h2, rfl⟩ := exec_cons hx
    have hoa := ho a (List.mem_cons_self ..)
    obtain ⟨k1, k2⟩ := work_step hi h hoa h1
    have hi1 : SInv s1 := by
      cases a with
      | again => exact (sinv_again hi h1).1
      | life b => exact (sinv_step hi (fun e => by subst e; simp [own, Lifecycle.Spec.own] at hoa) h1).1
    obtain ⟨k3, k4⟩ := ih hi1 k2 (fun c hc => ho c (List.mem_cons_of_mem _ hc)) h2
    exact ⟨by simp only [List.length_cons]; omega, k4⟩

/-- A cancelled call that cannot go on has ended. -/
private theorem quiet {s : State N} (hi : SInv s) (h : Late s) (hq : ∀ c, own c = true → step s c = none) :
    s.life.run = .ended := by
  have hpc := hi.pc
  unfold pcOK at hpc
  rcases h with e | e | e | e
  · have := hq (.life .reflectorEnds) rfl
    simp [step, same, Lifecycle.step, e] at this
  · have := hq (.life .leave) rfl
    simp [step, same, Lifecycle.step, e, hi.sb] at this
  · exfalso
    rw [e] at hpc
    cases hp : s.life.proc with
    | none => exact hpc.2.1 hp
    | ready =>
      have := hq (.life .procStart) rfl
      simp [step, same, Lifecycle.step, hp] at this
    | running =>
      have := hq (.life .procStop) rfl
      simp [step, hp, hpc.1] at this
    | done =>
      have := hq (.life .finish) rfl
      simp [step, same, Lifecycle.step, e, hp] at this
    | stopping =>
      have h1 := hq (.life .procDone) rfl
      simp only [step, same, Lifecycle.step, hp] at h1
      split at h1
      · cases h1
      · rename_i hall
        refine hall ?_
        rw [List.all_eq_true]
        intro x hx
        obtain ⟨l, hl⟩ := List.mem_iff_getElem?.1 hx
        have hd := hi.dead l x hl
        have g1 := hq (.life (.lis l .popResume)) rfl
        have g2 := hq (.life (.lis l .runResume)) rfl
        obtain ⟨addQ, got, cur, pd, jn, pend, nextQ, run, sa, pe⟩ := x
        obtain ⟨d1, d2, d3⟩ := hd
        simp only at d1 d2 d3
        subst d1
        have hpe : pe = true := by
          cases pe with
          | true => rfl
          | false =>
            have := (d3 rfl).1
            subst this
            simp [step, same, Lifecycle.step, hp, hl, Lifecycle.internal, Listener.step] at g1
        have hrun : run = .ended := by
          rcases d2 with rfl | ⟨n, rfl⟩ | rfl
          · simp [step, hi.stale, hp, hl, runStops] at g2
          · simp [step, hi.stale, hp, hl, runStops] at g2
          · rfl
        subst hpe hrun
        rfl
  · exact e

/-- **C90**: a later call that is cancelled ends, like the first (C80): there is a bound on what the tasks can
go on to do by themselves, and when they can do no more, the call has ended, every call of
`add_event_handler` has ended, no lock is held and the tasks of all listeners have ended. -/
theorem C90_ends_partial (as bs : List (Act N)) (s s1 : State N) (L es : List (Ev N)) (h : HasRun as s L)
    (hb : Act.life .cancelAgain ∉ bs) (hx : exec s (bs ++ [.life .cancel]) = some (s1, es)) :
    ∃ bound, ∀ (cs : List (Act N)) (s2 : State N) (es2 : List (Ev N)), (∀ c ∈ cs, own c = true) →
      exec s1 cs = some (s2, es2) →
      cs.length ≤ bound ∧
      ((∀ c, own c = true → step s2 c = none) →
        s2.life.run = .ended ∧
        (∀ (r : Nat) (p : Lifecycle.Reg N), s2.life.regs[r]? = some p → Lifecycle.Spec.Over p) ∧
        s2.life.startedBy = none ∧ s2.life.block = none ∧ s2.life.proc = .done ∧
        ∀ x ∈ s2.life.listeners, Lifecycle.over x = true) := by
  have hi0 := sinv_ended h.2.1 h.1 h.2.2.2 h.2.2.1
  have hi : SInv s1 := (sinv_exec _ (by simpa using hb) hi0 hx).1
  have hl : Late s1 := by
    obtain ⟨t, e1, e2, k1, k2⟩ := exec_snoc bs hx
    simp only [step, same, Option.map_eq_some_iff] at k2
    obtain ⟨⟨u, e'⟩, k3, k4⟩ := k2
    simp only [Prod.mk.injEq, id] at k4
    obtain ⟨rfl, -⟩ := k4
    simp only [Lifecycle.step] at k3
    repeat' split at k3
    all_goals first
      | (cases k3; done)
      | (cases k3; simp [Late])
  refine ⟨work s1, fun cs s2 es2 ho hc => ?_⟩
  obtain ⟨w1, w2⟩ := work_exec cs hi hl ho hc
  refine ⟨by omega, fun hq => ?_⟩
  have hi2 := (sinv_exec cs (own_noAgain ho) hi hc).1
  have hr := quiet hi2 w2 hq
  have hpc := hi2.pc
  unfold pcOK at hpc
  rw [hr] at hpc
  refine ⟨hr, ?_, hi2.sb, ?_, hpc.1, ?_⟩
  · intro r p hp
    rcases hi2.regs r p hp with rfl | ⟨q, rfl⟩
    · have := hq (.life (.regEnter r)) rfl
      simp [step, same, Lifecycle.step, hp, hi2.sb, hi2.stopped] at this
    · trivial
  · rcases hi2.blk with e | e
    · exact e
    · exact absurd hpc.2 (hi2.blkd.1 e)
  · intro x hx
    obtain ⟨l, hl⟩ := List.mem_iff_getElem?.1 hx
    exact hi2.fin hpc.1 l x hl

/-- A later call is cancelled while it waits, and ends. -/
example : HasRun first firstEnd.1 firstEnd.2 ∧ ∃ s1 es, exec firstEnd.1 ((.again :: ([.enter, .procStart,
    .lis 0 .popResume, .deltaBlock, .distribute 8 false [8], .deltaPut] : List (Lifecycle.Act Nat)).map .life) ++
    [.life .cancel]) = some (s1, es) ∧ s1.life.run = .closing ∧ ∃ s2 es2, exec s1
    (([.reflectorEnds, .leave, .procStop, .lis 0 .runResume, .procDone, .finish] :
      List (Lifecycle.Act Nat)).map .life) = some (s2, es2) ∧ s2.life.run = .ended :=
  ⟨firstRun.1, _, _, rfl, by decide, _, _, rfl, by decide⟩

/-! ## What does work -/

private theorem noLis_step {s s' : State N} {a : Lifecycle.Act N} {e : List (Ev N)} (hi : SInv s)
    (hl : s.life.listeners = []) (h : s.life.deltas = .idle ∨ s.life.deltas = .holding)
    (hs : step s (.life a) = some (s', e)) : s'.life.deltas = .idle ∨ s'.life.deltas = .holding := by
  have hsame : ∀ (f : State N → State N), same s a f = some (s', e) →
      ∃ t, Lifecycle.step s.life a = some (t, e) ∧ s' = f { s with life := t } := by
    intro f hh
    simp only [same, Option.map_eq_some_iff] at hh
    obtain ⟨⟨t, e'⟩, h1, h2⟩ := hh
    simp only [Prod.mk.injEq] at h2
    exact ⟨t, by rw [h1, h2.2], h2.1.symm⟩
  cases a with
  | regEnter k =>
    obtain ⟨t, h1, rfl⟩ := hsame id hs
    simp only [Lifecycle.step] at h1
    split at h1
    · rw [if_pos hi.stopped] at h1
      cases h1
      exact h
    · cases h1
  | regBlock k =>
    obtain ⟨t, h1, rfl⟩ := hsame id hs
    simp only [Lifecycle.step] at h1
    split at h1
    · rename_i e1 e2
      rcases hi.regs k _ e1 with e | ⟨q, e⟩ <;> cases e
    · cases h1
  | regPut k =>
    obtain ⟨t, h1, rfl⟩ := hsame id hs
    simp only [Lifecycle.step] at h1
    split at h1
    · rename_i e1
      rcases hi.regs k _ e1 with e | ⟨q, e⟩ <;> cases e
    · cases h1
  | regJoin k =>
    obtain ⟨t, h1, rfl⟩ := hsame id hs
    simp only [Lifecycle.step] at h1
    split at h1
    · rename_i e1
      rcases hi.regs k _ e1 with e | ⟨q, e⟩ <;> cases e
    · cases h1
  | distribute n b st =>
    obtain ⟨t, h1, rfl⟩ := hsame id hs
    have hsy : s.life.syncing = [] := by
      refine List.eq_nil_iff_forall_not_mem.2 fun l hm => ?_
      have := hi.sync l hm
      rw [hl] at this
      simp at this
    simp only [Lifecycle.step, hsy, hl, List.length_nil, List.range_zero, ite_self] at h1
    split at h1
    · cases h1
      exact Or.inr rfl
    · cases h1
  | deltaPut | deltaJoin =>
    obtain ⟨t, h1, rfl⟩ := hsame id hs
    rcases h with h | h <;> simp only [Lifecycle.step, h] at h1 <;> cases h1
  | enter =>
    obtain ⟨t, h1, rfl⟩ := hsame (fun t => { t with stop := false }) hs
    simp only [Lifecycle.step] at h1
    split at h1 <;> cases h1
    exact h
  | leave =>
    obtain ⟨t, h1, rfl⟩ := hsame (fun t => { t with stop := true }) hs
    simp only [Lifecycle.step] at h1
    split at h1 <;> cases h1
    exact h
  | procStart =>
    obtain ⟨t, h1, rfl⟩ := hsame (fun t =>
      { t with life := { t.life with listeners := t.life.listeners.map restart } }) hs
    simp only [Lifecycle.step] at h1
    split at h1 <;> cases h1
    exact h
  | procStop =>
    simp only [step] at hs
    split at hs <;> cases hs
    exact h
  | procDone =>
    obtain ⟨t, h1, rfl⟩ := hsame (fun t => { t with stale := true }) hs
    simp only [Lifecycle.step] at h1
    repeat' split at h1
    all_goals first
      | (cases h1; done)
      | (cases h1; exact h)
  | lis k b =>
    by_cases hb : b = .runResume
    · subst hb
      simp only [step, hi.stale, if_true] at hs
      repeat' split at hs
      all_goals first
        | (cases hs; done)
        | (cases hs; exact h)
    · have hs' : same s (.lis k b) id = some (s', e) := by
        cases b <;> first | exact hs | exact absurd rfl hb
      obtain ⟨t, h1, rfl⟩ := hsame id hs'
      simp only [Lifecycle.step] at h1
      repeat' split at h1
      all_goals first
        | (cases h1; done)
        | (cases h1; exact h)
  | _ =>
    obtain ⟨t, h1, rfl⟩ := hsame id hs
    simp only [Lifecycle.step] at h1
    repeat' split at h1
    all_goals first
      | (cases h1; done)
      | (cases h1; first | exact h | exact Or.inl rfl | exact Or.inr rfl)

private theorem noLis_exec (bs : List (Act N)) : ∀ {s s' : State N} {es : List (Ev N)}, SInv s →
    s.life.listeners = [] → s.life.deltas = .idle ∨ s.life.deltas = .holding → Act.life .cancelAgain ∉ bs →
    exec s bs = some (s', es) → s'.life.deltas = .idle ∨ s'.life.deltas = .holding := by
  induction bs with
  | nil => intro s s' es _ _ h _ hx; cases hx; exact h
  | cons a bs ih =>
    intro s s' es hi hl h hb hx
    obtain ⟨s1, e, es', h1, h2, rfl⟩ := exec_cons hx
    have hb' : Act.life .cancelAgain ∉ bs := fun e => hb (List.mem_cons_of_mem _ e)
    cases a with
    | again =>
      obtain ⟨k1, -, -, k2⟩ := sinv_again hi h1
      refine ih k1 ?_ ?_ hb' h2
      · rw [k2]; exact hl
      · rw [k2]; exact h
    | life b =>
      obtain ⟨k1, -, k2⟩ := sinv_step hi (fun e => hb (by simp [e])) h1
      refine ih k1 ?_ (noLis_step hi hl h h1) hb' h2
      rw [hl] at k2
      exact List.length_eq_zero_iff.1 k2

/-- **C90**: a shared informer without handlers can be run again: whenever a later call runs, its listeners'
processor is started or can be, and between deltas `handle_deltas` can take the next deltas, change the
indexer and return, and nobody is waiting in between. -/
theorem C90_no_listeners_partial (as bs : List (Act N)) (s s' : State N) (L es : List (Ev N))
    (h : HasRun as s L) (h0 : s.life.listeners = []) (hb : Act.life .cancelAgain ∉ bs)
    (hx : exec s bs = some (s', es)) :
    (s'.life.run = .ended → ∃ s2, exec s' [.again, .life .enter, .life .procStart] = some (s2, []) ∧
      s2.life.run = .running ∧ s2.life.proc = .running ∧ s2.life.store = s'.life.store) ∧
    (s'.life.run = .running → s'.life.proc = .ready ∨ s'.life.proc = .running) ∧
    (s'.life.deltas = .idle ∨ s'.life.deltas = .holding ∧ ∃ s2, step s' (.life .deltaEnd) = some (s2, [])) ∧
    (s'.life.run = .running → s'.life.proc = .running → s'.life.deltas = .idle →
      ∀ (n : N) (sync : Bool) (st : List N), ∃ s2,
        exec s' [.life .deltaBlock, .life (.distribute n sync st), .life .deltaEnd] = some (s2, [.send n []]) ∧
        s2.life.store = st ∧ s2.life.run = .running ∧ s2.life.proc = .running ∧ s2.life.deltas = .idle) := by
  have hi0 := sinv_ended h.2.1 h.1 h.2.2.2 h.2.2.1
  obtain ⟨hi, -, hlen⟩ := sinv_exec bs hb hi0 hx
  rw [h0] at hlen
  have hl : s'.life.listeners = [] := List.length_eq_zero_iff.1 hlen
  have hd0 : s.life.deltas = .idle := by
    have hpc := hi0.pc
    unfold pcOK at hpc
    rw [h.2.2.2] at hpc
    exact hpc.2
  have hd := noLis_exec bs hi0 h0 (Or.inl hd0) hb hx
  have hpc := hi.pc
  unfold pcOK at hpc
  have hsy : s'.life.syncing = [] := by
    refine List.eq_nil_iff_forall_not_mem.2 fun l hm => ?_
    have := hi.sync l hm
    rw [hl] at this
    simp at this
  refine ⟨?_, ?_, ?_, ?_⟩
  · intro hr
    rw [hr] at hpc
    refine ⟨_, by simp [exec, step, same, Lifecycle.step, hr, hpc.1, hi.sb]; rfl, ?_⟩
    exact ⟨rfl, rfl, rfl⟩
  · intro hr
    rw [hr] at hpc
    rcases hpc.2 with ⟨e, -⟩ | e
    · exact Or.inl e
    · exact Or.inr e
  · rcases hd with e | e
    · exact Or.inl e
    · refine Or.inr ⟨e, ?_⟩
      simp [step, same, Lifecycle.step, e]
  · intro hr hp hdi n sync st
    have hbl : s'.life.block = none := by
      rcases hi.blk with e | e
      · exact e
      · exact absurd hdi (hi.blkd.1 e)
    refine ⟨_, by simp [exec, step, same, Lifecycle.step, hr, hp, hdi, hbl, hsy, hl, Lifecycle.deltaNext]; rfl, ?_⟩
    simp [hr, hp]

/-- An informer without handlers runs, ends and runs again. -/
example : ∃ s L, HasRun (([.start, .enter, .procStart, .cancel, .reflectorEnds, .leave, .procStop, .procDone,
    .finish] : List (Lifecycle.Act Nat)).map .life) s L ∧ s.life.listeners = [] ∧ ∃ s' es, exec s (.again ::
    ([.enter, .procStart, .deltaBlock, .distribute 8 false [8], .deltaEnd] : List (Lifecycle.Act Nat)).map .life)
    = some (s', es) ∧ s'.life.run = .running ∧ s'.life.store = [8] :=
  ⟨_, _, ⟨rfl, by decide, by decide, by decide⟩, by decide, _, _, rfl, by decide, by decide⟩

/-! ### After calls that were cancelled before they got `_started_lock` -/

/-- Nothing that `add_event_handler` does depends on `run` having been called. -/
private theorem idle_step {s t : Lifecycle.State N} {a : Lifecycle.Act N} {e : List (Ev N)}
    (hr : s.run = .idle ∨ s.run = .entering ∨ s.run = .ended)
    (h1 : a ≠ .start) (h2 : a ≠ .enter) (h3 : a ≠ .cancel) (hf : a ≠ .finish) (hd : s.deltas = .idle)
    (hs : Lifecycle.step s a = some (t, e)) :
    Lifecycle.step { s with run := .idle } a = some ({ t with run := .idle }, e) := by
  have hput : ∀ {t' : Lifecycle.State N} {l : Nat} {n : N}, Lifecycle.putTo s l n = some t' →
      Lifecycle.putTo { s with run := .idle } l n = some { t' with run := .idle } := by
    intro t' l n ht
    obtain ⟨x, x', c, k1, k2, rfl⟩ := Lifecycle.putTo_spec ht
    simp only [Lifecycle.putTo, k1, k2]
  cases a with
  | start => exact absurd rfl h1
  | enter => exact absurd rfl h2
  | cancel => exact absurd rfl h3
  | finish => exact absurd rfl hf
  | deltaBlock | cancelAgain | reflectorEnds | leave =>
    rcases hr with e | e | e <;> simp [Lifecycle.step, e] at hs
  | distribute _ _ _ | deltaPut | deltaJoin | deltaEnd =>
    simp [Lifecycle.step, hd] at hs
  | regEnter k =>
    simp only [Lifecycle.step] at hs ⊢
    split at hs
    · split at hs
      · rename_i e1 e2 e3
        cases hs
        simp [e1, e2, e3, Lifecycle.State.setReg]
      · rename_i e1 e2 e3
        split at hs
        · rename_i e4
          cases hs
          simp [e1, e2, e3, e4, Lifecycle.State.setReg]
        · rename_i e4
          cases hs
          simp [e1, e2, e3, e4, Lifecycle.State.setReg, Lifecycle.State.addListener]
    · cases hs
  | regBlock k =>
    simp only [Lifecycle.step] at hs ⊢
    split at hs
    · rename_i e1 e2
      simp only [Option.some.injEq, Prod.mk.injEq] at hs
      obtain ⟨rfl, rfl⟩ := hs
      simp only [e1, e2]
      obtain ⟨L, sy, store, regs, sb, blk, run, dl, pr, st, sp⟩ := s
      cases store <;> rfl
    · cases hs
  | regPut k =>
    simp only [Lifecycle.step] at hs ⊢
    split at hs
    · rename_i e1
      split at hs
      · rename_i t' ht
        simp only [Option.some.injEq, Prod.mk.injEq] at hs
        obtain ⟨rfl, rfl⟩ := hs
        simp only [e1, hput ht]
        rfl
      · cases hs
    · cases hs
  | regJoin k =>
    simp only [Lifecycle.step] at hs ⊢
    split at hs
    · rename_i l todo e1
      split at hs
      · rename_i ht
        simp only [Option.some.injEq, Prod.mk.injEq] at hs
        obtain ⟨rfl, rfl⟩ := hs
        have ht' : Lifecycle.taken { s with run := .idle } l = true := ht
        simp only [e1, ht', if_true]
        cases todo <;> rfl
      · cases hs
    · cases hs
  | regCancel k =>
    simp only [Lifecycle.step] at hs ⊢
    split at hs
    all_goals first
      | (cases hs; done)
      | (cases hs; simp [*, Lifecycle.State.setReg]; done)
  | procStart =>
    simp only [Lifecycle.step] at hs ⊢
    split at hs <;> cases hs
    rename_i e1
    simp only [e1]
  | procStop =>
    simp only [Lifecycle.step] at hs ⊢
    split at hs <;> cases hs
    rename_i e1 e2
    simp only [e1, e2]
  | procDone =>
    simp only [Lifecycle.step] at hs ⊢
    split at hs
    · rename_i e1
      split at hs
      · rename_i e2
        cases hs
        simp only [e1, e2, if_true]
      · cases hs
    · cases hs
  | addHandler | check _ => cases hs; rfl
  | lis k b =>
    simp only [Lifecycle.step] at hs ⊢
    split at hs
    · cases hs
    · cases hs
    · rename_i p1 p2
      split at hs
      · rename_i hint
        split at hs
        · cases hs
        · rename_i x hx
          split at hs
          · cases hs
          · rename_i x' c hx'
            cases hs
            cases hp : s.proc with
            | none => exact absurd hp p1
            | ready => exact absurd hp p2
            | _ => simp [hint, hx, hx']
      · cases hs

/-- `_started` stays set. -/
private theorem started_stays {s s' : Lifecycle.State N} {a : Lifecycle.Act N} {e : List (Ev N)}
    (hs : Lifecycle.step s a = some (s', e)) (h : s'.started = false) : s.started = false := by
  have hput : ∀ {t t' : Lifecycle.State N} {l : Nat} {n : N}, Lifecycle.putTo t l n = some t' →
      t'.started = t.started := by
    intro t t' l n ht
    obtain ⟨x, x', c, h1, h2, rfl⟩ := Lifecycle.putTo_spec ht
    rfl
  cases a with
  | regBlock k =>
    simp only [Lifecycle.step] at hs
    split at hs
    · simp only [Option.some.injEq, Prod.mk.injEq] at hs
      obtain ⟨rfl, -⟩ := hs
      cases hst : s.store <;> rw [hst] at h <;> exact h
    · cases hs
  | regPut k =>
    simp only [Lifecycle.step] at hs
    split at hs
    · split at hs
      · rename_i t ht
        cases hs
        rw [← hput ht]
        exact h
      · cases hs
    · cases hs
  | regJoin k =>
    simp only [Lifecycle.step] at hs
    split at hs
    · rename_i l todo _
      split at hs
      · simp only [Option.some.injEq, Prod.mk.injEq] at hs
        obtain ⟨rfl, -⟩ := hs
        cases todo <;> exact h
      · cases hs
    · cases hs
  | distribute n b st =>
    simp only [Lifecycle.step] at hs
    split at hs
    · simp only [Option.some.injEq, Prod.mk.injEq] at hs
      obtain ⟨rfl, -⟩ := hs
      generalize (if b = true then s.syncing else List.range s.listeners.length) = ls at h
      cases ls <;> exact h
    · cases hs
  | deltaPut =>
    simp only [Lifecycle.step] at hs
    split at hs
    · split at hs
      · rename_i t ht
        cases hs
        rw [← hput ht]
        exact h
      · cases hs
    · cases hs
  | deltaJoin =>
    simp only [Lifecycle.step] at hs
    split at hs
    · rename_i n l ls _
      split at hs
      · simp only [Option.some.injEq, Prod.mk.injEq] at hs
        obtain ⟨rfl, -⟩ := hs
        cases ls <;> exact h
      · cases hs
    · cases hs
  | _ =>
    simp only [Lifecycle.step] at hs
    repeat' split at hs
    all_goals first
      | (cases hs; done)
      | (cases hs; exact h)
      | (cases hs; cases h)

private theorem lexec_snoc (as : List (Lifecycle.Act N)) : ∀ {s t u : Lifecycle.State N} {a : Lifecycle.Act N}
    {L e : List (Ev N)}, Lifecycle.exec s as = some (t, L) → Lifecycle.step t a = some (u, e) →
    Lifecycle.exec s (as ++ [a]) = some (u, L ++ e) := by
  induction as with
  | nil =>
    intro s t u a L e h1 h2
    cases h1
    simp [Lifecycle.exec, h2]
  | cons b as ih =>
    intro s t u a L e h1 h2
    obtain ⟨s1, e1, es', k1, k2, rfl⟩ := Lifecycle.exec_cons h1
    have := ih k2 h2
    simp [Lifecycle.exec, k1, this]

/-- Before `run` has got `_started_lock` for the first time. -/
private theorem unstarted {s : State N} (h : PInv s) (h0 : s.life.started = false) :
    (s.life.run = .idle ∨ s.life.run = .entering ∨ s.life.run = .ended) ∧ s.life.deltas = .idle ∧
    s.life.proc = .none := by
  have hpc := h.inv.pc
  unfold Lifecycle.pcOK at hpc
  cases hr : s.life.run with
  | idle => rw [hr] at hpc; exact ⟨Or.inl rfl, hpc.2.2.2, hpc.2.2.1⟩
  | entering => rw [hr] at hpc; exact ⟨Or.inr (Or.inl rfl), hpc.2.2.2, hpc.2.2.1⟩
  | ended =>
    rw [hr] at hpc
    rcases hpc.2 with ⟨-, -, e⟩ | ⟨e, -⟩
    · exact ⟨Or.inr (Or.inr rfl), hpc.1, e⟩
    · rw [h0] at e; cases e
  | running | closing | leaving | awaiting => rw [hr, h0] at hpc; cases hpc.1

/-- What happened so far happens in the same way without the calls of `run`. -/
private def Collapsed (s : State N) (L : List (Ev N)) : Prop :=
  ∃ cs : List (Lifecycle.Act N), Lifecycle.Spec.noCancel cs ∧ Lifecycle.Act.cancelAgain ∉ cs ∧
    Lifecycle.exec Lifecycle.init cs = some ({ s.life with run := .idle }, L)

private theorem collapse_step {s s' : State N} {a : Act N} {L e : List (Ev N)} (h : PInv s)
    (h0 : s'.life.started = false) (ha : a ≠ .life .cancelAgain) (hr : ∀ r, a ≠ .life (.regCancel r))
    (hc : s.life.started = false → Collapsed s L) (hs : step s a = some (s', e)) :
    PInv s' ∧ s.life.started = false ∧ Collapsed s' (L ++ e) := by
  cases a with
  | again =>
    obtain ⟨k1, rfl, k3, k4⟩ := pinv_again h hs
    refine ⟨k1, k3, ?_⟩
    obtain ⟨cs, c1, c2, c3⟩ := hc k3
    refine ⟨cs, c1, c2, ?_⟩
    rw [k4, List.append_nil]
    exact c3
  | life b =>
    have hl := pre_same h hs
    have hst := started_stays hl h0
    obtain ⟨u1, u2, u3⟩ := unstarted h hst
    have hpd : b ≠ .procDone := by
      rintro rfl
      simp [Lifecycle.step, u3] at hl
    have hp := pinv_step h (fun e => ha (by rw [e])) hpd hs
    refine ⟨hp, hst, ?_⟩
    obtain ⟨cs, c1, c2, c3⟩ := hc hst
    by_cases b1 : b = .start
    · subst b1
      refine ⟨cs, c1, c2, ?_⟩
      simp only [Lifecycle.step] at hl
      split at hl
      · simp only [Option.some.injEq, Prod.mk.injEq] at hl
        obtain ⟨hl, rfl⟩ := hl
        rw [← hl, List.append_nil]
        exact c3
      · cases hl
    · by_cases b2 : b = .cancel
      · subst b2
        refine ⟨cs, c1, c2, ?_⟩
        simp only [Lifecycle.step] at hl
        split at hl
        · simp only [Option.some.injEq, Prod.mk.injEq] at hl
          obtain ⟨hl, rfl⟩ := hl
          rw [← hl, List.append_nil]
          exact c3
        · rename_i e1
          rw [e1] at u1
          rcases u1 with e | e | e <;> cases e
        · cases hl
      · by_cases b3 : b = .enter
        · subst b3
          simp only [Lifecycle.step] at hl
          split at hl
          · simp only [Option.some.injEq, Prod.mk.injEq] at hl
            rw [← hl.1] at h0
            cases h0
          · cases hl
        · have hf : b ≠ .finish := by
            rintro rfl
            simp only [Lifecycle.step, u3] at hl
            split at hl
            · rename_i e; cases e
            · cases hl
          have := idle_step u1 b1 b3 b2 hf u2 hl
          refine ⟨cs ++ [b], ⟨?_, ?_⟩, ?_, lexec_snoc cs c3 this⟩
          · intro e
            rcases List.mem_append.1 e with e | e
            · exact c1.1 e
            · simp only [List.mem_singleton] at e
              exact b2 e.symm
          · intro r e
            rcases List.mem_append.1 e with e | e
            · exact c1.2 r e
            · simp only [List.mem_singleton] at e
              exact hr r (by rw [e])
          · intro e
            rcases List.mem_append.1 e with e | e
            · exact c2 e
            · simp only [List.mem_singleton] at e
              exact ha (by rw [e])

private theorem started_step {s s' : State N} {a : Act N} {e : List (Ev N)} (hs : step s a = some (s', e))
    (h : s'.life.started = false) : s.life.started = false := by
  cases a with
  | again =>
    simp only [step] at hs
    repeat' split at hs
    all_goals first
      | (cases hs; done)
      | (cases hs; exact h)
  | life a =>
    have hsame : ∀ (f : State N → State N), same s a f = some (s', e) →
        ∃ t, Lifecycle.step s.life a = some (t, e) ∧ s' = f { s with life := t } := by
      intro f hh
      simp only [same, Option.map_eq_some_iff] at hh
      obtain ⟨⟨t, e'⟩, h1, h2⟩ := hh
      simp only [Prod.mk.injEq] at h2
      exact ⟨t, by rw [h1, h2.2], h2.1.symm⟩
    cases a with
    | enter =>
      obtain ⟨t, h1, rfl⟩ := hsame (fun t => { t with stop := false }) hs
      exact started_stays h1 h
    | leave =>
      obtain ⟨t, h1, rfl⟩ := hsame (fun t => { t with stop := true }) hs
      exact started_stays h1 h
    | procStart =>
      obtain ⟨t, h1, rfl⟩ := hsame (fun t =>
        { t with life := { t.life with listeners := t.life.listeners.map restart } }) hs
      exact started_stays h1 h
    | procStop =>
      simp only [step] at hs
      split at hs <;> cases hs
      exact h
    | procDone =>
      obtain ⟨t, h1, rfl⟩ := hsame (fun t => { t with stale := true }) hs
      exact started_stays h1 h
    | lis k b =>
      by_cases hb : b = .runResume
      · subst hb
        simp only [step] at hs
        split at hs
        · repeat' split at hs
          all_goals first
            | (cases hs; done)
            | (cases hs; exact h)
        · obtain ⟨t, h1, rfl⟩ := hsame id hs
          exact started_stays h1 h
      · have hs' : same s (.lis k b) id = some (s', e) := by
          cases b <;> first | exact hs | exact absurd rfl hb
        obtain ⟨t, h1, rfl⟩ := hsame id hs'
        exact started_stays h1 h
    | _ =>
      obtain ⟨t, h1, rfl⟩ := hsame id hs
      exact started_stays h1 h

private theorem started_exec (as : List (Act N)) : ∀ {s s' : State N} {es : List (Ev N)},
    exec s as = some (s', es) → s'.life.started = false → s.life.started = false := by
  induction as with
  | nil => intro s s' es h; cases h; exact id
  | cons a as ih =>
    intro s s' es h h0
    obtain ⟨s1, e, es', h1, h2, rfl⟩ := exec_cons h
    exact started_step h1 (ih h2 h0)

private theorem collapse_exec (as : List (Act N)) : ∀ {s s' : State N} {L es : List (Ev N)}, PInv s →
    Collapsed s L → Act.life .cancelAgain ∉ as → (∀ r, Act.life (.regCancel r) ∉ as) →
    exec s as = some (s', es) → s'.life.started = false → PInv s' ∧ Collapsed s' (L ++ es) := by
  induction as with
  | nil =>
    intro s s' L es h hc _ _ hx _
    cases hx
    rw [List.append_nil]
    exact ⟨h, hc⟩
  | cons a as ih =>
    intro s s' L es h hc ha hr hx h0
    obtain ⟨s1, e, es', h1, h2, rfl⟩ := exec_cons hx
    obtain ⟨k1, -, k3⟩ := collapse_step (L := L) h (started_exec as h2 h0) (fun e => ha (by simp [e]))
      (fun r e => hr r (by simp [e])) (fun _ => hc) h1
    rw [← List.append_assoc]
    exact ih k1 k3 (fun e => ha (List.mem_cons_of_mem _ e)) (fun r e => hr r (List.mem_cons_of_mem _ e)) h2 h0

private def Busy (s : Lifecycle.State N) : Prop := s.run = .entering ∨ s.run = .running

private theorem busy_step {s s' : Lifecycle.State N} {a : Lifecycle.Act N} {e : List (Ev N)} (h : Busy s)
    (hc : a ≠ .cancel) (hs : Lifecycle.step s a = some (s', e)) : Busy s' := by
  have hput : ∀ {t t' : Lifecycle.State N} {l : Nat} {n : N}, Lifecycle.putTo t l n = some t' →
      t'.run = t.run := by
    intro t t' l n ht
    obtain ⟨x, x', c, h1, h2, rfl⟩ := Lifecycle.putTo_spec ht
    rfl
  cases a with
  | cancel => exact absurd rfl hc
  | regBlock k =>
    simp only [Lifecycle.step] at hs
    split at hs
    · simp only [Option.some.injEq, Prod.mk.injEq] at hs
      obtain ⟨rfl, -⟩ := hs
      obtain ⟨L, sy, store, regs, sb, blk, run, dl, pr, st, sp⟩ := s
      cases store <;> exact h
    · cases hs
  | regPut k =>
    simp only [Lifecycle.step] at hs
    split at hs
    · split at hs
      · rename_i t ht
        cases hs
        have := hput ht
        unfold Busy at h ⊢
        rw [← this] at h
        exact h
      · cases hs
    · cases hs
  | regJoin k =>
    simp only [Lifecycle.step] at hs
    split at hs
    · rename_i l todo _
      split at hs
      · simp only [Option.some.injEq, Prod.mk.injEq] at hs
        obtain ⟨rfl, -⟩ := hs
        cases todo <;> exact h
      · cases hs
    · cases hs
  | distribute n b st =>
    simp only [Lifecycle.step] at hs
    split at hs
    · simp only [Option.some.injEq, Prod.mk.injEq] at hs
      obtain ⟨rfl, -⟩ := hs
      generalize (if b = true then s.syncing else List.range s.listeners.length) = ls
      cases ls <;> exact h
    · cases hs
  | deltaPut =>
    simp only [Lifecycle.step] at hs
    split at hs
    · split at hs
      · rename_i t ht
        cases hs
        have := hput ht
        unfold Busy at h ⊢
        rw [← this] at h
        exact h
      · cases hs
    · cases hs
  | deltaJoin =>
    simp only [Lifecycle.step] at hs
    split at hs
    · rename_i n l ls _
      split at hs
      · simp only [Option.some.injEq, Prod.mk.injEq] at hs
        obtain ⟨rfl, -⟩ := hs
        cases ls <;> exact h
      · cases hs
    · cases hs
  | start | cancelAgain | reflectorEnds | leave | finish =>
    rcases h with e | e <;> simp [Lifecycle.step, e] at hs
  | enter =>
    simp only [Lifecycle.step] at hs
    split at hs <;> cases hs
    exact Or.inr rfl
  | _ =>
    simp only [Lifecycle.step] at hs
    repeat' split at hs
    all_goals first
      | (cases hs; done)
      | (cases hs; exact h)

private theorem plain_step {s s' : State N} {a : Act N} {e : List (Ev N)} (h : PInv s) (hb : Busy s.life)
    (hc : a ≠ .life .cancel) (hca : a ≠ .life .cancelAgain) (hs : step s a = some (s', e)) :
    PInv s' ∧ Busy s'.life ∧ ∃ b, a = .life b ∧ Lifecycle.step s.life b = some (s'.life, e) := by
  cases a with
  | again =>
    simp only [step] at hs
    split at hs
    · rename_i e1 _
      rcases hb with e | e <;> rw [e1] at e <;> cases e
    · rename_i e1 _
      rcases hb with e | e <;> rw [e1] at e <;> cases e
    · cases hs
  | life b =>
    have hl := pre_same h hs
    have hpc := h.inv.pc
    unfold Lifecycle.pcOK at hpc
    have hpd : b ≠ .procDone := by
      rintro rfl
      simp only [Lifecycle.step] at hl
      split at hl
      · rename_i e1
        rcases hb with e | e
        · rw [e] at hpc
          rw [e1] at hpc
          cases hpc.2.2.1
        · rw [e] at hpc
          rw [e1] at hpc
          simp at hpc
      · cases hl
    exact ⟨pinv_step h (fun e => hca (by rw [e])) hpd hs, busy_step hb (fun e => hc (by rw [e])) hl, b, rfl, hl⟩

private theorem plain_exec (bs : List (Act N)) : ∀ {s s' : State N} {es : List (Ev N)}, PInv s → Busy s.life →
    Act.life .cancel ∉ bs → Act.life .cancelAgain ∉ bs → exec s bs = some (s', es) →
    PInv s' ∧ Busy s'.life ∧ ∃ ds : List (Lifecycle.Act N), bs = ds.map .life ∧
      Lifecycle.exec s.life ds = some (s'.life, es) := by
  induction bs with
  | nil => intro s s' es h hb _ _ hx; cases hx; exact ⟨h, hb, [], rfl, rfl⟩
  | cons a bs ih =>
    intro s s' es h hb hc hca hx
    obtain ⟨s1, e, es', h1, h2, rfl⟩ := exec_cons hx
    obtain ⟨k1, k2, b, rfl, k4⟩ := plain_step h hb (fun e => hc (by simp [e])) (fun e => hca (by simp [e])) h1
    obtain ⟨m1, m2, ds, rfl, m4⟩ := ih k1 k2 (fun e => hc (List.mem_cons_of_mem _ e))
      (fun e => hca (List.mem_cons_of_mem _ e)) h2
    exact ⟨m1, m2, b :: ds, rfl, by simp [Lifecycle.exec, k4, m4]⟩

private theorem lexec_append (as : List (Lifecycle.Act N)) : ∀ {bs : List (Lifecycle.Act N)}
    {s t u : Lifecycle.State N} {L e : List (Ev N)}, Lifecycle.exec s as = some (t, L) →
    Lifecycle.exec t bs = some (u, e) → Lifecycle.exec s (as ++ bs) = some (u, L ++ e) := by
  induction as with
  | nil =>
    intro bs s t u L e h1 h2
    cases h1
    exact h2
  | cons b as ih =>
    intro bs s t u L e h1 h2
    obtain ⟨s1, e1, es', k1, k2, rfl⟩ := Lifecycle.exec_cons h1
    have := ih k2 h2
    simp [Lifecycle.exec, k1, this]

/-- The call after calls that were cancelled too early is a first call. -/
private theorem asFirst {as bs : List (Act N)} {s s' : State N} {L es : List (Ev N)}
    (h : exec init as = some (s, L)) (ha : Act.life .cancelAgain ∉ as)
    (har : ∀ r, Act.life (.regCancel r) ∉ as) (h0 : s.life.started = false)
    (hb : Spec.noCancel bs) (hba : Act.life .cancelAgain ∉ bs)
    (hx : exec s (.again :: bs) = some (s', es)) :
    PInv s' ∧ Busy s'.life ∧ ∃ cs : List (Lifecycle.Act N), Lifecycle.Spec.noCancel cs ∧
      Lifecycle.Act.cancelAgain ∉ cs ∧ Lifecycle.exec Lifecycle.init cs = some (s'.life, L ++ es) := by
  obtain ⟨hp, hcol⟩ := collapse_exec (L := []) as pinv_init
    ⟨[], ⟨by simp, by simp⟩, by simp, rfl⟩ ha har h h0
  obtain ⟨s1, e, es', k1, k2, rfl⟩ := exec_cons hx
  obtain ⟨g1, rfl, -, g4⟩ := pinv_again hp k1
  obtain ⟨cs, c1, c2, c3⟩ := hcol
  have hst : Lifecycle.exec Lifecycle.init (cs ++ [.start]) = some (s1.life, L) := by
    have := lexec_snoc cs (a := .start) (u := s1.life) (e := []) c3 (by rw [g4]; rfl)
    simpa using this
  obtain ⟨m1, m2, ds, rfl, m4⟩ := plain_exec bs g1 (Or.inl (by rw [g4])) hb.1 hba k2
  refine ⟨m1, m2, cs ++ [.start] ++ ds, ⟨?_, ?_⟩, ?_, lexec_append _ hst m4⟩
  · intro e
    simp only [List.mem_append, List.mem_singleton] at e
    rcases e with (e | e) | e
    · exact c1.1 e
    · cases e
    · exact hb.1 (List.mem_map_of_mem e)
  · intro r e
    simp only [List.mem_append, List.mem_singleton] at e
    rcases e with (e | e) | e
    · exact c1.2 r e
    · cases e
    · exact hb.2 r (List.mem_map_of_mem e)
  · intro e
    simp only [List.mem_append, List.mem_singleton] at e
    rcases e with (e | e) | e
    · exact c2 e
    · cases e
    · exact hba (List.mem_map_of_mem e)

/-- **C90**: if the calls before were cancelled before they got `_started_lock`, a later call does what C81 says
about the first: the handlers registered before, and those registered later, are called with what they are to
be told, in order and without gap; nothing gets stuck, and when the tasks can do no more, `run` runs and each
handler has been called with all of it. -/
theorem C90_unstarted_partial (as bs : List (Act N)) (s s' : State N) (L es : List (Ev N))
    (h : exec init as = some (s, L)) (ha : Act.life .cancelAgain ∉ as)
    (har : ∀ r, Act.life (.regCancel r) ∉ as) (h0 : s.life.started = false)
    (hb : Spec.noCancel bs) (hba : Act.life .cancelAgain ∉ bs)
    (hx : exec s (.again :: bs) = some (s', es)) :
    (∀ l, calls l (L ++ es) <+: told l (L ++ es)) ∧
    ∃ bound, ∀ (cs : List (Act N)) (s2 : State N) (es2 : List (Ev N)), (∀ c ∈ cs, own c = true) →
      exec s' cs = some (s2, es2) →
      cs.length ≤ bound ∧
      ((∀ c, own c = true → step s2 c = none) →
        s2.life.run = .running ∧ s2.life.deltas = .idle ∧
        (∀ r, r < s2.life.regs.length →
          ∃ l, s2.life.regs[r]? = some (.ended (.registered l)) ∧ l < s2.life.listeners.length) ∧
        ∀ l, calls l (L ++ es ++ es2) = told l (L ++ es ++ es2)) := by
  obtain ⟨hp, hbusy, ds, d1, d2, d3⟩ := asFirst h ha har h0 hb hba hx
  refine ⟨fun l => Lifecycle.C81_told ds s'.life _ l d2 d1 d3, ?_⟩
  obtain ⟨bound, hbound⟩ := Lifecycle.C81_delivered_partial ds s'.life _ d2 d1 d3
  refine ⟨bound, fun cs s2 es2 ho hc => ?_⟩
  obtain ⟨m1, m2, fs, rfl, m4⟩ := plain_exec cs hp hbusy
    (fun e => by have := ho _ e; simp [own, Lifecycle.Spec.own] at this) (own_noAgain ho) hc
  obtain ⟨g1, g2⟩ := hbound fs s2.life es2 (fun f hf => ho (.life f) (List.mem_map_of_mem hf)) m4
  refine ⟨by simpa using g1, fun hq => ?_⟩
  have hq' : ∀ b, Lifecycle.Spec.own b = true → Lifecycle.step s2.life b = none := by
    intro b hb
    cases hbs : Lifecycle.step s2.life b with
    | none => rfl
    | some r =>
      obtain ⟨t, e⟩ := r
      obtain ⟨u, hu, -⟩ := pre_can m1 hbs
      rw [hq (.life b) hb] at hu
      cases hu
  obtain ⟨f1, f2, f3⟩ := g2 hq'
  have hrun : s2.life.run = .running := by
    rcases m2 with e | e
    · exfalso
      have hpc := m1.inv.pc
      unfold Lifecycle.pcOK at hpc
      rw [e] at hpc
      have hsb := m1.inv.free (Or.inl hpc.1)
      have := hq' .enter rfl
      simp [Lifecycle.step, e, hsb] at this
    · exact e
  exact ⟨hrun, f2, f1, f3 hrun⟩

/-- A call that is cancelled at once, and another; the handler is called. -/
example : ∃ s L, exec init (([.addHandler, .regEnter 0, .start, .cancel] : List (Lifecycle.Act Nat)).map .life)
    = some (s, L) ∧ s.life.started = false ∧ s.life.run = .ended ∧ ∃ s' es, exec s (.again ::
    ([.enter, .procStart, .deltaBlock, .distribute 7 false [7], .deltaPut, .lis 0 .getTask, .deltaJoin, .deltaEnd,
      .lis 0 .popResume, .lis 0 .putTask, .lis 0 .popResume, .lis 0 .runGet, .lis 0 .runResume] :
      List (Lifecycle.Act Nat)).map .life) = some (s', es) ∧ calls 0 (L ++ es) = [7] :=
  ⟨_, _, rfl, by decide, by decide, _, _, rfl, by decide⟩

end Aiok8s.Rerun
