import Verif.Spec.Spacing
import Verif.Proof.Controller
/-!
# Every delivery has its own reason
-/
set_option linter.unusedSimpArgs false
namespace Aiok8s.DelayQueue
open Aiok8s Aiok8s.DelayHeap
variable {α : Type} [DecidableEq α]

/-- Entries for `x` due by `T`. -/
def cntE (x : α) (T : ℚ) (l : List (α × ℚ)) : Nat := l.countP fun p => p.1 = x ∧ p.2 ≤ T

/-- The entry in the hands of the loop. -/
def hand : Pc α → List (α × ℚ)
  | .woke (some e) => [e]
  | _ => []

/-- The entry of `x` in the heap. -/
def heapE (h : DelayHeap.Heap ℚ α) (x : α) : List (α × ℚ) :=
  match dl h x with
  | some r => [(x, r)]
  | none => []

/-- How often `x` is marked or held, due by `T`. -/
def load (s : State α) (x : α) (T : ℚ) : Nat :=
  (if x ∈ s.core.dirty then 1 else 0) + cntE x T s.puts + cntE x T s.chan + cntE x T (hand s.pc) +
    cntE x T (heapE s.heap x)

/-- What a call asks for. -/
def askQ (s : State α) : Ev α → List (α × ℚ)
  | .base (.add x) => [(x, s.clock)]
  | .addAfter x d => [(x, s.clock + d)]
  | _ => []

theorem cntE_append (x : α) (T : ℚ) (l l' : List (α × ℚ)) :
    cntE x T (l ++ l') = cntE x T l + cntE x T l' := List.countP_append

theorem cntE_cons (x : α) (T : ℚ) (e : α × ℚ) (l : List (α × ℚ)) :
    cntE x T (e :: l) = cntE x T l + cntE x T [e] := by
  simp [cntE, List.countP_cons]

theorem dirty_add (c : WorkQueue.State α) (x y : α) :
    (if x ∈ (WorkQueue.add c y).dirty then 1 else 0) ≤
      (if x ∈ c.dirty then 1 else 0) + if y = x then 1 else 0 := by
  by_cases hx : x ∈ c.dirty
  · simp only [hx, if_true]; split <;> omega
  · by_cases hy : y = x
    · simp only [hy, if_true]; split <;> omega
    · have : x ∉ (WorkQueue.add c y).dirty := by
        simp only [WorkQueue.add]
        split
        · exact hx
        · split
          · exact hx
          · split <;> simp [PySet.mem_add, hx, Ne.symm hy]
      simp [this]

theorem cntE_one_of_le {x y : α} {T r : ℚ} (h : r ≤ T) :
    cntE x T [(y, r)] = if y = x then 1 else 0 := by
  simp [cntE, h]

theorem load_file {s : State α} (hb : HInv s.heap) (e : α × ℚ) (x : α) {T : ℚ} (hT : s.clock ≤ T) :
    load (file s e).1 x T ≤ load s x T + cntE x T [e] := by
  obtain ⟨y, r⟩ := e
  simp only [file]
  split
  · simp only [load]
    have : cntE x T (heapE (DelayHeap.insert s.heap y r) x) ≤ cntE x T (heapE s.heap x) + cntE x T [(y, r)] := by
      simp only [heapE, (dl_insert hb y x r).2]
      by_cases hy : x = y
      · subst hy
        simp only [if_true]
        cases hd : dl s.heap x with
        | none => simp [cntE]
        | some q =>
          simp only
          rcases min_choice q r with hm | hm <;> rw [hm] <;> omega
      · simp [hy]
    omega
  · rename_i hlt
    have h1 := dirty_add s.core x y
    have h2 := cntE_one_of_le (x := x) (y := y) ((not_lt.1 hlt).trans hT)
    simp only [load]
    omega

theorem load_setPc (s : State α) (p : Pc α) (x : α) (T : ℚ) :
    load { s with pc := p } x T + cntE x T (hand s.pc) = load s x T + cntE x T (hand p) := by
  simp only [load]; omega

theorem heapE_congr {h h' : DelayHeap.Heap ℚ α} {x : α} (e : dl h x = dl h' x) : heapE h x = heapE h' x := by
  simp only [heapE, e]

theorem load_loop {s : State α} (hb : Base s) (x : α) {T : ℚ} (hT : s.clock ≤ T) :
    load (loopStep s).1 x T ≤ load s x T := by
  obtain ⟨hh, hn, hsd, hal⟩ := hb
  cases hpc : s.pc with
  | top =>
    have e : loopStep s = ({ s with pc := .popping s.clock }, []) := by
      simp [loopStep, hpc, hsd]
    rw [e]
    simp [load, hand, hpc]
  | exited => simp [loopStep, hpc]
  | sleeping t => simp [loopStep, hpc]
  | popping n =>
    have hn := hn n hpc
    obtain ⟨p1, p2, p3, p4, p5, p6⟩ := peek_spec hh
    by_cases hlen : s.heap.len = 0
    · simp only [loopStep, hpc, hlen, ne_eq, not_true_eq_false, if_false]
      simp [load, hand, hpc]
    · cases hp : (DelayHeap.peek s.heap).2 with
      | none => exact absurd (p6 hp) hlen
      | some p =>
        have hpk : DelayHeap.peek s.heap = ((DelayHeap.peek s.heap).1, some p) := by rw [← hp]
        by_cases hlt : p > n
        · have e : loopStep s = ({ s with
              heap := (DelayHeap.peek s.heap).1
              pc := .sleeping (some (s.clock + (p - n))) }, []) := by
            simp only [loopStep, hpc, hlen, ne_eq, not_false_eq_true, if_true]
            rw [hpk]; simp [hlt]
          rw [e]
          simp only [load, hand, hpc, heapE_congr (p2 x)]
          exact le_rfl
        · obtain ⟨y, q1, q2, q3, q4, q6, q5⟩ := pop_spec hh hp
          have hpp : DelayHeap.pop (DelayHeap.peek s.heap).1
              = ((DelayHeap.pop (DelayHeap.peek s.heap).1).1, some y) := by rw [← q1]
          have e : loopStep s = ({ s with
              heap := (DelayHeap.pop (DelayHeap.peek s.heap).1).1
              core := WorkQueue.add s.core y }, [.loopAdd y s.clock]) := by
            simp only [loopStep, hpc, hlen, ne_eq, not_false_eq_true, if_true]
            rw [hpk]; simp only [hlt, if_false]
            rw [hpp]
          rw [e]
          have h1 := dirty_add s.core x y
          have h2 : cntE x T (heapE (DelayHeap.pop (DelayHeap.peek s.heap).1).1 x) + (if y = x then 1 else 0) ≤
              cntE x T (heapE s.heap x) := by
            by_cases hy : y = x
            · subst hy
              have hpT : p ≤ T := ((not_lt.1 hlt).trans hn).trans hT
              simp [heapE, q5, q2, cntE, hpT]
            · have : dl (DelayHeap.pop (DelayHeap.peek s.heap).1).1 x = dl s.heap x := by
                rw [q5]; simp [Ne.symm hy]
              rw [heapE_congr this]; simp [hy]
          simp only [load]
          omega
  | woke e =>
    simp only [loopStep, hpc]
    split
    · have h1 := load_setPc s .exited x T
      have h0 : cntE x T (hand (.exited : Pc α)) = 0 := rfl
      rw [h0] at h1
      exact Nat.le_of_add_right_le (Nat.le_of_eq h1)
    · cases e with
      | none =>
        simp [load, hand, hpc]
      | some e =>
        have h1 := load_file hh e x hT
        have h2 := load_setPc (file s e).1 .draining x T
        have h3 : (file s e).1.pc = s.pc := by simp only [file]; split <;> rfl
        have h0 : cntE x T (hand (.draining : Pc α)) = 0 := rfl
        have h4 : cntE x T (hand (.woke (some e))) = cntE x T [e] := rfl
        rw [h3, hpc, h0, h4] at h2
        have h1 : load (file s e).1 x T ≤ load s x T + cntE x T [e] := h1
        rw [Nat.add_zero] at h2
        exact Nat.le_of_add_le_add_right (h2.le.trans h1)
  | draining =>
    cases hc : s.chan with
    | nil => simp [loopStep, load, hand, hpc, hc]
    | cons e rest =>
      have h1 := load_file (s := { s with chan := rest }) hh e x hT
      have h2 : load { s with chan := rest } x T + cntE x T [e] = load s x T := by
        simp only [load, hc, cntE_cons x T e rest]; omega
      have h3 : load (file { s with chan := rest } e).1 x T ≤ load s x T := by omega
      have h4 : loopStep s = file { s with chan := rest } e := by simp only [loopStep, hpc, hc]
      rw [h4]
      exact h3

theorem cntE_eraseIdx (x : α) (T : ℚ) (l : List (α × ℚ)) (i : Nat) : cntE x T (l.eraseIdx i) ≤ cntE x T l :=
  (List.eraseIdx_sublist l i).countP_le

theorem cntE_eraseIdx_get (x : α) (T : ℚ) (l : List (α × ℚ)) (i : Nat) (e : α × ℚ) (h : l[i]? = some e) :
    cntE x T (l.eraseIdx i) + cntE x T [e] = cntE x T l := by
  induction l generalizing i with
  | nil => simp at h
  | cons f l ih =>
    cases i with
    | zero =>
      simp only [List.getElem?_cons_zero, Option.some.injEq] at h
      subst h
      rw [List.eraseIdx_cons_zero, cntE_cons x T f l]
    | succ i =>
      simp only [List.getElem?_cons_succ] at h
      rw [List.eraseIdx_cons_succ, cntE_cons x T f (l.eraseIdx i), cntE_cons x T f l]
      have := ih i h
      omega

theorem clock_file (s : State α) (e : α × ℚ) : (file s e).1.clock = s.clock := by
  simp only [file]; split <;> rfl

theorem clock_le (s : State α) (e : Ev α) : s.clock ≤ (step s e).1.clock := by
  cases e with
  | tick d =>
    simp only [step]
    split
    · simp only; linarith
    · exact le_rfl
  | base o => cases o <;> exact le_rfl
  | addAfter x d =>
    simp only [step, addAfter]
    split
    · exact le_rfl
    · split <;> exact le_rfl
  | putDone i =>
    simp only [step]
    split
    · split <;> exact le_rfl
    · exact le_rfl
  | putCancel i => simp only [step]; split <;> exact le_rfl
  | shutDown => exact le_rfl
  | wake w =>
    simp only [step, wakeStep]
    split
    · split
      · split <;> exact le_rfl
      · exact le_rfl
      · split
        · split <;> exact le_rfl
        · exact le_rfl
      · split <;> exact le_rfl
    · exact le_rfl
  | loop =>
    simp only [step, loopStep]
    split
    · split <;> exact le_rfl
    · split
      · split
        · exact le_rfl
        · split
          · exact le_rfl
          · split <;> exact le_rfl
      · exact le_rfl
    · exact le_rfl
    · split
      · exact le_rfl
      · split
        · exact le_rfl
        · simp only [clock_file]; exact le_rfl
    · split
      · exact le_rfl
      · simp only [clock_file]; exact le_rfl
    · exact le_rfl

/-- Every move but `get`: nothing is held or marked that was not before or is asked for now. -/
theorem load_step {s : State α} (hb : Base s) (e : Ev α) (he : e ≠ .base .get) (x : α) {T : ℚ}
    (hT : (step s e).1.clock ≤ T) : load (step s e).1 x T ≤ load s x T + cntE x T (askQ s e) := by
  have hT' := (clock_le s e).trans hT
  cases e with
  | tick d => simp only [step]; split <;> simp [load, askQ]
  | base o =>
    cases o with
    | add y =>
      have h1 := dirty_add s.core x y
      have h2 := cntE_one_of_le (x := x) (y := y) hT'
      have h3 : askQ s (.base (.add y)) = [(y, s.clock)] := rfl
      have h4 : (step s (.base (.add y))).1 = { s with core := WorkQueue.add s.core y } := rfl
      rw [h3, h2, h4]
      simp only [load]
      omega
    | get => exact absurd rfl he
    | done y =>
      have : (WorkQueue.done s.core y).1.dirty = s.core.dirty := by
        simp only [WorkQueue.done]
        split
        · split <;> rfl
        · rfl
      simp only [step, WorkQueue.step, load, this]
      omega
    | len => exact Nat.le_add_right _ _
    | isShuttingDown => exact Nat.le_add_right _ _
    | shutDown => exact Nat.le_add_right _ _
  | addAfter y d =>
    simp only [step, addAfter, hb.sd, Bool.false_eq_true, if_false, askQ]
    split
    · rename_i hd
      have h1 := dirty_add s.core x y
      have h2 := cntE_one_of_le (x := x) (y := y) (show s.clock + d ≤ T by linarith)
      simp only [load]
      omega
    · simp only [load, cntE_append]
      omega
  | putDone i =>
    simp only [step]
    cases hg : s.puts[i]? with
    | none => simp
    | some e =>
      simp only
      split
      · have := cntE_eraseIdx_get x T s.puts i e hg
        simp only [load, cntE_append]
        omega
      · simp
  | putCancel i =>
    simp only [step]
    split
    · have := cntE_eraseIdx x T s.puts i
      simp only [load]
      omega
    · simp
  | shutDown => exact Nat.le_add_right _ _
  | wake w =>
    have h0 : cntE x T ([] : List (α × ℚ)) = 0 := rfl
    have same : ∀ p : Pc α, hand p = hand s.pc → load { s with pc := p } x T ≤ load s x T := by
      intro p hp
      simp only [load, hp]
      exact le_rfl
    refine Nat.le_trans ?_ (Nat.le_add_right _ _)
    simp only [step, wakeStep]
    cases hpc : s.pc with
    | sleeping timer =>
      have hs : ∀ p : Pc α, hand p = [] → load { s with pc := p } x T ≤ load s x T :=
        fun p hp => same p (by rw [hp, hpc]; rfl)
      cases w with
      | stop =>
        simp only
        split
        · exact hs _ rfl
        · exact le_rfl
      | heartbeat => exact hs _ rfl
      | timer =>
        cases timer with
        | none => exact le_rfl
        | some f =>
          simp only
          split
          · exact hs _ rfl
          · exact le_rfl
      | item =>
        cases hc : s.chan with
        | nil => exact le_rfl
        | cons e rest =>
          simp only [load, hc, hand, hpc, cntE_cons x T e rest]
          omega
    | _ => exact le_rfl
  | loop => exact Nat.le_trans (load_loop hb x hT') (Nat.le_add_right _ _)

/-- `get` takes a mark away. -/
theorem load_get {s : State α} (hi : WorkQueue.Inv s.core) {y : α} (h : (WorkQueue.get s.core).2 = .item y)
    (x : α) (T : ℚ) : load (step s (.base .get)).1 x T + (if y = x then 1 else 0) = load s x T := by
  have hy := (WorkQueue.get_item h).1
  have hd : y ∈ s.core.dirty := by
    exact hi.q_dirty y hy
  have hdirty : (WorkQueue.get s.core).1.dirty = PySet.remove s.core.dirty y := by
    revert h
    simp only [WorkQueue.get]
    split
    · split <;> simp
    · intro h; cases h; rfl
  simp only [step, WorkQueue.step, load, hdirty, PySet.mem_remove]
  by_cases hx : y = x
  · subst hx; simp [hd]; omega
  · have hx' := Ne.symm hx
    simp [hx, hx']

end Aiok8s.DelayQueue

namespace Aiok8s.Controller
open Aiok8s Aiok8s.RateLimiters Aiok8s.Controller.Spec
open Aiok8s.DelayQueue (load cntE askQ)
variable {σ α ε β : Type} [DecidableEq α]

theorem takes_append (x : α) (l l' : List (Log α ε)) : takes x (l ++ l') = takes x l + takes x l' :=
  List.countP_append

theorem takes_seen (I : Iface σ α ε) (s : State σ α) (e : RateLimitingQueue.Ev α ε) (x : α) :
    takes x (s.seen I e) = 0 := by
  unfold State.seen takes
  rw [List.countP_map, List.countP_eq_zero]
  intro a _
  simp

theorem load_done (q : DelayQueue.State α) (y x : α) (T : ℚ) :
    load (DelayQueue.step q (.base (.done y))).1 x T = load q x T := by
  have : (WorkQueue.done q.core y).1.dirty = q.core.dirty := by
    simp only [WorkQueue.done]
    split
    · split <;> rfl
    · rfl
  simp only [DelayQueue.step, WorkQueue.step, load, this]

theorem finally_load (I : Iface σ α ε) (py38 : Bool) (s : State σ α) (w : Nat) (y : α) (e : End) (x : α)
    (T : ℚ) :
    load (finally_ I py38 s w y e).1.rq.q x T = load s.rq.q x T ∧
    takes x (finally_ I py38 s w y e).2 = 0 ∧
    (finally_ I py38 s w y e).1.rq.q.clock = s.rq.q.clock ∧
    (finally_ I py38 s w y e).1.rq.lim = s.rq.lim :=
  ⟨load_done s.rq.q y x T, by simp [finally_, takes], rfl, rfl⟩

theorem addAfter_load (I : Iface σ α ε) {s : State σ α} (hb : DelayQueue.Base s.rq.q) (y : α) (d : ℚ) (x : α)
    {T : ℚ} (hT : s.rq.q.clock ≤ T) :
    load (DelayQueue.step s.rq.q (.addAfter y d)).1 x T ≤ load s.rq.q x T + dueBy x T [(y, s.rq.q.clock + d)] ∧
    (DelayQueue.step s.rq.q (.addAfter y d)).1.clock = s.rq.q.clock := by
  have hc : (DelayQueue.step s.rq.q (.addAfter y d)).1.clock = s.rq.q.clock := by
    simp only [DelayQueue.step, DelayQueue.addAfter]
    split
    · rfl
    · split <;> rfl
  exact ⟨DelayQueue.load_step hb (.addAfter y d) (by simp) x (by rw [hc]; exact hT), hc⟩

/-- After the reconciler's end: the asking is done now, in `afterReconcile`. -/
theorem after_load (I : Iface σ α ε) (py38 : Bool) {s : State σ α} (hb : DelayQueue.Base s.rq.q) (w : Nat)
    (y : α) (hy : s.workers w = .reconciling y) (o : Outcome) (env : ε) (x : α) {T : ℚ}
    (hT : s.rq.q.clock ≤ T) :
    load (afterReconcile I py38 s w y o env).1.rq.q x T ≤ load s.rq.q x T +
      dueBy x T (othersAt s (.finish w o env : Ev α ε) ++ retriesAt I s (.finish w o env)) ∧
    takes x (afterReconcile I py38 s w y o env).2 = 0 ∧
    (afterReconcile I py38 s w y o env).1.rq.q.clock = s.rq.q.clock := by
  have fin : ∀ (s' : State σ α) (e : End) (l : List (α × ℚ)), load s'.rq.q x T ≤ load s.rq.q x T →
      s'.rq.q.clock = s.rq.q.clock →
      load (finally_ I py38 s' w y e).1.rq.q x T ≤ load s.rq.q x T + dueBy x T l ∧
      takes x (finally_ I py38 s' w y e).2 = 0 ∧
      (finally_ I py38 s' w y e).1.rq.q.clock = s.rq.q.clock := by
    intro s' e l h1 h2
    obtain ⟨a, b, c, _⟩ := finally_load I py38 s' w y e x T
    exact ⟨by rw [a]; omega, b, c.trans h2⟩
  have rl : ∀ (ret : Bool) (r : State σ α × List (Log α ε)), retry o = true →
      r = (match (RateLimitingQueue.step I s.rq (.addRateLimited y env)).2.1 with
        | .raised _ => finally_ I py38 (s.call I (.addRateLimited y env)) w y .exc
        | _ => ((s.call I (.addRateLimited y env)).setPc w (.requeuing y ret),
            s.seen I (.addRateLimited y env))) →
      load r.1.rq.q x T ≤ load s.rq.q x T +
        dueBy x T (othersAt s (.finish w o env : Ev α ε) ++ retriesAt I s (.finish w o env)) ∧
      takes x r.2 = 0 ∧ r.1.rq.q.clock = s.rq.q.clock := by
    intro ret r ho hr
    rcases rateLimited_eq I s.rq y env with ⟨l, d, hw, he⟩ | ⟨l, k, hw, hk, he⟩
    · have h1 := addAfter_load I hb y d x hT
      have h2 : retriesAt I s (.finish w o env : Ev α ε) = [(y, s.rq.q.clock + d)] := by
        simp [retriesAt, hy, ho, hw]
      have hr' : r = ((s.call I (.addRateLimited y env)).setPc w (.requeuing y ret),
            s.seen I (.addRateLimited y env)) := by rw [hr]; simp [he]
      have hq : r.1.rq.q = (DelayQueue.step s.rq.q (.addAfter y d)).1 := by
        rw [hr']; simp [State.call, State.setPc, he]
      refine ⟨?_, by rw [hr']; exact takes_seen I s _ x, by rw [hq]; exact h1.2⟩
      rw [hq, h2]
      have := h1.1
      simp only [dueBy, List.countP_append] at this ⊢
      omega
    · have hr' : r = finally_ I py38 (s.call I (.addRateLimited y env)) w y .exc := by
        rw [hr]; simp [he]
      have hq : (s.call I (.addRateLimited y env)).rq.q = s.rq.q := by simp [State.call, he]
      rw [hr']
      exact fin _ _ _ (by rw [hq]) (by rw [hq])
  cases o with
  | cancelled => exact fin s .cancelled _ le_rfl rfl
  | raised => exact rl false _ rfl rfl
  | bad => exact fin s .exc _ le_rfl rfl
  | result requeue after =>
    by_cases ha : after ≠ 0
    · have h1 := addAfter_load I hb y after x hT
      have h2 : othersAt s (.finish w (.result requeue after) env : Ev α ε) = [(y, s.rq.q.clock + after)] := by
        simp [othersAt, hy, ha]
      have hr' : afterReconcile I py38 s w y (.result requeue after) env =
          (((s.call I (.forget y)).call I (.queue (.addAfter y after))).setPc w (.requeuing y true),
            (s.call I (.forget y)).seen I (.queue (.addAfter y after))) := by
        simp only [afterReconcile, if_pos ha]
      have hq : (afterReconcile I py38 s w y (.result requeue after) env).1.rq.q =
          (DelayQueue.step s.rq.q (.addAfter y after)).1 := by
        rw [hr']; rfl
      refine ⟨?_, by rw [hr']; exact takes_seen I _ _ x, by rw [hq]; exact h1.2⟩
      rw [hq, h2]
      have := h1.1
      simp only [dueBy, List.countP_append] at this ⊢
      omega
    · have ha0 : after = 0 := by simpa using ha
      subst ha0
      cases requeue with
      | true =>
        have h := rl true (afterReconcile I py38 s w y (.result true 0) env) (by simp [retry])
          (by simp only [afterReconcile, ne_eq, not_true_eq_false, if_false, if_true]; rfl)
        exact h
      | false =>
        have hr' : afterReconcile I py38 s w y (.result false 0) env =
            finally_ I py38 (s.call I (.forget y)) w y (.ret true) := by simp [afterReconcile]
        rw [hr']
        exact fin _ _ _ le_rfl rfl

/-- One move. -/
theorem ctl_load (I : Iface σ α ε) (py38 : Bool) (isReq : α → Bool) {s : State σ α}
    (hr : R s (phases s)) (e : Ev α ε) (x : α) :
    s.rq.q.clock ≤ (step I py38 isReq s e).1.rq.q.clock ∧
    ∀ T, (step I py38 isReq s e).1.rq.q.clock ≤ T →
      load (step I py38 isReq s e).1.rq.q x T + takes x (step I py38 isReq s e).2 ≤
        load s.rq.q x T + dueBy x T (othersAt s e ++ retriesAt I s e) := by
  have same : ∀ l : List (α × ℚ), s.rq.q.clock ≤ s.rq.q.clock ∧ ∀ T, s.rq.q.clock ≤ T →
      load s.rq.q x T + takes x ([] : List (Log α ε)) ≤ load s.rq.q x T + dueBy x T l :=
    fun l => ⟨le_rfl, fun T _ => by simp [takes]⟩
  have fin : ∀ w y k, s.rq.q.clock ≤ (finally_ I py38 s w y k).1.rq.q.clock ∧
      ∀ T, (finally_ I py38 s w y k).1.rq.q.clock ≤ T →
      load (finally_ I py38 s w y k).1.rq.q x T + takes x (finally_ I py38 s w y k).2 ≤
        load s.rq.q x T + dueBy x T ([] : List (α × ℚ)) := by
    intro w y k
    refine ⟨le_rfl, fun T _ => ?_⟩
    obtain ⟨a, b, -, -⟩ := finally_load I py38 s w y k x T
    omega
  cases e with
  | queue e =>
    simp only [step]
    split
    · rename_i hf
      have hq : (s.call I (.queue e)).rq.q = (DelayQueue.step s.rq.q e).1 := rfl
      refine ⟨DelayQueue.clock_le s.rq.q e, fun T hT => ?_⟩
      have h1 := DelayQueue.load_step hr.base e (by rintro rfl; simp [foreign] at hf) x hT
      have h2 : askQ s.rq.q e = othersAt s (.queue e : Ev α ε) := by
        cases e with
        | base o => cases o <;> rfl
        | _ => rfl
      rw [hq, takes_seen]
      rw [h2] at h1
      have h3 : retriesAt I s (.queue e) = [] := rfl
      rw [h3, List.append_nil]
      exact h1
    · exact same _
  | take w =>
    simp only [step]
    split
    · rename_i hw
      split
      · rename_i y hy
        have hg : ∀ T, load (DelayQueue.step s.rq.q (.base .get)).1 x T + (if y = x then 1 else 0) =
            load s.rq.q x T := fun T => DelayQueue.load_get hr.inv hy x T
        split
        · refine ⟨le_rfl, fun T _ => ?_⟩
          have h2 : takes x [(Log.took w y : Log α ε), .reconcile w y] = if y = x then 1 else 0 := by
            by_cases h : y = x <;> simp [takes, h]
          have h3 := hg T
          rw [h2]
          show load (DelayQueue.step s.rq.q (.base .get)).1 x T + _ ≤ _
          omega
        · refine ⟨le_rfl, fun T _ => ?_⟩
          obtain ⟨a, b, -, -⟩ := finally_load I py38 ((s.call I (.queue (.base .get))).call I (.forget y)) w y
            (.ret true) x T
          have h2 : ∀ l : List (Log α ε), takes x (.took w y :: .notRequest w y :: l) =
              takes x l + if y = x then 1 else 0 := by
            intro l
            by_cases h : y = x <;> simp [takes, h]
          have h3 := hg T
          have h4 : load ((s.call I (.queue (.base .get))).call I (.forget y)).rq.q x T =
            load (DelayQueue.step s.rq.q (.base .get)).1 x T := rfl
          simp only [h2, a, b, h4]
          omega
      · exact same _
      · exact same _
    · exact same _
  | finish w o env =>
    cases hw : s.workers w with
    | reconciling y =>
      have key : ∀ T, s.rq.q.clock ≤ T → _ := fun T hT => after_load I py38 hr.base w y hw o env x hT
      have hc := (key s.rq.q.clock le_rfl).2.2
      simp only [step, hw]
      refine ⟨hc.ge, fun T hT => ?_⟩
      rw [hc] at hT
      obtain ⟨a, b, -⟩ := key T hT
      have h2 : takes x (.outcome w y o env :: (afterReconcile I py38 s w y o env).2) =
          takes x (afterReconcile I py38 s w y o env).2 := by simp [takes]
      rw [h2, b]
      exact a
    | _ => simp only [step, hw]; exact same _
  | requeued w =>
    simp only [step]
    split
    · exact fin _ _ _
    · exact same _
  | cancelRequeue w =>
    simp only [step]
    split
    · exact fin _ _ _
    · exact same _
  | wake w =>
    simp only [step]
    split <;> exact same _
  | cancel w =>
    simp only [step]
    split <;> exact same _

/-- Runs. -/
theorem exec_load (I : Iface σ α ε) (py38 : Bool) (isReq : α → Bool) (es : List (Ev α ε)) (x : α) :
    ∀ s : State σ α, R s (phases s) →
    s.rq.q.clock ≤ (exec I py38 isReq s es).rq.q.clock ∧
    ∀ T, (exec I py38 isReq s es).rq.q.clock ≤ T →
      load (exec I py38 isReq s es).rq.q x T + takes x (logOf I py38 isReq s es) ≤
        load s.rq.q x T + (dueBy x T (along I py38 isReq othersAt s es) +
          dueBy x T (along I py38 isReq (retriesAt I) s es)) := by
  induction es with
  | nil => intro s _; exact ⟨le_rfl, fun T _ => by simp [exec, logOf, takes]⟩
  | cons e es ih =>
    intro s hr
    obtain ⟨a, b⟩ := ctl_load I py38 isReq hr e x
    obtain ⟨c, d⟩ := ih _ (step_good I py38 isReq s hr e).2
    refine ⟨a.trans c, fun T hT => ?_⟩
    have h1 := b T (c.trans hT)
    have h2 := d T hT
    simp only [exec, logOf, along, takes_append, dueBy, List.countP_append] at h1 h2 ⊢
    omega

theorem ctl_load_clock (I : Iface σ α ε) (py38 : Bool) (isReq : α → Bool) {s : State σ α}
    (hr : R s (phases s)) (e : Ev α ε) : s.rq.q.clock ≤ (step I py38 isReq s e).1.rq.q.clock := by
  cases e with
  | queue e =>
    simp only [step]
    split
    · exact DelayQueue.clock_le s.rq.q e
    · exact le_rfl
  | finish w o env =>
    cases hw : s.workers w with
    | reconciling y => exact (ctl_load I py38 isReq hr (.finish w o env) y).1
    | _ => simp only [step, hw]; exact le_rfl
  | requeued w => simp only [step]; split <;> exact le_rfl
  | cancelRequeue w => simp only [step]; split <;> exact le_rfl
  | wake w => simp only [step]; split <;> exact le_rfl
  | cancel w => simp only [step]; split <;> exact le_rfl
  | take w =>
    simp only [step]
    split
    · split
      · split <;> exact le_rfl
      · exact le_rfl
      · exact le_rfl
    · exact le_rfl

theorem exec_clock_le (I : Iface σ α ε) (py38 : Bool) (isReq : α → Bool) (es : List (Ev α ε)) :
    ∀ s : State σ α, R s (phases s) → s.rq.q.clock ≤ (exec I py38 isReq s es).rq.q.clock := by
  induction es with
  | nil => intro s _; exact le_rfl
  | cons e es ih =>
    intro s hr
    exact (ctl_load_clock I py38 isReq hr e).trans (ih _ (step_good I py38 isReq s hr e).2)

theorem load_init (t : ℚ) (x : α) (T : ℚ) : load (DelayQueue.init t : DelayQueue.State α) x T = 0 := by
  simp [load, DelayQueue.init, WorkQueue.init, cntE, DelayQueue.hand, DelayQueue.heapE, DelayHeap.dl,
    DelayHeap.init]

end Aiok8s.Controller

namespace Aiok8s.Controller
open Aiok8s Aiok8s.RateLimiters Aiok8s.Controller.Spec
variable {σ α ε β : Type} [DecidableEq α]

theorem exec_snoc (I : Iface σ α ε) (py38 : Bool) (isReq : α → Bool) (es : List (Ev α ε)) (e : Ev α ε) :
    ∀ s : State σ α, exec I py38 isReq s (es ++ [e]) = (step I py38 isReq (exec I py38 isReq s es) e).1 := by
  induction es with
  | nil => intro s; rfl
  | cons a es ih => intro s; exact ih _

theorem logOf_snoc (I : Iface σ α ε) (py38 : Bool) (isReq : α → Bool) (es : List (Ev α ε)) (e : Ev α ε) :
    ∀ s : State σ α, logOf I py38 isReq s (es ++ [e]) =
      logOf I py38 isReq s es ++ (step I py38 isReq (exec I py38 isReq s es) e).2 := by
  induction es with
  | nil => intro s; simp [logOf, exec]
  | cons a es ih => intro s; simp only [List.cons_append, logOf, exec, ih, List.append_assoc]

theorem along_snoc (I : Iface σ α ε) (py38 : Bool) (isReq : α → Bool) (f : State σ α → Ev α ε → List β)
    (es : List (Ev α ε)) (e : Ev α ε) :
    ∀ s : State σ α, along I py38 isReq f s (es ++ [e]) =
      along I py38 isReq f s es ++ f (exec I py38 isReq s es) e := by
  induction es with
  | nil => intro s; simp [along, exec]
  | cons a es ih => intro s; simp only [List.cons_append, along, exec, ih, List.append_assoc]

/-! ### Retries and deliveries -/

/-- How many outcomes for `x` asked for a rate-limited retry. -/
def outs (x : α) (l : List (Log α ε)) : Nat :=
  l.countP fun a => match a with | .outcome _ y o _ => decide (y = x) && retry o | _ => false

/-- Is somebody reconciling `x`? -/
def Busy (s : State σ α) (x : α) : Prop := ∃ w, s.workers w = .reconciling x

open Classical in
noncomputable def busyN (s : State σ α) (x : α) : Nat := if Busy s x then 1 else 0

theorem busy_setPc {s : State σ α} {w : Nat} {p : Pc α} {x : α} (hp : p ≠ .reconciling x)
    (h : Busy (s.setPc w p) x) : Busy s x := by
  obtain ⟨v, hv⟩ := h
  simp only [State.setPc] at hv
  split at hv
  · exact absurd hv hp
  · exact ⟨v, hv⟩

theorem finally_busy (I : Iface σ α ε) (py38 : Bool) (s : State σ α) (w : Nat) (y : α) (k : End) (x : α) :
    ((finally_ I py38 s w y k).1.workers = fun v => if v = w then (finally_ I py38 s w y k).1.workers w
      else s.workers v) ∧
    (finally_ I py38 s w y k).1.workers w ≠ .reconciling x ∧
    outs x (finally_ I py38 s w y k).2 = 0 := by
  refine ⟨?_, ?_, by simp [finally_, outs]⟩
  · funext v
    by_cases hv : v = w
    · subst hv; simp
    · simp [hv, finally_, State.setPc, State.call]
  · simp only [finally_, State.setPc, if_true]
    split
    · nofun
    · split
      · nofun
      · nofun
      · nofun
      · split <;> nofun

theorem outs_seen (I : Iface σ α ε) (s : State σ α) (e : RateLimitingQueue.Ev α ε) (x : α) :
    outs x (s.seen I e) = 0 := by
  unfold State.seen outs
  rw [List.countP_map, List.countP_eq_zero]
  intro a _
  simp

theorem after_busy (I : Iface σ α ε) (py38 : Bool) (s : State σ α) (w : Nat) (y : α) (o : Outcome) (env : ε)
    (x : α) :
    ((afterReconcile I py38 s w y o env).1.workers = fun v =>
      if v = w then (afterReconcile I py38 s w y o env).1.workers w else s.workers v) ∧
    (afterReconcile I py38 s w y o env).1.workers w ≠ .reconciling x ∧
    outs x (afterReconcile I py38 s w y o env).2 = 0 := by
  have fin : ∀ (s' : State σ α) (k : End), s'.workers = s.workers →
      ((finally_ I py38 s' w y k).1.workers = fun v =>
        if v = w then (finally_ I py38 s' w y k).1.workers w else s.workers v) ∧
      (finally_ I py38 s' w y k).1.workers w ≠ .reconciling x ∧
      outs x (finally_ I py38 s' w y k).2 = 0 := by
    intro s' k hs
    rw [← hs]
    exact finally_busy I py38 s' w y k x
  have req : ∀ (s' s'' : State σ α) (k : RateLimitingQueue.Ev α ε) (ret : Bool), s'.workers = s.workers →
      ((s'.setPc w (.requeuing y ret)).workers = fun v =>
        if v = w then (s'.setPc w (.requeuing y ret)).workers w else s.workers v) ∧
      (s'.setPc w (.requeuing y ret)).workers w ≠ .reconciling x ∧ outs x (s''.seen I k) = 0 := by
    intro s' s'' k ret hs
    refine ⟨?_, by simp [State.setPc], outs_seen I s'' k x⟩
    funext v
    by_cases hv : v = w
    · subst hv; simp
    · simp [hv, State.setPc, hs]
  have rl : ∀ ret : Bool, ∀ r : State σ α × List (Log α ε),
      r = (match (RateLimitingQueue.step I s.rq (.addRateLimited y env)).2.1 with
        | .raised _ => finally_ I py38 (s.call I (.addRateLimited y env)) w y .exc
        | _ => ((s.call I (.addRateLimited y env)).setPc w (.requeuing y ret),
            s.seen I (.addRateLimited y env))) →
      (r.1.workers = fun v => if v = w then r.1.workers w else s.workers v) ∧
      r.1.workers w ≠ .reconciling x ∧ outs x r.2 = 0 := by
    intro ret r hr
    subst hr
    split
    · exact fin _ _ rfl
    · exact req _ _ _ _ rfl
  cases o with
  | cancelled => exact fin s .cancelled rfl
  | raised => exact rl false _ rfl
  | bad => exact fin s .exc rfl
  | result requeue after =>
    simp only [afterReconcile]
    split
    · exact req _ _ _ _ rfl
    · split
      · exact rl true _ rfl
      · exact fin _ _ rfl

/-- Every retry of `x` has a delivery of its own before it; so has a reconciler that runs for `x`. -/
theorem outs_takes (I : Iface σ α ε) (py38 : Bool) (isReq : α → Bool) {s : State σ α} (hr : R s (phases s))
    (e : Ev α ε) (x : α) :
    outs x (step I py38 isReq s e).2 + busyN (step I py38 isReq s e).1 x ≤
      takes x (step I py38 isReq s e).2 + busyN s x := by
  have nob : ∀ (l l' : List (Log α ε)) (s' : State σ α), outs x l = 0 → (Busy s' x → Busy s x) →
      outs x l + busyN s' x ≤ takes x l' + busyN s x := by
    intro l l' s' h0 h
    by_cases hb : Busy s' x
    · simp [busyN, hb, h hb, h0]
    · simp [busyN, hb, h0]
  have fin : ∀ (s' : State σ α) w y k, s'.workers = s.workers →
      Busy (finally_ I py38 s' w y k).1 x → Busy s x := by
    intro s' w y k hs hb
    obtain ⟨a, b, -⟩ := finally_busy I py38 s' w y k x
    obtain ⟨v, hv⟩ := hb
    by_cases hvw : v = w
    · subst hvw; exact absurd hv b
    · rw [a] at hv
      simp only [hvw, if_false] at hv
      exact ⟨v, by rw [← hs]; exact hv⟩
  cases e with
  | queue e =>
    simp only [step]
    split
    · exact nob _ _ _ (outs_seen I s _ x) id
    · exact nob _ _ _ rfl id
  | take w =>
    simp only [step]
    split
    · split
      · rename_i y hy
        split
        · by_cases hyx : y = x
          · subst hyx
            have : takes y [(Log.took w y : Log α ε), .reconcile w y] = 1 := by simp [takes]
            rw [this]
            have : outs y [(Log.took w y : Log α ε), .reconcile w y] = 0 := by simp [outs]
            rw [this]
            have : ∀ s' : State σ α, busyN s' y ≤ 1 := fun s' => by unfold busyN; split <;> omega
            exact le_trans (by simpa using this _) (Nat.le_add_right _ _)
          · refine nob _ _ _ (by simp [outs]) fun hb => ?_
            exact busy_setPc (s := s.call I (.queue (.base .get))) (by simpa using hyx) hb
        · refine nob _ _ _ ?_ fun hb => ?_
          · have := (finally_busy I py38 ((s.call I (.queue (.base .get))).call I (.forget y)) w y
              (.ret true) x).2.2
            simpa [outs] using this
          · exact fin ((s.call I (.queue (.base .get))).call I (.forget y)) w y (.ret true) rfl hb
      · exact nob _ _ _ rfl fun hb => busy_setPc (by nofun) hb
      · exact nob _ _ _ rfl id
    · exact nob _ _ _ rfl id
  | finish w o env =>
    cases hw : s.workers w with
    | reconciling y =>
      simp only [step, hw]
      obtain ⟨a, b, c⟩ := after_busy I py38 s w y o env x
      by_cases hyx : y = x
      · subst hyx
        have h1 : Busy s y := ⟨w, hw⟩
        have h2 : ¬ Busy (afterReconcile I py38 s w y o env).1 y := by
          rintro ⟨v, hv⟩
          by_cases hvw : v = w
          · subst hvw; exact b hv
          · rw [a] at hv
            simp only [hvw, if_false] at hv
            exact hvw (hr.uniq v w y (by simp [phases, hv, phase, Phase.item])
              (by simp [phases, hw, phase, Phase.item]))
        have h3 : outs y (.outcome w y o env :: (afterReconcile I py38 s w y o env).2) ≤ 1 := by
          have : outs y (.outcome w y o env :: (afterReconcile I py38 s w y o env).2) =
              outs y (afterReconcile I py38 s w y o env).2 + if retry o then 1 else 0 := by
            simp [outs, List.countP_cons]
          rw [this, c]
          split <;> omega
        simp only [busyN, h1, h2, if_true, if_false]
        omega
      · refine nob _ _ _ ?_ fun hb => ?_
        · simpa [outs, hyx] using c
        · obtain ⟨v, hv⟩ := hb
          by_cases hvw : v = w
          · subst hvw; exact absurd hv b
          · rw [a] at hv
            simp only [hvw, if_false] at hv
            exact ⟨v, hv⟩
    | _ => simp only [step, hw]; exact nob _ _ _ rfl id
  | requeued w =>
    cases hw : s.workers w with
    | requeuing y ret =>
      simp only [step, hw]
      exact nob _ _ _ (finally_busy I py38 s w y (.ret ret) x).2.2 (fin s _ _ _ rfl)
    | _ => simp only [step, hw]; exact nob _ _ _ rfl id
  | cancelRequeue w =>
    cases hw : s.workers w with
    | requeuing y ret =>
      simp only [step, hw]
      exact nob _ _ _ (finally_busy I py38 s w y .cancelled x).2.2 (fin s _ _ _ rfl)
    | _ => simp only [step, hw]; exact nob _ _ _ rfl id
  | wake w =>
    simp only [step]
    split
    · exact nob _ _ _ rfl fun hb => busy_setPc (by nofun) hb
    · exact nob _ _ _ rfl id
  | cancel w =>
    simp only [step]
    split
    · exact nob _ _ _ rfl fun hb => busy_setPc (by nofun) hb
    · exact nob _ _ _ rfl id

theorem outs_takes_exec (I : Iface σ α ε) (py38 : Bool) (isReq : α → Bool) (es : List (Ev α ε)) (x : α) :
    ∀ s : State σ α, R s (phases s) →
    outs x (logOf I py38 isReq s es) + busyN (exec I py38 isReq s es) x ≤
      takes x (logOf I py38 isReq s es) + busyN s x := by
  induction es with
  | nil => intro s _; exact le_of_eq (by simp [logOf, exec, outs, takes])
  | cons e es ih =>
    intro s hr
    have h1 := outs_takes I py38 isReq hr e x
    have h2 := ih _ (step_good I py38 isReq s hr e).2
    simp only [logOf, exec, takes_append]
    have : ∀ a b : List (Log α ε), outs x (a ++ b) = outs x a + outs x b := fun _ _ => List.countP_append
    rw [this]
    omega

end Aiok8s.Controller
