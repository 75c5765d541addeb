import Verif.Proof.System
/-!
# How much is left to do (for C75)
-/
namespace Aiok8s.System
open Aiok8s Aiok8s.RateLimiters Aiok8s.System.Spec Aiok8s.Source.Spec
open Aiok8s.Meta (Val NamespacedName)
open Aiok8s.Informer (Note)
variable {σ ε : Type}

/-- What is left to do, when the handler has been sent `m` notifications. -/
def left (m : Nat) (s : State σ) : Nat :=
  7 * (m - s.delivered) + 3 * s.todo.length + 2 * s.ctl.rq.q.core.dirty.length +
    s.ctl.rq.q.core.processing.length

theorem handle_length (ps : List Source.Pred) (n : Note Val Meta.Obj) : (Source.handle ps n).1.length ≤ 2 := by
  have one : ∀ a, (Source.enqueueOne a).1.length ≤ 2 := by
    intro a; unfold Source.enqueueOne; split <;> simp
  have two : ∀ a b, (Source.enqueueTwo a b).1.length ≤ 2 := by
    intro a b; unfold Source.enqueueTwo
    split
    · simp
    · split <;> simp
  cases n with
  | onAdd x =>
    simp only [Source.handle, Source.onAdd]
    split
    · simp
    · split <;> first | exact one _ | simp
  | onUpdate x y =>
    simp only [Source.handle, Source.onUpdate]
    split
    · simp
    · split
      · simp
      · split <;> first | exact two _ _ | simp
  | onDelete x =>
    simp only [Source.handle, Source.onDelete]
    split
    · simp
    · split <;> first | exact one _ | simp

section
variable {α : Type} [DecidableEq α]

theorem add_left (c : WorkQueue.State α) (x : α) : (WorkQueue.add c x).dirty.length ≤ c.dirty.length + 1 ∧
    (WorkQueue.add c x).processing = c.processing := by
  unfold WorkQueue.add
  split
  · exact ⟨Nat.le_succ _, rfl⟩
  · split
    · exact ⟨Nat.le_succ _, rfl⟩
    · rename_i h
      have : (PySet.add c.dirty x).length ≤ c.dirty.length + 1 := by
        unfold PySet.add
        split <;> simp
      dsimp only
      split <;> exact ⟨this, rfl⟩

theorem remove_lt {l : List α} {x : α} (h : x ∈ l) : (PySet.remove l x).length < l.length := by
  unfold PySet.remove
  exact (List.length_filter_lt_length_iff_exists (p := fun y => decide (y ≠ x)) (l := l)).2 ⟨x, h, by simp⟩

theorem done_dirty (c : WorkQueue.State α) (x : α) : (WorkQueue.done c x).1.dirty = c.dirty := by
  unfold WorkQueue.done
  split
  · dsimp only
    split <;> rfl
  · rfl
end

/-- A move of handler or worker is nothing, or a worker wakes up, or there is less to do. -/
theorem working_step (I : Iface σ NamespacedName ε) (py38 : Bool) (ps : List Source.Pred) (i : Nat)
    (s : State σ) (hR : Controller.R s.ctl (Controller.phases s.ctl)) (ns : List (Note Val Meta.Obj))
    (hns : s.inf.sent[i]? = some ns) (e : Ev ε) (he : Working e) :
    (step I py38 ps i s e).1 = s ∨
    (∃ v, s.ctl.workers v = .sleeping ∧ (step I py38 ps i s e).1 = { s with ctl := s.ctl.setPc v .idle }) ∨
    left ns.length (step I py38 ps i s e).1 < left ns.length s := by
  cases e with
  | inf e => exact absurd he id
  | deliver =>
    simp only [step]
    split
    · rename_i n h1 h2
      right; right
      rw [hns] at h2
      have hlt : s.delivered < ns.length := by
        by_contra hc
        simp [List.getElem?_eq_none (Nat.le_of_not_lt hc)] at h2
      have := handle_length ps n
      simp only [left, h1, List.length_nil]
      omega
    · left; rfl
  | add =>
    simp only [step]
    split
    · left; rfl
    · rename_i nn rest h
      right; right
      obtain ⟨h1, h2⟩ := add_left s.ctl.rq.q.core nn
      have hc : (Controller.step I py38 (fun _ => true) s.ctl (.queue (.base (.add nn)))).1.rq.q.core =
          WorkQueue.add s.ctl.rq.q.core nn := rfl
      simp only [left, h, List.length_cons, hc, h2]
      omega
  | ctl e =>
    have fin : ∀ (w : Nat) (x : NamespacedName) (s' : State σ), x ∈ s.ctl.rq.q.core.processing →
        s'.ctl.rq.q.core = (WorkQueue.done s.ctl.rq.q.core x).1 → s'.todo = s.todo →
        s'.delivered = s.delivered → left ns.length s' < left ns.length s := by
      intro w x s' hx h1 h2 h3
      have := Controller.done_length hx
      simp only [left, h1, h2, h3, done_dirty]
      omega
    cases e with
    | queue e => exact absurd he id
    | cancelRequeue v => exact absurd he id
    | cancel v => exact absurd he id
    | finish v o env =>
      simp only [Working] at he
      subst he
      cases hv : s.ctl.workers v with
      | reconciling x =>
        right; right
        refine fin v x _ (hR.proc v x (by simp [Controller.phases, hv, Controller.phase, Controller.Spec.Phase.item]))
          ?_ rfl rfl
        simp only [step, Controller.step, hv, Controller.afterReconcile, ne_eq, not_true_eq_false, if_false,
          Bool.false_eq_true, Controller.finally_]
        rfl
      | _ => left; simp [step, Controller.step, hv]
    | requeued v =>
      cases hv : s.ctl.workers v with
      | requeuing x r =>
        right; right
        refine fin v x _ (hR.proc v x (by simp [Controller.phases, hv, Controller.phase, Controller.Spec.Phase.item]))
          ?_ rfl rfl
        simp only [step, Controller.step, hv, Controller.finally_]
        rfl
      | _ => left; simp [step, Controller.step, hv]
    | wake v =>
      by_cases hv : s.ctl.workers v = .sleeping
      · right; left
        exact ⟨v, hv, by simp [step, Controller.step, hv]⟩
      · left; simp [step, Controller.step, hv]
    | take v =>
      by_cases hv : s.ctl.workers v = .idle
      · cases hq : s.ctl.rq.q.core.queue with
        | nil =>
          left
          have : (WorkQueue.get s.ctl.rq.q.core).2 = .blocked := by
            simp [WorkQueue.get, hq, hR.base.sd]
          simp [step, Controller.step, hv, this]
        | cons x rest =>
          right; right
          have hget : WorkQueue.get s.ctl.rq.q.core = ({ s.ctl.rq.q.core with
              queue := rest
              processing := PySet.add s.ctl.rq.q.core.processing x
              dirty := PySet.remove s.ctl.rq.q.core.dirty x }, .item x) := by
            simp only [WorkQueue.get, hq]
          have hs1 : (step I py38 ps i s (.ctl (.take v) : Ev ε)).1 =
              { s with ctl := (s.ctl.call I (.queue (.base .get))).setPc v (.reconciling x) } := by
            simp only [step, Controller.step, hv, if_true, hget]
          have hc1 : ((s.ctl.call I (.queue (.base .get))).setPc v (.reconciling x)).rq.q.core =
              (WorkQueue.get s.ctl.rq.q.core).1 := rfl
          have hd := remove_lt (hR.inv.q_dirty x (by rw [hq]; simp))
          have hp : (PySet.add s.ctl.rq.q.core.processing x).length ≤
              s.ctl.rq.q.core.processing.length + 1 := by
            unfold PySet.add
            split <;> simp
          rw [hs1]
          simp only [left, hc1, hget]
          omega
      · left; simp [step, Controller.step, hv]

end Aiok8s.System
