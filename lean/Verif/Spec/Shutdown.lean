import Verif.Model.Shutdown
/-!
# What is expected of the end of `manager.start`
-/
namespace Aiok8s.Shutdown

/-- No task of the tree goes on with its work: each has ended or has been told to. -/
structure Told (s : State) : Prop where
  infs : ∀ l ∈ s.infs, l ≠ .running
  workers : ∀ c ∈ s.ctls, ∀ l ∈ c.workers, l ≠ .running
  ctls : ∀ c ∈ s.ctls, c.pc ≠ .pending ∧ c.pc ≠ .preparing
  cache : s.cache ≠ .none ∧ s.cache ≠ .pending
  mgr : s.mgr ≠ .idle ∧ s.mgr ≠ .waiting ∧ s.mgr ≠ .running

/-- Every task of the tree has ended, and every queue that was made has been shut down. -/
structure Over (s : State) : Prop where
  infs : ∀ l ∈ s.infs, l = .ended
  workers : ∀ c ∈ s.ctls, ∀ l ∈ c.workers, l = .ended
  ctls : ∀ c ∈ s.ctls, ∃ o, c.pc = .ended o
  queues : ∀ c ∈ s.ctls, c.queue = true → c.shut = true
  cache : ∃ o, s.cache = .ended o
  mgr : s.mgr = .ended .failed

/-- Nothing has failed so far, as far as the tasks that wait for others know: no `gather` has ended
with an exception. -/
structure Sound (s : State) : Prop where
  cache : s.cache ≠ .waking ∧ s.cache ≠ .ended .failed
  ctls : ∀ c ∈ s.ctls, c.pc ≠ .waking ∧ c.pc ≠ .ended .failed

/-- Steps a task without children still has to make. -/
def Leaf.todo : Leaf → Nat
  | .ended => 0
  | _ => 1

/-- Steps the task of a controller that has been told to stop still has to make. -/
def CtlPc.todo : CtlPc → Nat
  | .ended _ => 0
  | .working => 2
  | _ => 1

def CachePc.todo : CachePc → Nat
  | .ended _ => 0
  | .running => 2
  | _ => 1

def MgrPc.todo : MgrPc → Nat
  | .ended _ => 0
  | .stopping => 2
  | _ => 1

/-- The steps that are still to be made by the tasks of a tree all of which have been told to stop. -/
def State.todo (s : State) : Nat :=
  s.mgr.todo + s.cache.todo + (s.infs.map Leaf.todo).sum
    + (s.ctls.map fun c => c.pc.todo + (c.workers.map Leaf.todo).sum).sum

/-- Reachable states of a manager with this many informers and these controllers. -/
def Reach (s : State) : Prop := ∃ n ks as, exec (init n ks) as = some s

end Aiok8s.Shutdown
