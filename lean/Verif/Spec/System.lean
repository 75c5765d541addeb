import Verif.Model.System
import Verif.Spec.Source
import Verif.Spec.SharedInformer
/-!
# What the whole should achieve
-/
namespace Aiok8s.System.Spec
open Aiok8s.Meta (Val NamespacedName)
open Aiok8s.Informer (Note)
open Aiok8s.Source.Spec
variable {σ ε : Type}

/-- What the cache held for `k` when the reconciler was last called for it; `none`: nothing, or it was
never called. -/
def lastSeen (k : Val) (log : List Log) : Option Source.Obj :=
  (log.reverse.find? fun l => Meta.objectKeyToStoreKey l.request = k).bind (·.cached)

/-- The reconciler was called for `k`. -/
def Called (k : Val) (log : List Log) : Prop := ∃ c ∈ log, Meta.objectKeyToStoreKey c.request = k

/-- What happens to the informer. -/
def informerEvents (es : List (Ev ε)) : List (SharedInformer.Ev Val Meta.Obj) :=
  es.filterMap fun
    | .inf e => some e
    | _ => none

/-- A call for `k` is on its way: the handler has not got a notification about `k`, or has not made the
request, or the request is queued or to be queued again. -/
def Coming (s : State σ) (i : Nat) (k : Val) : Prop :=
  (∃ ns n, s.inf.sent[i]? = some ns ∧ n ∈ ns.drop s.delivered ∧ noteKey Meta.keyFunc n = some k) ∨
  ∃ nn, Meta.objectKeyToStoreKey nn = k ∧ (nn ∈ s.todo ∨ nn ∈ s.ctl.rq.q.core.dirty)

/-- The handler's last notification about `k` is not the deletion of a `DeletedFinalStateUnknown`. -/
def Told (s : State σ) (i : Nat) (k : Val) : Prop :=
  ∃ pre n post, s.inf.sent[i]? = some (pre ++ n :: post) ∧ noteKey Meta.keyFunc n = some k ∧
    (∀ m ∈ post, noteKey Meta.keyFunc m ≠ some k) ∧ ∀ x, n = .onDelete x → Proper x

/-- Nothing is left to do: all notifications are delivered, the handler's last call has returned, the
queue is empty and no worker is busy. -/
def Quiet (s : State σ) (i : Nat) : Prop :=
  (∀ ns, s.inf.sent[i]? = some ns → s.delivered = ns.length) ∧ s.todo = [] ∧
  s.ctl.rq.q.core.queue = [] ∧
  ∀ w, s.ctl.workers w = .idle ∨ s.ctl.workers w = .sleeping ∨ s.ctl.workers w = .ended

/-- The moves of handler and workers; reconcilers return without asking for another call. -/
def Working : Ev ε → Prop
  | .inf _ => False
  | .deliver => True
  | .add => True
  | .ctl (.take _) => True
  | .ctl (.finish _ o _) => o = .result false 0
  | .ctl (.requeued _) => True
  | .ctl (.wake _) => True
  | .ctl _ => False

/-- Handler and workers keep being scheduled: whatever has happened so far, the handler will still be
called or go on with its call, and every worker that has not ended in `s` will still try to get an item,
wake up, end its reconciler's call or its requeueing.  (A move that is not possible when its turn comes
changes nothing.) -/
structure Fair (s : State σ) (f : Nat → Ev ε) : Prop where
  working : ∀ m, Working (f m)
  deliver : ∀ N, ∃ m, N ≤ m ∧ f m = .deliver
  add : ∀ N, ∃ m, N ≤ m ∧ f m = .add
  take : ∀ w, s.ctl.workers w ≠ .ended → ∀ N, ∃ m, N ≤ m ∧ f m = .ctl (.take w)
  wake : ∀ w, s.ctl.workers w ≠ .ended → ∀ N, ∃ m, N ≤ m ∧ f m = .ctl (.wake w)
  finish : ∀ w, s.ctl.workers w ≠ .ended → ∀ N, ∃ m env, N ≤ m ∧ f m = .ctl (.finish w (.result false 0) env)
  requeued : ∀ w, s.ctl.workers w ≠ .ended → ∀ N, ∃ m, N ≤ m ∧ f m = .ctl (.requeued w)

end Aiok8s.System.Spec
