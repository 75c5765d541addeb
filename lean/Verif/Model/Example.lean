import Verif.Model.System
/-!
# `example.py`

The reconciler of the example program: what it prints and how it ends, for every call of the controller
(`Verif.Model.System`).  The read of the cache is taken to happen at the beginning of the call, as in
`System`.  Connecting to a cluster, the signal handlers and the shutdown (lines 64-83) are not modelled here
(for the shutdown see `Verif.Model.Shutdown`).
-/
namespace Aiok8s.Example
open Aiok8s
open Aiok8s.Meta (Val Str NamespacedName str)

/-- `example.py` lines 50-61: `Reconciler.reconcile` prints this line, or raises (`none`: the object has no
`metadata` or no `status`).  `ip`: `pod.status.pod_ip` (`none`: `pod.status` is `None`). -/
def line (ip : Source.Obj → Option Val) (request : NamespacedName) : Option Source.Obj → Option Str
  | none => some (str request.name ++ "/".toList ++ str request.name ++ " deleted".toList)
  | some x =>
    match x with
    | .real (.typed (some (ns, name)) _) =>
      (ip x).map fun i => str ns ++ "/".toList ++ str name ++ ": ip ".toList ++ str i
    | _ => none

/-- What the program prints, with the requests. -/
def output (ip : Source.Obj → Option Val) (log : List System.Log) : List (NamespacedName × Str) :=
  log.filterMap fun l => (line ip l.request l.cached).map fun t => (l.request, t)

end Aiok8s.Example
