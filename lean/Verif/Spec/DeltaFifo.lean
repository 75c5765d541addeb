import Verif.Model.DeltaFifo
/-!
# Specification of `DeltaFIFO`: the log of changes

From the calls and answers of a history a log is written: one entry per change, per `pop` and
per put-back.  What is pending for a key, in which order keys are due and since when, are read
off the log.  Nothing here looks at the queue's state.
-/
namespace Aiok8s.DeltaFifo.Spec
open Aiok8s.DeltaFifo
variable {K O : Type} [DecidableEq K]

/-- Log entries. -/
inductive Entry (K O : Type) where
  | change (k : K) (d : Delta K O)
  | popped (k : K)
  /-- deltas put back, effective only if nothing is pending for the key -/
  | putBack (k : K) (ds : Deltas K O)
deriving DecidableEq

/-- How a change is added to the pending ones: two deletions in a row become one (the one with a
real object if the first has one), a Sync behind a deletion is dropped. -/
def merge (ds : Deltas K O) (d : Delta K O) : Deltas K O :=
  match ds.getLast? with
  | none => [d]
  | some l =>
    if l.type = .deleted ∧ d.type = .sync then ds
    else if l.type = .deleted ∧ d.type = .deleted then
      ds.dropLast ++ [match l.object with | .real _ => l | _ => d]
    else ds ++ [d]

/-- What one log entry does to what is pending for `k`. -/
def pendStep (k : K) (ds : Deltas K O) : Entry K O → Deltas K O
  | .change j d => if j = k then merge ds d else ds
  | .popped j => if j = k then [] else ds
  | .putBack j b => if j = k ∧ ds = [] then b else ds

/-- What is pending for `k`. -/
def pendingOf (k : K) (log : List (Entry K O)) : Deltas K O := log.foldl (pendStep k) []

/-- What one log entry does to the order in which keys are due. -/
def orderStep (ks : List K) : Entry K O → List K
  | .change j _ => if j ∈ ks then ks else ks ++ [j]
  | .popped j => ks.filter (· ≠ j)
  | .putBack j _ => if j ∈ ks then ks else ks ++ [j]

/-- The keys with pending changes, in the order of their first unpopped change. -/
def orderOf (log : List (Entry K O)) : List K := log.foldl orderStep []

/-- What one log entry does to the age of the pending changes of `k`. -/
def ageStep (k : K) (n : Nat) : Entry K O → Nat
  | .change j _ => if j = k ∨ 0 < n then n + 1 else 0
  | .popped j => if j = k then 0 else if 0 < n then n + 1 else 0
  | .putBack j _ => if j = k ∨ 0 < n then n + 1 else 0

/-- How many log entries ago the first unpopped change of `k` was written (0: nothing
pending). -/
def age (k : K) (log : List (Entry K O)) : Nat := log.foldl (ageStep k) 0

/-- The `Sync` changes of a list, up to the first object without key. -/
def syncs (key : O → Option K) : List (Obj K O) → List (Entry K O)
  | [] => []
  | x :: xs => match keyOf key x with
    | none => []
    | some k => .change k ⟨.sync, x⟩ :: syncs key xs

/-- The keys of a list of objects, if all have one. -/
def keysOf (key : O → Option K) (xs : List (Obj K O)) : Option (List K) := xs.mapM (keyOf key)

/-- The marker for a vanished object, with its last known state if there is one. -/
def marker (k : K) : Option (Obj K O) → Obj K O
  | none => .gone k
  | some x => .goneWith k x

/-- The last state of `k` that a store knows. -/
def knownState (kn : Known K O) (k : K) : Option (Obj K O) :=
  match kn.get k with
  | some (some x) => some x
  | _ => none

/-- The state of `k` in its newest pending change. -/
def pendingState (k : K) (log : List (Entry K O)) : Option (Obj K O) :=
  (pendingOf k log).getLast?.map (·.object)

/-- The deletions of a `replace`. -/
def vanished (kn : Option (Known K O)) (log : List (Entry K O)) (keys : List K) :
    List (Entry K O) :=
  match kn with
  | none => ((orderOf log).filter (· ∉ keys)).map fun k =>
      .change k ⟨.deleted, marker k (pendingState k log)⟩
  | some kn => (kn.keys.filter (· ∉ keys)).map fun k =>
      .change k ⟨.deleted, marker k (knownState kn k)⟩

/-- The `Sync` changes of a `resync`: one for each known object that has nothing pending; it
stops at an object without key.  `done` are the keys synced so far. -/
def resyncs (key : O → Option K) (kn : Known K O) (log : List (Entry K O)) (done : List K) :
    List K → List (Entry K O)
  | [] => []
  | k :: rest =>
    match kn.get k with
    | some (some x) =>
      match keyOf key x with
      | none => []
      | some id =>
        if pendingOf id log ≠ [] ∨ id ∈ done then resyncs key kn log done rest
        else .change id ⟨.sync, x⟩ :: resyncs key kn log (id :: done) rest
    | _ => resyncs key kn log done rest

/-- Whether the store knows `k` (a store that cannot answer counts as knowing it). -/
def isKnown (kn : Option (Known K O)) (k : K) : Bool :=
  match kn with
  | none => false
  | some kn => match kn.get k with
    | none => true
    | some o => o.isSome

/-- The log entries of one call with its answer. -/
def entries (key : O → Option K) (log : List (Entry K O)) :
    Op K O × Out K O → List (Entry K O)
  | (.add x, _) => match keyOf key x with
    | some k => [.change k ⟨.added, x⟩]
    | none => []
  | (.update x, _) => match keyOf key x with
    | some k => [.change k ⟨.updated, x⟩]
    | none => []
  | (.delete kn x, _) => match keyOf key x with
    | none => []
    | some k =>
      -- a deletion of something neither known nor pending is not recorded; if asking the
      -- store fails it is
      if isKnown kn k = false ∧ pendingOf k log = [] then [] else [.change k ⟨.deleted, x⟩]
  | (.replace kn xs, _) =>
    syncs key xs ++ match keysOf key xs with
      | none => []
      | some keys => vanished kn log keys
  | (.resync (some kn), _) => resyncs key kn log [] kn.keys
  | (.pop (.requeue _), .popped k ds _ _) => [.popped k, .putBack k ds]
  | (.pop _, .popped k _ _ _) => [.popped k]
  | (.addIfNotPresent ds, _) => match ds.getLast? with
    | none => []
    | some d => match keyOf key d.object with
      | none => []
      | some k => [.putBack k ds]
  | _ => []

/-- The log of a history. -/
def logOf (key : O → Option K) (h : List (Op K O × Out K O)) : List (Entry K O) :=
  h.foldl (fun log e => log ++ entries key log e) []

/-- The keys handed over by the pops of a history, in order. -/
def handed : List (Op K O × Out K O) → List K
  | [] => []
  | (_, .popped k _ _ _) :: h => k :: handed h
  | _ :: h => handed h

end Aiok8s.DeltaFifo.Spec
