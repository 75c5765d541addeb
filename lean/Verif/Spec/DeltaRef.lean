import Verif.Model.DeltaRef
/-!
# Whose lists are whose, and what the callers see
-/
namespace Aiok8s.DeltaRef.Spec
open DeltaFifo (Obj Delta Deltas Outcome)
open DeltaRef (Ev Out State Arg)
variable {K O : Type}

/-- Whose list `r` is after one more event, going by what the callers see: theirs when they made it, when a `get` gave
it to them, and when `pop` gave it to them and did not put it back; no longer when they gave it to
`add_if_not_present` or asked `pop` to put it back. -/
def mineStep (mine : Nat → Bool) (r : Nat) : Ev K O × Out K O → Bool
  | (_, .made r') => if r' = r then true else mine r
  | (_, .list (some r')) => if r' = r then true else mine r
  | (.pop (.requeue _), .popped _ r' _ _) => if r' = r then false else mine r
  | (_, .popped _ r' _ _) => if r' = r then true else mine r
  | (.addIfNotPresent r', .plain .ok) => if r' = r then false else mine r
  | _ => mine r

/-- The lists that are the callers'. -/
def mine (tr : List (Ev K O × Out K O)) : Nat → Bool :=
  tr.foldl (fun m p r => mineStep m r p) (fun _ => false)

/-- The call an event is, with lists as values: their content at the time of the call.  Asking with a `Deltas` is asking
with the newest object in it; with an empty one it is an error and no call.  Making and changing lists are no calls
either. -/
def callOf (heap : Nat → Deltas K O) : Ev K O → Option (DeltaFifo.Op K O)
  | .make _ => none
  | .write _ _ => none
  | .add x => some (.add x)
  | .update x => some (.update x)
  | .delete kn x => some (.delete kn x)
  | .list => some .list
  | .listKeys => some .listKeys
  | .get (.obj x) => some (.get x)
  | .get (.list r) => (heap r).getLast?.map fun d => .get d.object
  | .getByKey k => some (.getByKey k)
  | .replace kn xs => some (.replace kn xs)
  | .resync kn => some (.resync kn)
  | .pop o => some (.pop o)
  | .addIfNotPresent r => some (.addIfNotPresent (heap r))
  | .hasSynced => some .hasSynced
  | .close => some .close
  | .isClosed => some .isClosed

/-- What the caller sees in an answer, with lists as values: their content when the call returns. -/
def answerOf (heap : Nat → Deltas K O) : Out K O → Option (DeltaFifo.Out K O)
  | .plain o => some o
  | .made _ => none
  | .list r => some (.deltas (r.map heap))
  | .popped k r e n => some (.popped k (heap r) e n)
  | .storeKeyError => none
  | .none => none

variable [DecidableEq K]

/-- The calls of a history. -/
def calls (key : O → Option K) (s : State K O) : List (Ev K O) → List (DeltaFifo.Op K O)
  | [] => []
  | e :: es => (callOf s.heap e).toList ++ calls key (DeltaRef.step key s e).1 es

/-- Their answers. -/
def answers (key : O → Option K) (s : State K O) : List (Ev K O) → List (DeltaFifo.Out K O)
  | [] => []
  | e :: es =>
    (answerOf (DeltaRef.step key s e).1.heap (DeltaRef.step key s e).2).toList ++
      answers key (DeltaRef.step key s e).1 es

/-- The answers of the queue whose lists are values. -/
def valueAnswers (key : O → Option K) (s : DeltaFifo.State K O) : List (DeltaFifo.Op K O) → List (DeltaFifo.Out K O)
  | [] => []
  | c :: cs => (DeltaFifo.step key s c).2 :: valueAnswers key (DeltaFifo.step key s c).1 cs

/-- The callers only change lists that are theirs. -/
def Polite (key : O → Option K) (es : List (Ev K O)) : Prop :=
  ∀ a r ds b, es = a ++ .write r ds :: b → mine (DeltaRef.trace key DeltaRef.init a) r = true

/-- The callers change a list only if they have it: they made it, or it was given to them by the queue. -/
def Held (key : O → Option K) (es : List (Ev K O)) : Prop :=
  ∀ a r ds b, es = a ++ .write r ds :: b →
    ∃ p ∈ DeltaRef.trace key DeltaRef.init a,
      p.2 = .made r ∨ p.2 = .list (some r) ∨ ∃ k e n, p.2 = .popped k r e n

/-- The newest delta in `ds` is about key `k`. -/
def Names (key : O → Option K) (ds : Deltas K O) (k : K) : Prop :=
  ∃ d, ds.getLast? = some d ∧
    match d.object with
    | .real o => key o = some k
    | .gone k' => k' = k
    | .goneWith k' _ => k' = k

end Aiok8s.DeltaRef.Spec
