import Verif.Model.Fifo
/-!
# Specification of `FIFO`: what is waiting, read off the calls and answers
-/
namespace Aiok8s.Fifo.Spec
open Aiok8s.Fifo
variable {K O : Type} [DecidableEq K]

/-- The objects waiting to be handed over. -/
abbrev Waiting (K O : Type) := K → Option O

/-- Set one entry. -/
def put (w : Waiting K O) (k : K) (o : Option O) : Waiting K O := fun j => if j = k then o else w j

/-- The last object of a list for every key. -/
def lastOf (key : O → Option K) (os : List O) : Waiting K O :=
  os.foldl (fun w o => match key o with | some k => put w k (some o) | none => w) (fun _ => none)

/-- How one call with its answer changes what is waiting. -/
def next (key : O → Option K) (w : Waiting K O) : Op K O × Out K O → Waiting K O
  | (.add o, .ok) | (.update o, .ok) => match key o with
    | some k => put w k (some o)
    | none => w
  | (.addIfNotPresent o, .ok) => match key o with
    | some k => if (w k).isSome then w else put w k (some o)
    | none => w
  | (.delete o, .ok) => match key o with
    | some k => put w k none
    | none => w
  | (.replace os, .ok) => lastOf key os
  | (.pop (.requeue _), .popped _ _ _ _) => w
  | (.pop _, .popped k _ _ _) => put w k none
  | _ => w

/-- What is waiting after a history. -/
def waiting (key : O → Option K) (h : List (Op K O × Out K O)) : Waiting K O :=
  h.foldl (next key) (fun _ => none)

/-- How many queue entries a history has taken off. -/
def dropped : List (Op K O × Out K O) → Nat
  | [] => 0
  | (_, .popped _ _ _ n) :: h | (_, .closedError n) :: h | (_, .blocked n) :: h => n + dropped h
  | _ :: h => dropped h

/-- How many objects a call puts in at most. -/
def puts : Op K O → Nat
  | .add _ | .update _ | .addIfNotPresent _ | .pop (.requeue _) => 1
  | .replace l => l.length
  | _ => 0

/-- The call hands over key `k`. -/
def Hands (k : K) : Op K O × Out K O → Prop
  | (_, .popped j _ _ _) => j = k
  | _ => False

/-- The call deletes key `k` or replaces everything. -/
def Clears (key : O → Option K) (k : K) : Op K O → Prop
  | .delete o => key o = some k
  | .replace _ => True
  | _ => False

/-- The call is a `pop`. -/
def isPop : Op K O → Bool
  | .pop _ => true
  | _ => false

/-- The call is a `replace`. -/
def isReplace : Op K O → Bool
  | .replace _ => true
  | _ => false

end Aiok8s.Fifo.Spec
