import Verif.Model.Restart
/-! # Words for the claims about a controller that is started several times -/
namespace Aiok8s.Restart
variable {α : Type}

/-- No call of `start` is under way and no worker is left. -/
def Over (s : State α) : Prop :=
  (∀ g, s.calls g = .none ∨ s.calls g = .ended) ∧ (∀ w, s.workers w = .none ∨ s.workers w = .ended)

/-- `start` is called only when nothing is left of the earlier calls. -/
def Serial [DecidableEq α] (c : Cfg) (as : List (Act α)) : Prop :=
  ∀ pre post s l, as = pre ++ .call :: post → exec c init pre = some (s, l) → Over s

/-- How often a reconciliation of `x` has begun. -/
def begun [DecidableEq α] (x : α) (l : List (Log α)) : Nat :=
  l.countP fun e => match e with
    | .took _ _ y => y = x
    | _ => false

/-- How often one has ended. -/
def finished [DecidableEq α] (x : α) (l : List (Log α)) : Nat :=
  l.countP fun e => match e with
    | .done _ _ y _ => y = x
    | _ => false

/-- At no time two reconciliations of the same request are under way. -/
def Exclusive [DecidableEq α] (l : List (Log α)) : Prop :=
  ∀ pre post x, l = pre ++ post → begun x pre ≤ finished x pre + 1

/-- Does the worker take or finish an item here? -/
def busies (w : Nat × Nat) : Log α → Bool
  | .took v _ _ => v == w
  | .done v _ _ _ => v == w
  | _ => false

/-- Every `done` succeeds and is called on the queue the request was taken from. -/
def Returned (l : List (Log α)) : Prop :=
  ∀ pre post w q x ok, l = pre ++ .done w q x ok :: post →
    ok = true ∧ ∃ before between, pre = before ++ .took w q x :: between ∧
      ∀ e ∈ between, busies w e = false

/-- A request which is to be tried again is given back to the queue it was taken from. -/
def Requeued (l : List (Log α)) : Prop :=
  ∀ pre post w q x, l = pre ++ .again w q x :: post →
    ∃ before between, pre = before ++ .took w q x :: between ∧ ∀ e ∈ between, busies w e = false

/-- Each call ends by shutting down the queue it has made, and only that one. -/
def ShutsOwn (l : List (Log α)) : Prop := ∀ g q, Log.over g q ∈ l → q = g

/-- The sources started with queue `q`, in order. -/
def feeds (q : Nat) (l : List (Log α)) : List Nat :=
  l.filterMap fun e => match e with
    | .connected _ k p => if p = q then some k else none
    | _ => none

/-- When a call makes its workers, every source has been started with its queue, once. -/
def Connected (n : Nat) (l : List (Log α)) : Prop :=
  ∀ pre post g, l = pre ++ .working g :: post → feeds g l = List.range n

/-- The sources call `g` has started, in order. -/
def startedBy (g : Nat) (l : List (Log α)) : List Nat :=
  l.filterMap fun e => match e with
    | .connected h k _ => if h = g then some k else none
    | _ => none

/-- The calls start their sources one after the other: between two sources of one call no other call starts
one. -/
def Unmixed (l : List (Log α)) : Prop :=
  ∀ a b d g h k k' k'' q q' q'',
    l = a ++ .connected g k q :: b ++ .connected h k' q' :: d → h ≠ g → Log.connected g k'' q'' ∉ d

end Aiok8s.Restart
