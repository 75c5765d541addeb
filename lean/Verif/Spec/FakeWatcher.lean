import Verif.Model.FakeWatcher
/-!
# What a fake watcher should do
-/
namespace Aiok8s.FakeWatcher.Spec
variable {V : Type}

/-- The calls of `action` (with their argument) and `reset` (`none`), in order: the numbers of the users. -/
def calls (es : List (Ev V)) : List (Option V) :=
  es.filterMap fun
    | .send v => some (some v)
    | .reset => some none
    | _ => none

/-- No call is cancelled. -/
def NoCancel (es : List (Ev V)) : Prop :=
  ∀ e ∈ es, (∀ i, e ≠ .cancelUser i) ∧ ∀ r, e ≠ .cancelReader r

/-- What was received and which `action`s returned. -/
def dialogue (log : List (Log V)) : List (Log V) :=
  log.filter fun
    | .got _ => true
    | .sent _ => true
    | _ => false

/-- The receptions and the returns of `action` alternate: every `action` returns directly after its own event was
received; the last one may still have to return. -/
def Rendezvous (calls : List (Option V)) (log : List (Log V)) : Prop :=
  ∃ (pairs : List (V × Nat)) (half : Option (V × Nat)),
    dialogue log = pairs.flatMap (fun p => [.got p.1, .sent p.2]) ++ half.toList.map (fun p => .got p.1) ∧
    ((pairs ++ half.toList).map Prod.snd).Nodup ∧
    ∀ p ∈ pairs ++ half.toList, calls[p.2]? = some (some p.1)

/-- `stop` was called and no `reset` has been finished since. -/
def Stopped (s : State V) : List (Ev V) → Bool → Bool
  | [], b => b
  | e :: es, b => Stopped (step s e).1 es
      (match e with
        | .stop => true
        | .acquire i => b && !((step s (.acquire i)).2.any fun | .resetDone => true | _ => false)
        | _ => b)

/-- The events in the order in which their `action`s got the lock, and so put them. -/
def puts (s : State V) : List (Ev V) → List V
  | [] => []
  | e :: es =>
    (match e with
      | .acquire i => match s.mutex, s.users[i]? with
        | none, some (.sending v) => [v]
        | _, _ => []
      | _ => []) ++ puts (step s e).1 es

/-- What was received, in order. -/
def gots (log : List (Log V)) : List V :=
  log.filterMap fun
    | .got v => some v
    | _ => none

/-- A single reader: `__anext__` is called when no call of it waits; it is not cancelled. -/
def OneReader (s : State V) : List (Ev V) → Prop
  | [] => True
  | e :: es =>
    (match e with
      | .next => ∀ (r q t : Nat) (g : Option V), s.readers[r]? ≠ some (.waiting q t g)
      | .cancelReader _ => False
      | _ => True) ∧ OneReader (step s e).1 es

end Aiok8s.FakeWatcher.Spec
