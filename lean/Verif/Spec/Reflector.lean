import Verif.Model.Reflector
/-!
# What a reflector should do, by looking at the server's answers as a whole

Only the types of scripts and calls of the model are used, none of its functions.
-/
namespace Aiok8s.Reflector.Spec
variable {O G : Type} [DecidableEq G]

/-- The event names an object of the wanted type and kind, with metadata. -/
def Wanted (A : Access O G) (e : Event O) : Prop :=
  A.isExpected e.object = true ∧ (∀ g ∈ A.expected, A.gvk e.object = some g) ∧
    A.isObject e.object = true

instance (A : Access O G) (e : Event O) : Decidable (Wanted A e) := by
  unfold Wanted; infer_instance

/-- The event cannot be understood: an error of the server, no kind, no version. -/
def Fatal (A : Access O G) (e : Event O) : Prop :=
  e.type = .error ∨
  (A.isExpected e.object = true ∧ A.expected.isSome = true ∧ A.gvk e.object = none) ∨
  (Wanted A e ∧ A.version e.object = none)

instance (A : Access O G) (e : Event O) : Decidable (Fatal A e) := by
  unfold Fatal; infer_instance

/-- The accepted events of a stream: the wanted ones before the first fatal one. -/
def accepted (A : Access O G) (es : List (Event O)) : List (Event O) :=
  (es.takeWhile fun e => !decide (Fatal A e)).filter fun e => decide (Wanted A e)

/-- Their versions. -/
def versions (A : Access O G) (es : List (Event O)) : List String :=
  (accepted A es).filterMap fun e => A.version e.object

/-- The change of the store an event asks for. -/
def change (e : Event O) : Option (Call O) :=
  match e.type with
  | .added => some (.add e.object)
  | .modified => some (.update e.object)
  | .deleted => some (.delete e.object)
  | _ => none

/-- The events of a watch. -/
def events : Watch O → List (Event O)
  | .fails => []
  | .stream es _ => es

/-- The watch came to a normal end. -/
def Normal (A : Access O G) : Watch O → Prop
  | .stream es (.closed short) => (∀ e ∈ es, ¬ Fatal A e) ∧ (short = true → accepted A es ≠ [])
  | _ => False

instance (A : Access O G) (w : Watch O) : Decidable (Normal A w) := by
  unfold Normal; split <;> infer_instance

/-- The watches which came to a normal end before another end. -/
def normal (A : Access O G) (ws : List (Watch O)) : List (Watch O) :=
  ws.takeWhile fun w => decide (Normal A w)

/-- The watches made: the normal ones, and one more if there is one. -/
def made (A : Access O G) (ws : List (Watch O)) : List (Watch O) :=
  ws.take ((normal A ws).length + 1)

/-- The versions seen in some watches. -/
def seen (A : Access O G) (ws : List (Watch O)) : List String :=
  ws.flatMap fun w => versions A (events w)

/-- The versions of the calls of `watch`. -/
def watches (cs : List (Call O)) : List String :=
  cs.filterMap fun
    | .watch v => some v
    | _ => none

/-- The calls on the store. -/
def onStore (cs : List (Call O)) : List (Call O) :=
  cs.filter fun
    | .list _ | .watch _ => false
    | _ => true

/-- The number of lists. -/
def lists (cs : List (Call O)) : Nat :=
  (cs.filter fun
    | .list _ => true
    | _ => false).length

/-- The watch is over, in another way than by its iterator raising. -/
def Over : Watch O → Prop
  | .fails => True
  | .stream _ (.closed _) => True
  | .stream _ .resyncFails => True
  | .stream _ _ => False

/-- The watch that ends a call of `list_and_watch`: the first that does not come to a normal end. -/
def final (A : Access O G) (ws : List (Watch O)) : Option (Watch O) :=
  ws.find? fun w => !decide (Normal A w)

/-- A call of `list_and_watch` is over: there is no list, or there is a final watch, which failed,
is over, or had a fatal event. -/
def Finished (A : Access O G) : Script O → Prop
  | .listed _ _ ws => ∃ w ∈ final A ws, Over w ∨ ∃ e ∈ events w, Fatal A e
  | _ => True

instance (w : Watch O) : Decidable (Over w) := by
  unfold Over; split <;> infer_instance

instance (A : Access O G) (s : Script O) : Decidable (Finished A s) := by
  cases s with
  | listed items v ws =>
    unfold Finished
    cases h : final A ws with
    | none => exact isFalse (by rintro ⟨w, hw, -⟩; simp [h] at hw)
    | some w =>
      exact decidable_of_iff (Over w ∨ ∃ e ∈ events w, Fatal A e)
        ⟨fun hw => ⟨w, h, hw⟩, fun ⟨x, hx, ho⟩ => by
          rw [h] at hx; cases hx; exact ho⟩
  | _ => exact isTrue trivial

/-- Versions in the order they are learnt in a call of `list_and_watch`. -/
def learnt (A : Access O G) : Script O → List String
  | .listed _ v ws => v :: seen A (made A ws)
  | _ => []

/-- The calls of `list_and_watch` made: those which are over, and one more if there is one. -/
def begun (A : Access O G) (ss : List (Script O)) : List (Script O) :=
  ss.take ((ss.takeWhile fun s => decide (Finished A s)).length + 1)

/-- The versions watches should start from after a list: before each watch, the last one seen
since the list. -/
def resumed (A : Access O G) : Script O → List String
  | .listed _ v ws =>
    (List.range ((normal A ws).length + 1)).map fun i => (seen A (ws.take i)).getLastD v
  | _ => []

/-- The calls on the store there should be for a list and its watches. -/
def wantedCalls (A : Access O G) : Script O → List (Call O)
  | .listFails => []
  | .replaceFails items v => [.replace items v]
  | .listed items v ws =>
    .replace items v :: (made A ws).flatMap fun w => (accepted A (events w)).filterMap change

/-- How kubernetes writes group and version: `group/version`, or only the version for the core
group. -/
def apiVersionOf (group version : List Char) : List Char :=
  if group = [] then version else group ++ '/' :: version

end Aiok8s.Reflector.Spec
