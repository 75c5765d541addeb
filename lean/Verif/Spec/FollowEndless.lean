import Verif.Spec.Follow
/-!
# Runs without end of API server, reflector, queue and store (C101)
-/
namespace Aiok8s.Follow.Spec
open Aiok8s.Follow
open Aiok8s.Reflector (Access)
open Aiok8s.Reflector.Spec (Fatal)
variable {K O G : Type} [DecidableEq K] [DecidableEq O] [DecidableEq G]

/-- The state after the first `m` moves of an endless run; a move that is not possible changes nothing. -/
def at_ (A : Access O G) (key : O → Option K) (ver : Nat → String) (p : ℚ) (f : Nat → Act O) :
    Nat → State K O
  | 0 => init
  | m + 1 => (step A key ver p (at_ A key ver p f m) (f m)).getD (at_ A key ver p f m)

/-- Nothing goes wrong: no error event, no bookmark that cannot be understood, no watch that breaks or
cannot be opened, no resync that fails, no cancellation, and the handler does not fail.  Watches may end,
the objects may change, resyncs may come. -/
def Healthy (A : Access O G) : Act O → Prop
  | .fault _ => False
  | .bookmark o => ¬ Fatal A ⟨.bookmark, o, false⟩
  | .tasks (.watched _) => False
  | .tasks .readFail => False
  | .tasks (.resynced ok) => ok = true
  | .tasks .cancel => False
  | .pop h => ∀ i, h i = .ok
  | _ => True

/-- A run without end in which move `L` stores a list, nothing goes wrong afterwards, and nothing is put
off for ever. -/
structure Endless (A : Access O G) (key : O → Option K) (ver : Nat → String) (p : ℚ) (f : Nat → Act O)
    (L : Nat) : Prop where
  serves : ∀ m, Serves A (f m)
  list : f L = .tasks (.replaced true) ∧ ∃ items v, (at_ A key ver p f L).refl.pc = .replacing items v
  healthy : ∀ m, L < m → Healthy A (f m)
  /-- no watch ends at once without an event -/
  long : ∀ m, L < m → (at_ A key ver p f m).refl.pc ≠ .leavingWatch .tooShort
  resume : ∀ N, ∃ m, N ≤ m ∧ f m = .tasks .resume
  stored : ∀ N, ∃ m, N ≤ m ∧ f m = .tasks .stored
  tasksEnded : ∀ N, ∃ m, N ≤ m ∧ f m = .tasks .tasksEnded
  pop : ∀ N, ∃ m h, N ≤ m ∧ f m = .pop h
  /-- the server answers every request for a watch -/
  opened : ∀ N, L < N → ∃ m, N ≤ m ∧ ((at_ A key ver p f m).refl.pc ≠ .opening ∨
    ∃ n, f m = .opened n ∧ ver n = (at_ A key ver p f m).refl.version)
  /-- a server that has again and again something to send sends something -/
  event : ∀ N, (∀ M, ∃ m, M ≤ m ∧ (step A key ver p (at_ A key ver p f m) .event).isSome = true) →
    ∃ m, N ≤ m ∧ f m = .event ∧ (step A key ver p (at_ A key ver p f m) .event).isSome = true

end Aiok8s.Follow.Spec
