import Verif.Model.Monitor
/-!
# Which tasks are inside `pop`
-/
namespace Aiok8s.Monitor
variable {σ Op Out : Type}

/-- The events and the answers. -/
def trace (m : Machine σ Op Out) (s : State σ) : List (Ev Op) → List (Ev Op × Option Out)
  | [] => []
  | e :: es => (e, (step m s e).2) :: trace m (step m s e).1 es

/-- Tasks that are to pop call `pop`, the others something else. -/
def Proper (m : Machine σ Op Out) : Ev Op → Prop
  | .call o => m.isPop o = false
  | .pop _ o => m.isPop o = true
  | .resume _ o => m.isPop o = true
  | .cancel _ => True

/-- Is task `t` inside `pop` after this history?  It is from its call until it gets an answer or is
cancelled. -/
def inside (t : Nat) (b : Bool) : List (Ev Op × Option Out) → Bool
  | [] => b
  | (.pop u _, none) :: l => inside t (if u = t then true else b) l
  | (.resume u _, some _) :: l => inside t (if u = t then false else b) l
  | (.cancel u, _) :: l => inside t (if u = t then false else b) l
  | _ :: l => inside t b l

end Aiok8s.Monitor
