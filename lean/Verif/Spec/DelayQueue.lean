import Verif.Model.DelayQueue
/-!
# Specification vocabulary for the delaying queue
-/
namespace Aiok8s.DelayQueue
variable {α : Type} [DecidableEq α]

/-- Item `x` is held somewhere in the delaying queue with deadline `r`: in a pending `put`, in
the channel, in the hands of the loop, or in the heap. -/
def Held (s : State α) (x : α) (r : ℚ) : Prop :=
  (x, r) ∈ s.puts ∨ (x, r) ∈ s.chan ∨ s.pc = .woke (some (x, r)) ∨
  (s.heap.finder.get? x).map Prod.fst = some r

/-- Item `x` is in the heap with deadline `r`. -/
def InHeap (s : State α) (x : α) (r : ℚ) : Prop :=
  (s.heap.finder.get? x).map Prod.fst = some r

/-- Number of steps the loop takes in a sequence of moves. -/
def loops (es : List (Ev α)) : Nat := es.countP (fun e => match e with | .loop => true | _ => false)

/-- Is this a call of `shut_down`? -/
def isShutDown : Ev α → Bool
  | .shutDown => true
  | .base .shutDown => true
  | _ => false

/-! ### Runs without end -/

/-- The state after the first `m` moves of an endless run. -/
def at_ (t0 : ℚ) (f : Nat → Ev α) (m : Nat) : State α := exec (init t0) ((List.range m).map f)

/-- The delay loop waits. -/
def Asleep (s : State α) : Prop := ∃ t, s.pc = .sleeping t

/-- The delay loop waits and there is something in the channel. -/
def Served (s : State α) : Prop := Asleep s ∧ s.chan ≠ []

/-- Nothing is put off for ever: `shut_down` is not called; time passes; the delay loop goes on; its
heartbeat ticks; it does not receive new entries without end (lines 110-115); when it waits with
something in the channel again and again, its `get` completes at some time; and when there is room in the
channel again and again, a pending `put` completes at some time.  Clients may call whatever they like,
`add_after` included, without end. -/
structure Fair (t0 : ℚ) (f : Nat → Ev α) : Prop where
  open_ : ∀ m, isShutDown (f m) = false
  time : ∀ T, ∃ m, T ≤ (at_ t0 f m).clock
  loop : ∀ N, ∃ m, N ≤ m ∧ f m = .loop
  beat : ∀ N, ∃ m, N ≤ m ∧ f m = .wake .heartbeat
  drain : ∀ N, ∃ m, N ≤ m ∧ (at_ t0 f m).pc ≠ .draining
  item : (∀ N, ∃ m, N ≤ m ∧ Served (at_ t0 f m)) → ∀ N, ∃ m, N ≤ m ∧ Served (at_ t0 f m) ∧ f m = .wake .item
  put : ∀ e N, (∀ m, N ≤ m → e ∈ (at_ t0 f m).puts) →
    (∀ M, ∃ m, M ≤ m ∧ (at_ t0 f m).chan.length < 1000) →
    ∃ m i, N ≤ m ∧ (at_ t0 f m).puts[i]? = some e ∧ (at_ t0 f m).chan.length < 1000 ∧ f m = .putDone i

end Aiok8s.DelayQueue
