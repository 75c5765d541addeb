import Verif.Proof.FollowEndless
/-!
# What stays at the API server comes into the cache: C101
-/
namespace Aiok8s.Follow
open Aiok8s.Reflector (Access)
open Spec
variable {K O G : Type} [DecidableEq K] [DecidableEq O] [DecidableEq G]

/-- **C101**: the reflector never falls behind for good: whatever version the server has at a moment after
the list, the reflector has it, or a later one, at some later moment.  Watches may end at any time and are
opened again, also in the middle of the changes. -/
theorem C101_catches_up (A : Access O G) (key : O → Option K) (ver : Nat → String)
    (hinj : Function.Injective ver) (p : ℚ) {f : Nat → Act O} {L : Nat} (he : Endless A key ver p f L)
    {N : Nat} (hN : L < N) : ∃ M, N ≤ M ∧ ∃ n, (at_ A key ver p f N).hist.length ≤ n ∧
      n ≤ (at_ A key ver p f M).hist.length ∧ (at_ A key ver p f M).refl.last = ver n := by
  obtain ⟨M, h1, n, h2, h3⟩ := reaches hinj he hN
  exact ⟨M, h1, n, h2, h3.good.le, (has_last h3).1⟩

/-- **C101**: what stays as it is at the server comes into the cache and stays there: if from move `N` on
no change is about the key `k`, then from some move on the cache has under `k` exactly what the server has,
however often other objects change. -/
theorem C101_comes (A : Access O G) (key : O → Option K) (ver : Nat → String)
    (hinj : Function.Injective ver) (p : ℚ) {f : Nat → Act O} {L : Nat} (he : Endless A key ver p f L)
    (hclean : Clean key (at_ A key ver p f L)) {N : Nat} (hN : L < N) (k : K)
    (hstay : ∀ m, N ≤ m → ∀ c ∈ (at_ A key ver p f m).hist.drop (at_ A key ver p f N).hist.length,
      key c.obj ≠ some k) :
    ∃ M, N ≤ M ∧ ∀ m, M ≤ m →
      (at_ A key ver p f m).inf.items.get? k = (held key (at_ A key ver p f N).hist k).map .real :=
  comes hinj he hclean hN k hstay

/-! ### A concrete run -/

/-- Objects: key and version. -/
private abbrev Ob := Nat × Nat

private def ver0 (n : Nat) : String := String.ofList (List.replicate n 'a')

private theorem ver0_inj : Function.Injective ver0 := by
  intro a b h
  have := congrArg (fun s : String => s.toList.length) h
  simpa [ver0] using this

private def key0 (o : Ob) : Option Nat := some o.1

private def A0 : Access Ob Unit where
  isExpected _ := true
  gvk _ := some ()
  isObject _ := true
  version o := some (ver0 o.2)
  expected := none

private def okAll : Nat → DeltaFifo.Outcome := fun _ => .ok

/-- A list, a watch that sends a change and a bookmark and ends, changes while there is no watch, a watch
from there, a resync. -/
private def begin0 : List (Act Ob) :=
  [.change (.put (1, 1)), .tasks .list, .listed 1 [(1, 1)], .tasks (.replaced true), .opened 1,
    .change (.put (2, 2)), .event, .bookmark (0, 2), .tasks .resume, .tasks .readEnd, .tasks .stored,
    .tasks .resume, .tasks .resume, .change (.put (1, 3)), .pop okAll, .change (.del (2, 4)), .tasks .tasksEnded,
    .opened 2, .event, .event, .tasks .resume, .tasks .stored, .tasks (.pass 1), .tasks (.tick (some true)),
    .tasks (.resynced true), .tasks .resume, .tasks .stored, .pop okAll, .pop okAll, .pop okAll]

/-- After that, everybody tries in turn. -/
private def run0 (n : Nat) : Act Ob :=
  match begin0[n]? with
  | some a => a
  | none => match n % 4 with
    | 0 => .tasks .resume
    | 1 => .tasks .stored
    | 2 => .tasks .tasksEnded
    | _ => .pop okAll

private abbrev T (n : Nat) : State Nat Ob := at_ A0 key0 ver0 1 run0 n

private theorem t30 : (T 30).refl.pc = .waiting ∧ (T 30).refl.queue = [] ∧ (T 30).refl.errTask = .waiting ∧
    (T 30).inf.q.queue = [] ∧ (T 30).inf.items = [(1, .real (1, 3))] ∧ (T 30).pos = 4 ∧
    (T 30).hist.length = 4 ∧ (T 30).refl.last = ver0 4 := by decide +kernel

private theorem run0_rest {n : Nat} (h : 30 ≤ n) : run0 n = .tasks .resume ∨ run0 n = .tasks .stored ∨
    run0 n = .tasks .tasksEnded ∨ run0 n = .pop okAll := by
  have : begin0[n]? = none := List.getElem?_eq_none (by simpa [begin0] using h)
  unfold run0
  rw [this]
  simp only
  split <;> simp

private theorem rest0 {n : Nat} (h : 30 ≤ n) : T n = T 30 := by
  induction n, h using Nat.le_induction with
  | base => rfl
  | succ n h ih =>
    obtain ⟨h1, h2, h3, h4, -⟩ := t30
    have hs : step A0 key0 ver0 1 (T n) (run0 n) = none := by
      rw [ih]
      rcases run0_rest h with h | h | h | h <;> rw [h]
      · simp [step, answers, move, ReflectorTasks.step, h1, h2, h3]
      · simp [step, answers, h1]
      · simp [step, answers, move, ReflectorTasks.step, h1]
      · simp [step, h4]
    show (step A0 key0 ver0 1 (T n) (run0 n)).getD (T n) = _
    rw [hs, ← ih]; rfl

private theorem run0_at (N r : Nat) (hr : r < 4) : ∃ m, N ≤ m ∧ 30 ≤ m ∧ m % 4 = r ∧ begin0[m]? = none := by
  refine ⟨4 * (N + 8) + r, by omega, by omega, by omega, List.getElem?_eq_none ?_⟩
  simp [begin0]; omega

private theorem healthy0 (n : Nat) : Healthy A0 (run0 n) := by
  by_cases h : 30 ≤ n
  · rcases run0_rest h with h | h | h | h <;> rw [h]
    · trivial
    · trivial
    · trivial
    · exact fun _ => rfl
  · have hb : ∀ (o : Ob), ¬ Reflector.Spec.Fatal A0 ⟨.bookmark, o, false⟩ := by
      rintro o (h | ⟨-, h, -⟩ | ⟨-, h⟩) <;> cases h
    have h' : ∃ a, a ∈ begin0 ∧ run0 n = a := by
      have hn : n < begin0.length := by simp [begin0]; omega
      exact ⟨begin0[n], List.getElem_mem hn, by simp [run0, List.getElem?_eq_getElem hn]⟩
    obtain ⟨a, ha, hr⟩ := h'
    rw [hr]
    simp only [begin0, List.mem_cons, List.not_mem_nil, or_false] at ha
    rcases ha with rfl | rfl | rfl | rfl | rfl | rfl | rfl | rfl | rfl | rfl | rfl | rfl | rfl | rfl | rfl | rfl |
      rfl | rfl | rfl | rfl | rfl | rfl | rfl | rfl | rfl | rfl | rfl | rfl | rfl | rfl <;>
      first | trivial | exact hb _ | exact fun _ => rfl

private theorem endless0 : Endless A0 key0 ver0 1 run0 3 where
  serves m := by
    cases run0 m <;> first | trivial | (refine ⟨rfl, ?_, rfl⟩; intro g hg; cases hg)
  list := ⟨rfl, [(1, 1)], ver0 1, by decide +kernel⟩
  healthy m _ := healthy0 m
  long m _ := by
    by_cases h : 30 ≤ m
    · show (T m).refl.pc ≠ _
      rw [rest0 h, t30.1]; nofun
    · have : ∀ m < 30, (T m).refl.pc ≠ .leavingWatch .tooShort := by decide +kernel
      exact this m (by omega)
  resume N := by
    obtain ⟨m, h1, -, h2, h3⟩ := run0_at N 0 (by omega)
    exact ⟨m, h1, by simp [run0, h2, h3]⟩
  stored N := by
    obtain ⟨m, h1, -, h2, h3⟩ := run0_at N 1 (by omega)
    exact ⟨m, h1, by simp [run0, h2, h3]⟩
  tasksEnded N := by
    obtain ⟨m, h1, -, h2, h3⟩ := run0_at N 2 (by omega)
    exact ⟨m, h1, by simp [run0, h2, h3]⟩
  pop N := by
    obtain ⟨m, h1, -, h2, h3⟩ := run0_at N 3 (by omega)
    exact ⟨m, okAll, h1, by simp [run0, h2, h3]⟩
  opened N _ := by
    refine ⟨max N 30, by omega, Or.inl ?_⟩
    show (T (max N 30)).refl.pc ≠ _
    rw [rest0 (by omega), t30.1]; nofun
  event N h := by
    exfalso
    obtain ⟨m, h1, h2⟩ := h 30
    change (step A0 key0 ver0 1 (T m) .event).isSome = true at h2
    rw [rest0 h1] at h2
    have : event key0 (T 30).hist (T 30).pos = none := by decide +kernel
    simp [step, this] at h2

private theorem clean0 : Clean key0 (T 3) := by
  have h : Informer.Spec.pending (T 3).inf = fun _ => [] := by
    have : (T 3).inf.q.items = [] := by decide +kernel
    funext k
    simp [Informer.Spec.pending, this, PyDict.get?]
  intro items v _ k
  refine ⟨?_, fun hne => absurd (by rw [h]) hne⟩
  rintro - ⟨d, hd', -⟩
  rw [h] at hd'
  cases hd'

/-- The hypotheses hold of this run: object 1 was changed while there was no watch, object 2 came and
went. -/
example : Endless A0 key0 ver0 1 run0 3 ∧ Clean key0 (T 3) ∧
    (∀ m, 16 ≤ m → ∀ c ∈ (T m).hist.drop (T 16).hist.length, key0 c.obj ≠ some 1) ∧
    held key0 (T 16).hist 1 = some (1, 3) ∧ held key0 (T 16).hist 2 = none ∧
    (T 16).inf.items = [(1, .real (1, 1))] ∧ (T 30).inf.items = [(1, .real (1, 3))] := by
  refine ⟨endless0, clean0, ?_, by decide +kernel, by decide +kernel, by decide +kernel, by decide +kernel⟩
  intro m hm c hc
  have hd : (T m).hist.drop (T 16).hist.length = [] := by
    by_cases h : 30 ≤ m
    · rw [rest0 h]; decide +kernel
    · have : ∀ m < 30, (T m).hist.drop (T 16).hist.length = [] := by decide +kernel
      exact this m (by omega)
  rw [hd] at hc
  cases hc

end Aiok8s.Follow
