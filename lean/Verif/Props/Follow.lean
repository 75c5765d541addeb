import Verif.Proof.Follow
/-!
# The cache follows the API server: C100
-/
namespace Aiok8s.Follow
open Aiok8s.Reflector (Access)
open Aiok8s.Informer.Spec (Drained CleanAt)
open Spec
variable {K O G : Type} [DecidableEq K] [DecidableEq O] [DecidableEq G]

private theorem split {A : Access O G} {key : O → Option K} {ver : Nat → String}
    (hinj : Function.Injective ver) {p : ℚ} {as bs : List (Act O)} {ok : Bool} {s0 s : State K O}
    (h0 : exec A key ver p init as = some s0)
    (h : exec A key ver p s0 (.tasks (.replaced ok) :: bs) = some s)
    (hserve : ∀ a ∈ as ++ bs, Serves A a) (hclean : Clean key s0)
    (hlast : ∀ a ∈ bs, ¬ Lists a) (hok : ∀ a ∈ bs, HandlerOk a) :
    ∃ m, Good A key ver s m ∧ Will key ver s m := by
  obtain ⟨m0, g0, i0, -⟩ := good_exec (A := A) (key := key) hinj as good_init
    ⟨[], Informer.inv_init key⟩ h0 fun a ha => hserve a (by simp [ha])
  simp only [exec] at h
  split at h
  · cases h
  · rename_i s1 h1
    obtain ⟨m1, g1, e1, p1⟩ := good_step hinj g0 h1 trivial
    have hh : s1.hist = s0.hist := by
      simp only [step, answers, Bool.false_eq_true, if_false] at h1
      split at h1
      · obtain ⟨s2, ht, hm⟩ := Option.bind_eq_some_iff.1 h1
        unfold take at ht
        simp only at ht
        split at ht
        · cases ht
          unfold move at hm
          split at hm <;> cases hm
          rfl
        · cases ht
      · cases h1
    exact will_exec hinj bs g1 (will_list e1 p1 (hh ▸ g1.le) i0 hclean) h
      (fun a ha => hserve a (by simp [ha])) hlast hok

/-- **C100**, for histories whose last list was stored at a clean moment (see C31): whenever nothing is
pending, the cache holds exactly the objects that the API server had at the reflector's
`_last_sync_resource_version`.  Anything may have happened before: changes at any time, lists of any
version, watches that failed, ended, sent errors or were resumed, resyncs, failing handlers; after the
last list anything but failing handlers.  Missing: lists at other moments, see
`C100_refuted_ghost`. -/
theorem C100_follows_partial (A : Access O G) (key : O → Option K) (ver : Nat → String)
    (hinj : Function.Injective ver) (p : ℚ) {as bs : List (Act O)} {ok : Bool} {s0 s : State K O}
    (h0 : exec A key ver p init as = some s0)
    (h : exec A key ver p s0 (.tasks (.replaced ok) :: bs) = some s)
    (hserve : ∀ a ∈ as ++ bs, Serves A a) (hclean : Clean key s0)
    (hlast : ∀ a ∈ bs, ¬ Lists a) (hok : ∀ a ∈ bs, HandlerOk a) (hd : Drained s.inf) :
    ∃ n, s.refl.last = ver n ∧ Agrees key s n := by
  obtain ⟨m, hg, hl, log, hi, hv⟩ := split hinj h0 h hserve hclean hlast hok
  exact ⟨m, hl, hg.le, fun k => by rw [← hv k, Informer.eventual_drained hi hd k]⟩

/-- **C100**: a moment at which nothing is pending is clean. -/
theorem C100_drained_clean (A : Access O G) (key : O → Option K) (ver : Nat → String)
    (hinj : Function.Injective ver) (p : ℚ) {as : List (Act O)} {s : State K O}
    (h : exec A key ver p init as = some s) (hserve : ∀ a ∈ as, Serves A a) (hd : Drained s.inf) :
    Clean key s := by
  obtain ⟨m0, g0, ⟨log, hi⟩, -⟩ := good_exec (A := A) (key := key) hinj as good_init
    ⟨[], Informer.inv_init key⟩ h hserve
  intro items v _ k
  have hp : Informer.Spec.pending s.inf k = [] := by
    unfold Informer.Spec.pending
    cases hg : s.inf.q.items.get? k with
    | none => rfl
    | some ds =>
      have : k ∈ s.inf.q.items.keys := PyDict.get?_isSome.1 (by simp [hg])
      rw [← hi.sim.queue, hd] at this
      cases this
  refine ⟨?_, fun hne => absurd hp hne⟩
  rintro - ⟨d, hd', -⟩
  rw [hp] at hd'
  cases hd'

/-- **C100**, between two lists: the version never goes back.  Missing: lists, see
`C100_refuted_back`. -/
theorem C100_forward_partial (A : Access O G) (key : O → Option K) (ver : Nat → String)
    (hinj : Function.Injective ver) (p : ℚ) {as bs : List (Act O)} {s s' : State K O}
    (h : exec A key ver p init as = some s) (h' : exec A key ver p s bs = some s')
    (hserve : ∀ a ∈ as ++ bs, Serves A a) (hlast : ∀ a ∈ bs, ¬ Lists a) (n : Nat)
    (hn : s.refl.last = ver n) : ∃ n', n ≤ n' ∧ s'.refl.last = ver n' := by
  obtain ⟨m0, g0, -⟩ := good_exec (A := A) (key := key) hinj as good_init
    ⟨[], Informer.inv_init key⟩ h fun a ha => hserve a (by simp [ha])
  exact forward_exec hinj bs g0 hn h' (fun a ha => hserve a (by simp [ha])) hlast

/-- **C100**: when a watch is open and neither an error nor its end is under way, then however the watch,
the loop and the processing take turns, they have nothing left to do after a bounded number of steps; and
when they have nothing left to do, the reflector has the server's newest version and (if the last list
came at a clean moment) the cache is the server's content.  Missing: the other moments. -/
theorem C100_settles_partial (A : Access O G) (key : O → Option K) (ver : Nat → String)
    (hinj : Function.Injective ver) (p : ℚ) {as bs cs : List (Act O)} {ok : Bool} {s0 s s' : State K O}
    (h0 : exec A key ver p init as = some s0)
    (h : exec A key ver p s0 (.tasks (.replaced ok) :: bs) = some s)
    (hserve : ∀ a ∈ as ++ bs, Serves A a) (hclean : Clean key s0)
    (hlast : ∀ a ∈ bs, ¬ Lists a) (hok : ∀ a ∈ bs, HandlerOk a)
    (hcalm : Calm A s) (h' : exec A key ver p s cs = some s') (hc : ∀ a ∈ cs, Settling a) :
    cs.length ≤ 4 * (s.hist.length - s.pos) + 3 * s.refl.queue.length + 2 + s.inf.q.queue.length ∧
    ((∀ a, Settling a → step A key ver p s' a = none) →
      Drained s'.inf ∧ s'.hist = s.hist ∧ s'.refl.last = ver s.hist.length ∧
      ∀ k, s'.inf.items.get? k = (held key s.hist k).map .real) := by
  obtain ⟨m, hg, hw⟩ := split hinj h0 h hserve hclean hlast hok
  have hi : ∃ log, Informer.Inv key s.inf log := ⟨_, hw.2.choose_spec.1⟩
  obtain ⟨k1, k2, k3⟩ := calm_exec hinj cs hg hi hcalm h' hc
  refine ⟨?_, fun hr => ?_⟩
  · unfold todo at k2
    revert k2
    cases s.refl.pc <;> simp only <;> intro k2 <;> omega
  · have hs : ∀ a ∈ cs, Serves A a ∧ ¬ Lists a ∧ HandlerOk a := by
      intro a ha
      have := hc a ha
      cases a with
      | tasks a =>
        refine ⟨trivial, ?_, trivial⟩
        cases a <;> first | exact fun h => h | cases this
      | pop f => exact ⟨trivial, fun h => h, this⟩
      | event => exact ⟨trivial, fun h => h, trivial⟩
      | _ => cases this
    obtain ⟨m', g', w'⟩ := will_exec hinj cs hg hw h' (fun a ha => (hs a ha).1) (fun a ha => (hs a ha).2.1)
      fun a ha => (hs a ha).2.2
    obtain ⟨r1, rfl, r3, -⟩ := rest g' k1 hr
    refine ⟨r1, k3, by rw [r3, k3], fun k => ?_⟩
    obtain ⟨-, log, hi', hv⟩ := w'
    rw [← Informer.eventual_drained hi' r1 k, hv k, List.take_length, k3]

/-! ### Concrete histories -/

/-- Objects: key and version. -/
private abbrev Ob := Nat × Nat

private def ver0 (n : Nat) : String := String.ofList (List.replicate n 'a')

private theorem ver0_inj : Function.Injective ver0 := by
  intro a b h
  have := congrArg (fun s : String => s.toList.length) h
  simpa [ver0] using this

private def key0 (o : Ob) : Option Nat := some o.1

private def A0 : Access Ob Unit where
  isExpected _ := true
  gvk _ := some ()
  isObject _ := true
  version o := some (ver0 o.2)
  expected := none

private theorem serves0 (as : List (Act Ob)) : ∀ a ∈ as, Serves A0 a := by
  intro a _
  cases a <;> first | trivial | (refine ⟨rfl, ?_, rfl⟩; intro g hg; cases hg)

private def okAll : Nat → DeltaFifo.Outcome := fun _ => .ok

/-- An object is made, listed, a watch is opened; another one is made and comes into the queue; then the
watch fails, and the object is deleted before the next list. -/
private def ghost : List (Act Ob) :=
  [.change (.put (1, 1)), .tasks .list, .listed 1 [(1, 1)], .tasks (.replaced true), .opened 1, .pop okAll,
    .change (.put (2, 2)), .event, .tasks .resume, .tasks .stored, .fault (0, 0), .tasks .resume,
    .tasks .readerEnds, .tasks .tasksEnded, .tasks .resyncEnds, .tasks .gathered, .change (.del (2, 3)),
    .tasks .list, .listed 3 [(1, 1)], .tasks (.replaced true), .opened 3, .pop okAll, .pop okAll]

private theorem ghost_ok : ∀ a ∈ ghost, HandlerOk a := by
  simp [ghost, HandlerOk, okAll]

/-- **C100** is false if something is pending when a list is stored: an object that was made and deleted
again before the list gets into the cache and stays there, although the reflector has the newest version
and nothing is pending. -/
theorem C100_refuted_ghost : ∃ (as : List (Act Ob)) (s : State Nat Ob),
    exec A0 key0 ver0 0 init as = some s ∧ (∀ a ∈ as, Serves A0 a) ∧ (∀ a ∈ as, HandlerOk a) ∧
    Drained s.inf ∧ s.refl.pc = .waiting ∧ s.refl.last = ver0 s.hist.length ∧
    s.inf.items.get? 2 = some (.real (2, 2)) ∧ held key0 s.hist 2 = none := by
  have h : ((exec A0 key0 ver0 0 init ghost).map fun s => decide (s.inf.q.queue = [] ∧
      s.refl.pc = .waiting ∧ s.refl.last = ver0 s.hist.length ∧ s.inf.items.get? 2 = some (.real (2, 2)) ∧
      held key0 s.hist 2 = none)) = some true := by decide +kernel
  obtain ⟨s, hs, hd⟩ := Option.map_eq_some_iff.1 h
  obtain ⟨h1, h2, h3, h4, h5⟩ := of_decide_eq_true hd
  exact ⟨ghost, s, hs, serves0 _, ghost_ok, h1, h2, h3, h4, h5⟩

/-- A history in which the second list is older than what the reflector had. -/
private def back1 : List (Act Ob) :=
  [.change (.put (1, 1)), .change (.put (2, 2)), .tasks .list, .listed 2 [(2, 2), (1, 1)],
    .tasks (.replaced true), .opened 2, .pop okAll, .pop okAll]

private def back2 : List (Act Ob) :=
  [.fault (0, 0), .tasks .resume, .tasks .readerEnds, .tasks .tasksEnded, .tasks .resyncEnds,
    .tasks .gathered, .tasks .list, .listed 1 [(1, 1)], .tasks (.replaced true), .opened 1, .pop okAll,
    .pop okAll]

/-- **C100** is false across lists: the reflector asks for lists with resource version `"0"`, which allows
the server to answer with any state it had; the cache goes back from version 2 to version 1, an object
vanishes that was never deleted. -/
theorem C100_refuted_back : ∃ (as bs : List (Act Ob)) (s s' : State Nat Ob),
    exec A0 key0 ver0 0 init as = some s ∧ exec A0 key0 ver0 0 s bs = some s' ∧
    (∀ a ∈ as ++ bs, Serves A0 a) ∧ Drained s.inf ∧ Drained s'.inf ∧
    s.refl.last = ver0 2 ∧ s'.refl.last = ver0 1 ∧
    s.inf.items.get? 2 = some (.real (2, 2)) ∧ s'.inf.items.get? 2 = none ∧
    held key0 s'.hist 2 = some (2, 2) := by
  have h : ((exec A0 key0 ver0 0 init back1).bind fun s => (exec A0 key0 ver0 0 s back2).map fun s' =>
      decide (s.inf.q.queue = [] ∧ s'.inf.q.queue = [] ∧
        s.refl.last = ver0 2 ∧ s'.refl.last = ver0 1 ∧
        s.inf.items.get? 2 = some (.real (2, 2)) ∧ s'.inf.items.get? 2 = none ∧
        held key0 s'.hist 2 = some (2, 2))) = some true := by decide +kernel
  obtain ⟨s, hs, h⟩ := Option.bind_eq_some_iff.1 h
  obtain ⟨s', hs', hd⟩ := Option.map_eq_some_iff.1 h
  obtain ⟨h1, h2, h3⟩ := of_decide_eq_true hd
  exact ⟨back1, back2, s, s', hs, hs', serves0 _, h1, h2, h3⟩

/-- A list, a watch that sends two changes and a bookmark and ends, a watch resumed from there, and a
resync; the last change is not sent yet. -/
private def before0 : List (Act Ob) :=
  [.change (.put (1, 1)), .change (.put (2, 2)), .tasks .list, .listed 2 [(2, 2), (1, 1)]]

private def after0 : List (Act Ob) :=
  [.opened 2, .change (.put (1, 3)), .pop okAll, .change (.del (2, 4)), .event, .event, .bookmark (0, 4),
    .tasks .resume, .tasks .stored, .tasks .readEnd, .tasks .resume, .tasks .stored, .tasks .resume,
    .tasks .resume, .tasks .tasksEnded, .opened 4, .pop okAll, .change (.put (3, 5)), .change (.del (1, 6))]

private def rest0 : List (Act Ob) :=
  [.event, .event, .tasks .resume, .pop okAll, .tasks .stored, .tasks .resume, .tasks .stored, .pop okAll,
    .pop okAll]

example : ∃ s0 s s', exec A0 key0 ver0 0 (init : State Nat Ob) before0 = some s0 ∧ Clean key0 s0 ∧
    exec A0 key0 ver0 0 s0 (.tasks (.replaced true) :: after0) = some s ∧ Calm A0 s ∧
    exec A0 key0 ver0 0 s rest0 = some s' ∧ (∀ a ∈ rest0, Settling a) ∧
    s'.inf.items = [(3, .real (3, 5))] ∧ s'.refl.last = ver0 6 := by
  have h : ((exec A0 key0 ver0 0 (init : State Nat Ob) before0).bind fun s0 =>
      (exec A0 key0 ver0 0 s0 (.tasks (.replaced true) :: after0)).bind fun s =>
      (exec A0 key0 ver0 0 s rest0).map fun s' => decide (s0.inf.q.queue = [] ∧
        (s.refl.pc = .waiting ∧ s.refl.reader = .reading ∧ s.refl.errTask = .waiting ∧
          s.refl.queue.length = 0) ∧
        s'.inf.items = [(3, .real (3, 5))] ∧ s'.refl.last = ver0 6)) = some true := by decide +kernel
  obtain ⟨s0, hs0, h⟩ := Option.bind_eq_some_iff.1 h
  obtain ⟨s, hs, h⟩ := Option.bind_eq_some_iff.1 h
  obtain ⟨s', hs', hd⟩ := Option.map_eq_some_iff.1 h
  obtain ⟨h1, ⟨h2, h3, h4, h5⟩, h6, h7⟩ := of_decide_eq_true hd
  refine ⟨s0, s, s', hs0, C100_drained_clean A0 key0 ver0 ver0_inj 0 hs0 (serves0 _) h1, hs,
    ⟨Or.inl h2, h3, h4, ?_⟩, hs', ?_, h6, h7⟩
  · rw [List.eq_nil_of_length_eq_zero h5]
    intro x hx
    cases hx
  · intro a ha
    simp only [rest0, List.mem_cons, List.not_mem_nil, or_false] at ha
    rcases ha with rfl | rfl | rfl | rfl | rfl | rfl | rfl | rfl | rfl <;> first | trivial | exact fun _ => rfl

end Aiok8s.Follow
