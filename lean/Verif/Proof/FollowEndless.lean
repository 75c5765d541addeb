import Verif.Spec.FollowEndless
import Verif.Proof.Follow
import Verif.Proof.ReflectorTasks
import Mathlib.Data.List.Induction
/-!
# Lemmas for C101
-/
set_option linter.unusedSimpArgs false
set_option linter.unusedSectionVars false
namespace Aiok8s.Follow
open Aiok8s.Reflector (Access Event EType Call)
open Aiok8s.Reflector.Spec (Wanted Fatal)
open Aiok8s.Informer.Spec
open Aiok8s.DeltaFifo (Outcome Obj keyOf)
open Aiok8s.DeltaFifo.Spec (Entry)
open Spec
variable {K O G : Type} [DecidableEq K] [DecidableEq O] [DecidableEq G]

/-! ### The reflector while nothing goes wrong -/

/-- Nothing goes wrong. -/
def Ok (A : Access O G) : ReflectorTasks.Act O → Prop
  | .watched ok => ok = true
  | .read e => ¬ Fatal A e
  | .readFail => False
  | .resynced ok => ok = true
  | .cancel => False
  | _ => True

/-- The reflector watches, and nothing bad is under way. -/
def Fine (A : Access O G) (r : ReflectorTasks.State O) : Prop :=
  r.error = false ∧ match r.pc with
    | .opening => r.reader = .none
    | .waiting | .storing _ => r.errTask = .waiting ∧ ∃ es : List (Event O), (∀ e ∈ es, ¬ Fatal A e) ∧
        ((r.reader = .reading ∧ r.queue = es.map some) ∨ (r.reader = .ended ∧ r.queue = es.map some ++ [none]))
    | .leavingWatch (.again _) => r.reader = .ended
    | _ => False

/-- What becomes of a watching reflector. -/
structure Trans (r r' : ReflectorTasks.State O) (a : ReflectorTasks.Act O) : Prop where
  storing : ∀ v, r.pc = .storing v → a ≠ .stored → r'.pc = .storing v
  waiting : r.pc = .waiting → a ≠ .resume → r'.pc = .waiting ∧ (∃ more, r'.queue = r.queue ++ more) ∧
    (r.reader = .ended → r'.reader = .ended ∧ r'.queue = r.queue)
  opening : r.pc = .opening → r'.pc = .opening ∨ (r'.pc = .waiting ∧ r'.reader = .reading)
  leaving : ∀ b, r.pc = .leavingWatch (.again b) → a ≠ .tasksEnded → r'.pc = .leavingWatch (.again b)

theorem trans_same (r : ReflectorTasks.State O) (a : ReflectorTasks.Act O) : Trans r r a :=
  ⟨fun _ h _ => h, fun h _ => ⟨h, ⟨[], by simp⟩, fun h => ⟨h, rfl⟩⟩, Or.inl, fun _ h _ => h⟩

theorem fine_step {A : Access O G} {p : ℚ} {r r' : ReflectorTasks.State O} {a : ReflectorTasks.Act O}
    {L : List (ReflectorTasks.Ev O)} (hf : Fine A r) (ha : Ok A a)
    (hs : ReflectorTasks.step A p r a = some (r', L)) (hn : r'.pc ≠ .leavingWatch .tooShort) :
    Fine A r' ∧ Trans r r' a := by
  obtain ⟨pc, version, last, count, start, reader, queue, errTask, error, resync, now⟩ := r
  obtain ⟨h0, hf⟩ := hf
  simp only at h0 hf
  subst h0
  have keep : ∀ {r' : ReflectorTasks.State O} {a : ReflectorTasks.Act O}, r'.pc = pc → r'.queue = queue →
      r'.reader = reader → r'.errTask = errTask → r'.error = false →
      Fine A r' ∧ Trans ⟨pc, version, last, count, start, reader, queue, errTask, false, resync, now⟩ r' a := by
    intro r' a h1 h2 h3 h4 h5
    refine ⟨⟨h5, ?_⟩, ⟨fun v h _ => h1.trans h, fun h _ => ⟨h1.trans h, ⟨[], by simp [h2]⟩, fun h => ⟨h3.trans h, h2⟩⟩,
      fun h => Or.inl (h1.trans h), fun b h _ => h1.trans h⟩⟩
    rw [h1, h2, h3, h4]
    exact hf
  cases a with
  | list => cases pc <;> simp [ReflectorTasks.step] at hs hf
  | listed x => cases pc <;> simp [ReflectorTasks.step] at hs hf
  | replaced ok => cases pc <;> simp [ReflectorTasks.step] at hs hf
  | watched ok =>
    cases ha
    cases pc <;> simp [ReflectorTasks.step] at hs
    obtain ⟨rfl, -⟩ := hs
    refine ⟨⟨rfl, rfl, [], by simp, Or.inl ⟨rfl, rfl⟩⟩, ⟨?_, ?_, ?_, ?_⟩⟩
    · intro v h; cases h
    · intro h; cases h
    · intro _; exact Or.inr ⟨rfl, rfl⟩
    · intro b h; cases h
  | read e =>
    cases reader <;> simp [ReflectorTasks.step] at hs
    obtain ⟨rfl, -⟩ := hs
    refine ⟨⟨rfl, ?_⟩, ⟨fun v h _ => h, fun h _ => ⟨h, ⟨[some e], rfl⟩, nofun⟩, Or.inl, fun b h _ => h⟩⟩
    simp only
    cases pc with
    | opening => cases hf
    | waiting =>
      obtain ⟨f1, es, f2, f3⟩ := hf
      refine ⟨f1, es ++ [e], ?_, Or.inl ⟨trivial, ?_⟩⟩
      · intro x hx
        rcases List.mem_append.1 hx with hx | hx
        · exact f2 x hx
        · cases List.mem_singleton.1 hx; exact ha
      · rcases f3 with ⟨-, rfl⟩ | ⟨h, -⟩
        · simp
        · cases h
    | storing v =>
      obtain ⟨f1, es, f2, f3⟩ := hf
      refine ⟨f1, es ++ [e], ?_, Or.inl ⟨trivial, ?_⟩⟩
      · intro x hx
        rcases List.mem_append.1 hx with hx | hx
        · exact f2 x hx
        · cases List.mem_singleton.1 hx; exact ha
      · rcases f3 with ⟨-, rfl⟩ | ⟨h, -⟩
        · simp
        · cases h
    | leavingWatch h => cases h <;> first | exact hf.elim | cases hf
    | _ => exact hf.elim
  | readEnd =>
    cases reader <;> simp [ReflectorTasks.step] at hs
    obtain ⟨rfl, -⟩ := hs
    refine ⟨⟨rfl, ?_⟩, ⟨fun v h _ => h, fun h _ => ⟨h, ⟨[none], rfl⟩, nofun⟩, Or.inl, fun b h _ => h⟩⟩
    simp only
    cases pc with
    | opening => cases hf
    | waiting =>
      obtain ⟨f1, es, f2, f3⟩ := hf
      refine ⟨f1, es, f2, Or.inr ⟨trivial, ?_⟩⟩
      rcases f3 with ⟨-, rfl⟩ | ⟨h, -⟩
      · rfl
      · cases h
    | storing v =>
      obtain ⟨f1, es, f2, f3⟩ := hf
      refine ⟨f1, es, f2, Or.inr ⟨trivial, ?_⟩⟩
      rcases f3 with ⟨-, rfl⟩ | ⟨h, -⟩
      · rfl
      · cases h
    | leavingWatch h => cases h <;> first | exact hf.elim | cases hf
    | _ => exact hf.elim
  | readFail => cases ha
  | errGet => cases errTask <;> simp [ReflectorTasks.step] at hs
  | resume =>
    cases pc with
    | waiting =>
      obtain ⟨rfl, es, f2, f3⟩ := hf
      have hnone : ∀ {r' : ReflectorTasks.State O}, Trans
          ⟨.waiting, version, last, count, start, reader, queue, .waiting, false, resync, now⟩ r' .resume :=
        ⟨nofun, fun _ h => absurd rfl h, nofun, nofun⟩
      refine ⟨?_, hnone⟩
      cases es with
      | nil =>
        rcases f3 with ⟨rfl, rfl⟩ | ⟨rfl, rfl⟩
        · simp [ReflectorTasks.step] at hs
        · simp only [ReflectorTasks.step, List.map_nil, List.nil_append, ReflectorTasks.onTaken,
            Option.some.injEq, Prod.mk.injEq] at hs
          obtain ⟨rfl, -⟩ := hs
          refine ⟨rfl, ?_⟩
          by_cases hc : (decide (now - start < 1) && count == 0) = true
          · exact absurd (by simp [ReflectorTasks.leaveWatch, hc]) hn
          · simp [ReflectorTasks.leaveWatch, hc]
      | cons e es =>
        have f2' : ∀ x ∈ es, ¬ Fatal A x := fun x hx => f2 x (by simp [hx])
        have he : ¬ Fatal A e := f2 e (by simp)
        obtain ⟨q', hq, f4⟩ : ∃ q', queue = some e :: q' ∧
            ((reader = .reading ∧ q' = es.map some) ∨ (reader = .ended ∧ q' = es.map some ++ [none])) := by
          rcases f3 with ⟨h1, rfl⟩ | ⟨h1, rfl⟩
          · exact ⟨_, rfl, Or.inl ⟨h1, rfl⟩⟩
          · exact ⟨_, rfl, Or.inr ⟨h1, rfl⟩⟩
        subst hq
        simp only [ReflectorTasks.step, ReflectorTasks.onTaken, Option.some.injEq] at hs
        rcases Reflector.onEvent_spec A e with ⟨-, h4⟩ | ⟨h4, -⟩ | ⟨v, h4, -⟩
        · exact absurd h4 he
        · simp only [h4, Prod.mk.injEq] at hs
          obtain ⟨rfl, -⟩ := hs
          exact ⟨rfl, rfl, es, f2', f4⟩
        · simp only [h4] at hs
          split at hs
          · cases hs
            exact ⟨rfl, rfl, es, f2', f4⟩
          · cases hs
            exact ⟨rfl, rfl, es, f2', f4⟩
    | _ => simp [ReflectorTasks.step] at hs
  | stored =>
    cases pc <;> simp [ReflectorTasks.step] at hs
    obtain ⟨rfl, -⟩ := hs
    exact ⟨⟨rfl, hf⟩, ⟨fun v _ h => absurd rfl h, nofun, nofun, nofun⟩⟩
  | readerEnds =>
    cases reader <;> simp [ReflectorTasks.step] at hs
    exfalso
    cases pc with
    | opening => cases hf
    | waiting => obtain ⟨-, es, -, f3⟩ := hf; rcases f3 with ⟨h, -⟩ | ⟨h, -⟩ <;> cases h
    | storing v => obtain ⟨-, es, -, f3⟩ := hf; rcases f3 with ⟨h, -⟩ | ⟨h, -⟩ <;> cases h
    | leavingWatch h => cases h <;> first | exact hf.elim | cases hf
    | _ => exact hf.elim
  | tasksEnded =>
    cases pc with
    | leavingWatch h =>
      cases h <;> simp only at hf
      subst hf
      simp only [ReflectorTasks.step, Option.some.injEq, Prod.mk.injEq] at hs
      obtain ⟨rfl, -⟩ := hs
      exact ⟨⟨rfl, rfl⟩, ⟨nofun, nofun, fun _ => Or.inl rfl,
        fun b _ h => absurd rfl h⟩⟩
    | _ => simp [ReflectorTasks.step] at hs
  | tick sh =>
    simp only [ReflectorTasks.step] at hs
    split at hs
    · split at hs
      · split at hs <;> cases hs <;> exact keep rfl rfl rfl rfl rfl
      · cases hs
    · cases hs
  | resynced ok =>
    cases ha
    cases resync <;> simp [ReflectorTasks.step] at hs
    obtain ⟨rfl, -⟩ := hs
    exact keep rfl rfl rfl rfl rfl
  | resyncEnds =>
    cases resync <;> simp [ReflectorTasks.step] at hs
    obtain ⟨rfl, -⟩ := hs
    exact keep rfl rfl rfl rfl rfl
  | gathered => cases pc <;> cases resync <;> simp [ReflectorTasks.step] at hs hf
  | cancel => cases ha
  | pass d =>
    simp only [ReflectorTasks.step] at hs
    split at hs <;> cases hs
    exact keep rfl rfl rfl rfl rfl

/-- What the reflector's step comes from. -/
def Comes (a : Act O) (a' : ReflectorTasks.Act O) : Prop :=
  (a' = .resume → a = .tasks .resume) ∧ (a' = .stored → a = .tasks .stored) ∧
  (a' = .tasksEnded → a = .tasks .tasksEnded) ∧ ∀ b, a = .tasks b → a' = b

variable {A : Access O G} {key : O → Option K} {ver : Nat → String}

theorem move_refl {p : ℚ} {s s' : State K O} {a : ReflectorTasks.Act O} (h : move A p s a = some s') :
    ∃ L, ReflectorTasks.step A p s.refl a = some (s'.refl, L) := by
  unfold move at h
  split at h
  · cases h
  · rename_i r L hr
    cases h
    exact ⟨L, hr⟩

theorem take_refl {s s' : State K O} {e : Informer.Ev K O} {ok : Bool} (h : take key s e ok = some s') :
    s'.refl = s.refl := by
  unfold take at h
  simp only at h
  split at h <;> cases h
  rfl

/-- A step, seen from the reflector. -/
theorem reduce_any {p : ℚ} {s s' : State K O} {a : Act O} (hs : step A key ver p s a = some s') :
    s'.refl = s.refl ∨ ∃ a' L, ReflectorTasks.step A p s.refl a' = some (s'.refl, L) := by
  cases a with
  | change c =>
    simp only [step] at hs
    split at hs <;> cases hs
    exact Or.inl rfl
  | listed n items =>
    simp only [step] at hs
    split at hs
    · exact Or.inr ⟨_, move_refl hs⟩
    · cases hs
  | opened n =>
    simp only [step] at hs
    split at hs
    · obtain ⟨s1, h1, rfl⟩ := Option.map_eq_some_iff.1 hs
      exact Or.inr ⟨_, move_refl (s' := s1) h1⟩
    · cases hs
  | event =>
    simp only [step] at hs
    split at hs
    · obtain ⟨s1, h1, rfl⟩ := Option.map_eq_some_iff.1 hs
      exact Or.inr ⟨_, move_refl (s' := s1) h1⟩
    · cases hs
  | bookmark o =>
    simp only [step] at hs
    split at hs
    · exact Or.inr ⟨_, move_refl hs⟩
    · cases hs
  | fault o => exact Or.inr ⟨_, move_refl hs⟩
  | tasks a =>
    simp only [step] at hs
    split at hs
    · cases hs
    split at hs
    · split at hs
      · obtain ⟨s1, h1, h2⟩ := Option.bind_eq_some_iff.1 hs
        rw [← take_refl h1]
        exact Or.inr ⟨_, move_refl h2⟩
      · cases hs
    · split at hs
      · obtain ⟨L, h⟩ := move_refl hs
        exact Or.inr ⟨_, L, h⟩
      · cases hs
    · split at hs
      · obtain ⟨s1, h1, h2⟩ := Option.bind_eq_some_iff.1 hs
        rw [← take_refl h1]
        exact Or.inr ⟨_, move_refl h2⟩
      · cases hs
    · exact Or.inr ⟨_, move_refl hs⟩
  | pop h =>
    simp only [step] at hs
    split at hs <;> cases hs
    exact Or.inl rfl

theorem reduce {p : ℚ} {s s' : State K O} {m : Nat} {a : Act O} (hg : Good A key ver s m)
    (ha : Healthy A a) (hs : step A key ver p s a = some s') :
    s'.refl = s.refl ∧ (∀ b, a ≠ .tasks b) ∨
    ∃ a' L, ReflectorTasks.step A p s.refl a' = some (s'.refl, L) ∧ Ok A a' ∧ Comes a a' := by
  cases a with
  | change c =>
    simp only [step] at hs
    split at hs <;> cases hs
    exact Or.inl ⟨rfl, by simp⟩
  | listed n items =>
    simp only [step] at hs
    split at hs
    · obtain ⟨L, h⟩ := move_refl hs
      exact Or.inr ⟨_, L, h, trivial, nofun, nofun, nofun, nofun⟩
    · cases hs
  | opened n =>
    simp only [step] at hs
    split at hs
    · obtain ⟨s1, h1, rfl⟩ := Option.map_eq_some_iff.1 hs
      obtain ⟨L, h⟩ := move_refl h1
      exact Or.inr ⟨_, L, h, rfl, nofun, nofun, nofun, nofun⟩
    · cases hs
  | event =>
    simp only [step] at hs
    split at hs
    · rename_i e he
      obtain ⟨s1, h1, rfl⟩ := Option.map_eq_some_iff.1 hs
      obtain ⟨L, h⟩ := move_refl h1
      exact Or.inr ⟨_, L, h, (onEvent_event hg.sound he).2, nofun, nofun, nofun, nofun⟩
    · cases hs
  | bookmark o =>
    simp only [step] at hs
    split at hs
    · obtain ⟨L, h⟩ := move_refl hs
      exact Or.inr ⟨_, L, h, ha, nofun, nofun, nofun, nofun⟩
    · cases hs
  | fault o => cases ha
  | tasks a =>
    simp only [step] at hs
    have hc : Comes (.tasks a) a := ⟨by rintro rfl; rfl, by rintro rfl; rfl, by rintro rfl; rfl, by
      intro b hb; cases hb; rfl⟩
    split at hs
    · cases hs
    rename_i han
    have hok : Ok A a := by
      cases a <;> first | trivial | exact ha | cases ha | exact absurd rfl han
    split at hs
    · split at hs
      · obtain ⟨s1, h1, h2⟩ := Option.bind_eq_some_iff.1 hs
        rw [← take_refl h1]
        obtain ⟨L, h⟩ := move_refl h2
        exact Or.inr ⟨_, L, h, hok, hc⟩
      · cases hs
    · split at hs
      · obtain ⟨L, h⟩ := move_refl hs
        exact Or.inr ⟨_, L, h, hok, hc⟩
      · cases hs
    · split at hs
      · obtain ⟨s1, h1, h2⟩ := Option.bind_eq_some_iff.1 hs
        rw [← take_refl h1]
        obtain ⟨L, h⟩ := move_refl h2
        exact Or.inr ⟨_, L, h, hok, hc⟩
      · cases hs
    · obtain ⟨L, h⟩ := move_refl hs
      exact Or.inr ⟨_, L, h, hok, hc⟩
  | pop h =>
    simp only [step] at hs
    split at hs <;> cases hs
    exact Or.inl ⟨rfl, by simp⟩

/-! ### Where the run is -/

section Run
variable {p : ℚ} {f : Nat → Act O} {L : Nat}

local notation "S" => at_ A key ver p f

theorem at_cases (t : Nat) : S (t + 1) = S t ∨ step A key ver p (S t) (f t) = some (S (t + 1)) := by
  cases h : step A key ver p (S t) (f t) with
  | none => exact Or.inl (by simp [at_, h])
  | some s => exact Or.inr (by simp [at_, h])

theorem at_some {t : Nat} {s : State K O} (h : step A key ver p (S t) (f t) = some s) : S (t + 1) = s := by
  simp [at_, h]

theorem good_at (hinj : Function.Injective ver) (hserve : ∀ m, Serves A (f m)) (t : Nat) :
    (∃ m, Good A key ver (S t) m) ∧ (∃ log, Informer.Inv key (S t).inf log) ∧
      ReflectorTasks.Shape (S t).refl := by
  induction t with
  | zero => exact ⟨⟨0, good_init⟩, ⟨[], Informer.inv_init key⟩, ReflectorTasks.shape_init⟩
  | succ t ih =>
    obtain ⟨⟨m, hg⟩, hi, hsh⟩ := ih
    rcases at_cases (A := A) (key := key) (ver := ver) (p := p) (f := f) t with h | h
    · rw [h]; exact ⟨⟨m, hg⟩, hi, hsh⟩
    · obtain ⟨m', g, e, -⟩ := good_step hinj hg h (hserve t)
      refine ⟨⟨m', g⟩, inv_effect e hi, ?_⟩
      rcases reduce_any h with h1 | ⟨a', L, h1⟩
      · rw [h1]; exact hsh
      · exact ReflectorTasks.shape_step hsh h1

/-- The version the reflector has, and that all is well. -/
structure Has (A : Access O G) (key : O → Option K) (ver : Nat → String) (s : State K O) (m : Nat) :
    Prop where
  good : Good A key ver s m
  fine : Fine A s.refl

theorem has_last {s : State K O} {m : Nat} (h : Has A key ver s m) :
    s.refl.last = ver m ∧ s.refl.version = ver m := by
  obtain ⟨⟨-, -, hc⟩, -, hf⟩ := h
  unfold Ctl at hc
  cases hpc : s.refl.pc <;> rw [hpc] at hc hf <;> first | exact hf.elim | exact ⟨hc.2, hc.1⟩ | exact ⟨hc.2.1, hc.1⟩

theorem has_unique (hinj : Function.Injective ver) {s : State K O} {m n : Nat} (h : Has A key ver s m)
    (hn : s.refl.last = ver n) : m = n := hinj ((has_last h).1.symm.trans hn)

/-- The list is stored. -/
theorem has_list (hinj : Function.Injective ver) (he : Endless A key ver p f L) :
    step A key ver p (S L) (f L) = some (S (L + 1)) ∧ ∃ m, Has A key ver (S (L + 1)) m := by
  obtain ⟨⟨m, hg⟩, ⟨log, hi⟩, hsh⟩ := good_at (A := A) (key := key) (p := p) hinj he.serves L
  obtain ⟨hf, items, v, hpc⟩ := he.list
  have hctl := hg.ctl
  simp only [Ctl, hpc] at hctl
  obtain ⟨hcur, n, hn, hv, hperm⟩ := hctl
  have hr : raises (Informer.step key (S L).inf (.replace (items.map .real))).2.2 = false :=
    raises_replace (by
      intro x hx
      obtain ⟨o, ho, rfl⟩ := List.mem_map.1 hx
      exact (listed_content key _ items hperm).1 _ hx) _
  have hstep : ∃ s, step A key ver p (S L) (f L) = some s := by
    rw [hf]
    simp [step, answers, hpc, hcur, take, hr, move, ReflectorTasks.step]
  obtain ⟨s, hs⟩ := hstep
  have hs' := hs
  rw [← at_some hs] at hs
  refine ⟨hs, ?_⟩
  obtain ⟨m', g, -, -⟩ := good_step hinj hg hs (he.serves L)
  refine ⟨m', g, ?_⟩
  rw [at_some hs']
  rw [hf] at hs'
  simp [step, answers, hpc, hcur, take, hr, move, ReflectorTasks.step] at hs'
  subst hs'
  simp only [ReflectorTasks.Shape, hpc] at hsh
  exact ⟨rfl, hsh.1⟩

theorem has_step (hinj : Function.Injective ver) (he : Endless A key ver p f L) {t m : Nat} (ht : L < t)
    (h : Has A key ver (S t) m) : ∃ m', Has A key ver (S (t + 1)) m' ∧ (m' = m ∨ m' = m + 1) ∧
      (S t).hist <+: (S (t + 1)).hist ∧
      ∃ a', Trans (S t).refl (S (t + 1)).refl a' ∧ Comes (f t) a' := by
  have hc0 : ∃ a', Comes (f t) a' := by
    by_cases hb : ∃ b, f t = .tasks b
    · obtain ⟨b, hb⟩ := hb
      refine ⟨b, ?_⟩
      rw [hb]
      exact ⟨by rintro rfl; rfl, by rintro rfl; rfl, by rintro rfl; rfl, by intro b hb; cases hb; rfl⟩
    · exact ⟨.list, nofun, nofun, nofun, fun b h => absurd ⟨b, h⟩ hb⟩
  rcases at_cases (A := A) (key := key) (ver := ver) (p := p) (f := f) t with h1 | h1
  · rw [h1]
    obtain ⟨a', ha⟩ := hc0
    exact ⟨m, h, Or.inl rfl, List.prefix_rfl, a', trans_same _ _, ha⟩
  · obtain ⟨m', g, e, hp⟩ := good_step hinj h.good h1 (he.serves t)
    rcases reduce h.good (he.healthy t ht) h1 with ⟨h2, -⟩ | ⟨a', l, h2, h3, h4⟩
    · have hf : Fine A (S (t + 1)).refl := by rw [h2]; exact h.fine
      obtain ⟨a', ha⟩ := hc0
      refine ⟨m', ⟨g, hf⟩, Or.inl ?_, hp, a', by rw [h2]; exact trans_same _ _, ha⟩
      exact has_unique hinj ⟨g, hf⟩ (by rw [h2]; exact (has_last h).1)
    · obtain ⟨hf, htr⟩ := fine_step h.fine h3 h2 (he.long (t + 1) (by omega))
      refine ⟨m', ⟨g, hf⟩, ?_, hp, a', htr, h4⟩
      generalize f t = a at e
      cases e with
      | same _ _ hm => exact Or.inl hm
      | stored _ _ _ _ _ hm => exact Or.inr hm
      | resynced _ _ hm => exact Or.inl hm
      | popped _ _ hm => exact Or.inl hm
      | listed hpc =>
        exfalso
        have := h.fine.2
        rw [hpc] at this
        exact this

theorem has_at (hinj : Function.Injective ver) (he : Endless A key ver p f L) {t : Nat} (ht : L < t) :
    ∃ m, Has A key ver (S t) m := by
  induction t, ht using Nat.le_induction with
  | base => exact (has_list hinj he).2
  | succ t ht ih =>
    obtain ⟨m, h⟩ := ih
    obtain ⟨m', h', -⟩ := has_step hinj he ht h
    exact ⟨m', h'⟩

theorem hist_mono (hinj : Function.Injective ver) (he : Endless A key ver p f L) {t t' : Nat} (ht : L < t)
    (h : t ≤ t') : (S t).hist <+: (S t').hist := by
  induction t', h using Nat.le_induction with
  | base => exact List.prefix_rfl
  | succ t' h ih =>
    obtain ⟨m, hm⟩ := has_at hinj he (lt_of_lt_of_le ht h)
    obtain ⟨-, -, -, h2, -⟩ := has_step hinj he (lt_of_lt_of_le ht h) hm
    exact ih.trans h2

theorem has_mono (hinj : Function.Injective ver) (he : Endless A key ver p f L) {t t' m m' : Nat} (ht : L < t)
    (h : t ≤ t') (h1 : Has A key ver (S t) m) (h2 : Has A key ver (S t') m') : m ≤ m' := by
  induction t', h using Nat.le_induction generalizing m' with
  | base => exact (has_unique hinj h1 (has_last h2).1).le
  | succ t' h ih =>
    obtain ⟨n, hn⟩ := has_at hinj he (lt_of_lt_of_le ht h)
    obtain ⟨n', hn', h3, -⟩ := has_step hinj he (lt_of_lt_of_le ht h) hn
    have := has_unique hinj h2 (has_last hn').1
    have := ih hn
    omega

/-! ### Progress -/

theorem first {q : Nat → Prop} (h : ∀ N, ∃ m, N ≤ m ∧ q m) (N : Nat) :
    ∃ m, N ≤ m ∧ q m ∧ ∀ j, N ≤ j → j < m → ¬ q j := by
  classical
  refine ⟨Nat.find (h N), (Nat.find_spec (h N)).1, (Nat.find_spec (h N)).2, fun j h1 h2 h3 => ?_⟩
  exact Nat.find_min (h N) h2 ⟨h1, h3⟩

theorem event_prefix {h h' : List (Change O)} (hp : h <+: h') {i : Nat} {e : Event O}
    (he : event key h i = some e) : event key h' i = some e := by
  obtain ⟨t, rfl⟩ := hp
  induction t using List.reverseRecOn with
  | nil => simpa using he
  | append_singleton t c ih => rw [← List.append_assoc]; exact event_append ih c

/-- The next change is under way behind some bookmarks. -/
def Ahead (key : O → Option K) (h : List (Change O)) (m : Nat) (j : Nat) (q : List (Option (Event O))) : Prop :=
  ∃ (bs : List (Event O)) (e : Event O) (post : List (Option (Event O))), bs.length = j ∧
    q = bs.map some ++ some e :: post ∧ (∀ b ∈ bs, b.type = .bookmark) ∧ event key h m = some e

theorem feed_split {h : List (Change O)} : ∀ {es : List (Event O)} {m q : Nat},
    Feed A key ver h m (es.map some) q → (∀ e ∈ es, ¬ Fatal A e) →
    (q = m ∧ ∀ b ∈ es, b.type = .bookmark) ∨ ∃ j, Ahead key h m j (es.map some) := by
  intro es
  induction es with
  | nil => intro m q hf _; cases hf; exact Or.inl ⟨rfl, by simp⟩
  | cons e es ih =>
    intro m q hf hn
    rw [List.map_cons] at hf
    cases hf with
    | change hev _ => exact Or.inr ⟨0, [], e, es.map some, rfl, rfl, by simp, hev⟩
    | @bookmark _ _ _ o ho hq =>
      rcases ih hq fun x hx => hn x (by simp [hx]) with ⟨h1, h2⟩ | ⟨j, bs, e', post, h1, h2, h3, h4⟩
      · refine Or.inl ⟨h1, ?_⟩
        intro b hb
        rcases List.mem_cons.1 hb with rfl | hb
        · rfl
        · exact h2 b hb
      · refine Or.inr ⟨j + 1, ⟨.bookmark, o, false⟩ :: bs, e', post, by simp [h1], ?_, ?_, h4⟩
        · rw [List.map_cons, List.map_cons, h2]; rfl
        · intro b hb
          rcases List.mem_cons.1 hb with rfl | hb
          · rfl
          · exact h3 b hb
    | @fault _ _ _ o =>
      exact absurd (Or.inl rfl : Fatal A ⟨.error, o, false⟩) (hn _ List.mem_cons_self)

theorem not_storing (hinj : Function.Injective ver) (he : Endless A key ver p f L) {m N : Nat} (hN : L < N)
    (hstuck : ∀ t, N ≤ t → (S t).refl.last = ver m) {t : Nat} (ht : N ≤ t) {v : String}
    (hpc : (S t).refl.pc = .storing v) : False := by
  obtain ⟨t', h1, h2, h3⟩ := first he.stored t
  have key' : ∀ j, t ≤ j → j ≤ t' → (S j).refl.pc = .storing v := by
    intro j hj
    induction j, hj using Nat.le_induction with
    | base => intro _; exact hpc
    | succ j hj ih =>
      intro hle
      obtain ⟨n, hn⟩ := has_at hinj he (t := j) (by omega)
      obtain ⟨-, -, -, -, a', htr, hco⟩ := has_step hinj he (t := j) (by omega) hn
      exact htr.storing v (ih (by omega)) fun ha => h3 j hj (by omega) (hco.2.1 ha)
  have hpc' := key' t' h1 le_rfl
  obtain ⟨n, hn⟩ := has_at hinj he (t := t') (by omega)
  have := has_unique hinj hn (hstuck t' (by omega))
  subst this
  have hctl := hn.good.ctl
  simp only [Ctl, hpc'] at hctl
  obtain ⟨-, -, hv, ⟨c, e, -, hcur, -⟩, -⟩ := hctl
  have hs : ∃ s, step A key ver p (S t') (f t') = some s ∧ s.refl.last = v := by
    rw [h2]
    simp [step, answers, hpc', hcur, move, ReflectorTasks.step]
  obtain ⟨s, hs, hl⟩ := hs
  rw [← at_some hs, hstuck (t' + 1) (by omega), hv] at hl
  have := hinj hl
  omega

/-- As long as the reflector waits, its queue grows only, until it goes on. -/
theorem until_resume (hinj : Function.Injective ver) (he : Endless A key ver p f L) {t : Nat} (hL : L < t)
    (hpc : (S t).refl.pc = .waiting) : ∃ t', t ≤ t' ∧ f t' = .tasks .resume ∧ (S t').refl.pc = .waiting ∧
      (∃ more, (S t').refl.queue = (S t).refl.queue ++ more) ∧
      ((S t).refl.reader = .ended → (S t').refl.reader = .ended ∧ (S t').refl.queue = (S t).refl.queue) := by
  obtain ⟨t', h1, h2, h3⟩ := first he.resume t
  have key' : ∀ j, t ≤ j → j ≤ t' → (S j).refl.pc = .waiting ∧
      (∃ more, (S j).refl.queue = (S t).refl.queue ++ more) ∧
      ((S t).refl.reader = .ended → (S j).refl.reader = .ended ∧ (S j).refl.queue = (S t).refl.queue) := by
    intro j hj
    induction j, hj using Nat.le_induction with
    | base => intro _; exact ⟨hpc, ⟨[], by simp⟩, fun h => ⟨h, rfl⟩⟩
    | succ j hj ih =>
      intro hle
      obtain ⟨n, hn⟩ := has_at hinj he (t := j) (by omega)
      obtain ⟨-, -, -, -, a', htr, hco⟩ := has_step hinj he (t := j) (by omega) hn
      obtain ⟨i1, ⟨more, i2⟩, i3⟩ := ih (by omega)
      obtain ⟨j1, ⟨more', j2⟩, j3⟩ := htr.waiting i1 fun ha => h3 j hj (by omega) (hco.1 ha)
      refine ⟨j1, ⟨more ++ more', by rw [j2, i2, List.append_assoc]⟩, fun h => ?_⟩
      obtain ⟨k1, k2⟩ := i3 h
      obtain ⟨l1, l2⟩ := j3 k1
      exact ⟨l1, l2.trans k2⟩
  obtain ⟨h4, h5, h6⟩ := key' t' h1 le_rfl
  exact ⟨t', h1, h2, h4, h5, h6⟩

theorem resume_step {t m : Nat} (hn : Has A key ver (S t) m) (hf : f t = .tasks .resume)
    (hpc : (S t).refl.pc = .waiting) {x : Option (Event O)} {rest : List (Option (Event O))}
    (hq : (S t).refl.queue = x :: rest) :
    (S (t + 1)).refl = (ReflectorTasks.onTaken A { (S t).refl with queue := rest } x).1 := by
  have herr : (S t).refl.errTask = .waiting := by
    have := hn.fine.2
    rw [hpc] at this
    exact this.1
  have hs : ∃ s, step A key ver p (S t) (f t) = some s ∧
      s.refl = (ReflectorTasks.onTaken A { (S t).refl with queue := rest } x).1 := by
    rw [hf]
    simp only [step, answers, move, ReflectorTasks.step, hpc, herr, hq, Bool.false_eq_true, if_false]
    exact ⟨_, rfl, rfl⟩
  obtain ⟨s, hs, h⟩ := hs
  rw [at_some hs, h]

theorem not_ahead (hinj : Function.Injective ver) (he : Endless A key ver p f L) {m N : Nat} (hN : L < N)
    (hstuck : ∀ t, N ≤ t → (S t).refl.last = ver m) (j : Nat) : ∀ {t : Nat}, N ≤ t →
    (S t).refl.pc = .waiting → Ahead key (S t).hist m j (S t).refl.queue → False := by
  induction j with
  | zero =>
    rintro t ht hpc ⟨bs, e, post, hb, hq, -, hev⟩
    cases List.length_eq_zero_iff.1 hb
    obtain ⟨t', h1, h2, h3, ⟨more, h4⟩, -⟩ := until_resume hinj he (by omega) hpc
    obtain ⟨n, hn⟩ := has_at hinj he (t := t') (by omega)
    rw [hq] at h4
    have hr := resume_step hn h2 h3 h4
    have hev' := event_prefix (hist_mono hinj he (by omega) h1) hev
    obtain ⟨h5, -⟩ := onEvent_event hn.good.sound hev'
    obtain ⟨c, -, -, x, h6, -⟩ := event_some hev'
    simp only [ReflectorTasks.onTaken, h5, h6] at hr
    exact not_storing hinj he hN hstuck (t := t' + 1) (by omega) (v := ver (m + 1)) (by rw [hr])
  | succ j ih =>
    rintro t ht hpc ⟨bs, e, post, hb, hq, hbm, hev⟩
    cases bs with
    | nil => simp at hb
    | cons b bs =>
      obtain ⟨t', h1, h2, h3, ⟨more, h4⟩, -⟩ := until_resume hinj he (by omega) hpc
      obtain ⟨n, hn⟩ := has_at hinj he (t := t') (by omega)
      rw [hq] at h4
      have hr := resume_step hn h2 h3 h4
      have hbt := hbm b (by simp)
      have hnf : ¬ Fatal A b := by
        have := hn.fine.2
        rw [h3] at this
        obtain ⟨-, es, hes, h⟩ := this
        have hmem : some b ∈ (S t').refl.queue := by rw [h4]; simp
        apply hes b
        rcases h with ⟨-, h⟩ | ⟨-, h⟩ <;> rw [h] at hmem <;> simpa using hmem
      have hev' := event_prefix (hist_mono hinj he (by omega) (show t ≤ t' + 1 by omega)) hev
      have hsc : Reflector.storeCall b = [] := by simp [Reflector.storeCall, hbt]
      have hnext : (S (t' + 1)).refl.pc = .waiting ∧
          (S (t' + 1)).refl.queue = bs.map some ++ some e :: post ++ more := by
        rcases Reflector.onEvent_spec A b with ⟨-, h5⟩ | ⟨h5, -⟩ | ⟨v, h5, -⟩
        · exact absurd h5 hnf
        · simp only [ReflectorTasks.onTaken, h5] at hr
          rw [hr]; exact ⟨h3, rfl⟩
        · simp only [ReflectorTasks.onTaken, h5, hsc] at hr
          rw [hr]; exact ⟨h3, rfl⟩
      refine ih (t := t' + 1) (by omega) hnext.1 ⟨bs, e, post ++ more, by simpa using hb, ?_,
        fun b hb => hbm b (by simp [hb]), hev'⟩
      rw [hnext.2, List.append_assoc, List.cons_append]

/-- The reflector comes to read an open watch. -/
theorem reads (hinj : Function.Injective ver) (he : Endless A key ver p f L) {m N : Nat} (hN : L < N)
    (hstuck : ∀ t, N ≤ t → (S t).refl.last = ver m) {t : Nat} (ht : N ≤ t) :
    ∃ t', t ≤ t' ∧ (S t').refl.pc = .waiting ∧ (S t').refl.reader = .reading := by
  have hopen : ∀ t, N ≤ t → (S t).refl.pc = .opening →
      ∃ t', t ≤ t' ∧ (S t').refl.pc = .waiting ∧ (S t').refl.reader = .reading := by
    intro t ht hpc
    by_contra hno
    have hall : ∀ j, t ≤ j → (S j).refl.pc = .opening := by
      intro j hj
      induction j, hj using Nat.le_induction with
      | base => exact hpc
      | succ j hj ih =>
        obtain ⟨n, hn⟩ := has_at hinj he (t := j) (by omega)
        obtain ⟨-, -, -, -, a', htr, hco⟩ := has_step hinj he (t := j) (by omega) hn
        rcases htr.opening ih with h | h
        · exact h
        · exact absurd ⟨j + 1, by omega, h⟩ hno
    obtain ⟨t', h1, h2⟩ := he.opened t (by omega)
    rcases h2 with h2 | ⟨n, h2, h3⟩
    · exact h2 (hall t' h1)
    · obtain ⟨m', hm⟩ := has_at hinj he (t := t') (by omega)
      have := hinj (h3.trans (has_last hm).2)
      subst this
      have hs : ∃ s, step A key ver p (S t') (f t') = some s ∧ s.refl.pc = .waiting := by
        rw [h2]
        simp [step, hm.good.le, h3, move, ReflectorTasks.step, hall t' h1]
      obtain ⟨s, hs, h4⟩ := hs
      have := hall (t' + 1) (by omega)
      rw [at_some hs, h4] at this
      cases this
  have hleave : ∀ t b, N ≤ t → (S t).refl.pc = .leavingWatch (.again b) →
      ∃ t', t ≤ t' ∧ (S t').refl.pc = .waiting ∧ (S t').refl.reader = .reading := by
    intro t b ht hpc
    obtain ⟨t', h1, h2, h3⟩ := first he.tasksEnded t
    have key' : ∀ j, t ≤ j → j ≤ t' → (S j).refl.pc = .leavingWatch (.again b) := by
      intro j hj
      induction j, hj using Nat.le_induction with
      | base => intro _; exact hpc
      | succ j hj ih =>
        intro hle
        obtain ⟨n, hn⟩ := has_at hinj he (t := j) (by omega)
        obtain ⟨-, -, -, -, a', htr, hco⟩ := has_step hinj he (t := j) (by omega) hn
        exact htr.leaving b (ih (by omega)) fun ha => h3 j hj (by omega) (hco.2.2.1 ha)
    have hpc' := key' t' h1 le_rfl
    obtain ⟨n, hn⟩ := has_at hinj he (t := t') (by omega)
    have hrd : (S t').refl.reader = .ended := by
      have := hn.fine.2
      rw [hpc'] at this
      exact this
    have hs : ∃ s, step A key ver p (S t') (f t') = some s ∧ s.refl.pc = .opening := by
      rw [h2]
      simp [step, answers, move, ReflectorTasks.step, hpc', hrd]
    obtain ⟨s, hs, h4⟩ := hs
    obtain ⟨u, h5, h6⟩ := hopen (t' + 1) (by omega) (by rw [at_some hs]; exact h4)
    exact ⟨u, by omega, h6⟩
  have hended : ∀ (es : List (Event O)) t, N ≤ t → (S t).refl.pc = .waiting → (S t).refl.reader = .ended →
      (S t).refl.queue = es.map some ++ [none] →
      ∃ t', t ≤ t' ∧ (S t').refl.pc = .waiting ∧ (S t').refl.reader = .reading := by
    intro es
    induction es with
    | nil =>
      intro t ht hpc hrd hq
      obtain ⟨t', h1, h2, h3, -, h5⟩ := until_resume hinj he (by omega) hpc
      obtain ⟨-, h6⟩ := h5 hrd
      obtain ⟨n, hn⟩ := has_at hinj he (t := t') (by omega)
      have hr := resume_step hn h2 h3 (x := none) (rest := []) (by rw [h6, hq]; rfl)
      have hlong := he.long (t' + 1) (by omega)
      rw [hr] at hlong
      have : ∃ b, (S (t' + 1)).refl.pc = .leavingWatch (.again b) := by
        rw [hr]
        simp only [ReflectorTasks.onTaken, ReflectorTasks.leaveWatch] at hlong ⊢
        split
        · rename_i hc
          rw [if_pos hc] at hlong
          exact absurd rfl hlong
        · exact ⟨_, rfl⟩
      obtain ⟨b, hb⟩ := this
      obtain ⟨u, h7, h8⟩ := hleave (t' + 1) b (by omega) hb
      exact ⟨u, by omega, h8⟩
    | cons e es ih =>
      intro t ht hpc hrd hq
      obtain ⟨t', h1, h2, h3, -, h5⟩ := until_resume hinj he (by omega) hpc
      obtain ⟨h7, h6⟩ := h5 hrd
      obtain ⟨n, hn⟩ := has_at hinj he (t := t') (by omega)
      have hq' : (S t').refl.queue = some e :: (es.map some ++ [none]) := by rw [h6, hq]; rfl
      have hr := resume_step hn h2 h3 hq'
      have hnf : ¬ Fatal A e := by
        have := hn.fine.2
        rw [h3] at this
        obtain ⟨-, es', hes, h⟩ := this
        have hmem : some e ∈ (S t').refl.queue := by rw [hq']; simp
        apply hes e
        rcases h with ⟨-, h⟩ | ⟨-, h⟩ <;> rw [h] at hmem <;> simpa using hmem
      have hnext : ∃ t'', t ≤ t'' ∧ (S t'').refl.pc = .waiting ∧ (S t'').refl.reader = .ended ∧
          (S t'').refl.queue = es.map some ++ [none] := by
        rcases Reflector.onEvent_spec A e with ⟨-, h8⟩ | ⟨h8, -⟩ | ⟨v, h8, -⟩
        · exact absurd h8 hnf
        · simp only [ReflectorTasks.onTaken, h8] at hr
          exact ⟨t' + 1, by omega, by rw [hr]; exact ⟨h3, h7, rfl⟩⟩
        · simp only [ReflectorTasks.onTaken, h8] at hr
          split at hr
          · exact (not_storing hinj he hN hstuck (t := t' + 1) (by omega) (v := v) (by rw [hr])).elim
          · exact ⟨t' + 1, by omega, by rw [hr]; exact ⟨h3, h7, rfl⟩⟩
      obtain ⟨t'', k1, k2, k3, k4⟩ := hnext
      obtain ⟨u, k5, k6⟩ := ih t'' (by omega) k2 k3 k4
      exact ⟨u, by omega, k6⟩
  obtain ⟨n, hn⟩ := has_at hinj he (t := t) (by omega)
  have hf := hn.fine.2
  cases hpc : (S t).refl.pc with
  | opening => exact hopen t ht hpc
  | waiting =>
    rw [hpc] at hf
    obtain ⟨-, es, -, ⟨h1, -⟩ | ⟨h1, h2⟩⟩ := hf
    · exact ⟨t, le_rfl, hpc, h1⟩
    · exact hended es t ht hpc h1 h2
  | storing v => exact (not_storing hinj he hN hstuck ht hpc).elim
  | leavingWatch h =>
    rw [hpc] at hf
    cases h with
    | again b => exact hleave t b ht hpc
    | _ => exact hf.elim
  | _ => rw [hpc] at hf; exact hf.elim

/-- A watch that is read has sent all before the version, unless the next change is under way. -/
theorem reading_split {s : State K O} {m : Nat} (hn : Has A key ver s m) (hpc : s.refl.pc = .waiting)
    (hrd : s.refl.reader = .reading) : ∃ es : List (Event O), s.refl.queue = es.map some ∧
      ((s.pos = m ∧ ∀ b ∈ es, b.type = .bookmark) ∨ ∃ j, Ahead key s.hist m j s.refl.queue) := by
  have hf := hn.fine.2
  rw [hpc] at hf
  obtain ⟨-, es, hes, ⟨-, hq⟩ | ⟨h, -⟩⟩ := hf
  · have hctl := hn.good.ctl
    simp only [Ctl, hpc] at hctl
    obtain ⟨-, -, hfeed⟩ := hctl
    refine ⟨es, hq, ?_⟩
    rw [hq] at hfeed ⊢
    exact feed_split hfeed hes
  · rw [hrd] at h; cases h

/-- The version grows as long as the server is ahead. -/
theorem grows (hinj : Function.Injective ver) (he : Endless A key ver p f L) {t m : Nat} (ht : L < t)
    (h : Has A key ver (S t) m) (hlt : m < (S t).hist.length) :
    ∃ t', t ≤ t' ∧ ∃ m', m < m' ∧ Has A key ver (S t') m' := by
  by_contra hno
  have hstuck : ∀ j, t ≤ j → (S j).refl.last = ver m := by
    intro j hj
    obtain ⟨n, hn⟩ := has_at hinj he (t := j) (by omega)
    have := has_mono hinj he ht hj h hn
    rcases Nat.lt_or_ge m n with h1 | h1
    · exact absurd ⟨j, hj, n, h1, hn⟩ hno
    · rw [(has_last hn).1, Nat.le_antisymm h1 this]
  have hm : ∀ j, t ≤ j → Has A key ver (S j) m := by
    intro j hj
    obtain ⟨n, hn⟩ := has_at hinj he (t := j) (by omega)
    rw [has_unique hinj hn (hstuck j hj)] at hn
    exact hn
  have hsplit : ∀ j, t ≤ j → (S j).refl.pc = .waiting → (S j).refl.reader = .reading →
      (S j).pos = m ∧ ∃ es : List (Event O), (S j).refl.queue = es.map some ∧ ∀ b ∈ es, b.type = .bookmark := by
    intro j hj hpc hrd
    obtain ⟨es, hq, ⟨h1, h2⟩ | ⟨i, h1⟩⟩ := reading_split (hm j hj) hpc hrd
    · exact ⟨h1, es, hq, h2⟩
    · exact (not_ahead hinj he ht hstuck i hj hpc h1).elim
  have hev : ∃ e, event key (S t).hist m = some e := by
    unfold event
    rw [List.getElem?_eq_getElem hlt]
    cases (S t).hist[m] <;> exact ⟨_, rfl⟩
  obtain ⟨e, hev⟩ := hev
  have hev' : ∀ j, t ≤ j → event key (S j).hist m = some e := fun j hj =>
    event_prefix (hist_mono hinj he ht hj) hev
  obtain ⟨u, h1, h2, h3⟩ := he.event t (by
    intro M
    obtain ⟨j, h1, h2, h3⟩ := reads hinj he ht hstuck (t := max t M) (by omega)
    refine ⟨j, by omega, ?_⟩
    obtain ⟨h4, -⟩ := hsplit j (by omega) h2 h3
    simp [step, h4, hev' j (by omega), move, ReflectorTasks.step, h3])
  have hrd : (S u).refl.reader = .reading := by
    by_contra hr
    simp only [step] at h3
    split at h3
    · cases hr2 : (S u).refl.reader <;> simp [move, ReflectorTasks.step, hr2] at h3 hr
    · simp at h3
  have hpc : (S u).refl.pc = .waiting := by
    have hf := (hm u h1).fine.2
    cases hpc : (S u).refl.pc with
    | waiting => rfl
    | storing v => exact (not_storing hinj he ht hstuck h1 hpc).elim
    | opening => rw [hpc, hrd] at hf; cases hf
    | leavingWatch h =>
      rw [hpc] at hf
      cases h with
      | again b => rw [hrd] at hf; cases hf
      | _ => exact hf.elim
    | _ => rw [hpc] at hf; exact hf.elim
  obtain ⟨h4, es, h5, h6⟩ := hsplit u h1 hpc hrd
  have hs : ∃ s, step A key ver p (S u) (f u) = some s ∧ s.refl.pc = .waiting ∧
      s.refl.queue = es.map some ++ [some e] := by
    rw [h2]
    simp [step, h4, hev' u h1, move, ReflectorTasks.step, hrd, hpc, h5]
  obtain ⟨s, hs, h7, h8⟩ := hs
  refine not_ahead hinj he ht hstuck es.length (t := u + 1) (by omega) (by rw [at_some hs]; exact h7)
    ⟨es, e, [], rfl, by rw [at_some hs]; exact h8, h6, hev' (u + 1) (by omega)⟩

theorem reaches (hinj : Function.Injective ver) (he : Endless A key ver p f L) {t : Nat} (ht : L < t) :
    ∃ t', t ≤ t' ∧ ∃ n, (S t).hist.length ≤ n ∧ Has A key ver (S t') n := by
  have : ∀ d t' m, t ≤ t' → Has A key ver (S t') m → (S t).hist.length - m ≤ d →
      ∃ t', t ≤ t' ∧ ∃ n, (S t).hist.length ≤ n ∧ Has A key ver (S t') n := by
    intro d
    induction d with
    | zero => intro t' m h1 h2 h3; exact ⟨t', h1, m, by omega, h2⟩
    | succ d ih =>
      intro t' m h1 h2 h3
      by_cases hle : (S t).hist.length ≤ m
      · exact ⟨t', h1, m, hle, h2⟩
      · have := (hist_mono hinj he ht h1).length_le
        obtain ⟨u, k1, m', k2, k3⟩ := grows hinj he (by omega) h2 (by omega)
        exact ih u m' (by omega) k3 (by omega)
  obtain ⟨m, hm⟩ := has_at hinj he ht
  exact this _ t m le_rfl hm le_rfl

/-! ### The cache -/

theorem qa_prefix (q : DeltaFifo.State K O) (t : DeltaFifo.DType) (x : Obj K O) :
    q.queue <+: (DeltaFifo.queueAction key q t x).1.queue := by
  unfold DeltaFifo.queueAction
  split
  · exact List.prefix_rfl
  · split
    · exact List.prefix_rfl
    · simp only
      split
      · simp only
        split
        · exact List.prefix_rfl
        · exact List.prefix_append _ _
      · exact List.prefix_rfl

theorem does_prefix {c : Change O} {e : Informer.Ev K O} (hd : Does c e) (s : Informer.State K O) :
    s.q.queue <+: (Informer.step key s e).1.q.queue ∧ (Informer.step key s e).1.items = s.items := by
  cases c with
  | put o =>
    rcases hd with rfl | rfl
    · exact ⟨qa_prefix (key := key) { s.q with populated := true } _ _, rfl⟩
    · exact ⟨qa_prefix (key := key) { s.q with populated := true } _ _, rfl⟩
  | del o =>
    cases hd
    refine ⟨?_, rfl⟩
    simp only [Informer.step, Informer.call, DeltaFifo.step, DeltaFifo.delete]
    split
    · exact List.prefix_rfl
    · split
      · exact List.prefix_rfl
      · exact qa_prefix (key := key) { s.q with populated := true } _ _

theorem resync_prefix (s : Informer.State K O) :
    s.q.queue <+: (Informer.step key s .resync).1.q.queue ∧ (Informer.step key s .resync).1.items = s.items := by
  refine ⟨?_, rfl⟩
  simp only [Informer.step, Informer.call, DeltaFifo.step, DeltaFifo.resync]
  generalize (Informer.known s.items) = kn
  suffices h : ∀ (ks : List K) (q : DeltaFifo.State K O), q.queue <+: (DeltaFifo.resyncKeys key kn q ks).1.queue from
    h _ _
  intro ks
  induction ks with
  | nil => intro q; exact List.prefix_rfl
  | cons k ks ih =>
    intro q
    simp only [DeltaFifo.resyncKeys]
    split
    · exact ih q
    · exact ih q
    · split
      · exact List.prefix_rfl
      · split
        · exact ih q
        · exact (qa_prefix q _ _).trans (ih _)

/-- What a step after the list does to the queue and the store. -/
inductive Moves (s s' : State K O) : Act O → Prop
  | more {a : Act O} (h1 : s.inf.q.queue <+: s'.inf.q.queue) (h2 : s'.inf.items = s.inf.items) : Moves s s' a
  | popped {h : Nat → Outcome} (h1 : s'.inf.q.queue = s.inf.q.queue.tail)
      (h2 : ∀ k, s.inf.q.queue.head? ≠ some k → s'.inf.items.get? k = s.inf.items.get? k) : Moves s s' (.pop h)

theorem will_at (hinj : Function.Injective ver) (he : Endless A key ver p f L) (hc : Clean key (S L))
    {t : Nat} (ht : L < t) : ∃ m, Has A key ver (S t) m ∧ Will key ver (S t) m := by
  induction t, ht using Nat.le_induction with
  | base =>
    obtain ⟨hs, m', h'⟩ := has_list hinj he
    obtain ⟨⟨m, hg⟩, hi, -⟩ := good_at (A := A) (key := key) (p := p) hinj he.serves L
    obtain ⟨m1, g1, e1, p1⟩ := good_step hinj hg hs (he.serves L)
    have hle : m1 ≤ (S L).hist.length := by
      have hh : (S (L + 1)).hist = (S L).hist := by
        rw [he.list.1] at hs
        simp only [step, answers, Bool.false_eq_true, if_false] at hs
        split at hs
        · obtain ⟨s2, h1, h2⟩ := Option.bind_eq_some_iff.1 hs
          unfold take at h1
          simp only at h1
          split at h1
          · cases h1
            unfold move at h2
            split at h2
            · cases h2
            · simp only [Option.some.injEq] at h2
              rw [← h2]
          · cases h1
        · cases hs
      rw [← hh]; exact g1.le
    have hf := he.list.1
    rw [hf] at e1
    have hw := will_list e1 p1 hle hi hc
    exact ⟨m1, ⟨g1, h'.fine⟩, hw⟩
  | succ t ht ih =>
    obtain ⟨m, h, hw⟩ := ih
    rcases at_cases (A := A) (key := key) (ver := ver) (p := p) (f := f) t with h1 | h1
    · rw [h1]; exact ⟨m, h, hw⟩
    · obtain ⟨m', g, e, hp⟩ := good_step hinj h.good h1 (he.serves t)
      obtain ⟨m2, h2, -⟩ := has_step hinj he ht h
      have hw' := will_effect e hw h.good.le hp (by
        intro hl
        generalize f t = a at e hl
        cases e with
        | same _ _ _ ha => exact ha hl
        | stored => exact hl
        | resynced => exact hl
        | popped => exact hl
        | listed hpc =>
          have := h.fine.2
          rw [hpc] at this
          exact this) (by
        have := he.healthy t ht
        generalize f t = a at this
        cases a with
        | pop h => exact this
        | _ => trivial)
      exact ⟨m', ⟨g, h2.fine⟩, hw'⟩

theorem moves_at (hinj : Function.Injective ver) (he : Endless A key ver p f L)
    {t : Nat} (ht : L < t) : Moves (S t) (S (t + 1)) (f t) := by
  rcases at_cases (A := A) (key := key) (ver := ver) (p := p) (f := f) t with h1 | h1
  · rw [h1]; exact .more List.prefix_rfl rfl
  · obtain ⟨m, h⟩ := has_at hinj he ht
    obtain ⟨m', g, e, hp⟩ := good_step hinj h.good h1 (he.serves t)
    obtain ⟨-, ⟨log, hi⟩, -⟩ := good_at (A := A) (key := key) (p := p) hinj he.serves t
    have hhl := he.healthy t ht
    generalize f t = a at e hhl
    cases e with
    | same h => exact .more (by rw [h]; exact List.prefix_rfl) (by rw [h])
    | stored hc hd h =>
      obtain ⟨h2, h3⟩ := does_prefix (key := key) hd (S t).inf
      rw [← h] at h2 h3
      exact .more h2 h3
    | resynced h =>
      obtain ⟨h2, h3⟩ := resync_prefix (key := key) (S t).inf
      rw [← h] at h2 h3
      exact .more h2 h3
    | @popped g h =>
      have hg : g = fun _ => .ok := funext hhl
      subst hg
      refine .popped ?_ ?_
      · rw [h]; exact Informer.pop_ok_queue hi
      · intro k hk
        rw [h]; exact (Informer.pop_other hi _ k hk).1
    | listed hpc =>
      exfalso
      have := h.fine.2
      rw [hpc] at this
      exact this

theorem quiet {s : State K O} {m : Nat} (hw : Will key ver s m) {k : K} (hk : k ∉ s.inf.q.queue) :
    s.inf.items.get? k = (held key (s.hist.take m) k).map .real := by
  obtain ⟨-, log, hi, hv⟩ := hw
  rw [← hv k]
  have : DeltaFifo.Spec.pendingOf k log = [] := by
    by_contra hc
    have := (hi.sim.mem k).2 hc
    rw [← hi.sim.queue] at this
    exact hk this
  rw [Informer.eventual, this]; rfl

/-- A key leaves the queue. -/
theorem leaves (hinj : Function.Injective ver) (he : Endless A key ver p f L) (k : K) : ∀ (pre : List K) {t : Nat},
    L < t → pre <+: (S t).inf.q.queue → (∃ pre', pre = pre' ++ [k]) →
    ∃ t', t ≤ t' ∧ k ∉ (S t').inf.q.queue := by
  intro pre
  induction pre with
  | nil => rintro t _ _ ⟨pre', h⟩; simp at h
  | cons j pre ih =>
    intro t ht hp hk
    obtain ⟨t', h1, h2, h3⟩ := first (q := fun m => ∃ h, f m = .pop h)
      (fun N => by obtain ⟨m, h, h1, h2⟩ := he.pop N; exact ⟨m, h1, h, h2⟩) t
    have key' : ∀ i, t ≤ i → i ≤ t' → (j :: pre) <+: (S i).inf.q.queue := by
      intro i hi
      induction i, hi using Nat.le_induction with
      | base => intro _; exact hp
      | succ i hi ih' =>
        intro hle
        have hm := moves_at hinj he (t := i) (by omega)
        have hn := h3 i hi (by omega)
        generalize f i = a at hm hn
        cases hm with
        | more h4 => exact (ih' (by omega)).trans h4
        | popped => exact absurd ⟨_, rfl⟩ hn
    obtain ⟨h, hf⟩ := h2
    have hpre := key' t' h1 le_rfl
    have hne : (S t').inf.q.queue ≠ [] := by
      intro h0; rw [h0] at hpre; simp at hpre
    have hs : step A key ver p (S t') (f t') = some (S (t' + 1)) := by
      have : ∃ s, step A key ver p (S t') (f t') = some s := by
        rw [hf]; simp [step, hne]
      obtain ⟨s, hs⟩ := this
      rw [hs, at_some hs]
    have htail : (S (t' + 1)).inf.q.queue = (S t').inf.q.queue.tail := by
      obtain ⟨-, ⟨log, hi⟩, -⟩ := good_at (A := A) (key := key) (p := p) hinj he.serves t'
      have hhl := he.healthy t' (by omega)
      rw [hf] at hs hhl
      have : h = fun _ => .ok := funext hhl
      subst this
      simp only [step, if_neg hne, Option.some.injEq] at hs
      rw [← hs]
      exact Informer.pop_ok_queue hi
    obtain ⟨rest, hq⟩ := hpre
    rw [List.cons_append] at hq
    have hnd : (S t').inf.q.queue.Nodup := by
      obtain ⟨-, ⟨log, hi⟩, -⟩ := good_at (A := A) (key := key) (p := p) hinj he.serves t'
      rw [hi.sim.queue]; exact hi.sim.wf
    rw [← hq, List.tail_cons] at htail
    rw [← hq, List.nodup_cons] at hnd
    obtain ⟨pre', hk⟩ := hk
    cases pre' with
    | nil =>
      simp only [List.nil_append, List.cons.injEq] at hk
      obtain ⟨rfl, rfl⟩ := hk
      exact ⟨t' + 1, by omega, by rw [htail]; exact hnd.1⟩
    | cons i pre' =>
      simp only [List.cons_append, List.cons.injEq] at hk
      obtain ⟨t'', h5, h6⟩ := ih (t := t' + 1) (by omega) (by rw [htail]; exact List.prefix_append _ _) ⟨pre', hk.2⟩
      exact ⟨t'', by omega, h6⟩

theorem leaves' (hinj : Function.Injective ver) (he : Endless A key ver p f L) (k : K) {t : Nat} (ht : L < t) :
    ∃ t', t ≤ t' ∧ k ∉ (S t').inf.q.queue := by
  by_cases hk : k ∈ (S t).inf.q.queue
  · obtain ⟨pre, post, h⟩ := List.append_of_mem hk
    exact leaves hinj he k (pre ++ [k]) ht ⟨post, by rw [h]; simp⟩ ⟨pre, rfl⟩
  · exact ⟨t, le_rfl, hk⟩

theorem held_stable {h h' : List (Change O)} (hp : h <+: h') {k : K}
    (hn : ∀ c ∈ h'.drop h.length, key c.obj ≠ some k) {m : Nat} (hm : h.length ≤ m) :
    held key (h'.take m) k = held key h k := by
  obtain ⟨t, rfl⟩ := hp
  rw [List.drop_left] at hn
  rw [List.take_append, List.take_of_length_le hm]
  have hn' : ∀ c ∈ t.take (m - h.length), key c.obj ≠ some k := fun c hc => hn c (List.mem_of_mem_take hc)
  generalize t.take (m - h.length) = u at hn'
  induction u using List.reverseRecOn with
  | nil => simp
  | append_singleton u c ih =>
    rw [← List.append_assoc, held_snoc, if_neg (hn' c (by simp))]
    exact ih fun c hc => hn' c (by simp [hc])

/-- What stays as it is at the server comes into the cache and stays there. -/
theorem comes (hinj : Function.Injective ver) (he : Endless A key ver p f L) (hc : Clean key (S L))
    {N : Nat} (hN : L < N) (k : K)
    (hstay : ∀ m, N ≤ m → ∀ c ∈ (S m).hist.drop (S N).hist.length, key c.obj ≠ some k) :
    ∃ M, N ≤ M ∧ ∀ m, M ≤ m → (S m).inf.items.get? k = (held key (S N).hist k).map .real := by
  obtain ⟨t1, h1, n, h2, h3⟩ := reaches hinj he hN
  have hwill : ∀ t, t1 ≤ t → ∃ m, Will key ver (S t) m ∧
      held key ((S t).hist.take m) k = held key (S N).hist k := by
    intro t ht
    obtain ⟨m, hm, hw⟩ := will_at hinj he hc (t := t) (by omega)
    refine ⟨m, hw, held_stable (hist_mono hinj he hN (by omega)) (hstay t (by omega)) ?_⟩
    have := has_mono hinj he (by omega) ht h3 hm
    omega
  obtain ⟨M, h4, h5⟩ := leaves' hinj he k (t := t1) (by omega)
  have hbase : (S M).inf.items.get? k = (held key (S N).hist k).map .real := by
    obtain ⟨m, hw, hh⟩ := hwill M h4
    rw [quiet hw h5, hh]
  refine ⟨M, by omega, fun m hm => ?_⟩
  induction m, hm using Nat.le_induction with
  | base => exact hbase
  | succ m hm ih =>
    have hmv := moves_at hinj he (t := m) (by omega)
    obtain ⟨m', hw, hh⟩ := hwill (m + 1) (by omega)
    have hnd : (S m).inf.q.queue.Nodup := by
      obtain ⟨-, ⟨log, hi⟩, -⟩ := good_at (A := A) (key := key) (p := p) hinj he.serves m
      rw [hi.sim.queue]; exact hi.sim.wf
    generalize f m = a at hmv
    cases hmv with
    | more _ h6 => rw [h6]; exact ih
    | popped h6 h7 =>
      by_cases hk : (S m).inf.q.queue.head? = some k
      · have : k ∉ (S (m + 1)).inf.q.queue := by
          rw [h6]
          cases hq : (S m).inf.q.queue with
          | nil => simp
          | cons j rest =>
            rw [hq] at hk hnd
            cases hk
            exact (List.nodup_cons.1 hnd).1
        rw [quiet hw this, hh]
      · rw [h7 k hk]; exact ih

end Run

end Aiok8s.Follow
