import Verif.Spec.Follow
import Verif.Proof.Informer
import Verif.Proof.Reflector
/-!
# Lemmas for C100
-/
set_option linter.unusedSimpArgs false
set_option linter.unusedSectionVars false
namespace Aiok8s.Follow
open Aiok8s.Reflector (Access Event EType Call)
open Aiok8s.Reflector.Spec (Wanted Fatal)
open Aiok8s.Informer.Spec
open Aiok8s.DeltaFifo (Outcome Obj keyOf)
open Aiok8s.DeltaFifo.Spec (Entry)
open Spec
variable {K O G : Type} [DecidableEq K] [DecidableEq O] [DecidableEq G]

/-! ### The server -/

theorem content_snoc (key : O → Option K) (h : List (Change O)) (c : Change O) :
    content key (h ++ [c]) = applyChange key (content key h) c := by
  simp [content, List.foldl_append]

theorem held_snoc (key : O → Option K) (h : List (Change O)) (c : Change O) (k : K) :
    held key (h ++ [c]) k = if key c.obj = some k then
      (match c with
        | .put o => some o
        | .del _ => none) else held key h k := by
  rw [held, List.foldl_append]
  rfl

theorem content_spec (key : O → Option K) (h : List (Change O)) :
    (content key h).WF ∧ (∀ k, (content key h).get? k = held key h k) ∧
    ∀ k o, (content key h).get? k = some o → key o = some k := by
  induction h using List.reverseRecOn with
  | nil => exact ⟨PyDict.WF_nil, fun _ => rfl, by simp [content]⟩
  | append_singleton h c ih =>
    obtain ⟨h1, h2, h3⟩ := ih
    rw [content_snoc]
    cases c with
    | put o =>
      cases hk : key o with
      | none =>
        simp only [applyChange, hk]
        refine ⟨h1, fun k => ?_, h3⟩
        rw [held_snoc]
        simp [Change.obj, hk, h2]
      | some j =>
        simp only [applyChange, hk]
        refine ⟨PyDict.WF_set h1 _ _, fun k => ?_, fun k o' => ?_⟩
        · rw [held_snoc, PyDict.get?_set]
          by_cases hj : j = k
          · simp [Change.obj, hk, hj]
          · simp [Change.obj, hk, hj, h2]
        · rw [PyDict.get?_set]
          by_cases hj : j = k
          · simp only [hj, if_true, Option.some.injEq]
            rintro rfl
            rw [hk, hj]
          · simp only [hj, if_false]
            exact h3 k o'
    | del o =>
      cases hk : key o with
      | none =>
        simp only [applyChange, hk]
        refine ⟨h1, fun k => ?_, h3⟩
        rw [held_snoc]
        simp [Change.obj, hk, h2]
      | some j =>
        simp only [applyChange, hk]
        refine ⟨PyDict.WF_del h1 _, fun k => ?_, fun k o' => ?_⟩
        · rw [held_snoc, PyDict.get?_del h1]
          by_cases hj : j = k
          · simp [Change.obj, hk, hj]
          · simp [Change.obj, hk, hj, h2]
        · rw [PyDict.get?_del h1]
          by_cases hj : j = k
          · simp [hj]
          · simp only [hj, if_false]
            exact h3 k o'

/-- The listed objects by key. -/
theorem listed_content (key : O → Option K) (h : List (Change O)) (items : List O)
    (hp : items.Perm (content key h).values) :
    (∀ x ∈ items.map (Obj.real (K := K)), (keyOf key x).isSome) ∧
    ∀ k, listed key (items.map .real) k = (held key h k).map .real := by
  obtain ⟨h1, h2, h3⟩ := content_spec key h
  have hval : ∀ o ∈ items, ∃ k, (content key h).get? k = some o := by
    intro o ho
    have := hp.subset ho
    simp only [PyDict.values, List.mem_map] at this
    obtain ⟨⟨k, o'⟩, hm, rfl⟩ := this
    exact ⟨k, PyDict.mem_get? h1 hm⟩
  refine ⟨?_, fun k => ?_⟩
  · intro x hx
    obtain ⟨o, ho, rfl⟩ := List.mem_map.1 hx
    obtain ⟨k, hk⟩ := hval o ho
    simp [keyOf, h3 k o hk]
  · rw [listed, Informer.listed_eq, ← h2 k]
    have hf : ((items.map (Obj.real (K := K))).filter fun x => keyOf key x = some k)
        = (items.filter fun o => key o = some k).map .real := by
      rw [List.filter_map]; rfl
    rw [hf]
    have hperm := hp.filter fun o => decide (key o = some k)
    have hv : (content key h).values.filter (fun o => decide (key o = some k))
        = ((content key h).get? k).toList := by
      clear hperm hp hval hf
      generalize content key h = d at h1 h3
      clear h2
      induction d with
      | nil => rfl
      | cons e d ih =>
        obtain ⟨j, o⟩ := e
        have hj : key o = some j := h3 j o (by simp [PyDict.get?_cons])
        have hwd : PyDict.WF d := (List.nodup_cons.1 h1).2
        have hnj : j ∉ PyDict.keys d := (List.nodup_cons.1 h1).1
        have hrest : ∀ k o, PyDict.get? d k = some o → key o = some k := by
          intro k' o' hk'
          apply h3
          rw [PyDict.get?_cons]
          have : j ≠ k' := by
            rintro rfl
            rw [PyDict.get?_eq_none.2 hnj] at hk'
            cases hk'
          simp [this, hk']
        have := ih hwd hrest
        simp only [PyDict.values, List.map_cons, List.filter_cons, hj, Option.some.injEq,
          PyDict.get?_cons] at this ⊢
        by_cases hjk : j = k
        · subst hjk
          rw [PyDict.get?_eq_none.2 hnj] at this
          simp [this]
        · simp [hjk, this]
    rw [hv] at hperm
    cases hg : (content key h).get? k with
    | none =>
      rw [hg] at hperm
      have := hperm.eq_nil
      simp [this]
    | some o =>
      rw [hg] at hperm
      have := List.perm_singleton.1 hperm
      simp [this]

/-- What the queue is called with for a change. -/
def Does (c : Change O) (e : Informer.Ev K O) : Prop :=
  match c with
  | .put o => e = .add (.real o) ∨ e = .update (.real o)
  | .del o => e = .delete (.real o)

theorem watched_does {key : O → Option K} {h : List (Change O)} {m : Nat} {c : Change O}
    {e : Informer.Ev K O} (hc : h[m]? = some c) (hd : Does c e) (v : View K O) (k : K)
    (hv : v k = (held key (h.take m) k).map .real) :
    watched key v e k = (held key (h.take (m + 1)) k).map .real := by
  have ht : h.take (m + 1) = h.take m ++ [c] := by
    rw [List.take_add_one, hc]; rfl
  rw [ht, held_snoc]
  cases c with
  | put o =>
    rcases hd with rfl | rfl
    all_goals
      obtain hk | ⟨j, hk⟩ : key o = none ∨ ∃ j, key o = some j := by cases key o <;> simp
      · simp [watched, keyOf, Change.obj, hk, hv]
      · by_cases hj : k = j
        · simp [watched, keyOf, Change.obj, hk, View.put, hj]
        · simp [watched, keyOf, Change.obj, hk, View.put, hj, Ne.symm hj, hv]
  | del o =>
    cases hd
    obtain hk | ⟨j, hk⟩ : key o = none ∨ ∃ j, key o = some j := by cases key o <;> simp
    · simp [watched, keyOf, Change.obj, hk, hv]
    · by_cases hj : k = j
      · simp [watched, keyOf, Change.obj, hk, View.put, hj]
      · simp [watched, keyOf, Change.obj, hk, View.put, hj, Ne.symm hj, hv]

/-- The server's objects have versions and keys, and are wanted. -/
def Sound (A : Access O G) (key : O → Option K) (ver : Nat → String) (h : List (Change O)) : Prop :=
  ∀ i c, h[i]? = some c → A.version c.obj = some (ver (i + 1)) ∧ (key c.obj).isSome ∧
    Wanted A ⟨.added, c.obj, false⟩

theorem event_some {key : O → Option K} {h : List (Change O)} {i : Nat} {e : Event O}
    (he : event key h i = some e) : ∃ c, h[i]? = some c ∧ e.object = c.obj ∧
      ∃ x, Reflector.storeCall e = [x] ∧ e.type ≠ .error ∧ ∃ ev : Informer.Ev K O, evOf x = some ev ∧ Does c ev := by
  unfold event at he
  split at he
  · cases he
  · rename_i o hc
    cases he
    refine ⟨_, hc, rfl, ?_⟩
    split
    · exact ⟨_, rfl, by simp, _, rfl, Or.inr rfl⟩
    · exact ⟨_, rfl, by simp, _, rfl, Or.inl rfl⟩
  · rename_i o hc
    cases he
    exact ⟨_, hc, rfl, _, rfl, by simp, _, rfl, rfl⟩

theorem event_append {key : O → Option K} {h : List (Change O)} {i : Nat} {e : Event O}
    (he : event key h i = some e) (c : Change O) : event key (h ++ [c]) i = some e := by
  obtain ⟨d, hd, -⟩ := event_some he
  have hi : i < h.length := (List.getElem?_eq_some_iff.1 hd).1
  have h1 : (h ++ [c])[i]? = h[i]? := List.getElem?_append_left hi
  have h2 : (h ++ [c]).take i = h.take i := List.take_append_of_le_length (by omega)
  unfold event at he ⊢
  rw [h1, h2]
  exact he

theorem onEvent_event {A : Access O G} {key : O → Option K} {ver : Nat → String} {h : List (Change O)}
    (hs : Sound A key ver h) {i : Nat} {e : Event O} (he : event key h i = some e) :
    Reflector.onEvent A e = .accepted (ver (i + 1)) ∧ ¬ Fatal A e := by
  obtain ⟨c, hc, ho, x, -, ht, -⟩ := event_some he
  obtain ⟨h1, -, h2⟩ := hs i c hc
  have hw : Wanted A e := by
    have : Wanted A e ↔ Wanted A ⟨.added, c.obj, false⟩ := by simp only [Wanted, ho]
    exact this.2 h2
  have hf : ¬ Fatal A e := by
    rintro (hf | ⟨h3, h4, h5⟩ | ⟨-, h3⟩)
    · exact ht hf
    · obtain ⟨g, hg⟩ := Option.isSome_iff_exists.1 h4
      have := hw.2.1 g hg
      rw [h5] at this
      cases this
    · rw [ho, h1] at h3
      cases h3
  rcases Reflector.onEvent_spec A e with ⟨-, h3⟩ | ⟨-, -, h3⟩ | ⟨v, h3, -, -, h4⟩
  · exact absurd h3 hf
  · exact absurd hw h3
  · rw [ho, h1] at h4
    cases h4
    exact ⟨h3, hf⟩

/-! ### The events under way -/

/-- The queue of events, from version `m` to version `p`; what comes after an error or the end does not
matter. -/
inductive Feed (A : Access O G) (key : O → Option K) (ver : Nat → String) (h : List (Change O)) :
    Nat → List (Option (Event O)) → Nat → Prop
  | nil (m : Nat) : Feed A key ver h m [] m
  | change {m p : Nat} {q : List (Option (Event O))} {e : Event O} (he : event key h m = some e)
      (hq : Feed A key ver h (m + 1) q p) : Feed A key ver h m (some e :: q) p
  | bookmark {m p : Nat} {q : List (Option (Event O))} {o : O} (ho : A.version o = some (ver m))
      (hq : Feed A key ver h m q p) : Feed A key ver h m (some ⟨.bookmark, o, false⟩ :: q) p
  | fault {m p : Nat} {q : List (Option (Event O))} {o : O} :
      Feed A key ver h m (some ⟨.error, o, false⟩ :: q) p
  | done {m p : Nat} {q : List (Option (Event O))} : Feed A key ver h m (none :: q) p

variable {A : Access O G} {key : O → Option K} {ver : Nat → String}

theorem feed_hist {h : List (Change O)} {m p : Nat} {q : List (Option (Event O))}
    (hf : Feed A key ver h m q p) (c : Change O) : Feed A key ver (h ++ [c]) m q p := by
  induction hf with
  | nil m => exact .nil m
  | change he _ ih => exact .change (event_append he c) ih
  | bookmark ho _ ih => exact .bookmark ho ih
  | fault => exact .fault
  | done => exact .done

theorem feed_event {h : List (Change O)} {m p : Nat} {q : List (Option (Event O))}
    (hf : Feed A key ver h m q p) {e : Event O} (he : event key h p = some e) :
    Feed A key ver h m (q ++ [some e]) (p + 1) := by
  induction hf with
  | nil m => exact .change he (.nil _)
  | change he' _ ih => exact .change he' (ih he)
  | bookmark ho _ ih => exact .bookmark ho (ih he)
  | fault => exact .fault
  | done => exact .done

theorem feed_bookmark {h : List (Change O)} {m p : Nat} {q : List (Option (Event O))}
    (hf : Feed A key ver h m q p) {o : O} (ho : A.version o = some (ver p)) :
    Feed A key ver h m (q ++ [some ⟨.bookmark, o, false⟩]) p := by
  induction hf with
  | nil m => exact .bookmark ho (.nil _)
  | change he' _ ih => exact .change he' (ih ho)
  | bookmark ho' _ ih => exact .bookmark ho' (ih ho)
  | fault => exact .fault
  | done => exact .done

theorem feed_fault {h : List (Change O)} {m p : Nat} {q : List (Option (Event O))}
    (hf : Feed A key ver h m q p) (o : O) : Feed A key ver h m (q ++ [some ⟨.error, o, false⟩]) p := by
  induction hf with
  | nil m => exact .fault
  | change he' _ ih => exact .change he' ih
  | bookmark ho' _ ih => exact .bookmark ho' ih
  | fault => exact .fault
  | done => exact .done

theorem feed_done {h : List (Change O)} {m p : Nat} {q : List (Option (Event O))}
    (hf : Feed A key ver h m q p) : Feed A key ver h m (q ++ [none]) p := by
  induction hf with
  | nil m => exact .done
  | change he' _ ih => exact .change he' ih
  | bookmark ho' _ ih => exact .bookmark ho' ih
  | fault => exact .fault
  | done => exact .done

/-! ### The reflector -/

/-- Where the reflector is, if it has version `m`. -/
def Ctl (A : Access O G) (key : O → Option K) (ver : Nat → String) (s : State K O) (m : Nat) : Prop :=
  match s.refl.pc with
  | .opening | .leavingWatch _ => s.refl.version = ver m ∧ s.refl.last = ver m
  | .waiting => s.refl.version = ver m ∧ s.refl.last = ver m ∧ Feed A key ver s.hist m s.refl.queue s.pos
  | .storing v => s.refl.version = ver m ∧ s.refl.last = ver m ∧ v = ver (m + 1) ∧
      (∃ c e, s.hist[m]? = some c ∧ s.cur = some e ∧ Does c e) ∧
      Feed A key ver s.hist (m + 1) s.refl.queue s.pos
  | .replacing items v => s.cur = some (.replace (items.map .real)) ∧
      ∃ n ≤ s.hist.length, v = ver n ∧ items.Perm (content key (s.hist.take n)).values
  | _ => True

structure Good (A : Access O G) (key : O → Option K) (ver : Nat → String) (s : State K O) (m : Nat) :
    Prop where
  sound : Sound A key ver s.hist
  le : m ≤ s.hist.length
  ctl : Ctl A key ver s m

theorem good_init : Good A key ver (init : State K O) 0 :=
  ⟨by intro i c hc; simp [init] at hc, by simp, by simp [Ctl, init, ReflectorTasks.init]⟩

/-- What a step does to the cache and to the version. -/
inductive Effect (key : O → Option K) (ver : Nat → String) (s s' : State K O) (m m' : Nat) : Act O → Prop
  | same {a : Act O} (h : s'.inf = s.inf) (hl : s'.refl.last = s.refl.last) (hm : m' = m)
      (ha : ¬ Lists a) : Effect key ver s s' m m' a
  | stored {c : Change O} {e : Informer.Ev K O} (hc : s.hist[m]? = some c) (hd : Does c e)
      (h : s'.inf = (Informer.step key s.inf e).1) (hl : s'.refl.last = ver (m + 1)) (h0 : s.refl.last = ver m)
      (hm : m' = m + 1) :
      Effect key ver s s' m m' (.tasks .stored)
  | resynced {ok : Bool} (h : s'.inf = (Informer.step key s.inf .resync).1)
      (hl : s'.refl.last = s.refl.last) (hm : m' = m) : Effect key ver s s' m m' (.tasks (.resynced ok))
  | popped {f : Nat → Outcome} (h : s'.inf = (Informer.step key s.inf (.pop f)).1)
      (hl : s'.refl.last = s.refl.last) (hm : m' = m) : Effect key ver s s' m m' (.pop f)
  | listed {items : List O} {v : String} {ok : Bool} (hpc : s.refl.pc = .replacing items v)
      (hi : items.Perm (content key (s.hist.take m')).values)
      (h : s'.inf = (Informer.step key s.inf (.replace (items.map .real))).1)
      (hl : s'.refl.last = ver m') : Effect key ver s s' m m' (.tasks (.replaced ok))

/-- A step of the reflector that leaves the store alone. -/
theorem move_same {p : ℚ} {s s' : State K O} {m : Nat} {a : ReflectorTasks.Act O}
    (hg : Good A key ver s m) (hm : move A p s a = some s') (ha : answers a = false)
    (h1 : ∀ ok, a ≠ .replaced ok) (h2 : a ≠ .stored) (h3 : ∀ ok, a ≠ .resynced ok) :
    Good A key ver s' m ∧ s'.inf = s.inf ∧ s'.refl.last = s.refl.last ∧ s'.hist = s.hist := by
  obtain ⟨hs, hle, hc⟩ := hg
  obtain ⟨hist, pos, ⟨pc, version, last, count, start, reader, queue, errTask, error, resync, now⟩, cur,
    inf⟩ := s
  unfold move at hm
  split at hm
  · cases hm
  rename_i r L hr
  cases hm
  cases a with
  | list =>
    simp only [ReflectorTasks.step] at hr
    split at hr <;> cases hr
    exact ⟨⟨hs, hle, trivial⟩, rfl, rfl, rfl⟩
  | listed x =>
    cases x with
    | some x => cases ha
    | none =>
      simp only [ReflectorTasks.step] at hr
      split at hr <;> cases hr
      exact ⟨⟨hs, hle, trivial⟩, rfl, rfl, rfl⟩
  | replaced ok => exact absurd rfl (h1 ok)
  | watched ok =>
    cases ok with
    | true => cases ha
    | false =>
      simp only [ReflectorTasks.step] at hr
      split at hr <;> cases hr
      exact ⟨⟨hs, hle, trivial⟩, rfl, rfl, rfl⟩
  | read e => cases ha
  | readEnd =>
    simp only [ReflectorTasks.step] at hr
    split at hr <;> cases hr
    refine ⟨⟨hs, hle, ?_⟩, rfl, rfl, rfl⟩
    simp only [Ctl] at hc ⊢
    cases pc <;> simp only [begun] at hc ⊢ <;> first
      | trivial
      | exact hc
      | exact ⟨hc.1, hc.2.1, feed_done hc.2.2⟩
      | exact ⟨hc.1, hc.2.1, hc.2.2.1, hc.2.2.2.1, feed_done hc.2.2.2.2⟩
  | readFail =>
    simp only [ReflectorTasks.step] at hr
    split at hr <;> cases hr
    exact ⟨⟨hs, hle, hc⟩, rfl, rfl, rfl⟩
  | errGet =>
    simp only [ReflectorTasks.step] at hr
    split at hr <;> cases hr
    exact ⟨⟨hs, hle, hc⟩, rfl, rfl, rfl⟩
  | resume =>
    cases pc with
    | waiting =>
      simp only [ReflectorTasks.step] at hr
      simp only [Ctl] at hc
      split at hr
      · cases hr
        exact ⟨⟨hs, hle, ⟨hc.1, hc.2.1⟩⟩, rfl, rfl, rfl⟩
      · cases queue with
        | nil => cases hr
        | cons x rest =>
          simp only at hr
          obtain ⟨c1, c2, c3⟩ := hc
          cases c3 with
          | @change e _ _ _ he hq =>
            obtain ⟨ho, -⟩ := onEvent_event hs he
            obtain ⟨c, hc, -, x, hx, -, ev, hev, hd⟩ := event_some he
            simp only [ReflectorTasks.onTaken, ho, hx, Option.some.injEq, Prod.mk.injEq] at hr
            obtain ⟨rfl, rfl⟩ := hr
            refine ⟨⟨hs, hle, ?_⟩, rfl, rfl, rfl⟩
            exact ⟨c1, c2, rfl, ⟨c, ev, hc, by simp [begun, hev], hd⟩, hq⟩
          | @bookmark _ _ _ o ho hq =>
            rcases Reflector.onEvent_spec A ⟨.bookmark, o, false⟩ with ⟨h4, -⟩ | ⟨h4, -⟩ | ⟨v, h4, -, -, h5⟩
            · simp only [ReflectorTasks.onTaken, h4, Option.some.injEq, Prod.mk.injEq] at hr
              obtain ⟨rfl, rfl⟩ := hr
              exact ⟨⟨hs, hle, ⟨c1, c2⟩⟩, rfl, rfl, rfl⟩
            · simp only [ReflectorTasks.onTaken, h4, Option.some.injEq, Prod.mk.injEq] at hr
              obtain ⟨rfl, rfl⟩ := hr
              exact ⟨⟨hs, hle, ⟨c1, c2, hq⟩⟩, rfl, rfl, rfl⟩
            · simp only [ho, Option.some.injEq] at h5
              subst h5
              simp only [ReflectorTasks.onTaken, h4, Reflector.storeCall, Option.some.injEq,
                Prod.mk.injEq] at hr
              obtain ⟨rfl, rfl⟩ := hr
              exact ⟨⟨hs, hle, ⟨rfl, rfl, hq⟩⟩, rfl, c2.symm, rfl⟩
          | @fault _ _ _ o =>
            have h4 : Reflector.onEvent A (⟨.error, o, false⟩ : Event O) = .raised := by
              simp [Reflector.onEvent]
            simp only [ReflectorTasks.onTaken, h4, Option.some.injEq, Prod.mk.injEq] at hr
            obtain ⟨rfl, rfl⟩ := hr
            exact ⟨⟨hs, hle, ⟨c1, c2⟩⟩, rfl, rfl, rfl⟩
          | done =>
            simp only [ReflectorTasks.onTaken, Option.some.injEq, Prod.mk.injEq] at hr
            obtain ⟨rfl, rfl⟩ := hr
            exact ⟨⟨hs, hle, ⟨c1, c2⟩⟩, rfl, rfl, rfl⟩
    | _ => simp [ReflectorTasks.step] at hr
  | stored => exact absurd rfl h2
  | readerEnds =>
    simp only [ReflectorTasks.step] at hr
    split at hr <;> cases hr
    exact ⟨⟨hs, hle, hc⟩, rfl, rfl, rfl⟩
  | tasksEnded =>
    cases pc with
    | leavingWatch hh =>
      simp only [Ctl] at hc
      cases reader with
      | ended =>
        cases hh <;> simp only [ReflectorTasks.step] at hr <;> cases hr <;>
          refine ⟨⟨hs, hle, ?_⟩, rfl, rfl, rfl⟩ <;> first | exact hc | trivial
      | _ => simp [ReflectorTasks.step] at hr
    | _ => simp [ReflectorTasks.step] at hr
  | tick sh =>
    simp only [ReflectorTasks.step] at hr
    split at hr
    · split at hr
      · split at hr <;> cases hr <;> exact ⟨⟨hs, hle, hc⟩, rfl, rfl, rfl⟩
      · cases hr
    · cases hr
  | resynced ok => exact absurd rfl (h3 ok)
  | resyncEnds =>
    simp only [ReflectorTasks.step] at hr
    split at hr <;> cases hr
    exact ⟨⟨hs, hle, hc⟩, rfl, rfl, rfl⟩
  | gathered =>
    cases pc with
    | leaving c =>
      cases resync with
      | ended =>
        cases c <;> simp only [ReflectorTasks.step] at hr <;> cases hr <;>
          exact ⟨⟨hs, hle, trivial⟩, rfl, rfl, rfl⟩
      | _ => simp [ReflectorTasks.step] at hr
    | _ => simp [ReflectorTasks.step] at hr
  | cancel =>
    cases pc <;> simp only [ReflectorTasks.step] at hr <;> cases hr <;>
      refine ⟨⟨hs, hle, ?_⟩, rfl, rfl, rfl⟩ <;> first
        | trivial
        | exact hc
        | exact ⟨hc.1, hc.2.1⟩
  | pass d =>
    simp only [ReflectorTasks.step] at hr
    split at hr <;> cases hr
    exact ⟨⟨hs, hle, hc⟩, rfl, rfl, rfl⟩

/-- A step of the server while a watch is read. -/
theorem move_read {p : ℚ} {s s' : State K O} {m q : Nat} {e : Event O} (hg : Good A key ver s m)
    (hm : move A p s (.read e) = some s')
    (hf : ∀ n, Feed A key ver s.hist n s.refl.queue s.pos →
      Feed A key ver s.hist n (s.refl.queue ++ [some e]) q) :
    Good A key ver { s' with pos := q } m ∧ s'.inf = s.inf ∧ s'.refl.last = s.refl.last ∧
      s'.hist = s.hist := by
  obtain ⟨hs, hle, hc⟩ := hg
  obtain ⟨hist, pos, ⟨pc, version, last, count, start, reader, queue, errTask, error, resync, now⟩, cur,
    inf⟩ := s
  unfold move at hm
  split at hm
  · cases hm
  rename_i r L hr
  cases hm
  simp only [ReflectorTasks.step] at hr
  split at hr <;> cases hr
  refine ⟨⟨hs, hle, ?_⟩, rfl, rfl, rfl⟩
  simp only [Ctl] at hc ⊢
  cases pc <;> simp only [begun] at hc ⊢ <;> first
    | trivial
    | exact hc
    | exact ⟨hc.1, hc.2.1, hf _ hc.2.2⟩
    | exact ⟨hc.1, hc.2.1, hc.2.2.1, hc.2.2.2.1, hf _ hc.2.2.2.2⟩

theorem raises_replace {xs : List (Obj K O)} (hx : ∀ x ∈ xs, (keyOf key x).isSome)
    (s : Informer.State K O) : raises (Informer.step key s (.replace xs)).2.2 = false := by
  have h : ∀ (xs : List (Obj K O)) (q : DeltaFifo.State K O), (∀ x ∈ xs, (keyOf key x).isSome) →
      (DeltaFifo.syncAll key q xs).2 ≠ none := by
    intro xs
    induction xs with
    | nil => intro q _; simp [DeltaFifo.syncAll]
    | cons x xs ih =>
      intro q hx
      obtain ⟨k, hk⟩ := Option.isSome_iff_exists.1 (hx x (by simp))
      have := ih (DeltaFifo.queueAction key q .sync x).1 fun y hy => hx y (by simp [hy])
      simp only [DeltaFifo.syncAll, hk]
      split
      · simp
      · rename_i heq
        rw [heq] at this
        exact absurd rfl this
  have := h xs s.q hx
  simp only [Informer.step, Informer.call, DeltaFifo.step, DeltaFifo.replace]
  split
  · rename_i heq
    rw [heq] at this
    exact absurd rfl this
  · rfl

theorem good_step (hinj : Function.Injective ver) {p : ℚ} {s s' : State K O} {m : Nat} {a : Act O} (hg : Good A key ver s m)
    (hs : step A key ver p s a = some s') (ha : Serves A a) :
    ∃ m', Good A key ver s' m' ∧ Effect key ver s s' m m' a ∧ s.hist <+: s'.hist := by
  cases a with
  | change c =>
    simp only [step] at hs
    split at hs
    · rename_i hc
      cases hs
      obtain ⟨h1, h2, h3⟩ := hg
      refine ⟨m, ⟨?_, by simp only [List.length_append]; omega, ?_⟩, .same rfl rfl rfl (by simp [Lists]),
        List.prefix_append _ _⟩
      · intro i d hd
        rcases Nat.lt_trichotomy i s.hist.length with hi | hi | hi
        · rw [List.getElem?_append_left hi] at hd
          exact h1 i d hd
        · subst hi
          simp only [List.getElem?_concat_length, Option.some.injEq] at hd
          subst hd
          exact ⟨hc.1, hc.2, ha⟩
        · rw [List.getElem?_eq_none (by simp; omega)] at hd
          cases hd
      · have htake : ∀ n ≤ s.hist.length, (s.hist ++ [c]).take n = s.hist.take n :=
          fun n hn => List.take_append_of_le_length hn
        simp only [Ctl] at h3 ⊢
        cases hpc : s.refl.pc with
        | opening => simpa only [hpc] using h3
        | leavingWatch h => simpa only [hpc] using h3
        | waiting =>
          simp only [hpc] at h3 ⊢
          exact ⟨h3.1, h3.2.1, feed_hist h3.2.2 c⟩
        | storing v =>
          simp only [hpc] at h3 ⊢
          obtain ⟨d1, d2, d3, ⟨c', e, d4, d5⟩, d6⟩ := h3
          refine ⟨d1, d2, d3, ⟨c', e, ?_, d5⟩, feed_hist d6 c⟩
          rw [List.getElem?_append_left (List.getElem?_eq_some_iff.1 d4).1]
          exact d4
        | replacing items v =>
          simp only [hpc] at h3 ⊢
          obtain ⟨d1, n, d2, d3, d4⟩ := h3
          refine ⟨d1, n, by simp only [List.length_append]; omega, d3, ?_⟩
          rw [htake n d2]
          exact d4
        | _ => trivial
    · cases hs
  | listed n items =>
    simp only [step] at hs
    split at hs
    · rename_i hc
      obtain ⟨h1, h2, h3⟩ := hg
      unfold move at hs
      split at hs
      · cases hs
      rename_i r L hr
      cases hs
      obtain ⟨hist, pos, ⟨pc, version, last, count, start, reader, queue, errTask, error, resync, now⟩, cur,
        inf⟩ := s
      cases pc <;> simp only [ReflectorTasks.step] at hr <;> cases hr
      refine ⟨m, ⟨h1, h2, ?_⟩, .same rfl rfl rfl (by simp [Lists]), List.prefix_rfl⟩
      exact ⟨rfl, n, hc.1, rfl, hc.2⟩
    · cases hs
  | opened n =>
    simp only [step] at hs
    split at hs
    · rename_i hc
      obtain ⟨h1, h2, h3⟩ := hg
      obtain ⟨s1, hm, rfl⟩ := Option.map_eq_some_iff.1 hs
      unfold move at hm
      split at hm
      · cases hm
      rename_i r L hr
      cases hm
      obtain ⟨hist, pos, ⟨pc, version, last, count, start, reader, queue, errTask, error, resync, now⟩, cur,
        inf⟩ := s
      cases pc <;> simp only [ReflectorTasks.step] at hr <;> cases hr
      obtain ⟨c1, c2⟩ := h3
      have : n = m := hinj (hc.2.trans c1)
      subst this
      exact ⟨n, ⟨h1, h2, ⟨c1, c2, .nil _⟩⟩, .same rfl rfl rfl (by simp [Lists]), List.prefix_rfl⟩
    · cases hs
  | event =>
    simp only [step] at hs
    split at hs
    · rename_i e he
      obtain ⟨s1, hm, rfl⟩ := Option.map_eq_some_iff.1 hs
      have hpos : s1.pos = s.pos := by
        unfold move at hm
        split at hm <;> cases hm
        rfl
      obtain ⟨g1, g2, g3, g4⟩ := move_read (q := s.pos + 1) hg hm fun n hn => feed_event hn he
      rw [hpos]
      exact ⟨m, g1, .same g2 g3 rfl (by simp [Lists]), by simp [g4]⟩
    · cases hs
  | bookmark o =>
    simp only [step] at hs
    split at hs
    · rename_i ho
      have hpos : s'.pos = s.pos := by
        unfold move at hs
        split at hs <;> cases hs
        rfl
      obtain ⟨g1, g2, g3, g4⟩ := move_read (q := s.pos) hg hs fun n hn => feed_bookmark hn ho
      rw [← hpos] at g1
      exact ⟨m, g1, .same g2 g3 rfl (by simp [Lists]), by simp [g4]⟩
    · cases hs
  | fault o =>
    simp only [step] at hs
    have hpos : s'.pos = s.pos := by
      unfold move at hs
      split at hs <;> cases hs
      rfl
    obtain ⟨g1, g2, g3, g4⟩ := move_read (q := s.pos) hg hs fun n hn => feed_fault hn o
    rw [← hpos] at g1
    exact ⟨m, g1, .same g2 g3 rfl (by simp [Lists]), by simp [g4]⟩
  | pop h =>
    simp only [step] at hs
    split at hs <;> cases hs
    obtain ⟨h1, h2, h3⟩ := hg
    exact ⟨m, ⟨h1, h2, h3⟩, .popped rfl rfl rfl, List.prefix_rfl⟩
  | tasks a =>
    simp only [step] at hs
    split at hs
    · cases hs
    rename_i hans
    have hans : answers a = false := by simpa using hans
    have plain : move A p s a = some s' → (∀ ok, a ≠ .replaced ok) → a ≠ .stored → (∀ ok, a ≠ .resynced ok) →
        ∃ m', Good A key ver s' m' ∧ Effect key ver s s' m m' (.tasks a) ∧ s.hist <+: s'.hist := by
      intro hm e1 e2 e3
      obtain ⟨g1, g2, g3, g4⟩ := move_same hg hm hans e1 e2 e3
      refine ⟨m, g1, .same g2 g3 rfl ?_, by simp [g4]⟩
      cases a <;> simp [Lists] at e1 ⊢
    cases a with
    | replaced ok =>
      simp only at hs
      split at hs
      · rename_i items v e hpc hcur
        obtain ⟨h1, h2, h3⟩ := hg
        simp only [Ctl, hpc, hcur] at h3
        obtain ⟨h3, n, hn, rfl, hi⟩ := h3
        cases h3
        obtain ⟨s1, ht, hm⟩ := Option.bind_eq_some_iff.1 hs
        have hkeys := (listed_content key _ items hi).1
        have hok : ok = true := by
          unfold take at ht
          simp only at ht
          split at ht
          · rename_i hr
            rw [raises_replace hkeys] at hr
            cases ok <;> simp at hr ⊢
          · cases ht
        subst hok
        unfold take at ht
        simp only at ht
        split at ht
        · cases ht
          unfold move at hm
          split at hm
          · cases hm
          rename_i r L hr
          cases hm
          simp only [ReflectorTasks.step, hpc] at hr
          cases hr
          exact ⟨n, ⟨h1, hn, ⟨rfl, rfl⟩⟩, .listed hpc hi rfl rfl, List.prefix_rfl⟩
        · cases ht
      · cases hs
    | stored =>
      simp only at hs
      split at hs
      · rename_i v e hpc hcur
        obtain ⟨h1, h2, h3⟩ := hg
        simp only [Ctl, hpc, hcur] at h3
        obtain ⟨d1, d2, d3, ⟨c, e', d4, d5, d6⟩, d7⟩ := h3
        cases d5
        unfold move at hs
        split at hs
        · cases hs
        rename_i r L hr
        cases hs
        simp only [ReflectorTasks.step, hpc] at hr
        cases hr
        have : m < s.hist.length := (List.getElem?_eq_some_iff.1 d4).1
        exact ⟨m + 1, ⟨h1, this, ⟨d3, d3, d7⟩⟩, .stored d4 d6 rfl d3 d2 rfl, List.prefix_rfl⟩
      · cases hs
    | resynced ok =>
      simp only at hs
      split at hs
      · rename_i hr
        obtain ⟨s1, ht, hm⟩ := Option.bind_eq_some_iff.1 hs
        obtain ⟨h1, h2, h3⟩ := hg
        unfold take at ht
        simp only at ht
        split at ht
        · cases ht
          unfold move at hm
          split at hm
          · cases hm
          rename_i r L hr'
          cases hm
          simp only [ReflectorTasks.step, hr] at hr'
          split at hr' <;> cases hr' <;> exact ⟨m, ⟨h1, h2, h3⟩, .resynced rfl rfl rfl, List.prefix_rfl⟩
        · cases ht
      · cases hs
    | _ => exact plain hs (by simp) (by simp) (by simp)

/-! ### The cache -/

/-- The cache will be what the server had at version `m`. -/
def Will (key : O → Option K) (ver : Nat → String) (s : State K O) (m : Nat) : Prop :=
  s.refl.last = ver m ∧ ∃ log : List (Entry K O), Informer.Inv key s.inf log ∧
    ∀ k, Informer.eventual s.inf.items log k = (held key (s.hist.take m) k).map .real

theorem inv_effect {s s' : State K O} {m m' : Nat} {a : Act O} (he : Effect key ver s s' m m' a)
    (hi : ∃ log, Informer.Inv key s.inf log) : ∃ log, Informer.Inv key s'.inf log := by
  obtain ⟨log, hi⟩ := hi
  cases he with
  | same h => exact ⟨log, by rw [h]; exact hi⟩
  | stored _ _ h => exact ⟨_, by rw [h]; exact (Informer.inv_step hi _).1⟩
  | resynced h => exact ⟨_, by rw [h]; exact (Informer.inv_step hi _).1⟩
  | popped h => exact ⟨_, by rw [h]; exact (Informer.inv_step hi _).1⟩
  | listed _ _ h => exact ⟨_, by rw [h]; exact (Informer.inv_step hi _).1⟩

theorem take_prefix {h h' : List (Change O)} (hp : h <+: h') {m : Nat} (hm : m ≤ h.length) :
    h'.take m = h.take m := by
  obtain ⟨t, rfl⟩ := hp
  exact List.take_append_of_le_length hm

theorem will_effect {s s' : State K O} {m m' : Nat} {a : Act O} (he : Effect key ver s s' m m' a)
    (hw : Will key ver s m) (hle : m ≤ s.hist.length) (hp : s.hist <+: s'.hist) (hn : ¬ Lists a)
    (hok : HandlerOk a) : Will key ver s' m' := by
  obtain ⟨hl, log, hi, hv⟩ := hw
  cases he with
  | same h h2 hm =>
    subst hm
    exact ⟨by rw [h2, hl], log, by rw [h]; exact hi, by rw [h, take_prefix hp hle]; exact hv⟩
  | @stored c e hc hd h h2 _ hm =>
    subst hm
    have hm : m < s.hist.length := (List.getElem?_eq_some_iff.1 hc).1
    refine ⟨h2, _, by rw [h]; exact (Informer.inv_step hi e).1, fun k => ?_⟩
    rw [h, take_prefix hp hm, Informer.eventual_step hi k e, watched_does hc hd _ k (hv k)]
    · cases c with
      | put o => rcases hd with rfl | rfl <;> trivial
      | del o => cases hd; trivial
    · cases c with
      | put o => rcases hd with rfl | rfl <;> trivial
      | del o => cases hd; trivial
  | resynced h h2 hm =>
    subst hm
    refine ⟨by rw [h2, hl], _, by rw [h]; exact (Informer.inv_step hi .resync).1, fun k => ?_⟩
    rw [h, take_prefix hp hle, Informer.eventual_step hi k .resync trivial trivial, ← hv k]
    rfl
  | @popped f h h2 hm =>
    subst hm
    refine ⟨by rw [h2, hl], _, by rw [h]; exact (Informer.inv_step hi (.pop f)).1, fun k => ?_⟩
    rw [h, take_prefix hp hle, Informer.eventual_step hi k (.pop f) trivial, ← hv k]
    · rfl
    · intro _
      exact ⟨fun i c => by rw [hok i]; simp, fun i _ => hok i⟩
  | listed => exact absurd trivial hn

theorem will_list {s s' : State K O} {m m' : Nat} {ok : Bool}
    (he : Effect key ver s s' m m' (.tasks (.replaced ok))) (hp : s.hist <+: s'.hist)
    (hm : m' ≤ s.hist.length) (hi : ∃ log, Informer.Inv key s.inf log) (hc : Clean key s) :
    Will key ver s' m' := by
  obtain ⟨log, hi⟩ := hi
  cases he with
  | same _ _ _ ha => exact absurd trivial ha
  | @listed items v _ hpc hper h hl =>
    obtain ⟨hk, hlist⟩ := listed_content key _ items hper
    refine ⟨hl, _, by rw [h]; exact (Informer.inv_step hi _).1, fun k => ?_⟩
    rw [h, take_prefix hp hm, Informer.eventual_replace hi _ hk k (hc items v hpc k), hlist]

theorem good_exec (hinj : Function.Injective ver) {p : ℚ} (as : List (Act O)) : ∀ {s s' : State K O} {m : Nat},
    Good A key ver s m → (∃ log, Informer.Inv key s.inf log) →
    exec A key ver p s as = some s' → (∀ a ∈ as, Serves A a) →
    ∃ m', Good A key ver s' m' ∧ (∃ log, Informer.Inv key s'.inf log) ∧ s.hist <+: s'.hist := by
  induction as with
  | nil =>
    intro s s' m hg hi he _
    cases he
    exact ⟨m, hg, hi, List.prefix_rfl⟩
  | cons a as ih =>
    intro s s' m hg hi he ha
    simp only [exec] at he
    split at he
    · cases he
    · rename_i s1 h1
      obtain ⟨m1, g1, e1, p1⟩ := good_step hinj hg h1 (ha a (by simp))
      obtain ⟨m', g2, i2, p2⟩ := ih g1 (inv_effect e1 hi) he fun b hb => ha b (by simp [hb])
      exact ⟨m', g2, i2, p1.trans p2⟩

theorem will_exec (hinj : Function.Injective ver) {p : ℚ} (as : List (Act O)) : ∀ {s s' : State K O} {m : Nat},
    Good A key ver s m → Will key ver s m →
    exec A key ver p s as = some s' → (∀ a ∈ as, Serves A a) → (∀ a ∈ as, ¬ Lists a) →
    (∀ a ∈ as, HandlerOk a) →
    ∃ m', Good A key ver s' m' ∧ Will key ver s' m' := by
  induction as with
  | nil =>
    intro s s' m hg hw he _ _ _
    cases he
    exact ⟨m, hg, hw⟩
  | cons a as ih =>
    intro s s' m hg hw he ha hl ho
    simp only [exec] at he
    split at he
    · cases he
    · rename_i s1 h1
      obtain ⟨m1, g1, e1, p1⟩ := good_step hinj hg h1 (ha a (by simp))
      exact ih g1 (will_effect e1 hw hg.le p1 (hl a (by simp)) (ho a (by simp))) he
        (fun b hb => ha b (by simp [hb])) (fun b hb => hl b (by simp [hb])) fun b hb => ho b (by simp [hb])

theorem forward_exec (hinj : Function.Injective ver) {p : ℚ} (as : List (Act O)) :
    ∀ {s s' : State K O} {m n : Nat}, Good A key ver s m → s.refl.last = ver n →
    exec A key ver p s as = some s' → (∀ a ∈ as, Serves A a) → (∀ a ∈ as, ¬ Lists a) →
    ∃ n', n ≤ n' ∧ s'.refl.last = ver n' := by
  induction as with
  | nil =>
    intro s s' m n _ hn he _ _
    cases he
    exact ⟨n, le_rfl, hn⟩
  | cons a as ih =>
    intro s s' m n hg hn he ha hl
    simp only [exec] at he
    split at he
    · cases he
    · rename_i s1 h1
      obtain ⟨m1, g1, e1, p1⟩ := good_step hinj hg h1 (ha a (by simp))
      have : ∃ n1, n ≤ n1 ∧ s1.refl.last = ver n1 := by
        cases e1 with
        | same _ h2 => exact ⟨n, le_rfl, h2.trans hn⟩
        | stored _ _ _ h2 h0 =>
          have : n = m := hinj (hn.symm.trans h0)
          exact ⟨m + 1, by omega, h2⟩
        | resynced _ h2 => exact ⟨n, le_rfl, h2.trans hn⟩
        | popped _ h2 => exact ⟨n, le_rfl, h2.trans hn⟩
        | listed => exact absurd (by trivial) (hl _ List.mem_cons_self)
      obtain ⟨n1, k1, k2⟩ := this
      obtain ⟨n', k3, k4⟩ := ih g1 k2 he (fun b hb => ha b (by simp [hb])) fun b hb => hl b (by simp [hb])
      exact ⟨n', k1.trans k3, k4⟩

theorem exec_append (as bs : List (Act O)) : ∀ (p : ℚ) (s : State K O),
    exec A key ver p s (as ++ bs) = (exec A key ver p s as).bind fun s => exec A key ver p s bs := by
  induction as with
  | nil => intro p s; rfl
  | cons a as ih =>
    intro p s
    simp only [List.cons_append, exec]
    split
    · rfl
    · exact ih p _

/-! ### Coming to rest -/

/-- At most this many steps are left. -/
def todo (s : State K O) : Nat :=
  4 * (s.hist.length - s.pos) + 3 * s.refl.queue.length +
    (match s.refl.pc with
      | .storing _ => 2
      | _ => 0) + s.inf.q.queue.length

theorem queue_does {c : Change O} {e : Informer.Ev K O} (hd : Does c e) (s : Informer.State K O) :
    (Informer.step key s e).1.q.queue.length ≤ s.q.queue.length + 1 := by
  have hq : ∀ (q : DeltaFifo.State K O) t x,
      (DeltaFifo.queueAction key q t x).1.queue.length ≤ q.queue.length + 1 := by
    intro q t x
    unfold DeltaFifo.queueAction
    split
    · simp
    · split
      · simp
      · simp only
        split
        · simp only
          split <;> simp
        · simp
  cases c with
  | put o =>
    rcases hd with rfl | rfl
    · exact hq _ _ _
    · exact hq _ _ _
  | del o =>
    cases hd
    simp only [Informer.step, Informer.call, DeltaFifo.step, DeltaFifo.delete]
    split
    · simp
    · split
      · simp
      · exact hq _ _ _

theorem feed_nofault {h : List (Change O)} {m p : Nat} {q : List (Option (Event O))}
    (hf : Feed A key ver h m q p) (hc : ∀ x ∈ q, ∃ e, x = some e ∧ ¬ Fatal A e) :
    (∃ x rest, q = some x :: rest ∧ ((event key h m = some x ∧ Feed A key ver h (m + 1) rest p) ∨
      ((∃ o, x = ⟨.bookmark, o, false⟩ ∧ A.version o = some (ver m)) ∧ Feed A key ver h m rest p))) ∨
    (q = [] ∧ m = p) := by
  cases hf with
  | nil => exact Or.inr ⟨rfl, rfl⟩
  | change he hq => exact Or.inl ⟨_, _, rfl, Or.inl ⟨he, hq⟩⟩
  | bookmark ho hq => exact Or.inl ⟨_, _, rfl, Or.inr ⟨⟨_, rfl, ho⟩, hq⟩⟩
  | fault =>
    obtain ⟨e, h1, h2⟩ := hc _ List.mem_cons_self
    cases h1
    exact absurd (Or.inl rfl) h2
  | done =>
    obtain ⟨e, h1, h2⟩ := hc _ List.mem_cons_self
    cases h1

theorem calm_step (hinj : Function.Injective ver) {p : ℚ} {s s' : State K O} {m : Nat} {a : Act O}
    (hg : Good A key ver s m) (hi : ∃ log, Informer.Inv key s.inf log) (hc : Calm A s) (ha : Settling a)
    (hs : step A key ver p s a = some s') : Calm A s' ∧ todo s' < todo s ∧ s'.hist = s.hist := by
  obtain ⟨c1, c2, c3, c4⟩ := hc
  cases a with
  | event =>
    simp only [step] at hs
    split at hs
    · rename_i e he
      obtain ⟨s1, hm, rfl⟩ := Option.map_eq_some_iff.1 hs
      have hlen : s.pos < s.hist.length := by
        obtain ⟨c, hc, -⟩ := event_some he
        exact (List.getElem?_eq_some_iff.1 hc).1
      obtain ⟨hist, pos, ⟨pc, version, last, count, start, reader, queue, errTask, error, resync, now⟩, cur,
        inf⟩ := s
      simp only at c2 c3
      subst c2 c3
      simp only [move, ReflectorTasks.step, Option.some.injEq] at hm
      subst hm
      refine ⟨⟨c1, rfl, rfl, ?_⟩, ?_, rfl⟩
      · intro x hx
        rcases List.mem_append.1 hx with hx | hx
        · exact c4 x hx
        · exact ⟨e, List.mem_singleton.1 hx, (onEvent_event hg.sound he).2⟩
      · simp only [todo, List.length_append, List.length_singleton] at hlen ⊢
        omega
    · cases hs
  | tasks a =>
    cases a with
    | resume =>
      have hs : move A p s .resume = some s' := by
        simpa [step, answers] using hs
      obtain ⟨h1, h2, h3⟩ := hg
      obtain ⟨hist, pos, ⟨pc, version, last, count, start, reader, queue, errTask, error, resync, now⟩, cur,
        inf⟩ := s
      simp only at c2 c3 c4
      subst c2 c3
      cases pc with
      | waiting =>
        obtain ⟨d1, d2, d3⟩ := h3
        simp only at d3
        rcases feed_nofault d3 c4 with ⟨e, rest, rfl, hx⟩ | ⟨rfl, -⟩
        · have c4' : ∀ x ∈ rest, ∃ e, x = some e ∧ ¬ Fatal A e := fun x hx => c4 x (by simp [hx])
          rcases hx with ⟨he, -⟩ | ⟨⟨o, rfl, ho⟩, -⟩
          · obtain ⟨ho, -⟩ := onEvent_event h1 he
            obtain ⟨c, hc, -, x, hx, -⟩ := event_some he
            simp only [move, ReflectorTasks.step, ReflectorTasks.onTaken, ho, hx, Option.some.injEq] at hs
            subst hs
            refine ⟨⟨Or.inr ⟨_, rfl⟩, rfl, rfl, c4'⟩, ?_, rfl⟩
            simp only [todo, List.length_cons]
            omega
          · obtain ⟨e', h4, h5⟩ := c4 _ (List.mem_cons_self ..)
            cases h4
            rcases Reflector.onEvent_spec A ⟨.bookmark, o, false⟩ with ⟨-, h4⟩ | ⟨h4, -⟩ | ⟨v, h4, -⟩
            · exact absurd h4 h5
            · simp only [move, ReflectorTasks.step, ReflectorTasks.onTaken, h4, Option.some.injEq] at hs
              subst hs
              refine ⟨⟨Or.inl rfl, rfl, rfl, c4'⟩, ?_, rfl⟩
              simp only [todo, List.length_cons]
              omega
            · simp only [move, ReflectorTasks.step, ReflectorTasks.onTaken, h4, Reflector.storeCall,
                Option.some.injEq] at hs
              subst hs
              refine ⟨⟨Or.inl rfl, rfl, rfl, c4'⟩, ?_, rfl⟩
              simp only [todo, List.length_cons]
              omega
        · simp [move, ReflectorTasks.step] at hs
      | _ => simp [move, ReflectorTasks.step] at hs
    | stored =>
      obtain ⟨h1, h2, h3⟩ := hg
      obtain ⟨hist, pos, ⟨pc, version, last, count, start, reader, queue, errTask, error, resync, now⟩, cur,
        inf⟩ := s
      simp only at c2 c3 c4
      subst c2 c3
      cases pc with
      | storing v =>
        obtain ⟨d1, d2, d3, ⟨c, e, d4, d5, d6⟩, d7⟩ := h3
        simp only at d5
        subst d5
        simp only [step, answers, Bool.false_eq_true, if_false, move, ReflectorTasks.step,
          Option.some.injEq] at hs
        subst hs
        refine ⟨⟨Or.inl rfl, rfl, rfl, c4⟩, ?_, rfl⟩
        have := queue_does (key := key) d6 inf
        simp only [todo]
        omega
      | _ => simp [step, answers] at hs
    | _ => cases ha
  | pop h =>
    simp only [step] at hs
    split at hs
    · cases hs
    · rename_i hq
      cases hs
      refine ⟨⟨c1, c2, c3, c4⟩, ?_, rfl⟩
      obtain ⟨log, hi⟩ := hi
      have hh : h = fun _ => .ok := funext ha
      subst hh
      have hne : s.inf.q.queue.length ≠ 0 := fun h0 => hq (List.eq_nil_of_length_eq_zero h0)
      simp only [todo, Informer.pop_ok_queue hi, List.length_tail]
      omega
  | _ => cases ha

theorem calm_exec (hinj : Function.Injective ver) {p : ℚ} (as : List (Act O)) : ∀ {s s' : State K O} {m : Nat},
    Good A key ver s m → (∃ log, Informer.Inv key s.inf log) → Calm A s →
    exec A key ver p s as = some s' → (∀ a ∈ as, Settling a) →
    Calm A s' ∧ as.length + todo s' ≤ todo s ∧ s'.hist = s.hist := by
  induction as with
  | nil =>
    intro s s' m _ _ hc he _
    cases he
    exact ⟨hc, by simp, rfl⟩
  | cons a as ih =>
    intro s s' m hg hi hc he ha
    simp only [exec] at he
    split at he
    · cases he
    · rename_i s1 h1
      have hs : Serves A a := by
        have := ha a (by simp)
        cases a <;> first | trivial | cases this
      obtain ⟨m1, g1, e1, -⟩ := good_step hinj hg h1 hs
      obtain ⟨k1, k2, k3⟩ := calm_step hinj hg hi hc (ha a (by simp)) h1
      obtain ⟨j1, j2, j3⟩ := ih g1 (inv_effect e1 hi) k1 he fun b hb => ha b (by simp [hb])
      exact ⟨j1, by simp only [List.length_cons]; omega, j3.trans k3⟩

theorem rest {p : ℚ} {s : State K O} {m : Nat} (hg : Good A key ver s m) (hc : Calm A s)
    (hr : ∀ a, Settling a → step A key ver p s a = none) :
    s.inf.q.queue = [] ∧ m = s.hist.length ∧ s.refl.last = ver m ∧ s.refl.pc = .waiting := by
  obtain ⟨c1, c2, c3, c4⟩ := hc
  obtain ⟨h1, h2, h3⟩ := hg
  have hpop := hr (.pop fun _ => .ok) (fun _ => rfl)
  have hev := hr .event trivial
  have hres := hr (.tasks .resume) trivial
  have hsto := hr (.tasks .stored) trivial
  obtain ⟨hist, pos, ⟨pc, version, last, count, start, reader, queue, errTask, error, resync, now⟩, cur,
    inf⟩ := s
  simp only at c2 c3 c4
  subst c2 c3
  have hd : inf.q.queue = [] := by
    by_contra hcon
    simp [step, hcon] at hpop
  rcases c1 with hpc | ⟨v, hpc⟩
  · simp only at hpc
    subst hpc
    obtain ⟨d1, d2, d3⟩ := h3
    simp only at d3
    have hq : queue = [] := by
      cases queue with
      | nil => rfl
      | cons x rest => simp [step, answers, move, ReflectorTasks.step] at hres
    subst hq
    cases d3
    refine ⟨hd, ?_, d2, rfl⟩
    simp only at h2 ⊢
    by_contra hcon
    have hlt : m < hist.length := by omega
    have : ∃ e, event key hist m = some e := by
      unfold event
      rw [List.getElem?_eq_getElem hlt]
      cases hist[m] <;> exact ⟨_, rfl⟩
    obtain ⟨e, he⟩ := this
    simp [step, he, move, ReflectorTasks.step] at hev
  · simp only at hpc
    subst hpc
    obtain ⟨d1, d2, d3, ⟨c, e, d4, d5, d6⟩, d7⟩ := h3
    simp only at d5
    subst d5
    simp [step, answers, move, ReflectorTasks.step] at hsto

end Aiok8s.Follow
