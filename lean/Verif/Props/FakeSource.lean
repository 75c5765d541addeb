import Verif.Spec.FakeSource
import Mathlib.Tactic.NormNum
import Mathlib.Data.List.Nodup
import Mathlib.Data.List.Basic
import Mathlib.Data.List.Induction
/-!
# The fake source of objects: C60
-/
set_option linter.unusedSimpArgs false
set_option linter.unusedSectionVars false
namespace Aiok8s.FakeSource
open Aiok8s
variable {K B : Type} [DecidableEq K]

/-- The items as a client would know them. -/
private def view (s : State K B) : View K B := fun k => (s.items.get? k).map s.heap

private structure Inv (name : Nat → K) (s : State K B) : Prop where
  wf : s.items.WF
  item : ∀ k r, s.items.get? k = some r → name r = k ∧ (s.heap r).key = k
  key : ∀ c ∈ s.changes, (s.heap c.2).key = name c.2

private def Good (name : Nat → K) (s : State K B) (v : View K B) (w : List (Typ × Item K B)) : Prop :=
  (∀ t r, (t, Item.shared r) ∈ w → (s.heap r).key = name r) ∧ v.applyAll (read s w) = view s

private def readH (h : Nat → Obj K B) (e : Typ × Item K B) : Typ × Obj K B :=
  (e.1, e.2.get h)

private theorem read_eq (s : State K B) (w : List (Typ × Item K B)) : read s w = w.map (readH s.heap) := rfl

private theorem applyAll_cons (v : View K B) (e : Typ × Obj K B) (es : List (Typ × Obj K B)) :
    v.applyAll (e :: es) = (v.apply e).applyAll es := rfl

private theorem apply_hit (v : View K B) (t : Typ) (o : Obj K B) (k : K) (h : o.key = k) :
    v.apply (t, o) k = if t = .deleted then none else some o := by
  simp only [View.apply, if_pos h]

private theorem apply_miss (v : View K B) (t : Typ) (o : Obj K B) (k : K) (h : ¬ o.key = k) :
    v.apply (t, o) k = v k := by
  simp only [View.apply, if_neg h]

private theorem applyAll_append (v : View K B) (as bs : List (Typ × Obj K B)) :
    v.applyAll (as ++ bs) = (v.applyAll as).applyAll bs := List.foldl_append ..

/-- Events about the object `r` do not matter for another key. -/
private theorem keep_other (name : Nat → K) (h : Nat → Obj K B) (r : Nat) (o : Obj K B) (ho : o.key = name r) (k : K)
    (hk : k ≠ name r) : ∀ (w : List (Typ × Item K B)) (v v' : View K B), v k = v' k →
    (∀ t q, (t, Item.shared q) ∈ w → (h q).key = name q) →
    v.applyAll (w.map (readH (update h r o))) k = v'.applyAll (w.map (readH h)) k
  | [], v, v', hv, _ => hv
  | (t, i) :: w, v, v', hv, hw => by
    rw [List.map_cons, List.map_cons, applyAll_cons, applyAll_cons]
    refine keep_other name h r o ho k hk w _ _ ?_ fun t q hq => hw t q (List.mem_cons_of_mem _ hq)
    have same : ∀ x : Obj K B, v.apply (t, x) k = v'.apply (t, x) k := by
      intro x
      by_cases hx : x.key = k
      · rw [apply_hit _ _ _ _ hx, apply_hit _ _ _ _ hx]
      · rw [apply_miss _ _ _ _ hx, apply_miss _ _ _ _ hx, hv]
    cases i with
    | copied x => exact same x
    | shared q =>
      by_cases hq : q = r
      · subst hq
        have h1 := hw t q List.mem_cons_self
        have h2 : ¬ (h q).key = k := fun e => hk (by rw [← e, h1])
        have h3 : ¬ o.key = k := fun e => hk (by rw [← e, ho])
        simp only [readH, Item.get, update, if_true]
        rw [apply_miss _ _ _ _ h2, apply_miss _ _ _ _ h3, hv]
      · simp only [readH, Item.get, update, if_neg hq]
        exact same _

/-- Whether there is an object for a key does not depend on what the objects hold. -/
private theorem keep_isSome (name : Nat → K) (h : Nat → Obj K B) (r : Nat) (o : Obj K B) (ho : o.key = name r) (k : K) :
    ∀ (w : List (Typ × Item K B)) (v v' : View K B), (v k).isSome = (v' k).isSome →
    (∀ t q, (t, Item.shared q) ∈ w → (h q).key = name q) →
    (v.applyAll (w.map (readH (update h r o))) k).isSome = (v'.applyAll (w.map (readH h)) k).isSome
  | [], v, v', hv, _ => hv
  | (t, i) :: w, v, v', hv, hw => by
    rw [List.map_cons, List.map_cons, applyAll_cons, applyAll_cons]
    refine keep_isSome name h r o ho k w _ _ ?_ fun t q hq => hw t q (List.mem_cons_of_mem _ hq)
    have same : ∀ x y : Obj K B, x.key = y.key → (v.apply (t, x) k).isSome = (v'.apply (t, y) k).isSome := by
      intro x y hxy
      by_cases hx : x.key = k
      · rw [apply_hit _ _ _ _ hx, apply_hit _ _ _ _ (hxy ▸ hx)]
        cases t <;> rfl
      · rw [apply_miss _ _ _ _ hx, apply_miss _ _ _ _ (hxy ▸ hx), hv]
    cases i with
    | copied x => exact same x x rfl
    | shared q =>
      by_cases hq : q = r
      · subst hq
        have h1 := hw t q List.mem_cons_self
        simp only [readH, Item.get, update, if_true]
        exact same _ _ (by rw [h1, ho])
      · simp only [readH, Item.get, update, if_neg hq]
        exact same _ _ rfl

/-- The parts of a change that matter here. -/
private theorem change_parts (s : State K B) (t : Typ) (r : Nat) (o : Obj K B) (p u : ℚ) :
    (change s t r o p u).1.heap = update s.heap r { o with rv := s.changes.length + 1 } ∧
    (change s t r o p u).1.changes = s.changes ++ [(t, r)] ∧
    (change s t r o p u).1.items = (if t = .deleted then s.items.del o.key else s.items.set o.key r) ∧
    (change s t r o p u).1.down = s.down ∧
    (change s t r o p u).1.watchers =
      (if (t = .deleted ∧ s.items.has o.key = false) ∨ ¬ u < p then s.watchers
        else s.watchers.map (· ++ [(t, Item.shared r)])) := by
  have hdel : s.items.has o.key = false → s.items = s.items.del o.key := by
    intro h
    refine (PyDict.del_of_not_mem ?_).symm
    intro hm
    rw [PyDict.has_iff.2 hm] at h
    cases h
  by_cases hu : u < p
  · cases t <;> simp only [change, hu, if_true, not_true, or_false, reduceCtorEq, false_and, if_false] <;>
      first
      | exact ⟨rfl, rfl, rfl, rfl, rfl⟩
      | (cases hh : s.items.has o.key <;> simp [hh]
         all_goals exact hdel hh)
  · cases t <;> simp only [change, hu, if_false, not_false_eq_true, or_true, if_true, reduceCtorEq] <;>
      first
      | exact ⟨rfl, rfl, rfl, rfl, rfl⟩
      | (cases hh : s.items.has o.key <;> simp [hh]
         all_goals exact hdel hh)

private theorem get_items (s : State K B) (hw : s.items.WF) (t : Typ) (r : Nat) (o : Obj K B) (p u : ℚ) (k : K) :
    (change s t r o p u).1.items.get? k =
      if o.key = k then (if t = .deleted then none else some r) else s.items.get? k := by
  rw [(change_parts s t r o p u).2.2.1]
  by_cases ht : t = .deleted
  · rw [if_pos ht, if_pos ht, PyDict.get?_del hw]
  · rw [if_neg ht, if_neg ht, PyDict.get?_set]

private theorem inv_change {name : Nat → K} {s : State K B} (h : Inv name s) (t : Typ) (r : Nat) (o : Obj K B)
    (p u : ℚ) (ho : o.key = name r) : Inv name (change s t r o p u).1 := by
  obtain ⟨h1, h2, h3, -, -⟩ := change_parts s t r o p u
  refine ⟨?_, fun k q hq => ?_, fun c hc => ?_⟩
  · rw [h3]
    split
    · exact PyDict.WF_del h.wf _
    · exact PyDict.WF_set h.wf _ _
  · rw [get_items s h.wf] at hq
    rw [h1]
    by_cases hk : o.key = k
    · rw [if_pos hk] at hq
      split at hq
      · cases hq
      · cases hq
        exact ⟨by rw [← ho, hk], by simp [update, hk]⟩
    · rw [if_neg hk] at hq
      obtain ⟨e1, e2⟩ := h.item k q hq
      have hne : q ≠ r := by
        rintro rfl
        exact hk (by rw [ho, e1])
      exact ⟨e1, by simp [update, hne, e2]⟩
  · rw [h1]
    by_cases hr : c.2 = r
    · simp [update, hr, ho]
    · rw [h2, List.mem_append] at hc
      rcases hc with hc | hc
      · simp [update, hr, h.key c hc]
      · simp only [List.mem_singleton] at hc
        exact absurd (by rw [hc]) hr

/-- A watcher that is told of the change still knows the items. -/
private theorem good_told {name : Nat → K} {s : State K B} (h : Inv name s) {v : View K B}
    {w : List (Typ × Item K B)} (hg : Good name s v w) (t : Typ) (r : Nat) (o : Obj K B) (p u : ℚ)
    (ho : o.key = name r) : Good name (change s t r o p u).1 v (w ++ [(t, .shared r)]) := by
  obtain ⟨h1, h2, h3, -, -⟩ := change_parts s t r o p u
  refine ⟨fun t' q hq => ?_, ?_⟩
  · rw [h1]
    by_cases hr : q = r
    · simp [update, hr, ho]
    · simp only [List.mem_append, List.mem_singleton, Prod.mk.injEq, Item.shared.injEq] at hq
      rcases hq with hq | hq
      · simp [update, hr, hg.1 t' q hq]
      · exact absurd hq.2 hr
  · funext k
    rw [read_eq, List.map_append, applyAll_append, h1]
    simp only [view, get_items s h.wf, List.map_cons, List.map_nil, View.applyAll, List.foldl_cons, List.foldl_nil,
      View.apply, readH, Item.get]
    by_cases hk : o.key = k
    · simp only [update, if_true, hk]
      cases t <;> simp [h1, update, hk.symm]
    · simp only [update, if_true, hk, if_false]
      have := keep_other name s.heap r { o with rv := s.changes.length + 1 } ho k (fun e => hk (by rw [ho, e])) w v v
        rfl hg.1
      simp only [View.applyAll] at this
      rw [this]
      have h2 := congrFun hg.2 k
      rw [read_eq] at h2
      simp only [View.applyAll] at h2
      rw [h2]
      simp only [view]
      cases hi : s.items.get? k with
      | none => rfl
      | some q =>
        have hne : q ≠ r := by
          rintro rfl
          exact hk (by rw [ho, (h.item k q hi).1])
        simp [h1, update, hne]

/-- A watcher that is not told of a failed deletion still knows the items. -/
private theorem good_failed {name : Nat → K} {s : State K B} (h : Inv name s) {v : View K B}
    {w : List (Typ × Item K B)} (hg : Good name s v w) (r : Nat) (o : Obj K B) (p u : ℚ)
    (ho : o.key = name r) (hn : s.items.has o.key = false) : Good name (change s .deleted r o p u).1 v w := by
  obtain ⟨h1, h2, h3, -, -⟩ := change_parts s .deleted r o p u
  have hk0 : s.items.get? o.key = none := by
    cases hi : s.items.get? o.key with
    | none => rfl
    | some q => simp [PyDict.has, hi] at hn
  refine ⟨fun t' q hq => ?_, ?_⟩
  · rw [h1]
    by_cases hr : q = r
    · simp [update, hr, ho]
    · simp [update, hr, hg.1 t' q hq]
  · funext k
    have h2 := congrFun hg.2 k
    rw [read_eq] at h2 ⊢
    rw [h1]
    simp only [view, get_items s h.wf]
    by_cases hk : o.key = k
    · subst hk
      have := keep_isSome name s.heap r { o with rv := s.changes.length + 1 } ho o.key w v v rfl hg.1
      rw [h2] at this
      simp only [view, hk0, Option.map_none, Option.isSome_none] at this
      simpa using this
    · rw [keep_other name s.heap r { o with rv := s.changes.length + 1 } ho k (fun e => hk (by rw [ho, e])) w v v
        rfl hg.1, h2]
      simp only [hk, if_false, view]
      cases hi : s.items.get? k with
      | none => rfl
      | some q =>
        have hne : q ≠ r := by
          rintro rfl
          exact hk (by rw [ho, (h.item k q hi).1])
        simp [h1, update, hne]

private theorem exec_append (as bs : List (Op K B)) : ∀ s : State K B, exec s (as ++ bs) = exec (exec s as) bs := by
  induction as with
  | nil => intro s; rfl
  | cons a as ih => intro s; exact ih _

private theorem down_call (s : State K B) (e : Op K B) (h : s.down = true) : (call s e).1.down = true := by
  cases e <;> simp [call, h]

private theorem down_exec (es : List (Op K B)) : ∀ s : State K B, s.down = true → (exec s es).down = true := by
  induction es with
  | nil => intro s h; exact h
  | cons e es ih => intro s h; exact ih _ (down_call s e h)

private theorem up_of (es : List (Op K B)) (s : State K B) (h : (exec s es).down = false) : s.down = false := by
  cases hd : s.down with
  | false => rfl
  | true => rw [down_exec es s hd] at h; cases h

private theorem watch_parts (s : State K B) (rv : Nat) :
    (watch s rv).1.heap = s.heap ∧ (watch s rv).1.items = s.items ∧ (watch s rv).1.changes = s.changes ∧
    (watch s rv).1.down = s.down := by
  simp only [watch]
  split
  · exact ⟨rfl, rfl, rfl, rfl⟩
  · split <;> exact ⟨rfl, rfl, rfl, rfl⟩

private theorem inv_same {name : Nat → K} {s t : State K B} (h : Inv name s) (h1 : t.heap = s.heap)
    (h2 : t.items = s.items) (h3 : t.changes = s.changes) : Inv name t := by
  refine ⟨by rw [h2]; exact h.wf, fun k r hr => ?_, fun c hc => ?_⟩
  · rw [h2] at hr; rw [h1]; exact h.item k r hr
  · rw [h3] at hc; rw [h1]; exact h.key c hc

private theorem good_same {name : Nat → K} {s t : State K B} {v : View K B} {w : List (Typ × Item K B)}
    (h : Good name s v w) (h1 : t.heap = s.heap) (h2 : t.items = s.items) : Good name t v w := by
  refine ⟨fun t' r hr => by rw [h1]; exact h.1 t' r hr, ?_⟩
  have e1 : read t w = read s w := by rw [read_eq, read_eq, h1]
  have e2 : view t = view s := by funext k; simp only [view, h1, h2]
  rw [e1, e2]; exact h.2

private theorem careful_tail {name : Nat → K} {e : Op K B} {es : List (Op K B)} (h : Careful name (e :: es)) :
    Careful name es := fun x hx => h x (List.mem_cons_of_mem _ hx)

private theorem inv_call {name : Nat → K} {s : State K B} (h : Inv name s) {e : Op K B} {es : List (Op K B)}
    (hc : Careful name (e :: es)) (hd : s.down = false) : Inv name (call s e).1 := by
  have he := hc e List.mem_cons_self
  cases e with
  | write r o => exact absurd he id
  | change t r o p u => simp only [call, hd]; exact inv_change h t r o p u he
  | watch rv =>
    obtain ⟨h1, h2, h3, -⟩ := watch_parts s rv
    simp only [call, hd]
    exact inv_same h h1 h2 h3
  | shutdown => simp only [call, hd]; exact inv_same h rfl rfl rfl

private theorem inv_exec {name : Nat → K} (es : List (Op K B)) : ∀ s : State K B, Inv name s → Careful name es →
    (exec s es).down = false → Inv name (exec s es) := by
  induction es with
  | nil => intro s h _ _; exact h
  | cons e es ih =>
    intro s h hc hd
    have hs : s.down = false := up_of (e :: es) s hd
    exact ih _ (inv_call h hc hs) (careful_tail hc) hd

private theorem inv_init (name : Nat → K) (heap : Nat → Obj K B) : Inv name (init heap) :=
  ⟨PyDict.WF_nil, fun k r h => by simp [init] at h, fun c hc => by simp [init] at hc⟩

/-- Following the log of changes. -/
private theorem follow_log {name : Nat → K} (v : View K B) (n : Nat) (es : List (Op K B)) : ∀ s : State K B,
    Inv name s → Careful name es → (exec s es).down = false → n ≤ s.changes.length →
    Good name s v ((s.changes.drop n).map fun c => (c.1, .shared c.2)) →
    n ≤ (exec s es).changes.length ∧
    Good name (exec s es) v (((exec s es).changes.drop n).map fun c => (c.1, .shared c.2)) := by
  induction es with
  | nil => intro s _ _ _ hn hg; exact ⟨hn, hg⟩
  | cons e es ih =>
    intro s h hc hd hn hg
    have hs : s.down = false := up_of (e :: es) s hd
    refine ih _ (inv_call h hc hs) (careful_tail hc) hd ?_ ?_
    · cases e with
      | write r o => exact hn
      | change t r o p u =>
        simp only [call, hs, (change_parts s t r o p u).2.1]
        simp only [Bool.false_eq_true, if_false, (change_parts s t r o p u).2.1, List.length_append]
        omega
      | watch rv =>
        simp only [call, hs, Bool.false_eq_true, if_false]
        rw [(watch_parts s rv).2.2.1]
        exact hn
      | shutdown => simp only [call, hs]; exact hn
    · have he := hc e List.mem_cons_self
      cases e with
      | write r o => exact absurd he id
      | change t r o p u =>
        simp only [call, hs, Bool.false_eq_true, if_false]
        rw [(change_parts s t r o p u).2.1, List.drop_append_of_le_length hn, List.map_append]
        exact good_told h hg t r o p u he
      | watch rv =>
        simp only [call, hs, Bool.false_eq_true, if_false]
        obtain ⟨h1, h2, h3, -⟩ := watch_parts s rv
        rw [h3]
        exact good_same hg h1 h2
      | shutdown => simp only [call, hs]; exact good_same hg rfl rfl

/-- Following what is broadcast. -/
private theorem follow_watcher {name : Nat → K} (v : View K B) (n : Nat) (es : List (Op K B)) : ∀ (s : State K B)
    (w : List (Typ × Item K B)), Inv name s → Careful name es → Reported es → (exec s es).down = false →
    s.watchers[n]? = some w → Good name s v w →
    ∃ w', (exec s es).watchers[n]? = some w' ∧ w <+: w' ∧ Good name (exec s es) v w' := by
  induction es with
  | nil => intro s w _ _ _ _ hn hg; exact ⟨w, hn, List.prefix_refl _, hg⟩
  | cons e es ih =>
    intro s w h hc hr hd hn hg
    have hs : s.down = false := up_of (e :: es) s hd
    have hr' : Reported es := fun x hx => hr x (List.mem_cons_of_mem _ hx)
    have he := hc e List.mem_cons_self
    have hi := inv_call h hc hs
    cases e with
    | write r o => exact absurd he id
    | change t r o p u =>
      have hu : u < p := hr _ List.mem_cons_self
      have hcall : (call s (.change t r o p u)).1 = (change s t r o p u).1 := by
        simp only [call, hs, Bool.false_eq_true, if_false]
      by_cases hf : t = .deleted ∧ s.items.has o.key = false
      · obtain ⟨rfl, hh⟩ := hf
        refine ih _ w hi (careful_tail hc) hr' hd ?_ ?_
        · rw [hcall, (change_parts s .deleted r o p u).2.2.2.2, if_pos (Or.inl ⟨rfl, hh⟩)]; exact hn
        · rw [hcall]; exact good_failed h hg r o p u he hh
      · obtain ⟨w', e1, e2, e3⟩ := ih _ (w ++ [(t, .shared r)]) hi (careful_tail hc) hr' hd (by
          rw [hcall, (change_parts s t r o p u).2.2.2.2,
            if_neg (fun e => e.elim hf fun g => g hu), List.getElem?_map, hn]
          rfl) (by rw [hcall]; exact good_told h hg t r o p u he)
        exact ⟨w', e1, (List.prefix_append _ _).trans e2, e3⟩
    | watch rv =>
      obtain ⟨h1, h2, -, -⟩ := watch_parts s rv
      have hcall : (call s (.watch rv)).1 = (watch s rv).1 := by
        simp only [call, hs, Bool.false_eq_true, if_false]
      refine ih _ w hi (careful_tail hc) hr' hd ?_ (by rw [hcall]; exact good_same hg h1 h2)
      have hlt : n < s.watchers.length := by
        rcases Nat.lt_or_ge n s.watchers.length with h | h
        · exact h
        · rw [List.getElem?_eq_none h] at hn; cases hn
      rw [hcall]
      simp only [watch]
      split
      · rw [List.getElem?_append_left hlt]; exact hn
      · split
        · exact hn
        · rw [List.getElem?_append_left hlt]; exact hn
    | shutdown =>
      have hcall : (call s .shutdown).1 = { s with down := true } := by
        simp only [call, hs, Bool.false_eq_true, if_false]
      refine ih _ w hi (careful_tail hc) hr' hd (by rw [hcall]; exact hn) (by rw [hcall]; exact good_same hg rfl rfl)

private theorem find_values (d : PyDict K Nat) (h : Nat → Obj K B) (hk : ∀ k r, (k, r) ∈ d → (h r).key = k) (k : K) :
    (d.values.map h).find? (fun o => o.key = k) = (d.get? k).map h := by
  induction d with
  | nil => rfl
  | cons p d ih =>
    obtain ⟨j, r⟩ := p
    have hj := hk j r List.mem_cons_self
    have ih := ih fun k r hr => hk k r (List.mem_cons_of_mem _ hr)
    simp only [PyDict.values, List.map_cons] at ih ⊢
    rw [PyDict.get?_cons, List.find?_cons]
    by_cases hjk : j = k
    · simp [hj, hjk]
    · simp only [hj, hjk, decide_false, if_false]
      exact ih

private theorem ofList_view {name : Nat → K} {s : State K B} (h : Inv name s) :
    ofList (s.items.values.map s.heap) = view s := by
  funext k
  exact find_values s.items s.heap (fun k r hr => (h.item k r (PyDict.mem_get? h.wf hr)).2) k

private theorem list_some {s : State K B} {l : List (Obj K B)} {n : Nat} (h : list s = some (l, n)) :
    s.down = false ∧ l = s.items.values.map s.heap ∧ n = s.changes.length := by
  simp only [list] at h
  split at h
  · cases h
  · rename_i hd
    simp only [Option.some.injEq, Prod.mk.injEq] at h
    exact ⟨by simpa using hd, h.1.symm, h.2.symm⟩

/-- **C60**: list, then watch from the version of the list: however many changes of whatever kind (failed
deletions and unreported changes among them) happen between the list and the watch, and however many reported
ones after the watch, the events of the watcher lead from the list to the present items.  The callers are
careful: see `C60_refuted` for what happens otherwise. -/
theorem C60_replay_partial (heap : Nat → Obj K B) (name : Nat → K) (es between after : List (Op K B))
    (l l' : List (Obj K B)) (rv rv' : Nat) (hc : Careful name (es ++ between ++ .watch rv :: after))
    (hr : Reported after)
    (hl : list (exec (init heap) es) = some (l, rv))
    (hl' : list (exec (init heap) (es ++ between ++ .watch rv :: after)) = some (l', rv')) :
    let at_watch := exec (init heap) (es ++ between)
    let now := exec (init heap) (es ++ between ++ .watch rv :: after)
    (call at_watch (.watch rv)).2 = .returned ∧
    ∃ w, now.watchers[at_watch.watchers.length]? = some w ∧
      (ofList l).applyAll (read now w) = ofList l' ∧ (l'.map (·.key)).Nodup := by
  intro at_watch now
  obtain ⟨hd, rfl, rfl⟩ := list_some hl
  obtain ⟨hd', rfl, rfl⟩ := list_some hl'
  have hnow : now = exec (call at_watch (.watch (exec (init heap) es).changes.length)).1 after := by
    show exec (init heap) (es ++ between ++ _ :: after) = _
    rw [exec_append]; rfl
  have hdn : now.down = false := hd'
  have hdw : at_watch.down = false := by
    have h1 := hdn
    rw [hnow] at h1
    have h2 := up_of after _ h1
    cases h3 : at_watch.down with
    | false => rfl
    | true => rw [down_call _ _ h3] at h2; cases h2
  have hce : Careful name es := fun x hx => hc x (by simp [hx])
  have hcb : Careful name between := fun x hx => hc x (by simp [hx])
  have hca : Careful name after := fun x hx => hc x (by simp [hx])
  have inv0 := inv_exec es _ (inv_init name heap) hce hd
  have hat : at_watch = exec (exec (init heap) es) between := exec_append _ _ _
  have hdb : (exec (exec (init heap) es) between).down = false := by rw [← hat]; exact hdw
  have inv1 := inv_exec between _ inv0 hcb hdb
  obtain ⟨hn, hg⟩ := follow_log (name := name) (ofList ((exec (init heap) es).items.values.map (exec (init heap) es).heap))
    (exec (init heap) es).changes.length between _ inv0 hcb hdb (Nat.le_refl _) (by
      rw [List.drop_length]
      exact ⟨fun _ _ h => absurd h (by simp), ofList_view inv0⟩)
  rw [← hat] at hn hg inv1
  have hend : exec (init heap) (es ++ between ++ .watch (exec (init heap) es).changes.length :: after) = now := rfl
  generalize exec (init heap) es = s at *
  have hret : (watch at_watch s.changes.length).2 = .returned ∧
      (watch at_watch s.changes.length).1.watchers = at_watch.watchers ++
        [(at_watch.changes.drop s.changes.length).map fun c => (c.1, .copied (at_watch.heap c.2))] := by
    simp only [watch]
    by_cases h : s.changes.length < at_watch.changes.length
    · rw [if_pos h]; exact ⟨rfl, rfl⟩
    · have : ¬ at_watch.changes.length < s.changes.length := by omega
      rw [if_neg h, if_neg this, List.drop_eq_nil_of_le (by omega)]
      exact ⟨rfl, rfl⟩
  have hcall : call at_watch (.watch s.changes.length) = watch at_watch s.changes.length := by
    simp only [call, hdw, Bool.false_eq_true, if_false]
  obtain ⟨w1, w2, w3, -⟩ := watch_parts at_watch s.changes.length
  have hgood : Good name (watch at_watch s.changes.length).1 (ofList (s.items.values.map s.heap))
      ((at_watch.changes.drop s.changes.length).map fun c => (c.1, .copied (at_watch.heap c.2))) := by
    refine ⟨fun t r h => by
      obtain ⟨c, -, e⟩ := List.mem_map.1 h
      exact (nomatch (Prod.mk.inj e).2), ?_⟩
    have e1 := hg.2
    have e2 : view (watch at_watch s.changes.length).1 = view at_watch := by funext k; simp only [view, w1, w2]
    rw [e2, ← e1, read_eq, read_eq, List.map_map, List.map_map]
    congr 1
  rw [hcall] at hnow ⊢
  obtain ⟨w, e1, e2, e3⟩ := follow_watcher (name := name) (ofList (s.items.values.map s.heap))
    at_watch.watchers.length after _ _ (inv_same inv1 w1 w2 w3) hca hr (by rw [← hnow]; exact hdn)
    (by rw [hret.2]; simp) hgood
  rw [← hnow] at e1 e3
  have inv2 : Inv name now := by
    rw [hnow]
    exact inv_exec after _ (inv_same inv1 w1 w2 w3) hca (by rw [← hnow]; exact hdn)
  refine ⟨hret.1, w, e1, ?_, ?_⟩
  · rw [e3.2]
    rw [hend]
    exact (ofList_view inv2).symm
  · rw [hend]
    show ((now.items.values.map now.heap).map (·.key)).Nodup
    have : (now.items.values.map now.heap).map (·.key) = now.items.keys := by
      rw [List.map_map]
      simp only [PyDict.values, PyDict.keys, List.map_map]
      refine List.map_congr_left fun p hp => ?_
      exact (inv2.item p.1 p.2 (PyDict.mem_get? inv2.wf hp)).2
    rw [this]
    exact inv2.wf

/-! ## Resource versions -/

private theorem current_append (cs : List (Typ × K × B)) (t : Typ) (k : K) (b : B) (o : Obj K B) :
    Current (cs ++ [(t, k, b)]) o ↔
      (t ≠ .deleted ∧ o = ⟨k, cs.length + 1, b⟩) ∨ (Current cs o ∧ k ≠ o.key) := by
  obtain ⟨ok, orv, ob⟩ := o
  constructor
  · rintro ⟨h1, ⟨t', h2, h3⟩, h4⟩
    by_cases he : orv = cs.length + 1
    · left
      subst he
      simp only [Nat.add_sub_cancel, List.getElem?_concat_length, Option.some.injEq, Prod.mk.injEq] at h3
      obtain ⟨rfl, rfl, rfl⟩ := h3
      exact ⟨h2, rfl⟩
    · right
      have hlt : orv - 1 < cs.length := by
        have := List.getElem?_eq_some_iff.1 h3
        obtain ⟨hl, -⟩ := this
        simp only [List.length_append, List.length_singleton] at hl
        simp only at h1 hl
        omega
      rw [List.getElem?_append_left hlt] at h3
      refine ⟨⟨h1, ⟨t', h2, h3⟩, fun j t' b' hj hc => ?_⟩, ?_⟩
      · refine h4 j t' b' hj ?_
        obtain ⟨hl, -⟩ := List.getElem?_eq_some_iff.1 hc
        rw [List.getElem?_append_left hl]
        exact hc
      · rintro rfl
        simp only at h1
        exact h4 cs.length t b (by simp only; omega) (List.getElem?_concat_length ..)
  · rintro (⟨h1, h2⟩ | ⟨⟨h1, ⟨t', h2, h3⟩, h4⟩, h5⟩)
    · cases h2
      refine ⟨by simp, ⟨t, h1, by simp⟩, fun j t' b' hj hc => ?_⟩
      obtain ⟨hl, -⟩ := List.getElem?_eq_some_iff.1 hc
      simp only [List.length_append, List.length_singleton] at hl
      simp only at hj
      omega
    · obtain ⟨hl, -⟩ := List.getElem?_eq_some_iff.1 h3
      refine ⟨h1, ⟨t', h2, by rw [List.getElem?_append_left hl]; exact h3⟩, fun j t' b' hj hc => ?_⟩
      by_cases hjl : j < cs.length
      · rw [List.getElem?_append_left hjl] at hc
        exact h4 j t' b' hj hc
      · obtain ⟨hl', -⟩ := List.getElem?_eq_some_iff.1 hc
        simp only [List.length_append, List.length_singleton] at hl'
        have hj' : j = cs.length := by omega
        subst hj'
        simp only [List.getElem?_concat_length, Option.some.injEq, Prod.mk.injEq] at hc
        exact h5 hc.2.1

private theorem current_exec {name : Nat → K} (es : List (Op K B)) : ∀ (s : State K B) (cs : List (Typ × K × B)),
    Inv name s → Careful name es → (exec s es).down = false → cs.length = s.changes.length →
    (∀ o : Obj K B, view s o.key = some o ↔ Current cs o) →
    (cs ++ asked es).length = (exec s es).changes.length ∧
    ∀ o : Obj K B, view (exec s es) o.key = some o ↔ Current (cs ++ asked es) o := by
  induction es with
  | nil => intro s cs _ _ _ hl hv; simpa [asked, exec] using ⟨hl, hv⟩
  | cons e es ih =>
    intro s cs h hc hd hl hv
    have hs : s.down = false := up_of (e :: es) s hd
    have hi := inv_call h hc hs
    have he := hc e List.mem_cons_self
    cases e with
    | write r o => exact absurd he id
    | change t r o p u =>
      have hcall : (call s (.change t r o p u)).1 = (change s t r o p u).1 := by
        simp only [call, hs, Bool.false_eq_true, if_false]
      obtain ⟨h1, h2, h3, -, -⟩ := change_parts s t r o p u
      have := ih _ (cs ++ [(t, o.key, o.body)]) hi (careful_tail hc) hd (by
        rw [hcall, h2]; simp [hl]) (by
        intro x
        rw [hcall, current_append, ← hv]
        simp only [view, get_items s h.wf, h1]
        by_cases hk : o.key = x.key
        · rw [if_pos hk]
          cases t with
          | deleted => simp [hk]
          | added => simp [hk, update, hl, eq_comm]
          | modified => simp [hk, update, hl, eq_comm]
        · have hne : ¬ x = ⟨o.key, cs.length + 1, o.body⟩ := by
            rintro rfl
            exact hk rfl
          simp only [if_neg hk, hne, and_false, false_or, ne_eq, hk, not_false_eq_true, and_true]
          cases hx : s.items.get? x.key with
          | none => simp
          | some q =>
            have hne : q ≠ r := by
              rintro rfl
              exact hk (by rw [he, (h.item _ q hx).1])
            simp [update, hne])
      simpa [asked, exec] using this
    | watch rv =>
      obtain ⟨h1, h2, h3, -⟩ := watch_parts s rv
      have hcall : (call s (.watch rv)).1 = (watch s rv).1 := by
        simp only [call, hs, Bool.false_eq_true, if_false]
      refine ih _ cs hi (careful_tail hc) hd (by rw [hcall, h3]; exact hl) ?_
      intro o
      rw [hcall]
      simp only [view, h1, h2]
      exact hv o
    | shutdown =>
      have hcall : (call s .shutdown).1 = { s with down := true } := by
        simp only [call, hs, Bool.false_eq_true, if_false]
      refine ih _ cs hi (careful_tail hc) hd (by rw [hcall]; exact hl) ?_
      intro o
      rw [hcall]
      exact hv o

/-- **C60**: a list holds exactly the objects left by the last changes for their keys, each with the number of
that change as its resource version, and its own version is the number of changes (failed deletions count). -/
theorem C60_versions_partial (heap : Nat → Obj K B) (name : Nat → K) (es : List (Op K B)) (l : List (Obj K B)) (rv : Nat)
    (hc : Careful name es) (hl : list (exec (init heap) es) = some (l, rv)) :
    rv = (asked es).length ∧ l.Nodup ∧ ∀ o, o ∈ l ↔ Current (asked es) o := by
  obtain ⟨hd, rfl, rfl⟩ := list_some hl
  have inv := inv_exec es _ (inv_init name heap) hc hd
  have := current_exec es (init heap) [] (inv_init name heap) hc hd rfl (by
    intro o
    simp [view, init, Current])
  rw [List.nil_append] at this
  refine ⟨this.1.symm, ?_, fun o => ?_⟩
  · have hk : ((exec (init heap) es).items.values.map (exec (init heap) es).heap).map (·.key) =
        (exec (init heap) es).items.keys := by
      rw [List.map_map]
      simp only [PyDict.values, PyDict.keys, List.map_map]
      refine List.map_congr_left fun p hp => ?_
      exact (inv.item p.1 p.2 (PyDict.mem_get? inv.wf hp)).2
    refine List.Nodup.of_map (·.key) ?_
    rw [hk]
    exact inv.wf
  · rw [← this.2 o]
    simp only [view, Option.map_eq_some_iff, List.mem_map, PyDict.mem_values inv.wf]
    constructor
    · rintro ⟨r, ⟨k, hk⟩, rfl⟩
      exact ⟨r, by rw [(inv.item k r hk).2]; exact hk, rfl⟩
    · rintro ⟨r, hr, ho⟩
      exact ⟨r, ⟨_, hr⟩, ho⟩

private structure Fresh (s : State K B) (cs : List (Typ × K × B)) : Prop where
  len : cs.length = s.changes.length
  log : ∀ (i : Nat) t r, s.changes[i]? = some (t, r) →
    (s.heap r).rv = i + 1 ∧ cs[i]? = some (t, (s.heap r).key, (s.heap r).body)

private structure FreshW (s : State K B) (cs : List (Typ × K × B)) (n : Nat) (w : List (Typ × Item K B)) : Prop where
  ref : ∀ t r, (t, Item.shared r) ∈ w → ∃ t', (t', r) ∈ s.changes
  told : ∀ e ∈ read s w, Told cs e ∧ n < e.2.rv
  inc : ((read s w).map fun e => e.2.rv).Pairwise (· < ·)

private theorem told_append {cs : List (Typ × K × B)} {e : Typ × Obj K B} (h : Told cs e) (c : Typ × K × B) :
    Told (cs ++ [c]) e := by
  obtain ⟨h1, h2⟩ := h
  obtain ⟨hl, -⟩ := List.getElem?_eq_some_iff.1 h2
  exact ⟨h1, by rw [List.getElem?_append_left hl]; exact h2⟩

private theorem told_le {cs : List (Typ × K × B)} {e : Typ × Obj K B} (h : Told cs e) : e.2.rv ≤ cs.length := by
  obtain ⟨h1, h2⟩ := h
  obtain ⟨hl, -⟩ := List.getElem?_eq_some_iff.1 h2
  omega

private theorem read_update (h : Nat → Obj K B) (r : Nat) (o : Obj K B) (w : List (Typ × Item K B))
    (hw : ∀ t q, (t, Item.shared q) ∈ w → q ≠ r) : w.map (readH (update h r o)) = w.map (readH h) := by
  refine List.map_congr_left fun e he => ?_
  obtain ⟨t, i⟩ := e
  cases i with
  | copied x => rfl
  | shared q => simp [readH, Item.get, update, hw t q he]

private theorem fresh_change {s : State K B} {cs : List (Typ × K × B)} (h : Fresh s cs) (t : Typ) (r : Nat)
    (o : Obj K B) (p u : ℚ) (hr : ∀ t', (t', r) ∉ s.changes) :
    Fresh (change s t r o p u).1 (cs ++ [(t, o.key, o.body)]) := by
  obtain ⟨h1, h2, -, -, -⟩ := change_parts s t r o p u
  refine ⟨by rw [h2]; simp [h.len], fun i t' q hq => ?_⟩
  rw [h2] at hq
  rw [h1]
  by_cases hi : i < s.changes.length
  · rw [List.getElem?_append_left hi] at hq
    have hne : q ≠ r := by
      rintro rfl
      exact hr t' (List.mem_of_getElem? hq)
    simp only [update, if_neg hne]
    rw [List.getElem?_append_left (by rw [h.len]; exact hi)]
    exact h.log i t' q hq
  · obtain ⟨hl, -⟩ := List.getElem?_eq_some_iff.1 hq
    simp only [List.length_append, List.length_singleton] at hl
    have hi' : i = s.changes.length := by omega
    subst hi'
    simp only [List.getElem?_concat_length, Option.some.injEq, Prod.mk.injEq] at hq
    obtain ⟨rfl, rfl⟩ := hq
    simp [update, ← h.len]

private theorem freshW_change {s : State K B} {cs : List (Typ × K × B)} {n : Nat} {w : List (Typ × Item K B)}
    (h : Fresh s cs) (hw : FreshW s cs n w) (hn : n ≤ s.changes.length) (t : Typ) (r : Nat) (o : Obj K B) (p u : ℚ)
    (hr : ∀ t', (t', r) ∉ s.changes) (w' : List (Typ × Item K B)) (he : w' = w ∨ w' = w ++ [(t, .shared r)]) :
    FreshW (change s t r o p u).1 (cs ++ [(t, o.key, o.body)]) n w' := by
  obtain ⟨h1, h2, -, -, -⟩ := change_parts s t r o p u
  have hread : read (change s t r o p u).1 w = read s w := by
    rw [read_eq, read_eq, h1]
    refine read_update _ _ _ _ fun t q hq => ?_
    rintro rfl
    obtain ⟨t', ht⟩ := hw.ref t q hq
    exact hr t' ht
  have base : FreshW (change s t r o p u).1 (cs ++ [(t, o.key, o.body)]) n w := by
    refine ⟨fun t' q hq => ?_, fun e he => ?_, ?_⟩
    · obtain ⟨t'', h⟩ := hw.ref t' q hq
      exact ⟨t'', by rw [h2]; exact List.mem_append_left _ h⟩
    · rw [hread] at he
      exact ⟨told_append (hw.told e he).1 _, (hw.told e he).2⟩
    · rw [hread]; exact hw.inc
  rcases he with rfl | rfl
  · exact base
  · have hlast : read (change s t r o p u).1 (w ++ [(t, .shared r)]) =
        read s w ++ [(t, { o with rv := s.changes.length + 1 })] := by
      rw [← hread, read_eq, read_eq, List.map_append, h1]
      simp [readH, Item.get, update]
    refine ⟨fun t' q hq => ?_, fun e he => ?_, ?_⟩
    · rcases List.mem_append.1 hq with hq | hq
      · exact base.ref t' q hq
      · simp only [List.mem_singleton, Prod.mk.injEq, Item.shared.injEq] at hq
        obtain ⟨rfl, rfl⟩ := hq
        exact ⟨t', by rw [h2]; simp⟩
    · rw [hlast] at he
      rcases List.mem_append.1 he with he | he
      · exact ⟨told_append (hw.told e he).1 _, (hw.told e he).2⟩
      · simp only [List.mem_singleton] at he
        subst he
        refine ⟨⟨by simp, by simp [← h.len]⟩, by simp only; omega⟩
    · rw [hlast, List.map_append, List.pairwise_append]
      refine ⟨hw.inc, by simp, ?_⟩
      intro a ha b hb
      simp only [List.map_cons, List.map_nil, List.mem_singleton] at hb
      subst hb
      obtain ⟨e, he, rfl⟩ := List.mem_map.1 ha
      have := told_le (hw.told e he).1
      rw [h.len] at this
      omega

/-- The refs in the log. -/
private theorem used_exec (es : List (Op K B)) : ∀ s : State K B, (exec s es).down = false → NoWrites es →
    ∀ t r, (t, r) ∈ (exec s es).changes → (t, r) ∈ s.changes ∨ r ∈ used es := by
  induction es with
  | nil => intro s _ _ t r h; exact Or.inl h
  | cons e es ih =>
    intro s hd hn t r h
    have hs : s.down = false := up_of (e :: es) s hd
    have := ih _ hd (fun x hx => hn x (List.mem_cons_of_mem _ hx)) t r h
    have he := hn e List.mem_cons_self
    cases e with
    | write _ _ => exact absurd he id
    | change t' q o p u =>
      have hcall : (call s (.change t' q o p u)).1 = (change s t' q o p u).1 := by
        simp only [call, hs, Bool.false_eq_true, if_false]
      rw [hcall, (change_parts s t' q o p u).2.1] at this
      simp only [List.mem_append, List.mem_singleton, Prod.mk.injEq] at this
      simp only [used, List.mem_cons]
      rcases this with (h | h) | h
      · exact Or.inl h
      · exact Or.inr (Or.inl h.2)
      · exact Or.inr (Or.inr h)
    | watch rv =>
      have hcall : (call s (.watch rv)).1 = (watch s rv).1 := by
        simp only [call, hs, Bool.false_eq_true, if_false]
      rw [hcall, (watch_parts s rv).2.2.1] at this
      exact this
    | shutdown =>
      have hcall : (call s .shutdown).1 = { s with down := true } := by
        simp only [call, hs, Bool.false_eq_true, if_false]
      rw [hcall] at this
      exact this

private theorem fresh_exec (es : List (Op K B)) : ∀ (s : State K B) (cs : List (Typ × K × B)),
    (exec s es).down = false → NoWrites es → Fresh s cs → (used es).Nodup →
    (∀ t r, (t, r) ∈ s.changes → r ∉ used es) → Fresh (exec s es) (cs ++ asked es) := by
  induction es with
  | nil => intro s cs _ _ h _ _; simpa [asked, exec] using h
  | cons e es ih =>
    intro s cs hd hn h hu hdis
    have hs : s.down = false := up_of (e :: es) s hd
    have hn' : NoWrites es := fun x hx => hn x (List.mem_cons_of_mem _ hx)
    have he := hn e List.mem_cons_self
    cases e with
    | write _ _ => exact absurd he id
    | change t q o p u =>
      have hcall : (call s (.change t q o p u)).1 = (change s t q o p u).1 := by
        simp only [call, hs, Bool.false_eq_true, if_false]
      simp only [used, List.nodup_cons] at hu
      have := ih _ (cs ++ [(t, o.key, o.body)]) hd hn' (by
        rw [hcall]
        exact fresh_change h t q o p u fun t' hm => hdis t' q hm (by simp [used])) hu.2 (by
        intro t' r hm
        rw [hcall, (change_parts s t q o p u).2.1] at hm
        simp only [List.mem_append, List.mem_singleton, Prod.mk.injEq] at hm
        rcases hm with hm | ⟨-, rfl⟩
        · exact fun h => hdis t' r hm (by simp [used, h])
        · exact hu.1)
      simpa [asked, exec] using this
    | watch rv =>
      have hcall : (call s (.watch rv)).1 = (watch s rv).1 := by
        simp only [call, hs, Bool.false_eq_true, if_false]
      obtain ⟨h1, h2, h3, -⟩ := watch_parts s rv
      refine ih _ cs hd hn' ?_ hu ?_
      · rw [hcall]
        exact ⟨by rw [h3]; exact h.len, by rw [h3, h1]; exact h.log⟩
      · rw [hcall, h3]; exact hdis
    | shutdown =>
      have hcall : (call s .shutdown).1 = { s with down := true } := by
        simp only [call, hs, Bool.false_eq_true, if_false]
      refine ih _ cs hd hn' ?_ hu ?_
      · rw [hcall]; exact ⟨h.len, h.log⟩
      · rw [hcall]; exact hdis

private theorem freshW_exec (n : Nat) (m : Nat) (es : List (Op K B)) : ∀ (s : State K B) (cs : List (Typ × K × B))
    (w : List (Typ × Item K B)),
    (exec s es).down = false → NoWrites es → Fresh s cs → (used es).Nodup →
    (∀ t r, (t, r) ∈ s.changes → r ∉ used es) → s.watchers[m]? = some w → n ≤ s.changes.length → FreshW s cs n w →
    ∃ w', (exec s es).watchers[m]? = some w' ∧ FreshW (exec s es) (cs ++ asked es) n w' := by
  induction es with
  | nil => intro s cs w _ _ _ _ _ hm _ h; exact ⟨w, hm, by simpa [asked, exec] using h⟩
  | cons e es ih =>
    intro s cs w hd hn h hu hdis hm hle hw
    have hs : s.down = false := up_of (e :: es) s hd
    have hn' : NoWrites es := fun x hx => hn x (List.mem_cons_of_mem _ hx)
    have he := hn e List.mem_cons_self
    cases e with
    | write _ _ => exact absurd he id
    | change t q o p u =>
      have hcall : (call s (.change t q o p u)).1 = (change s t q o p u).1 := by
        simp only [call, hs, Bool.false_eq_true, if_false]
      obtain ⟨-, h2, -, -, h5⟩ := change_parts s t q o p u
      simp only [used, List.nodup_cons] at hu
      have hr : ∀ t', (t', q) ∉ s.changes := fun t' hm => hdis t' q hm (by simp [used])
      have hex : ∃ w', (change s t q o p u).1.watchers[m]? = some w' ∧ (w' = w ∨ w' = w ++ [(t, .shared q)]) := by
        rw [h5]
        split
        · exact ⟨w, hm, Or.inl rfl⟩
        · exact ⟨w ++ [(t, .shared q)], by rw [List.getElem?_map, hm]; rfl, Or.inr rfl⟩
      obtain ⟨w', e1, e2⟩ := hex
      have := ih _ (cs ++ [(t, o.key, o.body)]) w' hd hn' (by rw [hcall]; exact fresh_change h t q o p u hr) hu.2 (by
        intro t' r hm
        rw [hcall, h2] at hm
        simp only [List.mem_append, List.mem_singleton, Prod.mk.injEq] at hm
        rcases hm with hm | ⟨-, rfl⟩
        · exact fun h => hdis t' r hm (by simp [used, h])
        · exact hu.1) (by rw [hcall]; exact e1) (by rw [hcall, h2]; simp; omega)
        (by rw [hcall]; exact freshW_change h hw hle t q o p u hr w' e2)
      simpa [asked, exec] using this
    | watch rv =>
      have hcall : (call s (.watch rv)).1 = (watch s rv).1 := by
        simp only [call, hs, Bool.false_eq_true, if_false]
      obtain ⟨h1, h2, h3, -⟩ := watch_parts s rv
      have hlt : m < s.watchers.length := by
        rcases Nat.lt_or_ge m s.watchers.length with h | h
        · exact h
        · rw [List.getElem?_eq_none h] at hm; cases hm
      refine ih _ cs w hd hn' ?_ hu ?_ ?_ ?_ ?_
      · rw [hcall]
        exact ⟨by rw [h3]; exact h.len, by rw [h3, h1]; exact h.log⟩
      · rw [hcall, h3]; exact hdis
      · rw [hcall]
        simp only [watch]
        split
        · rw [List.getElem?_append_left hlt]; exact hm
        · split
          · exact hm
          · rw [List.getElem?_append_left hlt]; exact hm
      · rw [hcall, h3]; exact hle
      · rw [hcall]
        have : read (watch s rv).1 w = read s w := by rw [read_eq, read_eq, h1]
        exact ⟨by rw [h3]; exact hw.ref, by rw [this]; exact hw.told, by rw [this]; exact hw.inc⟩
    | shutdown =>
      have hcall : (call s .shutdown).1 = { s with down := true } := by
        simp only [call, hs, Bool.false_eq_true, if_false]
      refine ih _ cs w hd hn' ?_ hu ?_ ?_ ?_ ?_
      · rw [hcall]; exact ⟨h.len, h.log⟩
      · rw [hcall]; exact hdis
      · rw [hcall]; exact hm
      · rw [hcall]; exact hle
      · rw [hcall]; exact ⟨hw.ref, hw.told, hw.inc⟩

private theorem asked_append (as bs : List (Op K B)) : asked (as ++ bs) = asked as ++ asked bs := by
  induction as with
  | nil => rfl
  | cons a as ih => cases a <;> simp [asked, ih]

private theorem used_append (as bs : List (Op K B)) : used (as ++ bs) = used as ++ used bs := by
  induction as with
  | nil => rfl
  | cons a as ih => cases a <;> simp [used, ih]

/-- **C60**: with a fresh object for every change, the events of a watch from version `rv` carry the numbers of
the changes that they tell of, all above `rv` and increasing; the ones told at once are all the changes since
`rv`. -/
theorem C60_event_versions_partial (heap : Nat → Obj K B) (es after : List (Op K B)) (rv : Nat)
    (hrv : rv ≤ (asked es).length) (hn : NoWrites (es ++ .watch rv :: after)) (hu : (used (es ++ .watch rv :: after)).Nodup)
    (hd : (exec (init heap) (es ++ .watch rv :: after)).down = false) :
    let at_watch := exec (init heap) es
    let now := exec (init heap) (es ++ .watch rv :: after)
    (∃ w, (call at_watch (.watch rv)).1.watchers[at_watch.watchers.length]? = some w ∧
      (read (call at_watch (.watch rv)).1 w).map (fun e => e.2.rv) = (List.range' (rv + 1) ((asked es).length - rv))) ∧
    ∃ w, now.watchers[at_watch.watchers.length]? = some w ∧
      (∀ e ∈ read now w, Told (asked (es ++ .watch rv :: after)) e ∧ rv < e.2.rv) ∧
      ((read now w).map fun e => e.2.rv).Pairwise (· < ·) := by
  intro at_watch now
  have hnow : now = exec (call at_watch (.watch rv)).1 after := exec_append _ _ _
  have hdw : at_watch.down = false := by
    have h1 : now.down = false := hd
    rw [hnow] at h1
    have h2 := up_of after _ h1
    cases h3 : at_watch.down with
    | false => rfl
    | true => rw [down_call _ _ h3] at h2; cases h2
  have hne : NoWrites es := fun x hx => hn x (by simp [hx])
  have hna : NoWrites after := fun x hx => hn x (by simp [hx])
  rw [used_append, List.nodup_append] at hu
  simp only [used] at hu
  obtain ⟨hu1, hu2, hu3⟩ := hu
  have fr : Fresh at_watch (asked es) := by
    have := fresh_exec es (init heap) [] hdw hne ⟨rfl, fun i t r h => by simp [init] at h⟩ hu1
      (fun t r h => by simp [init] at h)
    simpa using this
  have hcall : call at_watch (.watch rv) = watch at_watch rv := by
    simp only [call, hdw, Bool.false_eq_true, if_false]
  have hw : (watch at_watch rv).1.watchers = at_watch.watchers ++
        [(at_watch.changes.drop rv).map fun c => (c.1, .copied (at_watch.heap c.2))] := by
    have hl := fr.len
    simp only [watch]
    by_cases h : rv < at_watch.changes.length
    · rw [if_pos h]
    · have : ¬ at_watch.changes.length < rv := by omega
      rw [if_neg h, if_neg this, List.drop_eq_nil_of_le (by omega)]
      rfl
  obtain ⟨w1, w2, w3, w4⟩ := watch_parts at_watch rv
  have hread : ((read (watch at_watch rv).1
      ((at_watch.changes.drop rv).map fun c => (c.1, .copied (at_watch.heap c.2)))).map fun e => e.2.rv) =
      List.range' (rv + 1) ((asked es).length - rv) := by
    rw [read_eq, List.map_map, List.map_map]
    apply List.ext_getElem?
    intro i
    rw [List.getElem?_map, List.getElem?_drop]
    cases hc : at_watch.changes[rv + i]? with
    | none =>
      rw [List.getElem?_eq_none_iff] at hc
      rw [List.getElem?_eq_none (by rw [List.length_range', fr.len]; omega)]
      rfl
    | some c =>
      obtain ⟨t, r⟩ := c
      have := (fr.log _ t r hc).1
      obtain ⟨hl, -⟩ := List.getElem?_eq_some_iff.1 hc
      rw [List.getElem?_range' (by rw [fr.len]; omega)]
      simp [readH, Item.get, this]
      omega
  have fw : FreshW (watch at_watch rv).1 (asked es) rv
      ((at_watch.changes.drop rv).map fun c => (c.1, .copied (at_watch.heap c.2))) := by
    refine ⟨fun t r h => by
      obtain ⟨c, -, e⟩ := List.mem_map.1 h
      exact (nomatch (Prod.mk.inj e).2), fun e he => ?_, ?_⟩
    · rw [read_eq, List.map_map] at he
      obtain ⟨c, hc, rfl⟩ := List.mem_map.1 he
      obtain ⟨i, hi⟩ := List.mem_iff_getElem?.1 hc
      rw [List.getElem?_drop] at hi
      obtain ⟨e1, e2⟩ := fr.log _ c.1 c.2 hi
      simp only [Told, Function.comp, readH, Item.get, e1]
      exact ⟨⟨by omega, by simpa using e2⟩, by omega⟩
    · rw [hread]
      exact List.pairwise_lt_range'
  refine ⟨⟨_, by rw [hcall, hw]; exact List.getElem?_concat_length .., by rw [hcall]; exact hread⟩, ?_⟩
  obtain ⟨w, e1, e2⟩ := freshW_exec rv at_watch.watchers.length after (call at_watch (.watch rv)).1 (asked es) _
    (by rw [← hnow]; exact hd) hna (by
      rw [hcall]
      exact ⟨by rw [w3]; exact fr.len, by rw [w3, w1]; exact fr.log⟩) hu2 (by
      intro t r hm
      rw [hcall, w3] at hm
      have := used_exec es (init heap) hdw hne t r hm
      rcases this with h | h
      · simp [init] at h
      · intro h'
        exact hu3 r h r h' rfl) (by rw [hcall, hw]; exact List.getElem?_concat_length ..) (by rw [hcall, w3, ← fr.len]; exact hrv)
    (by rw [hcall]; exact fw)
  rw [← hnow] at e1 e2
  have hask : asked (es ++ .watch rv :: after) = asked es ++ asked after := by rw [asked_append]; rfl
  exact ⟨w, e1, by rw [hask]; exact e2.told, e2.inc⟩

/-! ## What goes wrong -/

private theorem exec_snoc (es : List (Op K B)) (e : Op K B) : ∀ s : State K B,
    exec s (es ++ [e]) = (call (exec s es) e).1 := by
  induction es with
  | nil => intro s; rfl
  | cons a as ih => intro s; exact ih _

private theorem alive_snoc (cs : List (Typ × K × B)) (t : Typ) (k k' : K) (b : B) :
    Alive (cs ++ [(t, k, b)]) k' ↔ if k' = k then t ≠ .deleted else Alive cs k' := by
  have hget : ∀ j, (cs ++ [(t, k, b)])[j]? = if j = cs.length then some (t, k, b) else cs[j]? := by
    intro j
    by_cases h1 : j < cs.length
    · rw [List.getElem?_append_left h1, if_neg (by omega)]
    · by_cases h2 : j = cs.length
      · subst h2; simp
      · rw [if_neg h2, List.getElem?_append_right (by omega), List.getElem?_eq_none (by simp; omega),
          List.getElem?_eq_none (by omega)]
  constructor
  · rintro ⟨i, t', b', h1, h2, h3⟩
    rw [hget] at h2
    split
    · rename_i hk
      subst hk
      by_cases hi : i = cs.length
      · rw [if_pos hi] at h2
        simp only [Option.some.injEq, Prod.mk.injEq] at h2
        rw [h2.1]; exact h1
      · rw [if_neg hi] at h2
        have hlt : i < cs.length := (List.getElem?_eq_some_iff.1 h2).1
        exact absurd (by rw [hget, if_pos rfl]) (h3 cs.length t b hlt)
    · rename_i hk
      by_cases hi : i = cs.length
      · rw [if_pos hi] at h2
        simp only [Option.some.injEq, Prod.mk.injEq] at h2
        exact absurd h2.2.1.symm hk
      · rw [if_neg hi] at h2
        refine ⟨i, t', b', h1, h2, ?_⟩
        intro j t2 b2 hj hc
        have hlt : j < cs.length := (List.getElem?_eq_some_iff.1 hc).1
        exact h3 j t2 b2 hj (by rw [hget, if_neg (by omega)]; exact hc)
  · split
    · rename_i hk
      subst hk
      intro ht
      refine ⟨cs.length, t, b, ht, by rw [hget, if_pos rfl], ?_⟩
      intro j t2 b2 hj hc
      rw [hget, if_neg (by omega), List.getElem?_eq_none (by omega)] at hc
      cases hc
    · rename_i hk
      rintro ⟨i, t', b', h1, h2, h3⟩
      have hlt : i < cs.length := (List.getElem?_eq_some_iff.1 h2).1
      refine ⟨i, t', b', h1, by rw [hget, if_neg (by omega)]; exact h2, ?_⟩
      intro j t2 b2 hj hc
      rw [hget] at hc
      split at hc
      · simp only [Option.some.injEq, Prod.mk.injEq] at hc
        exact hk hc.2.1.symm
      · exact h3 j t2 b2 hj hc

private theorem up (heap : Nat → Obj K B) (es : List (Op K B)) (h : ∀ e ∈ es, e ≠ .shutdown) :
    (exec (init heap) es).down = false ∧ (exec (init heap) es).changes.length = (asked es).length ∧
    (exec (init heap) es).items.WF ∧ ∀ k, (exec (init heap) es).items.has k = true ↔ Alive (asked es) k := by
  induction es using List.reverseRecOn with
  | nil =>
    refine ⟨rfl, rfl, PyDict.WF_nil, ?_⟩
    intro k
    simp [exec, init, asked, Alive, PyDict.has, PyDict.get?]
  | append_singleton es e ih =>
    obtain ⟨h1, h2, h3, h4⟩ := ih (fun e' he => h e' (by simp [he]))
    rw [exec_snoc, asked_append]
    generalize exec (init heap) es = s at *
    cases e with
    | write r o => simpa [call, asked] using ⟨h1, h2, h3, h4⟩
    | watch rv =>
      simp only [call, h1, Bool.false_eq_true, if_false, asked, List.append_nil, watch]
      split
      · exact ⟨by first | exact h1 | rfl, h2, h3, h4⟩
      · split
        · exact ⟨by first | exact h1 | rfl, h2, h3, h4⟩
        · exact ⟨by first | exact h1 | rfl, h2, h3, h4⟩
    | shutdown => exact absurd rfl (h .shutdown (by simp))
    | change t r o p u =>
      have hhas : ∀ (d : PyDict K Nat) (k : K), d.has k = (d.get? k).isSome := fun _ _ => rfl
      have hset : ∀ k, (s.items.set o.key r).has k = true ↔ if k = o.key then True else Alive (asked es) k := by
        intro k
        rw [hhas, PyDict.get?_set]
        by_cases hk : k = o.key
        · simp [hk]
        · simp only [hk, if_false, Ne.symm hk, ← h4, hhas]
      have hdel : ∀ k, (s.items.del o.key).has k = true ↔ if k = o.key then False else Alive (asked es) k := by
        intro k
        rw [hhas, PyDict.get?_del h3]
        by_cases hk : k = o.key
        · simp [hk]
        · simp only [hk, if_false, Ne.symm hk, ← h4, hhas]
      simp only [call, h1, Bool.false_eq_true, if_false, asked, change]
      cases t with
      | added =>
        refine ⟨?_, ?_, ?_, ?_⟩
        · simp only; split <;> rfl
        · simp only; split <;> simp [h2]
        · simp only; split <;> exact PyDict.WF_set h3 _ _
        · intro k
          rw [alive_snoc]
          have := hset k
          simp only
          split <;> simpa using this
      | modified =>
        refine ⟨?_, ?_, ?_, ?_⟩
        · simp only; split <;> rfl
        · simp only; split <;> simp [h2]
        · simp only; split <;> exact PyDict.WF_set h3 _ _
        · intro k
          rw [alive_snoc]
          have := hset k
          simp only
          split <;> simpa using this
      | deleted =>
        by_cases hk : s.items.has o.key = true
        · simp only [hk, if_true]
          refine ⟨?_, ?_, ?_, ?_⟩
          · split <;> rfl
          · split <;> simp [h2]
          · split <;> exact PyDict.WF_del h3 _
          · intro k
            rw [alive_snoc]
            have := hdel k
            split <;> simpa using this
        · simp only [hk, Bool.false_eq_true, if_false]
          refine ⟨?_, by simp [h2], h3, ?_⟩
          · trivial
          intro k
          rw [alive_snoc]
          by_cases hk' : k = o.key
          · subst hk'; simpa using hk
          · simpa [hk'] using h4 k

/-- **C60**: before `shutdown`, `change` raises exactly for a deletion of an object that is not there (the
change is counted all the same), and `watch` exactly for a version in the future. -/
theorem C60_answers (heap : Nat → Obj K B) (es : List (Op K B)) (h : ∀ e ∈ es, e ≠ .shutdown) :
    let s := exec (init heap) es
    (∀ rv, (call s (.watch rv)).2 = if rv ≤ (asked es).length then .returned else .futureError) ∧
    (∀ t r o p u, (call s (.change t r o p u)).2 = .returned ∨ (call s (.change t r o p u)).2 = .keyError) ∧
    (∀ t r o p u, (call s (.change t r o p u)).2 = .keyError ↔ t = .deleted ∧ ¬ Alive (asked es) o.key) ∧
    (call s .shutdown).2 = .returned := by
  intro s
  obtain ⟨h1, h2, -, h4⟩ := up heap es h
  have hs : exec (init heap) es = s := rfl
  rw [hs] at h1 h2 h4
  refine ⟨?_, ?_, ?_, ?_⟩
  · intro rv
    simp only [call, h1, Bool.false_eq_true, if_false, watch, h2]
    by_cases hlt : rv < (asked es).length
    · simp [hlt, Nat.le_of_lt hlt]
    · by_cases hgt : (asked es).length < rv
      · simp [hlt, hgt, Nat.not_le_of_gt hgt]
      · simp [hlt, hgt, Nat.le_of_not_gt hgt]
  · intro t r o p u
    simp only [call, h1, Bool.false_eq_true, if_false, change]
    cases t <;> simp
    by_cases hk : s.items.has o.key = true <;> simp [hk]
  · intro t r o p u
    rw [← h4]
    simp only [call, h1, Bool.false_eq_true, if_false, change]
    cases t <;> simp
    by_cases hk : s.items.has o.key = true <;> simp [hk]
  · simp [call, h1]

/-- **C60**: after `shutdown` no call returns, and none changes anything but the caller's own object. -/
theorem C60_shutdown (heap : Nat → Obj K B) (es more : List (Op K B)) :
    let s := exec (init heap) (es ++ .shutdown :: more)
    list s = none ∧ (∀ e, (∀ r o, e ≠ .write r o) → (call s e).2 = .hangs) ∧
    s.items = (exec (init heap) es).items ∧ s.changes = (exec (init heap) es).changes ∧
    s.watchers = (exec (init heap) es).watchers := by
  intro s
  have key : ∀ (es : List (Op K B)) (s : State K B), s.down = true → (exec s es).down = true ∧
      (exec s es).items = s.items ∧ (exec s es).changes = s.changes ∧ (exec s es).watchers = s.watchers := by
    intro es
    induction es with
    | nil => intro s h; exact ⟨h, rfl, rfl, rfl⟩
    | cons e es ih =>
      intro s h
      have hd : (call s e).1.down = true ∧ (call s e).1.items = s.items ∧ (call s e).1.changes = s.changes ∧
          (call s e).1.watchers = s.watchers := by
        cases e <;> simp [call, h]
      obtain ⟨a, b, c, d⟩ := ih _ hd.1
      exact ⟨a, b.trans hd.2.1, c.trans hd.2.2.1, d.trans hd.2.2.2⟩
  have hsh : (call (exec (init heap) es) .shutdown).1.down = true ∧
      (call (exec (init heap) es) .shutdown).1.items = (exec (init heap) es).items ∧
      (call (exec (init heap) es) .shutdown).1.changes = (exec (init heap) es).changes ∧
      (call (exec (init heap) es) .shutdown).1.watchers = (exec (init heap) es).watchers := by
    simp only [call]
    split
    · rename_i hd; exact ⟨hd, rfl, rfl, rfl⟩
    · exact ⟨rfl, rfl, rfl, rfl⟩
  have hs : s = exec (call (exec (init heap) es) .shutdown).1 more := by
    show exec (init heap) (es ++ .shutdown :: more) = _
    rw [exec_append]; rfl
  obtain ⟨a, b, c, d⟩ := key more _ hsh.1
  rw [← hs] at a b c d
  refine ⟨by simp [list, a], ?_, b.trans hsh.2.1, c.trans hsh.2.2.1, d.trans hsh.2.2.2⟩
  intro e he
  cases e with
  | write r o => exact absurd rfl (he r o)
  | _ => simp [call, a]

-- `C60_answers`, `C60_shutdown`: two deletions of one object, and a call after `shutdown`
example : let es : List (Op Nat Nat) := [.change .added 0 ⟨7, 0, 1⟩ 1 0, .change .deleted 1 ⟨7, 0, 1⟩ 1 0]
    (∀ e ∈ es, e ≠ .shutdown) ∧
    (call (exec (init fun _ => ⟨0, 0, 0⟩) es) (.change .deleted 2 ⟨7, 0, 1⟩ 1 0)).2 = .keyError ∧
    (call (exec (init fun _ => ⟨0, 0, 0⟩) (es ++ [.shutdown])) (.watch 0)).2 = .hangs := by
  refine ⟨?_, by decide +kernel, by decide +kernel⟩
  intro e he
  simp only [List.mem_cons, List.not_mem_nil, or_false] at he
  rcases he with rfl | rfl <;> simp

/-- **C60** is false when an owner goes on changing an object that it has handed to the source: the source keeps
the object itself.  The list changes without a change, and a watch from its version tells nothing. -/
theorem C60_refuted (heap : Nat → Obj K B) (k : K) (b b' : B) (hb : b ≠ b') :
    let es : List (Op K B) := [.change .added 0 ⟨k, 0, b⟩ 1 0]
    let now := exec (init heap) (es ++ [.write 0 ⟨k, 1, b'⟩, .watch 1])
    list (exec (init heap) es) = some ([⟨k, 1, b⟩], 1) ∧ list now = some ([⟨k, 1, b'⟩], 1) ∧
    now.watchers = [[]] ∧ ofList [⟨k, 1, b⟩] ≠ ofList ([⟨k, 1, b'⟩] : List (Obj K B)) := by
  intro es now
  refine ⟨?_, ?_, ?_, ?_⟩
  · simp [es, exec, call, change, init, list, PyDict.set, PyDict.values, update]
  · simp [now, es, exec, call, change, watch, init, list, PyDict.set, PyDict.values, update]
  · simp [now, es, exec, call, change, watch, init, update]
  · intro h
    have := congrFun h k
    simp [ofList] at this
    exact hb this

/-- **C60** is false for an object that is used again, as in add, then modify: the log holds the object itself,
so that a watch from the start tells of the addition with the contents and the version of the modification. -/
theorem C60_refuted_versions (heap : Nat → Obj K B) (k : K) (b b' : B) :
    let es : List (Op K B) := [.change .added 0 ⟨k, 0, b⟩ 1 0, .change .modified 0 ⟨k, 1, b'⟩ 1 0, .watch 0]
    let now := exec (init heap) es
    ∃ w, now.watchers = [w] ∧ read now w = [(.added, ⟨k, 2, b'⟩), (.modified, ⟨k, 2, b'⟩)] := by
  intro es now
  refine ⟨[(.added, .copied ⟨k, 2, b'⟩), (.modified, .copied ⟨k, 2, b'⟩)], ?_, ?_⟩
  · simp [now, es, exec, call, change, watch, init, update]
  · simp [now, es, exec, call, change, watch, init, update, read, Item.get]

/-- Two objects, the second one used again; a change that is not reported, a deletion, a failed one. -/
private def sampleBefore : List (Op Nat Nat) :=
  [.change .added 0 ⟨7, 0, 1⟩ 1 0, .change .added 1 ⟨8, 0, 2⟩ 1 0]
private def sampleBetween : List (Op Nat Nat) :=
  [.change .modified 1 ⟨8, 2, 3⟩ 0 0, .change .deleted 2 ⟨9, 0, 0⟩ 1 0]
private def sampleAfter : List (Op Nat Nat) :=
  [.change .deleted 3 ⟨7, 0, 0⟩ 1 (1 / 2), .change .added 4 ⟨9, 0, 5⟩ 1 0]
private def sampleName (r : Nat) : Nat := if r = 0 ∨ r = 3 then 7 else if r = 1 then 8 else 9

example : Careful sampleName (sampleBefore ++ sampleBetween ++ .watch 2 :: sampleAfter) ∧ Reported sampleAfter := by
  constructor
  · intro e he
    simp only [sampleBefore, sampleBetween, sampleAfter, List.cons_append, List.nil_append, List.mem_cons,
      List.not_mem_nil, or_false] at he
    rcases he with rfl | rfl | rfl | rfl | rfl | rfl | rfl <;> simp [sampleName]
  · intro e he
    simp only [sampleAfter, List.mem_cons, List.not_mem_nil, or_false] at he
    rcases he with rfl | rfl <;> norm_num

example : let h : Nat → Obj Nat Nat := fun _ => ⟨0, 0, 0⟩
    let now := exec (init h) (sampleBefore ++ sampleBetween ++ .watch 2 :: sampleAfter)
    list (exec (init h) sampleBefore) = some ([⟨7, 1, 1⟩, ⟨8, 2, 2⟩], 2) ∧
    list now = some ([⟨8, 3, 3⟩, ⟨9, 6, 5⟩], 6) ∧
    now.watchers.map (read now) = [[(.modified, ⟨8, 3, 3⟩), (.deleted, ⟨9, 4, 0⟩), (.deleted, ⟨7, 5, 0⟩),
      (.added, ⟨9, 6, 5⟩)]] ∧ now.down = false := by
  decide +kernel

/-- fresh objects only -/
example : let es : List (Op Nat Nat) := [.change .added 0 ⟨7, 0, 1⟩ 1 0, .change .modified 1 ⟨7, 0, 2⟩ 1 0]
    let after : List (Op Nat Nat) := [.change .deleted 2 ⟨7, 0, 2⟩ 1 0]
    (used (es ++ .watch 1 :: after)).Nodup ∧ 1 ≤ (asked es).length ∧
    (exec (init fun _ => ⟨0, 0, 0⟩) (es ++ .watch 1 :: after)).down = false := by
  decide +kernel

end Aiok8s.FakeSource
