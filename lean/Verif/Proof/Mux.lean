import Verif.Spec.Mux
/-!
# Lemmas about the broadcaster
-/
set_option linter.unusedSimpArgs false
set_option linter.unusedSectionVars false
namespace Aiok8s.Mux
open Spec
variable {E : Type} {mode : Mode} {len : Nat}

theorem exec_cons {s s' : State E} {a : Act E} {as : List (Act E)}
    (h : exec mode len s (a :: as) = some s') :
    ∃ t, step mode len s a = some t ∧ exec mode len t as = some s' := by
  simpa [exec, Option.bind_eq_some_iff] using h

theorem exec_append {s s' : State E} {as bs : List (Act E)} :
    exec mode len s (as ++ bs) = some s' ↔
      ∃ t, exec mode len s as = some t ∧ exec mode len t bs = some s' := by
  induction as generalizing s with
  | nil => simp [exec]
  | cons a as ih =>
    simp only [List.cons_append, exec, Option.bind_eq_some_iff]
    constructor
    · rintro ⟨t, h1, h2⟩
      obtain ⟨u, h3, h4⟩ := ih.1 h2
      exact ⟨u, ⟨t, h1, h3⟩, h4⟩
    · rintro ⟨u, ⟨t, h1, h3⟩, h4⟩
      exact ⟨t, h1, ih.2 ⟨u, h3, h4⟩⟩

/-- Induction over runs from the end. -/
theorem exec_ind {P : List (Act E) → State E → Prop} {s0 : State E} (h0 : P [] s0)
    (hs : ∀ as s a s', P as s → step mode len s a = some s' → P (as ++ [a]) s')
    (as : List (Act E)) (s : State E) (h : exec mode len s0 as = some s) : P as s := by
  suffices H : ∀ (as pre : List (Act E)) (t : State E), P pre t →
      exec mode len t as = some s → P (pre ++ as) s from H as [] s0 h0 h
  intro as
  induction as with
  | nil =>
    intro pre t hp h
    cases h
    simpa using hp
  | cons a as ih =>
    intro pre t hp h
    obtain ⟨u, h1, h2⟩ := exec_cons h
    have := ih (pre ++ [a]) u (hs _ _ _ _ hp h1) h2
    simpa using this

theorem mem_registered {ws : List (Watcher E)} {i : Nat} :
    i ∈ registered ws ↔ ∃ w, ws[i]? = some w ∧ w.inMap = true := by
  simp only [registered, List.mem_filter, List.mem_range]
  constructor
  · rintro ⟨h1, h2⟩
    cases hw : ws[i]? with
    | none => simp [hw] at h2
    | some w => exact ⟨w, rfl, by simpa [hw] using h2⟩
  · rintro ⟨w, h1, h2⟩
    exact ⟨(List.getElem?_eq_some_iff.1 h1).1, by simp [h1, h2]⟩

theorem nodup_registered (ws : List (Watcher E)) : (registered ws).Nodup :=
  List.Pairwise.filter _ (List.nodup_range)

theorem owed_snoc (is : List (In E)) (i : In E) : owed (is ++ [i]) = owedStep (owed is) i := by
  simp [owed]

/-- The watchers the loop still has to come to, including the present one. -/
def loopIds : Loop E → List Nat
  | .offer _ ids => ids
  | .join _ i ids => i :: ids
  | _ => []

theorem loopIds_next (e : E) (ids : List Nat) : loopIds (next e ids) = ids := by
  cases ids <;> rfl

theorem inFlight_next {s : State E} {e : E} {ids : List Nat} {i : Nat} (h : s.loop = next e ids) :
    inFlight s i = if i ∈ ids then [e] else [] := by
  cases ids <;> simp [inFlight, h, next]

/-- What is always true: the watchers that are not registered are stopped, the loop names existing
watchers and each only once; without room for an empty list of watchers to offer to. -/
structure Good (s : State E) : Prop where
  unreg : ∀ (i : Nat) (w : Watcher E), s.watchers[i]? = some w → w.inMap = false → w.stopped = true
  nodup : (loopIds s.loop).Nodup
  bound : ∀ i ∈ loopIds s.loop, i < s.watchers.length
  closed : s.loop = .closed → ∀ (i : Nat) (w : Watcher E), s.watchers[i]? = some w → w.stopped = true
  offer : ∀ e, s.loop ≠ .offer e []
  join : ∀ e i ids, s.loop = .join e i ids → ∀ (w : Watcher E), s.watchers[i]? = some w →
    w.maxsize = 0

theorem good_init : Good (init : State E) :=
  ⟨by simp [init], by simp [init, loopIds], by simp [init, loopIds], by simp [init], by simp [init],
    by simp [init]⟩

theorem good_setW {s : State E} (h : Good s) {i : Nat} {w w' : Watcher E}
    (hw : s.watchers[i]? = some w) (h1 : w'.inMap = false → w.inMap = false ∨ w'.stopped = true)
    (h2 : w.stopped = true → w'.stopped = true) (h3 : w'.maxsize = w.maxsize) :
    Good (setW s i w') := by
  have hi := (List.getElem?_eq_some_iff.1 hw).1
  refine ⟨?_, h.nodup, ?_, ?_, h.offer, ?_⟩
  · intro j v hj hv
    simp only [setW, List.getElem?_set] at hj
    split at hj
    · subst j
      cases hj
      rcases h1 hv with h3 | h3
      · exact h2 (h.unreg i w hw h3)
      · exact h3
    · exact h.unreg j v hj hv
  · intro j hj
    simpa [setW] using h.bound j hj
  · intro hc j v hj
    simp only [setW, List.getElem?_set] at hj
    split at hj
    · subst j
      cases hj
      exact h2 (h.closed hc i w hw)
    · exact h.closed hc j v hj
  · intro e j ids hl v hj
    simp only [setW, List.getElem?_set] at hj
    split at hj
    · subst j
      cases hj
      rw [h3]
      exact h.join e i ids hl w hw
    · exact h.join e j ids hl v hj

theorem good_next {s : State E} (h : Good s) (e : E) {ids : List Nat} (hn : ids.Nodup)
    (hb : ∀ i ∈ ids, i < s.watchers.length) : Good { s with loop := next e ids } := by
  refine ⟨h.unreg, ?_, ?_, ?_, ?_, ?_⟩
  · simpa [loopIds_next] using hn
  · simpa [loopIds_next] using hb
  · intro hc
    cases ids <;> simp [next] at hc
  · intro e'
    cases ids <;> simp [next]
  · intro e' i ids' hl
    cases ids <;> simp [next] at hl

theorem good_step {s s' : State E} {a : Act E} (h : Good s) (hs : step mode len s a = some s') :
    Good s' := by
  cases a with
  | send i =>
    simp only [step] at hs
    split at hs <;> cases hs
    exact ⟨h.unreg, h.nodup, h.bound, h.closed, h.offer, h.join⟩
  | take =>
    simp only [step] at hs
    split at hs
    · rename_i i is hl hi
      cases hs
      cases i with
      | close =>
        refine ⟨?_, by simp [onTake, loopIds], by simp [onTake, loopIds], ?_, by simp [onTake],
          by simp [onTake]⟩
        all_goals
          simp only [onTake, List.getElem?_map, Option.map_eq_some_iff]
        · rintro i _ ⟨v, hv, rfl⟩ hm
          unfold closeOne at hm ⊢
          split
          · rfl
          · rename_i hn
            rw [if_neg hn] at hm
            exact h.unreg i v hv hm
        · rintro - i _ ⟨v, hv, rfl⟩
          unfold closeOne
          split
          · rfl
          · rename_i hn
            exact h.unreg i v hv (by simpa using hn)
      | watch p =>
        refine ⟨?_, by simp [onTake, loopIds, hl], by simp [onTake, loopIds, hl],
          by simp [onTake, hl], by simp [onTake, hl], by simp [onTake, hl]⟩
        intro i w hw hm
        simp only [onTake, List.getElem?_append] at hw
        split at hw
        · exact h.unreg i w hw hm
        · have : w = newWatcher len p := by
            have := List.mem_of_getElem? hw
            simpa using this
          subst this
          cases p <;> simp [newWatcher] at hm
      | event e =>
        cases mode with
        | drop =>
          refine ⟨?_, by simp [onTake, loopIds, hl], by simp [onTake, loopIds, hl],
            by simp [onTake, hl], by simp [onTake, hl], by simp [onTake, hl]⟩
          simp only [onTake, List.getElem?_map, Option.map_eq_some_iff]
          rintro i _ ⟨v, hv, rfl⟩ hm
          unfold offerDrop at hm ⊢
          split
          · rename_i hn
            rw [if_pos hn] at hm
            exact h.unreg i v hv hm
          · rename_i hn
            rw [if_neg hn] at hm
            exact h.unreg i v hv hm
        | wait =>
          refine good_next (s := { s with incoming := is })
            ⟨h.unreg, h.nodup, h.bound, h.closed, h.offer, h.join⟩ e (nodup_registered _) ?_
          intro i hi
          obtain ⟨w, hw, -⟩ := mem_registered.1 hi
          exact (List.getElem?_eq_some_iff.1 hw).1
    · simp at hs
  | put =>
    simp only [step] at hs
    split at hs
    · rename_i e i ids hl
      obtain ⟨w, hw, hs⟩ := Option.bind_eq_some_iff.1 hs
      split at hs
      · simp at hs
      · cases hs
        have h1 : Good (setW s i (w.push e)) := good_setW h hw (fun x => Or.inl x) (fun x => x) rfl
        have hn := h1.nodup
        have hb := h1.bound
        simp only [setW, hl, loopIds] at hn hb
        split
        · exact ⟨h1.unreg, by simpa [loopIds] using hn, by simpa [loopIds, setW] using hb,
            by simp, by simp, by
              intro e' i' ids' hl' v hv
              cases hl'
              rename_i hz
              have hv' : (setW s i (w.push e)).watchers[i]? = some v := hv
              simp only [setW, List.getElem?_set_self (List.getElem?_eq_some_iff.1 hw).1] at hv'
              cases hv'
              exact hz⟩
        · exact good_next h1 e (List.nodup_cons.1 hn).2 (fun j hj => hb j (by simp [hj]))
    · simp at hs
  | skip =>
    simp only [step] at hs
    split at hs
    · rename_i e i ids hl
      obtain ⟨w, hw, hs⟩ := Option.bind_eq_some_iff.1 hs
      split at hs
      · cases hs
        have hn := h.nodup
        have hb := h.bound
        simp only [hl, loopIds] at hn hb
        exact good_next h e (List.nodup_cons.1 hn).2 (fun j hj => hb j (by simp [hj]))
      · simp at hs
    · rename_i e i ids hl
      obtain ⟨w, hw, hs⟩ := Option.bind_eq_some_iff.1 hs
      split at hs
      · cases hs
        have hn := h.nodup
        have hb := h.bound
        simp only [hl, loopIds] at hn hb
        exact good_next h e (List.nodup_cons.1 hn).2 (fun j hj => hb j (by simp [hj]))
      · simp at hs
    · simp at hs
  | joined =>
    simp only [step] at hs
    split at hs
    · rename_i e i ids hl
      obtain ⟨w, hw, hs⟩ := Option.bind_eq_some_iff.1 hs
      split at hs
      · cases hs
        have hn := h.nodup
        have hb := h.bound
        simp only [hl, loopIds] at hn hb
        exact good_next h e (List.nodup_cons.1 hn).2 (fun j hj => hb j (by simp [hj]))
      · simp at hs
    · simp at hs
  | read i =>
    obtain ⟨w, hw, hs⟩ := Option.bind_eq_some_iff.1 hs
    split at hs <;> cases hs
    exact good_setW h hw (fun x => Or.inl x) (fun x => x) rfl
  | readEnd i =>
    obtain ⟨w, hw, hs⟩ := Option.bind_eq_some_iff.1 hs
    split at hs <;> cases hs
    exact good_setW h hw (fun x => Or.inl x) (fun x => x) rfl
  | abandon i =>
    obtain ⟨w, hw, hs⟩ := Option.bind_eq_some_iff.1 hs
    cases hs
    exact good_setW h hw (fun x => Or.inl x) (fun x => x) rfl
  | orphan i =>
    obtain ⟨w, hw, hs⟩ := Option.bind_eq_some_iff.1 hs
    split at hs <;> cases hs
    exact good_setW h hw (fun x => Or.inl x) (fun x => x) rfl
  | stop i =>
    obtain ⟨w, hw, hs⟩ := Option.bind_eq_some_iff.1 hs
    cases hs
    exact good_setW h hw (fun x => Or.inl x) (fun x => rfl) rfl
  | remove i =>
    obtain ⟨w, hw, hs⟩ := Option.bind_eq_some_iff.1 hs
    split at hs <;> cases hs
    rename_i hc
    exact good_setW h hw (fun x => Or.inr (by simpa using hc.1)) (fun x => x) rfl

theorem good_exec {as : List (Act E)} {s : State E} (h : exec mode len init as = some s) :
    Good s :=
  exec_ind (P := fun _ s => Good s) good_init (fun _ _ _ _ hg hs => good_step hg hs) as s h

theorem get_setW {s : State E} {i : Nat} {w w' : Watcher E} (hw : s.watchers[i]? = some w)
    (j : Nat) : (setW s i w').watchers[j]? = if i = j then some w' else s.watchers[j]? := by
  have hi := (List.getElem?_eq_some_iff.1 hw).1
  simp only [setW, List.getElem?_set]
  split
  · rename_i h; subst h; rfl
  · rfl

/-- The queue of incoming entries is first in first out. -/
theorem exec_handled {as : List (Act E)} {s : State E} (h : exec mode len init as = some s) :
    sent as = handled as ++ s.incoming ∧ (handled as).length = handledCount as := by
  have H : (sent as).length = handledCount as + s.incoming.length ∧
      s.incoming = (sent as).drop (handledCount as) := by
    refine exec_ind (P := fun as s => (sent as).length = handledCount as + s.incoming.length ∧
      s.incoming = (sent as).drop (handledCount as)) (by simp [sent, handledCount, init]) ?_ as s h
    rintro as s a s' ⟨h1, h2⟩ hs
    have hq : s'.incoming = s.incoming ∧ sent (as ++ [a]) = sent as ∧
        handledCount (as ++ [a]) = handledCount as ∨
        (∃ i, a = .send i ∧ s'.incoming = s.incoming ++ [i]) ∨
        (a = .take ∧ ∃ i, s.incoming = i :: s'.incoming) := by
      cases a with
      | send i =>
        simp only [step] at hs
        split at hs <;> cases hs
        exact Or.inr (Or.inl ⟨i, rfl, rfl⟩)
      | take =>
        simp only [step] at hs
        split at hs
        · rename_i i is hl hi
          cases hs
          refine Or.inr (Or.inr ⟨rfl, i, ?_⟩)
          rw [hi]
          cases i with
          | event e => cases mode <;> rfl
          | _ => rfl
        · simp at hs
      | put =>
        refine Or.inl ⟨?_, by simp [sent], by simp [handledCount]⟩
        simp only [step] at hs
        split at hs
        · obtain ⟨w, hw, hs⟩ := Option.bind_eq_some_iff.1 hs
          split at hs <;> cases hs
          rfl
        · simp at hs
      | skip =>
        refine Or.inl ⟨?_, by simp [sent], by simp [handledCount]⟩
        simp only [step] at hs
        split at hs
        · obtain ⟨w, hw, hs⟩ := Option.bind_eq_some_iff.1 hs
          split at hs <;> cases hs
          rfl
        · obtain ⟨w, hw, hs⟩ := Option.bind_eq_some_iff.1 hs
          split at hs <;> cases hs
          rfl
        · simp at hs
      | joined =>
        refine Or.inl ⟨?_, by simp [sent], by simp [handledCount]⟩
        simp only [step] at hs
        split at hs
        · obtain ⟨w, hw, hs⟩ := Option.bind_eq_some_iff.1 hs
          split at hs <;> cases hs
          rfl
        · simp at hs
      | read i =>
        refine Or.inl ⟨?_, by simp [sent], by simp [handledCount]⟩
        obtain ⟨w, hw, hs⟩ := Option.bind_eq_some_iff.1 hs
        split at hs <;> cases hs
        rfl
      | readEnd i =>
        refine Or.inl ⟨?_, by simp [sent], by simp [handledCount]⟩
        obtain ⟨w, hw, hs⟩ := Option.bind_eq_some_iff.1 hs
        split at hs <;> cases hs
        rfl
      | abandon i =>
        refine Or.inl ⟨?_, by simp [sent], by simp [handledCount]⟩
        obtain ⟨w, hw, hs⟩ := Option.bind_eq_some_iff.1 hs
        cases hs
        rfl
      | orphan i =>
        refine Or.inl ⟨?_, by simp [sent], by simp [handledCount]⟩
        obtain ⟨w, hw, hs⟩ := Option.bind_eq_some_iff.1 hs
        split at hs <;> cases hs
        rfl
      | stop i =>
        refine Or.inl ⟨?_, by simp [sent], by simp [handledCount]⟩
        obtain ⟨w, hw, hs⟩ := Option.bind_eq_some_iff.1 hs
        cases hs
        rfl
      | remove i =>
        refine Or.inl ⟨?_, by simp [sent], by simp [handledCount]⟩
        obtain ⟨w, hw, hs⟩ := Option.bind_eq_some_iff.1 hs
        split at hs <;> cases hs
        rfl
    rcases hq with ⟨q1, q2, q3⟩ | ⟨i, rfl, q⟩ | ⟨rfl, i, q⟩
    · rw [q1, q2, q3]
      exact ⟨h1, h2⟩
    · have e1 : sent (as ++ [Act.send i]) = sent as ++ [i] := by simp [sent]
      have e2 : handledCount (as ++ [Act.send i]) = handledCount as := by simp [handledCount]
      rw [e1, e2, q, List.drop_append_of_le_length (by omega), ← h2]
      simp
      omega
    · have e1 : sent (as ++ [Act.take]) = sent as := by simp [sent]
      have e2 : handledCount (as ++ [Act.take]) = handledCount as + 1 := by simp [handledCount]
      rw [e1, e2]
      rw [q] at h1 h2
      refine ⟨by simp at h1; omega, ?_⟩
      rw [← List.tail_drop, ← h2]
      rfl
  refine ⟨?_, ?_⟩
  · rw [H.2, handled, List.take_append_drop]
  · rw [handled, List.length_take]
    omega

/-- When the loop takes an entry, one more entry is handled. -/
theorem handled_take {as : List (Act E)} {s : State E} (h : exec mode len init as = some s)
    {i : In E} {is : List (In E)} (hi : s.incoming = i :: is) :
    handled (as ++ [Act.take]) = handled as ++ [i] := by
  obtain ⟨h1, h2⟩ := exec_handled h
  have e1 : sent (as ++ [Act.take]) = sent as := by simp [sent]
  have e2 : handledCount (as ++ [Act.take]) = handledCount as + 1 := by simp [handledCount]
  show (sent (as ++ [Act.take])).take (handledCount (as ++ [Act.take])) = handled as ++ [i]
  rw [e1, e2, h1, hi, ← h2]
  rw [List.take_append, List.take_of_length_le (by omega)]
  simp

theorem handled_other {as : List (Act E)} {s : State E} (h : exec mode len init as = some s)
    {a : Act E} (ha : a ≠ .take) : handled (as ++ [a]) = handled as := by
  obtain ⟨h1, h2⟩ := exec_handled h
  have e2 : handledCount (as ++ [a]) = handledCount as := by
    cases a <;> simp [handledCount] at ha ⊢
  have e1 : ∃ x, sent (as ++ [a]) = sent as ++ x := by
    simp [sent]
  obtain ⟨x, e1⟩ := e1
  unfold handled at *
  rw [e1, e2, List.take_append_of_le_length]
  rw [h1]
  rw [List.length_append, h2]
  omega

theorem cancelled_append (i : Nat) (as bs : List (Act E)) :
    cancelled i (as ++ bs) = cancelled i as + cancelled i bs := by
  simp [cancelled]

theorem cancelled_snoc_le (i : Nat) (as : List (Act E)) (a : Act E) :
    cancelled i as ≤ cancelled i (as ++ [a]) := by
  rw [cancelled_append]
  omega

theorem cancelled_eq_zero {i : Nat} {as : List (Act E)} (h : Act.abandon i ∉ as) :
    cancelled i as = 0 := by
  induction as with
  | nil => rfl
  | cons a as ih =>
    simp only [List.mem_cons, not_or] at h
    have hc : cancelled i (a :: as) = cancelled i [a] + cancelled i as :=
      cancelled_append i [a] as
    rw [hc, ih h.2]
    cases a <;> simp [cancelled] at h ⊢
    exact h.1

/-- How what a watcher has is related to what it should see, when `fl` is still to be offered and
`n` reads were cancelled. -/
structure Rel (mode : Mode) (n : Nat) (w : Watcher E) (fl o : List E) : Prop where
  sub : (w.got ++ w.queue ++ fl).Sublist o
  cnt : mode = .wait → w.stopped = false →
    o.length + w.orphans ≤ (w.got ++ w.queue ++ fl).length + n
  orph : w.stopped = false → w.orphans ≤ n
  unf : n = 0 → w.stopped = false → w.maxsize = 0 → w.unfinished = w.queue.length

theorem Rel.eq {w : Watcher E} {fl o : List E} (h : Rel .wait 0 w fl o)
    (hs : w.stopped = false) : w.got ++ w.queue ++ fl = o :=
  h.sub.eq_of_length_le (by have := h.cnt rfl hs; omega)

theorem Rel.mono {n n' : Nat} {w : Watcher E} {fl o : List E} (h : Rel mode n w fl o)
    (hn : n ≤ n') : Rel mode n' w fl o :=
  ⟨h.sub, fun m s => by have := h.cnt m s; omega, fun s => by have := h.orph s; omega,
    fun n => h.unf (by omega)⟩

/-- The watcher is skipped, being stopped. -/
theorem Rel.skip {n : Nat} {w : Watcher E} {fl o : List E} (h : Rel mode n w fl o)
    (hs : w.stopped = true) : Rel mode n w [] o := by
  refine ⟨?_, ?_, ?_, ?_⟩
  · exact List.Sublist.trans (by simp) h.sub
  all_goals intros; simp_all

theorem Rel.push {n : Nat} {w : Watcher E} {e : E} {o : List E} (h : Rel mode n w [e] o) :
    Rel mode n (w.push e) [] o := by
  refine ⟨?_, ?_, ?_, ?_⟩
  · simpa [Watcher.push] using h.sub
  · intro h1 h2
    have := h.cnt h1 h2
    simp only [Watcher.push, List.length_append, List.length_cons, List.length_nil] at this ⊢
    omega
  · exact h.orph
  · intro h1 h2 h3
    simpa [Watcher.push] using h.unf h1 h2 h3

theorem Rel.event {n : Nat} {w : Watcher E} {o : List E} (h : Rel mode n w [] o) (e : E) :
    Rel mode n w [e] (o ++ [e]) := by
  refine ⟨?_, ?_, h.orph, h.unf⟩
  · have := h.sub
    rw [List.append_nil] at this
    exact List.Sublist.append this (List.Sublist.refl _)
  · intro h1 h2
    have := h.cnt h1 h2
    simp only [List.length_append, List.length_cons, List.length_nil] at this ⊢
    omega

theorem Rel.lose {n : Nat} {w : Watcher E} {o : List E} (h : Rel mode n w [] o) (e : E)
    (hm : mode = .drop ∨ w.stopped = true) : Rel mode n w [] (o ++ [e]) := by
  refine ⟨?_, ?_, h.orph, h.unf⟩
  · exact List.Sublist.trans h.sub (List.sublist_append_left _ _)
  · rintro rfl h3
    rcases hm with hm | hm
    · simp at hm
    · rw [h3] at hm; simp at hm

/-- The loop takes an event. -/
theorem rel_event {na : Nat} {s : State E} (hg : Good s) (hl : s.loop = .idle) {i : Nat} {e : E}
    {o : List E} {w' : Watcher E}
    (hw' : (onTake mode len s (.event e)).watchers[i]? = some w')
    (hr : ∀ w, s.watchers[i]? = some w → Rel mode na w [] o) :
    Rel mode na w' (inFlight (onTake mode len s (.event e)) i) (o ++ [e]) := by
  cases mode with
  | drop =>
    simp only [onTake, List.getElem?_map, Option.map_eq_some_iff] at hw'
    obtain ⟨w, hw, rfl⟩ := hw'
    have hfl : inFlight (onTake .drop len s (.event e)) i = [] := by
      simp [inFlight, onTake, hl]
    rw [hfl]
    unfold offerDrop
    split
    · exact ((hr w hw).event e).push
    · exact (hr w hw).lose e (Or.inl rfl)
  | wait =>
    have hw : s.watchers[i]? = some w' := hw'
    have hfl : inFlight (onTake .wait len s (.event e)) i
        = if i ∈ registered s.watchers then [e] else [] := inFlight_next rfl
    rw [hfl]
    split
    · exact (hr w' hw).event e
    · rename_i hn
      refine (hr w' hw).lose e (Or.inr (hg.unreg i w' hw ?_))
      cases hm : w'.inMap with
      | false => rfl
      | true => exact absurd (mem_registered.2 ⟨w', hw, hm⟩) hn

theorem rel_new (na : Nat) (p : Option (List E)) :
    Rel mode na (newWatcher len p) [] (p.getD []) := by
  cases p <;> refine ⟨?_, ?_, ?_, ?_⟩ <;> simp [newWatcher]

/-- The invariant for the watcher `i`. -/
def Inv (mode : Mode) (i : Nat) (as : List (Act E)) (s : State E) : Prop :=
  (owed (handled as)).length = s.watchers.length ∧
  ∀ w, s.watchers[i]? = some w → ∃ o, (owed (handled as))[i]? = some o ∧
    Rel mode (cancelled i as) w (inFlight s i) o

theorem inv_change {i j : Nat} {as : List (Act E)} {s s' : State E} {w w' : Watcher E} {a : Act E}
    (ht : handled (as ++ [a]) = handled as) (h : Inv mode i as s)
    (hw : s.watchers[j]? = some w) (hs : s' = setW s j w')
    (hr : i = j → ∀ fl o, Rel mode (cancelled i as) w fl o →
      Rel mode (cancelled i (as ++ [a])) w' fl o) : Inv mode i (as ++ [a]) s' := by
  subst hs
  refine ⟨by rw [ht, h.1]; simp [setW], ?_⟩
  intro v hv
  rw [get_setW hw] at hv
  rw [ht]
  have hfl : inFlight (setW s j w') i = inFlight s i := rfl
  rw [hfl]
  split at hv
  · rename_i hij
    subst hij
    cases hv
    obtain ⟨o, ho, hro⟩ := h.2 w hw
    exact ⟨o, ho, hr rfl _ _ hro⟩
  · obtain ⟨o, ho, hro⟩ := h.2 v hv
    exact ⟨o, ho, hro.mono (cancelled_snoc_le _ _ _)⟩

/-- The loop goes from a watcher to the next one. -/
theorem inv_next {i j : Nat} {as : List (Act E)} {s : State E} {w w' : Watcher E} {a : Act E}
    {e : E} {ids : List Nat} {loop : Loop E}
    (ht : handled (as ++ [a]) = handled as) (h : Inv mode i as s)
    (hw : s.watchers[j]? = some w)
    (hloop : ∀ i, inFlight { setW s j w' with loop := loop } i = if i ∈ ids then [e] else [])
    (hj : j ∉ ids) (hfl : ∀ k, k ≠ j → inFlight s k = if k ∈ ids then [e] else [])
    (hr : ∀ o, Rel mode (cancelled i as) w (inFlight s j) o →
      Rel mode (cancelled i as) w' [] o) :
    Inv mode i (as ++ [a]) { setW s j w' with loop := loop } := by
  refine ⟨by rw [ht, h.1]; simp [setW], ?_⟩
  intro v hv
  have hv' : (setW s j w').watchers[i]? = some v := hv
  rw [get_setW hw] at hv'
  rw [ht, hloop]
  split at hv'
  · rename_i hij
    subst hij
    cases hv'
    obtain ⟨o, ho, hro⟩ := h.2 w hw
    rw [if_neg hj]
    exact ⟨o, ho, (hr _ hro).mono (cancelled_snoc_le _ _ _)⟩
  · rename_i hij
    obtain ⟨o, ho, hro⟩ := h.2 v hv'
    rw [hfl i (fun hh => hij hh.symm)] at hro
    exact ⟨o, ho, hro.mono (cancelled_snoc_le _ _ _)⟩

theorem setW_self {s : State E} {j : Nat} {w : Watcher E} (hw : s.watchers[j]? = some w) :
    setW s j w = s := by
  obtain ⟨incoming, watchers, loop⟩ := s
  simp only [setW]
  congr 1
  obtain ⟨hj, rfl⟩ := List.getElem?_eq_some_iff.1 hw
  exact List.set_getElem_self hj

theorem inv_step {i : Nat} {as : List (Act E)} {s s' : State E} {a : Act E}
    (he : exec mode len init as = some s) (h : Inv mode i as s)
    (hs : step mode len s a = some s') : Inv mode i (as ++ [a]) s' := by
  have hg := good_exec he
  cases a with
  | send x =>
    have ht := handled_other he (a := .send x) (by simp)
    simp only [step] at hs
    split at hs <;> cases hs
    refine ⟨by rw [ht]; exact h.1, fun w hw => ?_⟩
    obtain ⟨o, ho, hr⟩ := h.2 w hw
    exact ⟨o, by rw [ht]; exact ho, hr.mono (cancelled_snoc_le _ _ _)⟩
  | take =>
    simp only [step] at hs
    split at hs
    · rename_i x is hl hi
      cases hs
      have ht := handled_take he hi
      have hfl : inFlight s i = [] := by simp [inFlight, hl]
      cases x with
      | close =>
        refine ⟨?_, ?_⟩
        · rw [ht, owed_snoc]; simp [owedStep, onTake, h.1]
        · intro w' hw'
          simp only [onTake, List.getElem?_map, Option.map_eq_some_iff] at hw'
          obtain ⟨w, hw, rfl⟩ := hw'
          obtain ⟨o, ho, hr⟩ := h.2 w hw
          refine ⟨o, by rw [ht, owed_snoc]; exact ho, ?_⟩
          rw [hfl] at hr
          have hfl' : inFlight (onTake mode len { s with incoming := is } .close) i = [] := rfl
          rw [hfl']
          unfold closeOne
          split
          · exact ⟨hr.sub, by simp, by simp, by simp⟩
          · exact hr.mono (cancelled_snoc_le _ _ _)
      | watch p =>
        refine ⟨?_, ?_⟩
        · rw [ht, owed_snoc]; simp [owedStep, onTake, h.1]
        · intro w' hw'
          have hfl' : inFlight (onTake mode len { s with incoming := is } (.watch p)) i = [] := by
            simp [inFlight, onTake, hl]
          rw [hfl', ht, owed_snoc]
          simp only [onTake, List.getElem?_append] at hw'
          simp only [owedStep, List.getElem?_append, h.1]
          split at hw'
          · rename_i hlt
            obtain ⟨o, ho, hr⟩ := h.2 w' hw'
            rw [if_pos hlt]
            rw [hfl] at hr
            exact ⟨o, ho, hr.mono (cancelled_snoc_le _ _ _)⟩
          · rename_i hlt
            rw [if_neg hlt]
            have h0 : i - s.watchers.length = 0 := by
              have := (List.getElem?_eq_some_iff.1 hw').1
              simp at this
              omega
            rw [h0] at hw' ⊢
            simp at hw'
            subst hw'
            exact ⟨_, rfl, rel_new _ p⟩
      | event e =>
        have hlen : (onTake mode len { s with incoming := is } (.event e)).watchers.length
            = s.watchers.length := by
          cases mode <;> simp [onTake]
        refine ⟨?_, ?_⟩
        · rw [ht, owed_snoc, hlen]; simp [owedStep, h.1]
        · intro w' hw'
          have hlt : i < (owed (handled as)).length := by
            have := (List.getElem?_eq_some_iff.1 hw').1
            rw [h.1]; omega
          refine ⟨(owed (handled as))[i] ++ [e], ?_, ?_⟩
          · rw [ht, owed_snoc]
            simp [owedStep, hlt]
          · refine rel_event (s := { s with incoming := is })
              ⟨hg.unreg, hg.nodup, hg.bound, hg.closed, hg.offer, hg.join⟩ hl hw' ?_
            intro w hw
            obtain ⟨o, ho, hr⟩ := h.2 w hw
            obtain ⟨_, ho'⟩ := List.getElem?_eq_some_iff.1 ho
            rw [hfl] at hr
            rw [ho']
            exact hr.mono (cancelled_snoc_le _ _ _)
    · simp at hs
  | put =>
    have ht := handled_other he (a := .put) (by simp)
    simp only [step] at hs
    split at hs
    · rename_i e j ids hl
      have hn := hg.nodup
      simp only [hl, loopIds, List.nodup_cons] at hn
      obtain ⟨w, hw, hs⟩ := Option.bind_eq_some_iff.1 hs
      split at hs <;> cases hs
      refine inv_next (e := e) (ids := ids) ht h hw ?_ hn.1 ?_ ?_
      · intro k
        split
        · rfl
        · exact inFlight_next rfl
      · intro k hk
        simp [inFlight, hl, hk]
      · intro o hr
        have : inFlight s j = [e] := by simp [inFlight, hl]
        rw [this] at hr
        exact hr.push
    · simp at hs
  | skip =>
    have ht := handled_other he (a := .skip) (by simp)
    simp only [step] at hs
    split at hs
    · rename_i e j ids hl
      have hn := hg.nodup
      simp only [hl, loopIds, List.nodup_cons] at hn
      obtain ⟨w, hw, hs⟩ := Option.bind_eq_some_iff.1 hs
      split at hs <;> cases hs
      rename_i hst
      have := inv_next (w' := w) (e := e) (ids := ids) (loop := next e ids) ht h hw
        (fun k => inFlight_next rfl) hn.1
        (fun k hk => by simp [inFlight, hl, hk]) (fun o hr => hr.skip hst)
      rwa [setW_self hw] at this
    · rename_i e j ids hl
      have hn := hg.nodup
      simp only [hl, loopIds, List.nodup_cons] at hn
      obtain ⟨w, hw, hs⟩ := Option.bind_eq_some_iff.1 hs
      split at hs <;> cases hs
      rename_i hst
      have := inv_next (w' := w) (e := e) (ids := ids) (loop := next e ids) ht h hw
        (fun k => inFlight_next rfl) hn.1
        (fun k hk => by simp [inFlight, hl, hk]) (fun o hr => hr.skip hst)
      rwa [setW_self hw] at this
    · simp at hs
  | joined =>
    have ht := handled_other he (a := .joined) (by simp)
    simp only [step] at hs
    split at hs
    · rename_i e j ids hl
      have hn := hg.nodup
      simp only [hl, loopIds, List.nodup_cons] at hn
      obtain ⟨w, hw, hs⟩ := Option.bind_eq_some_iff.1 hs
      split at hs <;> cases hs
      have hfl : inFlight s j = [] := by simp [inFlight, hl, hn.1]
      have := inv_next (w' := w) (e := e) (ids := ids) (loop := next e ids) ht h hw
        (fun k => inFlight_next rfl) hn.1
        (fun k hk => by simp [inFlight, hl, hk]) (fun o hr => by rwa [hfl] at hr)
      rwa [setW_self hw] at this
    · simp at hs
  | read j =>
    have ht := handled_other he (a := .read j) (by simp)
    obtain ⟨w, hw, hs⟩ := Option.bind_eq_some_iff.1 hs
    split at hs <;> cases hs
    rename_i e q hq
    refine inv_change ht h hw rfl ?_
    rintro rfl fl o hr
    have hr := hr.mono (cancelled_snoc_le i as (Act.read i))
    refine ⟨?_, ?_, hr.orph, ?_⟩
    · have := hr.sub
      rw [hq] at this
      simpa using this
    · intro h1 h2
      have := hr.cnt h1 h2
      rw [hq] at this
      simp only [List.length_append, List.length_cons, List.length_nil] at this ⊢
      omega
    · intro h1 h2 h3
      have h3' : w.maxsize = 0 := h3
      have := hr.unf h1 h2 h3
      rw [hq] at this
      simp [h3', this]
  | readEnd j =>
    have ht := handled_other he (a := .readEnd j) (by simp)
    obtain ⟨w, hw, hs⟩ := Option.bind_eq_some_iff.1 hs
    split at hs <;> cases hs
    rename_i hc
    refine inv_change ht h hw rfl ?_
    rintro rfl fl o hr
    have hr := hr.mono (cancelled_snoc_le i as (Act.readEnd i))
    refine ⟨hr.sub, ?_, ?_, hr.unf⟩
    · intro _ h2
      rw [hc.2] at h2
      simp at h2
    · intro h2
      rw [hc.2] at h2
      simp at h2
  | abandon j =>
    have ht := handled_other he (a := .abandon j) (by simp)
    obtain ⟨w, hw, hs⟩ := Option.bind_eq_some_iff.1 hs
    cases hs
    refine inv_change ht h hw rfl ?_
    rintro rfl fl o hr
    have hc : cancelled i (as ++ [Act.abandon i]) = cancelled i as + 1 := by
      rw [cancelled_append]; simp [cancelled]
    rw [hc]
    refine ⟨hr.sub, ?_, ?_, by simp⟩
    · intro h1 h2
      have := hr.cnt h1 h2
      simp only [List.length_append] at this ⊢
      omega
    · intro h1
      have := hr.orph h1
      show w.orphans + 1 ≤ _
      omega
  | orphan j =>
    have ht := handled_other he (a := .orphan j) (by simp)
    obtain ⟨w, hw, hs⟩ := Option.bind_eq_some_iff.1 hs
    split at hs <;> cases hs
    rename_i e q n hq hn
    refine inv_change ht h hw rfl ?_
    rintro rfl fl o hr
    have hr := hr.mono (cancelled_snoc_le i as (Act.orphan i))
    refine ⟨?_, ?_, ?_, ?_⟩
    · refine List.Sublist.trans ?_ hr.sub
      rw [hq]
      simp
    · intro h1 h2
      have := hr.cnt h1 h2
      rw [hq, hn] at this
      simp only [List.length_append, List.length_cons] at this ⊢
      omega
    · intro h1
      have := hr.orph h1
      show n ≤ _
      omega
    · intro h0 h1
      have := hr.orph h1
      omega
  | stop j =>
    have ht := handled_other he (a := .stop j) (by simp)
    obtain ⟨w, hw, hs⟩ := Option.bind_eq_some_iff.1 hs
    cases hs
    refine inv_change ht h hw rfl ?_
    rintro rfl fl o hr
    exact ⟨hr.sub, by simp, by simp, by simp⟩
  | remove j =>
    have ht := handled_other he (a := .remove j) (by simp)
    obtain ⟨w, hw, hs⟩ := Option.bind_eq_some_iff.1 hs
    split at hs <;> cases hs
    refine inv_change ht h hw rfl ?_
    rintro rfl fl o hr
    have hr := hr.mono (cancelled_snoc_le i as (Act.remove i))
    exact ⟨hr.sub, hr.cnt, hr.orph, hr.unf⟩

theorem inv_exec {as : List (Act E)} {s : State E} (h : exec mode len init as = some s) (i : Nat) :
    Inv mode i as s := by
  have := exec_ind (mode := mode) (len := len) (s0 := (init : State E))
    (P := fun as s => exec mode len init as = some s ∧ Inv mode i as s)
    ⟨rfl, by simp [handled, sent, owed, init], by simp [init]⟩ ?_ as s h
  · exact this.2
  · rintro as s a s' ⟨h1, h2⟩ hs
    refine ⟨exec_append.2 ⟨s, h1, ?_⟩, inv_step h1 h2 hs⟩
    simp [exec, hs]

/-- What a step can do to the watcher `i`. -/
inductive Evolves (i : Nat) (a : Act E) (w w' : Watcher E) : Prop where
  | same (h1 : w'.got = w.got) (h2 : w'.queue = w.queue) (h3 : w'.orphans = w.orphans)
  | pushed (e : E) (ha : a = .take ∨ a = .put) (h1 : w'.got = w.got) (h2 : w'.queue = w.queue ++ [e])
      (h3 : w'.orphans = w.orphans)
  | read (e : E) (ha : a = .read i) (h1 : w'.got = w.got ++ [e]) (h2 : w.queue = e :: w'.queue)
      (h3 : w'.orphans = w.orphans)
  | ended (ha : a = .readEnd i) (hq : w.queue = []) (h1 : w'.got = w.got) (h2 : w'.queue = [])
      (h3 : w'.orphans = w.orphans + 1)
  | abandoned (ha : a = .abandon i) (h1 : w'.got = w.got) (h2 : w'.queue = w.queue)
  | lost (e : E) (ha : a = .orphan i) (h1 : w'.got = w.got) (h2 : w.queue = e :: w'.queue)
      (h3 : w.orphans = w'.orphans + 1)

theorem evolves_setW {i j : Nat} {a : Act E} {s : State E} {w v v' : Watcher E}
    (hw : s.watchers[i]? = some w) (hv : s.watchers[j]? = some v)
    (h : i = j → Evolves i a v v') (hm : v.stopped = true → v'.stopped = true) :
    ∃ w', (setW s j v').watchers[i]? = some w' ∧ Evolves i a w w' ∧
      (w.stopped = true → w'.stopped = true) := by
  rw [get_setW hv]
  split
  · rename_i hij
    subst hij
    rw [hw] at hv
    cases hv
    exact ⟨v', rfl, h rfl, hm⟩
  · exact ⟨w, hw, .same rfl rfl rfl, id⟩

theorem step_evolves {s s' : State E} {a : Act E} (hs : step mode len s a = some s') {i : Nat}
    {w : Watcher E} (hw : s.watchers[i]? = some w) :
    ∃ w', s'.watchers[i]? = some w' ∧ Evolves i a w w' ∧
      (w.stopped = true → w'.stopped = true) := by
  cases a with
  | send x =>
    simp only [step] at hs
    split at hs <;> cases hs
    exact ⟨w, hw, .same rfl rfl rfl, id⟩
  | take =>
    simp only [step] at hs
    split at hs
    · rename_i x is hl hi
      cases hs
      cases x with
      | close =>
        refine ⟨closeOne w, by simp [onTake, hw], ?_⟩
        unfold closeOne
        split
        · exact ⟨.same rfl rfl rfl, fun _ => rfl⟩
        · exact ⟨.same rfl rfl rfl, id⟩
      | watch p =>
        refine ⟨w, ?_, .same rfl rfl rfl, id⟩
        simp only [onTake]
        rw [List.getElem?_append_left (List.getElem?_eq_some_iff.1 hw).1]
        exact hw
      | event e =>
        cases mode with
        | drop =>
          refine ⟨offerDrop e w, by simp [onTake, hw], ?_⟩
          unfold offerDrop
          split
          · exact ⟨.pushed e (Or.inl rfl) rfl rfl rfl, id⟩
          · exact ⟨.same rfl rfl rfl, id⟩
        | wait => exact ⟨w, hw, .same rfl rfl rfl, id⟩
    · simp at hs
  | put =>
    simp only [step] at hs
    split at hs
    · rename_i e j ids hl
      obtain ⟨v, hv, hs⟩ := Option.bind_eq_some_iff.1 hs
      split at hs <;> cases hs
      exact evolves_setW (s := s) hw hv (fun _ => .pushed e (Or.inr rfl) rfl rfl rfl) id
    · simp at hs
  | skip =>
    simp only [step] at hs
    split at hs
    · obtain ⟨v, hv, hs⟩ := Option.bind_eq_some_iff.1 hs
      split at hs <;> cases hs
      exact ⟨w, hw, .same rfl rfl rfl, id⟩
    · obtain ⟨v, hv, hs⟩ := Option.bind_eq_some_iff.1 hs
      split at hs <;> cases hs
      exact ⟨w, hw, .same rfl rfl rfl, id⟩
    · simp at hs
  | joined =>
    simp only [step] at hs
    split at hs
    · obtain ⟨v, hv, hs⟩ := Option.bind_eq_some_iff.1 hs
      split at hs <;> cases hs
      exact ⟨w, hw, .same rfl rfl rfl, id⟩
    · simp at hs
  | read j =>
    obtain ⟨v, hv, hs⟩ := Option.bind_eq_some_iff.1 hs
    split at hs <;> cases hs
    rename_i e q hq
    exact evolves_setW hw hv (fun hij => .read e (by rw [hij]) rfl hq rfl) id
  | readEnd j =>
    obtain ⟨v, hv, hs⟩ := Option.bind_eq_some_iff.1 hs
    split at hs <;> cases hs
    rename_i hc
    exact evolves_setW hw hv (fun hij => .ended (by rw [hij]) hc.1 rfl hc.1 rfl) id
  | abandon j =>
    obtain ⟨v, hv, hs⟩ := Option.bind_eq_some_iff.1 hs
    cases hs
    exact evolves_setW hw hv (fun hij => .abandoned (by rw [hij]) rfl rfl) id
  | orphan j =>
    obtain ⟨v, hv, hs⟩ := Option.bind_eq_some_iff.1 hs
    split at hs <;> cases hs
    rename_i e q n hq hn
    exact evolves_setW hw hv (fun hij => .lost e (by rw [hij]) rfl hq hn) id
  | stop j =>
    obtain ⟨v, hv, hs⟩ := Option.bind_eq_some_iff.1 hs
    cases hs
    exact evolves_setW hw hv (fun hij => .same rfl rfl rfl) fun _ => rfl
  | remove j =>
    obtain ⟨v, hv, hs⟩ := Option.bind_eq_some_iff.1 hs
    split at hs <;> cases hs
    exact evolves_setW hw hv (fun hij => .same rfl rfl rfl) id

/-- What a watcher had stays there, in front. -/
theorem kept {z : List E} {i : Nat} {s s' : State E} {bs : List (Act E)} {w w' : Watcher E}
    (h : exec mode len s bs = some s') (hw : s.watchers[i]? = some w)
    (hw' : s'.watchers[i]? = some w') (hb : Act.abandon i ∉ bs)
    (hz : (w.orphans = 0 ∧ z <+: w.got ++ w.queue) ∨ z <+: w.got) :
    (w'.orphans = 0 ∧ z <+: w'.got ++ w'.queue) ∨ z <+: w'.got := by
  induction bs generalizing s w with
  | nil =>
    cases h
    rw [hw] at hw'
    cases hw'
    exact hz
  | cons a bs ih =>
    obtain ⟨t, h1, h2⟩ := exec_cons h
    simp only [List.mem_cons, not_or] at hb
    obtain ⟨v, hv, hev, -⟩ := step_evolves h1 hw
    refine ih h2 hv hb.2 ?_
    cases hev with
    | same h1 h2 h3 => rw [h1, h2, h3]; exact hz
    | pushed e ha h1 h2 h3 =>
      rw [h1, h2, h3]
      rcases hz with ⟨ho, hz⟩ | hz
      · exact Or.inl ⟨ho, hz.trans ⟨[e], by simp⟩⟩
      · exact Or.inr hz
    | read e ha h1 h2 h3 =>
      rw [h1, h3]
      rcases hz with ⟨ho, hz⟩ | hz
      · refine Or.inl ⟨ho, ?_⟩
        rw [h2] at hz
        simpa using hz
      · exact Or.inr (hz.trans (List.prefix_append _ _))
    | ended ha hq h1 h2 h3 =>
      rw [h1]
      rcases hz with ⟨ho, hz⟩ | hz
      · rw [hq, List.append_nil] at hz
        exact Or.inr hz
      · exact Or.inr hz
    | abandoned ha h1 h2 => exact absurd ha.symm hb.1
    | lost e ha h1 h2 h3 =>
      rw [h1]
      rcases hz with ⟨ho, hz⟩ | hz
      · omega
      · exact Or.inr hz

end Aiok8s.Mux
