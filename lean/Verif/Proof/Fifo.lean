import Verif.Spec.Fifo
import Verif.Proof.Store
import Mathlib.Data.List.Dedup
import Mathlib.Data.List.Nodup
/-!
# Lemmas for `FIFO` (C21-C23)
-/
set_option linter.unusedSimpArgs false
set_option linter.unusedSectionVars false
namespace Aiok8s.Fifo
open Spec
open Aiok8s.Store (buildItems)
variable {K O : Type} [DecidableEq K]

/-- The two ways an attempt of `pop` can go. -/
theorem popLoop_cases (s : State K O) (r : Outcome) (q : List K) : ∀ d : Nat,
    (∃ pre k rest o, q = pre ++ k :: rest ∧ (∀ j ∈ pre, s.items.get? j = none) ∧
      s.items.get? k = some o ∧
      popLoop s r q d = finish { s with
        queue := rest
        count := s.count - (d + pre.length + 1)
        items := s.items.del k } k o (d + pre.length + 1) r) ∨
    ((∀ j ∈ q, s.items.get? j = none) ∧
      popLoop s r q d = ({ s with queue := [], count := s.count - (d + q.length) },
        if s.closed then .closedError (d + q.length) else .blocked (d + q.length))) := by
  induction q with
  | nil => intro d; right; simp [popLoop]
  | cons k q ih =>
    intro d
    cases hg : s.items.get? k with
    | some o =>
      left
      exact ⟨[], k, q, o, rfl, by simp, hg, by simp [popLoop, hg]⟩
    | none =>
      rcases ih (d + 1) with ⟨pre, j, rest, o, h1, h2, h3, h4⟩ | ⟨h1, h2⟩
      · left
        refine ⟨k :: pre, j, rest, o, by simp [h1], ?_, h3, ?_⟩
        · intro i hi
          rcases List.mem_cons.1 hi with rfl | hi
          · exact hg
          · exact h2 i hi
        · simp only [popLoop, hg, h4, List.length_cons]
          congr 2 <;> first | omega | (congr 1; omega)
      · right
        refine ⟨?_, ?_⟩
        · intro i hi
          rcases List.mem_cons.1 hi with rfl | hi
          · exact hg
          · exact h1 i hi
        · simp only [popLoop, hg, h2, List.length_cons]
          have : d + 1 + q.length = d + (q.length + 1) := by omega
          rw [this]

/-- Every waiting key has a queue entry. -/
structure Inv (s : State K O) (w : Waiting K O) : Prop where
  wf : s.items.WF
  queued : ∀ k ∈ s.items.keys, k ∈ s.queue
  get : ∀ k, s.items.get? k = w k

theorem inv_init : Inv (init : State K O) (fun _ => none) :=
  ⟨PyDict.WF_nil, by simp [init], fun _ => rfl⟩

theorem buildItems_some (key : O → Option K) (os : List O) : ∀ (d items : PyDict K O)
    (w : Waiting K O), d.WF → (∀ k, d.get? k = w k) → buildItems key os d = some items →
    items.WF ∧ ∀ k, items.get? k = os.foldl
      (fun w o => match key o with | some k => put w k (some o) | none => w) w k := by
  induction os with
  | nil =>
    intro d items w hw hg h
    simp only [buildItems, Option.some.injEq] at h
    subst h
    exact ⟨hw, hg⟩
  | cons o os ih =>
    intro d items w hw hg h
    simp only [buildItems] at h
    cases hk : key o with
    | none => simp [hk] at h
    | some k =>
      simp only [hk] at h
      simp only [List.foldl_cons, hk]
      refine ih _ _ _ (PyDict.WF_set hw _ _) ?_ h
      intro j
      rw [PyDict.get?_set]
      simp only [put, hg, eq_comm]

theorem inv_add {s : State K O} {w : Waiting K O} (h : Inv s w) (k : K) (o : O) :
    Inv (add s k o) (put w k (some o)) := by
  refine ⟨PyDict.WF_set h.wf _ _, ?_, ?_⟩
  · intro j hj
    simp only [add] at hj ⊢
    rw [PyDict.mem_keys_set] at hj
    split
    · rename_i hk
      rcases hj with rfl | hj
      · exact h.queued _ (PyDict.has_iff.1 hk)
      · exact h.queued _ hj
    · rcases hj with rfl | hj
      · simp
      · simp [h.queued _ hj]
  · intro j
    simp only [add, PyDict.get?_set, put, h.get, eq_comm]

theorem inv_addIfNotPresent {s : State K O} {w : Waiting K O} (h : Inv s w) (k : K) (o : O) :
    Inv (addIfNotPresent s k o) (if (w k).isSome then w else put w k (some o)) := by
  have hk : s.items.has k = (w k).isSome := by rw [PyDict.has, h.get]
  simp only [addIfNotPresent, hk]
  split
  · exact ⟨h.wf, h.queued, h.get⟩
  · refine ⟨PyDict.WF_set h.wf _ _, ?_, ?_⟩
    · intro j hj
      simp only at hj ⊢
      rw [PyDict.mem_keys_set] at hj
      rcases hj with rfl | hj
      · simp
      · simp [h.queued _ hj]
    · intro j
      simp only [PyDict.get?_set, put, h.get, eq_comm]

theorem inv_popped {s : State K O} {w : Waiting K O} (h : Inv s w) {pre : List K} {k : K}
    {rest : List K} {c : Nat} (hq : s.queue = pre ++ k :: rest)
    (hp : ∀ j ∈ pre, s.items.get? j = none) :
    Inv ({ s with
        queue := rest
        count := c
        items := s.items.del k } : State K O) (put w k none) := by
  refine ⟨PyDict.WF_del h.wf _, ?_, ?_⟩
  · intro j hj
    simp only at hj ⊢
    rw [PyDict.mem_keys_del h.wf] at hj
    have := h.queued j hj.2
    rw [hq] at this
    rcases List.mem_append.1 this with h1 | h1
    · have := hp j h1
      rw [PyDict.get?_eq_none] at this
      exact absurd hj.2 this
    · rcases List.mem_cons.1 h1 with h2 | h2
      · exact absurd h2 hj.1
      · exact h2
  · intro j
    simp only [PyDict.get?_del h.wf, put, h.get, eq_comm]

theorem inv_step {key : O → Option K} {s : State K O} {w : Waiting K O} (h : Inv s w)
    (o : Op K O) : Inv (step key s o).1 (next key w (o, (step key s o).2)) := by
  cases o with
  | add x =>
    simp only [step]
    cases hk : key x with
    | none => exact h
    | some k => simp only [next, hk]; exact inv_add h k x
  | update x =>
    simp only [step]
    cases hk : key x with
    | none => exact h
    | some k => simp only [next, hk]; exact inv_add h k x
  | delete x =>
    simp only [step]
    cases hk : key x with
    | none => exact h
    | some k =>
      simp only [delete]
      split
      · simp only [next, hk]
        refine ⟨PyDict.WF_del h.wf _, ?_, ?_⟩
        · intro j hj
          simp only at hj ⊢
          rw [PyDict.mem_keys_del h.wf] at hj
          exact h.queued j hj.2
        · intro j
          simp only [PyDict.get?_del h.wf, put, h.get, eq_comm]
      · exact ⟨h.wf, h.queued, h.get⟩
  | list => exact h
  | listKeys => exact h
  | get x =>
    simp only [step]
    cases hk : key x with
    | none => exact h
    | some k => exact h
  | getByKey k => exact h
  | replace os =>
    simp only [step]
    cases hb : buildItems key os [] with
    | none => exact h
    | some items =>
      obtain ⟨h1, h2⟩ := buildItems_some key os [] items (fun _ => none) PyDict.WF_nil
        (fun _ => rfl) hb
      exact ⟨h1, fun k hk => hk, h2⟩
  | resync =>
    exact ⟨h.wf, fun k hk => List.mem_append_left _ (h.queued k hk), h.get⟩
  | pop r =>
    simp only [step]
    rcases popLoop_cases s r s.queue 0 with ⟨pre, k, rest, o, h1, h2, h3, h4⟩ | ⟨h1, h2⟩
    · rw [h4]
      have hp := inv_popped h (c := s.count - (0 + pre.length + 1)) h1 h2
      cases r with
      | ok => exact hp
      | error => exact hp
      | requeue c =>
        simp only [finish, next]
        have := inv_addIfNotPresent hp k o
        have hwk : w k = some o := by rw [← h.get]; exact h3
        have e : (if ((put w k none) k).isSome then put w k none else put (put w k none) k (some o))
            = w := by
          funext j
          by_cases hj : j = k
          · subst hj; simp [put, hwk]
          · simp [put, hj]
        rwa [e] at this
    · rw [h2]
      have hi : ∀ k ∈ s.items.keys, False := by
        intro k hk
        have := h1 k (h.queued k hk)
        rw [PyDict.get?_eq_none] at this
        exact this hk
      have e : next key w (.pop r, if s.closed then .closedError (0 + s.queue.length)
          else .blocked (0 + s.queue.length)) = w := by
        cases r <;> split <;> rfl
      simp only [e]
      exact ⟨h.wf, fun k hk => (hi k hk).elim, h.get⟩
  | addIfNotPresent x =>
    simp only [step]
    cases hk : key x with
    | none => exact h
    | some k => simp only [next, hk]; exact inv_addIfNotPresent h k x
  | hasSynced => exact h
  | close => exact ⟨h.wf, h.queued, h.get⟩
  | isClosed => exact h

theorem inv_exec (key : O → Option K) (os : List (Op K O)) : ∀ {s : State K O} {w : Waiting K O},
    Inv s w → Inv (exec key s os) ((trace key s os).foldl (next key) w) := by
  induction os with
  | nil => intro s w h; exact h
  | cons o os ih => intro s w h; exact ih (inv_step h o)

theorem exec_append (key : O → Option K) (as bs : List (Op K O)) : ∀ s : State K O,
    exec key s (as ++ bs) = exec key (exec key s as) bs := by
  induction as with
  | nil => intro s; rfl
  | cons a as ih => intro s; exact ih _

theorem trace_append (key : O → Option K) (as bs : List (Op K O)) : ∀ s : State K O,
    trace key s (as ++ bs) = trace key s as ++ trace key (exec key s as) bs := by
  induction as with
  | nil => intro s; rfl
  | cons a as ih => intro s; simp [trace, exec, ih]

/-- A waiting key moves forward with every `pop` until it is handed over. -/
theorem progress {key : O → Option K} {s : State K O} {w : Waiting K O} (h : Inv s w) (k : K)
    (hk : k ∈ s.items.keys) (n : Nat) (hn : k ∈ s.queue.take n) (o : Op K O)
    (hc : ¬ Clears key k o) :
    Hands k (o, (step key s o).2) ∨
    (k ∈ (step key s o).1.items.keys ∧
      k ∈ (step key s o).1.queue.take (n - dropped [(o, (step key s o).2)]) ∧
      (isPop o = true → 1 ≤ dropped [(o, (step key s o).2)])) := by
  have happ : ∀ l : List K, k ∈ (s.queue ++ l).take n := by
    intro l
    rw [List.take_append]
    exact List.mem_append_left _ hn
  have hadd : ∀ x : K × O, k ∈ (add s x.1 x.2 : State K O).items.keys ∧
      k ∈ (add s x.1 x.2 : State K O).queue.take n := by
    intro x
    refine ⟨?_, ?_⟩
    · simp only [add]; rw [PyDict.mem_keys_set]; exact Or.inr hk
    · simp only [add]; split
      · exact hn
      · exact happ _
  have haip : ∀ x : K × O, k ∈ (addIfNotPresent s x.1 x.2 : State K O).items.keys ∧
      k ∈ (addIfNotPresent s x.1 x.2 : State K O).queue.take n := by
    intro x
    simp only [addIfNotPresent]
    split
    · exact ⟨hk, hn⟩
    · refine ⟨?_, happ _⟩
      simp only; rw [PyDict.mem_keys_set]; exact Or.inr hk
  cases o with
  | add x =>
    right
    simp only [step]
    cases hx : key x with
    | none => exact ⟨hk, hn, nofun⟩
    | some j => exact ⟨(hadd (j, x)).1, (hadd (j, x)).2, nofun⟩
  | update x =>
    right
    simp only [step]
    cases hx : key x with
    | none => exact ⟨hk, hn, nofun⟩
    | some j => exact ⟨(hadd (j, x)).1, (hadd (j, x)).2, nofun⟩
  | delete x =>
    right
    simp only [step]
    cases hx : key x with
    | none => exact ⟨hk, hn, nofun⟩
    | some j =>
      have hjk : k ≠ j := by
        rintro rfl
        exact hc hx
      simp only [delete]
      split
      · refine ⟨?_, hn, nofun⟩
        simp only; rw [PyDict.mem_keys_del h.wf]; exact ⟨hjk, hk⟩
      · exact ⟨hk, hn, nofun⟩
  | list => right; exact ⟨hk, hn, nofun⟩
  | listKeys => right; exact ⟨hk, hn, nofun⟩
  | get x =>
    right
    simp only [step]
    cases hx : key x <;> exact ⟨hk, hn, nofun⟩
  | getByKey j => right; exact ⟨hk, hn, nofun⟩
  | replace os => exact (hc trivial).elim
  | resync => right; exact ⟨hk, happ _, nofun⟩
  | addIfNotPresent x =>
    right
    simp only [step]
    cases hx : key x with
    | none => exact ⟨hk, hn, nofun⟩
    | some j => exact ⟨(haip (j, x)).1, (haip (j, x)).2, nofun⟩
  | hasSynced => right; exact ⟨hk, hn, nofun⟩
  | close => right; exact ⟨hk, hn, nofun⟩
  | isClosed => right; exact ⟨hk, hn, nofun⟩
  | pop r =>
    simp only [step]
    have hsome : s.items.get? k ≠ none := by
      rw [ne_eq, PyDict.get?_eq_none]; exact fun h => h hk
    rcases popLoop_cases s r s.queue 0 with ⟨pre, j, rest, o, h1, h2, h3, h4⟩ | ⟨h1, h2⟩
    · rw [h4]
      by_cases hjk : j = k
      · subst hjk
        left
        cases r <;> simp [finish, Hands]
      · right
        have hnp : k ∉ pre := fun hp => hsome (h2 k hp)
        have hr : k ∈ rest.take (n - (0 + pre.length + 1)) := by
          rw [h1] at hn
          have : (pre ++ j :: rest).take n
              = pre.take n ++ (j :: rest).take (n - pre.length) := List.take_append
          rw [this] at hn
          rcases List.mem_append.1 hn with hn | hn
          · exact absurd (List.mem_of_mem_take hn) hnp
          · cases hm : n - pre.length with
            | zero => rw [hm] at hn; simp at hn
            | succ m =>
              rw [hm, List.take_succ_cons] at hn
              rcases List.mem_cons.1 hn with hn | hn
              · exact absurd hn.symm hjk
              · have : n - (0 + pre.length + 1) = m := by omega
                rw [this]; exact hn
        have hdel : k ∈ (s.items.del j).keys := by
          rw [PyDict.mem_keys_del h.wf]; exact ⟨fun e => hjk e.symm, hk⟩
        cases r with
        | ok => exact ⟨hdel, hr, fun _ => by simp [dropped, finish]⟩
        | error => exact ⟨hdel, hr, fun _ => by simp [dropped, finish]⟩
        | requeue c =>
          simp only [finish, addIfNotPresent]
          split
          · exact ⟨hdel, hr, fun _ => by simp [dropped, finish]⟩
          · refine ⟨?_, ?_, fun _ => by simp [dropped, finish]⟩
            · simp only; rw [PyDict.mem_keys_set]; exact Or.inr hdel
            · simp only; rw [List.take_append]; exact List.mem_append_left _ hr
    · exact absurd (h1 k (List.mem_of_mem_take hn)) hsome

/-- Entries taken off and the counter. -/
theorem count_step {key : O → Option K} (s : State K O) (o : Op K O) (hp : s.populated = true) :
    (step key s o).1.populated = true ∧
    (step key s o).1.count = s.count - dropped [(o, (step key s o).2)] := by
  have ha : ∀ x : K × O, (add s x.1 x.2 : State K O).populated = true ∧
      (add s x.1 x.2 : State K O).count = s.count := fun x => ⟨rfl, rfl⟩
  have hb : ∀ (s : State K O) (x : K × O), s.populated = true →
      (addIfNotPresent s x.1 x.2 : State K O).populated = true ∧
      (addIfNotPresent s x.1 x.2 : State K O).count = s.count := by
    intro s x hp; simp only [addIfNotPresent]; split <;> exact ⟨rfl, rfl⟩
  cases o with
  | add x => simp only [step]; cases key x <;> simp [dropped, hp, add]
  | update x => simp only [step]; cases key x <;> simp [dropped, hp, add]
  | delete x =>
    simp only [step]
    cases key x with
    | none => simp [dropped, hp]
    | some k => simp only [delete]; split <;> simp [dropped]
  | list => simp [step, dropped, hp]
  | listKeys => simp [step, dropped, hp]
  | get x => simp only [step]; cases key x <;> simp [dropped, hp]
  | getByKey k => simp [step, dropped, hp]
  | replace os =>
    simp only [step]; cases buildItems key os [] <;> simp [dropped, hp, replace]
  | resync => simp [step, dropped, hp, resync]
  | addIfNotPresent x =>
    simp only [step]
    cases key x with
    | none => simp [dropped, hp]
    | some k => simpa [dropped] using hb s (k, x) hp
  | hasSynced => simp [step, dropped, hp]
  | close => simp [step, dropped, hp]
  | isClosed => simp [step, dropped, hp]
  | pop r =>
    simp only [step]
    rcases popLoop_cases s r s.queue 0 with ⟨pre, j, rest, o, h1, h2, h3, h4⟩ | ⟨h1, h2⟩
    · rw [h4]
      cases r with
      | ok => simp [finish, dropped, hp]
      | error => simp [finish, dropped, hp]
      | requeue c =>
        have := hb { s with
          queue := rest
          count := s.count - (0 + pre.length + 1)
          items := s.items.del j } (j, o) hp
        simpa [finish, dropped] using this
    · rw [h2]
      simp only [hp, true_and]
      split <;> simp [dropped]

theorem dropped_append (a b : List (Op K O × Out K O)) : dropped (a ++ b) = dropped a + dropped b := by
  induction a with
  | nil => simp [dropped]
  | cons e a ih =>
    obtain ⟨o, r⟩ := e
    cases r <;> simp [dropped, ih, Nat.add_assoc]

theorem count_exec (key : O → Option K) (os : List (Op K O)) : ∀ s : State K O,
    s.populated = true → (exec key s os).populated = true ∧
    (exec key s os).count = s.count - dropped (trace key s os) := by
  induction os with
  | nil => intro s h; simp [exec, trace, dropped, h]
  | cons o os ih =>
    intro s h
    obtain ⟨h1, h2⟩ := count_step (key := key) s o h
    obtain ⟨h3, h4⟩ := ih _ h1
    refine ⟨h3, ?_⟩
    have : trace key s (o :: os) = [(o, (step key s o).2)] ++ trace key (step key s o).1 os := rfl
    rw [this, dropped_append]
    simp only [exec]
    rw [h4, h2]; omega

end Aiok8s.Fifo
