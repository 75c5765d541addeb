import Verif.Proof.DeltaFifo
import Verif.Proof.Monitor
import Mathlib.Data.List.Perm.Subperm
/-!
# Properties C24-C28 and the DeltaFIFO half of C23 (`aiok8s/cache/delta_fifo.py`)
-/
set_option linter.unusedSimpArgs false
set_option linter.unusedSectionVars false
namespace Aiok8s.DeltaFifo
open Spec
variable {K O : Type} [DecidableEq K]

/-- the key function used in the examples: keys from 100 on cannot be formed -/
def exKey (o : Nat × Nat) : Option Nat := if o.1 < 100 then some o.1 else none

/-- a store used in the examples: it knows the objects with keys 1 and 7, lists 8 without
knowing it and fails when asked for 9 -/
def exKnown : Known Nat (Nat × Nat) where
  keys := [1, 7, 8, 9]
  get k := if k = 1 then some (some (.real (1, 10))) else if k = 7 then some (some (.real (7, 70)))
    else if k = 9 then none else some none

/-- The log of the calls `os` made on a new queue. -/
def log (key : O → Option K) (os : List (Op K O)) : List (Entry K O) :=
  logOf key (trace key init os)

theorem sim (key : O → Option K) (os : List (Op K O)) :
    Sim key (exec key init os) (log key os) := sim_exec key os (sim_init key)

theorem log_snoc (key : O → Option K) (os : List (Op K O)) (o : Op K O) :
    log key (os ++ [o]) =
      log key os ++ entries key (log key os) (o, (step key (exec key init os) o).2) := by
  rw [log, trace_append]
  exact logOf_snoc key _ _

theorem exec_snoc (key : O → Option K) (os : List (Op K O)) (o : Op K O) :
    exec key init (os ++ [o]) = (step key (exec key init os) o).1 := by
  rw [exec_append]; rfl

/-- `get_by_key` shows what the log says is pending. -/
theorem shows (key : O → Option K) (os : List (Op K O)) (k : K) :
    (step key (exec key init os) (.getByKey k)).2 =
      .deltas (if pendingOf k (log key os) = [] then none else some (pendingOf k (log key os))) := by
  simp only [step, getByKey, (sim key os).get]

/-- What `get_by_key` shows for `k` after the calls `os` (nothing pending: `[]`). -/
def shown (key : O → Option K) (os : List (Op K O)) (k : K) : Deltas K O :=
  match (step key (exec key init os) (.getByKey k)).2 with
  | .deltas d => d.getD []
  | _ => []

theorem shown_eq (key : O → Option K) (os : List (Op K O)) (k : K) :
    shown key os k = pendingOf k (log key os) := by
  rw [shown, shows]
  by_cases h : pendingOf k (log key os) = []
  · simp [h]
  · simp [h]

/-! ## C24 -/

/-- **C24.** After any history the keys shown by `list_keys` are the keys with unpopped changes,
each once, ordered by the age of their first unpopped change. -/
theorem C24_keys_once_in_order (key : O → Option K) (os : List (Op K O)) :
    ∃ ks, (step key (exec key init os) .listKeys).2 = .keys ks ∧ ks.Nodup ∧
      (∀ k, k ∈ ks ↔ pendingOf k (log key os) ≠ []) ∧
      (∀ k, k ∈ ks ↔ 0 < age k (log key os)) ∧
      ks.Pairwise (fun a b => age b (log key os) < age a (log key os)) := by
  have h := sim key os
  have hk : (exec key init os).items.keys = orderOf (log key os) := by
    rw [h.order, h.queue]
  refine ⟨_, rfl, h.wf, h.mem, ?_, ?_⟩
  · rw [hk]; exact (order_age _).2
  · rw [hk]; exact (order_age _).1

/-- **C24.** `pop` takes the first of these keys, with all its pending changes, and never skips
an entry; if there is none it sleeps or, on a closed queue, raises. -/
theorem C24_pop_first (key : O → Option K) (os : List (Op K O)) (r : Outcome) :
    (∃ k ks e, (step key (exec key init os) .listKeys).2 = .keys (k :: ks) ∧
      (step key (exec key init os) (.pop r)).2 = .popped k (pendingOf k (log key os)) e 0 ∧
      pendingOf k (log key os) ≠ []) ∨
    ((step key (exec key init os) .listKeys).2 = .keys [] ∧
      (step key (exec key init os) (.pop r)).2 =
        if (exec key init os).closed then .closedError else .blocked) := by
  have h := sim key os
  simp only [step]
  rw [← h.queue]
  rcases pop_cases h r with ⟨h1, h2⟩ | ⟨k, rest, hq, hp, h2⟩
  · right
    rw [h2]
    exact ⟨by rw [h1], rfl⟩
  · left
    rw [h2]
    refine ⟨k, rest, ?_⟩
    cases r with
    | ok => exact ⟨.returned, by rw [hq], rfl, hp⟩
    | error => exact ⟨.processError, by rw [hq], rfl, hp⟩
    | cancelled => exact ⟨.cancelled, by rw [hq], rfl, hp⟩
    | requeue c => cases c
                   · exact ⟨.returned, by rw [hq], rfl, hp⟩
                   · exact ⟨.processError, by rw [hq], rfl, hp⟩

/-- non-vacuity: 2 was changed first, then 1, then 2 again; 3 was popped and changed anew -/
example : (trace exKey init [.add (.real (3, 0)), .add (.real (2, 0)), .update (.real (1, 0)),
      .update (.real (2, 1)), .pop .ok, .add (.real (3, 1)), .listKeys, .pop .ok]).drop 6
    = [(.listKeys, .keys [2, 1, 3]),
       (.pop .ok, .popped 2 [⟨.added, .real (2, 0)⟩, ⟨.updated, .real (2, 1)⟩] .returned 0)] ∧
    [2, 1, 3].map (fun k => age k (log exKey [.add (.real (3, 0)), .add (.real (2, 0)),
      .update (.real (1, 0)), .update (.real (2, 1)), .pop .ok, .add (.real (3, 1))]))
      = [5, 4, 1] := by
  constructor
  · rfl
  · rfl

/-! ## C25 -/

/-- **C25.** What `pop` hands over for a key is what the log says is pending for it. -/
theorem C25_popped_is_pending (key : O → Option K) (os : List (Op K O)) (r : Outcome) (k : K)
    (ds : Deltas K O) (e : PopEnd) (n : Nat)
    (h : (step key (exec key init os) (.pop r)).2 = .popped k ds e n) :
    ds = pendingOf k (log key os) ∧ ds ≠ [] := by
  rcases C24_pop_first key os r with ⟨k', ks, e', -, h2, h3⟩ | ⟨-, h2⟩
  · rw [h2] at h
    simp only [Out.popped.injEq] at h
    obtain ⟨rfl, rfl, -⟩ := h
    exact ⟨rfl, h3⟩
  · rw [h2] at h
    split at h <;> simp at h

/-- **C25.** `get_by_key` shows the same. -/
theorem C25_get_shows_pending (key : O → Option K) (os : List (Op K O)) (k : K) :
    (step key (exec key init os) (.getByKey k)).2 =
      .deltas (if pendingOf k (log key os) = [] then none else some (pendingOf k (log key os))) :=
  shows key os k

private theorem newest_of {P : K → Obj K O → Prop} {items : List (K × Deltas K O)}
    (h : ∀ p ∈ items, ∃ d, p.2.getLast? = some d ∧ P p.1 d.object) :
    ∃ xs, newestObjects (items.map Prod.snd) = some xs ∧ List.Forall₂ P (items.map Prod.fst) xs := by
  induction items with
  | nil => exact ⟨[], rfl, .nil⟩
  | cons p items ih =>
    obtain ⟨xs, h1, h2⟩ := ih fun q hq => h q (List.mem_cons_of_mem _ hq)
    obtain ⟨d, h3, h4⟩ := h p List.mem_cons_self
    refine ⟨d.object :: xs, ?_, .cons h4 h2⟩
    simp only [List.map_cons, newestObjects, h3, h1]

/-- **C25.** `list` does not raise: it gives for each key of `list_keys`, in the same order, the object of
the newest pending change. -/
theorem C25_list (key : O → Option K) (os : List (Op K O)) :
    ∃ ks xs, (step key (exec key init os) .listKeys).2 = .keys ks ∧
      (step key (exec key init os) .list).2 = .objs xs ∧
      List.Forall₂ (fun k x => ∃ d, (pendingOf k (log key os)).getLast? = some d ∧ x = d.object) ks xs := by
  have h := sim key os
  obtain ⟨xs, h1, h2⟩ := newest_of (items := (exec key init os).items)
    (P := fun k x => ∃ d, (pendingOf k (log key os)).getLast? = some d ∧ x = d.object) (by
      rintro ⟨k, ds⟩ hp
      have hg := PyDict.mem_get? h.wf hp
      rw [h.get] at hg
      split at hg
      · simp at hg
      · rename_i hne
        simp only [Option.some.injEq] at hg
        rw [← hg]
        exact ⟨_, List.getLast?_eq_some_getLast hne, _, List.getLast?_eq_some_getLast hne, rfl⟩)
  refine ⟨_, xs, rfl, ?_, h2⟩
  simp only [step, PyDict.values, h1]

/-- `list` on an object that was changed and one that is deleted. -/
example : (step exKey (exec exKey init [.add (.real (2, 1)), .add (.real (1, 1)), .update (.real (2, 5)),
    .delete none (.real (1, 1))]) .list).2 = .objs [.real (2, 5), .real (1, 1)] := by decide

/-- The changes of one key in a log. -/
def changesOf (k : K) : List (Entry K O) → List (Delta K O)
  | [] => []
  | .change j d :: l => if j = k then d :: changesOf k l else changesOf k l
  | _ :: l => changesOf k l

/-- **C25.** What is shown (and popped next) for a key are the changes recorded since its last
pop, or since the beginning, in order, merged one after the other (unless something was put back
meanwhile). -/
theorem C25_since_last_pop (key : O → Option K) (os : List (Op K O)) (k : K)
    (l1 l2 : List (Entry K O))
    (hlog : log key os = l1 ++ .popped k :: l2 ∨ log key os = l2)
    (hpop : ∀ e ∈ l2, e ≠ .popped k) (hback : ∀ e ∈ l2, ∀ ds, e ≠ .putBack k ds) :
    shown key os k = (changesOf k l2).foldl merge [] := by
  have H : ∀ (l2 : List (Entry K O)) (ds : Deltas K O), (∀ e ∈ l2, e ≠ .popped k) →
      (∀ e ∈ l2, ∀ ds, e ≠ .putBack k ds) →
      l2.foldl (pendStep k) ds = (changesOf k l2).foldl merge ds := by
    intro l2
    induction l2 with
    | nil => intro ds _ _; rfl
    | cons e l2 ih =>
      intro ds h1 h2
      have h1' := fun e he => h1 e (List.mem_cons_of_mem _ he)
      have h2' := fun e he => h2 e (List.mem_cons_of_mem _ he)
      simp only [List.foldl_cons]
      rw [ih _ h1' h2']
      cases e with
      | change j d =>
        simp only [pendStep, changesOf]
        by_cases hj : j = k
        · simp [hj]
        · simp [hj]
      | popped j =>
        have hj : j ≠ k := fun e => h1 _ (List.mem_cons_self ..) (by rw [e])
        simp [pendStep, changesOf, hj]
      | putBack j ds' =>
        have hj : j ≠ k := fun e => h2 _ (List.mem_cons_self ..) ds' (by rw [e])
        simp [pendStep, changesOf, hj]
  rw [shown_eq]
  rcases hlog with hlog | hlog
  · rw [hlog, pendingOf_append]
    simp only [List.foldl_cons, pendStep, if_true]
    exact H l2 [] hpop hback
  · rw [hlog]
    exact H l2 [] hpop hback

/-- **C25.** `add` and `update` always append their change for the key. -/
theorem C25_add_appends (key : O → Option K) (os : List (Op K O)) (x : Obj K O) (k : K)
    (hk : keyOf key x = some k) (j : K) :
    (shown key (os ++ [.add x]) j =
      if j = k then shown key os k ++ [⟨.added, x⟩] else shown key os j) ∧
    (shown key (os ++ [.update x]) j =
      if j = k then shown key os k ++ [⟨.updated, x⟩] else shown key os j) := by
  have hm : ∀ (ds : Deltas K O) (t : DType), t ≠ .sync → t ≠ .deleted →
      merge ds ⟨t, x⟩ = ds ++ [⟨t, x⟩] := by
    intro ds t h1 h2
    unfold merge
    cases hl : ds.getLast? with
    | none => simp at hl; simp [hl]
    | some l => simp [h1, h2]
  simp only [shown_eq, log_snoc, entries, hk, pendingOf_change]
  constructor
  · by_cases hj : k = j
    · subst hj; simp [hm]
    · simp [hj, Ne.symm hj]
  · by_cases hj : k = j
    · subst hj; simp [hm]
    · simp [hj, Ne.symm hj]

/-- The merge rule spelled out: merging appends the change, except that behind a deletion a Sync is dropped and a
second deletion replaces the first one if that has no real object and is dropped otherwise. -/
theorem merge_spec (ds : Deltas K O) (d : Delta K O) :
    (¬ (∃ l, ds.getLast? = some l ∧ l.type = .deleted ∧ (d.type = .sync ∨ d.type = .deleted)) →
      merge ds d = ds ++ [d]) ∧
    (∀ ds' o, ds = ds' ++ [⟨.deleted, o⟩] →
      (d.type = .sync → merge ds d = ds) ∧
      (d.type = .deleted → (∃ x, o = .real x) → merge ds d = ds) ∧
      (d.type = .deleted → (¬ ∃ x, o = .real x) → merge ds d = ds' ++ [d])) := by
  constructor
  · intro h
    unfold merge
    cases hl : ds.getLast? with
    | none => simp at hl; simp [hl]
    | some l =>
      simp only [hl, Option.some.injEq, exists_eq_left', not_and_or, not_or] at h
      simp only
      rw [if_neg, if_neg]
      · rintro ⟨a, b⟩
        rcases h with h | h
        · exact h a
        · exact h.2 b
      · rintro ⟨a, b⟩
        rcases h with h | h
        · exact h a
        · exact h.1 b
  · rintro ds' o rfl
    refine ⟨?_, ?_, ?_⟩
    · intro h; simp [merge, h]
    · rintro h ⟨x, rfl⟩; simp [merge, h]
    · intro h hx
      cases o with
      | real x => exact absurd ⟨x, rfl⟩ hx
      | gone j => simp [merge, h]
      | goneWith j x => simp [merge, h]

/-- non-vacuity: a deletion by relist and one by watch event are merged, a Sync behind them is
dropped -/
example : (trace exKey init [.add (.real (1, 10)), .replace none [], .delete none (.real (1, 11)),
      .replace none [.real (1, 12)], .pop .ok]).getLast?
    = some (.pop .ok, .popped 1 [⟨.added, .real (1, 10)⟩, ⟨.deleted, .real (1, 11)⟩]
        .returned 0) := rfl

private theorem keysOf_all (key : O → Option K) (xs : List (Obj K O)) : ∀ keys,
    keysOf key xs = some keys → ∀ x ∈ xs, (keyOf key x).isSome = true := by
  induction xs with
  | nil => intro keys _ x hx; cases hx
  | cons y xs ih =>
    intro keys h x hx
    rw [keysOf_cons] at h
    cases hy : keyOf key y with
    | none => simp [hy] at h
    | some j =>
      simp only [hy, Option.map_eq_some_iff] at h
      obtain ⟨ks, h1, -⟩ := h
      rcases List.mem_cons.1 hx with rfl | hx
      · simp [hy]
      · exact ih ks h1 x hx

/-- What a call that changes the queue answers. -/
def Answers (key : O → Option K) : Op K O → Out K O → Prop
  | .add x, a | .update x, a | .delete _ x, a => a = if (keyOf key x).isSome then .ok else .keyFunc
  | .replace _ xs, a => a = if xs.all fun x => (keyOf key x).isSome then .ok else .keyFunc
  | .resync none, a | .close, a => a = .ok
  | .resync (some kn), a => (a = .ok ∧ ∀ k ∈ kn.keys, ∀ x, knownState kn k = some x → (keyOf key x).isSome) ∨
    (a = .keyFunc ∧ ∃ k ∈ kn.keys, ∃ x, knownState kn k = some x ∧ keyOf key x = none)
  | .addIfNotPresent ds, a => a = match ds.getLast? with
    | none => .attributeError
    | some d => if (keyOf key d.object).isSome then .ok else .keyFunc
  | _, _ => True

private theorem resync_answer (key : O → Option K) (kn : Known K O) (ks : List K) : ∀ (s : State K O),
    ((resyncKeys key kn s ks).2 = .ok ∧ ∀ k ∈ ks, ∀ x, knownState kn k = some x → (keyOf key x).isSome) ∨
    ((resyncKeys key kn s ks).2 = .keyFunc ∧ ∃ k ∈ ks, ∃ x, knownState kn k = some x ∧ keyOf key x = none) := by
  induction ks with
  | nil => intro s; exact Or.inl ⟨rfl, by simp⟩
  | cons k ks ih =>
    intro s
    have more : ∀ t : State K O, (∀ x, knownState kn k = some x → (keyOf key x).isSome) →
        ((resyncKeys key kn t ks).2 = .ok ∧
          ∀ j ∈ k :: ks, ∀ x, knownState kn j = some x → (keyOf key x).isSome) ∨
        ((resyncKeys key kn t ks).2 = .keyFunc ∧
          ∃ j ∈ k :: ks, ∃ x, knownState kn j = some x ∧ keyOf key x = none) := by
      intro t hk
      rcases ih t with ⟨h1, h2⟩ | ⟨h1, j, hj, h2⟩
      · refine Or.inl ⟨h1, fun j hj => ?_⟩
        rcases List.mem_cons.1 hj with rfl | hj
        · exact hk
        · exact h2 j hj
      · exact Or.inr ⟨h1, j, List.mem_cons_of_mem _ hj, h2⟩
    simp only [resyncKeys]
    rcases hg : kn.get k with _ | (_ | x)
    · exact more s (by simp [knownState, hg])
    · exact more s (by simp [knownState, hg])
    · simp only
      cases hx : keyOf key x with
      | none => exact Or.inr ⟨rfl, k, by simp, x, by simp [knownState, hg], hx⟩
      | some id =>
        have hk : ∀ y, knownState kn k = some y → (keyOf key y).isSome := by
          intro y hy
          simp only [knownState, hg, Option.some.injEq] at hy
          subst hy
          simp [hx]
        simp only
        split
        · exact more _ hk
        · exact more _ hk

/-- **C25.** A call that changes the queue raises exactly if an object it has to look at has no key. -/
theorem C25_answers (key : O → Option K) (os : List (Op K O)) (o : Op K O) :
    Answers key o (step key (exec key init os) o).2 := by
  have hs := sim key os
  generalize exec key init os = s at hs
  have hq : ∀ t x, (queueAction key { s with populated := true } t x).2 = (keyOf key x).isSome := by
    intro t x
    cases hk : keyOf key x with
    | none => simp [queueAction, hk]
    | some k => exact (sim_queueAction (hs.congr (t := { s with populated := true }) rfl rfl) t x k hk).1
  cases o with
  | add x | update x => simp [Answers, step, hq]
  | delete kn x =>
    simp only [Answers, step, delete]
    cases keyOf key x with
    | none => rfl
    | some k => simp only; split <;> rfl
  | replace kn xs =>
    simp only [Answers, step]
    obtain ⟨-, -, h1, h2⟩ := sim_replace hs kn xs .ok
    by_cases hx : ∀ x ∈ xs, (keyOf key x).isSome = true
    · obtain ⟨keys, hk⟩ := keysOf_isSome key xs hx
      rw [(h2 keys hk).1, if_pos (List.all_eq_true.2 hx)]
    · have hk : keysOf key xs = none := by
        cases hk : keysOf key xs with
        | none => rfl
        | some keys => exact absurd (keysOf_all key xs keys hk) hx
      rw [(h1 hk).1, if_neg fun h => hx (List.all_eq_true.1 h)]
  | resync kn =>
    cases kn with
    | none => rfl
    | some kn => exact resync_answer key kn kn.keys s
  | addIfNotPresent ds =>
    simp only [Answers, step]
    cases ds.getLast? with
    | none => rfl
    | some d => simp only; cases keyOf key d.object <;> rfl
  | close => rfl
  | _ => trivial

/-- Each of the calls with and without key. -/
example : (trace exKey init [.add (.real (1, 1)), .update (.real (100, 0)), .delete none (.real (1, 0)),
    .delete none (.real (100, 0)), .replace none [.real (2, 0), .real (100, 0)], .addIfNotPresent [],
    .addIfNotPresent [⟨.added, .real (3, 3)⟩]]).map (·.2) =
    [.ok, .keyFunc, .ok, .keyFunc, .keyFunc, .attributeError, .ok] := by decide

/-! ## C26 -/

/-- **C26.** `replace(list)` with a store: for every key what is pending afterwards is what was
pending, followed by
* if the key is listed: a Sync for each listed object with that key,
* if it is not listed, but known to the store: a deletion with the last state in the store,
* otherwise nothing. -/
theorem C26_replace_known (key : O → Option K) (os : List (Op K O)) (kn : Known K O)
    (xs : List (Obj K O)) (hx : ∀ x ∈ xs, (keyOf key x).isSome) (hn : kn.keys.Nodup) (k : K) :
    shown key (os ++ [(.replace (some kn) xs)]) k =
      if ∃ x ∈ xs, keyOf key x = some k then
        (xs.filter fun x => keyOf key x = some k).foldl (fun ds x => merge ds ⟨.sync, x⟩)
          (shown key os k)
      else if k ∈ kn.keys then
        merge (shown key os k) ⟨.deleted, marker k (knownState kn k)⟩
      else shown key os k := by
  simp only [shown_eq, log_snoc]
  exact pendingOf_replace_known key _ kn xs hx hn k _

/-- **C26.** The same without a store; the pending keys that are not listed get a deletion with
the state of their newest change. -/
theorem C26_replace_pending (key : O → Option K) (os : List (Op K O))
    (xs : List (Obj K O)) (hx : ∀ x ∈ xs, (keyOf key x).isSome) (k : K) :
    shown key (os ++ [(.replace none xs)]) k =
      if ∃ x ∈ xs, keyOf key x = some k then
        (xs.filter fun x => keyOf key x = some k).foldl (fun ds x => merge ds ⟨.sync, x⟩)
          (shown key os k)
      else if shown key os k ≠ [] then
        merge (shown key os k) ⟨.deleted, marker k ((shown key os k).getLast?.map (·.object))⟩
      else [] := by
  obtain ⟨keys, hk⟩ := keysOf_isSome key xs hx
  have hm := keysOf_mem key xs keys hk k
  have h := sim key os
  have hno : (orderOf (log key os)).Nodup := by rw [h.order, h.queue]; exact h.wf
  have hin : k ∈ orderOf (log key os) ↔ pendingOf k (log key os) ≠ [] := by
    rw [h.order, h.queue]; exact h.mem k
  simp only [shown_eq]
  rw [log_snoc]
  simp only [entries, hk, vanished]
  rw [← List.append_assoc, pendingOf_changes k _ _ _ (hno.filter _), pendingOf_syncs key k xs _ hx]
  simp only [List.mem_filter, decide_eq_true_eq, hin]
  by_cases hl : ∃ x ∈ xs, keyOf key x = some k
  · rw [if_pos hl, if_neg (fun h => h.2 (hm.2 hl))]
  · have he : (xs.filter fun x => keyOf key x = some k) = [] := by
      rw [List.filter_eq_nil_iff]
      intro x hx2 hx3
      exact hl ⟨x, hx2, by simpa using hx3⟩
    rw [if_neg hl, he]
    simp only [List.foldl_nil, mt hm.1 hl, not_false_eq_true, and_true]
    by_cases hp : pendingOf k (log key os) = []
    · simp [hp, pendingState]
    · simp [hp, pendingState]

/-- **C26.** So the newest pending change of a vanished object is a deletion: with the state
last known to the store, unless one with a real object was pending already. -/
theorem C26_vanished_newest (key : O → Option K) (os : List (Op K O)) (kn : Known K O)
    (xs : List (Obj K O)) (hx : ∀ x ∈ xs, (keyOf key x).isSome) (hn : kn.keys.Nodup) (k : K)
    (hk : k ∈ kn.keys) (hno : ∀ x ∈ xs, keyOf key x ≠ some k) :
    ∃ ds d, (step key (exec key init (os ++ [.replace (some kn) xs])) (.getByKey k)).2
        = .deltas (some (ds ++ [d])) ∧
      d.type = .deleted ∧
      (d.object = marker k (knownState kn k) ∨
        (∃ o, d.object = .real o) ∧ (shown key os k).getLast? = some d) := by
  rw [shows]
  have := C26_replace_known key os kn xs hx hn k
  rw [if_neg (fun ⟨x, h1, h2⟩ => hno x h1 h2), if_pos hk] at this
  simp only [shown_eq] at this ⊢
  rw [this, if_neg (merge_ne_nil _ _)]
  unfold merge
  cases hl : (pendingOf k (log key os)).getLast? with
  | none => exact ⟨[], _, rfl, rfl, Or.inl rfl⟩
  | some l =>
    simp only
    rw [if_neg (by simp)]
    by_cases hd : l.type = .deleted
    · rw [if_pos ⟨hd, trivial⟩]
      cases ho : l.object with
      | real o => exact ⟨_, l, rfl, hd, Or.inr ⟨⟨o, ho⟩, rfl⟩⟩
      | gone j => exact ⟨_, _, rfl, rfl, Or.inl rfl⟩
      | goneWith j x => exact ⟨_, _, rfl, rfl, Or.inl rfl⟩
    · rw [if_neg (fun h => hd h.1)]
      exact ⟨_, _, rfl, rfl, Or.inl rfl⟩

/-- **C26.** `delete(x)` records nothing if the object is neither known nor pending, otherwise
one deletion for its key. -/
theorem C26_delete (key : O → Option K) (os : List (Op K O)) (kn : Option (Known K O))
    (x : Obj K O) (k : K) (hk : keyOf key x = some k) (j : K) :
    shown key (os ++ [(.delete kn x)]) j =
      if j = k ∧ (isKnown kn k = true ∨ shown key os k ≠ [])
      then merge (shown key os k) ⟨.deleted, x⟩ else shown key os j := by
  simp only [shown_eq, log_snoc]
  exact pendingOf_delete key _ kn x k hk j _

/-- non-vacuity: 1 and 7 are known, 1 is listed; 7 gets a marker with its stored state, 8 and 9
one without; 5 was pending, but is not known; then two deletions, only one of them recorded -/
example :
    let os : List (Op Nat (Nat × Nat)) := [.add (.real (5, 50)), .replace (some exKnown)
      [.real (1, 11), .real (2, 20)], .delete (some exKnown) (.real (3, 0)),
      .delete (some exKnown) (.real (1, 12))]
    [1, 2, 3, 5, 7, 8, 9].map (fun k => ((exec exKey init os).items.get? k)) =
      [some [⟨.sync, .real (1, 11)⟩, ⟨.deleted, .real (1, 12)⟩], some [⟨.sync, .real (2, 20)⟩],
       none, some [⟨.added, .real (5, 50)⟩], some [⟨.deleted, .goneWith 7 (.real (7, 70))⟩],
       some [⟨.deleted, .gone 8⟩], some [⟨.deleted, .gone 9⟩]] ∧
    exKnown.keys.Nodup := by
  constructor
  · rfl
  · decide

/-! ## C27 -/

/-- The keys that a first `replace` queues: those of the list and those known to the store that
are not in the list. -/
def firstKeys (key : O → Option K) (kn : Option (Known K O)) (xs : List (Obj K O)) : List K :=
  xs.filterMap (keyOf key) ++ match kn with
    | none => []
    | some kn => kn.keys.filter (· ∉ xs.filterMap (keyOf key))

private theorem keysOf_eq (key : O → Option K) (xs : List (Obj K O)) : ∀ keys,
    keysOf key xs = some keys → keys = xs.filterMap (keyOf key) := by
  induction xs with
  | nil => intro keys h; simp [keysOf] at h; simp [← h]
  | cons x xs ih =>
    intro keys h
    rw [keysOf_cons] at h
    cases hx : keyOf key x with
    | none => simp [hx] at h
    | some j =>
      simp only [hx, Option.map_eq_some_iff] at h
      obtain ⟨ks, h1, rfl⟩ := h
      simp [hx, ih ks h1]

private theorem count_init (key : O → Option K) (kn : Option (Known K O)) (xs : List (Obj K O))
    (hx : ∀ x ∈ xs, (keyOf key x).isSome) :
    (step key (init : State K O) (.replace kn xs)).1.populated = true ∧
    (step key (init : State K O) (.replace kn xs)).1.count = (firstKeys key kn xs).length ∧
    (step key (init : State K O) (.replace kn xs)).2 = .ok := by
  obtain ⟨keys, hk⟩ := keysOf_isSome key xs hx
  obtain ⟨-, -, -, h2⟩ := sim_replace (sim_init key) kn xs .ok
  obtain ⟨a, b, c⟩ := h2 keys hk
  refine ⟨b, ?_, a⟩
  have hke := keysOf_eq key xs keys hk
  have hlen : (xs.filterMap (keyOf key)).length = xs.length := by
    rw [List.length_filterMap_eq_countP, List.countP_eq_length]
    exact hx
  simp only [step] at c ⊢
  rw [c]
  simp only [init, firstKeys, vanished, Bool.false_eq_true, if_false, List.length_append, hlen]
  cases kn with
  | none => simp [orderOf]
  | some kn => simp [hke]

/-- **C27.** When the first call is `replace(list)`, `has_synced()` answers from then on whether
at least as many keys were handed over as the list has entries plus the deletions it found. -/
theorem C27_synced_iff_count (key : O → Option K) (kn : Option (Known K O))
    (xs : List (Obj K O)) (hx : ∀ x ∈ xs, (keyOf key x).isSome) (os : List (Op K O)) :
    (step key (exec key init (.replace kn xs :: os)) .hasSynced).2 =
      .flag (decide ((firstKeys key kn xs).length ≤
        (handed (trace key init (.replace kn xs :: os))).length)) := by
  obtain ⟨h1, h2, h3⟩ := count_init key kn xs hx
  have hs := sim_step (sim_init key) (.replace kn xs)
  obtain ⟨h4, h5⟩ := count_exec os hs h1
  have e : handed (trace key init (.replace kn xs :: os)) =
      handed (trace key (step key init (.replace kn xs)).1 os) := by
    simp only [trace, h3, handed]
  rw [e]
  rw [h2] at h5
  change Out.flag (hasSynced (exec key (step key init (.replace kn xs)).1 os)) = _
  simp only [hasSynced]
  rw [h4, h5]
  simp only [Bool.true_and, Out.flag.injEq]
  by_cases h : (firstKeys key kn xs).length ≤
      (handed (trace key (step key init (.replace kn xs)).1 os)).length
  · rw [decide_eq_true h, Nat.sub_eq_zero_of_le h]; rfl
  · rw [decide_eq_false h, beq_eq_false_iff_ne]; omega

private theorem queue_init (key : O → Option K) (kn : Option (Known K O)) (xs : List (Obj K O))
    (hx : ∀ x ∈ xs, (keyOf key x).isSome) (hn : (firstKeys key kn xs).Nodup) :
    (step key (init : State K O) (.replace kn xs)).1.queue = firstKeys key kn xs := by
  obtain ⟨keys, hk⟩ := keysOf_isSome key xs hx
  obtain ⟨h1, -, -, -⟩ := sim_replace (sim_init key) kn xs .ok
  have hke := keysOf_eq key xs keys hk
  have h2 := h1.order
  simp only [entries, hk, List.nil_append] at h2
  simp only [step]
  rw [← h2]
  have hord : ∀ (es : List (Entry K O)) (ks : List K) (l : List (Entry K O)),
      es.map (fun e => match e with | .change k _ => some k | _ => none) = ks.map some →
      (orderOf l ++ ks).Nodup → orderOf (l ++ es) = orderOf l ++ ks := by
    intro es
    induction es with
    | nil => intro ks l h _; cases ks <;> simp at h; simp
    | cons e es ih =>
      intro ks l h hn
      cases ks with
      | nil => simp at h
      | cons k ks =>
        simp only [List.map_cons, List.cons.injEq] at h
        cases e with
        | change j d =>
          simp only [Option.some.injEq] at h
          obtain ⟨rfl, h⟩ := h
          have hj : j ∉ orderOf l := by
            have := (List.nodup_append.1 hn).2.2
            intro hj
            exact this j hj j (by simp) rfl
          have ho : orderOf (l ++ [.change j d]) = orderOf l ++ [j] := by
            rw [orderOf_change, if_neg hj]
          have h3 := ih ks (l ++ [Entry.change j d]) h (by
            rw [ho, List.append_assoc]; exact hn)
          rw [ho, List.append_assoc, List.append_assoc] at h3
          exact h3
        | popped j => simp at h
        | putBack j d => simp at h
  have := hord (syncs key xs ++ vanished kn [] keys) (firstKeys key kn xs) [] (by
    have hsy : ∀ xs : List (Obj K O), (∀ x ∈ xs, (keyOf key x).isSome) →
        (syncs key xs).map (fun e => match e with | .change k _ => some k | _ => none)
        = (xs.filterMap (keyOf key)).map some := by
      intro xs
      induction xs with
      | nil => intro _; rfl
      | cons x xs ih =>
        intro h
        obtain ⟨j, hj⟩ := Option.isSome_iff_exists.1 (h x (by simp))
        simp only [syncs, hj, List.map_cons, List.filterMap_cons]
        rw [ih (fun y hy => h y (by simp [hy]))]
    simp only [firstKeys, List.map_append, hsy xs hx]
    congr 1
    cases kn with
    | none => simp [vanished, orderOf]
    | some kn => simp [vanished, hke]) (by simpa [orderOf] using hn)
  simpa [orderOf] using this

/-- **C27 (lists without repeated keys).** `has_synced()` becomes true exactly when all keys
queued by the first `replace` were handed over.

Partial: for a list with a repeated key this is false, see `C27_refuted_repeated_key`. -/
theorem C27_synced_iff_partial (key : O → Option K) (kn : Option (Known K O))
    (xs : List (Obj K O)) (hx : ∀ x ∈ xs, (keyOf key x).isSome)
    (hn : (firstKeys key kn xs).Nodup) (os : List (Op K O)) :
    (step key (exec key init (.replace kn xs :: os)) .hasSynced).2 = .flag true ↔
      ∀ k ∈ firstKeys key kn xs, k ∈ handed (trace key init (.replace kn xs :: os)) := by
  rw [C27_synced_iff_count key kn xs hx os]
  obtain ⟨h1, h2, h3⟩ := count_init key kn xs hx
  have hq := queue_init key kn xs hx hn
  obtain ⟨more, hm⟩ := queue_exec os (sim_step (sim_init key) (.replace kn xs))
  rw [hq] at hm
  have e : handed (trace key init (.replace kn xs :: os)) =
      handed (trace key (step key init (.replace kn xs)).1 os) := by
    simp only [trace, h3, handed]
  rw [e]
  generalize handed (trace key (step key init (.replace kn xs)).1 os) = hd at hm ⊢
  generalize firstKeys key kn xs = fk at hn hm ⊢
  simp only [Out.flag.injEq, decide_eq_true_eq]
  constructor
  · intro hle k hk
    rw [List.append_eq_append_iff] at hm
    rcases hm with ⟨a, rfl, h⟩ | ⟨a, rfl, h⟩
    · have : a = [] := by
        simp only [List.length_append] at hle
        exact List.eq_nil_of_length_eq_zero (by omega)
      simpa [this] using hk
    · simp [hk]
  · intro hall
    exact (List.subperm_of_subset hn hall).length_le

/-- **C27 is false** for a list with a repeated key: everything it queued was handed over, the
queue is empty, but `has_synced()` stays false. -/
theorem C27_refuted_repeated_key :
    ∃ (os : List (Op Nat (Nat × Nat))), let t := trace exKey init os
      os.head? = some (.replace none [.real (1, 0), .real (1, 1)]) ∧
      (∀ k ∈ firstKeys exKey none [.real (1, 0), .real (1, 1)], k ∈ handed t) ∧
      (step exKey (exec exKey init os) .listKeys).2 = .keys [] ∧
      (step exKey (exec exKey init os) .hasSynced).2 = .flag false :=
  ⟨[.replace none [.real (1, 0), .real (1, 1)], .pop .ok], rfl, by decide, rfl, rfl⟩

/-- non-vacuity: two listed keys and three vanished ones; synced after the fifth pop -/
example :
    let os : List (Op Nat (Nat × Nat)) := [.replace (some exKnown) [.real (1, 11), .real (2, 20)],
      .hasSynced, .add (.real (3, 0)), .pop .ok, .pop (.requeue false), .pop .ok, .pop .error,
      .hasSynced, .pop .ok, .hasSynced]
    (firstKeys exKey (some exKnown) [.real (1, 11), .real (2, 20)]) = [1, 2, 7, 8, 9] ∧
    handed (trace exKey init os) = [1, 2, 7, 8, 9] ∧
    ((trace exKey init os).map Prod.snd).filter (fun o => o = .flag true ∨ o = .flag false)
      = [.flag false, .flag false, .flag true] := by
  refine ⟨rfl, rfl, by decide⟩

/-- The call, with its answer, counts as the first population of the queue.  (`add` and `update` do so even if
they raise.) -/
def Populates (key : O → Option K) : Op K O × Out K O → Bool
  | (.add _, _) | (.update _, _) => true
  | (.delete _ x, _) => (keyOf key x).isSome
  | (.replace _ xs, _) => xs.all fun x => (keyOf key x).isSome
  | (.addIfNotPresent ds, _) => match ds.getLast? with
    | none => false
    | some d => (keyOf key d.object).isSome
  | (.pop (.requeue _), .popped _ _ _ _) => true
  | _ => false

/-- How many keys are then waited for: those of the list, and the deletions it found. -/
def initial (key : O → Option K) (before : List (Op K O)) : Op K O → Nat
  | .replace kn xs => xs.length + (vanished kn (log key before) (xs.filterMap (keyOf key))).length
  | _ => 0

private theorem first_step {key : O → Option K} {s : State K O} {l : List (Entry K O)}
    (h : Sim key s l) (hp : s.populated = false) (hc : s.count = 0) (o : Op K O) :
    (step key s o).1.populated = Populates key (o, (step key s o).2) ∧
    (step key s o).1.count = cond (Populates key (o, (step key s o).2)) (match o with
      | .replace kn xs => xs.length + (vanished kn l (xs.filterMap (keyOf key))).length
      | _ => 0) 0 := by
  have hq : ∀ t x, (queueAction key { s with populated := true } t x).1.populated = true ∧
      (queueAction key { s with populated := true } t x).1.count = s.count := fun t x =>
    ⟨(queueAction_rest _ _ _ _).1, (queueAction_rest _ _ _ _).2.1⟩
  have ha : ∀ (s : State K O) k ds, (addIfNotPresent s k ds).populated = true ∧
      (addIfNotPresent s k ds).count = s.count := by
    intro s k ds
    simp only [addIfNotPresent]
    split <;> exact ⟨rfl, rfl⟩
  cases o with
  | add x => simpa [step, Populates, hc] using hq .added x
  | update x => simpa [step, Populates, hc] using hq .updated x
  | delete kn x =>
    simp only [step, delete]
    cases hk : keyOf key x with
    | none => simp [Populates, hp, hc, hk]
    | some k =>
      simp only
      split
      · simp [Populates, hc, hk]
      · simpa [Populates, hc, hk] using hq .deleted x
  | list => simp [step, Populates, hp, hc]
  | listKeys => simp [step, Populates, hp, hc]
  | get x => simp only [step]; cases keyOf key x <;> simp [Populates, hp, hc]
  | getByKey k => simp [step, Populates, hp, hc]
  | replace kn xs =>
    simp only [step, Populates]
    obtain ⟨-, -, h1, h2⟩ := sim_replace h kn xs .ok
    by_cases hx : ∀ x ∈ xs, (keyOf key x).isSome = true
    · obtain ⟨keys, hk⟩ := keysOf_isSome key xs hx
      obtain ⟨a, b, c⟩ := h2 keys hk
      rw [b, c, List.all_eq_true.2 hx, keysOf_eq key xs keys hk]
      simp [hp]
    · have hk : keysOf key xs = none := by
        cases hk : keysOf key xs with
        | none => rfl
        | some keys => exact absurd (keysOf_all key xs keys hk) hx
      obtain ⟨a, b, c⟩ := h1 hk
      rw [b, c, hp, hc]
      have : (xs.all fun x => (keyOf key x).isSome) = false := by
        rw [Bool.eq_false_iff]
        exact fun h => hx (List.all_eq_true.1 h)
      simp [this]
  | resync kn =>
    cases kn with
    | none => simp [step, resync, Populates, hp, hc]
    | some kn =>
      obtain ⟨-, a, b, -⟩ := sim_resyncKeys (key := key) kn l kn.keys [] h (by simp)
      simp only [step, resync, Populates]
      rw [a, b]
      simp [hp, hc]
  | pop r =>
    simp only [step]
    rcases pop_cases h r with ⟨-, h2⟩ | ⟨k, rest, hq, hp', h2⟩
    · rw [h2]
      cases s.closed <;> cases r <;> simp [Populates, hp, hc]
    · rw [h2]
      cases r with
      | ok => simp [finish, Populates, hp, hc]
      | error => simp [finish, Populates, hp, hc]
      | cancelled => simp [finish, Populates, hp, hc]
      | requeue c =>
        cases c <;>
        · simp only [finish, Populates, cond]
          refine ⟨(ha _ _ _).1, (ha _ _ _).2.trans ?_⟩
          simp [hc]
  | addIfNotPresent ds =>
    simp only [step, Populates]
    cases ds.getLast? with
    | none => simp [hp, hc]
    | some d =>
      simp only
      cases keyOf key d.object with
      | none => simp [hp, hc]
      | some k => simpa [hc] using ha s k ds
  | hasSynced => simp [step, Populates, hp, hc]
  | close => simp [step, Populates, hp, hc]
  | isClosed => simp [step, Populates, hp, hc]

private theorem unpopulated_exec {key : O → Option K} (os : List (Op K O)) : ∀ {s : State K O}
    {l : List (Entry K O)}, Sim key s l → s.populated = false → s.count = 0 →
    (∀ e ∈ trace key s os, Populates key e = false) →
    (exec key s os).populated = false ∧ (exec key s os).count = 0 := by
  induction os with
  | nil => intro s l _ hp hc _; exact ⟨hp, hc⟩
  | cons o os ih =>
    intro s l h hp hc hn
    obtain ⟨h1, h2⟩ := first_step h hp hc o
    have h3 := hn (o, (step key s o).2) (by simp [trace])
    rw [h3] at h1 h2
    exact ih (sim_step h o) h1 (by simpa using h2) fun e he => hn e (by simp [trace, he])

/-- **C27.** `has_synced()` after any calls: false until a call populates the queue; from then on it answers
whether at least as many keys have been handed over since as that call's list had entries plus the deletions it
found, if it was `replace`, and true if it was another one. -/
theorem C27_synced_exact (key : O → Option K) (pre post : List (Op K O)) (o : Op K O)
    (hpre : ∀ e ∈ trace key init pre, Populates key e = false) :
    (step key (exec key init pre) .hasSynced).2 = .flag false ∧
    (Populates key (o, (step key (exec key init pre) o).2) = true →
      (step key (exec key init (pre ++ o :: post)) .hasSynced).2 =
        .flag (decide (initial key pre o ≤ (handed (trace key (exec key init (pre ++ [o])) post)).length))) := by
  obtain ⟨hp, hc⟩ := unpopulated_exec pre (sim_init key) rfl rfl hpre
  refine ⟨?_, fun ho => ?_⟩
  · show Out.flag (_ && _) = _
    rw [hp]; rfl
  have hs := sim key pre
  obtain ⟨h1, h2⟩ := first_step hs hp hc o
  rw [ho] at h1 h2
  obtain ⟨h3, h4⟩ := count_exec post (sim_step hs o) h1
  rw [exec_append, exec_append]
  show Out.flag (_ && _) = Out.flag _
  simp only [exec]
  rw [h3, h4, h2]
  simp only [Bool.true_and, Out.flag.injEq, cond]
  rw [Bool.eq_iff_iff, beq_iff_eq]
  refine Nat.sub_eq_zero_iff_le.trans (Iff.trans ?_ (decide_eq_true_iff).symm)
  cases o <;> exact Iff.rfl

/-- A `replace` with an object without key comes first: it queues what it has reached, and does not populate;
then one that finds a deletion: two entries and one deletion are waited for, and three hand-overs are enough
though 9 has been handed over before. -/
example : (trace exKey init [.replace none [.real (9, 0), .real (100, 0)], .pop .ok, .add (.real (5, 5))]).map
      (Populates exKey) = [false, false, true] ∧
    initial exKey [.replace none [.real (9, 0), .real (100, 0)]] (.replace none [.real (1, 0), .real (2, 0)]) = 3 ∧
    (step exKey (exec exKey init [.replace none [.real (9, 0), .real (100, 0)], .replace none [.real (1, 0),
      .real (2, 0)], .pop .ok, .pop .error]) .hasSynced).2 = .flag false ∧
    (step exKey (exec exKey init [.replace none [.real (9, 0), .real (100, 0)], .replace none [.real (1, 0),
      .real (2, 0)], .pop .ok, .pop .error, .pop .ok]) .hasSynced).2 = .flag true := by
  refine ⟨by decide, by decide, rfl, rfl⟩

/-! ## C28 -/

/-- **C28.** If the callback raises `RequeueError`, the popped deltas are pending again,
unchanged, at the end of the queue; nothing else changes. -/
theorem C28_requeue (key : O → Option K) (os : List (Op K O)) (c : Bool) (k : K)
    (ds : Deltas K O) (e : PopEnd) (n : Nat)
    (h : (step key (exec key init os) (.pop (.requeue c))).2 = .popped k ds e n) :
    let s := exec key init (os ++ [.pop (.requeue c)])
    (step key s (.getByKey k)).2 = .deltas (some ds) ∧
    (∀ j, (step key s (.getByKey j)).2 = (step key (exec key init os) (.getByKey j)).2) ∧
    (∃ ks, (step key (exec key init os) .listKeys).2 = .keys (k :: ks) ∧
      (step key s .listKeys).2 = .keys (ks ++ [k])) ∧
    e = if c then .processError else .returned := by
  intro s
  have hp := C25_popped_is_pending key os _ k ds e n h
  have hS := sim key os
  have hS2 := sim key (os ++ [.pop (.requeue c)])
  have hlog : log key (os ++ [.pop (.requeue c)]) = log key os ++ [.popped k, .putBack k ds] := by
    rw [log_snoc, h]; rfl
  have hpend : ∀ j, pendingOf j (log key (os ++ [.pop (.requeue c)])) = pendingOf j (log key os) := by
    intro j
    rw [hlog, show ([.popped k, .putBack k ds] : List (Entry K O)) = [.popped k] ++ [.putBack k ds]
      from rfl, ← List.append_assoc, pendingOf_putBack, pendingOf_popped]
    by_cases hj : k = j
    · subst hj; simp [hp.1]
    · simp [hj]
  have h2 : ∀ j, (step key s (.getByKey j)).2 = (step key (exec key init os) (.getByKey j)).2 := by
    intro j
    rw [shows, shows, hpend]
  refine ⟨?_, h2, ?_, ?_⟩
  · rw [h2, shows, ← hp.1, if_neg hp.2]
  · have hk : ∀ os' : List (Op K O), (step key (exec key init os') .listKeys).2 =
        .keys (orderOf (log key os')) := by
      intro os'
      simp only [step]
      rw [(sim key os').order, (sim key os').queue]
    rcases C24_pop_first key os (.requeue c) with ⟨k', ks, e', h3, h4, h5⟩ | ⟨-, h4⟩
    · rw [h] at h4
      simp only [Out.popped.injEq] at h4
      obtain ⟨rfl, -⟩ := h4
      refine ⟨ks, h3, ?_⟩
      rw [hk] at h3 ⊢
      simp only [Out.keys.injEq] at h3 ⊢
      have hn : (k :: ks).Nodup := by rw [← h3, hS.order, hS.queue]; exact hS.wf
      rw [List.nodup_cons] at hn
      rw [hlog, show ([.popped k, .putBack k ds] : List (Entry K O))
        = [.popped k] ++ [.putBack k ds] from rfl, ← List.append_assoc, orderOf_putBack,
        orderOf_popped, h3]
      have : (k :: ks).filter (fun x => decide (x ≠ k)) = ks := by
        rw [List.filter_cons]
        simp only [ne_eq, not_true_eq_false, decide_false]
        rw [List.filter_eq_self.2]
        · rfl
        · intro j hj
          simp only [decide_eq_true_eq]
          rintro rfl
          exact hn.1 hj
      rw [this, if_neg hn.1]
    · rw [h] at h4
      split at h4 <;> simp at h4
  · simp only [step] at h
    rcases pop_cases hS (.requeue c) with ⟨-, h4⟩ | ⟨k', rest, hq, hp', h4⟩
    · rw [h4] at h
      simp only at h
      split at h <;> simp at h
    · rw [h4] at h
      cases c <;> simp [finish] at h <;> simp [h]

/-- **C28.** If the callback ends in any other way the key is gone from the queue, everything
else is unchanged, and an exception surfaces as `ProcessError` with the deltas (cancellation as
itself). -/
theorem C28_other (key : O → Option K) (os : List (Op K O)) (r : Outcome)
    (hr : ∀ c, r ≠ .requeue c) (k : K) (ds : Deltas K O) (e : PopEnd) (n : Nat)
    (h : (step key (exec key init os) (.pop r)).2 = .popped k ds e n) :
    (∀ j, shown key (os ++ [.pop r]) j = if j = k then [] else shown key os j) ∧
    (e = .processError ↔ r = .error) ∧ (e = .returned ↔ r = .ok) ∧
    (e = .cancelled ↔ r = .cancelled) := by
  have hS := sim key os
  have hlog : log key (os ++ [.pop r]) = log key os ++ [.popped k] := by
    rw [log_snoc, h]
    cases r with
    | requeue c => exact absurd rfl (hr c)
    | ok => rfl
    | error => rfl
    | cancelled => rfl
  constructor
  · intro j
    rw [shown_eq, shown_eq, hlog, pendingOf_popped]
    simp only [eq_comm]
  · simp only [step] at h
    rcases pop_cases hS r with ⟨-, h4⟩ | ⟨k', rest, hq, hp', h4⟩
    · rw [h4] at h
      simp only at h
      split at h <;> simp at h
    · rw [h4] at h
      cases r with
      | requeue c => exact absurd rfl (hr c)
      | ok => simp [finish] at h; simp [← h.2.2.1]
      | error => simp [finish] at h; simp [← h.2.2.1]
      | cancelled => simp [finish] at h; simp [← h.2.2.1]

/-- **C28.** The controller's retry: after a failed `pop` of `k`, and whatever other calls came
in between, `add_if_not_present(deltas)` makes exactly these deltas pending again if nothing
newer is pending for the key, and changes nothing otherwise. -/
theorem C28_retry (key : O → Option K) (os : List (Op K O)) (r : Outcome) (k : K)
    (ds : Deltas K O) (e : PopEnd) (n : Nat)
    (h : (step key (exec key init os) (.pop r)).2 = .popped k ds e n)
    (os' : List (Op K O)) (j : K) :
    let before := shown key (os ++ .pop r :: os')
    shown key ((os ++ .pop r :: os') ++ [.addIfNotPresent ds]) j =
      if j = k ∧ before k = [] then ds else before j := by
  intro before
  simp only [before, shown_eq]
  obtain ⟨hp1, hp2⟩ := C25_popped_is_pending key os _ k ds e n h
  have hkey : ∃ d, ds.getLast? = some d ∧ keyOf key d.object = some k := by
    cases hl : ds.getLast? with
    | none => simp at hl; exact absurd hl hp2
    | some d => exact ⟨d, rfl, (sim key os).newest k d (by rw [← hp1]; exact hl)⟩
  obtain ⟨d, hd, hk⟩ := hkey
  rw [log_snoc]
  simp only [entries, hd, hk]
  rw [pendingOf_putBack]
  by_cases hj : k = j
  · subst hj; simp
  · simp [hj, Ne.symm hj]

/-- non-vacuity: one failed item is retried, another has newer changes -/
example : (trace exKey init [.add (.real (1, 0)), .pop .error,
      .addIfNotPresent [⟨.added, .real (1, 0)⟩], .pop (.requeue true), .getByKey 1,
      .pop .error, .update (.real (1, 1)), .addIfNotPresent [⟨.added, .real (1, 0)⟩],
      .getByKey 1]).map Prod.snd
    = [.ok, .popped 1 [⟨.added, .real (1, 0)⟩] .processError 0, .ok,
       .popped 1 [⟨.added, .real (1, 0)⟩] .processError 0,
       .deltas (some [⟨.added, .real (1, 0)⟩]),
       .popped 1 [⟨.added, .real (1, 0)⟩] .processError 0, .ok, .ok,
       .deltas (some [⟨.updated, .real (1, 1)⟩])] := rfl

/-! ## C23 for `DeltaFIFO` -/

/-- `pop` would sleep exactly when nothing is queued and the queue is open. -/
theorem lawful (key : O → Option K) :
    Monitor.Lawful (machine key : Monitor.Machine (State K O) _ _) (fun s =>
      (s.queue = [] ∧ s.closed = false)) := by
  have hpl : ∀ (s : State K O) r (q : List K) n,
      ((popLoop s r q n).2 = .blocked → (popLoop s r q n).1.queue = [] ∧ s.closed = false ∧
        (popLoop s r q n).1.closed = s.closed) := by
    intro s r q
    induction q with
    | nil =>
      intro n h
      simp only [popLoop] at h ⊢
      cases hc : s.closed with
      | true => simp [hc] at h
      | false => exact ⟨trivial, rfl, trivial⟩
    | cons k q ih =>
      intro n h
      simp only [popLoop] at h ⊢
      cases hg : s.items.get? k with
      | none => simp only [hg] at h ⊢; exact ih _ h
      | some ds =>
        simp only [hg] at h
        cases r with
        | requeue c => cases c <;> simp [finish] at h
        | ok => simp [finish] at h
        | error => simp [finish] at h
        | cancelled => simp [finish] at h
  refine ⟨?_, ?_, ?_⟩
  · intro s o hp hb
    cases o <;> simp only [machine] at hp <;> try contradiction
    rename_i r
    simp only [machine, step] at hb ⊢
    have : (popLoop s r s.queue 0).2 = .blocked := by
      generalize (popLoop s r s.queue 0).2 = x at hb
      cases x <;> simp at hb ⊢
    obtain ⟨h1, h2, h3⟩ := hpl s r s.queue 0 this
    exact ⟨h1, h3.trans h2⟩
  · rintro s o hp ⟨h1, h2⟩ hn
    have hq : ∀ t x, queueActionNotifies key s t x = false →
        (queueAction key { s with populated := true } t x).1.queue = [] ∧
        (queueAction key { s with populated := true } t x).1.closed = false := fun t x h =>
      ⟨(queueAction_quiet (s := { s with populated := true }) h).trans h1,
        (queueAction_rest _ _ _ _).2.2.trans h2⟩
    cases o <;> simp only [machine] at hp <;> try contradiction
    all_goals simp only [machine, notifies, step] at hn ⊢
    case add x => exact hq _ _ hn
    case update x => exact hq _ _ hn
    case delete kn x =>
      simp only [delete]
      cases hk : keyOf key x with
      | none => exact ⟨h1, h2⟩
      | some k =>
        simp only [hk] at hn ⊢
        by_cases hs : skipDelete s kn k = true
        · rw [show skipDelete { s with populated := true } kn k = skipDelete s kn k from rfl,
            if_pos hs]
          exact ⟨h1, h2⟩
        · rw [show skipDelete { s with populated := true } kn k = skipDelete s kn k from rfl,
            if_neg hs]
          rw [if_neg hs] at hn
          exact hq _ _ hn
    case list => exact ⟨h1, h2⟩
    case listKeys => exact ⟨h1, h2⟩
    case get x => cases hk : keyOf key x <;> exact ⟨h1, h2⟩
    case getByKey => exact ⟨h1, h2⟩
    case replace kn xs =>
      obtain ⟨a, b⟩ := replace_quiet kn xs hn
      exact ⟨a.trans h1, b.trans h2⟩
    case resync kn =>
      cases kn with
      | none => exact ⟨h1, h2⟩
      | some kn =>
        obtain ⟨a, b⟩ := resync_quiet kn kn.keys hn
        exact ⟨a.trans h1, b.trans h2⟩
    case addIfNotPresent ds =>
      cases hl : ds.getLast? with
      | none => exact ⟨h1, h2⟩
      | some d =>
        simp only [hl] at hn ⊢
        cases hk : keyOf key d.object with
        | none => exact ⟨h1, h2⟩
        | some k =>
          simp only [hk, Bool.not_eq_false'] at hn ⊢
          simp only [addIfNotPresent, hn, if_true]
          exact ⟨h1, h2⟩
    case hasSynced => exact ⟨h1, h2⟩
    case isClosed => exact ⟨h1, h2⟩
  · rintro s o hp ⟨h1, h2⟩
    cases o <;> simp only [machine] at hp <;> try contradiction
    simp only [machine, step]
    rw [h1]
    simp [popLoop, h2]

/-- **C23 (DeltaFIFO).** In every interleaving of tasks: once the queue is closed, or as soon as
something is queued, no task is left asleep in `pop`; the notified ones are ready to run. -/
theorem C23_delta_nobody_sleeps (key : O → Option K) (es : List (Monitor.Ev (Op K O))) :
    let s := Monitor.exec (machine key) ⟨init, [], []⟩ es
    (s.core.closed = true ∨ s.core.queue ≠ []) → s.asleep = [] := by
  intro s h
  have := Monitor.inv_exec (lawful key) es
    (s := ⟨(init : State K O), [], []⟩) (by intro h; simp at h)
  by_contra hne
  obtain ⟨h1, h2⟩ := this hne
  rcases h with h | h
  · rw [show s.core.closed = _ from h2] at h; simp at h
  · exact h h1

/-- **C23 (DeltaFIFO).** On a closed queue `pop` never sleeps: if something is pending it hands
it over, otherwise it raises `FIFOClosedError`. -/
theorem C23_delta_closed_pop (key : O → Option K) (os : List (Op K O)) (r : Outcome)
    (hc : (exec key init os).closed = true) :
    ((∃ k, pendingOf k (log key os) ≠ []) ∧
      ∃ k ds e, (step key (exec key init os) (.pop r)).2 = .popped k ds e 0) ∨
    ((∀ k, pendingOf k (log key os) = []) ∧
      (step key (exec key init os) (.pop r)).2 = .closedError) := by
  rcases C24_pop_first key os r with ⟨k, ks, e, -, h2, h3⟩ | ⟨h1, h2⟩
  · exact Or.inl ⟨⟨k, h3⟩, k, _, e, h2⟩
  · right
    refine ⟨?_, by rw [h2, if_pos hc]⟩
    intro k
    by_contra hk
    have := ((sim key os).mem k).2 hk
    simp only [step, Out.keys.injEq] at h1
    rw [h1] at this
    simp at this

private theorem closed_step {key : O → Option K} {s : State K O} {l : List (Entry K O)} (h : Sim key s l)
    (o : Op K O) : (step key s o).1.closed = true ↔ s.closed = true ∨ o = .close := by
  have hq : ∀ t x, (queueAction key { s with populated := true } t x).1.closed = s.closed := fun t x =>
    (queueAction_rest _ _ _ _).2.2
  have ha : ∀ (s : State K O) k ds, (addIfNotPresent s k ds).closed = s.closed := by
    intro s k ds
    simp only [addIfNotPresent]
    split <;> rfl
  cases o with
  | add x | update x => simp [step, hq]
  | delete kn x =>
    simp only [step, delete]
    cases keyOf key x with
    | none => simp
    | some k =>
      simp only
      split
      · simp
      · simp [hq]
  | get x => simp only [step]; cases keyOf key x <;> simp
  | replace kn xs => simp [step, (sim_replace h kn xs .ok).2.1]
  | resync kn =>
    cases kn with
    | none => simp [step, resync]
    | some kn =>
      obtain ⟨-, -, -, a⟩ := sim_resyncKeys (key := key) kn l kn.keys [] h (by simp)
      simp [step, resync, a]
  | pop r =>
    simp only [step]
    rcases pop_cases h r with ⟨-, h2⟩ | ⟨k, rest, hq, hp', h2⟩
    · simp [h2]
    · rw [h2]
      cases r with
      | requeue c => cases c <;> simp [finish, ha]
      | _ => simp [finish]
  | addIfNotPresent ds =>
    simp only [step]
    cases ds.getLast? with
    | none => simp
    | some d =>
      simp only
      cases keyOf key d.object with
      | none => simp
      | some k => simp [ha]
  | _ => simp [step]

private theorem closed_exec {key : O → Option K} (os : List (Op K O)) : ∀ {s : State K O} {l : List (Entry K O)},
    Sim key s l → ((exec key s os).closed = true ↔ s.closed = true ∨ .close ∈ os) := by
  induction os with
  | nil => intro s l _; simp [exec]
  | cons o os ih =>
    intro s l h
    simp only [exec, ih (sim_step h o), closed_step h, List.mem_cons]
    constructor
    · rintro ((h | h) | h)
      · exact Or.inl h
      · exact Or.inr (Or.inl h.symm)
      · exact Or.inr (Or.inr h)
    · rintro (h | h | h)
      · exact Or.inl (Or.inl h)
      · exact Or.inl (Or.inr h.symm)
      · exact Or.inr h

/-- **C23 (DeltaFIFO).** `is_closed()` answers whether `close` has been called; before that, `pop` waits exactly if
nothing is pending, and never raises `FIFOClosedError`. -/
theorem C23_delta_open_pop (key : O → Option K) (os : List (Op K O)) (r : Outcome) :
    (step key (exec key init os) .isClosed).2 = .flag (os.any fun o => o matches .close) ∧
    (.close ∉ os →
      ((∃ k, pendingOf k (log key os) ≠ []) ∧
        ∃ k ds e, (step key (exec key init os) (.pop r)).2 = .popped k ds e 0) ∨
      ((∀ k, pendingOf k (log key os) = []) ∧ (step key (exec key init os) (.pop r)).2 = .blocked)) := by
  have hcl := closed_exec os (sim_init key)
  simp only [show (init : State K O).closed = false from rfl, Bool.false_eq_true, false_or] at hcl
  refine ⟨?_, fun hn => ?_⟩
  · simp only [step, Out.flag.injEq]
    rw [Bool.eq_iff_iff, hcl, List.any_eq_true]
    constructor
    · intro h
      exact ⟨_, h, rfl⟩
    · rintro ⟨o, ho, h⟩
      cases o <;> first | exact ho | cases h
  rcases C24_pop_first key os r with ⟨k, ks, e, -, h2, h3⟩ | ⟨h1, h2⟩
  · exact Or.inl ⟨⟨k, h3⟩, k, _, e, h2⟩
  · right
    refine ⟨?_, by rw [h2, if_neg fun hc => hn (hcl.1 hc)]⟩
    intro k
    by_contra hk
    have := ((sim key os).mem k).2 hk
    simp only [step, Out.keys.injEq] at h1
    rw [h1] at this
    simp at this

private theorem exec_foldl (key : O → Option K) (os : List (Op K O)) : ∀ s : State K O,
    os.foldl (fun c o => ((machine key).step c o).1) s = exec key s os := by
  induction os with
  | nil => intro s; rfl
  | cons o os ih => intro s; exact ih _

private theorem calls_answer (key : O → Option K) (s : State K O) (o : Op K O) (h : (machine key).isPop o = false) :
    (machine key).isBlocked ((machine key).step s o).2 = false := by
  have hb : ∀ x : Out K O, x ≠ .blocked → (machine key).isBlocked x = false := by
    intro x hx
    cases x <;> first | rfl | exact absurd rfl hx
  have hres : ∀ kn (ks : List K) (s : State K O), (resyncKeys key kn s ks).2 ≠ .blocked := by
    intro kn ks
    induction ks with
    | nil => intro s; simp [resyncKeys]
    | cons k ks ih =>
      intro s
      simp only [resyncKeys]
      repeat' split
      all_goals first | exact ih _ | simp
  apply hb
  cases o <;> simp only [machine] at h <;> try contradiction
  all_goals simp only [machine, step, delete, replace, resync, getByKey]
  all_goals repeat' split
  all_goals first | exact hres _ _ _ | simp

/-- **C23 (DeltaFIFO).** In every interleaving: nobody is answered "went to sleep"; and once the queue is
closed, or while something is pending, every task that is still inside `pop` can go on and then gets its
answer: the first pending key, or `FIFOClosedError` if there is none. -/
theorem C23_delta_released (key : O → Option K) (es : List (Monitor.Ev (Op K O)))
    (hp : ∀ e ∈ es, Monitor.Proper (machine key) e) :
    let m : Monitor.Machine (State K O) _ _ := machine key
    let s := Monitor.exec m ⟨init, [], []⟩ es
    (∀ e, (e, some Out.blocked) ∉ Monitor.trace m ⟨init, [], []⟩ es) ∧
    ∀ t, Monitor.inside t false (Monitor.trace m ⟨init, [], []⟩ es) = true → ∀ r,
      (∀ k ks, (step key s.core .listKeys).2 = .keys (k :: ks) →
        ∃ ds e, (Monitor.step m s (.resume t (.pop r))).2 = some (.popped k ds e 0)) ∧
      (.call .close ∈ es → (step key s.core .listKeys).2 = .keys [] →
        (Monitor.step m s (.resume t (.pop r))).2 = some .closedError) := by
  intro m s
  refine ⟨fun e he => ?_, fun t ht r => ?_⟩
  · have := Monitor.answers m (calls_answer key) es _ e _ he
    simp [m, machine] at this
  obtain ⟨os, h1, h2⟩ := Monitor.core_exec m es ⟨init, [], []⟩
  rw [exec_foldl] at h1
  have hcore : s.core = exec key init os := h1
  have htasks := Monitor.tasks_trace m (s := ⟨init, [], []⟩) (b := fun _ => false) ⟨by simp, by simp⟩ es hp
  have hin : t ∈ s.asleep ++ s.woken := (htasks.2 t).1 ht
  have go : s.asleep = [] → (step key s.core (.pop r)).2 ≠ .blocked →
      (Monitor.step m s (.resume t (.pop r))).2 = some (step key s.core (.pop r)).2 := by
    intro h0 hb
    rw [h0] at hin
    refine Monitor.resumes m s t (.pop r) rfl hin ?_
    show (machine key).isBlocked (step key s.core (.pop r)).2 = false
    generalize (step key s.core (.pop r)).2 = x at hb
    cases x <;> first | rfl | exact absurd rfl hb
  have awake : s.core.closed = true ∨ s.core.queue ≠ [] → s.asleep = [] := C23_delta_nobody_sleeps key es
  constructor
  · intro k ks hk
    rcases C24_pop_first key os r with ⟨k', ks', e, h3, h4, -⟩ | ⟨h3, -⟩
    · rw [hcore, h3] at hk
      simp only [Out.keys.injEq, List.cons.injEq] at hk
      obtain ⟨rfl, -⟩ := hk
      refine ⟨pendingOf k' (log key os), e, ?_⟩
      rw [go ?_ ?_, hcore, h4]
      · refine awake (.inr ?_)
        rw [hcore, (sim key os).queue]
        intro h0
        simp only [step, h0] at h3
        simp at h3
      · rw [hcore, h4]; simp
    · rw [hcore, h3] at hk
      simp at hk
  · intro hc hk
    have hcl : (exec key init os).closed = true := (closed_exec os (sim_init key)).2 (.inr ((h2 .close rfl).2 hc))
    rcases C24_pop_first key os r with ⟨k', ks', e, h3, h4, -⟩ | ⟨-, h3⟩
    · rw [hcore, h3] at hk
      simp at hk
    · rw [if_pos hcl] at h3
      rw [go (awake (.inl (by rw [hcore]; exact hcl))) (by rw [hcore, h3]; simp), hcore, h3]

/-- non-vacuity: two tasks sleep; `close()` wakes both and both get `FIFOClosedError`; after an
`add` the first one that runs gets the item -/
example :
    let m := machine exKey
    let s := Monitor.exec m ⟨init, [], []⟩ [.pop 1 (.pop .ok), .pop 2 (.pop .ok)]
    s.asleep = [1, 2] ∧
    (Monitor.exec m s [.call .close]).woken = [1, 2] ∧
    (Monitor.step m (Monitor.exec m s [.call .close]) (.resume 2 (.pop .ok))).2
      = some .closedError ∧
    (Monitor.step m (Monitor.exec m s [.call (.add (.real (5, 5)))]) (.resume 2 (.pop .ok))).2
      = some (.popped 5 [⟨.added, .real (5, 5)⟩] .returned 0) := by
  refine ⟨rfl, rfl, rfl, rfl⟩

-- the hypotheses of C23_delta_released: tasks 1 and 2 are inside `pop` when the queue is closed
example :
    let m := machine exKey
    let es := [.pop 1 (.pop .ok), .pop 2 (.pop .ok), .call .close]
    (∀ e ∈ es, Monitor.Proper m e) ∧ .call .close ∈ es ∧
    Monitor.inside 2 false (Monitor.trace m ⟨init, [], []⟩ es) = true := by
  refine ⟨?_, by simp, rfl⟩
  intro e he
  simp only [List.mem_cons, List.not_mem_nil, or_false] at he
  rcases he with rfl | rfl | rfl <;> rfl

end Aiok8s.DeltaFifo
