import Verif.Proof.Fifo
import Verif.Proof.Monitor
/-!
# Properties C21, C22 and the FIFO half of C23 (`aiok8s/cache/fifo.py`)
-/
set_option linter.unusedSimpArgs false
set_option linter.unusedSectionVars false
namespace Aiok8s.Fifo
open Spec
open Aiok8s.Store (buildItems)
variable {K O : Type} [DecidableEq K]

/-- the key function used in the examples: keys from 100 on cannot be formed -/
def exKey (o : Nat × Nat) : Option Nat := if o.1 < 100 then some o.1 else none

/-! ## C21 -/

/-- **C21.** After any history, what `pop` hands over is the newest object that is waiting for
its key (so nothing deleted, replaced away or handed over before). -/
theorem C21_pop_newest (key : O → Option K) (os : List (Op K O)) (r : Outcome) (k : K) (o : O)
    (b : Bool) (n : Nat) (h : (step key (exec key init os) (.pop r)).2 = .popped k o b n) :
    waiting key (trace key init os) k = some o := by
  have hi := inv_exec key os (inv_init (K := K) (O := O))
  simp only [step] at h
  rw [waiting, ← hi.get]
  rcases popLoop_cases (exec key init os) r (exec key init os).queue 0 with
    ⟨pre, j, rest, o', h1, h2, h3, h4⟩ | ⟨h1, h2⟩
  · rw [h4] at h
    cases r <;> simp only [finish, Out.popped.injEq] at h <;> obtain ⟨rfl, rfl, -⟩ := h <;> exact h3
  · rw [h2] at h
    simp only at h
    split at h <;> simp at h

/-- **C21.** `get_by_key` and `list_keys` show exactly what is waiting. -/
theorem C21_shows_waiting (key : O → Option K) (os : List (Op K O)) (k : K) :
    (step key (exec key init os) (.getByKey k)).2 = .obj (waiting key (trace key init os) k) ∧
    ∃ ks, (step key (exec key init os) .listKeys).2 = .keys ks ∧ ks.Nodup ∧
      ∀ j, j ∈ ks ↔ (waiting key (trace key init os) j).isSome := by
  have hi := inv_exec key os (inv_init (K := K) (O := O))
  refine ⟨by simp only [step, waiting, hi.get], _, rfl, hi.wf, ?_⟩
  intro j
  rw [waiting, ← hi.get]
  exact PyDict.get?_isSome.symm

private theorem values_eq : ∀ {d : PyDict K O}, PyDict.WF d → d.values = d.keys.filterMap d.get?
  | [], _ => rfl
  | (k, v) :: d, h => by
    simp only [PyDict.WF, PyDict.keys, List.map_cons, List.nodup_cons] at h
    have ih := values_eq (d := d) h.2
    simp only [PyDict.values, PyDict.keys, List.map_cons, List.filterMap_cons, PyDict.get?, if_true] at ih ⊢
    refine congrArg (v :: ·) (ih.trans (List.filterMap_congr fun j hj => ?_))
    rw [if_neg]
    rintro rfl
    exact h.1 hj

/-- What a call answers, given what is waiting before it. -/
def Answers (key : O → Option K) (w : Waiting K O) : Op K O → Out K O → Prop
  | .add o, a | .update o, a | .addIfNotPresent o, a =>
    a = if (key o).isSome then .ok else .storeKeyError
  | .delete o, a => a = match key o with
    | none => .storeKeyError
    | some k => if (w k).isSome then .ok else .keyError
  | .get o, a => a = match key o with
    | none => .storeKeyError
    | some k => .obj (w k)
  | .getByKey k, a => a = .obj (w k)
  | .replace l, a => a = if l.all fun o => (key o).isSome then .ok else .storeKeyError
  | .list, a => ∃ ks : List K, ks.Nodup ∧ (∀ k, k ∈ ks ↔ (w k).isSome) ∧ a = .objs (ks.filterMap w)
  | .listKeys, a => ∃ ks : List K, ks.Nodup ∧ (∀ k, k ∈ ks ↔ (w k).isSome) ∧ a = .keys ks
  | .pop r, a => (∃ n, a = .blocked n ∨ a = .closedError n) ∧ (∀ k, w k = none) ∨
    ∃ k o n, w k = some o ∧ a = .popped k o (match r with | .ok => false | .requeue c => c | .error => true) n
  | .resync, a | .close, a => a = .ok
  | .hasSynced, _ | .isClosed, _ => True

/-- **C21.** What each call answers after any calls: an error exactly for a missing key, `KeyError` from `delete`
exactly if nothing is waiting under the key, and `ProcessError` from `pop` exactly if the callback raised other
than a bare `RequeueError`. -/
theorem C21_answers (key : O → Option K) (os : List (Op K O)) (o : Op K O) :
    Answers key (waiting key (trace key init os)) o (step key (exec key init os) o).2 := by
  have hi := inv_exec key os (inv_init (K := K) (O := O))
  have hw : ∀ k, waiting key (trace key init os) k = (exec key init os).items.get? k := fun k => by
    rw [waiting, ← hi.get]
  have hf : waiting key (trace key init os) = (exec key init os).items.get? := funext hw
  rw [hf]
  generalize exec key init os = s at hi
  cases o with
  | add x | update x | addIfNotPresent x | get x => simp only [Answers, step]; cases key x <;> simp
  | delete x =>
    simp only [Answers, step]
    cases key x with
    | none => rfl
    | some k =>
      simp only [delete]
      by_cases h : s.items.has k = true
      · rw [if_pos h, if_pos]
        exact PyDict.get?_isSome.2 (PyDict.has_iff.1 h)
      · rw [if_neg h, if_neg]
        exact fun h' => h (PyDict.has_iff.2 (PyDict.get?_isSome.1 h'))
  | replace l =>
    simp only [Answers, step]
    have hb := Store.buildItems_spec key l Store.Spec.Book.empty [] Store.Sim.empty
    by_cases h : ∀ o ∈ l, (key o).isSome = true
    · obtain ⟨items, hb, -⟩ := hb.1 (by simpa using h)
      rw [hb, if_pos (List.all_eq_true.2 h)]
    · rw [hb.2 (by simpa using h), if_neg (fun h' => h (List.all_eq_true.1 h'))]
  | list =>
    refine ⟨s.items.keys, hi.wf, fun k => PyDict.get?_isSome.symm, ?_⟩
    simp only [step, Out.objs.injEq]
    exact values_eq hi.wf
  | listKeys => exact ⟨s.items.keys, hi.wf, fun k => PyDict.get?_isSome.symm, rfl⟩
  | pop r =>
    simp only [Answers, step]
    rcases popLoop_cases s r s.queue 0 with ⟨pre, j, rest, o', h1, h2, h3, h4⟩ | ⟨h1, h2⟩
    · right
      refine ⟨j, o', ?_⟩
      rw [h4]
      cases r <;> exact ⟨_, h3, rfl⟩
    · left
      refine ⟨?_, fun k => ?_⟩
      · rw [h2]
        cases s.closed
        · exact ⟨_, Or.inl rfl⟩
        · exact ⟨_, Or.inr rfl⟩
      · rw [PyDict.get?_eq_none]
        intro hk
        have := h1 k (hi.queued k hk)
        rw [PyDict.get?_eq_none] at this
        exact this hk
  | _ => first | rfl | trivial

/-- `delete` of what is not waiting, of what is, and of what has been handed over meanwhile. -/
example : (trace exKey init [.add (1, 10), .delete (2, 0), .delete (1, 0), .add (3, 30), .pop .error, .delete (3, 0),
    .add (100, 1)]).map (·.2) = [.ok, .keyError, .ok, .ok, .popped 3 (3, 30) true 2, .keyError, .storeKeyError] := by
  decide

private theorem delivered {key : O → Option K} (k : K) (os : List (Op K O)) :
    ∀ {s : State K O} {w : Waiting K O} (n : Nat), Inv s w → k ∈ s.items.keys →
    k ∈ s.queue.take n → (∀ o ∈ os, ¬ Clears key k o) → n ≤ (os.filter isPop).length →
    ∃ e ∈ trace key s os, Hands k e := by
  induction os with
  | nil =>
    intro s w n _ _ hn _ hc
    simp at hc
    subst hc
    simp at hn
  | cons o os ih =>
    intro s w n h hk hn hc hl
    rcases progress h k hk n hn o (hc o (by simp)) with h1 | ⟨h1, h2, h3⟩
    · exact ⟨_, List.mem_cons_self .., h1⟩
    · obtain ⟨e, he, he2⟩ := ih (n - dropped [(o, (step key s o).2)]) (inv_step h o) h1 h2
        (fun p hp => hc p (by simp [hp])) (by
          cases hp : isPop o with
          | true =>
            have := h3 hp
            simp only [List.filter_cons, hp, if_true, List.length_cons] at hl
            omega
          | false =>
            simp only [List.filter_cons, hp] at hl
            simp at hl
            omega)
      exact ⟨e, List.mem_cons_of_mem _ he, he2⟩

/-- **C21.** A key that is waiting has a queue entry, and if it is among the first `n` entries
it is handed over within the next `n` pops, whatever is called in between (short of deleting it
or replacing everything). -/
theorem C21_delivered (key : O → Option K) (os : List (Op K O)) (k : K)
    (hk : (waiting key (trace key init os) k).isSome) :
    k ∈ (exec key init os).queue ∧
    ∀ n, k ∈ (exec key init os).queue.take n → ∀ os', (∀ o ∈ os', ¬ Clears key k o) →
      n ≤ (os'.filter isPop).length → ∃ e ∈ trace key (exec key init os) os', Hands k e := by
  have hi := inv_exec key os (inv_init (K := K) (O := O))
  rw [waiting, ← hi.get] at hk
  have hk := PyDict.get?_isSome.1 hk
  exact ⟨hi.queued k hk, fun n hn os' hc hl => delivered k os' n hi hk hn hc hl⟩

/-- **C21.** A queue entry exists only for a call that put it there: the queue is never longer
than the number of objects put in so far. -/
theorem C21_queue_length (key : O → Option K) (os : List (Op K O)) :
    (exec key init os).queue.length + dropped (trace key init os) ≤
      (os.map puts).sum := by
  suffices H : ∀ (os : List (Op K O)) (s : State K O) (w : Waiting K O), Inv s w →
      (exec key s os).queue.length + dropped (trace key s os) ≤ s.queue.length +
      (os.map puts).sum by
    have := H os init _ inv_init
    simpa [init] using this
  have hadd : ∀ (s : State K O) k o, (addIfNotPresent s k o).queue.length ≤ s.queue.length + 1 := by
    intro s k o
    simp only [addIfNotPresent]; split <;> simp
  have hb : ∀ (l : List O) (d items : PyDict K O), buildItems key l d = some items →
      items.length ≤ d.length + l.length := by
    have hset : ∀ (d : PyDict K O) k o, (d.set k o).length ≤ d.length + 1 := by
      intro d k o
      induction d with
      | nil => simp [PyDict.set]
      | cons p d ih =>
        simp only [PyDict.set]
        split
        · simp
        · simp; omega
    intro l
    induction l with
    | nil => intro d items h; simp only [buildItems, Option.some.injEq] at h; subst h; simp
    | cons o l ih =>
      intro d items h
      simp only [buildItems] at h
      cases hk : key o with
      | none => simp [hk] at h
      | some k =>
        simp only [hk] at h
        have := ih _ _ h
        have := hset d k o
        simp only [List.length_cons]; omega
  intro os
  induction os with
  | nil => intro s w _; simp [exec, trace, dropped]
  | cons o os ih =>
    intro s w h
    have := ih _ _ (inv_step (key := key) h o)
    have e : trace key s (o :: os) = [(o, (step key s o).2)] ++ trace key (step key s o).1 os := rfl
    rw [e, dropped_append]
    simp only [exec, List.map_cons, List.sum_cons]
    have one : (step key s o).1.queue.length + dropped [(o, (step key s o).2)] ≤
        s.queue.length + puts o := by
      cases o with
      | add x => simp only [step]; cases key x <;> simp [dropped, add, puts]; split <;> simp
      | update x => simp only [step]; cases key x <;> simp [dropped, add, puts]; split <;> simp
      | delete x =>
        simp only [step]
        cases key x with
        | none => simp [dropped, puts]
        | some k => simp only [delete]; split <;> simp [dropped, puts]
      | list => simp [step, dropped, puts]
      | listKeys => simp [step, dropped, puts]
      | get x => simp only [step]; cases key x <;> simp [dropped, puts]
      | getByKey k => simp [step, dropped, puts]
      | replace l =>
        simp only [step]
        cases hbi : buildItems key l [] with
        | none => simp [dropped, puts]
        | some items =>
          have := hb l [] items hbi
          simp [dropped, replace, PyDict.keys, puts] at this ⊢
          omega
      | resync =>
        have : s.items.keys.filter (fun k => k ∉ s.queue) = [] := by
          rw [List.filter_eq_nil_iff]
          intro k hk
          simp [h.queued k hk]
        simp only [step, resync, this]
        simp [dropped, puts]
      | addIfNotPresent x =>
        simp only [step]
        cases key x with
        | none => simp [dropped, puts]
        | some k => simpa [dropped, puts] using hadd s k x
      | hasSynced => simp [step, dropped, puts]
      | close => simp [step, dropped, puts]
      | isClosed => simp [step, dropped, puts]
      | pop r =>
        simp only [step]
        rcases popLoop_cases s r s.queue 0 with ⟨pre, j, rest, o, h1, h2, h3, h4⟩ | ⟨h1, h2⟩
        · rw [h4]
          have hl : s.queue.length = pre.length + 1 + rest.length := by rw [h1]; simp; omega
          cases r with
          | ok => simp [finish, dropped, puts]; omega
          | error => simp [finish, dropped, puts]; omega
          | requeue c =>
            have := hadd { s with
              queue := rest
              count := s.count - (0 + pre.length + 1)
              items := s.items.del j } j o
            simp only [finish, dropped, puts] at this ⊢
            omega
        · rw [h2]
          split <;> simp [dropped]
    omega

/-- non-vacuity: key 1 is deleted and added again, key 2 is requeued once; the stale entry of 3
is skipped -/
example : trace exKey init [.add (3, 0), .add (1, 10), .add (2, 20), .delete (1, 0), .delete (3, 0),
      .add (1, 11), .pop .ok, .pop (.requeue false), .pop .error, .pop .ok]
    = [(.add (3, 0), .ok), (.add (1, 10), .ok), (.add (2, 20), .ok), (.delete (1, 0), .ok),
       (.delete (3, 0), .ok), (.add (1, 11), .ok), (.pop .ok, .popped 1 (1, 11) false 2),
       (.pop (.requeue false), .popped 2 (2, 20) false 1), (.pop .error, .popped 2 (2, 20) true 2),
       (.pop .ok, .blocked 0)] ∧
    (waiting exKey (trace exKey init [.add (3, 0), .add (1, 10), .delete (3, 0)]) 1).isSome ∧
    1 ∈ (exec exKey init [.add (3, 0), .add (1, 10), .delete (3, 0)]).queue.take 2 := by decide

/-! ## C22 -/

/-- The number of distinct keys of a list. -/
def distinctKeys (key : O → Option K) (l : List O) : Nat := (l.filterMap key).dedup.length

private theorem buildItems_keys (key : O → Option K) (l : List O) : ∀ (d items : PyDict K O),
    d.WF → buildItems key l d = some items →
    items.WF ∧ ∀ k, k ∈ items.keys ↔ k ∈ d.keys ∨ k ∈ l.filterMap key := by
  induction l with
  | nil => intro d items hw h; simp only [buildItems, Option.some.injEq] at h; subst h; simp [hw]
  | cons o l ih =>
    intro d items hw h
    simp only [buildItems] at h
    cases hk : key o with
    | none => simp [hk] at h
    | some k =>
      simp only [hk] at h
      obtain ⟨h1, h2⟩ := ih _ _ (PyDict.WF_set hw k o) h
      refine ⟨h1, ?_⟩
      intro j
      rw [h2, PyDict.mem_keys_set]
      simp [hk]
      tauto

private theorem buildItems_length (key : O → Option K) (l : List O) (items : PyDict K O)
    (h : buildItems key l [] = some items) : items.length = distinctKeys key l := by
  obtain ⟨h1, h2⟩ := buildItems_keys key l [] items PyDict.WF_nil h
  have hp : items.keys.Perm (l.filterMap key).dedup := by
    rw [List.perm_ext_iff_of_nodup h1 (List.nodup_dedup _)]
    intro k
    rw [h2, List.mem_dedup]; simp
  have := hp.length_eq
  simpa [PyDict.keys, distinctKeys] using this

/-- **C22.** Nothing happened: not synced. -/
theorem C22_not_synced_initially (key : O → Option K) :
    (step key (init : State K O) .hasSynced).2 = .flag false := rfl

/-- **C22.** When the first call is `replace(l)` (and succeeds), `has_synced()` answers from then
on exactly whether as many queue entries were taken off as `l` has distinct keys.  (This holds
with further calls to `replace`, too.) -/
theorem C22_synced_iff (key : O → Option K) (l : List O) (hl : ∀ o ∈ l, (key o).isSome)
    (os : List (Op K O)) :
    (step key (exec key init (.replace l :: os)) .hasSynced).2 =
      .flag (decide (distinctKeys key l ≤ dropped (trace key init (.replace l :: os)))) := by
  obtain ⟨items, hb, -⟩ := (Store.buildItems_spec key l Store.Spec.Book.empty []
    Store.Sim.empty).1 (by simpa using hl)
  simp only [exec, trace, step, hb, dropped]
  obtain ⟨h1, h2⟩ := count_exec key os (replace init items) rfl
  simp only [hasSynced, h1, h2, Bool.true_and, Out.flag.injEq]
  have hc : (replace (init : State K O) items).count = distinctKeys key l := by
    simp [replace, init, buildItems_length key l items hb]
  rw [hc]
  by_cases h : distinctKeys key l ≤ dropped (trace key (replace init items) os)
  · simp [h]
  · simp only [h, decide_false, beq_eq_false_iff_ne, ne_eq]; omega

/-- The call counts as the first population of the queue: it changes the queue or tries to. -/
def Populates (key : O → Option K) : Op K O → Bool
  | .add o | .update o | .addIfNotPresent o | .delete o => (key o).isSome
  | .replace l => l.all fun o => (key o).isSome
  | _ => false

/-- How many queue entries `has_synced` then waits for. -/
def initial (key : O → Option K) : Op K O → Nat
  | .replace l => distinctKeys key l
  | _ => 0

private theorem unpopulated_step (key : O → Option K) (c : Bool) (o : Op K O) (h : Populates key o = false) :
    ∃ c', (step key (⟨[], [], false, 0, c⟩ : State K O) o).1 = ⟨[], [], false, 0, c'⟩ := by
  cases o with
  | add o | update o | addIfNotPresent o | delete o =>
    simp only [Populates, Option.isSome_eq_false_iff, Option.isNone_iff_eq_none] at h
    exact ⟨c, by simp [step, h]⟩
  | replace l =>
    cases hb : buildItems key l [] with
    | none => exact ⟨c, by simp [step, hb]⟩
    | some items =>
      exfalso
      have := (Store.buildItems_spec key l Store.Spec.Book.empty [] Store.Sim.empty).2
      simp only [Populates, List.all_eq_false] at h
      rw [this (by simpa using h)] at hb
      cases hb
  | resync => exact ⟨c, rfl⟩
  | pop r => exact ⟨c, by simp [step, popLoop]⟩
  | close => exact ⟨true, rfl⟩
  | get x => exact ⟨c, by simp only [step]; cases key x <;> rfl⟩
  | _ => exact ⟨c, rfl⟩

private theorem unpopulated_exec (key : O → Option K) (os : List (Op K O)) : ∀ (c : Bool),
    (∀ o ∈ os, Populates key o = false) →
    ∃ c', exec key (⟨[], [], false, 0, c⟩ : State K O) os = ⟨[], [], false, 0, c'⟩ := by
  induction os with
  | nil => intro c _; exact ⟨c, rfl⟩
  | cons o os ih =>
    intro c h
    obtain ⟨c', hc⟩ := unpopulated_step key c o (h o (List.mem_cons_self ..))
    simp only [exec, hc]
    exact ih c' fun p hp => h p (List.mem_cons_of_mem _ hp)

/-- **C22.** `has_synced()` after any calls: false until a call populates the queue; from then on it answers
whether as many entries have been taken off since as that call put in if it was `replace`, and true if it was
another one. -/
theorem C22_synced_exact (key : O → Option K) (pre post : List (Op K O)) (o : Op K O)
    (hpre : ∀ p ∈ pre, Populates key p = false) :
    (step key (exec key init pre) .hasSynced).2 = .flag false ∧
    (Populates key o = true →
      (step key (exec key init (pre ++ o :: post)) .hasSynced).2 =
        .flag (decide (initial key o ≤ dropped (trace key (exec key init (pre ++ [o])) post)))) := by
  obtain ⟨c, hc⟩ := unpopulated_exec key pre false hpre
  have hi : (init : State K O) = ⟨[], [], false, 0, false⟩ := rfl
  have happ : ∀ (a b : List (Op K O)) (s : State K O), exec key s (a ++ b) = exec key (exec key s a) b := by
    intro a b
    induction a with
    | nil => intro s; rfl
    | cons x a ih => intro s; simp only [List.cons_append, exec, ih]
  refine ⟨by rw [hi, hc]; rfl, fun hp => ?_⟩
  have hone : ((step key (⟨[], [], false, 0, c⟩ : State K O) o).1).populated = true ∧
      ((step key (⟨[], [], false, 0, c⟩ : State K O) o).1).count = initial key o := by
    cases o with
    | add x | update x | addIfNotPresent x | delete x =>
      simp only [Populates] at hp
      obtain ⟨k, hk⟩ := Option.isSome_iff_exists.1 hp
      simp [step, hk, add, addIfNotPresent, delete, initial, PyDict.has, PyDict.get?]
    | replace l =>
      simp only [Populates, List.all_eq_true] at hp
      obtain ⟨items, hb, -⟩ := (Store.buildItems_spec key l Store.Spec.Book.empty []
        Store.Sim.empty).1 (by simpa using hp)
      simp [step, hb, replace, initial, buildItems_length key l items hb]
    | _ => cases hp
  rw [happ, happ, hi, hc]
  obtain ⟨h1, h2⟩ := count_exec key post _ hone.1
  rw [hone.2] at h2
  show Out.flag (_ && _) = Out.flag _
  simp only [exec]
  rw [h1, h2]
  simp only [Bool.true_and, Out.flag.injEq]
  rw [Bool.eq_iff_iff]
  rw [beq_iff_eq]
  exact Nat.sub_eq_zero_iff_le.trans (decide_eq_true_iff).symm

/-- `add` first: synced at once, and a later `replace` does not change that. -/
example : (step exKey (exec exKey init [.hasSynced, .add (1, 1), .replace [(2, 2), (3, 3)]]) .hasSynced).2
    = .flag true ∧ Populates exKey (.add (1, 1)) = true ∧ Populates exKey .hasSynced = false := by decide

/-- The call deletes key `k`. -/
def Deletes (key : O → Option K) (k : K) : Op K O → Prop
  | .delete o => key o = some k
  | _ => False

private theorem handed {key : O → Option K} (k : K) (os : List (Op K O)) :
    ∀ {s : State K O} {w : Waiting K O} (n : Nat), Inv s w → k ∈ s.items.keys →
    k ∈ s.queue.take n → (∀ o ∈ os, isReplace o = false) → n ≤ dropped (trace key s os) →
    (∃ e ∈ trace key s os, Hands k e) ∨ ∃ o ∈ os, Deletes key k o := by
  induction os with
  | nil =>
    intro s w n _ _ hn _ hc
    simp [trace, dropped] at hc
    subst hc
    simp at hn
  | cons o os ih =>
    intro s w n h hk hn hc hl
    by_cases hcl : Clears key k o
    · right
      refine ⟨o, by simp, ?_⟩
      cases o <;> simp only [Clears] at hcl
      · exact hcl
      · have := hc _ (List.mem_cons_self ..)
        simp [isReplace] at this
    · rcases progress h k hk n hn o hcl with h1 | ⟨h1, h2, h3⟩
      · exact Or.inl ⟨_, List.mem_cons_self .., h1⟩
      · have e : trace key s (o :: os)
            = [(o, (step key s o).2)] ++ trace key (step key s o).1 os := rfl
        rw [e, dropped_append] at hl
        rcases ih (n - dropped [(o, (step key s o).2)]) (inv_step h o) h1 h2
          (fun p hp => hc p (by simp [hp])) (by omega) with ⟨e, he, he2⟩ | ⟨p, hp, hp2⟩
        · exact Or.inl ⟨e, List.mem_cons_of_mem _ he, he2⟩
        · exact Or.inr ⟨p, by simp [hp], hp2⟩

/-- **C22.** Once `has_synced()` is true, every key of the first list was handed over or
deleted (histories without a second `replace`). -/
theorem C22_synced_means_consumed (key : O → Option K) (l : List O)
    (hl : ∀ o ∈ l, (key o).isSome) (os : List (Op K O)) (hr : ∀ o ∈ os, isReplace o = false)
    (h : (step key (exec key init (.replace l :: os)) .hasSynced).2 = .flag true)
    (x : O) (hx : x ∈ l) (k : K) (hk : key x = some k) :
    (∃ e ∈ trace key init (.replace l :: os), Hands k e) ∨ ∃ o ∈ os, Deletes key k o := by
  rw [C22_synced_iff key l hl os] at h
  simp only [Out.flag.injEq, decide_eq_true_eq] at h
  obtain ⟨items, hb, -⟩ := (Store.buildItems_spec key l Store.Spec.Book.empty []
    Store.Sim.empty).1 (by simpa using hl)
  have hlen := buildItems_length key l items hb
  have hi := inv_step (key := key) (inv_init (K := K) (O := O)) (.replace l)
  have hmem : k ∈ items.keys := by
    rw [(buildItems_keys key l [] items PyDict.WF_nil hb).2]
    exact Or.inr (List.mem_filterMap.2 ⟨x, hx, hk⟩)
  have hs : (step key (init : State K O) (.replace l)).1 = replace init items := by
    simp only [step, hb]
  rw [hs] at hi
  have hd : dropped (trace key init (.replace l :: os)) = dropped (trace key (replace init items) os) := by
    simp only [trace, step, hb, dropped]
  rw [hd] at h
  rcases handed k os (distinctKeys key l) hi hmem (by
    rw [← hlen]
    have : items.length = (replace (init : State K O) items).queue.length := by
      simp [replace, PyDict.keys]
    rw [this, List.take_length]
    exact hmem) hr h with ⟨e, he, he2⟩ | h2
  · left
    refine ⟨e, ?_, he2⟩
    simp only [trace, hs]
    exact List.mem_cons_of_mem _ he
  · exact Or.inr h2

/-- non-vacuity: three distinct keys in a list of four; synced after the third entry -/
example : (trace exKey init [.replace [(1, 0), (2, 0), (1, 1), (3, 0)], .hasSynced, .add (4, 0),
      .delete (2, 0), .pop .ok, .hasSynced, .pop .ok, .hasSynced]).map Prod.snd
    = [.ok, .flag false, .ok, .ok, .popped 1 (1, 1) false 1, .flag false,
       .popped 3 (3, 0) false 2, .flag true] ∧
    distinctKeys exKey [(1, 0), (2, 0), (1, 1), (3, 0)] = 3 := by decide

/-! ## C23 for `FIFO` -/

/-- `pop` would sleep exactly when nothing is queued and the queue is open. -/
theorem lawful (key : O → Option K) :
    Monitor.Lawful (machine key : Monitor.Machine (State K O) _ _) (fun s =>
      (s.queue = [] ∧ s.closed = false)) := by
  have hpop : ∀ (s : State K O) r, (s.queue = [] ∧ s.closed = false) →
      ((popLoop s r s.queue 0).1.queue = [] ∧ (popLoop s r s.queue 0).1.closed = false) := by
    rintro s r ⟨h1, h2⟩
    rw [h1]
    simp [popLoop, h2]
  refine ⟨?_, ?_, ?_⟩
  · intro s o hp hb
    cases o <;> simp only [machine] at hp <;> try contradiction
    rename_i r
    simp only [machine, step] at hb ⊢
    rcases popLoop_cases s r s.queue 0 with ⟨pre, j, rest, o, h1, h2, h3, h4⟩ | ⟨h1, h2⟩
    · rw [h4] at hb
      cases r <;> simp [finish] at hb
    · rw [h2] at hb ⊢
      cases hc : s.closed with
      | true => simp [hc] at hb
      | false => simp
  · rintro s o hp ⟨h1, h2⟩ hn
    cases o <;> simp only [machine] at hp <;> try contradiction
    all_goals simp only [machine, notifies, step] at hn ⊢
    case add x => cases hk : key x <;> simp [hk] at hn ⊢; exact ⟨h1, h2⟩
    case update x => cases hk : key x <;> simp [hk] at hn ⊢; exact ⟨h1, h2⟩
    case delete x =>
      cases hk : key x with
      | none => exact ⟨h1, h2⟩
      | some k => simp only [delete]; split <;> exact ⟨h1, h2⟩
    case list => exact ⟨h1, h2⟩
    case listKeys => exact ⟨h1, h2⟩
    case get x => cases hk : key x <;> exact ⟨h1, h2⟩
    case getByKey => exact ⟨h1, h2⟩
    case replace l =>
      cases hb : buildItems key l [] with
      | none => exact ⟨h1, h2⟩
      | some items =>
        simp only [hb] at hn ⊢
        simp only [Bool.not_eq_false', List.isEmpty_iff] at hn
        subst hn
        exact ⟨rfl, h2⟩
    case resync =>
      simp only [Bool.not_eq_false', List.isEmpty_iff] at hn
      exact ⟨hn, h2⟩
    case addIfNotPresent x =>
      cases hk : key x with
      | none => exact ⟨h1, h2⟩
      | some k =>
        simp only [hk, Bool.not_eq_false'] at hn ⊢
        simp only [addIfNotPresent, hn, if_true]
        exact ⟨h1, h2⟩
    case hasSynced => exact ⟨h1, h2⟩
    case isClosed => exact ⟨h1, h2⟩
  · intro s o hp hs
    cases o <;> simp only [machine] at hp <;> try contradiction
    exact hpop s _ hs

/-- **C23 (FIFO).** In every interleaving of tasks: once the queue is closed, or as soon as
something is queued, no task is left asleep in `pop`; the notified ones are ready to run. -/
theorem C23_fifo_nobody_sleeps (key : O → Option K) (es : List (Monitor.Ev (Op K O))) :
    let s := Monitor.exec (machine key) ⟨init, [], []⟩ es
    (s.core.closed = true ∨ s.core.queue ≠ []) → s.asleep = [] := by
  intro s h
  have := Monitor.inv_exec (lawful key) es
    (s := ⟨(init : State K O), [], []⟩) (by intro h; simp at h)
  by_contra hne
  obtain ⟨h1, h2⟩ := this hne
  rcases h with h | h
  · rw [show s.core.closed = _ from h2] at h; simp at h
  · exact h h1

/-- **C23 (FIFO).** On a closed queue `pop` never sleeps: if something is waiting it hands it
over, otherwise it raises `FIFOClosedError`. -/
theorem C23_fifo_closed_pop (key : O → Option K) (os : List (Op K O)) (r : Outcome)
    (hc : (exec key init os).closed = true) :
    ((∃ k, (waiting key (trace key init os) k).isSome) ∧
      ∃ k o b n, (step key (exec key init os) (.pop r)).2 = .popped k o b n) ∨
    ((∀ k, waiting key (trace key init os) k = none) ∧
      ∃ n, (step key (exec key init os) (.pop r)).2 = .closedError n) := by
  have hi := inv_exec key os (inv_init (K := K) (O := O))
  simp only [step]
  rcases popLoop_cases (exec key init os) r (exec key init os).queue 0 with
    ⟨pre, j, rest, o', h1, h2, h3, h4⟩ | ⟨h1, h2⟩
  · left
    refine ⟨⟨j, by rw [waiting, ← hi.get, h3]; rfl⟩, ?_⟩
    rw [h4]
    cases r
    · exact ⟨_, _, _, _, rfl⟩
    · exact ⟨_, _, _, _, rfl⟩
    · exact ⟨_, _, _, _, rfl⟩
  · right
    refine ⟨?_, ?_⟩
    · intro k
      rw [waiting, ← hi.get, PyDict.get?_eq_none]
      intro hk
      have := h1 k (hi.queued k hk)
      rw [PyDict.get?_eq_none] at this
      exact this hk
    · rw [h2]
      simp [hc]

private theorem closed_step (key : O → Option K) (s : State K O) (o : Op K O) :
    (step key s o).1.closed = true ↔ s.closed = true ∨ o = .close := by
  have hp : ∀ (q : List K) (s : State K O) (r : Outcome) (n : Nat), (popLoop s r q n).1.closed = s.closed := by
    intro q
    induction q with
    | nil => intro s r n; simp only [popLoop]
    | cons k q ih =>
      intro s r n
      simp only [popLoop]
      split
      · exact ih s r _
      · cases r <;> simp only [finish, addIfNotPresent]
        split <;> rfl
  cases o with
  | add x | update x | delete x | addIfNotPresent x | get x =>
    simp only [step]
    cases key x <;> simp [add, delete, addIfNotPresent] <;> split <;> simp
  | replace l => simp only [step]; cases buildItems key l [] <;> simp [replace]
  | pop r => simp [step, hp]
  | _ => simp [step, resync]

private theorem closed_exec (key : O → Option K) (os : List (Op K O)) : ∀ (s : State K O),
    (exec key s os).closed = true ↔ s.closed = true ∨ .close ∈ os := by
  induction os with
  | nil => intro s; simp [exec]
  | cons o os ih =>
    intro s
    simp only [exec, ih, closed_step, List.mem_cons]
    constructor
    · rintro ((h | h) | h)
      · exact Or.inl h
      · exact Or.inr (Or.inl h.symm)
      · exact Or.inr (Or.inr h)
    · rintro (h | h | h)
      · exact Or.inl (Or.inl h)
      · exact Or.inl (Or.inr h.symm)
      · exact Or.inr h

/-- **C23 (FIFO).** `is_closed()` answers whether `close` has been called; before that, `pop` waits exactly if
nothing is waiting to be handed over, and never raises `FIFOClosedError`. -/
theorem C23_fifo_open_pop (key : O → Option K) (os : List (Op K O)) (r : Outcome) :
    (step key (exec key init os) .isClosed).2 = .flag (os.any fun o => o matches .close) ∧
    (.close ∉ os →
      ((∃ k, (waiting key (trace key init os) k).isSome) ∧
        ∃ k o b n, (step key (exec key init os) (.pop r)).2 = .popped k o b n) ∨
      ((∀ k, waiting key (trace key init os) k = none) ∧
        ∃ n, (step key (exec key init os) (.pop r)).2 = .blocked n)) := by
  have hcl := closed_exec key os init
  simp only [show (init : State K O).closed = false from rfl, Bool.false_eq_true, false_or] at hcl
  refine ⟨?_, fun hn => ?_⟩
  · simp only [step, Out.flag.injEq]
    rw [Bool.eq_iff_iff, hcl, List.any_eq_true]
    constructor
    · intro h
      exact ⟨_, h, rfl⟩
    · rintro ⟨o, ho, h⟩
      cases o <;> first | exact ho | cases h
  have hc : (exec key init os).closed = false := by
    cases hc : (exec key init os).closed with
    | false => rfl
    | true => exact absurd (hcl.1 hc) hn
  have hi := inv_exec key os (inv_init (K := K) (O := O))
  simp only [step]
  rcases popLoop_cases (exec key init os) r (exec key init os).queue 0 with
    ⟨pre, j, rest, o', h1, h2, h3, h4⟩ | ⟨h1, h2⟩
  · left
    refine ⟨⟨j, by rw [waiting, ← hi.get, h3]; rfl⟩, ?_⟩
    rw [h4]
    cases r
    · exact ⟨_, _, _, _, rfl⟩
    · exact ⟨_, _, _, _, rfl⟩
    · exact ⟨_, _, _, _, rfl⟩
  · right
    refine ⟨?_, ?_⟩
    · intro k
      rw [waiting, ← hi.get, PyDict.get?_eq_none]
      intro hk
      have := h1 k (hi.queued k hk)
      rw [PyDict.get?_eq_none] at this
      exact this hk
    · rw [h2]
      simp [hc]

private theorem exec_foldl (key : O → Option K) (os : List (Op K O)) : ∀ s : State K O,
    os.foldl (fun c o => ((machine key).step c o).1) s = exec key s os := by
  induction os with
  | nil => intro s; rfl
  | cons o os ih => intro s; exact ih _

private theorem calls_answer (key : O → Option K) (s : State K O) (o : Op K O) (h : (machine key).isPop o = false) :
    (machine key).isBlocked ((machine key).step s o).2 = false := by
  have hb : ∀ x : Out K O, (∀ n, x ≠ .blocked n) → (machine key).isBlocked x = false := by
    intro x hx
    cases x <;> first | rfl | exact absurd rfl (hx _)
  apply hb
  intro n
  cases o <;> simp only [machine] at h <;> try contradiction
  all_goals simp only [machine, step, delete]
  all_goals repeat' split
  all_goals simp

/-- **C23 (FIFO).** In every interleaving: nobody is answered "went to sleep"; and once the queue is
closed, or while something is there, every task that is still inside `pop` can go on and then gets its
answer: an object, or `FIFOClosedError` if there is none. -/
theorem C23_fifo_released (key : O → Option K) (es : List (Monitor.Ev (Op K O)))
    (hp : ∀ e ∈ es, Monitor.Proper (machine key) e) :
    let m : Monitor.Machine (State K O) _ _ := machine key
    let s := Monitor.exec m ⟨init, [], []⟩ es
    (∀ e n, (e, some (Out.blocked n)) ∉ Monitor.trace m ⟨init, [], []⟩ es) ∧
    ∀ t, Monitor.inside t false (Monitor.trace m ⟨init, [], []⟩ es) = true → ∀ r,
      ((step key s.core .listKeys).2 ≠ .keys [] →
        ∃ k o b n, (Monitor.step m s (.resume t (.pop r))).2 = some (.popped k o b n)) ∧
      (.call .close ∈ es → (step key s.core .listKeys).2 = .keys [] →
        ∃ n, (Monitor.step m s (.resume t (.pop r))).2 = some (.closedError n)) := by
  intro m s
  refine ⟨fun e n he => ?_, fun t ht r => ?_⟩
  · have := Monitor.answers m (calls_answer key) es _ e _ he
    simp [m, machine] at this
  obtain ⟨os, h1, h2⟩ := Monitor.core_exec m es ⟨init, [], []⟩
  rw [exec_foldl] at h1
  have hcore : s.core = exec key init os := h1
  have htasks := Monitor.tasks_trace m (s := ⟨init, [], []⟩) (b := fun _ => false) ⟨by simp, by simp⟩ es hp
  have hin : t ∈ s.asleep ++ s.woken := (htasks.2 t).1 ht
  have go : s.asleep = [] → (∀ n, (step key s.core (.pop r)).2 ≠ .blocked n) →
      (Monitor.step m s (.resume t (.pop r))).2 = some (step key s.core (.pop r)).2 := by
    intro h0 hb
    rw [h0] at hin
    refine Monitor.resumes m s t (.pop r) rfl hin ?_
    show (machine key).isBlocked (step key s.core (.pop r)).2 = false
    generalize (step key s.core (.pop r)).2 = x at hb
    cases x <;> first | rfl | exact absurd rfl (hb _)
  have awake : s.core.closed = true ∨ s.core.queue ≠ [] → s.asleep = [] := C23_fifo_nobody_sleeps key es
  have hi := inv_exec key os (inv_init (K := K) (O := O))
  have hnone : (∀ k, waiting key (trace key init os) k = none) → s.core.items.keys = [] := by
    intro h
    rw [List.eq_nil_iff_forall_not_mem]
    intro k hk
    have := h k
    rw [hcore] at hk
    rw [waiting, ← hi.get, PyDict.get?_eq_none] at this
    exact this hk
  have hsome : (∃ k, (waiting key (trace key init os) k).isSome) → s.core.items.keys ≠ [] := by
    rintro ⟨k, hk⟩ h0
    rw [waiting, ← hi.get, ← hcore, PyDict.get?_eq_none.2 (by rw [h0]; simp)] at hk
    simp at hk
  constructor
  · intro hk
    have hk : s.core.items.keys ≠ [] := by
      intro h0; apply hk; simp only [step, h0]
    have hq : s.core.queue ≠ [] := by
      intro h0
      obtain ⟨k, hk'⟩ := List.exists_mem_of_ne_nil _ hk
      rw [hcore] at hk' h0
      have := hi.queued k hk'
      rw [h0] at this
      cases this
    have : ∃ k o b n, (step key (exec key init os) (.pop r)).2 = .popped k o b n := by
      by_cases hcl : (exec key init os).closed = true
      · rcases C23_fifo_closed_pop key os r hcl with ⟨-, h⟩ | ⟨h, -⟩
        · exact h
        · exact absurd (hnone h) hk
      · have hnc : Op.close ∉ os := by
          intro hc
          exact hcl ((closed_exec key os init).2 (.inr hc))
        rcases (C23_fifo_open_pop key os r).2 hnc with ⟨-, h⟩ | ⟨h, -⟩
        · exact h
        · exact absurd (hnone h) hk
    obtain ⟨k, o, b, n, h⟩ := this
    refine ⟨k, o, b, n, ?_⟩
    rw [go (awake (.inr hq)) (by rw [hcore, h]; simp), hcore, h]
  · intro hc hk
    have hk : s.core.items.keys = [] := by simpa [step] using hk
    have hcl : (exec key init os).closed = true := (closed_exec key os init).2 (.inr ((h2 .close rfl).2 hc))
    rcases C23_fifo_closed_pop key os r hcl with ⟨h, -⟩ | ⟨-, n, h⟩
    · exact absurd hk (hsome h)
    · refine ⟨n, ?_⟩
      rw [go (awake (.inl (by rw [hcore]; exact hcl))) (by rw [hcore, h]; simp), hcore, h]

-- the hypotheses: tasks 1 and 2 are inside `pop` when the queue is closed
example :
    let m := machine exKey
    let es := [.pop 1 (.pop .ok), .pop 2 (.pop .ok), .call .close]
    (∀ e ∈ es, Monitor.Proper m e) ∧ .call .close ∈ es ∧
    Monitor.inside 2 false (Monitor.trace m ⟨init, [], []⟩ es) = true := by
  refine ⟨?_, by simp, rfl⟩
  intro e he
  simp only [List.mem_cons, List.not_mem_nil, or_false] at he
  rcases he with rfl | rfl | rfl <;> rfl

/-- non-vacuity: two tasks sleep, `close()` wakes both, both get `FIFOClosedError` -/
example :
    let m := machine exKey
    let s := Monitor.exec m ⟨init, [], []⟩ [.pop 1 (.pop .ok), .pop 2 (.pop .ok)]
    s.asleep = [1, 2] ∧
    (Monitor.exec m s [.call .close]).asleep = [] ∧
    (Monitor.exec m s [.call .close]).woken = [1, 2] ∧
    (Monitor.step m (Monitor.exec m s [.call .close]) (.resume 2 (.pop .ok))).2
      = some (.closedError 0) ∧
    (Monitor.step m (Monitor.exec m s [.call (.add (5, 5))]) (.resume 2 (.pop .ok))).2
      = some (.popped 5 (5, 5) false 1) := by decide

end Aiok8s.Fifo
