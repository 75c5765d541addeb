import Verif.Spec.ResyncReach
import Verif.Proof.SharedInformer
/-!
# Lemmas for resyncs of a shared informer (C99)
-/
set_option linter.unusedSimpArgs false
set_option linter.unusedSectionVars false
namespace Aiok8s.ResyncReach
open Aiok8s.DeltaFifo (Obj Delta Deltas DType keyOf)
open Aiok8s.DeltaFifo.Spec (Entry merge pendingOf entries)
open Aiok8s.Informer (Note applyOne nextDeltas evEntries Inv opOf OwnChanges viewOf)
open Aiok8s.SharedInformer (Good okPop pop_inf handleDeltas distribute receive sent_pop)
open Aiok8s.Source.Spec (noteKey)
open Spec
variable {K O : Type} [DecidableEq K]

/-! ## One event of the shared informer -/

/-- Changes leave pending what is pending. -/
theorem pending_changes {key : O → Option K} (es : List (Entry K O)) :
    ∀ {log : List (Entry K O)} (k : K), OwnChanges key es → pendingOf k log ≠ [] →
    pendingOf k (log ++ es) ≠ [] := by
  induction es with
  | nil => intro log k _ h; simpa using h
  | cons e es ih =>
    intro log k he h
    obtain ⟨j, d, rfl, h1⟩ := he e (by simp)
    rw [List.append_cons]
    refine ih k (fun e' h' => he e' (by simp [h'])) ?_
    rw [DeltaFifo.pendingOf_change]
    split
    · exact DeltaFifo.merge_ne_nil _ _
    · exact h

theorem ev_call {key : O → Option K} {s : Informer.State K O} {log : List (Entry K O)}
    (e : Informer.Ev K O) (o : DeltaFifo.Op K O) (ho : opOf s e = some o) :
    OwnChanges key (evEntries key s log e) ∧ (Informer.step key s e).1.items = s.items := by
  have he : evEntries key s log e = entries key log (o, (Informer.call key s o).2.2) := by
    cases e <;> simp_all [evEntries, Informer.step_op ho] <;> simp [opOf] at ho
  rw [he, Informer.step_op ho]
  exact ⟨Informer.own_entries log e o _ ho, rfl⟩

/-- The first of some deltas of `k` makes a notification about `k`. -/
theorem head_note {key : O → Option K} {items : PyDict K (Obj K O)} {k : K} {ds : Deltas K O}
    (hne : ds ≠ []) (hk : ∀ d ∈ ds, keyOf key d.object = some k) :
    ∃ n ∈ (handleDeltas key items ds).2.map Prod.fst, noteKey key n = some k := by
  cases ds with
  | nil => exact absurd rfl hne
  | cons d ds =>
    have hd := hk d (by simp)
    simp only [handleDeltas, applyOne, hd]
    by_cases h1 : d.type = .deleted
    · exact ⟨.onDelete d.object, by simp [h1], hd⟩
    · cases hg : items.get? k with
      | none => exact ⟨.onAdd d.object, by simp [h1], hd⟩
      | some y => exact ⟨.onUpdate y d.object, by simp [h1], hd⟩

/-- Handler `i` has been told about `k` after its first notifications `old`, or will be by the next pop of
`k`. -/
def Coming (key : O → Option K) (i : Nat) (k : K) (old : List (Note K O)) (s : SharedInformer.State K O)
    (log : List (Entry K O)) : Prop :=
  ∃ new, s.sent[i]? = some (old ++ new) ∧
    (pendingOf k log ≠ [] ∨ ∃ n ∈ new, noteKey key n = some k)

/-- It stays so, as long as the handler is syncing. -/
theorem coming_step {key : O → Option K} {i : Nat} {k : K} {old : List (Note K O)}
    {s : SharedInformer.State K O} {log : List (Entry K O)} (hi : Inv key s.inf log)
    (hsy : i ∈ s.syncing) (hc : Coming key i k old s log) (e : SharedInformer.Ev K O) :
    ∃ log', Inv key (SharedInformer.step key s e).inf log' ∧
      Coming key i k old (SharedInformer.step key s e) log' := by
  obtain ⟨new, h1, h2⟩ := hc
  have hq : ∀ (e : Informer.Ev K O) (o : DeltaFifo.Op K O), opOf s.inf e = some o →
      ∃ log', Inv key (SharedInformer.onQueue key s e).inf log' ∧
        Coming key i k old (SharedInformer.onQueue key s e) log' := by
    intro e o ho
    unfold SharedInformer.onQueue
    split
    · refine ⟨_, (Informer.inv_step hi e).1, new, h1, ?_⟩
      rcases h2 with h2 | h2
      · exact Or.inl (pending_changes _ k (ev_call e o ho).1 h2)
      · exact Or.inr h2
    · exact ⟨log, hi, new, h1, h2⟩
  have hlt : i < s.sent.length := (List.getElem?_eq_some_iff.1 h1).1
  cases e with
  | add x => exact hq _ _ rfl
  | update x => exact hq _ _ rfl
  | delete x => exact hq _ _ rfl
  | replace xs => exact hq _ _ rfl
  | resync => exact hq _ _ rfl
  | start => exact ⟨log, hi, new, h1, h2⟩
  | check due => exact ⟨log, hi, new, h1, h2⟩
  | register =>
    refine ⟨log, hi, new, ?_, h2⟩
    simp only [SharedInformer.step]
    rw [List.getElem?_append_left hlt]
    exact h1
  | pop =>
    simp only [SharedInformer.step]
    split
    · rcases pop_inf hi with ⟨-, h3, -⟩ | ⟨j, hj, he, hkj, h3, h4, h5⟩
      · rw [h3]; exact ⟨log, hi, new, h1, h2⟩
      · rw [h3]
        refine ⟨_, (Informer.inv_step hi okPop).1,
          new ++ receive true (handleDeltas key s.inf.items (pendingOf j log)).2, ?_, ?_⟩
        · simp only
          rw [sent_pop, h1]
          simp [hsy]
        · rcases h2 with h2 | ⟨n, hn, hnk⟩
          · by_cases hjk : j = k
            · subst hjk
              right
              obtain ⟨n, hn, hnk⟩ := head_note (items := s.inf.items) h2 hkj
              refine ⟨n, ?_, hnk⟩
              rw [SharedInformer.receive_true]
              exact List.mem_append_right _ hn
            · left
              rw [(Informer.pop_other hi (fun _ => .ok) k (by rw [hj]; simpa using hjk)).2]
              exact h2
          · exact Or.inr ⟨n, List.mem_append_left _ hn, hnk⟩
    · exact ⟨log, hi, new, h1, h2⟩

/-! ## The whole -/

/-- What always holds. -/
structure Fine (key : O → Option K) (s : State K O) : Prop where
  good : Good key s.s
  len : s.r.listeners.length = s.s.sent.length
  run : s.forcing = true → s.s.started = true
  same : s.r.started = s.s.started

theorem onQueue_sent {key : O → Option K} (s : SharedInformer.State K O) (e : Informer.Ev K O) :
    (SharedInformer.onQueue key s e).sent = s.sent ∧ (SharedInformer.onQueue key s e).started = s.started ∧
    (SharedInformer.onQueue key s e).syncing = s.syncing := by
  unfold SharedInformer.onQueue
  split <;> exact ⟨rfl, rfl, rfl⟩

theorem pop_len {key : O → Option K} (s : SharedInformer.State K O) :
    (SharedInformer.step key s .pop).sent.length = s.sent.length ∧
    (SharedInformer.step key s .pop).started = s.started ∧
    (SharedInformer.step key s .pop).syncing = s.syncing := by
  simp only [SharedInformer.step]
  split
  · rename_i h
    simp only [SharedInformer.pop]
    split
    · exact ⟨rfl, rfl, rfl⟩
    · exact ⟨by simp [distribute], rfl, rfl⟩
  · exact ⟨rfl, rfl, rfl⟩

theorem register_len (r : Resync.State) (p : Option ℚ) (now : ℚ) :
    (Resync.register r p now).listeners.length = r.listeners.length + 1 ∧
    (Resync.register r p now).started = r.started := by
  simp only [Resync.register]
  split
  · split
    · simp
    · simp [Resync.checkPeriodChanged]
  · simp

theorem fine_step {key : O → Option K} {s : State K O} (h : Fine key s) (e : Ev K O) :
    Fine key (step key s e) := by
  obtain ⟨hg, hl, hr, hs⟩ := h
  have hq : ∀ e', Good key (SharedInformer.onQueue key s.s e') → Fine key { s with s := SharedInformer.onQueue key s.s e' } := by
    intro e' hg'
    obtain ⟨h1, h2, h3⟩ := onQueue_sent (key := key) s.s e'
    exact ⟨hg', by simp only [h1]; exact hl, by simp only [h2]; exact hr, by simp only [h2]; exact hs⟩
  cases e with
  | add x => exact hq _ (SharedInformer.good_step hg (.add x))
  | update x => exact hq _ (SharedInformer.good_step hg (.update x))
  | delete x => exact hq _ (SharedInformer.good_step hg (.delete x))
  | replace xs => exact hq _ (SharedInformer.good_step hg (.replace xs))
  | pop =>
    obtain ⟨h1, h2, h3⟩ := pop_len (key := key) s.s
    refine ⟨SharedInformer.good_step hg .pop, ?_, ?_, ?_⟩
    · simp only [step, h1]; exact hl
    · simp only [step, h2]; exact hr
    · simp only [step, h2]; exact hs
  | register p now =>
    obtain ⟨h1, h2⟩ := register_len s.r p now
    refine ⟨SharedInformer.good_step hg .register, ?_, hr, ?_⟩
    · simp only [step, Resync.step, SharedInformer.step, h1, List.length_append, List.length_singleton, hl]
    · simp only [step, Resync.step, SharedInformer.step, h2]; exact hs
  | start =>
    exact ⟨SharedInformer.good_step hg .start, hl, fun _ => rfl, rfl⟩
  | check now =>
    simp only [step]
    split
    · rename_i hc
      simp only [Bool.and_eq_true, Bool.not_eq_true'] at hc
      refine ⟨SharedInformer.good_step hg (.check _), ?_, fun _ => hc.1, hs⟩
      simp [Resync.step, Resync.checked, SharedInformer.step, hl]
    · exact ⟨hg, hl, hr, hs⟩
  | resync =>
    simp only [step]
    split
    · obtain ⟨h1, h2, h3⟩ := onQueue_sent (key := key) s.s .resync
      refine ⟨SharedInformer.good_step hg .resync, ?_, nofun, ?_⟩
      · simp only [SharedInformer.step, h1]; exact hl
      · simp only [SharedInformer.step, h2]; exact hs
    · exact ⟨hg, hl, hr, hs⟩
  | watchEnds => exact ⟨hg, hl, nofun, hs⟩

theorem fine_init (key : O → Option K) (d : ℚ) : Fine key (init d : State K O) :=
  ⟨SharedInformer.good_init key, rfl, nofun, rfl⟩

theorem exec_append (key : O → Option K) (as bs : List (Ev K O)) : ∀ s : State K O,
    exec key s (as ++ bs) = exec key (exec key s as) bs := by
  induction as with
  | nil => intro s; rfl
  | cons a as ih => intro s; exact ih _

theorem fine_exec {key : O → Option K} (es : List (Ev K O)) : ∀ {s : State K O}, Fine key s →
    Fine key (exec key s es) := by
  induction es with
  | nil => intro s h; exact h
  | cons e es ih => intro s h; exact ih (fine_step h e)

/-- What happens to the informer. -/
theorem s_step (key : O → Option K) (s : State K O) (e : Ev K O) :
    (step key s e).s = s.s ∨ ∃ e', (step key s e).s = SharedInformer.step key s.s e' := by
  cases e with
  | check now =>
    simp only [step]
    split
    · exact Or.inr ⟨.check _, rfl⟩
    · exact Or.inl rfl
  | resync =>
    simp only [step]
    split
    · exact Or.inr ⟨.resync, rfl⟩
    · exact Or.inl rfl
  | watchEnds => exact Or.inl rfl
  | add x => exact Or.inr ⟨.add x, rfl⟩
  | update x => exact Or.inr ⟨.update x, rfl⟩
  | delete x => exact Or.inr ⟨.delete x, rfl⟩
  | replace xs => exact Or.inr ⟨.replace xs, rfl⟩
  | pop => exact Or.inr ⟨.pop, rfl⟩
  | register p now => exact Or.inr ⟨.register, rfl⟩
  | start => exact Or.inr ⟨.start, rfl⟩

/-- A handler that the checks select stays syncing. -/
theorem syncing_step {key : O → Option K} {s : State K O} (h : Fine key s) {i : Nat} (e : Ev K O)
    (hsel : ∀ now, e = .check now → s.forcing = false → i ∈ Resync.selected s.r.listeners now)
    (hi : i ∈ s.s.syncing) (hl : i < s.s.sent.length) : i ∈ (step key s e).s.syncing := by
  cases e with
  | add x => simp only [step, SharedInformer.step, (onQueue_sent s.s _).2.2]; exact hi
  | update x => simp only [step, SharedInformer.step, (onQueue_sent s.s _).2.2]; exact hi
  | delete x => simp only [step, SharedInformer.step, (onQueue_sent s.s _).2.2]; exact hi
  | replace x => simp only [step, SharedInformer.step, (onQueue_sent s.s _).2.2]; exact hi
  | pop => simp only [step, (pop_len s.s).2.2]; exact hi
  | register p now => simp only [step, SharedInformer.step]; exact List.mem_append_left _ hi
  | start => exact hi
  | check now =>
    simp only [step]
    split
    · rename_i hc
      simp only [Bool.and_eq_true, Bool.not_eq_true'] at hc
      have := hsel now rfl hc.2
      simp only [SharedInformer.step, List.mem_filter, List.mem_range, decide_eq_true_eq]
      exact ⟨hl, this⟩
    · exact hi
  | resync =>
    simp only [step]
    split
    · simp only [SharedInformer.step, (onQueue_sent s.s _).2.2]; exact hi
    · exact hi
  | watchEnds => exact hi

theorem coming_exec {key : O → Option K} {i : Nat} {k : K} {old : List (Note K O)} (es : List (Ev K O)) :
    ∀ {s : State K O} {log : List (Entry K O)}, Fine key s → Inv key s.s.inf log → i ∈ s.s.syncing →
    Coming key i k old s.s log → Selects key i s es →
    ∃ log', Inv key (exec key s es).s.inf log' ∧ Coming key i k old (exec key s es).s log' := by
  induction es with
  | nil => intro s log _ h1 _ h2 _; exact ⟨log, h1, h2⟩
  | cons e es ih =>
    intro s log hf hi hsy hc hs
    have hlt : i < s.s.sent.length := by
      obtain ⟨new, h1, -⟩ := hc
      exact (List.getElem?_eq_some_iff.1 h1).1
    have hsy' := syncing_step hf e hs.1 hsy hlt
    rcases s_step key s e with he | ⟨e', he⟩
    · exact ih (log := log) (fine_step hf e) (by rw [he]; exact hi) hsy' (by rw [he]; exact hc) hs.2
    · obtain ⟨log', h1, h2⟩ := coming_step hi hsy hc e'
      exact ih (log := log') (fine_step hf e) (by rw [he]; exact h1) hsy' (by rw [he]; exact h2) hs.2

/-- While `store.resync()` waits for the lock, the handlers of its check stay selected. -/
theorem forcing_exec {key : O → Option K} {i : Nat} (es : List (Ev K O)) :
    ∀ {s : State K O}, Fine key s → s.forcing = true → i ∈ s.s.syncing → i < s.s.sent.length →
    Ev.resync ∉ es → Ev.watchEnds ∉ es →
    (exec key s es).forcing = true ∧ i ∈ (exec key s es).s.syncing ∧ i < (exec key s es).s.sent.length := by
  induction es with
  | nil => intro s _ h1 h2 h3 _ _; exact ⟨h1, h2, h3⟩
  | cons e es ih =>
    intro s hf h1 h2 h3 h4 h5
    simp only [List.mem_cons, not_or] at h4 h5
    have hsy := syncing_step hf e (by intro now _ hc; rw [h1] at hc; cases hc) h2 h3
    have hl : i < (step key s e).s.sent.length := by
      have := (fine_step hf e).len
      rw [← this]
      have h0 := hf.len
      cases e with
      | register p now =>
        simp only [step, Resync.step, (register_len s.r p now).1]; omega
      | check now =>
        simp only [step]
        split
        · simp only [Resync.step, Resync.checked, List.length_map]; omega
        · omega
      | resync => exact absurd rfl h4.1
      | start => simp only [step, Resync.step]; omega
      | _ => simp only [step]; omega
    have hfo : (step key s e).forcing = true := by
      cases e with
      | resync => exact absurd rfl h4.1
      | watchEnds => exact absurd rfl h5.1
      | check now => simp [step, h1]
      | _ => exact h1
    exact ih (fine_step hf e) hfo hsy hl h4.2 h5.2

end Aiok8s.ResyncReach
