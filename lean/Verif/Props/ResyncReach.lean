import Verif.Proof.ResyncReach
import Verif.Props.Resync
/-!
# C99: a resync tells every handler that is due about every cached object
-/
set_option linter.unusedSimpArgs false
set_option linter.unusedSectionVars false
namespace Aiok8s.ResyncReach
open Aiok8s.DeltaFifo (Obj Delta Deltas DType keyOf)
open Aiok8s.DeltaFifo.Spec (Entry merge pendingOf)
open Aiok8s.Informer (Note applyOne evEntries Inv)
open Aiok8s.SharedInformer (okPop pop_inf handleDeltas sent_pop receive)
open Aiok8s.Source.Spec (noteKey)
open Spec
variable {K O : Type} [DecidableEq K]

/-- A key function for examples. -/
private abbrev exKey : Nat × Nat → Option Nat := fun o => some o.1

/-- Two handlers with periods 2 and 3, one object that both know of, and the check at time 2. -/
private def begun : List (Ev Nat (Nat × Nat)) :=
  [.register (some 2) 0, .register (some 3) 0, .start, .replace [.real (1, 0)], .pop, .check 2, .resync, .pop]

/-- **C99** is false: the check at time 4 selects both handlers and the resync puts the object into the queue; the
next check comes before the object is processed and selects only the first handler, and so only this one is
told.  In the end nothing is left to process, and the second handler has been told nothing since it first
heard of the object. -/
theorem C99_refuted :
    let s := exec exKey (init 30) begun
    let t := exec exKey s [.check 4, .resync, .check 6, .pop, .resync, .pop]
    Resync.selected s.r.listeners 4 = [0, 1] ∧ s.s.inf.items = [(1, .real (1, 0))] ∧
    t.s.inf.q.queue = [] ∧ s.s.sent[1]? = some [.onAdd (.real (1, 0))] ∧
    t.s.sent[1]? = some [.onAdd (.real (1, 0))] := by
  refine ⟨?_, ?_, ?_, ?_, ?_⟩ <;> decide +kernel

/-- **C99** is false also because the watch may end while `resync` waits for the lock: then there is no resync,
though the check has moved the handlers' next times.  Also the next check, which selects the
first handler only, does not make up for it. -/
theorem C99_refuted_watch :
    let s := exec exKey (init 30) begun
    let t := exec exKey s [.check 4, .watchEnds, .check 6, .resync, .pop]
    Resync.selected s.r.listeners 4 = [0, 1] ∧ s.s.inf.items = [(1, .real (1, 0))] ∧
    t.s.inf.q.queue = [] ∧ s.s.sent[1]? = some [.onAdd (.real (1, 0))] ∧
    t.s.sent[1]? = some [.onAdd (.real (1, 0))] := by
  refine ⟨?_, ?_, ?_, ?_, ?_⟩ <;> decide +kernel

private theorem check_begins {key : O → Option K} {s : State K O} (hf : Fine key s) {i : Nat} {now : ℚ}
    (hsel : i ∈ Resync.selected s.r.listeners now) (hrun : s.s.started = true) (hidle : s.forcing = false) :
    (step key s (.check now)).forcing = true ∧ i ∈ (step key s (.check now)).s.syncing ∧
    i < (step key s (.check now)).s.sent.length := by
  have hlt : i < s.s.sent.length := by
    have := (List.mem_filter.1 hsel).1
    rw [List.mem_range, hf.len] at this
    exact this
  have hne : (Resync.selected s.r.listeners now).isEmpty = false := by
    cases hl : Resync.selected s.r.listeners now with
    | nil => rw [hl] at hsel; simp at hsel
    | cons a l => rfl
  simp only [step, hrun, hidle, Bool.not_false, Bool.and_self, if_true, hne, true_and,
    SharedInformer.step, List.mem_filter, List.mem_range, decide_eq_true_eq]
  exact ⟨⟨hlt, hsel⟩, hlt⟩

/-- **C99**: a check of a running informer selects handler `i`, the watch does not end before `store.resync()` has
got the lock, and every later check selects the handler too (for example because there is none before the
queue is empty).  Then, once the queue is empty, the handler has been told about every object that was in the indexer
when `store.resync()` got the lock, whatever happened in between.  Missing: the watch that ends and later checks that
do not select the handler, see `C99_refuted` and `C99_refuted_watch`. -/
theorem C99_reaches_partial (key : O → Option K) (d : ℚ) (before mid post : List (Ev K O)) (now : ℚ) (i : Nat)
    (k : K) (hrun : (exec key (init d) before).s.started = true)
    (hidle : (exec key (init d) before).forcing = false)
    (hsel : i ∈ Resync.selected (exec key (init d) before).r.listeners now)
    (hmid : Ev.resync ∉ mid) (hwatch : Ev.watchEnds ∉ mid)
    (hpost : Selects key i (exec key (init d) (before ++ .check now :: mid ++ [.resync])) post)
    (hcached : ((exec key (init d) (before ++ .check now :: mid)).s.inf.items.get? k).isSome)
    (hdone : (exec key (init d) (before ++ .check now :: mid ++ .resync :: post)).s.inf.q.queue = []) :
    Told key i k (exec key (init d) (before ++ .check now :: mid))
      (exec key (init d) (before ++ .check now :: mid ++ .resync :: post)) := by
  have hf0 := fine_exec before (fine_init key d)
  have hf1 := fine_exec (before ++ .check now :: mid) (fine_init key d)
  obtain ⟨c1, c2, c3⟩ := check_begins hf0 hsel hrun hidle
  have hm := forcing_exec mid (fine_step hf0 (.check now)) c1 c2 c3 hmid hwatch
  have e1 : exec key (init d) (before ++ .check now :: mid)
      = exec key (step key (exec key (init d) before) (.check now)) mid := by rw [exec_append]; rfl
  rw [← e1] at hm
  have e2 : exec key (init d) (before ++ .check now :: mid ++ .resync :: post)
      = exec key (step key (exec key (init d) (before ++ .check now :: mid)) .resync) post := by
    rw [exec_append]; rfl
  have e3 : exec key (init d) (before ++ .check now :: mid ++ [.resync])
      = step key (exec key (init d) (before ++ .check now :: mid)) .resync := by
    rw [exec_append]; rfl
  rw [e2] at hdone ⊢
  rw [e3] at hpost
  generalize exec key (init d) (before ++ .check now :: mid) = s at *
  obtain ⟨m1, m2, m3⟩ := hm
  obtain ⟨log, hi, -⟩ := hf1.good
  have hst := hf1.run m1
  have h0 : s.s.sent[i]? = some s.s.sent[i] := List.getElem?_eq_getElem m3
  have hs' : (step key s .resync).s = { s.s with inf := (Informer.step key s.s.inf .resync).1 } := by
    simp only [step, m1, if_true, SharedInformer.step, SharedInformer.onQueue, hst]
  have hc : Coming key i k s.s.sent[i] (step key s .resync).s (log ++ evEntries key s.s.inf log .resync) := by
    refine ⟨[], ?_, Or.inl ?_⟩
    · rw [hs', List.append_nil]; exact h0
    · rw [Informer.resync_pending hi k]
      obtain ⟨x, hx⟩ := Option.isSome_iff_exists.1 hcached
      rw [hx]
      simp only
      split
      · simp
      · assumption
  have hi' : Inv key (step key s .resync).s.inf (log ++ evEntries key s.s.inf log .resync) := by
    rw [hs']; exact (Informer.inv_step hi .resync).1
  obtain ⟨log', h1, new, h2, h3⟩ := coming_exec post (fine_step hf1 .resync) hi'
    (syncing_step hf1 .resync (by intro n hn; cases hn) m2 m3) hc hpost
  refine ⟨_, new, h0, h2, ?_⟩
  rcases h3 with h3 | h3
  · have := (h1.sim.mem k).2 h3
    rw [← h1.sim.queue, hdone] at this
    simp at this
  · exact h3

/-! ## The handlers with the shortest period -/

private theorem listener_keeps {r : Resync.State} (hs : r.started = true) {i : Nat} {l : Resync.Listener}
    (h : r.listeners[i]? = some l) (p : Option ℚ) (now : ℚ) :
    (Resync.register r p now).listeners[i]? = some l ∧ (Resync.register r p now).started = true := by
  have hlt : i < r.listeners.length := (List.getElem?_eq_some_iff.1 h).1
  simp only [Resync.register, hs, if_true]
  split <;> exact ⟨by rw [List.getElem?_append_left hlt]; exact h, rfl⟩

private theorem apart_selects {key : O → Option K} {i : Nat} (es : List (Ev K O)) :
    ∀ {s : State K O} {l : Resync.Listener} (t : ℚ), Fine key s → s.r.started = true →
    s.r.listeners[i]? = some l → 0 < l.period → l.next ≤ t + l.period → Apart l.period t (times es) →
    Selects key i s es := by
  induction es with
  | nil => intros; trivial
  | cons e es ih =>
    intro s l t hf hs hl hp hn ha
    have hf' := fine_step hf e
    cases e with
    | check u =>
      obtain ⟨ha1, ha2⟩ := ha
      have hnu : l.next ≤ u := le_trans hn ha1
      obtain ⟨c1, c2⟩ := Resync.C36_selected s.r u i l hl
      refine ⟨?_, ?_⟩
      · intro now hnow _
        cases hnow
        exact c1.2 ⟨ne_of_gt hp, hnu⟩
      · by_cases hc : (s.s.started && !s.forcing) = true
        · have hr : (step key s (.check u)).r = Resync.step s.r (.check u) := by
            simp only [step, hc, if_true]
          rw [if_pos ⟨ne_of_gt hp, hnu⟩] at c2
          exact ih (l := { l with next := u + l.period }) u hf' (by rw [hr]; exact hs) (by rw [hr]; exact c2) hp
            (le_refl _) ha2
        · have hr : step key s (.check u) = s := by
            simp only [step, hc, if_false]; rfl
          rw [hr]
          exact ih u hf hs hl hp (by linarith) ha2
    | register p now =>
      obtain ⟨h1, h2⟩ := listener_keeps hs hl p now
      exact ⟨nofun, ih t hf' h2 h1 hp hn ha⟩
    | start => exact ⟨nofun, ih t hf' rfl hl hp hn ha⟩
    | resync =>
      have hr : (step key s .resync).r = s.r := by simp only [step]; split <;> rfl
      exact ⟨nofun, ih t hf' (by rw [hr]; exact hs) (by rw [hr]; exact hl) hp hn ha⟩
    | add x => exact ⟨nofun, ih t hf' hs hl hp hn ha⟩
    | update x => exact ⟨nofun, ih t hf' hs hl hp hn ha⟩
    | delete x => exact ⟨nofun, ih t hf' hs hl hp hn ha⟩
    | replace x => exact ⟨nofun, ih t hf' hs hl hp hn ha⟩
    | pop => exact ⟨nofun, ih t hf' hs hl hp hn ha⟩
    | watchEnds => exact ⟨nofun, ih t hf' hs hl hp hn ha⟩

private theorem selects_append {key : O → Option K} {i : Nat} (as bs : List (Ev K O)) : ∀ {s : State K O},
    Selects key i s (as ++ bs) → Selects key i (exec key s as) bs := by
  induction as with
  | nil => intro s h; exact h
  | cons a as ih => intro s h; exact ih h.2

/-- **C99**: a handler whose period is not longer than the time between two checks – the check period is the shortest
granted period – misses no resync but one that is cancelled: with checks at least its period apart, nothing is
required of later checks. -/
theorem C99_fastest_partial (key : O → Option K) (d : ℚ) (before mid post : List (Ev K O)) (now : ℚ) (i : Nat)
    (k : K) (l : Resync.Listener) (hrun : (exec key (init d) before).s.started = true)
    (hidle : (exec key (init d) before).forcing = false)
    (hl : (exec key (init d) before).r.listeners[i]? = some l) (hp : 0 < l.period) (hdue : l.next ≤ now)
    (hapart : Apart l.period now (times (mid ++ .resync :: post)))
    (hmid : Ev.resync ∉ mid) (hwatch : Ev.watchEnds ∉ mid)
    (hcached : ((exec key (init d) (before ++ .check now :: mid)).s.inf.items.get? k).isSome)
    (hdone : (exec key (init d) (before ++ .check now :: mid ++ .resync :: post)).s.inf.q.queue = []) :
    Told key i k (exec key (init d) (before ++ .check now :: mid))
      (exec key (init d) (before ++ .check now :: mid ++ .resync :: post)) := by
  have hf0 := fine_exec before (fine_init key d)
  obtain ⟨c1, c2⟩ := Resync.C36_selected (exec key (init d) before).r now i l hl
  refine C99_reaches_partial key d before mid post now i k hrun hidle (c1.2 ⟨ne_of_gt hp, hdue⟩) hmid hwatch ?_
    hcached hdone
  have hr : (step key (exec key (init d) before) (.check now)).r
      = Resync.step (exec key (init d) before).r (.check now) := by
    simp only [step, hrun, hidle, Bool.not_false, Bool.and_self, if_true]
  rw [if_pos ⟨ne_of_gt hp, hdue⟩] at c2
  have := apart_selects (mid ++ .resync :: post) (l := { l with next := now + l.period }) now
    (fine_step hf0 (.check now)) (by rw [hr]; exact hf0.same.trans hrun) (by rw [hr]; exact c2) hp (le_refl _) hapart
  have h2 := selects_append (mid ++ [.resync]) post (by simpa using this)
  have e : exec key (init d) (before ++ .check now :: mid ++ [.resync])
      = exec key (step key (exec key (init d) before) (.check now)) (mid ++ [.resync]) := by
    rw [List.append_assoc, exec_append]; rfl
  rw [e]
  exact h2

/-! ## What a resync says, and to whom -/

/-- What is pending is what a resync has put there. -/
private def Repeating (key : O → Option K) (s : State K O) (log : List (Entry K O)) : Prop :=
  Inv key s.s.inf log ∧ ∀ j, pendingOf j log = [] ∨
    ∃ x, s.s.inf.items.get? j = some x ∧ pendingOf j log = [⟨.sync, x⟩]

/-- What a quiet event does to the rest. -/
private structure Quietly (i : Nat) (s t : State K O) (free : Prop) : Prop where
  items : ∀ k, t.s.inf.items.get? k = s.s.inf.items.get? k
  sent : ∀ old, s.s.sent[i]? = some old → ∃ new, t.s.sent[i]? = some (old ++ new) ∧
    (∀ n ∈ new, ∃ k x, s.s.inf.items.get? k = some x ∧ n = .onUpdate x x) ∧ (free → new = [])

private theorem quiet_step {key : O → Option K} {i : Nat} {s : State K O} {log : List (Entry K O)}
    (hf : Fine key s) (h : Repeating key s log) (e : Ev K O) (he : Quiet e) :
    (∃ log', Repeating key (step key s e) log') ∧ Quietly i s (step key s e) (i ∉ s.s.syncing) := by
  obtain ⟨hi, hr⟩ := h
  cases e with
  | check now =>
    simp only [step]
    split
    · exact ⟨⟨log, hi, hr⟩, fun _ => rfl, fun old ho =>
        ⟨[], by simpa [SharedInformer.step] using ho, by simp, fun _ => rfl⟩⟩
    · exact ⟨⟨log, hi, hr⟩, fun _ => rfl, fun old ho => ⟨[], by simpa using ho, by simp, fun _ => rfl⟩⟩
  | watchEnds =>
    exact ⟨⟨log, hi, hr⟩, fun _ => rfl, fun old ho => ⟨[], by simpa [step] using ho, by simp, fun _ => rfl⟩⟩
  | resync =>
    simp only [step]
    split
    · rename_i hc
      have hst := hf.run hc
      simp only [SharedInformer.step, SharedInformer.onQueue, hst, if_true]
      have hit := (ev_call (key := key) (s := s.s.inf) (log := log) .resync _ rfl).2
      refine ⟨⟨log ++ evEntries key s.s.inf log .resync, (Informer.inv_step hi .resync).1, ?_⟩,
        fun k => by simp only [hit], fun old ho => ⟨[], by simpa using ho, by simp, fun _ => rfl⟩⟩
      intro j
      simp only [hit]
      rw [Informer.resync_pending hi j]
      cases hg : s.s.inf.items.get? j with
      | none =>
        simp only
        rcases hr j with h1 | ⟨x, h1, -⟩
        · exact Or.inl h1
        · rw [hg] at h1; cases h1
      | some x =>
        simp only
        rcases hr j with h1 | ⟨y, h1, h2⟩
        · right; exact ⟨x, rfl, by simp [h1]⟩
        · rw [hg] at h1
          cases h1
          right; exact ⟨x, rfl, by simp [h2]⟩
    · exact ⟨⟨log, hi, hr⟩, fun _ => rfl, fun old ho => ⟨[], by simpa using ho, by simp, fun _ => rfl⟩⟩
  | pop =>
    simp only [step, SharedInformer.step]
    split
    · rcases pop_inf hi with ⟨-, h3, -⟩ | ⟨j, hj, hev, hkj, h3, h4, h5⟩
      · rw [h3]
        exact ⟨⟨log, hi, hr⟩, fun _ => rfl, fun old ho => ⟨[], by simpa using ho, by simp, fun _ => rfl⟩⟩
      · rw [h3]
        have hap : (∀ k, (handleDeltas key s.s.inf.items (pendingOf j log)).1.get? k = s.s.inf.items.get? k) ∧
            ((handleDeltas key s.s.inf.items (pendingOf j log)).2 = [] ∨ ∃ x, s.s.inf.items.get? j = some x ∧
              (handleDeltas key s.s.inf.items (pendingOf j log)).2 = [(.onUpdate x x, true)]) := by
          rcases hr j with h1 | ⟨x, h1, h2⟩
          · rw [h1]; exact ⟨fun _ => rfl, Or.inl rfl⟩
          · have hk := hkj ⟨.sync, x⟩ (by rw [h2]; simp)
            rw [h2]
            simp only at hk
            simp only [handleDeltas, applyOne, hk, h1, reduceCtorEq, if_false]
            refine ⟨?_, Or.inr ⟨x, rfl, by simp⟩⟩
            intro k
            rw [PyDict.get?_set]
            split
            · rename_i hjk; rw [← hjk, h1]
            · rfl
        have hlog := hev
        have hpo : ∀ k, pendingOf k (log ++ evEntries key s.s.inf log okPop)
            = if j = k then [] else pendingOf k log := by
          intro k; rw [hev, DeltaFifo.pendingOf_popped]
        refine ⟨⟨log ++ evEntries key s.s.inf log okPop, (Informer.inv_step hi okPop).1, ?_⟩, ?_, ?_⟩
        · intro k
          simp only
          rw [hpo k, h4, hap.1 k]
          by_cases hjk : j = k
          · left; rw [if_pos hjk]
          · rw [if_neg hjk]; exact hr k
        · intro k
          simp only
          rw [h4]
          exact hap.1 k
        · intro old ho
          simp only
          rw [sent_pop, ho]
          refine ⟨_, rfl, ?_, ?_⟩
          · rcases hap.2 with h6 | ⟨x, h6, h7⟩
            · rw [h6]; simp [receive]
            · rw [h7]
              intro n hn
              simp only [receive, List.map_filter] at hn
              have : n = .onUpdate x x := by
                revert hn
                by_cases hsy : i ∈ s.s.syncing <;> simp [hsy]
              exact ⟨j, x, h6, this⟩
          · intro hfree
            rcases hap.2 with h6 | ⟨x, h6, h7⟩
            · rw [h6]; simp [receive]
            · rw [h7]; simp [receive, hfree]
    · exact ⟨⟨log, hi, hr⟩, fun _ => rfl, fun old ho => ⟨[], by simpa using ho, by simp, fun _ => rfl⟩⟩
  | _ => exact absurd he (by simp [Quiet])

private theorem spared_step {key : O → Option K} {s : State K O} {i : Nat} (e : Ev K O) (he : Quiet e)
    (hs : ∀ now, e = .check now → i ∉ Resync.selected s.r.listeners now) (hi : i ∉ s.s.syncing) :
    i ∉ (step key s e).s.syncing := by
  cases e with
  | check now =>
    simp only [step]
    split
    · simp only [SharedInformer.step, List.mem_filter, List.mem_range, decide_eq_true_eq]
      exact fun h => hs now rfl h.2
    · exact hi
  | resync =>
    simp only [step]
    split
    · simp only [SharedInformer.step, (onQueue_sent s.s _).2.2]; exact hi
    · exact hi
  | pop => simp only [step, (pop_len s.s).2.2]; exact hi
  | watchEnds => exact hi
  | _ => exact absurd he (by simp [Quiet])

private theorem quiet_exec {key : O → Option K} {i : Nat} (es : List (Ev K O)) :
    ∀ {s : State K O} {log : List (Entry K O)}, Fine key s → Repeating key s log → (∀ e ∈ es, Quiet e) →
    Quietly i s (exec key s es) (i ∉ s.s.syncing ∧ Spares key i s es) := by
  induction es with
  | nil =>
    intro s log _ _ _
    exact ⟨fun _ => rfl, fun old ho => ⟨[], by simpa [exec] using ho, by simp, fun _ => rfl⟩⟩
  | cons e es ih =>
    intro s log hf hr hq
    have hqe := hq e (by simp)
    obtain ⟨⟨log', h1⟩, h2⟩ := quiet_step (i := i) hf hr e hqe
    have h3 := ih (fine_step hf e) h1 (fun e' he' => hq e' (by simp [he']))
    refine ⟨fun k => (h3.items k).trans (h2.items k), ?_⟩
    intro old ho
    obtain ⟨n1, a1, a2, a3⟩ := h2.sent old ho
    obtain ⟨n2, b1, b2, b3⟩ := h3.sent _ a1
    refine ⟨n1 ++ n2, by rw [exec, b1, List.append_assoc], ?_, ?_⟩
    · intro n hn
      rcases List.mem_append.1 hn with hn | hn
      · exact a2 n hn
      · obtain ⟨k, x, hx, rfl⟩ := b2 n hn
        exact ⟨k, x, by rw [← h2.items k]; exact hx, rfl⟩
    · rintro ⟨hi, hs⟩
      rw [a3 hi, b3 ⟨spared_step e hqe hs.1 hi, hs.2⟩]
      rfl

/-- **C99**: resyncs alone, from an empty queue on, leave the indexer as it is; all they say is that an object of the
indexer was updated to itself; and a handler that was not selected is told nothing. -/
theorem C99_repeats (key : O → Option K) (d : ℚ) (before es : List (Ev K O)) (i : Nat) (old : List (Note K O))
    (hempty : (exec key (init d) before).s.inf.q.queue = []) (hq : ∀ e ∈ es, Quiet e)
    (hi : (exec key (init d) before).s.sent[i]? = some old) :
    (∀ k, (exec key (init d) (before ++ es)).s.inf.items.get? k
      = (exec key (init d) before).s.inf.items.get? k) ∧
    ∃ new, (exec key (init d) (before ++ es)).s.sent[i]? = some (old ++ new) ∧
      (∀ n ∈ new, ∃ k x, (exec key (init d) before).s.inf.items.get? k = some x ∧ n = .onUpdate x x) ∧
      (i ∉ (exec key (init d) before).s.syncing → Spares key i (exec key (init d) before) es → new = []) := by
  have hf := fine_exec before (fine_init key d)
  rw [exec_append]
  obtain ⟨log, hin, -⟩ := hf.good
  have hr : Repeating key (exec key (init d) before) log := by
    refine ⟨hin, fun j => Or.inl ?_⟩
    by_contra hc
    have := (hin.sim.mem j).2 hc
    rw [← hin.sim.queue, hempty] at this
    simp at this
  have h := quiet_exec (i := i) es hf hr hq
  obtain ⟨new, h1, h2, h3⟩ := h.sent old hi
  exact ⟨h.items, new, h1, h2, fun a b => h3 ⟨a, b⟩⟩

/-- The check at time 4 selects both handlers; an update comes before the resync; both are told about both objects. -/
example :
    let before : List (Ev Nat (Nat × Nat)) := begun ++ [.add (.real (2, 0)), .pop]
    let mid : List (Ev Nat (Nat × Nat)) := [.update (.real (1, 1)), .check 5]
    let post : List (Ev Nat (Nat × Nat)) := [.pop, .register none 5, .pop]
    (exec exKey (init 30) before).s.started = true ∧ (exec exKey (init 30) before).forcing = false ∧
    1 ∈ Resync.selected (exec exKey (init 30) before).r.listeners 4 ∧ Ev.resync ∉ mid ∧ Ev.watchEnds ∉ mid ∧
    Selects exKey 1 (exec exKey (init 30) (before ++ .check 4 :: mid ++ [.resync])) post ∧
    ((exec exKey (init 30) (before ++ .check 4 :: mid)).s.inf.items.get? 2).isSome ∧
    (exec exKey (init 30) (before ++ .check 4 :: mid ++ .resync :: post)).s.inf.q.queue = [] ∧
    (exec exKey (init 30) (before ++ .check 4 :: mid ++ .resync :: post)).s.sent[1]? = some
      [.onAdd (.real (1, 0)), .onAdd (.real (2, 0)), .onUpdate (.real (1, 0)) (.real (1, 1)),
        .onUpdate (.real (2, 0)) (.real (2, 0))] := by
  refine ⟨by decide +kernel, by decide +kernel, by decide +kernel, by simp, by simp,
    ⟨nofun, nofun, nofun, trivial⟩, by decide +kernel, by decide +kernel, by decide +kernel⟩

/-- The first handler, selected at time 4 and again by the check at time 6 that comes before the pop. -/
example :
    let post : List (Ev Nat (Nat × Nat)) := [.check 6, .pop, .resync, .pop]
    ∃ l, (exec exKey (init 30) begun).r.listeners[0]? = some l ∧ 0 < l.period ∧ l.next ≤ 4 ∧
    Apart l.period 4 (times (.resync :: post)) ∧
    (exec exKey (init 30) (begun ++ .check 4 :: [] ++ .resync :: post)).s.inf.q.queue = [] ∧
    Spares exKey 1 (exec exKey (init 30) begun) [.check (5 / 2), .resync, .pop] ∧
    1 ∉ (exec exKey (init 30) begun).s.syncing := by
  refine ⟨⟨2, 2, 4⟩, by decide +kernel, by norm_num, by norm_num, by norm_num [Apart, times], by decide +kernel,
    ?_, by decide +kernel⟩
  refine ⟨?_, nofun, nofun, trivial⟩
  intro now hn
  cases hn
  decide +kernel

end Aiok8s.ResyncReach
