import Verif.Proof.Mux
/-!
# C44-C46, C63, C64: the broadcaster
-/
set_option linter.unusedSimpArgs false
set_option linter.unusedSectionVars false
namespace Aiok8s.Mux
open Spec
variable {E : Type} {mode : Mode} {len : Nat}

/-- **C44**, in any moment of any run in which readers are not cancelled: a watcher that was not
stopped has got, or has in its queue, or is about to be offered, exactly its prefix and the events
broadcast since it was registered, in order. -/
theorem C44_live {as : List (Act E)} {s : State E} (h : exec .wait len init as = some s)
    {i : Nat} {w : Watcher E} (hw : s.watchers[i]? = some w) (hs : w.stopped = false)
    (ha : Act.abandon i ∉ as) :
    (owed (handled as))[i]? = some (w.got ++ w.queue ++ inFlight s i) := by
  obtain ⟨o, ho, hr⟩ := (inv_exec h i).2 w hw
  rw [cancelled_eq_zero ha] at hr
  rw [hr.eq hs]
  exact ho

/-- **C44**: there is one watcher for each registration handled. -/
theorem C44_registered {as : List (Act E)} {s : State E} (h : exec mode len init as = some s) :
    (owed (handled as)).length = s.watchers.length ∧ sent as = handled as ++ s.incoming :=
  ⟨(inv_exec h 0).1, (exec_handled h).1⟩

/-- **C44**, when a watcher is stopped: what it should have seen up to a moment in which it was
not stopped stays in front, followed only by some of the later events, in order. -/
theorem C44_stopped {as bs : List (Act E)} {s s' : State E}
    (h : exec .wait len init as = some s) (h' : exec .wait len s bs = some s')
    {i : Nat} {w w' : Watcher E} (hw : s.watchers[i]? = some w) (hs : w.stopped = false)
    (hw' : s'.watchers[i]? = some w') (ha : Act.abandon i ∉ as ++ bs) :
    ∃ x later, w'.got ++ w'.queue = w.got ++ w.queue ++ x ∧
      (owed (handled (as ++ bs)))[i]? = some (w.got ++ w.queue ++ later) ∧ x.Sublist later := by
  simp only [List.mem_append, not_or] at ha
  have hall : exec .wait len init (as ++ bs) = some s' := exec_append.2 ⟨s, h, h'⟩
  obtain ⟨o, ho, hr⟩ := (inv_exec h i).2 w hw
  rw [cancelled_eq_zero ha.1] at hr
  have ho2 : w.orphans = 0 := Nat.le_zero.1 (hr.orph hs)
  have hk := kept (z := w.got ++ w.queue) h' hw hw' ha.2 (Or.inl ⟨ho2, List.prefix_refl _⟩)
  have hpre : w.got ++ w.queue <+: w'.got ++ w'.queue := by
    rcases hk with ⟨-, hk⟩ | hk
    · exact hk
    · exact hk.trans (List.prefix_append _ _)
  obtain ⟨x, hx⟩ := hpre
  obtain ⟨o', ho', hr'⟩ := (inv_exec hall i).2 w' hw'
  have hsub : (w'.got ++ w'.queue).Sublist o' :=
    List.Sublist.trans (List.sublist_append_left _ _) hr'.sub
  -- what is owed only grows
  have hgrow : ∀ (bs : List (Act E)) (s' : State E), exec .wait len s bs = some s' →
      ∃ y, (owed (handled (as ++ bs)))[i]? = some (o ++ y) := by
    intro bs s' hb
    refine exec_ind (P := fun bs s' => exec .wait len s bs = some s' ∧
      ∃ y, (owed (handled (as ++ bs)))[i]? = some (o ++ y))
      ⟨rfl, [], by simpa using ho⟩ ?_ bs s' hb |>.2
    rintro bs t a t' ⟨ht, y, hy⟩ hst
    refine ⟨exec_append.2 ⟨t, ht, by simp [exec, hst]⟩, ?_⟩
    have hall : exec .wait len init (as ++ bs) = some t := exec_append.2 ⟨s, h, ht⟩
    rw [← List.append_assoc]
    by_cases ha : a = .take
    · subst ha
      simp only [step] at hst
      split at hst
      · rename_i x is hl hi
        rw [handled_take hall hi, owed_snoc]
        cases x with
        | event e => exact ⟨y ++ [e], by simp [owedStep, hy]⟩
        | watch p =>
          refine ⟨y, ?_⟩
          simp only [owedStep]
          rw [List.getElem?_append_left (List.getElem?_eq_some_iff.1 hy).1]
          exact hy
        | close => exact ⟨y, hy⟩
      · simp at hst
    · rw [handled_other hall ha]
      exact ⟨y, hy⟩
  obtain ⟨y, hy⟩ := hgrow bs s' h'
  have heq := hr.eq hs
  refine ⟨x, inFlight s i ++ y, hx.symm, ?_, ?_⟩
  · rw [hy, ← heq]
    simp
  · rw [ho'] at hy
    cases hy
    rw [← hx, ← heq] at hsub
    have : (w.got ++ w.queue ++ x).Sublist (w.got ++ w.queue ++ (inFlight s i ++ y)) := by
      simpa using hsub
    exact (List.append_sublist_append_left _).1 this

/-- Two watchers, one with a prefix; a full queue holds up the loop until it is read. -/
private abbrev exRun : List (Act Nat) :=
  [.send (.watch none), .send (.event 1), .send (.watch (some [7, 8])), .send (.event 2), .take,
    .take, .put, .take, .take, .read 0, .put, .put, .read 1, .stop 0, .remove 0, .send (.event 3),
    .take, .put]

example : (exec .wait 1 init exRun).map (·.watchers.map fun w => (w.got, w.queue, w.stopped)) =
    some [([1], [2], true), ([7], [8, 2, 3], false)] := by decide

example : owed (handled exRun) = [[1, 2, 3], [7, 8, 2, 3]] := by decide

/-- **C44**, **C45**, in every run, also when watchers are stopped, readers cancelled or events
dropped: nothing is duplicated or reordered. -/
theorem C44_order {as : List (Act E)} {s : State E} (h : exec mode len init as = some s)
    {i : Nat} {w : Watcher E} (hw : s.watchers[i]? = some w) :
    ∃ o, (owed (handled as))[i]? = some o ∧ (w.got ++ w.queue ++ inFlight s i).Sublist o := by
  obtain ⟨o, ho, hr⟩ := (inv_exec h i).2 w hw
  exact ⟨o, ho, hr.sub⟩

/-! ### Drop mode -/

/-- In drop mode the loop never waits for a watcher. -/
theorem drop_loop {as : List (Act E)} {s : State E} (h : exec .drop len init as = some s) :
    s.loop = .idle ∨ s.loop = .closed := by
  refine exec_ind (P := fun _ s => s.loop = .idle ∨ s.loop = .closed) (Or.inl rfl) ?_ as s h
  intro as s a s' hp hs
  cases a with
  | send x =>
    simp only [step] at hs
    split at hs <;> cases hs
    exact hp
  | take =>
    simp only [step] at hs
    split at hs
    · rename_i x is hl hi
      cases hs
      cases x <;> simp [onTake, hl]
    · simp at hs
  | put => rcases hp with hp | hp <;> simp [step, hp] at hs
  | skip => rcases hp with hp | hp <;> simp [step, hp] at hs
  | joined => rcases hp with hp | hp <;> simp [step, hp] at hs
  | read j =>
    obtain ⟨v, hv, hs⟩ := Option.bind_eq_some_iff.1 hs
    split at hs <;> cases hs
    exact hp
  | readEnd j =>
    obtain ⟨v, hv, hs⟩ := Option.bind_eq_some_iff.1 hs
    split at hs <;> cases hs
    exact hp
  | abandon j =>
    obtain ⟨v, hv, hs⟩ := Option.bind_eq_some_iff.1 hs
    cases hs
    exact hp
  | orphan j =>
    obtain ⟨v, hv, hs⟩ := Option.bind_eq_some_iff.1 hs
    split at hs <;> cases hs
    exact hp
  | stop j =>
    obtain ⟨v, hv, hs⟩ := Option.bind_eq_some_iff.1 hs
    cases hs
    exact hp
  | remove j =>
    obtain ⟨v, hv, hs⟩ := Option.bind_eq_some_iff.1 hs
    split at hs <;> cases hs
    exact hp

/-- **C45**: in drop mode nothing delays the broadcaster: as long as it is not shut down, the next
entry can be handled, and then every entry sent before it has been handled for all watchers. -/
theorem C45_no_delay {as : List (Act E)} {s : State E} (h : exec .drop len init as = some s)
    (hc : In.close ∉ handled as) (i : Nat) :
    inFlight s i = [] ∧ (s.incoming ≠ [] → (step .drop len s .take).isSome) := by
  have hl : s.loop = .idle := by
    rcases drop_loop h with hl | hl
    · exact hl
    · exfalso
      refine hc ?_
      refine exec_ind (P := fun as s => exec .drop len init as = some s ∧
        (s.loop = .closed → In.close ∈ handled as)) ⟨rfl, by simp [init]⟩ ?_ as s h |>.2 hl
      rintro as s a s' ⟨h1, h2⟩ hs
      refine ⟨exec_append.2 ⟨s, h1, by simp [exec, hs]⟩, ?_⟩
      by_cases ha : a = .take
      · subst ha
        simp only [step] at hs
        split at hs
        · rename_i x is hl hi
          cases hs
          rw [handled_take h1 hi]
          cases x with
          | event e => simp [onTake, hl]
          | watch p => simp [onTake, hl]
          | close => simp
        · simp at hs
      · rw [handled_other h1 ha]
        intro hcl
        refine h2 ?_
        rcases drop_loop h1 with hi | hi
        · exfalso
          have hsame : s'.loop = s.loop := by
            cases a with
            | send x =>
              simp only [step] at hs
              split at hs <;> cases hs
              rfl
            | take => exact absurd rfl ha
            | put => simp [step, hi] at hs
            | skip => simp [step, hi] at hs
            | joined => simp [step, hi] at hs
            | read j =>
              obtain ⟨v, hv, hs⟩ := Option.bind_eq_some_iff.1 hs
              split at hs <;> cases hs
              rfl
            | readEnd j =>
              obtain ⟨v, hv, hs⟩ := Option.bind_eq_some_iff.1 hs
              split at hs <;> cases hs
              rfl
            | abandon j =>
              obtain ⟨v, hv, hs⟩ := Option.bind_eq_some_iff.1 hs
              cases hs
              rfl
            | orphan j =>
              obtain ⟨v, hv, hs⟩ := Option.bind_eq_some_iff.1 hs
              split at hs <;> cases hs
              rfl
            | stop j =>
              obtain ⟨v, hv, hs⟩ := Option.bind_eq_some_iff.1 hs
              cases hs
              rfl
            | remove j =>
              obtain ⟨v, hv, hs⟩ := Option.bind_eq_some_iff.1 hs
              split at hs <;> cases hs
              rfl
          rw [hsame, hi] at hcl
          simp at hcl
        · exact hi
  refine ⟨by simp [inFlight, hl], fun hi => ?_⟩
  cases hq : s.incoming with
  | nil => exact absurd hq hi
  | cons x is => simp [step, hl, hq]

/-- The queue of the watcher had room (or no bound) whenever the loop took an entry. -/
def Roomy (mode : Mode) (len : Nat) (i : Nat) (as : List (Act E)) : Prop :=
  ∀ n, n < as.length → as[n]? = some .take →
    ∀ w ∈ (exec mode len init (as.take n)).bind (·.watchers[i]?),
      w.maxsize = 0 ∨ w.queue.length < w.maxsize

/-- **C45**: in drop mode a watcher whose queue had room whenever an entry was handled has lost
nothing; so an event is only dropped for a watcher with a full queue. -/
theorem C45_only_full {as : List (Act E)} {s : State E} (h : exec .drop len init as = some s)
    {i : Nat} {w : Watcher E} (hw : s.watchers[i]? = some w) (hs : w.stopped = false)
    (ha : Act.abandon i ∉ as) (hr : Roomy .drop len i as) :
    (owed (handled as))[i]? = some (w.got ++ w.queue) := by
  have key : exec .drop len init as = some s ∧ (Act.abandon i ∉ as → Roomy .drop len i as →
      ∀ w, s.watchers[i]? = some w → w.stopped = false →
      (owed (handled as))[i]? = some (w.got ++ w.queue)) := by
    refine exec_ind (P := fun as s => exec .drop len init as = some s ∧
      (Act.abandon i ∉ as → Roomy .drop len i as →
      ∀ w, s.watchers[i]? = some w → w.stopped = false →
      (owed (handled as))[i]? = some (w.got ++ w.queue))) ⟨rfl, ?_⟩ ?_ as s h
    · simp [init]
    rintro as s a s' ⟨h1, h2⟩ hst
    have h1' : exec .drop len init (as ++ [a]) = some s' :=
      exec_append.2 ⟨s, h1, by simp [exec, hst]⟩
    refine ⟨h1', ?_⟩
    intro hab hro w' hw' hs'
    simp only [List.mem_append, not_or] at hab
    have hro' : Roomy .drop len i as := by
      intro n hn hat v hv
      refine hro n (by simp; omega) (by rw [List.getElem?_append_left hn]; exact hat) v ?_
      rw [List.take_append_of_le_length (by omega)]
      exact hv
    have h3 := h2 hab.1 hro'
    by_cases hat : a = .take
    · subst hat
      have hroom : ∀ v, s.watchers[i]? = some v → v.full = false := by
        intro v hv
        have hb : v ∈ (exec .drop len init ((as ++ [Act.take]).take as.length)).bind
            (·.watchers[i]?) := by
          simp [h1, hv]
        rcases hro as.length (by simp) (by simp) v hb with hm | hm
        · simp [Watcher.full, hm]
        · simp [Watcher.full]; omega
      simp only [step] at hst
      split at hst
      · rename_i x is hl hi
        cases hst
        rw [handled_take h1 hi, owed_snoc]
        cases x with
        | close =>
          simp only [onTake, List.getElem?_map, Option.map_eq_some_iff] at hw'
          obtain ⟨v, hv, rfl⟩ := hw'
          unfold closeOne at hs' ⊢
          split at hs'
          · simp at hs'
          · rename_i hm
            rw [if_neg hm]
            exact h3 v hv hs'
        | watch p =>
          simp only [onTake, List.getElem?_append] at hw'
          simp only [owedStep, List.getElem?_append, (inv_exec h1 i).1]
          split at hw'
          · rename_i hlt
            rw [if_pos hlt]
            exact h3 w' hw' hs'
          · rename_i hlt
            rw [if_neg hlt]
            have h0 : i - s.watchers.length = 0 := by
              have := (List.getElem?_eq_some_iff.1 hw').1
              simp at this
              omega
            rw [h0] at hw' ⊢
            simp at hw'
            subst hw'
            cases p <;> simp [newWatcher]
        | event e =>
          simp only [onTake, List.getElem?_map, Option.map_eq_some_iff] at hw'
          obtain ⟨v, hv, rfl⟩ := hw'
          have hvs : v.stopped = false := by
            unfold offerDrop at hs'
            split at hs' <;> exact hs'
          have hvm : v.inMap = true := by
            cases hm : v.inMap with
            | true => rfl
            | false =>
              have := (good_exec h1).unreg i v hv hm
              rw [hvs] at this
              simp at this
          have hoff : offerDrop e v = v.push e := by
            simp [offerDrop, hvm, hvs, hroom v hv]
          rw [hoff]
          simp [owedStep, h3 v hv hvs, Watcher.push]
      · simp at hst
    · rw [handled_other h1 hat]
      have hlt : i < s.watchers.length := by
        have e1 := (inv_exec h1 i).1
        have e2 := (inv_exec h1' i).1
        rw [handled_other h1 hat] at e2
        have := (List.getElem?_eq_some_iff.1 hw').1
        omega
      obtain ⟨v, hv⟩ : ∃ v, s.watchers[i]? = some v := ⟨_, List.getElem?_eq_getElem hlt⟩
      obtain ⟨v', hv', hev, hmono⟩ := step_evolves hst hv
      rw [hw'] at hv'
      cases hv'
      have hvs : v.stopped = false := by
        cases hb : v.stopped with
        | false => rfl
        | true => rw [hmono hb] at hs'; simp at hs'
      rw [h3 v hv hvs]
      cases hev with
      | same e1 e2 e3 => rw [e1, e2]
      | pushed e hp e1 e2 e3 =>
        rcases hp with rfl | rfl
        · exact absurd rfl hat
        · rcases drop_loop h1 with hl | hl <;> simp [step, hl] at hst
      | read e _ e1 e2 e3 => rw [e1, e2]; simp
      | ended _ hq e1 e2 e3 => rw [e1, e2, hq]
      | abandoned ha e1 e2 => rw [e1, e2]
      | lost e _ e1 e2 e3 =>
        have := ((inv_exec h1 i).2 v hv)
        obtain ⟨o, -, hr⟩ := this
        have := hr.orph hvs
        rw [cancelled_eq_zero hab.1] at this
        omega
  exact key.2 ha hr w hw hs

/-- A watcher with room for one event: the second event is dropped for it, not for the other. -/
private abbrev exDrop : List (Act Nat) :=
  [.send (.watch none), .send (.watch none), .take, .take, .send (.event 1), .take, .read 1,
    .send (.event 2), .take]

example : (exec .drop 1 init exDrop).map (·.watchers.map fun w => (w.got, w.queue)) =
    some [([], [1]), ([1], [2])] := by decide

example : Roomy .drop 1 1 exDrop := by
  unfold Roomy
  decide

/-- **C45**, the other way round: for a watcher with a full queue the event is dropped, and only
for it. -/
theorem C45_full {as : List (Act E)} {s s' : State E} (h : exec .drop len init as = some s)
    {e : E} {is : List (In E)} (hi : s.incoming = .event e :: is)
    (hs : step .drop len s .take = some s') {i : Nat} {w : Watcher E}
    (hw : s.watchers[i]? = some w) (hst : w.stopped = false) :
    ∃ w', s'.watchers[i]? = some w' ∧ w'.got = w.got ∧
      ((w.maxsize ≠ 0 ∧ w.maxsize ≤ w.queue.length → w'.queue = w.queue) ∧
       (w.maxsize = 0 ∨ w.queue.length < w.maxsize → w'.queue = w.queue ++ [e])) := by
  have hm : w.inMap = true := by
    cases hm : w.inMap with
    | true => rfl
    | false =>
      have := (good_exec h).unreg i w hw hm
      rw [hst] at this
      simp at this
  simp only [step] at hs
  split at hs
  · rename_i x is' hl hi'
    rw [hi] at hi'
    cases hi'
    cases hs
    refine ⟨offerDrop e w, by simp [onTake, hw], ?_⟩
    by_cases hf : w.maxsize ≠ 0 ∧ w.maxsize ≤ w.queue.length
    · have hff : w.full = true := by simp [Watcher.full, hf.1, hf.2]
      have ho : offerDrop e w = w := by simp [offerDrop, hff]
      rw [ho]
      refine ⟨rfl, fun _ => rfl, fun hr => ?_⟩
      omega
    · have hff : w.full = false := by
        simp only [Watcher.full, Bool.and_eq_false_iff, decide_eq_false_iff_not]
        rcases Nat.eq_zero_or_pos w.maxsize with h0 | h0
        · left; simp [h0]
        · right; omega
      have ho : offerDrop e w = w.push e := by simp [offerDrop, hff, hm, hst]
      rw [ho]
      exact ⟨rfl, fun hr => absurd hr hf, fun _ => rfl⟩
  · simp at hs

/-! ### Stopping -/

/-- A step of the loop. -/
def Act.ofLoop : Act E → Bool
  | .take | .put | .skip | .joined => true
  | _ => false

private theorem exec_one {s s' t : State E} {a : Act E} {bs : List (Act E)}
    (h : step mode len s a = some t) (h' : exec mode len t bs = some s') :
    exec mode len s (a :: bs) = some s' := by
  simp [exec, h, h']

private theorem offers (es : List E) : ∀ (w : Watcher E), w.inMap = true → w.stopped = false →
    (es.foldl (fun w e => offerDrop e w) w).queue =
      w.queue ++ if w.maxsize = 0 then es else es.take (w.maxsize - w.queue.length) := by
  induction es with
  | nil => intro w _ _; simp
  | cons e es ih =>
    intro w hm hs
    rw [List.foldl_cons]
    cases hf : w.full with
    | true =>
      have ho : offerDrop e w = w := by simp [offerDrop, hf]
      rw [ho, ih w hm hs]
      simp only [Watcher.full, Bool.and_eq_true, decide_eq_true_eq] at hf
      have h0 : w.maxsize - w.queue.length = 0 := by omega
      simp [hf.1, h0]
    | false =>
      have ho : offerDrop e w = w.push e := by simp [offerDrop, hf, hm, hs]
      rw [ho, ih (w.push e) hm hs]
      simp only [Watcher.push, List.length_append, List.length_singleton]
      by_cases h0 : w.maxsize = 0
      · simp [h0]
      · have hf : w.queue.length < w.maxsize := by
          simp only [Watcher.full, Bool.and_eq_false_iff, decide_eq_false_iff_not] at hf
          omega
        have : w.maxsize - w.queue.length = (w.maxsize - (w.queue.length + 1)) + 1 := by omega
        simp only [h0, if_false]
        rw [this, List.take_succ_cons, List.append_assoc]
        rfl

private theorem takes (es : List E) : ∀ (s : State E), s.loop = .idle → s.incoming = es.map .event →
    ∃ s' : State E, exec .drop len s (List.replicate es.length .take) = some s' ∧
      ∀ i : Nat, s'.watchers[i]? = (s.watchers[i]?).map fun w => es.foldl (fun w e => offerDrop e w) w := by
  induction es with
  | nil => intro s _ _; exact ⟨s, rfl, fun i => by simp⟩
  | cons e es ih =>
    intro s hl hi
    obtain ⟨inc, ws, lp⟩ := s
    simp only at hl hi
    subst hl hi
    obtain ⟨s', h1, h2⟩ := ih ⟨es.map .event, ws.map (offerDrop e), .idle⟩ rfl rfl
    refine ⟨s', ?_, fun i => ?_⟩
    · rw [List.length_cons, List.replicate_succ]
      exact exec_one (by simp [step, onTake]) h1
    · rw [h2 i, List.getElem?_map]
      cases ws[i]? <;> rfl

/-- **C45**: what a new watcher can take before events are dropped: as many events as the configured
length, the prefix included, but always at least one after a prefix; without a prefix and with the length
0 all. -/
theorem C45_buffer {s : State E} (hl : s.loop = .idle) {p : Option (List E)} {es : List E}
    (hi : s.incoming = .watch p :: es.map .event) :
    ∃ s' w, exec .drop len s (List.replicate (es.length + 1) .take) = some s' ∧
      s'.watchers[s.watchers.length]? = some w ∧
      w.queue = (match p with
        | none => if len = 0 then es else es.take len
        | some q => q ++ es.take (max (len - q.length) 1)) := by
  obtain ⟨inc, ws, lp⟩ := s
  simp only at hl hi
  subst hl hi
  obtain ⟨s', h1, h2⟩ := takes (len := len) es ⟨es.map .event, ws ++ [newWatcher len p], .idle⟩ rfl rfl
  refine ⟨s', _, ?_, by rw [h2]; simp; rfl, ?_⟩
  · rw [List.replicate_succ]
    exact exec_one (by simp [step, onTake]) h1
  · cases p with
    | none =>
      rw [offers es _ rfl rfl]
      by_cases h0 : len = 0 <;> simp [newWatcher, h0]
    | some q =>
      rw [offers es _ rfl rfl]
      have h3 : max len (q.length + 1) ≠ 0 := by omega
      have h4 : max len (q.length + 1) - q.length = max (len - q.length) 1 := by omega
      simp [newWatcher, h3, h4]

example : (exec .drop 2 ⟨[.watch (some [1, 2, 3]), .event 4, .event 5], [], .idle⟩
    (List.replicate 3 .take)).map (fun s => s.watchers.map (·.queue)) = some [[1, 2, 3, 4]] := by decide

/-- **C46**: stopped watchers do not block the broadcaster: from any state, when the watchers it
has yet to come to are stopped or have room in their queues, it gets through with this event by
its own steps. -/
theorem C46_not_blocked {as : List (Act E)} {s : State E} (h : exec .wait len init as = some s)
    (hc : s.loop ≠ .closed)
    (hw : ∀ i ∈ loopIds s.loop, ∀ w, s.watchers[i]? = some w →
      w.stopped = true ∨ (w.maxsize ≠ 0 ∧ w.queue.length < w.maxsize)) :
    ∃ bs s', exec .wait len s bs = some s' ∧ s'.loop = .idle ∧ ∀ b ∈ bs, Act.ofLoop b = true := by
  have hg := good_exec h
  clear h
  -- a stopped watcher is skipped, one with room is served
  have offer : ∀ (ids : List Nat) (s : State E) (e : E), Good s → s.loop = next e ids →
      (∀ i ∈ ids, ∀ w, s.watchers[i]? = some w →
        w.stopped = true ∨ (w.maxsize ≠ 0 ∧ w.queue.length < w.maxsize)) →
      ∃ bs s', exec .wait len s bs = some s' ∧ s'.loop = .idle ∧
        ∀ b ∈ bs, Act.ofLoop b = true := by
    intro ids
    induction ids with
    | nil => intro s e hg hl _; exact ⟨[], s, rfl, hl, by simp⟩
    | cons i ids ih =>
      intro s e hg hl hw
      have hl' : s.loop = .offer e (i :: ids) := hl
      have hb : i < s.watchers.length := hg.bound i (by simp [hl', loopIds])
      obtain ⟨w, hwi⟩ : ∃ w, s.watchers[i]? = some w := ⟨_, List.getElem?_eq_getElem hb⟩
      have hn := hg.nodup
      simp only [hl', loopIds, List.nodup_cons] at hn
      cases hst : w.stopped with
      | true =>
        have hs : step .wait len s .skip = some { s with loop := next e ids } := by
          simp [step, hl', hwi, hst]
        obtain ⟨bs, s', h1, h2, h3⟩ := ih { s with loop := next e ids } e (good_step hg hs) rfl
          (fun j hj => hw j (by simp [hj]))
        exact ⟨.skip :: bs, s', exec_one hs h1, h2, by
          intro b hb
          rcases List.mem_cons.1 hb with rfl | hb
          · rfl
          · exact h3 b hb⟩
      | false =>
        rcases hw i (by simp) w hwi with hx | ⟨hm, hq⟩
        · rw [hst] at hx; simp at hx
        · have hfull : w.full = false := by simp [Watcher.full]; omega
          have hs : step .wait len s .put = some { setW s i (w.push e) with loop := next e ids } := by
            simp [step, hl', hwi, hfull, hm]
          obtain ⟨bs, s', h1, h2, h3⟩ := ih { setW s i (w.push e) with loop := next e ids } e
            (good_step hg hs) rfl (by
              intro j hj v hv
              have hv' : (setW s i (w.push e)).watchers[j]? = some v := hv
              rw [get_setW hwi, if_neg (fun hij => hn.1 (by rw [hij]; exact hj))] at hv'
              exact hw j (by simp [hj]) v hv')
          exact ⟨.put :: bs, s', exec_one hs h1, h2, by
            intro b hb
            rcases List.mem_cons.1 hb with rfl | hb
            · rfl
            · exact h3 b hb⟩
  cases hl : s.loop with
  | idle => exact ⟨[], s, rfl, hl, by simp⟩
  | closed => exact absurd hl hc
  | offer e ids =>
    refine offer ids s e hg ?_ (by simpa [hl, loopIds] using hw)
    cases ids with
    | nil => exact absurd hl (hg.offer e)
    | cons i ids => exact hl
  | join e i ids =>
    have hb : i < s.watchers.length := hg.bound i (by simp [hl, loopIds])
    obtain ⟨w, hwi⟩ : ∃ w, s.watchers[i]? = some w := ⟨_, List.getElem?_eq_getElem hb⟩
    have hst : w.stopped = true := by
      rcases hw i (by simp [hl, loopIds]) w hwi with hx | hx
      · exact hx
      · exact absurd (hg.join e i ids hl w hwi) hx.1
    have hs : step .wait len s .skip = some { s with loop := next e ids } := by
      simp [step, hl, hwi, hst]
    obtain ⟨bs, s', h1, h2, h3⟩ := offer ids { s with loop := next e ids } e (good_step hg hs) rfl
      (fun j hj => hw j (by simp [hl, loopIds, hj]))
    exact ⟨.skip :: bs, s', exec_one hs h1, h2, by
      intro b hb
      rcases List.mem_cons.1 hb with rfl | hb
      · rfl
      · exact h3 b hb⟩

/-- A full watcher blocks the loop until it is stopped. -/
example : (exec .wait 1 init ([.send (.watch none), .take, .send (.event 1), .take, .put,
      .send (.event 2), .take] : List (Act Nat))).map (fun s => (s.loop, step .wait 1 s .put,
      (step .wait 1 s .skip).isSome)) = some (.offer 2 [0], none, false) ∧
    (exec .wait 1 init ([.send (.watch none), .take, .send (.event 1), .take, .put,
      .send (.event 2), .take, .stop 0, .skip] : List (Act Nat))).map (·.loop) = some .idle := by
  decide

/-- **C46**, **C63**: when readers are not cancelled, the broadcaster only ever waits for a watcher
that is not stopped and has unread events: reading one of them is possible. -/
theorem C46_waits_for_reader {as : List (Act E)} {s : State E}
    (h : exec .wait len init as = some s) (ha : ∀ i, Act.abandon i ∉ as)
    (hl : s.loop ≠ .idle) (hc : s.loop ≠ .closed)
    (hp : step .wait len s .put = none) (hk : step .wait len s .skip = none)
    (hj : step .wait len s .joined = none) :
    ∃ i w, s.watchers[i]? = some w ∧ i ∈ loopIds s.loop ∧ w.stopped = false ∧ w.queue ≠ [] ∧
      (step .wait len s (.read i)).isSome := by
  have hg := good_exec h
  have hread : ∀ (i : Nat) (w : Watcher E), s.watchers[i]? = some w → w.queue ≠ [] →
      (step .wait len s (.read i)).isSome := by
    intro i w hw hq
    cases hqq : w.queue with
    | nil => exact absurd hqq hq
    | cons e q => simp [step, hw, hqq]
  cases hlo : s.loop with
  | idle => exact absurd hlo hl
  | closed => exact absurd hlo hc
  | offer e ids =>
    cases ids with
    | nil => exact absurd hlo (hg.offer e)
    | cons i ids =>
      have hb : i < s.watchers.length := hg.bound i (by simp [hlo, loopIds])
      obtain ⟨w, hw⟩ : ∃ w, s.watchers[i]? = some w := ⟨_, List.getElem?_eq_getElem hb⟩
      have hs : w.stopped = false := by
        cases hs : w.stopped with
        | false => rfl
        | true => simp [step, hlo, hw, hs] at hk
      have hf : w.full = true := by
        cases hf : w.full with
        | true => rfl
        | false => simp [step, hlo, hw, hf] at hp
      have hq : w.queue ≠ [] := by
        intro hq
        simp [Watcher.full, hq] at hf
      exact ⟨i, w, hw, by simp [loopIds], hs, hq, hread i w hw hq⟩
  | join e i ids =>
    have hb : i < s.watchers.length := hg.bound i (by simp [hlo, loopIds])
    obtain ⟨w, hw⟩ : ∃ w, s.watchers[i]? = some w := ⟨_, List.getElem?_eq_getElem hb⟩
    have hs : w.stopped = false := by
      cases hs : w.stopped with
      | false => rfl
      | true => simp [step, hlo, hw, hs] at hk
    obtain ⟨o, -, hr⟩ := (inv_exec h i).2 w hw
    have hu := hr.unf (cancelled_eq_zero (ha i)) hs (hg.join e i ids hlo w hw)
    have hq : w.queue ≠ [] := by
      intro hq
      rw [hq] at hu
      simp only [List.length_nil] at hu
      simp [step, hlo, hw, hu] at hj
    exact ⟨i, w, hw, by simp [loopIds], hs, hq, hread i w hw hq⟩

private theorem drain {i : Nat} :
    ∀ (q : List E) (s : State E) (w : Watcher E), s.watchers[i]? = some w → w.queue = q →
      w.stopped = true →
      ∃ s' w', exec mode len s (List.replicate q.length (.read i) ++ [.readEnd i]) = some s' ∧
        s'.watchers[i]? = some w' ∧ w'.got = w.got ++ q ∧ w'.ended = true := by
  intro q
  induction q with
  | nil =>
    intro s w hw hq hs
    refine ⟨setW s i { w with ended := true, orphans := w.orphans + 1 },
      { w with ended := true, orphans := w.orphans + 1 }, ?_, ?_, by simp, rfl⟩
    · simp [exec, step, hw, hq, hs]
    · rw [get_setW hw, if_pos rfl]
  | cons e q ih =>
    intro s w hw hq hs
    obtain ⟨n, hn⟩ : ∃ n, n = if w.maxsize = 0 then w.unfinished - 1 else w.unfinished := ⟨_, rfl⟩
    have h1 : step mode len s (.read i) = some (setW s i
        { w with queue := q, got := w.got ++ [e], unfinished := n }) := by
      simp [step, hw, hq, hn]
    obtain ⟨s', w', h2, h3, h4, h5⟩ := ih _
      { w with queue := q, got := w.got ++ [e], unfinished := n }
      (by rw [get_setW hw, if_pos rfl]) rfl hs
    refine ⟨s', w', ?_, h3, ?_, h5⟩
    · rw [List.length_cons, List.replicate_succ, List.cons_append]
      exact exec_one h1 h2
    · rw [h4]; simp

/-- **C46**: after shutdown every watcher is stopped; its reader gets the events in its queue and
then the end; before it got them there is no end. -/
theorem C46_shutdown {as : List (Act E)} {s : State E} (h : exec mode len init as = some s)
    (hc : s.loop = .closed) {i : Nat} {w : Watcher E} (hw : s.watchers[i]? = some w) :
    w.stopped = true ∧
    (∃ s' w', exec mode len s (List.replicate w.queue.length (.read i) ++ [.readEnd i]) = some s' ∧
      s'.watchers[i]? = some w' ∧ w'.got = w.got ++ w.queue ∧ w'.ended = true) ∧
    (w.queue ≠ [] → step mode len s (.readEnd i) = none) := by
  have hs := (good_exec h).closed hc i w hw
  refine ⟨hs, drain w.queue s w hw rfl hs, fun hq => ?_⟩
  simp [step, hw, hq]

example : (exec .wait 2 init ([.send (.watch none), .send (.event 1), .send (.event 2), .take,
    .send .close, .take, .put, .take, .put, .take, .read 0, .read 0, .readEnd 0] :
    List (Act Nat))).map (fun s => (s.loop, s.watchers.map fun w => (w.got, w.ended))) =
    some (.closed, [([1, 2], true)]) := by decide

/-- **C46**: stopping again changes nothing. -/
theorem C46_idempotent {s s' s'' : State E} {i : Nat} (h : step mode len s (.stop i) = some s')
    (h' : step mode len s' (.stop i) = some s'') : s'' = s' := by
  obtain ⟨w, hw, hs⟩ := Option.bind_eq_some_iff.1 h
  cases hs
  have hw' : (setW s i { w with stopped := true }).watchers[i]? = some { w with stopped := true } := by
    rw [get_setW hw, if_pos rfl]
  obtain ⟨v, hv, hs'⟩ := Option.bind_eq_some_iff.1 h'
  rw [hw'] at hv
  cases hv
  cases hs'
  exact setW_self hw'

/-- **C46**: a stopped watcher can be taken out whenever the broadcaster is between two events. -/
theorem C46_remove {s : State E} {i : Nat} {w : Watcher E} (hw : s.watchers[i]? = some w)
    (hs : w.stopped = true) (hl : s.loop = .idle ∨ s.loop = .closed) :
    ∃ s' w', step mode len s (.remove i) = some s' ∧ s'.watchers[i]? = some w' ∧
      w'.inMap = false ∧ i ∉ registered s'.watchers := by
  refine ⟨setW s i { w with inMap := false }, { w with inMap := false }, ?_, ?_, rfl, ?_⟩
  · rcases hl with hl | hl <;> simp [step, hw, hs, hl, free]
  · rw [get_setW hw, if_pos rfl]
  · intro hm
    obtain ⟨v, hv, hvm⟩ := mem_registered.1 hm
    rw [get_setW hw, if_pos rfl] at hv
    cases hv
    simp at hvm

/-- **C46**: a reader gets the end only of a watcher that was stopped. -/
theorem C46_end {as : List (Act E)} {s : State E} (h : exec mode len init as = some s) {i : Nat}
    {w : Watcher E} (hw : s.watchers[i]? = some w) (he : w.ended = true) : w.stopped = true := by
  have key : ∀ w ∈ s.watchers, w.ended = true → w.stopped = true := by
    refine exec_ind (mode := mode) (len := len) (s0 := init)
      (P := fun _ s => ∀ w ∈ s.watchers, w.ended = true → w.stopped = true) (by simp [init]) ?_ as s h
    intro as s a s' ih hs
    have hset : ∀ (i : Nat) (v : Watcher E), (v.ended = true → v.stopped = true) →
        ∀ w ∈ (setW s i v).watchers, w.ended = true → w.stopped = true := by
      intro i v hv w hw
      rcases List.mem_or_eq_of_mem_set hw with hw | rfl
      · exact ih w hw
      · exact hv
    have hget : ∀ {i : Nat} {w : Watcher E}, s.watchers[i]? = some w → w.ended = true → w.stopped = true :=
      fun hw => ih _ (List.mem_of_getElem? hw)
    cases a with
    | send i =>
      simp only [step] at hs
      split at hs <;> cases hs
      exact ih
    | take =>
      simp only [step] at hs
      split at hs
      · cases hs
        rename_i x _ _ _
        cases x with
        | close =>
          intro w hw
          simp only [onTake, List.mem_map] at hw
          obtain ⟨v, hv, rfl⟩ := hw
          have := ih v hv
          unfold closeOne
          split
          · simp
          · exact this
        | watch p =>
          intro w hw
          simp only [onTake, List.mem_append, List.mem_singleton] at hw
          rcases hw with hw | rfl
          · exact ih w hw
          · cases p <;> simp [newWatcher]
        | event e =>
          cases mode with
          | drop =>
            intro w hw
            simp only [onTake, List.mem_map] at hw
            obtain ⟨v, hv, rfl⟩ := hw
            have := ih v hv
            unfold offerDrop
            split
            · exact this
            · exact this
          | wait => exact ih
      · cases hs
    | put =>
      simp only [step] at hs
      split at hs
      · obtain ⟨v, hv, hs⟩ := Option.bind_eq_some_iff.1 hs
        split at hs <;> cases hs
        exact hset _ _ (have := hget hv; fun he => this he)
      · cases hs
    | skip =>
      simp only [step] at hs
      split at hs
      · obtain ⟨v, hv, hs⟩ := Option.bind_eq_some_iff.1 hs
        split at hs <;> cases hs
        exact ih
      · obtain ⟨v, hv, hs⟩ := Option.bind_eq_some_iff.1 hs
        split at hs <;> cases hs
        exact ih
      · cases hs
    | joined =>
      simp only [step] at hs
      split at hs
      · obtain ⟨v, hv, hs⟩ := Option.bind_eq_some_iff.1 hs
        split at hs <;> cases hs
        exact ih
      · cases hs
    | read i =>
      obtain ⟨v, hv, hs⟩ := Option.bind_eq_some_iff.1 hs
      split at hs <;> cases hs
      exact hset _ _ (have := hget hv; fun he => this he)
    | readEnd i =>
      obtain ⟨v, hv, hs⟩ := Option.bind_eq_some_iff.1 hs
      split at hs <;> cases hs
      rename_i hc
      exact hset _ _ fun _ => hc.2
    | abandon i =>
      obtain ⟨v, hv, hs⟩ := Option.bind_eq_some_iff.1 hs
      cases hs
      exact hset _ _ (have := hget hv; fun he => this he)
    | orphan i =>
      obtain ⟨v, hv, hs⟩ := Option.bind_eq_some_iff.1 hs
      split at hs <;> cases hs
      exact hset _ _ (have := hget hv; fun he => this he)
    | stop i =>
      obtain ⟨v, hv, hs⟩ := Option.bind_eq_some_iff.1 hs
      cases hs
      exact hset _ _ fun _ => rfl
    | remove i =>
      obtain ⟨v, hv, hs⟩ := Option.bind_eq_some_iff.1 hs
      split at hs <;> cases hs
      exact hset _ _ (have := hget hv; fun he => this he)
  exact key w (List.mem_of_getElem? hw) he

/-- **C46**: while an event is distributed, the watchers registered stay the same (the loop of lines
132-141 goes over the dictionary, which must not change). -/
theorem C46_fixed {s s' : State E} {a : Act E} (hs : step mode len s a = some s')
    (hl : s.loop ≠ .idle ∧ s.loop ≠ .closed) : registered s'.watchers = registered s.watchers := by
  have hset : ∀ (i : Nat) (v w : Watcher E), s.watchers[i]? = some v → w.inMap = v.inMap →
      registered (s.watchers.set i w) = registered s.watchers := by
    intro i v w hv hw
    have hi := (List.getElem?_eq_some_iff.1 hv).1
    unfold registered
    rw [List.length_set]
    apply List.filter_congr
    intro j _
    by_cases hj : i = j
    · subst hj
      rw [List.getElem?_set_self hi, hv]
      exact hw
    · rw [List.getElem?_set_ne hj]
  cases a with
  | send i =>
    simp only [step] at hs
    split at hs <;> cases hs
    rfl
  | take =>
    simp only [step] at hs
    split at hs
    · rename_i h1 _
      exact absurd h1 hl.1
    · cases hs
  | put =>
    simp only [step] at hs
    split at hs
    · obtain ⟨v, hv, hs⟩ := Option.bind_eq_some_iff.1 hs
      split at hs <;> cases hs
      exact hset _ v _ hv rfl
    · cases hs
  | skip =>
    simp only [step] at hs
    split at hs
    · obtain ⟨v, hv, hs⟩ := Option.bind_eq_some_iff.1 hs
      split at hs <;> cases hs
      rfl
    · obtain ⟨v, hv, hs⟩ := Option.bind_eq_some_iff.1 hs
      split at hs <;> cases hs
      rfl
    · cases hs
  | joined =>
    simp only [step] at hs
    split at hs
    · obtain ⟨v, hv, hs⟩ := Option.bind_eq_some_iff.1 hs
      split at hs <;> cases hs
      rfl
    · cases hs
  | read i =>
    obtain ⟨v, hv, hs⟩ := Option.bind_eq_some_iff.1 hs
    split at hs <;> cases hs
    exact hset _ v _ hv rfl
  | readEnd i =>
    obtain ⟨v, hv, hs⟩ := Option.bind_eq_some_iff.1 hs
    split at hs <;> cases hs
    exact hset _ v _ hv rfl
  | abandon i =>
    obtain ⟨v, hv, hs⟩ := Option.bind_eq_some_iff.1 hs
    cases hs
    exact hset _ v _ hv rfl
  | orphan i =>
    obtain ⟨v, hv, hs⟩ := Option.bind_eq_some_iff.1 hs
    split at hs <;> cases hs
    exact hset _ v _ hv rfl
  | stop i =>
    obtain ⟨v, hv, hs⟩ := Option.bind_eq_some_iff.1 hs
    cases hs
    exact hset _ v _ hv rfl
  | remove i =>
    obtain ⟨v, hv, hs⟩ := Option.bind_eq_some_iff.1 hs
    split at hs
    · rename_i hc
      exfalso
      cases hp : s.loop <;> simp_all [free]
    · cases hs

example : (exec .wait 1 init ([.send (.watch none), .take, .send (.watch none), .take, .send (.event 1),
    .take, .stop 0, .put] : List (Act Nat))).map (fun s => (s.loop, registered s.watchers,
      (step .wait 1 s (.remove 0)).isSome)) = some (.offer 1 [1], [0, 1], false) := by decide

/-! ### Cancelled readers -/

/-- **C63** is false: a reader that was cancelled while it waited (as `wait_for` does) takes the
next event with it; the watcher, never stopped, does not see it. -/
theorem C63_refuted_lost : ∃ (as : List (Act Nat)) (s : State Nat) (w : Watcher Nat),
    exec .wait 5 init as = some s ∧ s.watchers[0]? = some w ∧ w.stopped = false ∧
    s.loop = .idle ∧ s.incoming = [] ∧ w.queue = [] ∧ w.got = [2] ∧
    owed (handled as) = [[1, 2]] :=
  ⟨[.send (.watch none), .take, .abandon 0, .send (.event 1), .take, .put, .orphan 0,
    .send (.event 2), .take, .put, .read 0], _, _, rfl, rfl, rfl, rfl, rfl, rfl, rfl, rfl⟩

/-- **C63** is false: with queues of length 0 the broadcaster then waits for ever: as long as that
watcher is not stopped, it never comes back to its loop. -/
theorem C63_refuted_stuck : ∃ (as : List (Act Nat)) (s : State Nat),
    exec .wait 0 init as = some s ∧ s.loop = .join 1 0 [] ∧
    ∀ bs s', Act.stop 0 ∉ bs → exec .wait 0 s bs = some s' → s'.loop = .join 1 0 [] := by
  refine ⟨[.send (.watch none), .take, .abandon 0, .send (.event 1), .take, .put, .orphan 0], _,
    rfl, rfl, ?_⟩
  suffices H : ∀ (bs : List (Act Nat)) (s s' : State Nat), s.loop = .join 1 0 [] →
      (∃ w, s.watchers[0]? = some w ∧ w.queue = [] ∧ w.stopped = false ∧ w.unfinished = 1) →
      Act.stop 0 ∉ bs → exec .wait 0 s bs = some s' → s'.loop = .join 1 0 [] by
    intro bs s' hb he
    exact H bs _ s' rfl ⟨_, rfl, rfl, rfl, rfl⟩ hb he
  intro bs
  induction bs with
  | nil => intro s s' hl _ _ he; cases he; exact hl
  | cons a bs ih =>
    rintro s s' hl ⟨w, hw, hq, hst, hu⟩ hb he
    simp only [List.mem_cons, not_or] at hb
    obtain ⟨t, h1, h2⟩ := exec_cons he
    have other : ∀ (j : Nat) (v v' : Watcher Nat), s.watchers[j]? = some v → t = setW s j v' →
        (j = 0 → v'.queue = [] ∧ v'.stopped = false ∧ v'.unfinished = 1) →
        s'.loop = .join 1 0 [] := by
      rintro j v v' hv rfl hj
      refine ih (setW s j v') s' hl ?_ hb.2 h2
      rw [get_setW hv]
      by_cases h0 : j = 0
      · rw [if_pos h0]
        exact ⟨v', rfl, hj h0⟩
      · rw [if_neg h0]
        exact ⟨w, hw, hq, hst, hu⟩
    cases a with
    | send x =>
      simp only [step] at h1
      split at h1 <;> cases h1
      exact ih { s with incoming := s.incoming ++ [x] } s' hl ⟨w, hw, hq, hst, hu⟩ hb.2 h2
    | take => simp [step, hl] at h1
    | put => simp [step, hl] at h1
    | skip => simp [step, hl, hw, hst] at h1
    | joined => simp [step, hl, hw, hu] at h1
    | read j =>
      obtain ⟨v, hv, h1⟩ := Option.bind_eq_some_iff.1 h1
      split at h1 <;> cases h1
      rename_i e q hvq
      refine other j v _ hv rfl fun hj => ?_
      subst hj
      rw [hw] at hv
      cases hv
      rw [hq] at hvq
      simp at hvq
    | readEnd j =>
      obtain ⟨v, hv, h1⟩ := Option.bind_eq_some_iff.1 h1
      split at h1 <;> cases h1
      refine other j v _ hv rfl fun hj => ?_
      subst hj
      rw [hw] at hv
      cases hv
      exact ⟨hq, hst, hu⟩
    | abandon j =>
      obtain ⟨v, hv, h1⟩ := Option.bind_eq_some_iff.1 h1
      cases h1
      refine other j v _ hv rfl fun hj => ?_
      subst hj
      rw [hw] at hv
      cases hv
      exact ⟨hq, hst, hu⟩
    | orphan j =>
      obtain ⟨v, hv, h1⟩ := Option.bind_eq_some_iff.1 h1
      split at h1 <;> cases h1
      rename_i e q n hvq hn
      refine other j v _ hv rfl fun hj => ?_
      subst hj
      rw [hw] at hv
      cases hv
      rw [hq] at hvq
      simp at hvq
    | stop j =>
      obtain ⟨v, hv, h1⟩ := Option.bind_eq_some_iff.1 h1
      cases h1
      refine other j v _ hv rfl fun hj => ?_
      subst hj
      exact absurd rfl hb.1
    | remove j =>
      obtain ⟨v, hv, h1⟩ := Option.bind_eq_some_iff.1 h1
      split at h1 <;> cases h1
      refine other j v _ hv rfl fun hj => ?_
      subst hj
      rw [hw] at hv
      cases hv
      exact ⟨hq, hst, hu⟩

/-- **C63**, what is left: cancelled readers lose at most one event each; the rest comes in order.
Missing: that nothing is lost, see `C63_refuted_lost`. -/
theorem C63_partial {as : List (Act E)} {s : State E} (h : exec .wait len init as = some s)
    {i : Nat} {w : Watcher E} (hw : s.watchers[i]? = some w) (hs : w.stopped = false) :
    ∃ o, (owed (handled as))[i]? = some o ∧ (w.got ++ w.queue ++ inFlight s i).Sublist o ∧
      o.length ≤ (w.got ++ w.queue ++ inFlight s i).length + cancelled i as := by
  obtain ⟨o, ho, hr⟩ := (inv_exec h i).2 w hw
  refine ⟨o, ho, hr.sub, ?_⟩
  have := hr.cnt rfl hs
  omega

/-! ### After shutdown -/

private theorem closed_step {s s' : State E} {a : Act E} (hc : s.loop = .closed)
    (hs : step mode len s a = some s') :
    s'.loop = .closed ∧ s'.watchers.length = s.watchers.length ∧
      s.incoming.length ≤ s'.incoming.length := by
  have setw : ∀ j v, s' = setW s j v → s'.loop = .closed ∧
      s'.watchers.length = s.watchers.length ∧ s.incoming.length ≤ s'.incoming.length := by
    rintro j v rfl
    exact ⟨hc, by simp [setW], Nat.le_refl _⟩
  cases a with
  | send x =>
    simp only [step] at hs
    split at hs <;> cases hs
    exact ⟨hc, rfl, by simp⟩
  | take => simp [step, hc] at hs
  | put => simp [step, hc] at hs
  | skip => simp [step, hc] at hs
  | joined => simp [step, hc] at hs
  | read j =>
    obtain ⟨v, hv, hs⟩ := Option.bind_eq_some_iff.1 hs
    split at hs <;> cases hs
    exact setw _ _ rfl
  | readEnd j =>
    obtain ⟨v, hv, hs⟩ := Option.bind_eq_some_iff.1 hs
    split at hs <;> cases hs
    exact setw _ _ rfl
  | abandon j =>
    obtain ⟨v, hv, hs⟩ := Option.bind_eq_some_iff.1 hs
    cases hs
    exact setw _ _ rfl
  | orphan j =>
    obtain ⟨v, hv, hs⟩ := Option.bind_eq_some_iff.1 hs
    split at hs <;> cases hs
    exact setw _ _ rfl
  | stop j =>
    obtain ⟨v, hv, hs⟩ := Option.bind_eq_some_iff.1 hs
    cases hs
    exact setw _ _ rfl
  | remove j =>
    obtain ⟨v, hv, hs⟩ := Option.bind_eq_some_iff.1 hs
    split at hs <;> cases hs
    exact setw _ _ rfl

/-- **C46**: after shutdown the broadcaster knows no watcher any more. -/
theorem C46_emptied {as : List (Act E)} {s : State E} (h : exec mode len init as = some s)
    (hc : s.loop = .closed) : registered s.watchers = [] := by
  suffices H : s.loop = .closed → ∀ (i : Nat) (w : Watcher E), s.watchers[i]? = some w → w.inMap = false by
    refine List.eq_nil_iff_forall_not_mem.2 fun i hi => ?_
    obtain ⟨w, hw, hm⟩ := mem_registered.1 hi
    rw [H hc i w hw] at hm; cases hm
  refine exec_ind (P := fun _ s => s.loop = .closed → ∀ (i : Nat) (w : Watcher E), s.watchers[i]? = some w →
    w.inMap = false) (by simp [init]) ?_ as s h
  intro _ s a s' hp hs hc' i w hw
  by_cases hc : s.loop = .closed
  · have setw : ∀ (j : Nat) (v v' : Watcher E), s.watchers[j]? = some v → s' = setW s j v' →
        (v.inMap = false → v'.inMap = false) → w.inMap = false := by
      rintro j v v' hv rfl hi
      rw [get_setW hv] at hw
      split at hw
      · cases hw; exact hi (hp hc j v hv)
      · exact hp hc i w hw
    cases a with
    | send x =>
      simp only [step] at hs
      split at hs <;> cases hs
      exact hp hc i w hw
    | take => simp [step, hc] at hs
    | put => simp [step, hc] at hs
    | skip => simp [step, hc] at hs
    | joined => simp [step, hc] at hs
    | read j =>
      obtain ⟨v, hv, hs⟩ := Option.bind_eq_some_iff.1 hs
      split at hs <;> cases hs
      exact setw _ _ _ hv rfl id
    | readEnd j =>
      obtain ⟨v, hv, hs⟩ := Option.bind_eq_some_iff.1 hs
      split at hs <;> cases hs
      exact setw _ _ _ hv rfl id
    | abandon j =>
      obtain ⟨v, hv, hs⟩ := Option.bind_eq_some_iff.1 hs
      cases hs
      exact setw _ _ _ hv rfl id
    | orphan j =>
      obtain ⟨v, hv, hs⟩ := Option.bind_eq_some_iff.1 hs
      split at hs <;> cases hs
      exact setw _ _ _ hv rfl id
    | stop j =>
      obtain ⟨v, hv, hs⟩ := Option.bind_eq_some_iff.1 hs
      cases hs
      exact setw _ _ _ hv rfl id
    | remove j =>
      obtain ⟨v, hv, hs⟩ := Option.bind_eq_some_iff.1 hs
      split at hs <;> cases hs
      exact setw _ _ _ hv rfl (fun _ => rfl)
  · have nexts : ∀ (e : E) (ids : List Nat), next e ids ≠ .closed := by
      intro e ids; cases ids <;> simp [next]
    have same : s'.loop = s.loop → w.inMap = false := fun h => absurd (h ▸ hc') hc
    have nx : ∀ (e : E) (ids : List Nat), s'.loop = next e ids → w.inMap = false :=
      fun e ids h => absurd (h ▸ hc') (nexts e ids)
    cases a with
    | take =>
      simp only [step] at hs
      split at hs
      · rename_i x is hl hi
        cases hs
        cases x with
        | event e =>
          cases mode with
          | drop => simp [onTake, hl] at hc'
          | wait => exact nx e _ rfl
        | watch p => simp [onTake, hl] at hc'
        | close =>
          simp only [onTake, List.getElem?_map, Option.map_eq_some_iff] at hw
          obtain ⟨v, hv, rfl⟩ := hw
          unfold closeOne
          split
          · rfl
          · rename_i hm; simpa using hm
      · cases hs
    | put =>
      simp only [step] at hs
      split at hs
      · obtain ⟨v, hv, hs⟩ := Option.bind_eq_some_iff.1 hs
        split at hs
        · cases hs
        · cases hs
          split at hc'
          · cases hc'
          · exact absurd hc' (nexts _ _)
      · cases hs
    | skip =>
      simp only [step] at hs
      split at hs
      · obtain ⟨v, hv, hs⟩ := Option.bind_eq_some_iff.1 hs
        split at hs <;> cases hs
        exact nx _ _ rfl
      · obtain ⟨v, hv, hs⟩ := Option.bind_eq_some_iff.1 hs
        split at hs <;> cases hs
        exact nx _ _ rfl
      · cases hs
    | joined =>
      simp only [step] at hs
      split at hs
      · obtain ⟨v, hv, hs⟩ := Option.bind_eq_some_iff.1 hs
        split at hs <;> cases hs
        exact nx _ _ rfl
      · cases hs
    | send x =>
      simp only [step] at hs
      split at hs <;> cases hs
      exact same rfl
    | read j =>
      obtain ⟨v, hv, hs⟩ := Option.bind_eq_some_iff.1 hs
      split at hs <;> cases hs
      exact same rfl
    | readEnd j =>
      obtain ⟨v, hv, hs⟩ := Option.bind_eq_some_iff.1 hs
      split at hs <;> cases hs
      exact same rfl
    | abandon j =>
      obtain ⟨v, hv, hs⟩ := Option.bind_eq_some_iff.1 hs
      cases hs
      exact same rfl
    | orphan j =>
      obtain ⟨v, hv, hs⟩ := Option.bind_eq_some_iff.1 hs
      split at hs <;> cases hs
      exact same rfl
    | stop j =>
      obtain ⟨v, hv, hs⟩ := Option.bind_eq_some_iff.1 hs
      cases hs
      exact same rfl
    | remove j =>
      obtain ⟨v, hv, hs⟩ := Option.bind_eq_some_iff.1 hs
      split at hs <;> cases hs
      exact same rfl

-- `C46_emptied`: two watchers, one of them stopped before
example : (exec .wait 2 init ([.send (.watch none), .send (.watch (some [1])), .take, .take, .stop 0, .send .close,
    .take] : List (Act Nat))).map (fun s => (s.loop, registered s.watchers, s.watchers.length)) =
    some (.closed, [], 2) := by decide

/-- **C64** is false: after `shutdown` has been handled, `watch` never returns (no watcher is ever
made again), and after 25 more entries not even `action` does. -/
theorem C64_refuted {s s' : State E} (hc : s.loop = .closed) {bs : List (Act E)}
    (h : exec mode len s bs = some s') :
    s'.watchers.length = s.watchers.length ∧
    (25 ≤ s.incoming.length → ∀ i, step mode len s' (.send i) = none) := by
  have H : s'.loop = .closed ∧ s'.watchers.length = s.watchers.length ∧
      s.incoming.length ≤ s'.incoming.length := by
    refine exec_ind (P := fun _ s' => s'.loop = .closed ∧
      s'.watchers.length = s.watchers.length ∧ s.incoming.length ≤ s'.incoming.length)
      ⟨hc, rfl, Nat.le_refl _⟩ ?_ bs s' h
    rintro _ t a t' ⟨h1, h2, h3⟩ hst
    obtain ⟨g1, g2, g3⟩ := closed_step h1 hst
    exact ⟨g1, by omega, by omega⟩
  refine ⟨H.2.1, fun hl i => ?_⟩
  have : ¬ s'.incoming.length < incomingLength := by
    unfold incomingLength
    omega
  simp [step, this]

example : (exec .wait 1 init (.send .close :: .take :: List.replicate 25 (.send (.event 1)) :
    List (Act Nat))).map (fun s => (s.loop, s.incoming.length)) = some (.closed, 25) := by decide

/-- **C64**, before `shutdown` has been handled: when the broadcaster comes to a registration, the
watcher is made, with its prefix in its queue.  Missing: calls after it, see `C64_refuted`. -/
theorem C64_partial {s : State E} (hl : s.loop = .idle) {p : Option (List E)} {is : List (In E)}
    (hi : s.incoming = .watch p :: is) :
    ∃ s' w, step mode len s .take = some s' ∧ s'.watchers[s.watchers.length]? = some w ∧
      w.got = [] ∧ w.queue = p.getD [] ∧ w.stopped = false ∧
      s.watchers.length ∈ registered s'.watchers := by
  refine ⟨_, newWatcher len p, by simp [step, hl, hi]; rfl, by simp [onTake], ?_⟩
  cases p <;> simp [newWatcher, mem_registered, onTake]

example : (exec .wait 1 init ([.send (.watch (some [4]))] : List (Act Nat))).map
    (fun s => (s.loop, s.incoming)) = some (.idle, [.watch (some [4])]) := by decide

end Aiok8s.Mux
