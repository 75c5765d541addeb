import Verif.Proof.Restart
/-! # C88: a controller that is started several times -/
namespace Aiok8s.Restart
variable {α : Type} [DecidableEq α]

/-- **C88** (if the calls of `start` do not overlap). At no time two reconciliations of the same request
are under way; two workers which hold the same request are the same. -/
theorem C88_exclusive_partial {c : Cfg} {as : List (Act α)} {s : State α} {l : List (Log α)}
    (h : exec c init as = some (s, l)) (hser : Serial c as) :
    Exclusive l ∧ ∀ w w' q q' x, s.workers w = .reconciling q x → s.workers w' = .reconciling q' x →
      w = w' := by
  obtain ⟨i1, i2, -⟩ := serial_inv h hser
  refine ⟨i2.excl, fun w w' q q' x hw hw' => i1.excl w w' q q' x ?_ ?_⟩
  · rw [hw]
    rfl
  · rw [hw']
    rfl

/-- **C88** (if the calls of `start` do not overlap). `done` is called on the queue that gave the request
and does not raise, and a request that is to be tried again is given back to that queue. -/
theorem C88_returned_partial {c : Cfg} {as : List (Act α)} {s : State α} {l : List (Log α)}
    (h : exec c init as = some (s, l)) (hser : Serial c as) : Returned l ∧ Requeued l := by
  obtain ⟨-, i2, -⟩ := serial_inv h hser
  exact ⟨i2.ret, i2.again⟩

/-- **C88** (if the calls of `start` do not overlap). Every call that makes its workers has started all
sources with its own queue, each exactly once. -/
theorem C88_connected_partial {c : Cfg} {as : List (Act α)} {s : State α} {l : List (Log α)}
    (h : exec c init as = some (s, l)) (hser : Serial c as) : Connected c.sources l := by
  obtain ⟨-, -, i3⟩ := serial_inv h hser
  intro pre post g hl
  exact (i3.work g (by simp [hl])).2

/-- All requests anywhere in the controller are of this kind. -/
private structure From (P : α → Prop) (s : State α) : Prop where
  queue : ∀ q, ∀ x ∈ (s.queues q).core.queue, P x
  dirty : ∀ q, ∀ x ∈ (s.queues q).core.dirty, P x
  delayed : ∀ q, ∀ x ∈ (s.queues q).delayed, P x
  held : ∀ w q x, s.workers w = .reconciling q x ∨ s.workers w = .requeuing q x → P x

/-- All requests of a queue are of this kind. -/
private def QFrom (P : α → Prop) (v : Q α) : Prop :=
  (∀ x ∈ v.core.queue, P x) ∧ (∀ x ∈ v.core.dirty, P x) ∧ ∀ x ∈ v.delayed, P x

private theorem From.at {P : α → Prop} {s : State α} (h : From P s) (q : Nat) : QFrom P (s.queues q) :=
  ⟨h.queue q, h.dirty q, h.delayed q⟩

private theorem from_setQ {P : α → Prop} {s : State α} (h : From P s) {q : Nat} {v : Q α} (hv : QFrom P v) :
    From P (s.setQ q v) := by
  refine ⟨fun p => ?_, fun p => ?_, fun p => ?_, h.held⟩ <;> simp only [State.setQ] <;> split
  exacts [hv.1, h.queue p, hv.2.1, h.dirty p, hv.2.2, h.delayed p]

private theorem from_setPc {P : α → Prop} {s : State α} (h : From P s) {w : Nat × Nat} {p : Pc α}
    (hp : ∀ q x, p = .reconciling q x ∨ p = .requeuing q x → P x) : From P (s.setPc w p) := by
  refine ⟨h.queue, h.dirty, h.delayed, fun v q x hv => ?_⟩
  simp only [State.setPc] at hv
  split at hv
  · exact hp q x hv
  · exact h.held v q x hv

private theorem from_setCall {P : α → Prop} {s : State α} (h : From P s) {g : Nat} {v : Call} :
    From P (s.setCall g v) := ⟨h.queue, h.dirty, h.delayed, h.held⟩

private theorem qfrom_add {P : α → Prop} {v : Q α} (h : QFrom P v) {x : α} (hx : P x) :
    QFrom P { v with core := WorkQueue.add v.core x } := by
  obtain ⟨h1, h2, h3⟩ := h
  unfold WorkQueue.add
  split
  · exact ⟨h1, h2, h3⟩
  · split
    · exact ⟨h1, h2, h3⟩
    · have hd : ∀ y ∈ PySet.add v.core.dirty x, P y := by
        intro y hy
        rcases PySet.mem_add.1 hy with h | h
        · exact h ▸ hx
        · exact h2 y h
      simp only
      split
      · exact ⟨h1, hd, h3⟩
      · refine ⟨?_, hd, h3⟩
        intro y hy
        rcases List.mem_append.1 hy with h | h
        · exact h1 y h
        · exact (List.mem_singleton.1 h) ▸ hx

private theorem from_add {P : α → Prop} {s : State α} (h : From P s) {q : Nat} {x : α} (hx : P x) :
    From P (s.add q x) := from_setQ h (qfrom_add (h.at q) hx)

private theorem from_addAfter {P : α → Prop} {s : State α} (h : From P s) {q : Nat} {x : α} {now : Bool}
    (hx : P x) : From P (s.addAfter q x now) := by
  unfold State.addAfter
  split
  · exact h
  · split
    · exact from_add h hx
    · split
      · exact h
      · refine from_setQ h ⟨h.queue q, h.dirty q, ?_⟩
        intro y hy
        rcases List.mem_append.1 hy with h1 | h1
        · exact h.delayed q y h1
        · exact (List.mem_singleton.1 h1) ▸ hx

private theorem from_finally {P : α → Prop} {s : State α} (h : From P s) {w : Nat × Nat} {x : α} {b : Bool} :
    From P (finally_ s w x b).1 := by
  unfold finally_
  refine from_setPc (from_setQ h ?_) ?_
  · obtain ⟨h1, h2, h3⟩ := h.at s.cur
    unfold WorkQueue.done
    split
    · simp only
      split
      · rename_i hd
        refine ⟨?_, h2, h3⟩
        intro y hy
        rcases List.mem_append.1 hy with h4 | h4
        · exact h1 y h4
        · exact (List.mem_singleton.1 h4) ▸ h2 x hd
      · exact ⟨h1, h2, h3⟩
    · exact ⟨h1, h2, h3⟩
  · intro q y hy
    split at hy <;> rcases hy with hy | hy <;> cases hy

private theorem from_over {P : α → Prop} {s : State α} (h : From P s) {g : Nat} : From P (over s g).1 :=
  from_setCall (from_setQ h (by exact h.at s.cur))

private theorem from_step {P : α → Prop} {c : Cfg} {s s' : State α} {a : Act α} {m : List (Log α)}
    (h : From P s) (hs : step c s a = some (s', m)) (ha : ∀ j x, a = .event j x → P x) :
    From P s' ∧ ∀ w q x, Log.took w q x ∈ m → P x := by
  cases a with
  | call =>
    cases hs
    refine ⟨from_setCall (from_setQ (by exact ⟨h.queue, h.dirty, h.delayed, h.held⟩) ?_), by simp⟩
    simp [QFrom, WorkQueue.init]
  | lock g =>
    simp only [step] at hs
    split at hs <;> cases hs
    exact ⟨from_setCall h, by simp⟩
  | source g =>
    simp only [step] at hs
    split at hs
    · split at hs <;> cases hs
      exact ⟨from_setCall h, by simp⟩
    · cases hs
  | connect g =>
    simp only [step] at hs
    split at hs <;> cases hs
    exact ⟨from_setCall (by exact ⟨h.queue, h.dirty, h.delayed, h.held⟩), by simp⟩
  | raises g =>
    simp only [step] at hs
    split at hs <;> cases hs
    · exact ⟨from_over h, by simp [over]⟩
    · exact ⟨from_over h, by simp [over]⟩
  | ready g =>
    simp only [step] at hs
    split at hs <;> cases hs
    refine ⟨from_setCall ?_, by simp⟩
    refine ⟨h.queue, h.dirty, h.delayed, ?_⟩
    intro w q x hw
    simp only at hw
    split at hw
    · rcases hw with hw | hw <;> cases hw
    · exact h.held w q x hw
  | ends g =>
    simp only [step] at hs
    split at hs <;> cases hs
    exact ⟨from_over h, by simp [over]⟩
  | event j x =>
    simp only [step] at hs
    split at hs <;> cases hs
    exact ⟨from_add h (ha j x rfl), by simp⟩
  | release q x =>
    simp only [step] at hs
    split at hs
    · rename_i hx
      cases hs
      refine ⟨from_add (from_setQ h ?_) (h.delayed q x hx.1), by simp⟩
      refine ⟨h.queue q, h.dirty q, ?_⟩
      intro y hy
      exact h.delayed q y (List.mem_of_mem_erase hy)
    · cases hs
  | gets w =>
    simp only [step] at hs
    split at hs <;> cases hs
    refine ⟨from_setPc h ?_, by simp⟩
    rintro q x (hx | hx) <;> cases hx
  | take w =>
    simp only [step] at hs
    split at hs
    · rename_i q hw
      have hq := h.at q
      cases hc : (s.queues q).core.queue with
      | nil =>
        simp only [WorkQueue.get, hc] at hs
        split at hs
        · rename_i hx; split at hx <;> cases hx
        · cases hs
          refine ⟨from_setPc h ?_, by simp⟩
          rintro q x (hx | hx) <;> cases hx
        · cases hs
      | cons y rest =>
        simp only [WorkQueue.get, hc] at hs
        cases hs
        have hy : P y := hq.1 y (by rw [hc]; simp)
        refine ⟨from_setPc (from_setQ h ?_) ?_, ?_⟩
        · refine ⟨?_, ?_, hq.2.2⟩
          · intro z hz
            exact hq.1 z (by rw [hc]; exact List.mem_cons_of_mem _ hz)
          · intro z hz
            exact hq.2.1 z (PySet.mem_remove.1 hz).2
        · rintro q' x (hx | hx) <;> cases hx
          exact hy
        · intro w' q' x hx
          simp only [List.mem_singleton, Log.took.injEq] at hx
          exact hx.2.2 ▸ hy
    · cases hs
  | finish w o =>
    simp only [step] at hs
    split at hs
    · rename_i q x hw
      have hx := h.held w q x (Or.inl hw)
      cases o <;> cases hs
      · exact ⟨from_finally h, by simp [finally_]⟩
      · refine ⟨from_setPc (from_addAfter h hx) ?_, by simp⟩
        rintro q' y (hy | hy) <;> cases hy
        exact hx
      · exact ⟨from_finally h, by simp [finally_]⟩
      · exact ⟨from_finally h, by simp [finally_]⟩
    · cases hs
  | requeued w =>
    simp only [step] at hs
    split at hs <;> cases hs
    exact ⟨from_finally h, by simp [finally_]⟩
  | cancelRequeue w =>
    simp only [step] at hs
    split at hs <;> cases hs
    exact ⟨from_finally h, by simp [finally_]⟩
  | cancel w =>
    simp only [step] at hs
    split at hs <;> cases hs
    all_goals
      refine ⟨from_setPc h ?_, by simp⟩
      rintro q x (hx | hx) <;> cases hx

/-- **C88** (any calls of `start`). Nothing is reconciled that no source has reported: what a worker takes,
whatever the queue, was put in by the handler of a source. -/
theorem C88_reported {c : Cfg} {as : List (Act α)} {s : State α} {l : List (Log α)}
    (h : exec c init as = some (s, l)) {w : Nat × Nat} {q : Nat} {x : α} (hx : .took w q x ∈ l) :
    ∃ j, .event j x ∈ as := by
  suffices H : ∀ (P : α → Prop) (as : List (Act α)) (s : State α), From P s → (∀ j x, .event j x ∈ as → P x) →
      ∀ s' l, exec c s as = some (s', l) → ∀ w q x, Log.took w q x ∈ l → P x from
    H (fun x => ∃ j, .event j x ∈ as) as init
      ⟨by simp [init, WorkQueue.init], by simp [init, WorkQueue.init], by simp [init], by simp [init]⟩
      (fun j x hj => ⟨j, hj⟩) s l h w q x hx
  intro P as
  induction as with
  | nil => intro s _ _ s' l hl w q x hx; cases hl; cases hx
  | cons a as ih =>
    intro s hs hP s' l hl w q x hx
    simp only [exec] at hl
    split at hl
    · cases hl
    · rename_i s1 l1 h1
      split at hl
      · cases hl
      · rename_i s2 l2 h2
        cases hl
        have h3 := from_step hs h1 fun j x hj => hP j x (hj ▸ List.mem_cons_self)
        rcases List.mem_append.1 hx with hx | hx
        · exact h3.2 w q x hx
        · exact ih s1 h3.1 (fun j x hj => hP j x (List.mem_cons_of_mem _ hj)) _ _ h2 w q x hx

/-- What is true of all runs, whether or not the calls overlap. -/
private structure Mutex (c : Cfg) (s : State α) (l : List (Log α)) : Prop where
  fresh : ∀ g, s.made ≤ g → s.calls g = .none
  one : ∀ g h k k' a a', s.calls g = .preparing k a → s.calls h = .preparing k' a' → g = h
  by_ : ∀ g, match s.calls g with
    | .none => startedBy g l = []
    | .waiting => startedBy g l = []
    | .preparing k a => startedBy g l = List.range k ∧ k ≤ c.sources ∧ (a.isSome → k < c.sources)
    | .working => startedBy g l = List.range c.sources
    | .ended => ∃ k ≤ c.sources, startedBy g l = List.range k
  made : ∀ pre post g, l = pre ++ .working g :: post → startedBy g pre = List.range c.sources
  was : ∀ pre post g, l = pre ++ .working g :: post → s.calls g = .working ∨ s.calls g = .ended
  past : ∀ a b g h k k' q q', l = a ++ .connected g k q :: b → Log.connected h k' q' ∈ b → h ≠ g →
    s.calls g = .working ∨ s.calls g = .ended
  unmixed : Unmixed l

private theorem startedBy_append (g : Nat) (l m : List (Log α)) :
    startedBy g (l ++ m) = startedBy g l ++ startedBy g m := List.filterMap_append ..

/-- A move that logs nothing about sources or calls. -/
private theorem mutex_quiet {c : Cfg} {s s' : State α} {l m : List (Log α)} (h : Mutex c s l)
    (hm : ∀ e ∈ m, (∀ g k q, e ≠ .connected g k q) ∧ ∀ g, e ≠ .working g) (hmade : s.made ≤ s'.made)
    (hcalls : ∀ g, s'.calls g = s.calls g ∨ (s'.calls g = .ended ∧ s.calls g ≠ .none ∧ g < s.made) ∨
      (s.calls g = .none ∧ s'.calls g = .waiting ∧ g < s'.made) ∨
      (∃ k q, s.calls g = .preparing k none ∧ s'.calls g = .preparing k (some q) ∧ k < c.sources) ∨
      (s.calls g = .waiting ∧ s'.calls g = .preparing 0 none ∧ ∀ h k a, s.calls h ≠ .preparing k a ∧
        (h ≠ g → s'.calls h = s.calls h))) :
    Mutex c s' (l ++ m) := by
  have hs : ∀ g, startedBy g m = [] := by
    intro g
    simp only [startedBy, List.filterMap_eq_nil_iff]
    intro e he
    have := (hm e he).1
    cases e with
    | connected h k q => exact absurd rfl (this h k q)
    | _ => rfl
  have hst : ∀ g, startedBy g (l ++ m) = startedBy g l := by
    intro g
    rw [startedBy_append, hs, List.append_nil]
  have hprep : ∀ g k a, s'.calls g = .preparing k a → (∃ b, s.calls g = .preparing k b) ∨
      (s.calls g = .waiting ∧ ∀ h k a, s.calls h ≠ .preparing k a ∧ (h ≠ g → s'.calls h = s.calls h)) := by
    intro g k a hg
    rcases hcalls g with e | ⟨e, -⟩ | ⟨-, e, -⟩ | ⟨k', q, e1, e2, -⟩ | ⟨e1, e2, e3⟩
    · exact Or.inl ⟨a, by rw [← e, hg]⟩
    · rw [hg] at e; cases e
    · rw [hg] at e; cases e
    · rw [hg] at e2; cases e2; exact Or.inl ⟨none, e1⟩
    · exact Or.inr ⟨e1, e3⟩
  have hgo : ∀ g, s.calls g = .working ∨ s.calls g = .ended → s'.calls g = .working ∨ s'.calls g = .ended := by
    intro g hg
    rcases hcalls g with e | ⟨e, -⟩ | ⟨e, -⟩ | ⟨k', q, e1, e2, -⟩ | ⟨e1, -⟩
    · rwa [e]
    · exact Or.inr e
    · rw [e] at hg; simp at hg
    · rw [e1] at hg; simp at hg
    · rw [e1] at hg; simp at hg
  have hin : ∀ (pre post : List (Log α)) (e : Log α), l ++ m = pre ++ e :: post → e ∉ m →
      ∃ r, l = pre ++ e :: r ∧ post = r ++ m := by
    intro pre post e he hn
    rcases List.append_eq_append_iff.1 he with ⟨r, h1, h2⟩ | ⟨r, h1, h2⟩
    · exact absurd (by rw [h2]; simp) hn
    · cases r with
      | nil =>
        simp only [List.nil_append] at h2
        exact absurd (by rw [← h2]; simp) hn
      | cons d r =>
        simp only [List.cons_append, List.cons.injEq] at h2
        obtain ⟨rfl, rfl⟩ := h2
        exact ⟨r, h1, rfl⟩
  have hnc : ∀ g k q, Log.connected g k q ∉ m := fun g k q he => (hm _ he).1 g k q rfl
  have hnw : ∀ g, Log.working g ∉ m := fun g he => (hm _ he).2 g rfl
  refine ⟨?_, ?_, ?_, ?_, ?_, ?_, ?_⟩
  · intro g hg
    rcases hcalls g with e | ⟨-, -, e⟩ | ⟨-, -, e⟩ | ⟨k', q, e1, -⟩ | ⟨e1, -⟩
    · rw [e]; exact h.fresh g (by omega)
    · omega
    · omega
    · rw [h.fresh g (by omega)] at e1; cases e1
    · rw [h.fresh g (by omega)] at e1; cases e1
  · intro g h' k k' a a' hg hh
    rcases hprep g k a hg with ⟨b, e1⟩ | ⟨e1, e2⟩
    · rcases hprep h' k' a' hh with ⟨b', e3⟩ | ⟨e3, e4⟩
      · exact h.one g h' k k' b b' e1 e3
      · exact absurd e1 (e4 g k b).1
    · by_contra hne
      have := (e2 h' 0 none).2 (fun e => hne e.symm)
      rw [hh] at this
      exact (e2 h' k' a').1 this.symm
  · intro g
    have hb := h.by_ g
    rw [hst]
    rcases hcalls g with e | ⟨e, e', -⟩ | ⟨e1, e2, -⟩ | ⟨k', q, e1, e2, e3⟩ | ⟨e1, e2, -⟩
    · rw [e]; exact hb
    · rw [e]
      cases hc : s.calls g with
      | none => exact absurd hc e'
      | waiting => rw [hc] at hb; exact ⟨0, by omega, hb⟩
      | preparing k a => rw [hc] at hb; exact ⟨k, hb.2.1, hb.1⟩
      | working => rw [hc] at hb; exact ⟨_, Nat.le_refl _, hb⟩
      | ended => rw [hc] at hb; exact hb
    · rw [e1] at hb; rw [e2]; exact hb
    · rw [e1] at hb; rw [e2]; exact ⟨hb.1, hb.2.1, fun _ => e3⟩
    · rw [e1] at hb; rw [e2]; exact ⟨hb, by omega, by simp⟩
  · intro pre post g he
    obtain ⟨r, h1, -⟩ := hin _ _ _ he (hnw g)
    exact h.made pre r g h1
  · intro pre post g he
    obtain ⟨r, h1, -⟩ := hin _ _ _ he (hnw g)
    exact hgo g (h.was pre r g h1)
  · intro a b g h' k k' q q' he hb hne
    obtain ⟨r, h1, rfl⟩ := hin _ _ _ he (hnc g k q)
    refine hgo g (h.past a r g h' k k' q q' h1 ?_ hne)
    rcases List.mem_append.1 hb with hb | hb
    · exact hb
    · exact absurd hb (hnc h' k' q')
  · intro a b d g h' k k' k'' q q' q'' he hne hd
    obtain ⟨r, h1, rfl⟩ := hin (a ++ .connected g k q :: b) d _ he (hnc h' k' q')
    rcases List.mem_append.1 hd with hd | hd
    · exact h.unmixed a b r g h' k k' k'' q q' q'' h1 hne hd
    · exact hnc g k'' q'' hd

private theorem setPc_calls (s : State α) (w : Nat × Nat) (p : Pc α) :
    (s.setPc w p).calls = s.calls ∧ (s.setPc w p).made = s.made := ⟨rfl, rfl⟩

private theorem over_quiet {c : Cfg} {s : State α} {l : List (Log α)} (h : Mutex c s l) {g : Nat}
    (hg : s.calls g ≠ .none) : Mutex c (over s g).1 (l ++ (over s g).2) := by
  refine mutex_quiet h (by simp [over]) (Nat.le_refl _) fun g' => ?_
  by_cases e : g' = g
  · subst e
    refine Or.inr (Or.inl ⟨by simp [over, State.setCall], hg, ?_⟩)
    by_contra hc
    exact hg (h.fresh g' (by omega))
  · exact Or.inl (by simp [over, State.setCall, State.setQ, e])

private theorem finally_quiet {c : Cfg} {s : State α} {l : List (Log α)} (h : Mutex c s l) (w : Nat × Nat)
    (x : α) (b : Bool) : Mutex c (finally_ s w x b).1 (l ++ (finally_ s w x b).2) :=
  mutex_quiet h (by simp [finally_]) (Nat.le_refl _) fun _ => Or.inl rfl

private theorem mutex_step {c : Cfg} {s s' : State α} {a : Act α} {l m : List (Log α)} (h : Mutex c s l)
    (hs : step c s a = some (s', m)) : Mutex c s' (l ++ m) := by
  cases a with
  | call =>
    simp only [step, Option.some.injEq, Prod.mk.injEq] at hs
    obtain ⟨rfl, rfl⟩ := hs
    refine mutex_quiet h (by simp) (by simp [State.setCall, State.setQ]) fun g => ?_
    by_cases e : g = s.made
    · subst e
      exact Or.inr (Or.inr (Or.inl ⟨h.fresh _ (Nat.le_refl _), by simp [State.setCall],
        by simp [State.setCall, State.setQ]⟩))
    · exact Or.inl (by simp [State.setCall, State.setQ, e])
  | lock g =>
    simp only [step] at hs
    split at hs
    · rename_i hc
      simp only [Option.some.injEq, Prod.mk.injEq] at hs
      obtain ⟨rfl, rfl⟩ := hs
      refine mutex_quiet h (by simp) (Nat.le_refl _) fun g' => ?_
      by_cases e : g' = g
      · subst e
        refine Or.inr (Or.inr (Or.inr (Or.inr ⟨hc.1, by simp [State.setCall], fun h' k a => ⟨?_, ?_⟩⟩)))
        · intro hp
          have hf := hc.2
          simp only [State.free, List.all_eq_true, List.mem_range] at hf
          have hlt : h' < s.made := by
            by_contra hc
            rw [h.fresh h' (by omega)] at hp
            cases hp
          have := hf h' hlt
          rw [hp] at this
          simp at this
        · intro hne
          simp [State.setCall, hne]
      · exact Or.inl (by simp [State.setCall, e])
    · cases hs
  | source g =>
    simp only [step] at hs
    split at hs
    · rename_i k hc
      split at hs
      · rename_i hk
        simp only [Option.some.injEq, Prod.mk.injEq] at hs
        obtain ⟨rfl, rfl⟩ := hs
        refine mutex_quiet h (by simp) (Nat.le_refl _) fun g' => ?_
        by_cases e : g' = g
        · subst e
          exact Or.inr (Or.inr (Or.inr (Or.inl ⟨k, s.cur, hc, by simp [State.setCall], hk⟩)))
        · exact Or.inl (by simp [State.setCall, e])
      · cases hs
    · cases hs
  | connect g =>
    simp only [step] at hs
    split at hs
    · rename_i k q hc
      simp only [Option.some.injEq, Prod.mk.injEq] at hs
      obtain ⟨rfl, rfl⟩ := hs
      have hb := h.by_ g
      rw [hc] at hb
      obtain ⟨hb1, hb2, hb3⟩ := hb
      have hk := hb3 rfl
      have hcall : ∀ g', g' ≠ g → (State.setCall { s with conns := s.conns ++ [(k, q)] } g
          (.preparing (k + 1) none)).calls g' = s.calls g' := by
        intro g' e
        simp [State.setCall, e]
      have hcg : (State.setCall { s with conns := s.conns ++ [(k, q)] } g
          (.preparing (k + 1) none)).calls g = .preparing (k + 1) none := by simp [State.setCall]
      have hnone : ∀ g', g' ≠ g → ¬ (s.calls g' = .working ∨ s.calls g' = .ended) → startedBy g' l = [] := by
        intro g' hne hn
        have hb := h.by_ g'
        cases hc' : s.calls g' with
        | none => rw [hc'] at hb; exact hb
        | waiting => rw [hc'] at hb; exact hb
        | preparing k' a' => exact absurd (h.one g' g k' k a' _ hc' hc) hne
        | working => exact absurd (Or.inl hc') hn
        | ended => exact absurd (Or.inr hc') hn
      have hmem : ∀ g' k' q', Log.connected g' k' q' ∈ l → startedBy g' l ≠ [] := by
        intro g' k' q' hm he
        simp only [startedBy, List.filterMap_eq_nil_iff] at he
        have := he _ hm
        simp at this
      have hgp : ¬ (s.calls g = .working ∨ s.calls g = .ended) := by rw [hc]; simp
      refine ⟨?_, ?_, ?_, ?_, ?_, ?_, ?_⟩
      · intro g' hg'
        by_cases e : g' = g
        · subst e
          rw [h.fresh g' hg'] at hc
          cases hc
        · rw [hcall g' e]; exact h.fresh g' hg'
      · intro g1 g2 k1 k2 a1 a2 h1 h2
        have hx : ∀ g' k' a', (State.setCall { s with conns := s.conns ++ [(k, q)] } g
            (.preparing (k + 1) none)).calls g' = .preparing k' a' → g' = g := by
          intro g' k' a' hg'
          by_contra e
          rw [hcall g' e] at hg'
          exact e (h.one g' g k' k a' _ hg' hc)
        rw [hx g1 k1 a1 h1, hx g2 k2 a2 h2]
      · intro g'
        by_cases e : g' = g
        · subst e
          rw [hcg]
          refine ⟨?_, hk, by simp⟩
          rw [startedBy_append, hb1, List.range_succ]
          simp [startedBy]
        · rw [hcall g' e, startedBy_append]
          have : startedBy g' [(Log.connected g k q : Log α)] = [] := by
            simp [startedBy, Ne.symm e]
          rw [this, List.append_nil]
          exact h.by_ g'
      · intro pre post g' he
        rcases split_snoc he with ⟨-, e, -⟩ | ⟨r, e, -⟩
        · cases e
        · exact h.made pre r g' e
      · intro pre post g' he
        rcases split_snoc he with ⟨-, e, -⟩ | ⟨r, e, -⟩
        · cases e
        · have := h.was pre r g' e
          rw [hcall g' (fun e => hgp (e ▸ this))]
          exact this
      · intro a b g1 g2 k1 k2 q1 q2 he hb hne
        have hw : s.calls g1 = .working ∨ s.calls g1 = .ended := by
          rcases split_snoc he with ⟨-, -, rfl⟩ | ⟨r, e, rfl⟩
          · simp at hb
          · rcases List.mem_append.1 hb with hb | hb
            · exact h.past a r g1 g2 k1 k2 q1 q2 e hb hne
            · simp only [List.mem_singleton, Log.connected.injEq] at hb
              obtain ⟨rfl, -, -⟩ := hb
              by_contra hn
              exact hmem g1 k1 q1 (by rw [e]; simp) (hnone g1 (Ne.symm hne) hn)
        rw [hcall g1 (fun e => hgp (e ▸ hw))]
        exact hw
      · intro a b d g1 g2 k1 k2 k3 q1 q2 q3 he hne hd
        rcases split_snoc (pre := a ++ .connected g1 k1 q1 :: b) he with ⟨-, -, rfl⟩ | ⟨r, e, rfl⟩
        · simp at hd
        · rcases List.mem_append.1 hd with hd | hd
          · exact h.unmixed a b r g1 g2 k1 k2 k3 q1 q2 q3 e hne hd
          · simp only [List.mem_singleton, Log.connected.injEq] at hd
            obtain ⟨rfl, -, -⟩ := hd
            exact hgp (h.past a (b ++ .connected g2 k2 q2 :: r) g1 g2 k1 k2 q1 q2 (by rw [e]; simp)
              (by simp) hne)
    · cases hs
  | raises g =>
    simp only [step] at hs
    split at hs
    · rename_i hc
      cases hs
      exact over_quiet h (by rw [hc]; simp)
    · rename_i hc
      cases hs
      exact over_quiet h (by rw [hc]; simp)
    · cases hs
  | ready g =>
    simp only [step] at hs
    split at hs
    · rename_i hc
      simp only [Option.some.injEq, Prod.mk.injEq] at hs
      obtain ⟨rfl, rfl⟩ := hs
      have hb := h.by_ g
      rw [hc] at hb
      have hst : ∀ g', startedBy g' (l ++ [(Log.working g : Log α)]) = startedBy g' l := by
        intro g'
        rw [startedBy_append]
        simp [startedBy]
      generalize (fun w : Nat × Nat => if w.1 = g ∧ w.2 < c.conc then Pc.next else s.workers w) = W
      have hcall : ∀ g', g' ≠ g → (State.setCall (State.mk s.made s.calls s.queues W s.conns) g .working).calls g' = s.calls g' := by
        intro g' e
        simp [State.setCall, e]
      have hcg : (State.setCall (State.mk s.made s.calls s.queues W s.conns) g .working).calls g = .working := by
        simp [State.setCall]
      have hgo : ∀ g', s.calls g' = .working ∨ s.calls g' = .ended → (State.setCall (State.mk s.made s.calls s.queues W s.conns) g .working).calls g' = .working ∨
          (State.setCall (State.mk s.made s.calls s.queues W s.conns) g .working).calls g' = .ended := by
        intro g' hg'
        rw [hcall g' (fun e => by rw [e, hc] at hg'; simp at hg')]
        exact hg'
      refine ⟨?_, ?_, ?_, ?_, ?_, ?_, ?_⟩
      · intro g' hg'
        by_cases e : g' = g
        · subst e
          rw [h.fresh g' hg'] at hc
          cases hc
        · rw [hcall g' e]; exact h.fresh g' hg'
      · intro g1 g2 k1 k2 a1 a2 h1 h2
        rw [hcall g1 (fun e => by rw [e, hcg] at h1; cases h1)] at h1
        rw [hcall g2 (fun e => by rw [e, hcg] at h2; cases h2)] at h2
        exact h.one g1 g2 k1 k2 a1 a2 h1 h2
      · intro g'
        rw [hst]
        by_cases e : g' = g
        · subst e
          rw [hcg]
          exact hb.1
        · rw [hcall g' e]
          exact h.by_ g'
      · intro pre post g' he
        rcases split_snoc he with ⟨rfl, e, -⟩ | ⟨r, e, -⟩
        · cases e
          exact hb.1
        · exact h.made pre r g' e
      · intro pre post g' he
        rcases split_snoc he with ⟨rfl, e, -⟩ | ⟨r, e, -⟩
        · cases e
          exact Or.inl hcg
        · exact hgo g' (h.was pre r g' e)
      · intro a b g1 g2 k1 k2 q1 q2 he hb hne
        rcases split_snoc he with ⟨-, -, rfl⟩ | ⟨r, e, rfl⟩
        · simp at hb
        · refine hgo g1 (h.past a r g1 g2 k1 k2 q1 q2 e ?_ hne)
          simpa using hb
      · intro a b d g1 g2 k1 k2 k3 q1 q2 q3 he hne hd
        rcases split_snoc (pre := a ++ .connected g1 k1 q1 :: b) he with ⟨-, -, rfl⟩ | ⟨r, e, rfl⟩
        · simp at hd
        · exact h.unmixed a b r g1 g2 k1 k2 k3 q1 q2 q3 e hne (by simpa using hd)
    · cases hs
  | ends g =>
    simp only [step] at hs
    split at hs
    · rename_i hc
      cases hs
      exact over_quiet h (by rw [hc.1]; simp)
    · cases hs
  | event j x =>
    simp only [step] at hs
    split at hs
    · cases hs
      exact mutex_quiet h (by simp) (Nat.le_refl _) fun _ => Or.inl rfl
    · cases hs
  | release q x =>
    simp only [step] at hs
    split at hs
    · cases hs
      exact mutex_quiet h (by simp) (Nat.le_refl _) fun _ => Or.inl rfl
    · cases hs
  | gets w =>
    simp only [step] at hs
    split at hs
    · cases hs
      exact mutex_quiet h (by simp) (Nat.le_refl _) fun _ => Or.inl rfl
    · cases hs
  | take w =>
    simp only [step] at hs
    split at hs
    · split at hs
      · cases hs
        exact mutex_quiet h (by simp) (Nat.le_refl _) fun _ => Or.inl rfl
      · cases hs
        exact mutex_quiet h (by simp) (Nat.le_refl _) fun _ => Or.inl rfl
      · cases hs
    · cases hs
  | finish w o =>
    simp only [step] at hs
    split at hs
    · cases o with
      | fine => cases hs; exact finally_quiet h _ _ _
      | again now =>
        cases hs
        obtain ⟨-, h1, h2⟩ := addAfter_workers s s.cur (by assumption) now
        refine mutex_quiet h (by simp) ?_ fun _ => Or.inl ?_
        · exact Nat.le_of_eq (by rw [(setPc_calls _ _ _).2, h2])
        · rw [(setPc_calls _ _ _).1, h1]
      | bad => cases hs; exact finally_quiet h _ _ _
      | cancelled => cases hs; exact finally_quiet h _ _ _
    · cases hs
  | requeued w =>
    simp only [step] at hs
    split at hs
    · cases hs; exact finally_quiet h _ _ _
    · cases hs
  | cancelRequeue w =>
    simp only [step] at hs
    split at hs
    · cases hs; exact finally_quiet h _ _ _
    · cases hs
  | cancel w =>
    simp only [step] at hs
    split at hs
    · cases hs
      exact mutex_quiet h (by simp) (Nat.le_refl _) fun _ => Or.inl rfl
    · cases hs
      exact mutex_quiet h (by simp) (Nat.le_refl _) fun _ => Or.inl rfl
    · cases hs

/-- **C88**, for all runs, whether or not the calls overlap. A call that makes its workers has started every
source, each exactly once and in order; and the calls start their sources one after the other, not mixed.
(With which queue is another question: `C88_refuted_sources`.) -/
theorem C88_sources {c : Cfg} {as : List (Act α)} {s : State α} {l : List (Log α)}
    (h : exec c init as = some (s, l)) :
    (∀ pre post g, l = pre ++ .working g :: post →
      startedBy g pre = List.range c.sources ∧ startedBy g l = List.range c.sources) ∧
    (∀ g, ∃ k ≤ c.sources, startedBy g l = List.range k) ∧ Unmixed l := by
  have key : Mutex c s l := by
    induction as using List.reverseRecOn generalizing s l with
    | nil =>
      simp only [exec, Option.some.injEq, Prod.mk.injEq] at h
      obtain ⟨rfl, rfl⟩ := h
      refine ⟨?_, ?_, ?_, ?_, ?_, ?_, ?_⟩ <;> simp [init, startedBy, Unmixed]
    | append_singleton as a ih =>
      rw [exec_append] at h
      cases h1 : exec c init as with
      | none => simp [h1] at h
      | some p =>
        obtain ⟨s1, l1⟩ := p
        simp only [h1, Option.bind_some, exec] at h
        cases h2 : step c s1 a with
        | none => simp [h2] at h
        | some r =>
          obtain ⟨s2, l2⟩ := r
          simp only [h2, List.append_nil, Option.map_some, Option.some.injEq, Prod.mk.injEq] at h
          obtain ⟨rfl, rfl⟩ := h
          exact mutex_step (ih h1) h2
  have hall : ∀ g, ∃ k ≤ c.sources, startedBy g l = List.range k := by
    intro g
    have hb := key.by_ g
    cases hc : s.calls g with
    | none => rw [hc] at hb; exact ⟨0, by omega, hb⟩
    | waiting => rw [hc] at hb; exact ⟨0, by omega, hb⟩
    | preparing k a => rw [hc] at hb; exact ⟨k, hb.2.1, hb.1⟩
    | working => rw [hc] at hb; exact ⟨_, Nat.le_refl _, hb⟩
    | ended => rw [hc] at hb; exact hb
  refine ⟨?_, hall, key.unmixed⟩
  intro pre post g hl
  refine ⟨key.made pre post g hl, ?_⟩
  obtain ⟨k, hk, hg⟩ := hall g
  have h1 := key.made pre post g hl
  rw [hg]
  have h2 : startedBy g l = startedBy g pre ++ startedBy g (.working g :: post) := by
    rw [hl, startedBy_append]
  rw [hg, h1] at h2
  have h3 := congrArg List.length h2
  simp only [List.length_append, List.length_range] at h3
  have : k = c.sources := by omega
  rw [this]

/-- Two calls that overlap; the second gets the mutex when the first has made its workers. -/
example : ∃ (s : State Nat) (l : List (Log Nat)), exec ⟨2, 1, true⟩ init
    [.call, .lock 0, .source 0, .call, .connect 0, .source 0, .connect 0, .ready 0, .lock 1, .source 1,
      .connect 1, .source 1, .connect 1, .ready 1] = some (s, l) ∧
    l = [.called 0, .called 1, .connected 0 0 0, .connected 0 1 1, .working 0, .connected 1 0 1,
      .connected 1 1 1, .working 1] := ⟨_, _, rfl, by decide⟩

/-- A queue is stopped only by the end of its call. -/
private theorem stopped_step {c : Cfg} {s s' : State α} {a : Act α} {m : List (Log α)} (hi : Inv s)
    (h : ∀ q, (s.queues q).stopped = true → s.calls q = .ended) (hs : step c s a = some (s', m)) :
    ∀ q, (s'.queues q).stopped = true → s'.calls q = .ended := by
  have hadd : ∀ (t : State α) q x p, ((t.add q x).queues p).stopped = (t.queues p).stopped := by
    intro t q x p
    simp only [State.add, State.setQ]
    split
    · rename_i e
      rw [e]
    · rfl
  have hafter : ∀ (t : State α) q x b p,
      ((t.addAfter q x b).queues p).stopped = (t.queues p).stopped := by
    intro t q x b p
    unfold State.addAfter
    split
    · rfl
    · split
      · exact hadd t q x p
      · split
        · rfl
        · simp only [State.setQ]
          split
          · rename_i e
            rw [e]
          · rfl
  have hfin : ∀ w x b q, ((finally_ s w x b).1.queues q).stopped = true →
      (finally_ s w x b).1.calls q = .ended := by
    intro w x b q hq
    refine h q ?_
    simp only [finally_, State.setPc, State.setQ] at hq
    split at hq
    · rename_i e
      rw [e]
      exact hq
    · exact hq
  have hover : ∀ g, s.calls g ≠ .none → s.calls g ≠ .ended → ∀ q,
      ((over s g).1.queues q).stopped = true → (over s g).1.calls q = .ended := by
    intro g hn he q hq
    simp only [over, State.setCall, State.setQ, hi.newest hn he] at hq ⊢
    split
    · rfl
    · rename_i e
      rw [if_neg e] at hq
      exact h q hq
  cases a with
  | call =>
    simp only [step, Option.some.injEq, Prod.mk.injEq] at hs
    obtain ⟨rfl, -⟩ := hs
    intro q hq
    simp only [State.setCall, State.setQ] at hq ⊢
    split at hq
    · simp at hq
    · rename_i e
      rw [if_neg e]
      exact h q hq
  | lock g =>
    simp only [step] at hs
    split at hs
    · rename_i hg
      simp only [Option.some.injEq, Prod.mk.injEq] at hs
      obtain ⟨rfl, -⟩ := hs
      intro q hq
      have := h q hq
      simp only [State.setCall]
      rw [if_neg]
      · exact this
      · rintro rfl
        rw [hg.1] at this
        simp at this
    · simp at hs
  | source g =>
    simp only [step] at hs
    split at hs
    · rename_i k hg
      split at hs
      · simp only [Option.some.injEq, Prod.mk.injEq] at hs
        obtain ⟨rfl, -⟩ := hs
        intro q hq
        have := h q hq
        simp only [State.setCall]
        rw [if_neg]
        · exact this
        · rintro rfl
          rw [hg] at this
          simp at this
      · simp at hs
    · simp at hs
  | connect g =>
    simp only [step] at hs
    split at hs
    · rename_i k q' hg
      simp only [Option.some.injEq, Prod.mk.injEq] at hs
      obtain ⟨rfl, -⟩ := hs
      intro q hq
      have := h q hq
      simp only [State.setCall]
      rw [if_neg]
      · exact this
      · rintro rfl
        rw [hg] at this
        simp at this
    · simp at hs
  | raises g =>
    simp only [step] at hs
    split at hs
    · rename_i hg
      simp only [Option.some.injEq] at hs
      have := hover g (by simp [hg]) (by simp [hg])
      rw [hs] at this
      exact this
    · rename_i k hg
      simp only [Option.some.injEq] at hs
      have := hover g (by simp [hg]) (by simp [hg])
      rw [hs] at this
      exact this
    · simp at hs
  | ready g =>
    simp only [step] at hs
    split at hs
    · rename_i hg
      simp only [Option.some.injEq, Prod.mk.injEq] at hs
      obtain ⟨rfl, -⟩ := hs
      intro q hq
      have := h q hq
      simp only [State.setCall]
      rw [if_neg]
      · exact this
      · rintro rfl
        rw [hg] at this
        simp at this
    · simp at hs
  | ends g =>
    simp only [step] at hs
    split at hs
    · rename_i hg
      simp only [Option.some.injEq] at hs
      have := hover g (by simp [hg.1]) (by simp [hg.1])
      rw [hs] at this
      exact this
    · simp at hs
  | event j x =>
    simp only [step] at hs
    split at hs
    · simp only [Option.some.injEq, Prod.mk.injEq] at hs
      obtain ⟨rfl, -⟩ := hs
      intro q hq
      rw [hadd] at hq
      exact h q hq
    · simp at hs
  | release q x =>
    simp only [step] at hs
    split at hs
    · simp only [Option.some.injEq, Prod.mk.injEq] at hs
      obtain ⟨rfl, -⟩ := hs
      intro p hp
      rw [hadd] at hp
      refine h p ?_
      simp only [State.setQ] at hp
      split at hp
      · rename_i e
        rw [e]
        exact hp
      · exact hp
    · simp at hs
  | gets w =>
    simp only [step] at hs
    split at hs
    · simp only [Option.some.injEq, Prod.mk.injEq] at hs
      obtain ⟨rfl, -⟩ := hs
      exact h
    · simp at hs
  | take w =>
    simp only [step] at hs
    split at hs
    · split at hs
      · simp only [Option.some.injEq, Prod.mk.injEq] at hs
        obtain ⟨rfl, -⟩ := hs
        intro p hp
        refine h p ?_
        simp only [State.setPc, State.setQ] at hp
        split at hp
        · rename_i e
          rw [e]
          exact hp
        · exact hp
      · simp only [Option.some.injEq, Prod.mk.injEq] at hs
        obtain ⟨rfl, -⟩ := hs
        exact h
      · simp at hs
    · simp at hs
  | finish w o =>
    simp only [step] at hs
    split at hs
    · rename_i q x hw
      cases o with
      | again now =>
        simp only [Option.some.injEq, Prod.mk.injEq] at hs
        obtain ⟨rfl, -⟩ := hs
        intro p hp
        have hp' : ((s.addAfter s.cur x now).queues p).stopped = true := hp
        rw [hafter] at hp'
        have := h p hp'
        rw [← (addAfter_workers s s.cur x now).2.1] at this
        exact this
      | fine =>
        simp only [Option.some.injEq] at hs
        have := hfin w x true
        rw [hs] at this
        exact this
      | bad =>
        simp only [Option.some.injEq] at hs
        have := hfin w x true
        rw [hs] at this
        exact this
      | cancelled =>
        simp only [Option.some.injEq] at hs
        have := hfin w x (!c.py38)
        rw [hs] at this
        exact this
    · simp at hs
  | requeued w =>
    simp only [step] at hs
    split at hs
    · rename_i q x hw
      simp only [Option.some.injEq] at hs
      have := hfin w x true
      rw [hs] at this
      exact this
    · simp at hs
  | cancelRequeue w =>
    simp only [step] at hs
    split at hs
    · rename_i q x hw
      simp only [Option.some.injEq] at hs
      have := hfin w x (!c.py38)
      rw [hs] at this
      exact this
    · simp at hs
  | cancel w =>
    simp only [step] at hs
    split at hs
    · simp only [Option.some.injEq, Prod.mk.injEq] at hs
      obtain ⟨rfl, -⟩ := hs
      exact h
    · simp only [Option.some.injEq, Prod.mk.injEq] at hs
      obtain ⟨rfl, -⟩ := hs
      exact h
    · simp at hs

/-- **C88** (if the calls of `start` do not overlap). A call that ends shuts down its own queue and no
other, and while it goes on the delay loop of its queue runs. -/
theorem C88_shut_partial {c : Cfg} {as : List (Act α)} {s : State α} {l : List (Log α)}
    (h : exec c init as = some (s, l)) (hser : Serial c as) :
    ShutsOwn l ∧ ∀ g, s.calls g ≠ .ended → (s.queues g).stopped = false := by
  refine ⟨(serial_inv h hser).2.2.own, ?_⟩
  have key : ∀ q, (s.queues q).stopped = true → s.calls q = .ended := by
    induction as using List.reverseRecOn generalizing s l with
    | nil =>
      simp only [exec, Option.some.injEq, Prod.mk.injEq] at h
      obtain ⟨rfl, rfl⟩ := h
      simp [init]
    | append_singleton as a ih =>
      rw [exec_append] at h
      cases h1 : exec c init as with
      | none => simp [h1] at h
      | some p =>
        obtain ⟨s1, l1⟩ := p
        have hser1 : Serial c as := by
          intro pre post s' l' e1 e2
          exact hser pre (post ++ [a]) s' l' (by simp [e1]) e2
        simp only [h1, Option.bind_some, exec] at h
        cases h2 : step c s1 a with
        | none => simp [h2] at h
        | some r =>
          obtain ⟨s2, l2⟩ := r
          simp only [h2, List.append_nil, Option.map_some, Option.some.injEq, Prod.mk.injEq] at h
          obtain ⟨rfl, rfl⟩ := h
          exact stopped_step (serial_inv h1 hser1).1 (ih h1 hser1) h2
  intro g hg
  cases hst : (s.queues g).stopped with
  | false => rfl
  | true => exact absurd (key g hst) hg

/-- What is in process in a queue that is not `self.queue` stays so, and is not given out. -/
private theorem stuck_step {c : Cfg} {s s' : State α} {a : Act α} {m : List (Log α)} {q : Nat} {x : α}
    (hq : q + 1 < s.made) (hc : ∀ p, WorkQueue.Inv (s.queues p).core)
    (hx : x ∈ (s.queues q).core.processing) (hs : step c s a = some (s', m)) :
    q + 1 < s'.made ∧ (∀ p, WorkQueue.Inv (s'.queues p).core) ∧
      x ∈ (s'.queues q).core.processing ∧ ∀ w, Log.took w q x ∉ m := by
  have hcur : q ≠ s.cur := by
    simp [State.cur]
    omega
  have hadd : ∀ (t : State α) r y, (∀ p, WorkQueue.Inv (t.queues p).core) →
      x ∈ (t.queues q).core.processing →
      (∀ p, WorkQueue.Inv ((t.add r y).queues p).core) ∧ x ∈ ((t.add r y).queues q).core.processing := by
    intro t r y h1 h2
    refine ⟨inv_setCore h1 r _ (WorkQueue.inv_step (h1 r) (.add y)), ?_⟩
    simp only [State.add, State.setQ]
    split
    · rename_i e
      subst e
      rw [add_proc]
      exact h2
    · exact h2
  have hset : ∀ (r : Nat) (d : List α) (b : Bool),
      (∀ p, WorkQueue.Inv ((s.setQ r ⟨(s.queues r).core, d, b⟩).queues p).core) ∧
      x ∈ ((s.setQ r ⟨(s.queues r).core, d, b⟩).queues q).core.processing := by
    intro r d b
    refine ⟨inv_setCore hc r _ (hc r), ?_⟩
    simp only [State.setQ]
    split
    · rename_i e
      subst e
      exact hx
    · exact hx
  have hfin : ∀ w y b, q + 1 < (finally_ s w y b).1.made ∧
      (∀ p, WorkQueue.Inv ((finally_ s w y b).1.queues p).core) ∧
      x ∈ ((finally_ s w y b).1.queues q).core.processing ∧
      ∀ v, Log.took v q x ∉ (finally_ s w y b).2 := by
    intro w y b
    refine ⟨hq, inv_setCore hc _ _ (WorkQueue.inv_step (hc s.cur) (.done y)), ?_, by simp [finally_]⟩
    simp only [finally_, State.setPc, State.setQ]
    rw [if_neg hcur]
    exact hx
  have hover : ∀ g, q + 1 < (over s g).1.made ∧
      (∀ p, WorkQueue.Inv ((over s g).1.queues p).core) ∧
      x ∈ ((over s g).1.queues q).core.processing ∧ ∀ v, Log.took v q x ∉ (over s g).2 := by
    intro g
    exact ⟨hq, (hset _ _ _).1, (hset _ _ _).2, by simp [over]⟩
  cases a with
  | call =>
    simp only [step, Option.some.injEq, Prod.mk.injEq] at hs
    obtain ⟨rfl, rfl⟩ := hs
    refine ⟨?_, ?_, ?_, by simp⟩
    · show q + 1 < s.made + 1
      omega
    · exact inv_setCore (s := { s with made := s.made + 1 }) hc _ _ WorkQueue.inv_init
    · simp only [State.setCall, State.setQ]
      rw [if_neg (by omega)]
      exact hx
  | lock g =>
    simp only [step] at hs
    split at hs
    · simp only [Option.some.injEq, Prod.mk.injEq] at hs
      obtain ⟨rfl, rfl⟩ := hs
      exact ⟨hq, hc, hx, by simp⟩
    · simp at hs
  | source g =>
    simp only [step] at hs
    split at hs
    · split at hs
      · simp only [Option.some.injEq, Prod.mk.injEq] at hs
        obtain ⟨rfl, rfl⟩ := hs
        exact ⟨hq, hc, hx, by simp⟩
      · simp at hs
    · simp at hs
  | connect g =>
    simp only [step] at hs
    split at hs
    · simp only [Option.some.injEq, Prod.mk.injEq] at hs
      obtain ⟨rfl, rfl⟩ := hs
      exact ⟨hq, hc, hx, by simp⟩
    · simp at hs
  | raises g =>
    simp only [step] at hs
    split at hs
    · simp only [Option.some.injEq] at hs
      have := hover g
      rw [hs] at this
      exact this
    · simp only [Option.some.injEq] at hs
      have := hover g
      rw [hs] at this
      exact this
    · simp at hs
  | ready g =>
    simp only [step] at hs
    split at hs
    · simp only [Option.some.injEq, Prod.mk.injEq] at hs
      obtain ⟨rfl, rfl⟩ := hs
      exact ⟨hq, hc, hx, by simp⟩
    · simp at hs
  | ends g =>
    simp only [step] at hs
    split at hs
    · simp only [Option.some.injEq] at hs
      have := hover g
      rw [hs] at this
      exact this
    · simp at hs
  | event j y =>
    simp only [step] at hs
    split at hs
    · simp only [Option.some.injEq, Prod.mk.injEq] at hs
      obtain ⟨rfl, rfl⟩ := hs
      exact ⟨hq, (hadd _ _ _ hc hx).1, (hadd _ _ _ hc hx).2, by simp⟩
    · simp at hs
  | release r y =>
    simp only [step] at hs
    split at hs
    · simp only [Option.some.injEq, Prod.mk.injEq] at hs
      obtain ⟨rfl, rfl⟩ := hs
      have h1 := hset r ((s.queues r).delayed.erase y) (s.queues r).stopped
      exact ⟨hq, (hadd _ _ _ h1.1 h1.2).1, (hadd _ _ _ h1.1 h1.2).2, by simp⟩
    · simp at hs
  | gets w =>
    simp only [step] at hs
    split at hs
    · simp only [Option.some.injEq, Prod.mk.injEq] at hs
      obtain ⟨rfl, rfl⟩ := hs
      exact ⟨hq, hc, hx, by simp⟩
    · simp at hs
  | take w =>
    simp only [step] at hs
    split at hs
    · rename_i r hw
      split at hs
      · rename_i y hy
        simp only [Option.some.injEq, Prod.mk.injEq] at hs
        obtain ⟨rfl, rfl⟩ := hs
        refine ⟨hq, inv_setCore hc _ _ (WorkQueue.inv_step (hc r) .get), ?_, ?_⟩
        · simp only [State.setPc, State.setQ]
          split
          · rename_i e
            subst e
            simp only
            unfold WorkQueue.get
            split
            · split <;> exact hx
            · simp [PySet.mem_add, hx]
          · exact hx
        · intro v hv
          simp at hv
          obtain ⟨-, rfl, rfl⟩ := hv
          exact (hc q).q_proc x (WorkQueue.get_item hy).1 hx
      · simp only [Option.some.injEq, Prod.mk.injEq] at hs
        obtain ⟨rfl, rfl⟩ := hs
        exact ⟨hq, hc, hx, by simp⟩
      · simp at hs
    · simp at hs
  | finish w o =>
    simp only [step] at hs
    split at hs
    · rename_i r y hw
      cases o with
      | again now =>
        simp only [Option.some.injEq, Prod.mk.injEq] at hs
        obtain ⟨rfl, rfl⟩ := hs
        refine ⟨?_, ?_, ?_, by simp⟩
        · show q + 1 < (s.addAfter s.cur y now).made
          rw [(addAfter_workers s s.cur y now).2.2]
          exact hq
        · show ∀ p, WorkQueue.Inv ((s.addAfter s.cur y now).queues p).core
          unfold State.addAfter
          split
          · exact hc
          · split
            · exact (hadd _ _ _ hc hx).1
            · split
              · exact hc
              · exact (hset _ _ _).1
        · show x ∈ ((s.addAfter s.cur y now).queues q).core.processing
          unfold State.addAfter
          split
          · exact hx
          · split
            · exact (hadd _ _ _ hc hx).2
            · split
              · exact hx
              · exact (hset _ _ _).2
      | fine =>
        simp only [Option.some.injEq] at hs
        have := hfin w y true
        rw [hs] at this
        exact this
      | bad =>
        simp only [Option.some.injEq] at hs
        have := hfin w y true
        rw [hs] at this
        exact this
      | cancelled =>
        simp only [Option.some.injEq] at hs
        have := hfin w y (!c.py38)
        rw [hs] at this
        exact this
    · simp at hs
  | requeued w =>
    simp only [step] at hs
    split at hs
    · rename_i r y hw
      simp only [Option.some.injEq] at hs
      have := hfin w y true
      rw [hs] at this
      exact this
    · simp at hs
  | cancelRequeue w =>
    simp only [step] at hs
    split at hs
    · rename_i r y hw
      simp only [Option.some.injEq] at hs
      have := hfin w y (!c.py38)
      rw [hs] at this
      exact this
    · simp at hs
  | cancel w =>
    simp only [step] at hs
    split at hs
    · simp only [Option.some.injEq, Prod.mk.injEq] at hs
      obtain ⟨rfl, rfl⟩ := hs
      exact ⟨hq, hc, hx, by simp⟩
    · simp only [Option.some.injEq, Prod.mk.injEq] at hs
      obtain ⟨rfl, rfl⟩ := hs
      exact ⟨hq, hc, hx, by simp⟩
    · simp at hs

private theorem stuck_exec {c : Cfg} {bs : List (Act α)} {s s' : State α} {m : List (Log α)} {q : Nat}
    {x : α} (hq : q + 1 < s.made) (hc : ∀ p, WorkQueue.Inv (s.queues p).core)
    (hx : x ∈ (s.queues q).core.processing) (hs : exec c s bs = some (s', m)) :
    ∀ w, Log.took w q x ∉ m := by
  induction bs generalizing s m with
  | nil =>
    simp only [exec, Option.some.injEq, Prod.mk.injEq] at hs
    simp [← hs.2]
  | cons b bs ih =>
    simp only [exec] at hs
    cases h1 : step c s b with
    | none => simp [h1] at hs
    | some p =>
      obtain ⟨s1, l1⟩ := p
      simp only [h1] at hs
      cases h2 : exec c s1 bs with
      | none => simp [h2] at hs
      | some r =>
        obtain ⟨s2, l2⟩ := r
        simp only [h2, Option.some.injEq, Prod.mk.injEq] at hs
        obtain ⟨rfl, rfl⟩ := hs
        obtain ⟨k1, k2, k3, k4⟩ := stuck_step hq hc hx h1
        intro w hw
        rcases List.mem_append.mp hw with hw | hw
        · exact k4 w hw
        · exact ih k1 k2 k3 h2 w hw

/-- **C88** is false of the code: a request that is being reconciled when `start` is called again, in any
run, is never again given out by the queue it came from, whatever is added and whoever asks. -/
theorem C88_refuted_stuck {c : Cfg} {as bs : List (Act α)} {s s' : State α} {l l' : List (Log α)}
    {w : Nat × Nat} {q : Nat} {x : α} (h : exec c init as = some (s, l)) (hser : Serial c as)
    (hw : s.workers w = .reconciling q x) (hb : exec c s (.call :: bs) = some (s', l')) :
    ∀ v, Log.took v q x ∉ l' := by
  obtain ⟨i1, -, -⟩ := serial_inv h hser
  have hh : (s.workers w).hold = some (q, x) := by rw [hw]; rfl
  obtain ⟨p1, p2⟩ := i1.proc w q x hh
  obtain ⟨k1, k2, -⟩ := i1.worker (w := w) (by simp [hw]) (by simp [hw])
  have hqm : q + 1 = s.made := by
    rw [p1, ← k2]
    exact k1
  simp only [exec, step] at hb
  cases h2 : exec c (({ s with made := s.made + 1 }.setQ s.made ⟨WorkQueue.init, [], false⟩).setCall
      s.made .waiting) bs with
  | none => simp [h2] at hb
  | some r =>
    obtain ⟨s2, l2⟩ := r
    simp only [h2, Option.some.injEq, Prod.mk.injEq] at hb
    obtain ⟨rfl, rfl⟩ := hb
    have hst := stuck_exec (q := q) (x := x) (c := c) (bs := bs) ?_ ?_ ?_ h2
    · intro v hv
      simp at hv
      exact hst v hv
    · show q + 1 < s.made + 1
      omega
    · exact inv_setCore (s := { s with made := s.made + 1 }) i1.core _ _ WorkQueue.inv_init
    · simp only [State.setCall, State.setQ]
      rw [if_neg (by omega), p1]
      exact p2

/-- **C88** is false of the code: if `start` is called again while a worker of the call `g` reconciles a
request, in any run, then the worker's `done` raises, its task ends, `gather` raises, and the end of the call
`g` shuts down the queue of the new call. -/
theorem C88_refuted_restart {c : Cfg} {as : List (Act α)} {s : State α} {l : List (Log α)} {g i : Nat}
    {q : Nat} {x : α} (h : exec c init as = some (s, l)) (hser : Serial c as)
    (hw : s.workers (g, i) = .reconciling q x) (hi : i < c.conc) (hg : s.calls g = .working) :
    ∃ s', exec c s [.call, .finish (g, i) .fine, .ends g] =
        some (s', [.called (g + 1), .done (g, i) (g + 1) x false, .over g (g + 1)]) ∧
      s'.workers (g, i) = .ended ∧ s'.calls g = .ended ∧ s'.calls (g + 1) = .waiting ∧
      (s'.queues (g + 1)).stopped = true ∧ (s'.queues g).stopped = false := by
  obtain ⟨i1, -, -⟩ := serial_inv h hser
  obtain ⟨k1, k2, -⟩ := i1.worker (w := (g, i)) (by simp [hw]) (by simp [hw])
  have hst := (C88_shut_partial h hser).2 g (by simp [hg])
  have hm : s.made = g + 1 := k1.symm
  have hd : (WorkQueue.done (WorkQueue.init : WorkQueue.State α) x) = (WorkQueue.init, .keyError) := by
    simp [WorkQueue.done, WorkQueue.init]
  -- the call
  obtain ⟨s1, e1, w1, c1, m1, q1, q2⟩ : ∃ s1, step c s .call = some (s1, [.called (g + 1)]) ∧
      s1.workers = s.workers ∧ (s1.calls g = .working ∧ s1.calls (g + 1) = .waiting) ∧
      s1.made = g + 2 ∧ s1.queues (g + 1) = ⟨WorkQueue.init, [], false⟩ ∧
      (s1.queues g).stopped = false := by
    refine ⟨_, by rw [step, hm], ?_⟩
    simp [State.setCall, State.setQ, hg, hst]
  have hcur1 : s1.cur = g + 1 := by simp [State.cur, m1]
  -- the end of the reconciler
  obtain ⟨s2, e2, w2, c2, m2, q3, q4⟩ : ∃ s2,
      step c s1 (.finish (g, i) .fine) = some (s2, [.done (g, i) (g + 1) x false]) ∧
      s2.workers (g, i) = .ended ∧ (s2.calls g = .working ∧ s2.calls (g + 1) = .waiting) ∧
      s2.made = g + 2 ∧ (s2.queues g).stopped = false ∧ True := by
    refine ⟨(finally_ s1 (g, i) x true).1, ?_, ?_⟩
    · simp [step, w1, hw, finally_, hcur1, q1, hd]
    · simp [finally_, State.setPc, State.setQ, hcur1, q1, hd, c1, m1, q2]
  have hcur2 : s2.cur = g + 1 := by simp [State.cur, m2]
  -- the end of the old call
  have e3 : step c s2 (.ends g) = some (over s2 g) := by
    simp only [step]
    rw [if_pos ⟨c2.1, Or.inr ⟨i, hi, w2⟩⟩]
  refine ⟨(over s2 g).1, ?_, ?_⟩
  · simp [exec, e1, e2, e3, over, hcur2]
  · simp [over, State.setCall, State.setQ, hcur2, w2, c2, q3]

/-! ## The claim as a whole, and runs that break each part of it -/

/-- One source, one worker for each call. -/
private def one : Cfg := ⟨1, 1, true⟩

/-- The first call has its worker, which reconciles request 7. -/
private def busy : List (Act Nat) :=
  [.call, .lock 0, .source 0, .connect 0, .ready 0, .gets (0, 0), .event 0 7, .take (0, 0)]

/-- A second call, which is told the same object by its own handler. -/
private def second : List (Act Nat) :=
  [.call, .lock 1, .source 1, .connect 1, .ready 1, .gets (1, 0), .event 1 7, .take (1, 0)]

/-- **C88** is false of the code: two overlapping calls, and the same request is reconciled twice at
once, although each call has one worker only. -/
theorem C88_refuted_twice : ∃ s l, exec one init (busy ++ second) = some (s, l) ∧ ¬ Exclusive l ∧
    s.workers (0, 0) = .reconciling 0 7 ∧ s.workers (1, 0) = .reconciling 1 7 := by
  refine ⟨_, _, rfl, ?_, rfl, rfl⟩
  intro h
  have := h _ [] 7 (List.append_nil _).symm
  revert this
  decide

/-- **C88** is false of the code: `done` of the first worker takes the mark of the second one's request
away, so that a third worker can take the request, from the same queue, while the second is at it; then
the `done` of the second raises. -/
theorem C88_refuted_same_queue : ∃ s l, exec { one with conc := 2 } init (busy ++ second ++
      [.finish (0, 0) .fine, .event 1 7, .gets (1, 1), .take (1, 1), .finish (1, 1) .fine,
        .finish (1, 0) .fine]) = some (s, l) ∧
    s.workers (1, 0) = .ended ∧ Log.done (1, 0) 1 7 false ∈ l ∧ Log.took (1, 0) 1 7 ∈ l ∧
    Log.took (1, 1) 1 7 ∈ l ∧ ¬ Returned l := by
  refine ⟨_, _, rfl, rfl, by decide, by decide, by decide, ?_⟩
  intro h
  have := (h [.called 0, .connected 0 0 0, .working 0, .took (0, 0) 0 7, .called 1, .connected 1 0 1,
    .working 1, .took (1, 0) 1 7, .done (0, 0) 1 7 true, .took (1, 1) 1 7, .done (1, 1) 1 7 true] []
    (1, 0) 1 7 false rfl).1
  simp at this

/-- **C88** is false of the code: a retry asked for by the first call's worker goes to the other queue;
and after the end of the first call the second call's delay loop does not run, though it goes on. -/
theorem C88_refuted_retry : ∃ s l, exec one init (busy ++ second ++
      [.finish (0, 0) (.again false), .finish (1, 0) .fine, .requeued (0, 0), .ends 0]) = some (s, l) ∧
    ¬ Requeued l ∧ ¬ ShutsOwn l ∧ s.calls 1 = .working ∧ (s.queues 1).stopped = true ∧
    (s.queues 1).delayed = [7] ∧ (step one s (.release 1 7)).isNone = true := by
  refine ⟨_, _, rfl, ?_, ?_, rfl, rfl, rfl, rfl⟩
  · intro h
    obtain ⟨b, m, e, -⟩ := h [.called 0, .connected 0 0 0, .working 0, .took (0, 0) 0 7, .called 1,
      .connected 1 0 1, .working 1, .took (1, 0) 1 7] [.done (1, 0) 1 7 true, .done (0, 0) 1 7 false,
      .over 0 1] (0, 0) 1 7 rfl
    have : Log.took (0, 0) 1 7 ∈ ([.called 0, .connected 0 0 0, .working 0, .took (0, 0) 0 7, .called 1,
      .connected 1 0 1, .working 1, .took (1, 0) 1 7] : List (Log Nat)) := by
      rw [e]
      simp
    revert this
    decide
  · intro h
    have := h 0 1 (by decide)
    simp at this

/-- **C88** is false of the code: if `start` is called again before the first call has started its sources,
the queue of the first call is never fed, and that of the second is fed twice. -/
theorem C88_refuted_sources : ∃ (s : State Nat) (l : List (Log Nat)), exec one init
      [.call, .lock 0, .call, .source 0, .connect 0, .ready 0, .lock 1, .source 1, .connect 1,
        .ready 1] = some (s, l) ∧
    ¬ Connected 1 l ∧ feeds 0 l = [] ∧ feeds 1 l = [0, 0] := by
  refine ⟨_, _, rfl, ?_, by decide, by decide⟩
  intro h
  have := h [.called 0, .called 1, .connected 0 0 1] [.connected 1 0 1, .working 1] 0 rfl
  revert this
  decide

/-- A run with a restart in which the calls do not overlap. -/
private def restart : List (Act Nat) :=
  busy ++ [.finish (0, 0) (.again false), .cancelRequeue (0, 0), .ends 0] ++
    [.call, .lock 1, .source 1, .connect 1, .ready 1, .gets (1, 0), .event 1 7, .take (1, 0),
      .finish (1, 0) (.again false), .requeued (1, 0), .release 1 7, .gets (1, 0), .take (1, 0)]

private theorem serial_of {c : Cfg} {as : List (Act Nat)}
    (h : ∀ i, as[i]? = some .call → ∀ s l, exec c init (as.take i) = some (s, l) → Over s) :
    Serial c as := by
  intro pre post s l e1 e2
  refine h pre.length ?_ s l ?_
  · simp [e1]
  · rw [e1]
    simpa using e2

/-- The hypotheses are met by a run in which a request is tried again after a restart. -/
example : ∃ s l, exec one init restart = some (s, l) ∧ Serial one restart ∧
    s.workers (1, 0) = .reconciling 1 7 ∧ s.calls 1 = .working ∧
    l.filter (fun e => busies (1, 0) e) = [.took (1, 0) 1 7, .done (1, 0) 1 7 true, .took (1, 0) 1 7] := by
  refine ⟨_, _, rfl, serial_of ?_, rfl, rfl, by decide⟩
  intro i hi
  have hlt : i < restart.length := by
    by_contra hc
    rw [List.getElem?_eq_none (by omega)] at hi
    simp at hi
  have : i = 0 ∨ i = 11 := by
    have hl : restart.length = 24 := rfl
    rw [hl] at hlt
    revert hi
    revert i
    decide
  rcases this with rfl | rfl
  · intro s l h
    simp only [List.take_zero, exec, Option.some.injEq, Prod.mk.injEq] at h
    obtain ⟨rfl, rfl⟩ := h
    exact ⟨fun _ => Or.inl rfl, fun _ => Or.inl rfl⟩
  · intro s l h
    have e : exec one init (restart.take 11) = some _ := rfl
    rw [e] at h
    simp only [Option.some.injEq, Prod.mk.injEq] at h
    obtain ⟨rfl, -⟩ := h
    refine ⟨?_, ?_⟩
    · intro g
      rcases g with _ | g
      · exact Or.inr rfl
      · exact Or.inl rfl
    · rintro ⟨g, i⟩
      rcases g with _ | g
      · rcases i with _ | i
        · exact Or.inr rfl
        · exact Or.inl rfl
      · exact Or.inl rfl

/-- The hypotheses of the two general refutations are met. -/
example : ∃ s l, exec one init busy = some (s, l) ∧ Serial one busy ∧
    s.workers (0, 0) = .reconciling 0 7 ∧ 0 < one.conc ∧ s.calls 0 = .working ∧
    (exec one s second).isSome = true := by
  refine ⟨_, _, rfl, serial_of ?_, rfl, by decide, rfl, rfl⟩
  intro i hi
  have : i = 0 := by
    have hlt : i < busy.length := by
      by_contra hc
      rw [List.getElem?_eq_none (by omega)] at hi
      simp at hi
    have hl : busy.length = 8 := rfl
    rw [hl] at hlt
    revert hi
    revert i
    decide
  subst this
  intro s l h
  simp only [List.take_zero, exec, Option.some.injEq, Prod.mk.injEq] at h
  obtain ⟨rfl, rfl⟩ := h
  exact ⟨fun _ => Or.inl rfl, fun _ => Or.inl rfl⟩

end Aiok8s.Restart
