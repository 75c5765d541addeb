import Verif.Spec.Wiring
import Mathlib.Tactic.Basic
/-!
# Sources and their caches: C87
-/
set_option linter.unusedSimpArgs false
namespace Aiok8s.Wiring

private theorem exec_append (as bs : List Ev) : ∀ s : State, exec s (as ++ bs) = exec (exec s as) bs := by
  induction as with
  | nil => intro s; rfl
  | cons a as ih => intro s; exact ih _

private theorem inject_some (s : State) (k m : Nat) : ∃ m', (injectCache s k m).kinds k = some m' := by
  simp only [injectCache]
  split
  · exact ⟨m, by simp⟩
  · rename_i m' h; exact ⟨m', h⟩

private theorem inject_keep (s : State) (k m : Nat) {k' m' : Nat} (h : s.kinds k' = some m') :
    (injectCache s k m).kinds k' = some m' := by
  simp only [injectCache]
  split
  · rename_i hn
    have : k' ≠ k := by rintro rfl; rw [h] at hn; cases hn
    simp [this, h]
  · exact h

private theorem inject_ctls (s : State) (k m : Nat) : (injectCache s k m).ctls = s.ctls := by
  simp only [injectCache]; split <;> rfl

private theorem add_kinds (s : State) (m c : Nat) : (add s m c).kinds = s.kinds := by
  simp only [add, injectFunc]; split <;> rfl

private theorem kinds_step {s : State} {k m : Nat} (h : s.kinds k = some m) (e : Ev) :
    (step s e).kinds k = some m := by
  cases e with
  | new m' c => simp only [step]; split <;> simp [add_kinds, make, h]
  | bare m' c => simp only [step]; split <;> simp [make, h]
  | add m' c => simp only [step]; split <;> simp [add_kinds, h]
  | fields m' k' => exact inject_keep s k' m' h
  | watch c k' =>
    simp only [step]
    split
    · exact h
    · split
      · exact h
      · exact inject_keep s k' _ h

private theorem kinds_exec (es : List Ev) {k m : Nat} : ∀ {s : State}, s.kinds k = some m →
    (exec s es).kinds k = some m := by
  induction es with
  | nil => intro s h; exact h
  | cons e es ih => intro s h; exact ih (kinds_step h e)

/-- **C87**: the cache of a source never changes. -/
theorem C87_stable (es more : List Ev) (k m : Nat) (h : kindStart (exec init es) k = some m) :
    kindStart (exec init (es ++ more)) k = some m := by
  rw [exec_append]; exact kinds_exec more h

/-- Every watched source has a cache, and it satisfies `P`. -/
private structure Inv (m : Nat) (C K : Nat → Prop) (s : State) : Prop where
  has : ∀ c x, s.ctls c = some x → ∀ k ∈ x.watches, ∃ m', s.kinds k = some m'
  own : ∀ c x, s.ctls c = some x → C c → x.cache = m ∧ (x.fields = none ∨ x.fields = some m)
  kinds : ∀ k m', s.kinds k = some m' → K k → m' = m

private theorem inv_add {m : Nat} {C K : Nat → Prop} {s : State} (h : Inv m C K s) (m' c : Nat)
    (he : C c → m' = m) : Inv m C K (add s m' c) := by
  have hk := add_kinds s m' c
  have hc : ∀ d y, (add s m' c).ctls d = some y → ∃ x, s.ctls d = some x ∧ y.watches = x.watches ∧
      y.cache = x.cache ∧ (y.fields = x.fields ∨ d = c ∧ y.fields = some m') := by
    intro d y hy
    simp only [add, injectFunc] at hy
    split at hy
    · exact ⟨y, hy, rfl, rfl, .inl rfl⟩
    · rename_i x hx
      simp only at hy
      split at hy
      · rename_i hd
        subst hd
        injection hy with hy
        subst hy
        exact ⟨x, hx, rfl, rfl, .inr ⟨rfl, rfl⟩⟩
      · exact ⟨y, hy, rfl, rfl, .inl rfl⟩
  refine ⟨?_, ?_, ?_⟩
  · intro d y hy k hky
    obtain ⟨x, h1, h2, -, -⟩ := hc d y hy
    rw [hk]
    exact h.has d x h1 k (by rw [← h2]; exact hky)
  · intro d y hy hd
    obtain ⟨x, h1, -, h3, h4⟩ := hc d y hy
    obtain ⟨h5, h6⟩ := h.own d x h1 hd
    refine ⟨h3.trans h5, ?_⟩
    rcases h4 with h4 | ⟨rfl, h4⟩
    · rw [h4]; exact h6
    · rw [h4, he hd]; exact .inr rfl
  · rw [hk]; exact h.kinds

private theorem inv_make {m : Nat} {C K : Nat → Prop} {s : State} (h : Inv m C K s) (m' c : Nat)
    (he : C c → m' = m) : Inv m C K (make s m' c) := by
  refine ⟨?_, ?_, h.kinds⟩
  · intro d y hy k hky
    simp only [make] at hy
    split at hy
    · injection hy with hy; subst hy; simp at hky
    · exact h.has d y hy k hky
  · intro d y hy hd
    simp only [make] at hy
    split at hy
    · rename_i hdc
      injection hy with hy
      subst hy hdc
      exact ⟨he hd, .inl rfl⟩
    · exact h.own d y hy hd

private theorem inv_inject {m : Nat} {C K : Nat → Prop} {s : State} (h : Inv m C K s) (k m' : Nat)
    (he : K k → m' = m) : Inv m C K (injectCache s k m') := by
  refine ⟨?_, ?_, ?_⟩
  · intro d y hy k' hk'
    rw [inject_ctls] at hy
    obtain ⟨m'', hm⟩ := h.has d y hy k' hk'
    exact ⟨m'', inject_keep s k m' hm⟩
  · rw [inject_ctls]; exact h.own
  · intro k' m'' hk' hK
    simp only [injectCache] at hk'
    split at hk'
    · simp only at hk'
      split at hk'
      · rename_i hkk
        injection hk' with hk'
        subst hk' hkk
        exact he hK
      · exact h.kinds k' m'' hk' hK
    · exact h.kinds k' m'' hk' hK

private theorem inv_step {m : Nat} {C K : Nat → Prop} {s : State} (h : Inv m C K s) (e : Ev)
    (he : Stays m C K e) : Inv m C K (step s e) := by
  cases e with
  | new m' c =>
    simp only [step]; split
    · exact inv_add (inv_make h m' c he) m' c he
    · exact h
  | bare m' c =>
    simp only [step]; split
    · exact inv_make h m' c he
    · exact h
  | add m' c =>
    simp only [step]; split
    · exact h
    · exact inv_add h m' c he
  | fields m' k => exact inv_inject h k m' he
  | watch c k =>
    simp only [step]; split
    · exact h
    · rename_i x hx
      split
      · exact h
      · rename_i m' hf
        have he' : K k → m' = m := by
          intro hK
          rcases (h.own c x hx (he hK)).2 with h' | h'
          · rw [h'] at hf; cases hf
          · rw [h'] at hf; injection hf with hf; exact hf.symm
        have hi := inv_inject h k m' he'
        refine ⟨?_, ?_, hi.kinds⟩
        · intro d y hy k' hk'
          simp only [inject_ctls] at hy
          split at hy
          · injection hy with hy
            subst hy
            simp only [List.mem_append, List.mem_singleton] at hk'
            rcases hk' with hk' | rfl
            · exact hi.has c x (by rw [inject_ctls]; exact hx) k' hk'
            · exact inject_some s k' m'
          · exact hi.has d y (by rw [inject_ctls]; exact hy) k' hk'
        · intro d y hy hd
          simp only [inject_ctls] at hy
          split at hy
          · rename_i hdc
            injection hy with hy
            subst hy hdc
            exact h.own d x hx hd
          · exact h.own d y hy hd

private theorem inv_exec {m : Nat} {C K : Nat → Prop} (es : List Ev) (he : ∀ e ∈ es, Stays m C K e) :
    ∀ {s : State}, Inv m C K s → Inv m C K (exec s es) := by
  induction es with
  | nil => intro s h; exact h
  | cons e es ih =>
    intro s h
    exact ih (fun e' h' => he e' (by simp [h'])) (inv_step h e (he e (by simp)))

private theorem inv_init (m : Nat) (C K : Nat → Prop) : Inv m C K init :=
  ⟨by simp [init], by simp [init], by simp [init]⟩

/-- **C87**: no source of a controller raises for want of a cache when the controller is started. -/
theorem C87_starts (es : List Ev) (c : Nat) (x : Controller) (h : (exec init es).ctls c = some x) :
    ∃ ms, startAll (exec init es) x.watches = some ms ∧ ms.length = x.watches.length := by
  have hi : Inv 0 (fun _ => False) (fun _ => False) (exec init es) :=
    inv_exec es (fun e _ => by cases e <;> simp [Stays]) (inv_init _ _ _)
  have hw := hi.has c x h
  generalize x.watches = ks at hw
  induction ks with
  | nil => exact ⟨[], rfl, rfl⟩
  | cons k ks ih =>
    obtain ⟨m, hm⟩ := hw k (by simp)
    obtain ⟨ms, h1, h2⟩ := ih (fun k' h' => hw k' (by simp [h']))
    exact ⟨m :: ms, by simp [startAll, kindStart, hm, h1], by simp [h2]⟩

/-- **C87**, for controllers and sources that stay with one manager: when the controller is started, all
its sources ask the cache of that manager, which is the one whose informers the controller waits for.
Missing: sources shared by managers (`C87_refuted_shared`) and controllers added to another manager
(`C87_refuted_added`). -/
theorem C87_own_partial (es : List Ev) (m : Nat) (C K : Nat → Prop) (he : ∀ e ∈ es, Stays m C K e)
    (c : Nat) (x : Controller) (h : (exec init es).ctls c = some x) (hc : C c) (hk : ∀ k ∈ x.watches, K k) :
    x.cache = m ∧ startAll (exec init es) x.watches = some (List.replicate x.watches.length m) := by
  have hi := inv_exec es he (inv_init m C K)
  refine ⟨(hi.own c x h hc).1, ?_⟩
  have hw := hi.has c x h
  generalize x.watches = ks at hw hk
  induction ks with
  | nil => rfl
  | cons k ks ih =>
    obtain ⟨m', hm⟩ := hw k (by simp)
    have := hi.kinds k m' hm (hk k (by simp))
    subst this
    rw [startAll, kindStart, hm, Option.bind_some, ih (fun k' h' => hw k' (by simp [h']))
      (fun k' h' => hk k' (by simp [h']))]
    rfl

/-- **C87 fails** for a source that has been given to another manager before: the controller waits for the
informers of its own manager, but the source asks the cache of the other one. -/
theorem C87_refuted_shared (es more : List Ev) (c k m m' : Nat) (x : Controller)
    (h : (exec init es).ctls c = some x) (hf : x.fields = some m') (hc : x.cache = m') (hm : m ≠ m')
    (hk : (exec init es).kinds k = some m) :
    ∃ y, (exec init (es ++ [.watch c k])).ctls c = some y ∧ k ∈ y.watches ∧ y.cache = m' ∧
      kindStart (exec init (es ++ .watch c k :: more)) k = some m := by
  rw [exec_append, exec_append]
  refine ⟨{ x with watches := x.watches ++ [k] }, ?_, by simp, hc, ?_⟩
  · simp [exec, step, h, hf]
  · exact kinds_exec more (kinds_step hk _)

/-- **C87 fails** for a controller added to another manager: its new sources ask the cache of that one,
while it waits for the informers of the manager that made it. -/
theorem C87_refuted_added (es more : List Ev) (c k m' : Nat) (x : Controller)
    (h : (exec init es).ctls c = some x) (hm : x.cache ≠ m') (hk : (exec init es).kinds k = none) :
    ∃ y, (exec init (es ++ [.add m' c, .watch c k])).ctls c = some y ∧ k ∈ y.watches ∧ y.cache = x.cache ∧
      kindStart (exec init (es ++ .add m' c :: .watch c k :: more)) k = some m' := by
  rw [exec_append, exec_append]
  have hadd : (step (exec init es) (.add m' c)).ctls c = some { x with fields := some m' } := by
    simp [step, h, add, injectFunc]
  have hadk : (step (exec init es) (.add m' c)).kinds k = none := by
    simp [step, h, add_kinds, hk]
  refine ⟨{ x with fields := some m', watches := x.watches ++ [k] }, ?_, by simp, rfl, ?_⟩
  · show (step (step (exec init es) (.add m' c)) (.watch c k)).ctls c = _
    generalize step (exec init es) (.add m' c) = s at hadd hadk
    simp [step, hadd]
  · show kindStart (exec (step (step (exec init es) (.add m' c)) (.watch c k)) more) k = _
    generalize step (exec init es) (.add m' c) = s at hadd hadk
    refine kinds_exec more ?_
    simp [step, hadd, injectCache, hadk]

private theorem add_runnables (s : State) (m c m' : Nat) : (add s m c).runnables m' =
    s.runnables m' ++ (if m' = m then [c] else []) := by
  have hi : (injectFunc s c m).runnables = s.runnables := by
    simp only [injectFunc]; split <;> rfl
  by_cases h : m' = m <;> simp [add, hi, h]

private theorem add_ctls (s : State) (m c d : Nat) : ((add s m c).ctls d).isSome = (s.ctls d).isSome := by
  simp only [add, injectFunc]
  split
  · rfl
  · rename_i x hx
    by_cases h : d = c
    · subst h; simp [hx]
    · simp [h]

private theorem make_ctls (s : State) (m c d : Nat) :
    ((make s m c).ctls d).isSome = (decide (d = c) || (s.ctls d).isSome) := by
  by_cases h : d = c <;> simp [make, h]

private theorem step_ctls (s : State) (e : Ev) (c : Nat) : ((step s e).ctls c).isSome = true ↔
    ((s.ctls c).isSome = true ∨ ∃ m, e = .new m c ∨ e = .bare m c) := by
  cases e with
  | new m d =>
    simp only [step]
    split
    · rw [add_ctls, make_ctls]
      by_cases h : c = d
      · subst h; simp
      · simp [h, Ne.symm h]
    · rename_i x hx
      constructor
      · exact .inl
      · rintro (h | ⟨m', h | h⟩)
        · exact h
        · cases h; rw [hx]; rfl
        · cases h
  | bare m d =>
    simp only [step]
    split
    · rw [make_ctls]
      by_cases h : c = d
      · subst h; simp
      · simp [h, Ne.symm h]
    · rename_i x hx
      constructor
      · exact .inl
      · rintro (h | ⟨m', h | h⟩)
        · exact h
        · cases h
        · cases h; rw [hx]; rfl
  | add m d => simp only [step]; split <;> simp [add_ctls]
  | fields m k => simp [step, inject_ctls]
  | watch d k =>
    simp only [step]
    split
    · simp
    · rename_i x hx
      split
      · simp
      · by_cases h : c = d
        · subst h; simp [hx]
        · simp [h, inject_ctls]

private theorem made_iff (es : List Ev) (c : Nat) : ∀ s : State, ((exec s es).ctls c).isSome = true ↔
    ((s.ctls c).isSome = true ∨ Made c es) := by
  induction es with
  | nil => intro s; simp [exec, Made]
  | cons e es ih =>
    intro s
    rw [exec, ih, step_ctls]
    simp only [Made, List.mem_cons]
    constructor
    · rintro ((h | ⟨m, h⟩) | ⟨m, h⟩)
      · exact .inl h
      · exact .inr ⟨m, h.imp (fun h => .inl h.symm) fun h => .inl h.symm⟩
      · exact .inr ⟨m, h.imp .inr .inr⟩
    · rintro (h | ⟨m, (h | h) | (h | h)⟩)
      · exact .inl (.inl h)
      · exact .inl (.inr ⟨m, .inl h.symm⟩)
      · exact .inr ⟨m, .inl h⟩
      · exact .inl (.inr ⟨m, .inr h.symm⟩)
      · exact .inr ⟨m, .inr h⟩

private theorem made_init (es : List Ev) (c : Nat) : ((exec init es).ctls c).isSome = true ↔ Made c es := by
  rw [made_iff]; simp [init]

private theorem exec_snoc (es : List Ev) (e : Ev) : exec init (es ++ [e]) = step (exec init es) e := by
  rw [exec_append]; rfl

/-- **C87**: a manager starts those controllers that were made for it or added to it: a move that gives it a
controller puts this one at the end of its runnables, all other moves leave them as they are. -/
theorem C87_runnables (es : List Ev) (e : Ev) (m : Nat) :
    (∀ c, Gives es m c e → (exec init (es ++ [e])).runnables m = (exec init es).runnables m ++ [c]) ∧
    ((∀ c, ¬ Gives es m c e) → (exec init (es ++ [e])).runnables m = (exec init es).runnables m) := by
  rw [exec_snoc]
  have hmade : ∀ c, (∃ x, (exec init es).ctls c = some x) ↔ Made c es := by
    intro c; rw [← made_init, Option.isSome_iff_exists]
  refine ⟨?_, ?_⟩
  · rintro c (⟨rfl, hn⟩ | ⟨rfl, hm⟩)
    · have : (exec init es).ctls c = none := by
        cases h : (exec init es).ctls c with
        | none => rfl
        | some x => exact absurd ((hmade c).1 ⟨x, h⟩) hn
      simp only [step, this, add_runnables]
      simp [make]
    · obtain ⟨x, hx⟩ := (hmade c).2 hm
      simp only [step, hx, add_runnables]
      simp
  · intro hno
    cases e with
    | new m' c =>
      simp only [step]
      split
      · rename_i hc
        by_cases hm : m = m'
        · subst hm
          refine absurd (.inl ⟨rfl, ?_⟩) (hno c)
          intro h
          obtain ⟨x, hx⟩ := (hmade c).2 h
          rw [hc] at hx; cases hx
        · rw [add_runnables]; simp [hm, make]
      · rfl
    | bare m' c => simp only [step]; split <;> rfl
    | add m' c =>
      simp only [step]
      split
      · rfl
      · rename_i x hx
        by_cases hm : m = m'
        · subst hm
          exact absurd (.inr ⟨rfl, (hmade c).1 ⟨x, hx⟩⟩) (hno c)
        · rw [add_runnables]; simp [hm]
    | fields m' k => simp only [step, injectCache]; split <;> rfl
    | watch c k =>
      simp only [step]
      split
      · rfl
      · split
        · rfl
        · simp only [injectCache]; split <;> rfl

/-- Two managers with a controller each, and three sources. -/
private def sample : List Ev := [.new 0 5, .watch 5 1, .new 1 6, .watch 6 2, .watch 5 3]

-- `C87_starts`, `C87_own_partial`: the controllers of manager 0 and its sources
example : (exec init sample).ctls 5 = some ⟨0, some 0, [1, 3]⟩ ∧ (exec init sample).ctls 6 = some ⟨1, some 1, [2]⟩ ∧
    startAll (exec init sample) [1, 3] = some [0, 0] ∧
    (∀ e ∈ sample, Stays 0 (· = 5) (fun k => k = 1 ∨ k = 3) e) := by
  refine ⟨by decide, by decide, by decide, ?_⟩
  simp [sample, Stays]

-- `C87_refuted_shared`: the source 1 of manager 0, watched by the controller of manager 1
example : (exec init sample).kinds 1 = some 0 ∧ startAll (exec init (sample ++ [.watch 6 1])) [2, 1] = some [1, 0] := by
  decide

-- `C87_refuted_added`
example : (exec init sample).kinds 4 = none ∧ startAll (exec init (sample ++ [.add 1 5, .watch 5 4])) [1, 3, 4] =
    some [0, 0, 1] := by decide

-- `C87_runnables`
example : Gives sample 0 7 (.new 0 7) ∧ Gives sample 1 5 (.add 1 5) ∧ (∀ c, ¬ Gives sample 1 c (.add 1 7)) ∧
    (exec init sample).runnables 0 = [5] ∧ (exec init (sample ++ [.add 1 5, .add 1 7])).runnables 1 = [6, 5] := by
  refine ⟨.inl ⟨rfl, ?_⟩, .inr ⟨rfl, 0, by simp [sample]⟩, ?_, by decide, by decide⟩
  · rintro ⟨m, h | h⟩ <;> simp [sample] at h
  · rintro c (⟨h, -⟩ | ⟨h, m, h' | h'⟩)
    · cases h
    · cases h; simp [sample] at h'
    · cases h; simp [sample] at h'

end Aiok8s.Wiring
