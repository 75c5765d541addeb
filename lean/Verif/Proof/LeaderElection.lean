import Verif.Spec.LeaderElection
import Mathlib.Tactic.Linarith
/-!
# Lemmas on leader election
-/
set_option linter.unusedSimpArgs false
namespace Aiok8s.LeaderElection
variable {σ : Type}
open Spec (Seen)

theorem holderIdentityAttr_eq (o : Option Rec) : holderIdentityAttr o = none := by
  cases o <;> rfl

theorem maybeReport_eq (c : Config) (st : St σ) : maybeReport c st = (st, .raise .attributeError) := by
  simp [maybeReport, holderIdentityAttr_eq]

theorem isLeader_eq (env : Env) (st : St σ) : isLeader env st = .raise .attributeError := by
  simp [isLeader, holderIdentityAttr_eq]

/-- What one attempt does, when `_observed_raw_record` is not set. -/
theorem try_cases (c : Config) (L : Lock σ) (env : Env) (st : St σ) (h : st.observedRaw = none) :
    let p := tryAcquireOrRenew c L env st
    p.1.observedRaw = none ∧
    ∃ l, p.1.calls = st.calls ++ l ∧
      ((l = [.get] ∧ p.2 ≠ .ret true) ∨
       (∃ r, l = [.get, .create r] ∧ p.2 ≠ .raise .attributeError)) := by
  unfold tryAcquireOrRenew
  simp only
  split
  · exact ⟨h, [.get], rfl, Or.inl ⟨rfl, by simp⟩⟩
  · exact ⟨h, [.get], rfl, Or.inl ⟨rfl, by simp⟩⟩
  · exact ⟨h, [.get], rfl, Or.inl ⟨rfl, by simp⟩⟩
  · split
    · exact ⟨h, [.get, .create (newRecord c env (env.now st.calls.length))], by simp [St.call],
        Or.inr ⟨_, rfl, by simp⟩⟩
    · exact ⟨h, [.get, .create (newRecord c env (env.now st.calls.length))], by simp [St.call],
        Or.inr ⟨_, rfl, by simp⟩⟩
    · exact ⟨h, [.get, .create (newRecord c env (env.now st.calls.length))], by simp [St.call],
        Or.inr ⟨_, rfl, by simp⟩⟩
    · exact ⟨h, [.get, .create (newRecord c env (env.now st.calls.length))], by simp [St.call],
        Or.inr ⟨_, rfl, by simp⟩⟩
  · rename_i old raw _
    have : (St.call st Call.get).observedRaw = none := h
    simp only [St.call, h]
    exact ⟨trivial, [.get], rfl, Or.inl ⟨rfl, by simp⟩⟩

/-- Acquiring is one attempt. -/
theorem acquire_eq (c : Config) (L : Lock σ) (env : Env) (fuel : Nat) (st : St σ) :
    acquire c L env (fuel + 1) st =
      ((tryAcquireOrRenew c L env st).1,
        match (tryAcquireOrRenew c L env st).2 with
        | .raise .cancelled => .raise .cancelled
        | .raise _ => .ret false
        | .running => .running
        | .ret b => .ret b) := by
  unfold acquire
  rcases tryAcquireOrRenew c L env st with ⟨s, r⟩
  rcases r with b | e | _
  · simp [maybeReport_eq]
  · cases e <;> rfl
  · rfl

/-- The renewal loop is one polling. -/
theorem renewLoop_eq (c : Config) (L : Lock σ) (env : Env) (fuel : Nat) (st : St σ) :
    renewLoop c L env (fuel + 1) st =
      ((pollRenew c L env (fuel + 1) st).1,
        match (pollRenew c L env (fuel + 1) st).2 with
        | .running => .running
        | _ => .raise .attributeError) := by
  unfold renewLoop
  rcases pollRenew c L env (fuel + 1) st with ⟨s, r⟩
  rcases r with b | e | _ <;> simp [maybeReport_eq]

theorem renew_eq (c : Config) (L : Lock σ) (env : Env) (fuel : Nat) (st : St σ) :
    renew c L env (fuel + 1) st =
      ((pollRenew c L env (fuel + 1) st).1,
        match (pollRenew c L env (fuel + 1) st).2 with
        | .running => .running
        | _ => .raise .attributeError) := by
  unfold renew
  rw [renewLoop_eq]
  rcases pollRenew c L env (fuel + 1) st with ⟨s, r⟩
  rcases r with b | e | _ <;> simp [release, isLeader_eq]

/-- A call made while trying: reading or creating. -/
def Call.trying : Call → Bool
  | .get => true
  | .create _ => true
  | .sleep => true
  | _ => false

/-- Polling only reads, creates and waits. -/
theorem pollRenew_calls (c : Config) (L : Lock σ) (env : Env) (fuel : Nat) (st : St σ)
    (h : st.observedRaw = none) :
    (pollRenew c L env fuel st).1.observedRaw = none ∧
    ∃ l, (pollRenew c L env fuel st).1.calls = st.calls ++ l ∧ (∀ x ∈ l, x.trying = true) ∧
      (0 < fuel → l.head? = some .get) := by
  induction fuel generalizing st with
  | zero => exact ⟨h, [], by simp [pollRenew], by simp, by simp⟩
  | succ fuel ih =>
    obtain ⟨h1, l, hl, hc⟩ := try_cases c L env st h
    have ht : (∀ x ∈ l, x.trying = true) ∧ l.head? = some .get := by
      rcases hc with ⟨rfl, _⟩ | ⟨r, rfl, _⟩ <;> simp [Call.trying]
    unfold pollRenew
    revert h1 hl
    rcases tryAcquireOrRenew c L env st with ⟨s, r⟩
    intro h1 hl
    rcases r with b | e | _
    · cases b
      · simp only [sleep]
        cases hs : env.cancelSleep s.calls.length
        · simp only [hs, Bool.false_eq_true, if_false]
          obtain ⟨i1, l2, i2, i3, i4⟩ := ih (s.call .sleep) h1
          refine ⟨i1, l ++ .sleep :: l2, ?_, ?_, ?_⟩
          · rw [i2]; simp only [St.call]; simp only at hl; rw [hl]; simp
          · intro x hx
            simp only [List.mem_append, List.mem_cons] at hx
            rcases hx with hx | rfl | hx
            · exact ht.1 x hx
            · rfl
            · exact i3 x hx
          · intro _
            rw [List.head?_append, ht.2]; rfl
        · simp only [hs, if_true]
          refine ⟨h1, l ++ [.sleep], ?_, ?_, ?_⟩
          · simp only [St.call]; simp only at hl; rw [hl]; simp
          · intro x hx
            simp only [List.mem_append, List.mem_singleton] at hx
            rcases hx with hx | rfl
            · exact ht.1 x hx
            · rfl
          · intro _
            rw [List.head?_append, ht.2]; rfl
      · exact ⟨h1, l, hl, ht.1, fun _ => ht.2⟩
    · exact ⟨h1, l, hl, ht.1, fun _ => ht.2⟩
    · exact ⟨h1, l, hl, ht.1, fun _ => ht.2⟩

/-! ### Several clients -/

/-- The world agrees with what is known from outside. -/
structure Sim (w : World) (s : Seen) : Prop where
  present : s.present = w.server.isSome
  fresh : ∀ m, w.server = some m → m.version < w.next
  freshC : ∀ i m, w.cms i = some m → m.version < w.next
  le : ∀ i n, s.seen i = some n → n ≤ s.changes
  none : ∀ i, s.seen i = none ↔ w.cms i = none
  cur : ∀ i m, w.server = some m → s.seen i = some s.changes → w.cms i = some m
  old : ∀ i m m', w.server = some m → w.cms i = some m' → s.seen i ≠ some s.changes →
    m'.version ≠ m.version

theorem sim_fresh (x : Option (Option (PyDict String Str))) :
    Sim (World.fresh x) (Seen.start x.isSome) where
  present := by cases x <;> rfl
  fresh m h := by cases x <;> simp_all [World.fresh]; subst h; simp
  freshC i m h := by simp [World.fresh] at h
  le i n h := by simp [Seen.start] at h
  none i := by simp [World.fresh, Seen.start]
  cur i m _ h := by simp [Seen.start] at h
  old i m m' _ h := by simp [World.fresh] at h

/-- Nobody else's knowledge is current after a change. -/
theorem sim_step (loads : Str → Option Rec) (dumps : Rec → Str) (w : World) (s : Seen) (h : Sim w s)
    (o : Op) : Sim (w.step loads dumps o).1 (s.step (o, (w.step loads dumps o).2)) := by
  obtain ⟨sv, nx, cms⟩ := w
  obtain ⟨ch, pr, seen⟩ := s
  obtain ⟨h1, h2, h3, h4, h5, h6, h7⟩ := h
  simp only at h1 h2 h3 h4 h5 h6 h7
  subst h1
  -- a change made by nobody in the world
  have other : ∀ (sv' : Option CM) (nx' : Nat), nx ≤ nx' → (∀ m, sv' = some m → nx ≤ m.version ∧
      m.version < nx') → Sim ⟨sv', nx', cms⟩ ⟨ch + 1, sv'.isSome, seen⟩ := by
    intro sv' nx' hn hs
    refine ⟨rfl, fun m hm => (hs m hm).2, fun i m hm => lt_of_lt_of_le (h3 i m hm) hn,
      fun i n hi => Nat.le_succ_of_le (h4 i n hi), h5, fun i m _ hi => ?_, fun i m m' hm hc _ => ?_⟩
    · have := h4 i _ hi
      simp only at this
      omega
    · have := h3 i m' hc
      have := (hs m hm).1
      omega
  -- a change made by client `i`
  have mine : ∀ (i : Nat) (m : CM), m.version = nx →
      Sim ⟨some m, nx + 1, fun j => if j = i then some m else cms j⟩
        ⟨ch + 1, true, fun j => if j = i then some (ch + 1) else seen j⟩ := by
    intro i m hm
    refine ⟨rfl, ?_, ?_, ?_, ?_, ?_, ?_⟩
    · intro m' h; cases h; simp only; omega
    · intro j m' h
      simp only at h ⊢
      split at h
      · cases h; omega
      · have := h3 j m' h; omega
    · intro j n h
      simp only at h ⊢
      split at h
      · cases h; omega
      · have := h4 j n h; omega
    · intro j
      simp only
      split
      · simp
      · exact h5 j
    · intro j m' h hj
      simp only at h hj ⊢
      split
      · exact h
      · rename_i hji
        rw [if_neg hji] at hj
        have := h4 j _ hj
        omega
    · intro j m' m'' h hc hj
      simp only at h hc hj
      split at hc
      · rename_i hji
        rw [if_pos hji] at hj
        exact absurd rfl hj
      · cases h
        have := h3 j m'' hc
        omega
  -- an attempt that changes nothing on the server, but perhaps `_cm`, which stays outdated
  have same : Sim ⟨sv, nx, cms⟩ ⟨ch, sv.isSome, seen⟩ := ⟨rfl, h2, h3, h4, h5, h6, h7⟩
  have stale : ∀ (i : Nat) (m m' : CM), cms i = some m → m'.version = m.version →
      (∀ n, sv = some n → n.version ≠ m.version) →
      Sim ⟨sv, nx, fun j => if j = i then some m' else cms j⟩ ⟨ch, sv.isSome, seen⟩ := by
    intro i m m' hm hv hn
    refine ⟨rfl, h2, ?_, h4, ?_, ?_, ?_⟩
    · intro j x h
      simp only at h ⊢
      split at h
      · cases h; have := h3 i m hm; omega
      · exact h3 j x h
    · intro j
      simp only
      split
      · rename_i hji; subst hji
        have := h5 j
        rw [hm] at this
        simpa using this
      · exact h5 j
    · intro j x hx hj
      simp only at hx hj ⊢
      split
      · rename_i hji; subst hji
        have := h6 j x hx hj
        rw [hm] at this
        cases this
        exact absurd rfl (hn _ hx)
      · exact h6 j x hx hj
    · intro j x y hx hy hj
      simp only at hx hy hj
      split at hy
      · cases hy
        rw [hv]
        exact fun h => hn x hx h.symm
      · exact h7 j x y hx hy hj
  have eta : ∀ i, (fun j => if j = i then cms i else cms j) = cms := by
    intro i; funext j; split
    · rename_i h; rw [h]
    · rfl
  cases o with
  | get i =>
    simp only [World.step, World.call, configMapLock]
    cases sv with
    | none => simpa [Seen.step, eta] using same
    | some m =>
      simp only [Seen.step, Option.isSome_some, if_true]
      refine ⟨rfl, h2, ?_, ?_, ?_, ?_, ?_⟩
      · intro j x h
        simp only at h ⊢
        split at h
        · cases h; exact h2 m rfl
        · exact h3 j x h
      · intro j n h
        simp only at h ⊢
        split at h
        · cases h; exact le_rfl
        · exact h4 j n h
      · intro j
        simp only
        split
        · simp
        · exact h5 j
      · intro j x hx hj
        simp only at hx hj ⊢
        split
        · exact hx
        · rename_i hji
          rw [if_neg hji] at hj
          exact h6 j x hx hj
      · intro j x y hx hy hj
        simp only at hx hy hj
        split at hy
        · rename_i hji
          rw [if_pos hji] at hj
          exact absurd rfl hj
        · rename_i hji
          rw [if_neg hji] at hj
          exact h7 j x y hx hy hj
  | create i r =>
    simp only [World.step, World.call, configMapLock]
    cases sv with
    | none => exact mine i _ rfl
    | some m => simpa [Seen.step, R.ok, eta] using same
  | update i r =>
    simp only [World.step, World.call, configMapLock]
    cases hc : cms i with
    | none => simpa [Seen.step, R.ok, ← hc, eta] using same
    | some m =>
      simp only
      cases ha : m.annotations with
      | none => simpa [Seen.step, R.ok, ← hc, eta] using same
      | some as =>
        simp only
        cases sv with
        | none => exact stale i m _ hc rfl (by simp)
        | some n =>
          simp only
          by_cases hv : n.version = m.version
          · simp only [hv, ne_eq, not_true_eq_false, if_false]
            exact mine i _ rfl
          · simp only [ne_eq, hv, not_false_eq_true, if_true]
            exact stale i m _ hc rfl (by intro x hx; cases hx; exact hv)
  | delete =>
    cases sv with
    | none => exact same
    | some m => exact other none nx le_rfl (by simp)
  | annotate as =>
    cases sv with
    | none => exact same
    | some m =>
      exact other (some ⟨as, nx⟩) (nx + 1) (Nat.le_succ _) (by intro x hx; cases hx; simp)

theorem sim_run (loads : Str → Option Rec) (dumps : Rec → Str) (w : World) (s : Seen) (h : Sim w s)
    (os : List Op) : Sim (w.run loads dumps os).1 (s.run (w.run loads dumps os).2) := by
  induction os generalizing w s with
  | nil => exact h
  | cons o os ih => exact ih _ _ (sim_step loads dumps w s h o)

end Aiok8s.LeaderElection
