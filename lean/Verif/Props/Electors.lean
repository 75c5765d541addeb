import Verif.Proof.Electors
import Verif.Spec.Electors
/-!
# C106: at most one elector leads
-/
namespace Aiok8s.LeaderElection

variable {σ : Type}

/-! ### What an elector can be doing -/

/-- The states that are reached: the attribute `_observed_raw_record` is never set, and so no elector gets as far as
`lock.update` or to a second round of `_renew`. -/
private def Good (p : St Unit × Pc) : Prop :=
  p.1.observedRaw = none ∧
  match p.2 with
  | .acqGet | .acqCreate _ => .started ∉ p.1.calls ∧ .stopped ∉ p.1.calls
  | .renGet | .renCreate _ | .pollSleep => Leading p.1.calls
  | .over _ => .started ∈ p.1.calls → .stopped ∈ p.1.calls
  | _ => False

private theorem report_eq (c : Config) (st : St Unit) : maybeReport c st = (st, .raise .attributeError) := by
  rcases st with ⟨_, _ | _, _, _, _, _⟩ <;> rfl

private theorem leader_eq (env : Env) (st : St Unit) : isLeader env st = .raise .attributeError := by
  rcases st with ⟨_, _ | _, _, _, _, _⟩ <;> rfl

private theorem finish_good (env : Env) (r : R Unit) (st : St Unit) (h : st.observedRaw = none) :
    Good (finishRun env r st) := by
  refine ⟨h, fun _ => ?_⟩
  simp [finishRun, St.call]

private theorem endRenew_good (c : Config) (env : Env) (r : R Unit) (st : St Unit) (h : st.observedRaw = none) :
    Good (endRenew c env r st) := by
  simp only [endRenew, leader_eq]
  split <;> exact finish_good _ _ _ h

private theorem endPoll_good (c : Config) (env : Env) (r : R Unit) (st : St Unit) (h : st.observedRaw = none) :
    Good (endPoll c env r st) := by
  simp only [endPoll, report_eq]
  exact endRenew_good _ _ _ _ h

private theorem endRenew_calls (c : Config) (env : Env) (r : R Unit) (st : St Unit) :
    (endRenew c env r st).1.calls = st.calls ++ [.cancelStarted, .stopped] := by
  simp only [endRenew, leader_eq]
  split <;> simp [finishRun, St.call]

private theorem endPoll_calls (c : Config) (env : Env) (r : R Unit) (st : St Unit) :
    (endPoll c env r st).1.calls = st.calls ++ [.cancelStarted, .stopped] := by
  simp only [endPoll, report_eq]
  exact endRenew_calls _ _ _ _

private theorem afterGet_eq (c : Config) (env : Env) (a : R (Option Rec × Raw)) (st : St Unit)
    (h : st.observedRaw = none) :
    afterGet c env a st = (st.call .get, match a with
      | .raise .cancelled => .ends (.raise .cancelled)
      | .raise _ => .ends (.ret false)
      | .running => .ends .running
      | .ret (none, _) => .create (newRecord c env (env.now st.calls.length))
      | .ret (some _, _) => .ends (.raise .attributeError)) := by
  rcases st with ⟨_, _, _, _, _, _⟩
  cases h
  rcases a with ⟨_ | _, _⟩ | e | _
  · rfl
  · rfl
  · cases e <;> rfl
  · rfl

/-- A step of an elector leaves it in such a state, and it starts to lead only when its `create` has succeeded. -/
private theorem resume_good (c : Config) (env : Env) (pc : Pc) (a : Ans) (st : St Unit) (h : Good (st, pc)) :
    Good (resume c env pc a st) ∧
    (.started ∈ (resume c env pc a st).1.calls →
      .started ∈ st.calls ∨ ∃ r, pc = .acqCreate r ∧ a = .did (.ret ())) := by
  obtain ⟨h1, h2⟩ := h
  simp only at h1
  have same : Good (st, pc) ∧ (.started ∈ st.calls →
      .started ∈ st.calls ∨ ∃ r, pc = .acqCreate r ∧ a = .did (.ret ())) := ⟨⟨h1, h2⟩, Or.inl⟩
  cases pc with
  | acqGet =>
    cases a with
    | got a =>
      simp only at h2
      simp only [resume, afterGet_eq c env a st h1]
      have hg : Call.started ∉ (st.call .get).calls ∧ Call.stopped ∉ (st.call .get).calls := by simp [St.call, h2]
      rcases a with ⟨_ | _, _⟩ | e | _
      · exact ⟨⟨h1, hg⟩, fun h => absurd h hg.1⟩
      · exact ⟨⟨h1, fun h => absurd h hg.1⟩, fun h => absurd h hg.1⟩
      · cases e <;> simp only [acqTried, report_eq, endAcquire] <;>
          exact ⟨⟨h1, fun h => absurd h hg.1⟩, fun h => absurd h hg.1⟩
      · exact ⟨⟨h1, fun h => absurd h hg.1⟩, fun h => absurd h hg.1⟩
    | did a => exact same
    | slept b => exact same
  | acqCreate r =>
    cases a with
    | got a => exact same
    | did a =>
      simp only at h2
      simp only [resume]
      have hg : Call.started ∉ (st.call (.create r)).calls ∧ Call.stopped ∉ (st.call (.create r)).calls := by
        simp [St.call, h2]
      simp only [afterWrite]
      rcases a with u | e | _
      · simp only [acqTried, report_eq, endAcquire]
        refine ⟨⟨h1, ?_⟩, fun _ => Or.inr ⟨r, rfl, trivial⟩⟩
        show Leading (st.calls ++ [.create r] ++ [.started])
        simp [Leading, h2]
      · cases e <;> simp only [acqTried, report_eq, endAcquire] <;>
          exact ⟨⟨h1, fun h => absurd h hg.1⟩, fun h => absurd h hg.1⟩
      · exact ⟨⟨h1, fun h => absurd h hg.1⟩, fun h => absurd h hg.1⟩
    | slept b => exact same
  | renGet =>
    cases a with
    | got a =>
      simp only at h2
      refine ⟨?_, fun _ => Or.inl h2.1⟩
      simp only [resume, afterGet_eq c env a st h1]
      have hg : Leading (st.call .get).calls := by simp [Leading, St.call, h2.1, h2.2]
      rcases a with ⟨_ | _, _⟩ | e | _
      · exact ⟨h1, hg⟩
      · exact endPoll_good _ _ _ _ h1
      · cases e <;> first
          | exact endPoll_good _ _ _ _ h1
          | exact ⟨h1, hg⟩
      · exact endPoll_good _ _ _ _ h1
    | did a => exact same
    | slept b => exact same
  | renCreate r =>
    cases a with
    | got a => exact same
    | did a =>
      simp only at h2
      refine ⟨?_, fun _ => Or.inl h2.1⟩
      simp only [resume, afterWrite]
      have hg : Leading (st.call (.create r)).calls := by simp [Leading, St.call, h2.1, h2.2]
      rcases a with u | e | _
      · exact endPoll_good _ _ _ _ h1
      · cases e <;> first
          | exact endPoll_good _ _ _ _ h1
          | exact ⟨h1, hg⟩
      · exact endPoll_good _ _ _ _ h1
    | slept b => exact same
  | pollSleep =>
    cases a with
    | got a => exact same
    | did a => exact same
    | slept b =>
      simp only at h2
      refine ⟨?_, fun _ => Or.inl h2.1⟩
      simp only [resume]
      split
      · exact endPoll_good _ _ _ _ h1
      · exact ⟨h1, by simp [Leading, St.call, h2.1, h2.2]⟩
  | over r => cases a <;> exact same
  | acqUpdate r => exact absurd h2 id
  | acqSleep => exact absurd h2 id
  | renUpdate r => exact absurd h2 id
  | renSleep => exact absurd h2 id
  | releasing r res => exact absurd h2 id

private theorem good_exec (c : Nat → Config) (L : Nat → Lock σ) (env : Nat → Env) (ms : List (Move σ)) :
    ∀ w : World2 σ, (∀ i, Good (w.els i)) → ∀ i, Good ((w.exec c L env ms).els i) := by
  induction ms with
  | nil => intro w h; exact h
  | cons m ms ih =>
    intro w h
    refine ih _ fun i => ?_
    cases m with
    | outside g => exact h i
    | go j f b =>
      simp only [World2.step]
      split
      · exact (resume_good _ _ _ _ _ (h j)).1
      · exact h i

private theorem good_start (s : σ) (i : Nat) : Good ((World2.start s).els i) :=
  ⟨rfl, by simp [World2.start, init]⟩

/-! ### At most one -/

private theorem apply_get {L : Lock σ} {there : σ → Prop} (h : Exclusive L there) (f : Fate) (s : σ) (ht : there s) :
    there (f.apply L.get s).1 := by
  cases f
  · exact h.get s ht
  · exact ht
  · exact h.get s ht

private theorem apply_create {L : Lock σ} {there : σ → Prop} (h : Exclusive L there) (f : Fate) (r : Rec) (s : σ)
    (ht : there s) : there (f.apply (L.create r) s).1 := by
  cases f
  · exact h.create r s ht
  · exact ht
  · exact h.create r s ht

private theorem apply_update {L : Lock σ} {there : σ → Prop} (h : Exclusive L there) (f : Fate) (r : Rec) (s : σ)
    (ht : there s) : there (f.apply (L.update r) s).1 := by
  cases f
  · exact h.update r s ht
  · exact ht
  · exact h.update r s ht

/-- The record stays. -/
private theorem there_step {c : Nat → Config} {L : Nat → Lock σ} {env : Nat → Env} {there : σ → Prop}
    (hL : ∀ i, Exclusive (L i) there) (w : World2 σ) (m : Move σ) (hm : m.Keeps there) (h : there w.lock) :
    there (w.step c L env m).lock := by
  cases m with
  | outside g => exact hm _ h
  | go i f b =>
    simp only [World2.step]
    split
    · exact apply_get (hL i) f _ h
    · exact apply_get (hL i) f _ h
    · exact apply_create (hL i) f _ _ h
    · exact apply_create (hL i) f _ _ h
    · exact apply_update (hL i) f _ _ h
    · exact apply_update (hL i) f _ _ h
    · exact apply_update (hL i) f _ _ h
    · exact h

/-- When an elector starts to lead, there was no record and there is one now. -/
private theorem started_step {c : Nat → Config} {L : Nat → Lock σ} {env : Nat → Env} {there : σ → Prop}
    (hL : ∀ i, Exclusive (L i) there) (w : World2 σ) (hg : ∀ i, Good (w.els i)) (m : Move σ) (i : Nat)
    (h : .started ∈ ((w.step c L env m).els i).1.calls) :
    .started ∈ (w.els i).1.calls ∨
      (¬ there w.lock ∧ there (w.step c L env m).lock ∧ ∃ f b, m = .go i f b) := by
  cases m with
  | outside g => exact Or.inl h
  | go j f b =>
    simp only [World2.step] at h ⊢
    by_cases hij : i = j
    · subst hij
      simp only [if_true] at h
      rcases (resume_good _ _ _ _ _ (hg i)).2 h with h | ⟨r, hp, ha⟩
      · exact Or.inl h
      · refine Or.inr ?_
        rw [hp] at ha ⊢
        simp only at ha ⊢
        cases f with
        | fine =>
          simp only [Fate.apply, Ans.did.injEq] at ha ⊢
          exact ⟨fun ht => (hL i).refuses r _ ht ha, (hL i).makes r _ ha, _, _, rfl⟩
        | fails e => simp [Fate.apply] at ha
        | lost e => simp [Fate.apply] at ha
    · rw [if_neg hij] at h
      exact Or.inl h

private theorem one_exec {c : Nat → Config} {L : Nat → Lock σ} {env : Nat → Env} {there : σ → Prop}
    (hL : ∀ i, Exclusive (L i) there) (ms : List (Move σ)) :
    ∀ w : World2 σ, (∀ m ∈ ms, m.Keeps there) → (∀ i, Good (w.els i)) →
    (∀ i, .started ∈ (w.els i).1.calls → there w.lock ∧ ∀ j, .started ∈ (w.els j).1.calls → i = j) →
    ∀ i j, .started ∈ ((w.exec c L env ms).els i).1.calls → .started ∈ ((w.exec c L env ms).els j).1.calls → i = j := by
  induction ms with
  | nil => intro w _ _ h i j hi hj; exact (h i hi).2 j hj
  | cons m ms ih =>
    intro w hk hg h
    refine ih _ (fun m' hm' => hk m' (List.mem_cons_of_mem _ hm'))
      (fun i => good_exec c L env [m] w hg i) fun i hi => ?_
    have km := hk m List.mem_cons_self
    rcases started_step hL w hg m i hi with h1 | ⟨h1, h2, f, b, rfl⟩
    · have ht := (h i h1).1
      refine ⟨there_step hL w m km ht, fun j hj => ?_⟩
      rcases started_step hL w hg m j hj with h3 | ⟨h3, _⟩
      · exact (h i h1).2 j h3
      · exact absurd ht h3
    · refine ⟨h2, fun j hj => ?_⟩
      rcases started_step hL w hg _ j hj with h3 | ⟨_, _, f', b', h4⟩
      · exact absurd (h j h3).1 h1
      · cases h4; rfl

/-- **C106**: if nobody removes the record, at most one of all the electors ever leads - however many there are, however
their calls interleave, fail or lose their answers, whatever the clocks say. -/
theorem C106_one_partial (c : Nat → Config) (L : Nat → Lock σ) (env : Nat → Env) (there : σ → Prop)
    (hL : ∀ i, Exclusive (L i) there) (s : σ) (ms : List (Move σ)) (hk : ∀ m ∈ ms, m.Keeps there) (i j : Nat)
    (hi : .started ∈ (((World2.start s).exec c L env ms).els i).1.calls)
    (hj : .started ∈ (((World2.start s).exec c L env ms).els j).1.calls) : i = j :=
  one_exec hL ms (World2.start s) hk (good_start s) (fun i hi => by simp [World2.start, init] at hi) i j hi hj

/-- The lock with one record is such a lock. -/
theorem recordLock_exclusive (raw : Rec → Raw) : Exclusive (recordLock raw) (fun s => s ≠ none) where
  get s h := h
  create r s h := by cases s <;> simp_all [recordLock]
  update r s h := by cases s <;> simp_all [recordLock]
  refuses r s h := by cases s <;> simp_all [recordLock]
  makes r s h := by cases s <;> simp_all [recordLock]

/-- **C106 (a record).** So for electors that share a record which nobody else removes. -/
theorem C106_record_partial (c : Nat → Config) (raw : Rec → Raw) (env : Nat → Env) (s : Option Rec)
    (ms : List (Move (Option Rec))) (hk : ∀ m ∈ ms, m.Keeps fun s => s ≠ none) (i j : Nat)
    (hi : .started ∈ (((World2.start s).exec c (fun _ => recordLock raw) env ms).els i).1.calls)
    (hj : .started ∈ (((World2.start s).exec c (fun _ => recordLock raw) env ms).els j).1.calls) : i = j :=
  C106_one_partial c _ env _ (fun _ => recordLock_exclusive raw) s ms hk i j hi hj

/-- **C106**: a call of one client's lock does with the server and with what this client keeps what the call of the lock
alone does, and it leaves what the other clients keep. -/
theorem C106_clients (loads : Str → Option Rec) (dumps : Rec → Str) (i j : Nat) (hij : j ≠ i) (r : Rec) (w : World) :
    let L := configMapLock loads dumps
    let own : Cluster := ⟨w.server, w.next, w.cms i⟩
    let view (v : World) (k : Nat) : Cluster := ⟨v.server, v.next, v.cms k⟩
    (view ((clientLock loads dumps i).get w).1 i = (L.get own).1 ∧
      ((clientLock loads dumps i).get w).2 = (L.get own).2 ∧ ((clientLock loads dumps i).get w).1.cms j = w.cms j) ∧
    (view ((clientLock loads dumps i).create r w).1 i = (L.create r own).1 ∧
      ((clientLock loads dumps i).create r w).2 = (L.create r own).2 ∧
      ((clientLock loads dumps i).create r w).1.cms j = w.cms j) ∧
    (view ((clientLock loads dumps i).update r w).1 i = (L.update r own).1 ∧
      ((clientLock loads dumps i).update r w).2 = (L.update r own).2 ∧
      ((clientLock loads dumps i).update r w).1.cms j = w.cms j) := by
  simp [clientLock, hij]

/-- So are the `ConfigMapLock`s of several clients. -/
theorem clientLock_exclusive (loads : Str → Option Rec) (dumps : Rec → Str) (i : Nat) :
    Exclusive (clientLock loads dumps i) (fun w => w.server ≠ none) where
  get w h := by
    rcases w with ⟨_ | m, nx, cms⟩
    · exact absurd rfl h
    · simp [clientLock, configMapLock]
  create r w h := by
    rcases w with ⟨_ | m, nx, cms⟩
    · exact absurd rfl h
    · simp [clientLock, configMapLock]
  update r w h := by
    rcases w with ⟨_ | m, nx, cms⟩
    · exact absurd rfl h
    · simp only [clientLock, configMapLock]
      split
      · simp
      · split
        · simp
        · split <;> simp
  refuses r w h := by
    rcases w with ⟨_ | m, nx, cms⟩
    · exact absurd rfl h
    · simp [clientLock, configMapLock]
  makes r w h := by
    rcases w with ⟨_ | m, nx, cms⟩
    · simp [clientLock, configMapLock]
    · simp [clientLock, configMapLock] at h

/-- Two electors with the lock with one record: the second is too late. -/
example (c : Nat → Config) (env : Nat → Env) (raw : Rec → Raw) :
    let ms : List (Move (Option Rec)) :=
      [.go 0 .fine false, .go 1 .fine false, .go 1 .fine false, .go 0 .fine false, .go 0 .fine false]
    let w := (World2.start none).exec c (fun _ => recordLock raw) env ms
    (∀ m ∈ ms, m.Keeps (fun s : Option Rec => s ≠ none)) ∧ Leading (w.els 1).1.calls ∧
      .started ∉ (w.els 0).1.calls := by
  refine ⟨by simp [Move.Keeps], ?_, ?_⟩
  · refine ⟨?_, ?_⟩ <;>
      simp [World2.exec, World2.step, World2.start, init, resume, afterGet, afterWrite, Fate.apply, recordLock,
        acqTried, report_eq, endAcquire, St.call]
  · simp [World2.exec, World2.step, World2.start, init, resume, afterGet, afterWrite, Fate.apply, recordLock,
        acqTried, report_eq, endAcquire, St.call]

/-! ### `ConfigMapLock` -/

/-- An elector with a `ConfigMapLock` calls `create` only if it has found the ConfigMap. -/
private theorem found_step {c : Nat → Config} {env : Nat → Env} (loads : Str → Option Rec) (dumps : Rec → Str)
    (w : World2 World) (hg : ∀ i, Good (w.els i)) (m : Move World)
    (hm : m.Keeps (fun w : World => w.server ≠ none))
    (h : ∀ i r, (w.els i).2 = .acqCreate r → w.lock.server ≠ none) (i : Nat) (r : Rec)
    (hp : ((w.step c (clientLock loads dumps) env m).els i).2 = .acqCreate r) :
    (w.step c (clientLock loads dumps) env m).lock.server ≠ none := by
  have hL := fun i => clientLock_exclusive loads dumps i
  by_cases hs : w.lock.server = none
  swap
  · exact there_step hL w m hm hs
  exfalso
  have no : ∀ i r, (w.els i).2 ≠ .acqCreate r := fun i r h' => h i r h' hs
  cases m with
  | outside g => exact no i r hp
  | go j f b =>
    simp only [World2.step] at hp
    by_cases hij : i = j
    swap
    · rw [if_neg hij] at hp; exact no i r hp
    subst hij
    simp only [if_true] at hp
    obtain ⟨g1, g2⟩ := hg i
    generalize (w.els i).1 = st at hp g1 g2
    generalize hpc : (w.els i).2 = pc at hp g2
    cases pc with
    | acqGet =>
      simp only [resume] at hp
      have ha : ∃ e, (f.apply (clientLock loads dumps i).get w.lock).2 = .raise e := by
        cases f with
        | fine => exact ⟨.other 404, by simp [Fate.apply, clientLock, configMapLock, hs]⟩
        | fails e => exact ⟨e, rfl⟩
        | lost e => exact ⟨e, rfl⟩
      obtain ⟨e, he⟩ := ha
      rw [he, afterGet_eq _ _ _ _ g1] at hp
      cases e <;> simp [acqTried, report_eq, endAcquire] at hp
    | acqCreate r' => exact no i r' hpc
    | renGet =>
      simp only [resume] at hp
      generalize (f.apply (clientLock loads dumps i).get w.lock).2 = a at hp
      rw [afterGet_eq _ _ _ _ g1] at hp
      have key : ∀ x y, (endPoll (c i) (env i) x y : St Unit × Pc).2 ≠ .acqCreate r := by
        intro x y hq
        simp only [endPoll, report_eq, endRenew, leader_eq] at hq
        split at hq <;> simp [finishRun] at hq
      rcases a with ⟨_ | _, _⟩ | e | _
      · simp at hp
      · exact key _ _ hp
      · cases e <;> first
          | exact key _ _ hp
          | simp [renTried] at hp
      · exact key _ _ hp
    | renCreate r' =>
      simp only [resume, afterWrite] at hp
      generalize (f.apply ((clientLock loads dumps i).create r') w.lock).2 = a at hp
      have key : ∀ x y, (endPoll (c i) (env i) x y : St Unit × Pc).2 ≠ .acqCreate r := by
        intro x y hq
        simp only [endPoll, report_eq, endRenew, leader_eq] at hq
        split at hq <;> simp [finishRun] at hq
      rcases a with u | e | _
      · exact key _ _ hp
      · cases e <;> first
          | exact key _ _ hp
          | simp [renTried] at hp
      · exact key _ _ hp
    | pollSleep =>
      simp only [resume] at hp
      have key : ∀ x y, (endPoll (c i) (env i) x y : St Unit × Pc).2 ≠ .acqCreate r := by
        intro x y hq
        simp only [endPoll, report_eq, endRenew, leader_eq] at hq
        split at hq <;> simp [finishRun] at hq
      split at hp
      · exact key _ _ hp
      · simp at hp
    | over res => simp [resume] at hp
    | acqUpdate r => exact absurd g2 id
    | acqSleep => exact absurd g2 id
    | renUpdate r => exact absurd g2 id
    | renSleep => exact absurd g2 id
    | releasing r res => exact absurd g2 id

/-- **C106**: with `ConfigMapLock`s, as long as nobody deletes the ConfigMap, no elector ever leads at all, however
many there are and however their calls interleave: an elector creates only after it has found the ConfigMap. -/
theorem C106_configmap (loads : Str → Option Rec) (dumps : Rec → Str) (c : Nat → Config) (env : Nat → Env)
    (w : World) (ms : List (Move World)) (hk : ∀ m ∈ ms, m.Keeps (fun w : World => w.server ≠ none)) (i : Nat) :
    .started ∉ (((World2.start w).exec c (clientLock loads dumps) env ms).els i).1.calls := by
  have key : ∀ (ms : List (Move World)) (w : World2 World), (∀ m ∈ ms, m.Keeps (fun w : World => w.server ≠ none)) →
      (∀ i, Good (w.els i)) → (∀ i r, (w.els i).2 = .acqCreate r → w.lock.server ≠ none) →
      (∀ i, .started ∉ (w.els i).1.calls) →
      ∀ i, .started ∉ ((w.exec c (clientLock loads dumps) env ms).els i).1.calls := by
    intro ms
    induction ms with
    | nil => intro w _ _ _ h; exact h
    | cons m ms ih =>
      intro w hk hg hf h
      refine ih _ (fun m' hm' => hk m' (List.mem_cons_of_mem _ hm'))
        (fun i => good_exec c (clientLock loads dumps) env [m] w hg i)
        (found_step loads dumps w hg m (hk m List.mem_cons_self) hf) fun i hi => ?_
      cases m with
      | outside g => exact h i hi
      | go j f b =>
        simp only [World2.step] at hi
        by_cases hij : i = j
        swap
        · rw [if_neg hij] at hi; exact h i hi
        subst hij
        simp only [if_true] at hi
        rcases (resume_good _ _ _ _ _ (hg i)).2 hi with hi | ⟨r, hp, ha⟩
        · exact h i hi
        · have hs := hf i r hp
          rw [hp] at ha
          simp only at ha
          cases f with
          | fine =>
            simp only [Fate.apply, Ans.did.injEq] at ha
            exact (clientLock_exclusive loads dumps i).refuses r _ hs ha
          | fails e => simp [Fate.apply] at ha
          | lost e => simp [Fate.apply] at ha
  exact key ms (World2.start w) hk (good_start w) (fun i r h => by simp [World2.start] at h)
    (fun i h => by simp [World2.start, init] at h) i

/-- The ConfigMap is there without a record: `create` is tried, and refused. -/
example (loads : Str → Option Rec) (dumps : Rec → Str) (c : Nat → Config) (env : Nat → Env) :
    let w := (World2.start (World.fresh (some none))).exec c (clientLock loads dumps) env
      [.go 0 .fine false, .go 0 .fine false]
    (w.els 0).1.calls = [.get, .create (newRecord (c 0) (env 0) ((env 0).now 0))] := by
  simp [World2.exec, World2.step, World2.start, World.fresh, init, resume, afterGet, afterWrite, Fate.apply,
    clientLock, configMapLock, parse, acqTried, report_eq, endAcquire, St.call]

/-! ### Two at once -/

/-- The rounds in which the reads of elector 0 fail. -/
private def failing (k : Nat) : List (Move (Option Rec)) :=
  (List.replicate k [Move.go 0 (.fails (.other 500)) false, .go 0 .fine false]).flatten

/-- **C106, refuted**: an elector leads, the record is removed, another one creates it and leads too; and as long as
the reads of the first one fail - for any number of rounds, past every deadline - both lead. -/
theorem C106_refuted (c : Nat → Config) (env : Nat → Env) (raw : Rec → Raw) (k : Nat) :
    let w := (World2.start none).exec c (fun _ => recordLock raw) env
      ([.go 0 .fine false, .go 0 .fine false, .outside (fun _ => none), .go 1 .fine false, .go 1 .fine false] ++
        failing k)
    Leading (w.els 0).1.calls ∧ Leading (w.els 1).1.calls := by
  intro w
  have app : ∀ (as bs : List (Move (Option Rec))) (w : World2 (Option Rec)),
      w.exec c (fun _ => recordLock raw) env (as ++ bs)
        = (w.exec c (fun _ => recordLock raw) env as).exec c (fun _ => recordLock raw) env bs := by
    intro as
    induction as with
    | nil => intro bs w; rfl
    | cons a as ih => intro bs w; exact ih bs _
  have key : ∀ (k : Nat) (w : World2 (Option Rec)), Good (w.els 0) → (w.els 0).2 = .renGet →
      Leading (w.els 1).1.calls →
      Leading ((w.exec c (fun _ => recordLock raw) env (failing k)).els 0).1.calls ∧
      Leading ((w.exec c (fun _ => recordLock raw) env (failing k)).els 1).1.calls := by
    intro k
    induction k with
    | zero =>
      intro w hg hp h1
      obtain ⟨_, g2⟩ := hg
      rw [hp] at g2
      exact ⟨g2, h1⟩
    | succ k ih =>
      intro w hg hp h1
      have e : failing (k + 1) = [Move.go 0 (.fails (.other 500)) false, .go 0 .fine false] ++ failing k := by
        simp [failing, List.replicate_succ]
      rw [e, app]
      obtain ⟨g1, g2⟩ := hg
      rw [hp] at g2
      simp only at g2
      have e2 : (w.exec c (fun _ => recordLock raw) env [Move.go 0 (.fails (.other 500)) false, .go 0 .fine false]).els 0
          = (((w.els 0).1.call .get).call .sleep, .renGet) := by
        simp [World2.exec, World2.step, hp, resume, afterGet_eq _ _ _ _ g1, Fate.apply, renTried]
      have e3 : (w.exec c (fun _ => recordLock raw) env [Move.go 0 (.fails (.other 500)) false, .go 0 .fine false]).els 1
          = w.els 1 := by
        simp [World2.exec, World2.step]
      refine ih _ ?_ ?_ ?_
      · rw [e2]
        refine ⟨g1, ?_⟩
        have := g2.1
        have := g2.2
        simp_all [Leading, St.call]
      · rw [e2]
      · rw [e3]; exact h1
  show Leading ((World2.exec c _ env _ (_ ++ failing k)).els 0).1.calls ∧
    Leading ((World2.exec c _ env _ (_ ++ failing k)).els 1).1.calls
  rw [app]
  refine key k _ ?_ ?_ ?_
  · exact good_exec _ _ _ _ _ (good_start _) 0
  · simp [World2.exec, World2.step, World2.start, init, resume, afterGet, afterWrite, Fate.apply, recordLock,
      acqTried, report_eq, endAcquire, St.call]
  · refine ⟨?_, ?_⟩ <;>
      simp [World2.exec, World2.step, World2.start, init, resume, afterGet, afterWrite, Fate.apply, recordLock,
        acqTried, report_eq, endAcquire, St.call]

/-- **C106**: what is left when records are removed: whatever has happened, a leading elector whose read succeeds and
finds a record - its own or another's - or whose `create` succeeds, leads no more. -/
theorem C106_reads_partial (c : Nat → Config) (L : Nat → Lock σ) (env : Nat → Env) (s : σ) (ms : List (Move σ))
    (i : Nat) (b : Bool) :
    let w := (World2.start s).exec c L env ms
    let w' := w.step c L env (.go i .fine b)
    Leading (w.els i).1.calls →
    ((w.els i).2 = .renGet ∧ (∃ r raw, ((L i).get w.lock).2 = .ret (some r, raw)) ∨
      ∃ r, (w.els i).2 = .renCreate r ∧ ((L i).create r w.lock).2 = .ret ()) →
    (w'.els i).1.calls.getLast? = some .stopped ∧ ∃ res, (w'.els i).2 = .over res := by
  intro w w' _ h
  have hg : Good (w.els i) := good_exec c L env ms _ (good_start s) i
  have fin : ∀ x y, (endPoll (c i) (env i) x y : St Unit × Pc).1.calls.getLast? = some .stopped ∧
      ∃ res, (endPoll (c i) (env i) x y : St Unit × Pc).2 = .over res := by
    intro x y
    refine ⟨by rw [endPoll_calls]; simp, ?_⟩
    simp only [endPoll, report_eq, endRenew, leader_eq]
    split <;> exact ⟨_, rfl⟩
  have e : w'.els i = resume (c i) (env i) (w.els i).2 (match (w.els i).2 with
      | .acqGet | .renGet => .got ((L i).get w.lock).2
      | .acqCreate r | .renCreate r => .did ((L i).create r w.lock).2
      | .acqUpdate r | .renUpdate r | .releasing r _ => .did ((L i).update r w.lock).2
      | _ => .slept b) (w.els i).1 := by
    simp only [w', World2.step, if_true, Fate.apply]
    cases (w.els i).2 <;> rfl
  rw [e]
  rcases h with ⟨hp, r, raw, ha⟩ | ⟨r, hp, ha⟩
  · rw [hp]
    simp only [ha, resume, afterGet_eq _ _ _ _ hg.1]
    exact fin _ _
  · rw [hp]
    simp only [ha, resume, afterWrite]
    exact fin _ _

/-- The first elector of `C106_refuted`, when its read succeeds. -/
example (c : Nat → Config) (env : Nat → Env) (raw : Rec → Raw) :
    let w := (World2.start none).exec c (fun _ => recordLock raw) env
      [.go 0 .fine false, .go 0 .fine false, .outside (fun _ => none), .go 1 .fine false, .go 1 .fine false]
    Leading (w.els 0).1.calls ∧ (w.els 0).2 = .renGet ∧ ∃ r x, ((recordLock raw).get w.lock).2 = .ret (some r, x) := by
  refine ⟨⟨?_, ?_⟩, ?_, ?_⟩ <;>
    simp [World2.exec, World2.step, World2.start, init, resume, afterGet, afterWrite, Fate.apply, recordLock,
      acqTried, report_eq, endAcquire, St.call]

/-! ### The cut model -/

/-- **C106**: an elector that nobody disturbs does here, move for move, what `run` does: the moves end in its end, with
its result, its calls and its effect on the lock. -/
theorem C106_alone (c : Nat → Config) (L : Nat → Lock σ) (env : Nat → Env) (fuel : Nat) (s : σ) (i : Nat) :
    let p := run (c i) (L i) (env i) fuel (init s)
    p.2 ≠ .running →
    ∃ ms : List (Move σ), (∀ m ∈ ms, ∃ b, m = .go i .fine b) ∧
      let w := (World2.start s).exec c L env ms
      w.lock = p.1.lock ∧ (w.els i).1.calls = p.1.calls ∧ (w.els i).2 = .over p.2 ∧
      ∀ j, j ≠ i → w.els j = (World2.start s).els j := by
  intro p h
  have key : ∀ (n : Nat) (w : World2 σ), ∃ ms : List (Move σ), (∀ m ∈ ms, ∃ b, m = .go i .fine b) ∧
      (advance (c i) (L i) (env i))^[n] ((w.els i).1.at w.lock, (w.els i).2)
        = (((w.exec c L env ms).els i).1.at (w.exec c L env ms).lock, ((w.exec c L env ms).els i).2) ∧
      ∀ j, j ≠ i → (w.exec c L env ms).els j = w.els j := by
    intro n
    induction n with
    | zero => intro w; exact ⟨[], by simp, rfl, fun _ _ => rfl⟩
    | succ n ih =>
      intro w
      obtain ⟨ms, h1, h2, h3⟩ := ih (w.step c L env (.go i .fine ((env i).cancelSleep (w.els i).1.calls.length)))
      refine ⟨.go i .fine ((env i).cancelSleep (w.els i).1.calls.length) :: ms, ?_, ?_, ?_⟩
      · intro m hm
        rcases List.mem_cons.1 hm with rfl | hm
        · exact ⟨_, rfl⟩
        · exact h1 m hm
      · rw [Function.iterate_succ_apply]
        have := step_advance c L env w i
        simp only at this
        rw [this]
        exact h2
      · intro j hj
        refine (h3 j hj).trans ?_
        simp [World2.step, hj]
  obtain ⟨n, hn⟩ := leads_run (c := c i) (L := L i) (env := env i) fuel (init s) h
  obtain ⟨ms, h1, h2, h3⟩ := key n (World2.start s)
  refine ⟨ms, h1, ?_⟩
  have e : ((((World2.start s).els i).1.at (World2.start s).lock : St σ), ((World2.start s).els i).2)
      = (init s, .acqGet) := rfl
  rw [e, hn] at h2
  have h2a := congrArg Prod.fst h2
  have h2b := congrArg Prod.snd h2
  refine ⟨(congrArg St.lock h2a).symm, (congrArg St.calls h2a).symm, h2b.symm, h3⟩

/-- An elector that creates the record and finds it again. -/
example (c : Config) (env : Env) (raw : Rec → Raw) (hs : env.stoppedRaises = none) (hc : c.releaseOnCancel = false) :
    (run c (recordLock raw) env 1 (init none)).2 ≠ .running ∧
    .started ∈ (run c (recordLock raw) env 1 (init none)).1.calls := by
  constructor <;>
    simp [run, acquire, tryAcquireOrRenew, recordLock, init, St.call, maybeReport, holderIdentityAttr, renew,
      renewLoop, pollRenew, hs, hc]

end Aiok8s.LeaderElection
