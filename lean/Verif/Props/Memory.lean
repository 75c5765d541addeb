import Verif.Spec.Memory
import Verif.Spec.Spacing
import Verif.Proof.Spacing
import Verif.Props.Controller
import Verif.Props.Fifo
import Mathlib.Data.List.Induction
/-!
# C105: what is gone is forgotten
-/
set_option linter.unusedSimpArgs false
namespace Aiok8s.Controller
open Aiok8s Aiok8s.RateLimiters Aiok8s.Controller.Spec
variable {σ α ε : Type} [DecidableEq α]

/-! ## The limiter -/

private theorem parts_exec (os : List (LimOp α ℚ)) : ∀ (f : Failures α) (b : Bucket), f.WF →
    (∀ p ∈ f, p.2 ≠ 0) →
    ∃ f' b', partsExec partIface [.exp ⟨5 / 1000, 1000, true⟩ f, .bucket ⟨10, 100⟩ b] os
        = [.exp ⟨5 / 1000, 1000, true⟩ f', .bucket ⟨10, 100⟩ b'] ∧ f'.WF ∧
      (∀ x, failures f' x = recentFailures' x os (failures f x)) ∧ ∀ p ∈ f', p.2 ≠ 0 := by
  induction os with
  | nil => intro f b hw h0; exact ⟨f, b, rfl, hw, fun _ => rfl, h0⟩
  | cons o os ih =>
    intro f b hw h0
    cases o with
    | forget y =>
      obtain ⟨f', b', h1, hw', h2, h3⟩ := ih (expForget f y) b (PyDict.WF_del hw _) (by
        intro p hp
        have h4 : (expForget f y).get? p.1 = some p.2 := PyDict.mem_get? (PyDict.WF_del hw y) hp
        simp only [expForget, PyDict.get?_del hw] at h4
        split at h4
        · cases h4
        · exact h0 _ (PyDict.get?_mem h4))
      refine ⟨f', b', h1, hw', ?_, h3⟩
      intro x
      rw [h2, recentFailures']
      simp only [expForget, failures, PyDict.get?_del hw]
      by_cases hy : y = x <;> simp [hy]
    | «when» y now =>
      have hstep : ∃ b'', partsStep partIface
          [.exp ⟨5 / 1000, 1000, true⟩ f, .bucket ⟨10, 100⟩ b] (.when y now)
          = [.exp ⟨5 / 1000, 1000, true⟩ (f.set y (failures f y + 1)), .bucket ⟨10, 100⟩ b''] := by
        simp only [partsStep, maxWhen, callParts, partIface, expWhen]
        cases mulPow ⟨5 / 1000, 1000, true⟩ (failures f y) with
        | none => exact ⟨b, rfl⟩
        | some v => exact ⟨_, rfl⟩
      obtain ⟨b'', hb⟩ := hstep
      obtain ⟨f', b', h1, hw', h2, h3⟩ := ih (f.set y (failures f y + 1)) b'' (PyDict.WF_set hw _ _) (by
        intro p hp
        have h4 := PyDict.mem_get? (PyDict.WF_set hw y (failures f y + 1)) hp
        simp only [PyDict.get?_set] at h4
        split at h4
        · simp only [Option.some.injEq] at h4; omega
        · exact h0 _ (PyDict.get?_mem h4))
      refine ⟨f', b', ?_, hw', ?_, h3⟩
      · simp only [partsExec, hb, h1]
      · intro x
        rw [h2, recentFailures']
        simp only [failures, PyDict.get?_set]
        by_cases hy : y = x
        · subst hy; simp
        · simp [hy]

private theorem partExec_max (I : Iface σ α ε) (os : List (LimOp α ε)) :
    ∀ ss : List σ, partExec (maxIface I) ss os = partsExec I ss os := by
  induction os with
  | nil => intro ss; rfl
  | cons o os ih => intro ss; cases o <;> exact ih _

/-- **C105.** The limiter keeps counters for exactly the items with a retry asked for since their back-off was
last reset, one each. -/
theorem C105_remembered (py38 : Bool) (isReq : α → Bool) (t : ℚ) (n : Nat) (es : List (Ev α ℚ)) :
    (remembered (exec defaultIface py38 isReq (fresh t n) es)).Nodup ∧
    ∀ x, x ∈ remembered (exec defaultIface py38 isReq (fresh t n) es) ↔
      0 < retries x (logOf defaultIface py38 isReq (fresh t n) es) 0 := by
  have hl : (exec defaultIface py38 isReq (fresh t n) es).rq.lim = _ :=
    C56_limiter defaultIface py38 isReq defaultParts t n es
  rw [defaultIface, partExec_max] at hl
  obtain ⟨f, b, h1, hw, h2, h3⟩ :=
    parts_exec ((logOf defaultIface py38 isReq (fresh t n) es).flatMap limOp) [] bucketInit PyDict.WF_nil
      (by simp)
  have hl' : (exec defaultIface py38 isReq (fresh t n) es).rq.lim =
      [.exp ⟨5 / 1000, 1000, true⟩ f, .bucket ⟨10, 100⟩ b] := hl.trans h1
  have hre : remembered (exec defaultIface py38 isReq (fresh t n) es) = f.keys := by
    simp [remembered, hl', PyDict.keys]
  rw [hre]
  refine ⟨hw, fun x => ?_⟩
  have h4 := h2 x
  rw [recent_retries] at h4
  have h5 : failures ([] : Failures α) x = 0 := rfl
  rw [h5] at h4
  rw [← h4]
  constructor
  · intro hx
    obtain ⟨v, hv⟩ := Option.isSome_iff_exists.1 (PyDict.get?_isSome.2 hx)
    have := h3 _ (PyDict.get?_mem hv)
    simp only [failures, hv, Option.getD_some]
    simp only at this
    omega
  · intro h
    by_contra hx
    rw [failures, PyDict.get?_eq_none.2 hx] at h
    simp at h

/-! ### Who is remembered is around -/

/-- Not about the reconciler. -/
private def quiet : Log α ε → Bool
  | .outcome _ _ _ _ => false
  | .notRequest _ _ => false
  | _ => true

private theorem quiet_retries (x : α) (l : List (Log α ε)) (h : ∀ a ∈ l, quiet a = true) :
    (∀ n, retries x l n = n) ∧ ∀ r, lastOutcome x l r = r := by
  induction l with
  | nil => exact ⟨fun _ => rfl, fun _ => rfl⟩
  | cons a l ih =>
    have ih := ih fun b hb => h b (List.mem_cons_of_mem _ hb)
    have ha := h a (by simp)
    cases a with
    | outcome w y o env => cases ha
    | notRequest w y => cases ha
    | _ => exact ih

private theorem retries_append (x : α) (l l' : List (Log α ε)) :
    ∀ n, retries x (l ++ l') n = retries x l' (retries x l n) := by
  induction l with
  | nil => intro n; rfl
  | cons a l ih => intro n; cases a <;> exact ih _

private theorem lastOutcome_append (x : α) (l l' : List (Log α ε)) :
    ∀ r, lastOutcome x (l ++ l') r = lastOutcome x l' (lastOutcome x l r) := by
  induction l with
  | nil => intro n; rfl
  | cons a l ih => intro n; cases a <;> exact ih _

private theorem quiet_seen (I : Iface σ α ε) (s : State σ α) (e : RateLimitingQueue.Ev α ε) :
    ∀ a ∈ s.seen I e, quiet a = true := by
  intro a ha
  simp only [State.seen, List.mem_map] at ha
  obtain ⟨b, -, rfl⟩ := ha
  rfl

private theorem quiet_finally (I : Iface σ α ε) (py38 : Bool) (s : State σ α) (w : Nat) (x : α) (k : End) :
    ∀ a ∈ (finally_ I py38 s w x k).2, quiet a = true := by
  intro a ha
  simp only [finally_, List.mem_singleton] at ha
  subst ha
  rfl

private theorem quiet_after (I : Iface σ α ε) (py38 : Bool) (s : State σ α) (w : Nat) (x : α) (o : Outcome)
    (env : ε) : ∀ a ∈ (afterReconcile I py38 s w x o env).2, quiet a = true := by
  cases o with
  | cancelled => exact quiet_finally I py38 s w x _
  | bad => exact quiet_finally I py38 s w x _
  | raised =>
    simp only [afterReconcile]
    split
    · exact quiet_finally _ _ _ _ _ _
    · exact quiet_seen _ _ _
  | result q d =>
    simp only [afterReconcile]
    split
    · exact quiet_seen _ _ _
    · split
      · split
        · exact quiet_finally _ _ _ _ _ _
        · exact quiet_seen _ _ _
      · exact quiet_finally _ _ _ _ _ _

private theorem quiet_step (I : Iface σ α ε) (py38 : Bool) (isReq : α → Bool) (s : State σ α) (e : Ev α ε)
    (h1 : ∀ w, e ≠ .take w) (h2 : ∀ w o env, e ≠ .finish w o env) :
    ∀ a ∈ (step I py38 isReq s e).2, quiet a = true := by
  cases e with
  | queue e =>
    simp only [step]
    split
    · exact quiet_seen _ _ _
    · nofun
  | take w => exact absurd rfl (h1 w)
  | finish w o env => exact absurd rfl (h2 w o env)
  | requeued w =>
    simp only [step]
    split
    · exact quiet_finally _ _ _ _ _ _
    · nofun
  | cancelRequeue w =>
    simp only [step]
    split
    · exact quiet_finally _ _ _ _ _ _
    · nofun
  | wake w => simp only [step]; split <;> nofun
  | cancel w => simp only [step]; split <;> nofun

private theorem setPc_other {s : State σ α} {w v : Nat} {p : Pc α} (h : v ≠ w) :
    (s.setPc w p).workers v = s.workers v := by
  simp [State.setPc, h]

private theorem finally_other (I : Iface σ α ε) (py38 : Bool) (s : State σ α) {w v : Nat} (x : α) (k : End)
    (h : v ≠ w) : (finally_ I py38 s w x k).1.workers v = s.workers v := by
  simp [finally_, State.setPc, State.call, h]

private theorem after_other (I : Iface σ α ε) (py38 : Bool) (s : State σ α) {w v : Nat} (x : α) (o : Outcome)
    (env : ε) (h : v ≠ w) : (afterReconcile I py38 s w x o env).1.workers v = s.workers v := by
  cases o with
  | cancelled => exact finally_other I py38 s x _ h
  | bad => exact finally_other I py38 s x _ h
  | raised =>
    simp only [afterReconcile]
    split
    · exact finally_other I py38 _ x _ h
    · exact setPc_other h
  | result q d =>
    simp only [afterReconcile]
    split
    · exact setPc_other h
    · split
      · split
        · exact finally_other I py38 _ x _ h
        · exact setPc_other h
      · exact finally_other I py38 _ x _ h

/-- A reconcile goes on until it ends. -/
private theorem reconciling_step (I : Iface σ α ε) (py38 : Bool) (isReq : α → Bool) (s : State σ α) (e : Ev α ε)
    {v : Nat} {x : α} (h : s.workers v = .reconciling x) (he : ∀ o env, e ≠ .finish v o env) :
    (step I py38 isReq s e).1.workers v = .reconciling x := by
  cases e with
  | queue e => simp only [step]; split <;> exact h
  | take w =>
    simp only [step]
    split
    · rename_i hw
      have hne : v ≠ w := by rintro rfl; rw [h] at hw; cases hw
      split
      · split
        · rw [setPc_other hne]; exact h
        · simp only
          rw [finally_other I py38 _ _ _ hne]
          exact h
      · rw [setPc_other hne]; exact h
      · exact h
    · exact h
  | finish w o env =>
    have hne : v ≠ w := by rintro rfl; exact he o env rfl
    simp only [step]
    split
    · exact (after_other I py38 _ _ _ _ hne).trans h
    · exact h
  | requeued w =>
    simp only [step]
    split
    · rename_i hw
      have hne : v ≠ w := by rintro rfl; rw [h] at hw; cases hw
      exact (finally_other I py38 _ _ _ hne).trans h
    · exact h
  | cancelRequeue w =>
    simp only [step]
    split
    · rename_i hw
      have hne : v ≠ w := by rintro rfl; rw [h] at hw; cases hw
      exact (finally_other I py38 _ _ _ hne).trans h
    · exact h
  | wake w =>
    simp only [step]
    split
    · rename_i hw
      have hne : v ≠ w := by rintro rfl; rw [h] at hw; cases hw
      rw [setPc_other hne]; exact h
    · exact h
  | cancel w =>
    simp only [step]
    split
    · rename_i hw
      have hne : v ≠ w := by rintro rfl; rw [h] at hw; rcases hw with hw | hw <;> cases hw
      rw [setPc_other hne]; exact h
    · exact h

private theorem took_step (I : Iface σ α ε) (py38 : Bool) (isReq : α → Bool) (s : State σ α) (e : Ev α ε)
    {v : Nat} {x : α} (h : .took v x ∈ (step I py38 isReq s e).2) : e = .take v := by
  have seen : ∀ (s : State σ α) k w y, (.took w y : Log α ε) ∉ s.seen I k := by
    intro s k w; simp [State.seen]
  have fin : ∀ (s : State σ α) v y k w z, (.took w z : Log α ε) ∉ (finally_ I py38 s v y k).2 := by
    intro s v y k w; simp [finally_]
  cases e with
  | queue e =>
    simp only [step] at h
    split at h
    · exact absurd h (seen _ _ _ _)
    · cases h
  | take w =>
    simp only [step] at h
    split at h
    · split at h
      · split at h
        · simp at h; rw [h.1]
        · simp only [List.mem_cons] at h
          rcases h with h | h | h
          · cases h; rfl
          · cases h
          · exact absurd h (fin _ _ _ _ _ _)
      · cases h
      · cases h
    · cases h
  | finish w o env =>
    exfalso
    simp only [step] at h
    split at h
    · simp only [List.mem_cons] at h
      rcases h with h | h
      · cases h
      · cases o with
        | cancelled => exact fin _ _ _ _ _ _ h
        | bad => exact fin _ _ _ _ _ _ h
        | raised =>
          simp only [afterReconcile] at h
          split at h
          · exact fin _ _ _ _ _ _ h
          · exact seen _ _ _ _ h
        | result q d =>
          simp only [afterReconcile] at h
          split at h
          · exact seen _ _ _ _ h
          · split at h
            · split at h
              · exact fin _ _ _ _ _ _ h
              · exact seen _ _ _ _ h
            · exact fin _ _ _ _ _ _ h
    · cases h
  | requeued w =>
    simp only [step] at h
    split at h
    · exact absurd h (fin _ _ _ _ _ _)
    · cases h
  | cancelRequeue w =>
    simp only [step] at h
    split at h
    · exact absurd h (fin _ _ _ _ _ _)
    · cases h
  | wake w => simp only [step] at h; split at h <;> cases h
  | cancel w => simp only [step] at h; split at h <;> cases h

private theorem around_iff {s : State σ α} {x : α} :
    Around s x ↔ (∃ w, s.workers w = .reconciling x) ∨ ∃ D, Pending s x D := by
  constructor
  · rintro (h | h | ⟨r, h⟩)
    · exact Or.inl h
    · exact Or.inr ⟨0, Or.inl h⟩
    · exact Or.inr ⟨r, Or.inr ⟨r, le_rfl, h⟩⟩
  · rintro (h | ⟨D, h | ⟨r, -, h⟩⟩)
    · exact Or.inl h
    · exact Or.inr (Or.inl h)
    · exact Or.inr (Or.inr ⟨r, h⟩)

/-- For every limiter that says a delay for the first `L` failures in a row. -/
private theorem kept (I : Iface σ α ε) (py38 : Bool) (isReq : α → Bool) (l : σ) (t : ℚ) (n : Nat) (L : Nat)
    (hL : ∀ (os : List (LimOp α ε)) y env, recentFailures' y os 0 < L →
      ∃ d, (I.when (partExec I l os) y env).2 = .delay d) (x : α) (es : List (Ev α ε)) :
    (∀ e ∈ es, notShutDown e = true) → 0 < retries x (logOf I py38 isReq (init l t n) es) 0 →
    Around (exec I py38 isReq (init l t n) es) x ∨
      lastOutcome x (logOf I py38 isReq (init l t n) es) none = some .bad ∨
      lastOutcome x (logOf I py38 isReq (init l t n) es) none = some .cancelled ∨
      L < retries x (logOf I py38 isReq (init l t n) es) 0 := by
  induction es using List.reverseRecOn with
  | nil => intro _ h; cases h
  | append_singleton es e ih =>
    intro hns hpos
    have hes : ∀ e ∈ es, notShutDown e = true := fun e he => hns e (by simp [he])
    have hne := hns e (by simp)
    have hr : R (exec I py38 isReq (init l t n) es) (phases (exec I py38 isReq (init l t n) es)) :=
      (exec_good I py38 isReq es (init l t n) (R_init l t n)).2
    have hst := stop_exec I py38 isReq es hes (init l t n) rfl
    have hlim := C56_limiter I py38 isReq l t n es
    have hre := recent_retries x (logOf I py38 isReq (init l t n) es) 0
    have hret := fun w o env d => C56_retried_partial I py38 isReq l t n es [] hes (by simp) w x o env d
    replace ih := ih hes
    simp only [exec_snoc, logOf_snoc, retries_append, lastOutcome_append, exec, logOf] at hpos ih hret ⊢
    generalize exec I py38 isReq (init l t n) es = s at *
    generalize logOf I py38 isReq (init l t n) es = lg at *
    -- moves that tell nothing about `x`
    have hq : (∀ n', retries x (step I py38 isReq s e).2 n' = n') →
        (∀ r, lastOutcome x (step I py38 isReq s e).2 r = r) →
        (Around s x → Around (step I py38 isReq s e).1 x) →
        Around (step I py38 isReq s e).1 x ∨
          lastOutcome x (step I py38 isReq s e).2 (lastOutcome x lg none) = some .bad ∨
          lastOutcome x (step I py38 isReq s e).2 (lastOutcome x lg none) = some .cancelled ∨
          L < retries x (step I py38 isReq s e).2 (retries x lg 0) := by
      intro h1 h2 h3
      rw [h1] at hpos
      rw [h1, h2]
      rcases ih hpos with h | h
      · exact Or.inl (h3 h)
      · exact Or.inr h
    -- what is around stays around
    have hstay : (∀ w o env, e ≠ .finish w o env) → (∀ w, .notRequest w x ∉ (step I py38 isReq s e).2) →
        Around s x → Around (step I py38 isReq s e).1 x := by
      intro h1 h2 ha
      rw [around_iff] at ha ⊢
      rcases ha with ⟨w, hw⟩ | ⟨D, hD⟩
      · exact Or.inl ⟨w, reconciling_step I py38 isReq s e hw (fun o env => h1 w o env)⟩
      · rcases (pending_step I py38 isReq hr hst e hne hD).1 with ⟨w, hw⟩ | h
        · have := took_step I py38 isReq s e hw
          subst this
          left
          refine ⟨w, ?_⟩
          simp only [step] at hw h2 ⊢
          split at hw
          · rename_i hidle
            simp only [hidle, if_true] at h2 ⊢
            split at hw
            · rename_i y hy
              simp only [hy] at h2 ⊢
              split at hw
              · rename_i hreq
                simp at hw
                subst hw
                simp [hreq, State.setPc]
              · rename_i hreq
                simp only [List.mem_cons] at hw
                rcases hw with hw | hw | hw
                · cases hw
                  exact absurd (by simp [hreq]) (h2 w)
                · cases hw
                · simp [finally_] at hw
            · cases hw
            · cases hw
          · cases hw
        · exact Or.inr ⟨D, h⟩
    by_cases hfin : ∃ w o env, e = .finish w o env
    · obtain ⟨w, o, env, rfl⟩ := hfin
      cases hw : s.workers w with
      | reconciling y =>
        have hlog : (step I py38 isReq s (.finish w o env)).2 =
            .outcome w y o env :: (afterReconcile I py38 s w y o env).2 := by simp only [step, hw]
        obtain ⟨hq1, hq2⟩ := quiet_retries x _ (quiet_after I py38 s w y o env)
        by_cases hxy : y = x
        · subst hxy
          rw [hlog]
          rw [hlog] at hpos
          simp only [retries, lastOutcome, hq1, hq2, if_true, ne_eq, not_true_eq_false, if_false] at hpos ⊢
          by_cases ho : retry o = true
          · simp only [ho, if_true] at hpos ⊢
            by_cases hlt : retries y lg 0 < L
            · obtain ⟨d, hd⟩ := hL (lg.flatMap limOp) y env (by rw [hre]; exact hlt)
              rw [← hlim] at hd
              rcases hret w o env d hw (Or.inl ⟨ho, hd⟩) with ⟨v, hv⟩ | h
              · cases hv
              · exact Or.inl (around_iff.2 (Or.inr ⟨_, h⟩))
            · exact Or.inr (Or.inr (Or.inr (by omega)))
          · simp only [ho, if_false, Bool.false_eq_true] at hpos ⊢
            cases o with
            | bad => exact Or.inr (Or.inl rfl)
            | cancelled => exact Or.inr (Or.inr (Or.inl rfl))
            | raised => exact absurd rfl ho
            | result q d =>
              have : reset (.result q d) = true := by
                simp only [retry, reset] at ho ⊢
                cases q <;> by_cases hd : d = 0 <;> simp [hd] at ho ⊢
              simp [this] at hpos
        · refine hq ?_ ?_ ?_
          · intro n'
            rw [hlog]
            simp only [retries, hq1, ne_eq, hxy, not_false_eq_true, if_true]
          · intro r
            rw [hlog]
            simp only [lastOutcome, hq2, hxy, if_false]
          · intro ha
            rw [around_iff] at ha ⊢
            rcases ha with ⟨v, hv⟩ | ⟨D, hD⟩
            · have hvw : v ≠ w := by rintro rfl; rw [hw] at hv; cases hv; exact hxy rfl
              exact Or.inl ⟨v, reconciling_step I py38 isReq s _ hv (by
                intro o' env' h; cases h; exact hvw rfl)⟩
            · rcases (pending_step I py38 isReq hr hst _ hne hD).1 with ⟨v, hv⟩ | h
              · exact absurd (took_step I py38 isReq s _ hv) (by nofun)
              · exact Or.inr ⟨D, h⟩
      | _ =>
        have hs : step I py38 isReq s (.finish w o env) = (s, []) := by simp only [step, hw]
        exact hq (by simp [hs, retries]) (by simp [hs, lastOutcome]) (by simp [hs])
    · have hfin' : ∀ w o env, e ≠ .finish w o env := fun w o env h => hfin ⟨w, o, env, h⟩
      by_cases htake : ∃ w, e = .take w
      · obtain ⟨w, rfl⟩ := htake
        have hcase : (∀ a ∈ (step I py38 isReq s (.take w)).2, quiet a = true) ∨
            ∃ y k, (step I py38 isReq s (.take w)).2 = [.took w y, .notRequest w y, .done w y k] := by
          simp only [step]
          split
          · split
            · split
              · left; intro a ha; simp at ha; rcases ha with rfl | rfl <;> rfl
              · right; exact ⟨_, _, rfl⟩
            · left; nofun
            · left; nofun
          · left; nofun
        rcases hcase with hqt | ⟨y, k, hy⟩
        · obtain ⟨hq1, hq2⟩ := quiet_retries x _ hqt
          exact hq hq1 hq2 (hstay hfin' (fun v hv => by have := hqt _ hv; cases this))
        · by_cases hxy : y = x
          · rw [hy] at hpos
            simp [retries, hxy] at hpos
          · refine hq ?_ ?_ (hstay hfin' ?_)
            · intro n'; rw [hy]; simp [retries, hxy]
            · intro r; rw [hy]; simp [lastOutcome]
            · intro v hv
              rw [hy] at hv
              simp at hv
              exact hxy hv.2.symm
      · have hqt := quiet_step I py38 isReq s e (fun w h => htake ⟨w, h⟩) hfin'
        obtain ⟨hq1, hq2⟩ := quiet_retries x _ hqt
        exact hq hq1 hq2 (hstay hfin' (fun v hv => by have := hqt _ hv; cases this))

/-- **C105**, except for what its last outcome left behind: before `shut_down`, an item that the default
limiter remembers is with a worker or waits in the queue, unless the reconciler last ended for it without a
result (it returned something else, or was cancelled), or failed more than 1024 times in a row. -/
theorem C105_limiter_partial (py38 : Bool) (isReq : α → Bool) (t : ℚ) (n : Nat) (es : List (Ev α ℚ))
    (hes : ∀ e ∈ es, notShutDown e = true) (x : α)
    (hx : x ∈ remembered (exec defaultIface py38 isReq (fresh t n) es)) :
    Around (exec defaultIface py38 isReq (fresh t n) es) x ∨
      lastOutcome x (logOf defaultIface py38 isReq (fresh t n) es) none = some .bad ∨
      lastOutcome x (logOf defaultIface py38 isReq (fresh t n) es) none = some .cancelled ∨
      1024 < retries x (logOf defaultIface py38 isReq (fresh t n) es) 0 := by
  refine kept defaultIface py38 isReq defaultParts t n 1024 ?_ x es hes
    (((C105_remembered py38 isReq t n es).2 x).1 hx)
  intro os y env hlt
  rw [defaultIface, partExec_max]
  obtain ⟨f, b, h1, hw, h2, -⟩ := parts_exec os [] bucketInit PyDict.WF_nil (by simp)
  rw [show (defaultParts : List (Part α)) = [.exp ⟨5 / 1000, 1000, true⟩ [], .bucket ⟨10, 100⟩ bucketInit] from rfl,
    h1]
  have h4 := h2 y
  have h5 : failures ([] : Failures α) y = 0 := rfl
  rw [h5] at h4
  have hm : mulPow ⟨5 / 1000, 1000, true⟩ (failures f y) = some (5 / 1000 * 2 ^ failures f y) := by
    simp only [mulPow, h4, Bool.true_and, decide_eq_true_eq]
    rw [if_neg (by omega)]
  simp only [maxIface, maxWhen, callParts, partIface, expWhen, hm, Except.map, pyMax]
  exact ⟨_, rfl⟩

/-- Item 7 fails, is retried after a tenth of a second, and then the reconciler returns `None`. -/
private def sample : List (Ev Nat ℚ) :=
  [.queue (.base (.add 7)), .take 0, .finish 0 .raised 0, .requeued 0, .wake 0, .queue (.putDone 0), .queue .loop,
    .queue .loop, .queue (.wake .item), .queue .loop, .queue .loop, .queue (.tick 1), .queue .loop, .queue .loop,
    .take 0, .finish 0 .bad 1000000000]

private def sampleEnd : State (List (Part Nat)) Nat := exec defaultIface true (fun _ => true) (fresh 0 1) sample

/-- **C105 is false** of the limiter: it can remember an item that no worker has, that waits nowhere, and that
nobody will try again. -/
theorem C105_refuted_limiter : ∃ es : List (Ev Nat ℚ), (∀ e ∈ es, notShutDown e = true) ∧
    let s := exec defaultIface true (fun _ => true) (fresh 0 1) es
    7 ∈ remembered s ∧ ¬ Around s 7 := by
  refine ⟨sample, by decide, ?_⟩
  show 7 ∈ remembered sampleEnd ∧ ¬ Around sampleEnd 7
  have hr : R sampleEnd (phases sampleEnd) :=
    (exec_good defaultIface true _ sample (fresh 0 1) (R_init _ _ _)).2
  have h1 : sampleEnd.rq.q.core.dirty = [] ∧ sampleEnd.rq.q.core.processing = [] ∧ sampleEnd.rq.q.puts = [] ∧
      sampleEnd.rq.q.chan = [] ∧ DelayQueue.hand sampleEnd.rq.q.pc = [] ∧
      sampleEnd.rq.q.heap.finder.get? 7 = none := by decide +kernel
  obtain ⟨h1, h2, h3, h4, h5, h6⟩ := h1
  refine ⟨by decide +kernel, ?_⟩
  rintro (⟨w, hw⟩ | h | ⟨r, h | h | h | h⟩)
  · have := hr.proc w 7 (by simp [phases, phase, hw, Phase.item])
    rw [h2] at this
    cases this
  · rw [h1] at h; cases h
  · rw [h3] at h; cases h
  · rw [h4] at h; cases h
  · rw [h] at h5; cases h5
  · rw [h6] at h; cases h

/-- non-vacuity of `C105_limiter_partial`: after the failure the item is remembered and waits -/
example : 7 ∈ remembered (exec defaultIface true (fun _ => true) (fresh 0 1) (sample.take 6)) ∧
    (∀ e ∈ sample.take 6, notShutDown e = true) := by decide +kernel

end Aiok8s.Controller
namespace Aiok8s.DelayQueue
open Aiok8s.DelayHeap (Entry Sim)
variable {α : Type} [DecidableEq α]

/-! ## The list under the delay heap -/

/-- Entries with a deadline of at least `r`. -/
private def late (r : ℚ) (h : DelayHeap.Heap ℚ α) : Nat := h.pq.countP fun e => r ≤ e.prio

private def lateE (r : ℚ) (l : List (α × ℚ)) : Nat := l.countP fun p => r ≤ p.2

private theorem late_mark (r : ℚ) (pq : List (Entry ℚ α)) (c : Nat) :
    (DelayHeap.mark pq c).countP (fun e => r ≤ e.prio) = pq.countP (fun e => r ≤ e.prio) := by
  simp only [DelayHeap.mark, List.countP_map]
  congr 1
  funext e
  simp only [Function.comp]
  split <;> rfl

private theorem late_insertEntry {h : DelayHeap.Heap ℚ α} (hh : Heapq.IsHeap DelayHeap.less h.pq) (r : ℚ) (x : α)
    (p : ℚ) : late r (DelayHeap.insertEntry h x p) = late r h + if r ≤ p then 1 else 0 := by
  simp only [late, DelayHeap.insertEntry]
  rw [(Heapq.heappush_spec DelayHeap.order_less h.pq _ hh).2.countP_eq, List.countP_cons]
  simp

private theorem late_insert {h : DelayHeap.Heap ℚ α} (hi : DelayHeap.HInv h) (r : ℚ) (x : α) (p : ℚ) :
    late r (DelayHeap.insert h x p) ≤ late r h + if r ≤ p then 1 else 0 := by
  obtain ⟨T, hs⟩ := hi
  simp only [DelayHeap.insert]
  split
  · cases hg : h.finder.get? x with
    | none => simp [DelayHeap.remove, hg]
    | some a =>
      obtain ⟨q, c⟩ := a
      by_cases hq : q > p
      · simp only [DelayHeap.remove, hg, hq, if_true]
        rw [late_insertEntry (DelayHeap.mark_heap _ hs.heap)]
        simp only [late, late_mark, le_refl]
      · simp [DelayHeap.remove, hg, hq]
  · exact (late_insertEntry (h := { h with len := h.len + 1 }) hs.heap r x p).le

private theorem late_peekLoop (r : ℚ) : ∀ (n : Nat) (pq : List (Entry ℚ α)), Heapq.IsHeap DelayHeap.less pq →
    (DelayHeap.peekLoop n pq).1.countP (fun e => r ≤ e.prio) ≤ pq.countP (fun e => r ≤ e.prio) := by
  intro n
  induction n with
  | zero => intro pq _; exact le_rfl
  | succ n ih =>
    intro pq hh
    cases pq with
    | nil => exact le_rfl
    | cons e es =>
      simp only [DelayHeap.peekLoop, List.getElem?_cons_zero]
      cases hd : e.data with
      | some x => exact le_rfl
      | none =>
        obtain ⟨h1, -, h3⟩ := Heapq.heappop_spec DelayHeap.order_less e es hh
        refine (ih _ h1).trans ?_
        rw [h3.countP_eq, List.countP_cons]
        omega

private theorem late_peek {h : DelayHeap.Heap ℚ α} (hi : DelayHeap.HInv h) (r : ℚ) :
    late r (DelayHeap.peek h).1 ≤ late r h := by
  obtain ⟨T, hs⟩ := hi
  exact late_peekLoop r _ _ hs.heap

private theorem late_pop {h : DelayHeap.Heap ℚ α} (hi : DelayHeap.HInv h) (r : ℚ) :
    late r (DelayHeap.pop h).1 ≤ late r h := by
  obtain ⟨T, hs⟩ := hi
  have hpk := late_peekLoop r h.pq.length h.pq hs.heap
  have hsk := DelayHeap.sim_skip _ h (Nat.le_refl _) hs
  simp only [DelayHeap.pop, DelayHeap.popLoop_eq _ h.pq (Nat.le_refl _) hs.heap]
  cases hp : (DelayHeap.peekLoop h.pq.length h.pq).1 with
  | nil => simp [late]
  | cons e es =>
    rw [hp] at hpk
    obtain ⟨p, c, d⟩ := e
    cases d with
    | none =>
      have := (DelayHeap.peekLoop_prio _ h.pq (Nat.le_refl _) hs.heap).2 ⟨p, c, none⟩ (by simp [hp])
      cases this
    | some x =>
      refine le_trans ?_ hpk
      rw [hp] at hsk
      obtain ⟨-, -, g3⟩ := Heapq.heappop_spec DelayHeap.order_less ⟨p, c, some x⟩ es hsk.heap
      simp only [late]
      rw [g3.countP_eq, List.countP_cons]
      omega

/-- Everything held with a deadline of at least `r`, and removed entries. -/
private def total (r : ℚ) (s : State α) : Nat :=
  late r s.heap + lateE r s.chan + lateE r s.puts + lateE r (hand s.pc)

private theorem lateE_cons (r : ℚ) (e : α × ℚ) (l : List (α × ℚ)) :
    lateE r (e :: l) = lateE r l + if r ≤ e.2 then 1 else 0 := by
  simp [lateE, List.countP_cons]

private theorem lateE_append (r : ℚ) (l l' : List (α × ℚ)) : lateE r (l ++ l') = lateE r l + lateE r l' :=
  List.countP_append

private theorem lateE_eraseIdx (r : ℚ) (l : List (α × ℚ)) (i : Nat) (e : α × ℚ) (h : l[i]? = some e) :
    lateE r (l.eraseIdx i) + (if r ≤ e.2 then 1 else 0) = lateE r l := by
  induction l generalizing i with
  | nil => simp at h
  | cons a l ih =>
    cases i with
    | zero =>
      simp only [List.getElem?_cons_zero, Option.some.injEq] at h
      subst h
      rw [lateE_cons, List.eraseIdx_cons_zero]
    | succ i =>
      simp only [List.getElem?_cons_succ] at h
      rw [List.eraseIdx_cons_succ, lateE_cons, lateE_cons, ← ih i h]
      omega

private theorem lateE_eraseIdx_le (r : ℚ) (l : List (α × ℚ)) (i : Nat) : lateE r (l.eraseIdx i) ≤ lateE r l :=
  (List.eraseIdx_sublist l i).countP_le

private theorem file_total {s : State α} (hi : DelayHeap.HInv s.heap) (r : ℚ) (e : α × ℚ) (p : Pc α) :
    late r (file s e).1.heap ≤ late r s.heap + (if r ≤ e.2 then 1 else 0) ∧ (file s e).1.chan = s.chan ∧
      (file s e).1.puts = s.puts ∧ (file s e).1.pc = s.pc ∧ deadlines (file s e).2 = [] := by
  simp only [file]
  split
  · exact ⟨late_insert hi r e.1 e.2, rfl, rfl, rfl, rfl⟩
  · exact ⟨by simp, rfl, rfl, rfl, rfl⟩

private theorem step_total {s : State α} (hb : Base s) (r : ℚ) (e : Ev α) :
    total r (step s e).1 ≤ total r s + (deadlines (step s e).2).countP (fun q => r ≤ q) := by
  have hpk := late_peek hb.heap r
  cases e with
  | tick d => simp only [step]; split <;> simp [total]
  | base o => cases o <;> simp [step, shutDown, total]
  | shutDown => simp [step, shutDown, total]
  | addAfter x d =>
    simp only [step, addAfter]
    split
    · simp
    · split
      · simp [total]
      · have h1 : lateE r [(x, s.clock + d)] = if r ≤ s.clock + d then 1 else 0 := by
          simp [lateE, List.countP_cons]
        have h2 : (deadlines [Log.called x d s.clock]).countP (fun q => r ≤ q) = if r ≤ s.clock + d then 1 else 0 := by
          simp [deadlines, List.countP_cons]
        rw [h2]
        simp only [total, lateE_append, h1]
        omega
  | putDone i =>
    simp only [step]
    split
    · rename_i e he
      split
      · have := lateE_eraseIdx r s.puts i e he
        simp only [total, lateE_append, lateE_cons, deadlines]
        simp only [lateE, List.countP_nil] at this ⊢
        omega
      · simp
    · simp
  | putCancel i =>
    simp only [step]
    split
    · have := lateE_eraseIdx_le r s.puts i
      simp only [total]
      omega
    · simp
  | wake w =>
    simp only [step, wakeStep]
    split
    · rename_i tm hpc
      have h0 : lateE r (hand s.pc) = 0 := by rw [hpc]; rfl
      split
      · split
        · simp only [total, hand, lateE, List.countP_nil]; omega
        · simp
      · simp only [total, hand, lateE, List.countP_nil]; omega
      · split
        · split
          · simp only [total, hand, lateE, List.countP_nil]; omega
          · simp
        · simp
      · split
        · rename_i e rest hch
          simp only [total, h0, hch, lateE_cons, hand]
          simp only [lateE, List.countP_nil]
          omega
        · simp
    · simp
  | loop =>
    simp only [step, loopStep]
    split
    · split <;> (simp only [total, hand, lateE, List.countP_nil]; omega)
    · rename_i now hpc
      split
      · split
        · rename_i hp he
          rw [he] at hpk
          simp only [total, hand, lateE, List.countP_nil] at hpk ⊢
          omega
        · rename_i hp rd he
          rw [he] at hpk
          split
          · simp only [total, hand, lateE, List.countP_nil] at hpk ⊢
            omega
          · have hpi : DelayHeap.HInv hp := by
              obtain ⟨T, hs⟩ := hb.heap
              have := (DelayHeap.sim_peek hs).1
              rw [he] at this
              exact ⟨T, this⟩
            have hpp := late_pop hpi r
            split
            · rename_i hp2 he2
              rw [he2] at hpp
              simp only [total, hand, lateE, List.countP_nil] at hpk hpp ⊢
              omega
            · rename_i hp2 x he2
              rw [he2] at hpp
              simp only [total, hand, lateE, List.countP_nil] at hpk hpp ⊢
              omega
      · simp only [total, hand, lateE, List.countP_nil]
        omega
    · simp
    · rename_i e hpc
      split
      · simp only [total, hand, lateE, List.countP_nil]
        omega
      · cases e with
        | none =>
          simp only [total, hand, lateE, List.countP_nil]
          omega
        | some e =>
          obtain ⟨h1, h2, h3, -, h5⟩ := file_total (s := s) hb.heap r e .draining
          simp only [total, h2, h3, h5, hpc, hand, lateE_cons]
          simp only [lateE, List.countP_nil]
          omega
    · rename_i hpc
      split
      · simp only [total, hand, lateE, List.countP_nil]
        omega
      · rename_i e rest hch
        obtain ⟨h1, h2, h3, h4, h5⟩ := file_total (s := { s with chan := rest }) hb.heap r e .draining
        simp only [total, h2, h3, h4, h5, hch, lateE_cons, List.countP_nil] at h1 ⊢
        omega
    · simp

private theorem exec_total (r : ℚ) (es : List (Ev α)) : ∀ s : State α, Base s →
    total r (exec s es) ≤ total r s + (deadlines (logOf s es)).countP (fun q => r ≤ q) := by
  induction es with
  | nil => intro s _; simp [exec]
  | cons e es ih =>
    intro s hb
    have h1 := step_total hb r e
    have h2 := ih _ (step_effect hb e).2
    have h3 : deadlines (logOf s (e :: es)) = deadlines (step s e).2 ++ deadlines (logOf (step s e).1 es) := by
      simp [deadlines, logOf]
    rw [h3, List.countP_append]
    simp only [exec]
    omega

/-- **C105**, for the list under the delay heap, which keeps removed entries: it never has more entries than
`add_after` was called and accepted; and whenever the delay loop sleeps with something to wait for, every entry
that is still there comes from a call whose deadline is not before the earliest one waited for. -/
theorem C105_heap_partial (t0 : ℚ) (es : List (Ev α)) :
    (exec (init t0) es).heap.pq.length ≤ (deadlines (logOf (init t0) es)).length ∧
    ∀ f, (exec (init t0) es).pc = .sleeping (some f) →
      ∃ x r, InHeap (exec (init t0) es) x r ∧ (∀ y q, InHeap (exec (init t0) es) y q → r ≤ q) ∧
        (exec (init t0) es).heap.pq.length ≤ (deadlines (logOf (init t0) es)).countP (fun q => r ≤ q) := by
  have htot := fun r => exec_total r es (init t0) (base_init t0)
  have h0 : ∀ r, total r (init t0 : State α) = 0 := by intro r; simp [total, init, late, lateE, hand, DelayHeap.init]
  have hall : ∀ (r : ℚ) (pq : List (Entry ℚ α)), (∀ e ∈ pq, r ≤ e.prio) →
      pq.length = pq.countP (fun e => r ≤ e.prio) := by
    intro r pq h
    exact (List.countP_eq_length.2 (by simpa using h)).symm
  constructor
  · obtain ⟨r, hr⟩ : ∃ r : ℚ, ∀ e ∈ (exec (init t0) es).heap.pq, r ≤ e.prio := by
      generalize (exec (init t0) es).heap.pq = l
      induction l with
      | nil => exact ⟨0, by simp⟩
      | cons e l ih =>
        obtain ⟨r, hr⟩ := ih
        refine ⟨min r e.prio, ?_⟩
        intro e' he'
        rcases List.mem_cons.1 he' with rfl | he'
        · exact min_le_right _ _
        · exact (min_le_left _ _).trans (hr e' he')
    have h1 := htot r
    rw [h0] at h1
    have h2 := hall r _ hr
    have h3 : (deadlines (logOf (init t0) es)).countP (fun q => r ≤ q) ≤ (deadlines (logOf (init t0) es)).length :=
      List.countP_le_length
    simp only [total, late] at h1
    omega
  · intro f hf
    -- when the loop goes to sleep, the first entry is alive
    have key : ∀ (es : List (Ev α)) (s : State α), Base s →
        (∀ f, s.pc = .sleeping (some f) → ∃ x r, InHeap s x r ∧ (∀ y q, InHeap s y q → r ≤ q) ∧
          ∀ e ∈ s.heap.pq, r ≤ e.prio) →
        ∀ f, (exec s es).pc = .sleeping (some f) → ∃ x r, InHeap (exec s es) x r ∧
          (∀ y q, InHeap (exec s es) y q → r ≤ q) ∧ ∀ e ∈ (exec s es).heap.pq, r ≤ e.prio := by
      intro es
      induction es with
      | nil => intro s _ h; exact h
      | cons e es ih =>
        intro s hb h
        refine ih _ (step_effect hb e).2 ?_
        by_cases he : e = .loop
        · subst he
          intro f hf
          simp only [step, loopStep] at hf ⊢
          split at hf
          · split at hf <;> cases hf
          · split at hf
            · rename_i hne
              split at hf
              · cases hf
              · rename_i hp rd hpk
                split at hf
                · rename_i hrd
                  obtain ⟨T, hs⟩ := hb.heap
                  obtain ⟨hs', hbest⟩ := DelayHeap.sim_peek hs
                  rw [hpk] at hs' hbest
                  simp only [hne, ne_eq, not_false_eq_true, if_true, hpk, hrd]
                  obtain ⟨g1, g2⟩ := DelayHeap.peekLoop_prio _ s.heap.pq (Nat.le_refl _) hs.heap
                  have hp1 : hp.pq = (DelayHeap.peekLoop s.heap.pq.length s.heap.pq).1 := by
                    have : (DelayHeap.peek s.heap).1 = hp := by rw [hpk]
                    rw [← this]; rfl
                  have hp2 : some rd = (DelayHeap.peekLoop s.heap.pq.length s.heap.pq).2 := by
                    have : (DelayHeap.peek s.heap).2 = some rd := by rw [hpk]
                    rw [← this]; rfl
                  rw [← hp1] at g1 g2
                  rw [← hp2] at g1
                  cases hpq : hp.pq with
                  | nil => rw [hpq] at g1; cases g1
                  | cons e0 es0 =>
                    rw [hpq] at g1 g2
                    simp only [List.head?_cons, Option.map_some, Option.some.injEq] at g1
                    obtain ⟨x, hx⟩ := Option.isSome_iff_exists.1 (g2 e0 (by simp))
                    have hall' : ∀ e ∈ hp.pq, rd ≤ e.prio := by
                      intro e he
                      obtain ⟨i, hi, rfl⟩ := List.mem_iff_getElem.1 he
                      by_cases hi0 : i = 0
                      · subst hi0
                        simp only [hpq, List.getElem_cons_zero, g1, le_refl]
                      · have h1 := Heapq.root_least DelayHeap.order_less hp.pq hs'.heap (by omega) i hi (by omega)
                        have h2 : hp.pq[0] = e0 := by simp only [hpq, List.getElem_cons_zero]
                        rw [h2] at h1
                        rw [g1]
                        by_contra hlt
                        have : DelayHeap.less hp.pq[i] e0 = true := by
                          rw [DelayHeap.less_iff]
                          exact Or.inl (not_le.1 hlt)
                        rw [this] at h1
                        cases h1
                    refine ⟨x, rd, ?_, ?_, by rw [← hpq]; exact hall'⟩
                    · have h3 : (⟨e0.prio, e0.count, some x⟩ : Entry ℚ α) ∈ hp.pq := by
                        rw [hpq, ← hx]; simp
                      have h4 := (hs'.find x e0.prio e0.count).2 ((hs'.live x _ _).1 h3)
                      show (hp.finder.get? x).map Prod.fst = some rd
                      rw [h4, g1]; rfl
                    · intro y q hy
                      have hy : (hp.finder.get? y).map Prod.fst = some q := hy
                      cases hg : hp.finder.get? y with
                      | none => rw [hg] at hy; cases hy
                      | some a =>
                        obtain ⟨q', c⟩ := a
                        rw [hg] at hy
                        simp only [Option.map_some, Option.some.injEq] at hy
                        subst hy
                        have := (hs'.live y q' c).2 ((hs'.find y q' c).1 hg)
                        exact hall' _ this
                · split at hf
                  · cases hf
                  · rename_i hpc _ _ _ _ _ _
                    simp only [hpc] at hf
                    cases hf
            · cases hf
          · rename_i tm hpc
            have hst : (match s.pc with | _ => s) = s := rfl
            simp only [hpc]
            exact h f hf
          · split at hf
            · cases hf
            · split at hf <;> cases hf
          · rename_i hpc
            split at hf
            · cases hf
            · rename_i e rest hch
              obtain ⟨-, -, -, h4, -⟩ := file_total (s := { s with chan := rest }) hb.heap 0 e .draining
              rw [h4, hpc] at hf
              cases hf
          · rename_i hpc
            simp only [hpc] at hf
            cases hf
        · obtain ⟨h1, h2⟩ := other_same (s := s) he
          intro f hf
          simp only [InHeap, h1]
          exact h f (h2 _ hf)
    obtain ⟨x, r, hx, hmin, hr⟩ := key es (init t0) (base_init t0) (by intro f h; simp [init] at h) f hf
    refine ⟨x, r, hx, hmin, ?_⟩
    have h1 := htot r
    rw [h0] at h1
    have h2 := hall r _ hr
    simp only [total, late] at h1
    omega

/-- Once more, with an earlier deadline. -/
private def again (x : α) (d : ℚ) : List (Ev α) := [.addAfter x d, .putDone 0, .loop]

private theorem again_step (x : α) (d r : ℚ) (c : Nat) (hd : 0 < d) (s : State α)
    (hsd : s.core.shuttingDown = false) (hp : s.puts = []) (hch : s.chan = []) (hpc : s.pc = .draining)
    (hi : DelayHeap.HInv s.heap) (hg : s.heap.finder.get? x = some (r, c)) (hr : s.clock + d < r) :
    let s' := exec s (again x d)
    s'.core.shuttingDown = false ∧ s'.puts = [] ∧ s'.chan = [] ∧ s'.pc = .draining ∧ s'.clock = s.clock ∧
      s'.heap.len = s.heap.len ∧ s'.heap.pq.length = s.heap.pq.length + 1 ∧ DelayHeap.HInv s'.heap ∧
      ∃ c, s'.heap.finder.get? x = some (s.clock + d, c) := by
  obtain ⟨co, cl, st, pu, ch, hp', pc⟩ := s
  simp only at hsd hp hch hpc hi hg hr
  subst hp hch hpc
  have hg' : hp'.finder.has x = true := PyDict.has_iff.2 (PyDict.get?_isSome.1 (by rw [hg]; rfl))
  have hs : exec (⟨co, cl, st, [], [], hp', .draining⟩ : State α) (again x d) =
      ⟨co, cl, st, [], [], DelayHeap.insert hp' x (cl + d), .draining⟩ := by
    have h1 : ¬ d ≤ 0 := not_le.2 hd
    have h2 : cl + d > cl := by linarith
    simp [exec, again, step, addAfter, hsd, h1, loopStep, file, h2]
  rw [hs]
  obtain ⟨T, hT⟩ := hi
  have hlen : ∀ (h : DelayHeap.Heap ℚ α), Heapq.IsHeap DelayHeap.less h.pq → ∀ p : ℚ,
      (DelayHeap.insertEntry h x p).pq.length = h.pq.length + 1 := by
    intro h hh p
    simp only [DelayHeap.insertEntry]
    rw [(Heapq.heappush_spec DelayHeap.order_less h.pq _ hh).2.length_eq]
    simp
  have hins : DelayHeap.insert hp' x (cl + d) = DelayHeap.insertEntry
      { hp' with finder := hp'.finder.del x, pq := DelayHeap.mark hp'.pq c } x (cl + d) := by
    simp only [DelayHeap.insert, hg', if_true, DelayHeap.remove, hg, gt_iff_lt, hr]
  refine ⟨hsd, rfl, rfl, rfl, rfl, ?_, ?_, ⟨_, (DelayHeap.sim_insert hT x (cl + d)).choose_spec.1⟩, ?_⟩
  · simp only [hins, DelayHeap.insertEntry]
  · simp only [hins]
    rw [hlen _ (DelayHeap.mark_heap c hT.heap)]
    simp [DelayHeap.mark]
  · simp only [hins, DelayHeap.insertEntry]
    exact ⟨_, PyDict.get?_set_self _ _ _⟩

/-- **C105 is false** of the list under the delay heap: one item that is asked for earlier and earlier makes it
as long as one likes, while one item waits. -/
theorem C105_refuted_heap (t0 : ℚ) (x : α) (n : Nat) : ∃ es : List (Ev α),
    (∀ e ∈ es, isShutDown e = false) ∧ (exec (init t0) es).heap.len = 1 ∧
    (∃ r, ∀ y q, Held (exec (init t0) es) y q ↔ (y, q) = (x, r)) ∧
    (exec (init t0) es).heap.pq.length = n + 1 := by
  suffices H : ∃ es : List (Ev α), (∀ e ∈ es, isShutDown e = false) ∧
      let s := exec (init t0) es
      s.core.shuttingDown = false ∧ s.puts = [] ∧ s.chan = [] ∧ s.pc = .draining ∧
      s.heap.len = 1 ∧ s.heap.pq.length = n + 1 ∧ DelayHeap.HInv s.heap ∧
      ∃ r c, s.heap.finder.get? x = some (r, c) ∧ s.clock < r by
    obtain ⟨es, h1, -, h2, h3, h4, h5, h6, ⟨T, hT⟩, r, c, h7, -⟩ := H
    refine ⟨es, h1, h5, ⟨r, ?_⟩, h6⟩
    intro y q
    simp only [Held, h2, h3, h4, List.not_mem_nil, false_or, reduceCtorEq]
    have hlen : T.length = 1 := by have := hT.len; rw [h5] at this; omega
    obtain ⟨a, rfl⟩ := List.length_eq_one_iff.1 hlen
    have ha : (x, r, c) = a := by simpa using (hT.find x r c).1 h7
    subst ha
    constructor
    · intro h
      cases hg : (exec (init t0) es).heap.finder.get? y with
      | none => rw [hg] at h; cases h
      | some b =>
        obtain ⟨q', c'⟩ := b
        rw [hg] at h
        simp only [Option.map_some, Option.some.injEq] at h
        have := (hT.find y q' c').1 hg
        simp only [List.mem_singleton, Prod.mk.injEq] at this
        simp [this.1, ← h, this.2.1]
    · intro h
      cases h
      rw [h7]; rfl
  induction n with
  | zero =>
    refine ⟨[.loop, .loop, .addAfter x 1, .putDone 0, .wake .item, .loop], by simp [isShutDown], ?_⟩
    have hs : exec (init t0 : State α) [.loop, .loop, .addAfter x 1, .putDone 0, .wake .item, .loop] =
        ⟨WorkQueue.init, t0, false, [], [], DelayHeap.insert DelayHeap.init x (t0 + 1), .draining⟩ := by
      have h1 : ¬ (1 : ℚ) ≤ 0 := by norm_num
      have h2 : t0 + 1 > t0 := by linarith
      simp [exec, init, step, loopStep, addAfter, h1, wakeStep, file, h2, WorkQueue.init, DelayHeap.init]
    simp only [hs]
    obtain ⟨T, hT⟩ := DelayHeap.hinv_init (P := ℚ) (α := α)
    have hi : DelayHeap.insert DelayHeap.init x (t0 + 1) =
        (⟨[⟨t0 + 1, 0, some x⟩], [(x, t0 + 1, 0)], 1, 1⟩ : DelayHeap.Heap ℚ α) := by
      simp [DelayHeap.insert, DelayHeap.init, DelayHeap.insertEntry, Heapq.heappush_nil, PyDict.has, PyDict.set]
    refine ⟨rfl, trivial, trivial, trivial, ?_, ?_, ⟨_, (DelayHeap.sim_insert hT x (t0 + 1)).choose_spec.1⟩, t0 + 1, 0, ?_,
      by linarith⟩
    · rw [hi]
    · rw [hi]; rfl
    · rw [hi]; simp [PyDict.get?_cons]
  | succ n ih =>
    obtain ⟨es, h0, h1, h2, h3, h4, h5, h6, h7, r, c, h8, h9⟩ := ih
    have hd : 0 < (r - (exec (init t0) es).clock) / 2 := by linarith
    obtain ⟨g1, g2, g3, g4, g5, g6, g7, g8, c', g9⟩ := again_step x _ r c hd (exec (init t0) es) h1 h2 h3 h4 h7 h8
      (by linarith)
    refine ⟨es ++ again x ((r - (exec (init t0) es).clock) / 2), ?_, ?_⟩
    · intro e he
      rcases List.mem_append.1 he with he | he
      · exact h0 e he
      · simp only [again, List.mem_cons, List.not_mem_nil, or_false] at he
        rcases he with rfl | rfl | rfl <;> rfl
    · rw [exec_append]
      exact ⟨g1, g2, g3, g4, by rw [g6, h5], by rw [g7, h6], g8, _, c', g9, by rw [g5]; linarith⟩

/-- non-vacuity of the second part of `C105_heap_partial`: three calls for one item, the loop asleep with three
entries, of which one waits -/
example : let s := exec (init 0 : State Nat) [.loop, .loop, .addAfter 5 3, .putDone 0, .wake .item, .loop, .addAfter 5 2,
      .putDone 0, .loop, .addAfter 5 1, .putDone 0, .loop, .loop, .loop, .loop]
    s.pc = .sleeping (some 1) ∧ s.heap.len = 1 ∧ s.heap.pq.length = 3 := by decide +kernel

end Aiok8s.DelayQueue
namespace Aiok8s.Fifo
variable {K O : Type} [DecidableEq K]

/-! ## The queue of `FIFO` -/

/-- **C105 is false** of `FIFO`: an object that is added and deleted over and over again makes `_queue` as long as
one likes, while nothing waits. -/
theorem C105_refuted_fifo (key : O → Option K) (o : O) (k : K) (hk : key o = some k) (n : Nat) :
    let s := exec key init ((List.replicate n [Op.add o, Op.delete o]).flatten)
    s.items = [] ∧ s.queue.length = n := by
  suffices H : ∀ n (s : State K O), s.items = [] →
      let s' := exec key s ((List.replicate n [Op.add o, Op.delete o]).flatten)
      s'.items = [] ∧ s'.queue.length = s.queue.length + n by
    have := H n init rfl
    simpa [init] using this
  intro n
  induction n with
  | zero => intro s h; exact ⟨h, rfl⟩
  | succ n ih =>
    intro s h
    obtain ⟨it, q, p, c, cl⟩ := s
    simp only at h
    subst h
    simp only [List.replicate_succ, List.flatten_cons, List.cons_append, List.nil_append, exec, step, hk, add, delete]
    have h1 : PyDict.has ([] : PyDict K O) k = false := rfl
    have h2 : PyDict.has (PyDict.set ([] : PyDict K O) k o) k = true := by simp [PyDict.set, PyDict.has, PyDict.get?]
    have h3 : PyDict.del (PyDict.set ([] : PyDict K O) k o) k = [] := by simp [PyDict.set, PyDict.del]
    simp only [h1, h2, h3, if_true, Bool.false_eq_true, if_false]
    have := ih ⟨[], q ++ [k], true, c, cl⟩ rfl
    refine ⟨this.1, ?_⟩
    rw [this.2]
    simp
    omega

/-- **C105**, for `FIFO`, whose `_queue` keeps the keys of deleted objects: `replace` and a `pop` that finds nothing
leave none of them. -/
theorem C105_fifo_partial (key : O → Option K) (s : State K O) :
    (∀ os, (step key s (.replace os)).2 = .ok →
      (step key s (.replace os)).1.queue = (step key s (.replace os)).1.items.keys) ∧
    (∀ r d, (step key s (.pop r)).2 = .blocked d ∨ (step key s (.pop r)).2 = .closedError d →
      (step key s (.pop r)).1.queue = [] ∧ d = s.queue.length) := by
  constructor
  · intro os h
    simp only [step] at h ⊢
    split at h
    · cases h
    · rfl
  · intro r d
    simp only [step]
    have H : ∀ (q : List K) (m : Nat), (popLoop s r q m).2 = .blocked d ∨ (popLoop s r q m).2 = .closedError d →
        (popLoop s r q m).1.queue = [] ∧ d = m + q.length := by
      intro q
      induction q with
      | nil =>
        intro m h
        simp only [popLoop] at h ⊢
        refine ⟨trivial, ?_⟩
        cases hc : s.closed <;> simp [hc] at h <;> simp [h]
      | cons k q ih =>
        intro m h
        simp only [popLoop] at h ⊢
        cases hg : s.items.get? k with
        | none =>
          simp only [hg] at h ⊢
          obtain ⟨h1, h2⟩ := ih _ h
          exact ⟨h1, by rw [h2]; simp; omega⟩
        | some o =>
          simp only [hg] at h
          cases r <;> simp [finish] at h
    intro h
    have := H s.queue 0 h
    simpa using this

/-- non-vacuity: two stale entries, found by a `pop` that then sleeps -/
example : let s := exec (fun o : Nat => some o) init [.add 4, .delete 4, .add 4, .delete 4]
    s.queue = [4, 4] ∧ (step (fun o : Nat => some o) s (.pop .ok)).2 = .blocked 2 := by decide

end Aiok8s.Fifo
