import Verif.Proof.Spacing
import Verif.Model.DefaultLimiter
import Verif.Props.Controller
import Mathlib.Algebra.BigOperators.Group.Finset.Basic
import Mathlib.Algebra.BigOperators.Group.Finset.Piecewise
import Mathlib.Algebra.Order.BigOperators.Group.Finset
import Mathlib.Tactic.Positivity
import Mathlib.Tactic.Ring
/-!
# C104: retries keep their distance

`es` is any sequence of moves of a controller's workers, its reconciler, its queue and everybody else who uses
the queue.
-/
set_option linter.unusedSimpArgs false
namespace Aiok8s.Controller
open Aiok8s Aiok8s.RateLimiters Aiok8s.Controller.Spec
variable {σ α ε β : Type} [DecidableEq α]

/-- **C104.** For every limiter: an item is given to workers at most as often as it was asked for, by others or
by a rate-limited retry, with a time that has come. -/
theorem C104_count (I : Iface σ α ε) (py38 : Bool) (isReq : α → Bool) (l : σ) (t : ℚ) (n : Nat)
    (es : List (Ev α ε)) (x : α) :
    let T := (exec I py38 isReq (init l t n) es).rq.q.clock
    takes x (logOf I py38 isReq (init l t n) es) ≤
      dueBy x T (along I py38 isReq othersAt (init l t n) es) +
        dueBy x T (along I py38 isReq (retriesAt I) (init l t n) es) := by
  intro T
  have h := (exec_load I py38 isReq es x (init l t n) (R_init l t n)).2 T le_rfl
  have h0 : DelayQueue.load (init l t n : State σ α).rq.q x T = 0 := load_init t x T
  omega

/-! ## Back-off -/

private theorem partExec_max (I : Iface σ α ε) (os : List (LimOp α ε)) :
    ∀ ss : List σ, partExec (maxIface I) ss os = partsExec I ss os := by
  induction os with
  | nil => intro ss; rfl
  | cons o os ih => intro ss; cases o <;> exact ih _

private theorem partExec_append' (I : Iface σ α ε) (l : σ) (as bs : List (LimOp α ε)) :
    partExec I l (as ++ bs) = partExec I (partExec I l as) bs := by
  induction as generalizing l with
  | nil => rfl
  | cons a as ih => cases a <;> exact ih _

/-- Without an outcome that resets the back-off, the retries are counted. -/
private theorem retries_outs (x : α) (l : List (Log α ε)) :
    ∀ k, (∀ w o env, .outcome w x o env ∈ l → reset o = false) → (∀ w, .notRequest w x ∉ l) →
    retries x l k = k + outs x l := by
  induction l with
  | nil => intro k _ _; rfl
  | cons a l ih =>
    intro k h1 h2
    have ih := fun k => ih k (fun w o env h => h1 w o env (List.mem_cons_of_mem _ h))
      (fun w h => h2 w (List.mem_cons_of_mem _ h))
    cases a with
    | outcome w y o env =>
      simp only [retries, ih]
      by_cases hy : y = x
      · subst hy
        have hres := h1 w o env (by simp)
        by_cases ho : retry o = true <;> simp [outs, ho, hres] <;> omega
      · simp [outs, hy]
    | notRequest w y =>
      have hy : y ≠ x := by rintro rfl; exact h2 w (by simp)
      simp only [retries, if_neg hy, ih]
      simp [outs]
    | _ => simp only [retries, ih]; simp [outs]

private theorem noNotReq (I : Iface σ α ε) (py38 : Bool) (isReq : α → Bool) {x : α} (hx : isReq x = true)
    (es : List (Ev α ε)) : ∀ (s : State σ α) w, .notRequest w x ∉ logOf I py38 isReq s es := by
  have seen : ∀ (s : State σ α) k w, .notRequest w x ∉ s.seen I k := by
    intro s k w; simp [State.seen]
  have fin : ∀ (s : State σ α) v y k w, .notRequest w x ∉ (finally_ I py38 s v y k).2 := by
    intro s v y k w; simp [finally_]
  induction es with
  | nil => intro s w; simp [logOf]
  | cons e es ih =>
    intro s w
    simp only [logOf, List.mem_append, not_or]
    refine ⟨?_, ih _ w⟩
    cases e with
    | queue e =>
      simp only [step]
      split
      · exact seen _ _ _
      · nofun
    | take v =>
      simp only [step]
      split
      · split
        · rename_i y _
          split
          · simp
          · rename_i hy
            have := fin ((s.call I (.queue (.base .get))).call I (.forget y)) v y (.ret true) w
            simp only [List.mem_cons, not_or]
            refine ⟨by nofun, ?_, this⟩
            intro h
            cases h
            exact hy hx
        · nofun
        · nofun
      · nofun
    | finish v o env =>
      simp only [step]
      split
      · rename_i y _
        simp only [List.mem_cons, not_or]
        refine ⟨by nofun, ?_⟩
        cases o with
        | cancelled => exact fin _ _ _ _ _
        | bad => exact fin _ _ _ _ _
        | raised =>
          simp only [afterReconcile]
          split
          · exact fin _ _ _ _ _
          · exact seen _ _ _
        | result q d =>
          simp only [afterReconcile]
          split
          · exact seen _ _ _
          · split
            · split
              · exact fin _ _ _ _ _
              · exact seen _ _ _
            · exact fin _ _ _ _ _
      · nofun
    | requeued v =>
      simp only [step]
      split
      · exact fin _ _ _ _ _
      · nofun
    | cancelRequeue v =>
      simp only [step]
      split
      · exact fin _ _ _ _ _
      · nofun
    | wake v => simp only [step]; split <;> nofun
    | cancel v => simp only [step]; split <;> nofun

/-- The due times of the retries of `x`. -/
private def mine (x : α) (l : List (α × ℚ)) : List ℚ := (l.filter (·.1 = x)).map (·.2)

private theorem dueBy_mine (x : α) (T : ℚ) (l : List (α × ℚ)) : dueBy x T l = (mine x l).countP (· ≤ T) := by
  simp only [dueBy, mine, List.countP_map, List.countP_filter]
  apply List.countP_congr
  intro a _
  simp [and_comm]

private theorem mine_append (x : α) (l l' : List (α × ℚ)) : mine x (l ++ l') = mine x l ++ mine x l' := by
  simp [mine]

/-- Sums of any delays. -/
private def sums (D : Nat → ℚ) : Nat → ℚ
  | 0 => 0
  | n + 1 => sums D n + D n

private theorem sums_mono {D : Nat → ℚ} (hD : ∀ k, 0 ≤ D k) {i j : Nat} (h : i ≤ j) : sums D i ≤ sums D j := by
  induction h with
  | refl => exact le_rfl
  | step _ ih => exact ih.trans (le_add_of_nonneg_right (hD _))

/-- If enough of the times have come, so has the last of as many. -/
private theorem count_index {f : Nat → ℚ} {L : List ℚ} (hL : ∀ i q, L[i]? = some q → f (i + 1) ≤ q) {T : ℚ} {n : Nat}
    (hn : n + 1 ≤ L.countP (· ≤ T)) (hf : ∀ i j, i ≤ j → f i ≤ f j) : f (n + 1) ≤ T := by
  induction L using List.reverseRecOn generalizing n with
  | nil => simp at hn
  | append_singleton L a ih =>
    have hL' : ∀ i q, L[i]? = some q → f (i + 1) ≤ q := by
      intro i q h
      have hi : i < L.length := (List.getElem?_eq_some_iff.1 h).1
      exact hL i q (by rw [List.getElem?_append_left hi]; exact h)
    by_cases ha : a ≤ T
    · have h1 := hL L.length a (by simp)
      have h2 : L.countP (· ≤ T) ≤ L.length := List.countP_le_length
      rw [List.countP_append] at hn
      simp [ha] at hn
      exact (hf (n + 1) (L.length + 1) (by omega)).trans (h1.trans ha)
    · rw [List.countP_append] at hn
      simp [ha] at hn
      exact ih hL' (by simpa using hn)

private theorem length_outs (I : Iface σ α ε) (py38 : Bool) (isReq : α → Bool) (y : α) (es : List (Ev α ε)) :
    ∀ s : State σ α, (mine y (along I py38 isReq (retriesAt I) s es)).length ≤
      outs y (logOf I py38 isReq s es) := by
  induction es with
  | nil => intro s'; simp [along, mine]
  | cons e' es ih =>
    intro s'
    have ih := ih (step I py38 isReq s' e').1
    simp only [along, logOf, mine_append, List.length_append]
    have happ : ∀ a b : List (Log α ε), outs y (a ++ b) = outs y a + outs y b :=
      fun _ _ => List.countP_append
    rw [happ]
    have hone : (mine y (retriesAt I s' e')).length ≤ outs y (step I py38 isReq s' e').2 := by
      cases e' with
      | finish w' o' env' =>
        cases hw' : s'.workers w' with
        | reconciling z =>
          by_cases hz : retry o' = true ∧ z = y
          · obtain ⟨ho', rfl⟩ := hz
            have h5 : outs z (step I py38 isReq s' (.finish w' o' env')).2 ≥ 1 := by
              simp only [step, hw']
              simp [outs, ho', List.countP_cons]
            refine le_trans ?_ h5
            simp only [retriesAt, hw', ho', if_true]
            split <;> simp [mine]
          · have h6 : mine y (retriesAt I s' (.finish w' o' env')) = [] := by
              simp only [retriesAt, hw']
              by_cases ho' : retry o' = true
              · have hzy : z ≠ y := fun h => hz ⟨ho', h⟩
                simp only [ho', if_true]
                split <;> simp [mine, hzy]
              · simp [ho', mine]
            rw [h6]; simp
        | _ => simp [retriesAt, hw', mine]
      | _ => simp [retriesAt, mine]
    omega

/-- For every limiter whose delay after `k` failures in a row is at least `D k`. -/
private theorem backoff_gen (I : Iface σ α ε) (py38 : Bool) (isReq : α → Bool) (l : σ) (t : ℚ) (n : Nat)
    (D : Nat → ℚ) (hD0 : ∀ k, 0 ≤ D k)
    (hD : ∀ (os : List (LimOp α ε)) y env d, (I.when (partExec I l os) y env).2 = .delay d →
      D (recentFailures' y os 0) ≤ d)
    (x : α) (hx : isReq x = true) (r : ℚ) (es : List (Ev α ε)) :
    (∃ k, (mine x (along I py38 isReq othersAt (init l t n) es)).length = k ∧ k ≤ 1) →
    (∀ q ∈ mine x (along I py38 isReq othersAt (init l t n) es), r ≤ q) →
    (∀ w o env, .outcome w x o env ∈ logOf I py38 isReq (init l t n) es → reset o = false) →
    ∀ i q, (mine x (along I py38 isReq (retriesAt I) (init l t n) es))[i]? = some q →
      r + sums D (i + 1) ≤ q := by
  induction es using List.reverseRecOn with
  | nil => intro _ _ _ i q h; simp [along, mine] at h
  | append_singleton es e ih =>
    intro h1 h2 h3
    simp only [along_snoc, logOf_snoc, mine_append, List.length_append, List.mem_append] at h1 h2 h3
    replace ih := ih (by obtain ⟨k, hk, hk1⟩ := h1; exact ⟨_, rfl, by omega⟩) (fun q hq => h2 q (Or.inl hq))
      (fun w o env h => h3 w o env (Or.inl h))
    have hc := C104_count I py38 isReq l t n es x
    have hot := outs_takes_exec I py38 isReq es x (init l t n) (R_init l t n)
    have hb0 : busyN (init l t n : State σ α) x = 0 := by
      have : ¬ Busy (init l t n : State σ α) x := by
        rintro ⟨w, hw⟩
        simp only [init] at hw
        split at hw <;> cases hw
      simp [busyN, this]
    rw [hb0] at hot
    have hlim := C56_limiter I py38 isReq l t n es
    have hre := recent_retries x (logOf I py38 isReq (init l t n) es) 0
    rw [retries_outs x _ 0 (fun w o env h => h3 w o env (Or.inl h)) (noNotReq I py38 isReq hx es _)] at hre
    have hlen := length_outs I py38 isReq x es (init l t n)
    simp only [along_snoc, mine_append]
    generalize exec I py38 isReq (init l t n) es = s at *
    generalize logOf I py38 isReq (init l t n) es = lg at *
    generalize along I py38 isReq othersAt (init l t n) es = A at *
    generalize along I py38 isReq (retriesAt I) (init l t n) es = B at *
    intro i q hq
    have hi : i < (mine x B ++ mine x (retriesAt I s e)).length := (List.getElem?_eq_some_iff.1 hq).1
    by_cases hlt : i < (mine x B).length
    · rw [List.getElem?_append_left hlt] at hq; exact ih i q hq
    · -- the new one
      have hnew : mine x (retriesAt I s e) ≠ [] := by
        intro h0
        rw [h0] at hi
        simp at hi
        omega
      cases e with
      | finish w o env =>
        cases hw : s.workers w with
        | reconciling y =>
          by_cases ho : retry o = true
          · rcases hres : (I.when s.rq.lim y env) with ⟨l', d | _ | _⟩
            · have hra : retriesAt I s (.finish w o env) = [(y, s.rq.q.clock + d)] := by
                simp [retriesAt, hw, ho, hres]
              rw [hra] at hi hnew hq
              have hyx : y = x := by
                by_contra hne
                exact hnew (by simp [mine, hne])
              subst hyx
              have hmine : mine y [(y, s.rq.q.clock + d)] = [s.rq.q.clock + d] := by simp [mine]
              have hbusy : busyN s y = 1 := by
                have : Busy s y := ⟨w, hw⟩
                simp [busyN, this]
              -- all earlier ones have come
              have hA1 : dueBy y s.rq.q.clock A ≤ 1 := by
                rw [dueBy_mine]
                obtain ⟨k, hk, hk1⟩ := h1
                exact List.countP_le_length.trans (by omega)
              have hBl : dueBy y s.rq.q.clock B ≤ (mine y B).length := by
                rw [dueBy_mine]; exact List.countP_le_length
              have hOB : outs y lg ≤ dueBy y s.rq.q.clock B := by
                have hc : takes y lg ≤ dueBy y s.rq.q.clock A + dueBy y s.rq.q.clock B := hc
                omega
              have hi' : i = (mine y B).length := by
                rw [hmine, List.length_append] at hi
                simp at hi
                omega
              have hall : (mine y B).countP (· ≤ s.rq.q.clock) = (mine y B).length := by
                rw [← dueBy_mine]; omega
              -- so the clock is late enough
              have hclock : r + sums D i ≤ s.rq.q.clock := by
                cases hm : i with
                | zero =>
                  have hA0 : 1 ≤ dueBy y s.rq.q.clock A := by
                    have hc : takes y lg ≤ dueBy y s.rq.q.clock A + dueBy y s.rq.q.clock B := hc
                    omega
                  rw [dueBy_mine] at hA0
                  obtain ⟨q, hq, hqT⟩ := List.countP_pos_iff.1 hA0
                  have := h2 q (Or.inl hq)
                  simp only [decide_eq_true_eq] at hqT
                  simp only [sums]; linarith
                | succ j =>
                  have hj : j < (mine y B).length := by omega
                  have h7 := ih j _ (List.getElem?_eq_getElem hj)
                  have h8 := List.countP_eq_length.1 hall (mine y B)[j] (List.getElem_mem hj)
                  simp only [decide_eq_true_eq] at h8
                  linarith
              have hd : D i ≤ d := by
                have h9 := hD (lg.flatMap limOp) y env d (by rw [← hlim, hres])
                rw [hre] at h9
                have : 0 + outs y lg = i := by omega
                rwa [this] at h9
              have hget : (mine y B ++ mine y [(y, s.rq.q.clock + d)])[i]? = some (s.rq.q.clock + d) := by
                simp [hmine, hi']
              rw [hget] at hq
              cases hq
              simp only [sums]
              linarith
            · exact absurd (by simp [retriesAt, hw, ho, hres, mine]) hnew
            · exact absurd (by simp [retriesAt, hw, ho, hres, mine]) hnew
          · exact absurd (by simp [retriesAt, hw, ho, mine]) hnew
        | _ => exact absurd (by simp [retriesAt, hw, mine]) hnew
      | _ => exact absurd (by simp [retriesAt, mine]) hnew

private theorem backoffs_eq (n : Nat) : backoffs n = sums backoff n := by
  induction n with
  | zero => rfl
  | succ n ih => simp only [backoffs, sums, ih]

private theorem backoff_nonneg (k : Nat) : 0 ≤ backoff k := by
  unfold backoff
  exact le_min (by positivity) (by norm_num)

/-- **C104.** With the default limiter: a request that was asked for once from outside, for the time `r`, and
that is never reconciled with success nor with a time of its own, is given to a worker for the `n+1`-st time at
the earliest when the first `n` back-offs (5 ms, 10 ms, 20 ms, ... at most 1000 s) have passed since `r`. -/
theorem C104_backoff (py38 : Bool) (isReq : α → Bool) (t : ℚ) (m : Nat) (es : List (Ev α ℚ)) (x : α)
    (hx : isReq x = true) (r : ℚ)
    (hone : (along defaultIface py38 isReq othersAt (fresh t m) es).filter (·.1 = x) = [(x, r)])
    (hres : ∀ w o now, .outcome w x o now ∈ logOf defaultIface py38 isReq (fresh t m) es → reset o = false)
    (n : Nat) (hn : n < takes x (logOf defaultIface py38 isReq (fresh t m) es)) :
    r + backoffs n ≤ (exec defaultIface py38 isReq (fresh t m) es).rq.q.clock := by
  have hm : mine x (along defaultIface py38 isReq othersAt (fresh t m) es) = [r] := by
    simp only [mine, hone, List.map]
  have hD : ∀ (os : List (LimOp α ℚ)) y env d,
      ((defaultIface : Iface (List (Part α)) α ℚ).when (partExec defaultIface defaultParts os) y env).2 = .delay d →
      backoff (recentFailures' y os 0) ≤ d := by
    intro os y env d h
    rw [show partExec (defaultIface : Iface (List (Part α)) α ℚ) defaultParts os = _ from
      partExec_max partIface os defaultParts] at h
    have h := (C11_default_when os y env).symm.trans h
    split at h
    · simp only [Res.delay.injEq] at h
      rw [← h]
      exact le_max_left _ _
    · cases h
  have key := backoff_gen defaultIface py38 isReq defaultParts t m backoff backoff_nonneg hD x hx r es
    ⟨1, by rw [show init defaultParts t m = fresh t m from rfl, hm]; rfl, le_rfl⟩
    (by rw [show init defaultParts t m = fresh t m from rfl, hm]; simp) hres
  have hc := C104_count defaultIface py38 isReq defaultParts t m es x
  simp only at hc
  rw [show init defaultParts t m = fresh t m from rfl] at hc key
  generalize (exec defaultIface py38 isReq (fresh t m) es).rq.q.clock = T at *
  rw [dueBy_mine, dueBy_mine, hm] at hc
  rw [backoffs_eq]
  by_cases hrT : r ≤ T
  · cases n with
    | zero => simpa [sums] using hrT
    | succ k =>
      simp [hrT] at hc
      exact count_index (f := fun i => r + sums backoff i) key (by omega)
        (fun i j h => by have := sums_mono backoff_nonneg h; linarith)
  · have h0 : [r].countP (· ≤ T) = 0 := by simp [hrT]
    rw [h0] at hc
    have : r + sums backoff 1 ≤ T := count_index (f := fun i => r + sums backoff i) (n := 0) key (by omega)
        (fun i j h => by have := sums_mono backoff_nonneg h; linarith)
    have h1 : 0 ≤ sums backoff 1 := sums_mono backoff_nonneg (i := 0) (Nat.zero_le 1)
    exact absurd (by linarith) hrT

/-! ## The rate over all items -/

/-- What the limiter hears of in one move. -/
private theorem step_ops (I : Iface σ α ε) (py38 : Bool) (isReq : α → Bool) (s : State σ α) (e : Ev α ε) :
    ((step I py38 isReq s e).2.flatMap limOp = [] ∧ retriesAt I s e = []) ∨
    (∃ y, (step I py38 isReq s e).2.flatMap limOp = [.forget y] ∧ retriesAt I s e = []) ∨
    (∃ w o env y, e = .finish w o env ∧ (step I py38 isReq s e).2.flatMap limOp = [.when y env] ∧
      retriesAt I s e = match (I.when s.rq.lim y env).2 with
        | .delay d => [(y, s.rq.q.clock + d)]
        | _ => []) := by
  have fin : ∀ (s : State σ α) w y k, (finally_ I py38 s w y k).2.flatMap limOp = ([] : List (LimOp α ε)) := by
    intro s w y k; simp [finally_, limOp]
  have seen : ∀ (s : State σ α) k, (s.seen I k).flatMap limOp = ([] : List (LimOp α ε)) := by
    intro s k
    simp only [State.seen]
    generalize (RateLimitingQueue.step I s.rq k).2.2 = ds
    induction ds with
    | nil => rfl
    | cons d ds ih => simpa [limOp] using ih
  cases e with
  | queue e =>
    left
    refine ⟨?_, rfl⟩
    simp only [step]
    split
    · exact seen _ _
    · rfl
  | take w =>
    simp only [step]
    split
    · split
      · rename_i y _
        split
        · left; exact ⟨rfl, rfl⟩
        · right; left
          refine ⟨y, ?_, rfl⟩
          simp [limOp, fin]
      · left; exact ⟨rfl, rfl⟩
      · left; exact ⟨rfl, rfl⟩
    · left; exact ⟨rfl, rfl⟩
  | finish w o env =>
    cases hw : s.workers w with
    | reconciling y =>
      have h1 : (step I py38 isReq s (.finish w o env)).2.flatMap limOp =
          limOp (.outcome w y o env : Log α ε) := by
        simp only [step, hw, List.flatMap_cons, (after_lim I py38 s w y o env).2, List.append_nil]
      rw [h1]
      by_cases ho : retry o = true
      · right; right
        refine ⟨w, o, env, y, rfl, by simp [limOp, ho], by simp only [retriesAt, hw, ho, if_true]; rfl⟩
      · by_cases hre : reset o = true
        · right; left; exact ⟨y, by simp [limOp, ho, hre], by simp [retriesAt, hw, ho]⟩
        · left; exact ⟨by simp [limOp, ho, hre], by simp [retriesAt, hw, ho]⟩
    | _ => left; exact ⟨by simp [step, hw], by simp [retriesAt, hw]⟩
  | requeued w =>
    left
    refine ⟨?_, rfl⟩
    simp only [step]
    split
    · exact fin _ _ _ _
    · rfl
  | cancelRequeue w =>
    left
    refine ⟨?_, rfl⟩
    simp only [step]
    split
    · exact fin _ _ _ _
    · rfl
  | wake w => left; refine ⟨?_, rfl⟩; simp only [step]; split <;> rfl
  | cancel w => left; refine ⟨?_, rfl⟩; simp only [step]; split <;> rfl

/-- The retries are not due before the bucket says. -/
private theorem retries_ready (py38 : Bool) (isReq : α → Bool) (es : List (Ev α ℚ)) :
    ∀ (s : State (List (Part α)) α) (f : Failures α) (b : Bucket), R s (phases s) →
    s.rq.lim = [.exp ⟨5 / 1000, 1000, true⟩ f, .bucket ⟨10, 100⟩ b] →
    Timely defaultIface py38 isReq s es →
    ∃ nows, (∀ v ∈ nows, s.rq.q.clock * 1000000000 ≤ v) ∧ nows.Pairwise (· ≤ ·) ∧
      List.Forall₂ (fun (p : α × ℚ) q => q ≤ p.2) (along defaultIface py38 isReq (retriesAt defaultIface) s es)
        (readyTimes nows (bucketWaits ⟨10, 100⟩ b nows)) := by
  induction es with
  | nil => intro s f b _ _ _; exact ⟨[], by simp, by simp, by simp [along, readyTimes, bucketWaits]⟩
  | cons e es ih =>
    intro s f b hr hl ht
    obtain ⟨ht1, ht2⟩ := ht
    have hr' := (step_good defaultIface py38 isReq s hr e).2
    have hlim := step_lim defaultIface py38 isReq s e
    -- a move that the bucket does not hear of
    have quiet : ∀ f', (step defaultIface py38 isReq s e).1.rq.lim
          = [.exp ⟨5 / 1000, 1000, true⟩ f', .bucket ⟨10, 100⟩ b] → retriesAt defaultIface s e = [] →
        ∃ nows, (∀ v ∈ nows, s.rq.q.clock * 1000000000 ≤ v) ∧ nows.Pairwise (· ≤ ·) ∧
        List.Forall₂ (fun (p : α × ℚ) q => q ≤ p.2)
          (along defaultIface py38 isReq (retriesAt defaultIface) s (e :: es))
          (readyTimes nows (bucketWaits ⟨10, 100⟩ b nows)) := by
      intro f' h1 h2
      obtain ⟨nows, a, b', c⟩ := ih _ f' b hr' h1 ht2
      refine ⟨nows, fun v hv => le_trans ?_ (a v hv), b', by simpa only [along, h2, List.nil_append] using c⟩
      have := ctl_load_clock defaultIface py38 isReq hr e
      nlinarith
    rcases step_ops defaultIface py38 isReq s e with ⟨h1, h2⟩ | ⟨y, h1, h2⟩ | ⟨w, o, now, y, he, h1, h2⟩
    · rw [h1] at hlim
      exact quiet f (hlim.trans hl) h2
    · rw [h1, hl] at hlim
      exact quiet (expForget f y) hlim h2
    · rw [h1, hl] at hlim
      rw [hl] at h2
      have hnow := ht1 w o now he
      have hlim : (step defaultIface py38 isReq s e).1.rq.lim = (maxWhen partIface
          [.exp ⟨5 / 1000, 1000, true⟩ f, .bucket ⟨10, 100⟩ b] y now).1 := hlim
      have h2 : retriesAt defaultIface s e = match (maxWhen partIface
          [.exp ⟨5 / 1000, 1000, true⟩ f, .bucket ⟨10, 100⟩ b] y now).2 with
        | .delay d => [(y, s.rq.q.clock + d)]
        | _ => [] := h2
      cases hm : mulPow ⟨5 / 1000, 1000, true⟩ (failures f y) with
      | none =>
        have e1 : maxWhen partIface [.exp ⟨5 / 1000, 1000, true⟩ f, .bucket ⟨10, 100⟩ b] y now =
            ([.exp ⟨5 / 1000, 1000, true⟩ (f.set y (failures f y + 1)), .bucket ⟨10, 100⟩ b], .overflow) := by
          simp [maxWhen, callParts, partIface, expWhen, hm]
        rw [e1] at hlim h2
        exact quiet _ hlim h2
      | some v =>
        have e1 : maxWhen partIface [.exp ⟨5 / 1000, 1000, true⟩ f, .bucket ⟨10, 100⟩ b] y now =
            ([.exp ⟨5 / 1000, 1000, true⟩ (f.set y (failures f y + 1)),
              .bucket ⟨10, 100⟩ (bucketWhen ⟨10, 100⟩ b now).1],
              .delay (max (min v 1000) (bucketWhen ⟨10, 100⟩ b now).2)) := by
          simp [maxWhen, callParts, partIface, expWhen, hm, Except.map, pyMax, max_def_lt]
        rw [e1] at hlim h2
        obtain ⟨nows, a, b', c⟩ := ih _ _ _ hr' hlim ht2
        have hcl := ctl_load_clock defaultIface py38 isReq hr e
        have hmore : ∀ u ∈ nows, now ≤ u := by
          intro u hu
          rw [hnow]
          have := a u hu
          nlinarith
        refine ⟨now :: nows, ?_, List.pairwise_cons.2 ⟨hmore, b'⟩, ?_⟩
        · intro u hu
          rcases List.mem_cons.1 hu with rfl | hu
          · exact hnow.ge
          · exact hnow.ge.trans (hmore u hu)
        · simp only [along, h2, List.singleton_append, readyTimes, bucketWaits, List.zipWith_cons_cons]
          refine .cons ?_ c
          rw [hnow]
          have := le_max_right (min v 1000) (bucketWhen ⟨10, 100⟩ b (s.rq.q.clock * 1000000000)).2
          linarith

private theorem waits_nonneg (c : BucketCfg) (hc : c.valid) (nows : List ℚ) :
    ∀ b, ∀ w ∈ bucketWaits c b nows, 0 ≤ w := by
  have hl : 0 < c.limit := not_le.1 hc.1
  induction nows with
  | nil => intro b w h; simp [bucketWaits] at h
  | cons n ns ih =>
    intro b w h
    rcases List.mem_cons.1 h with rfl | h
    · simp only [bucketWhen]
      split
      · apply div_nonneg <;> linarith
      · exact le_rfl
    · exact ih _ _ h

private theorem forall₂_count {l : List (α × ℚ)} {l' : List ℚ} (h : List.Forall₂ (fun (p : α × ℚ) q => q ≤ p.2) l l')
    (T : ℚ) : allDueBy T l ≤ l'.countP (· ≤ T) := by
  induction h with
  | nil => simp [allDueBy]
  | cons hab _ ih =>
    simp only [allDueBy, List.countP_cons] at ih ⊢
    split
    · rename_i hp
      simp only [decide_eq_true_eq] at hp
      simp only [decide_eq_true (hab.trans hp), if_true]
      omega
    · omega

private theorem sum_due (S : Finset α) (T : ℚ) (l : List (α × ℚ)) : ∑ x ∈ S, dueBy x T l ≤ allDueBy T l := by
  induction l with
  | nil => simp [dueBy, allDueBy]
  | cons p l ih =>
    have h1 : ∀ x, dueBy x T (p :: l) = dueBy x T l + if p.1 = x then (if p.2 ≤ T then 1 else 0) else 0 := by
      intro x
      simp only [dueBy, List.countP_cons]
      by_cases h1 : p.1 = x <;> by_cases h2 : p.2 ≤ T <;> simp [h1, h2]
    have h2 : allDueBy T (p :: l) = allDueBy T l + if p.2 ≤ T then 1 else 0 := by
      simp only [allDueBy, List.countP_cons]
      by_cases h2 : p.2 ≤ T <;> simp [h2]
    simp only [h1, h2, Finset.sum_add_distrib, Finset.sum_ite_eq]
    split
    · exact Nat.add_le_add_right ih _
    · omega

private theorem sum_takes (S : Finset α) (l : List (Log α ε)) (hS : ∀ w x, .took w x ∈ l → x ∈ S) :
    allTakes l = ∑ x ∈ S, takes x l := by
  induction l with
  | nil => simp [allTakes, takes]
  | cons a l ih =>
    have ih := ih (fun w x h => hS w x (List.mem_cons_of_mem _ h))
    cases a with
    | took w y =>
      have h1 : ∀ x, takes x (.took w y :: l) = takes x l + if y = x then 1 else 0 := by
        intro x
        by_cases h : y = x <;> simp [takes, h]
      have h2 : allTakes (.took w y :: l) = allTakes l + 1 := by simp [allTakes]
      simp only [h1, h2, Finset.sum_add_distrib, Finset.sum_ite_eq, hS w y (by simp), if_true, ih]
    | _ => simpa [allTakes, takes] using ih

private def tookItem : Log α ε → Option α
  | .took _ x => some x
  | _ => none

/-- **C104.** With the default limiter, reading the queue's clock: of all items together, no more are given to
workers up to any moment `T` than were asked for by others for a time up to `T`, and 100 retries, and 10 more for
each second since the start. -/
theorem C104_rate (py38 : Bool) (isReq : α → Bool) (t : ℚ) (m : Nat) (es : List (Ev α ℚ))
    (ht : Timely defaultIface py38 isReq (fresh t m) es) :
    let T := (exec defaultIface py38 isReq (fresh t m) es).rq.q.clock
    (allTakes (logOf defaultIface py38 isReq (fresh t m) es) : ℚ) ≤
      allDueBy T (along defaultIface py38 isReq othersAt (fresh t m) es) + (100 + 10 * (T - t)) := by
  intro T
  let lg := logOf defaultIface py38 isReq (fresh t m : State (List (Part α)) α) es
  let S : Finset α := (lg.filterMap tookItem).toFinset
  have h1 : allTakes lg = ∑ x ∈ S, takes x lg := by
    apply sum_takes
    intro w x h
    simp only [S, List.mem_toFinset, List.mem_filterMap]
    exact ⟨_, h, rfl⟩
  have h2 : ∑ x ∈ S, takes x lg ≤ ∑ x ∈ S, (dueBy x T (along defaultIface py38 isReq othersAt (fresh t m) es) +
      dueBy x T (along defaultIface py38 isReq (retriesAt defaultIface) (fresh t m) es)) :=
    Finset.sum_le_sum fun x _ => C104_count defaultIface py38 isReq defaultParts t m es x
  rw [Finset.sum_add_distrib] at h2
  have h3 := sum_due S T (along defaultIface py38 isReq othersAt (fresh t m) es)
  have h4 := sum_due S T (along defaultIface py38 isReq (retriesAt defaultIface) (fresh t m) es)
  obtain ⟨nows, a, b, c⟩ := retries_ready py38 isReq es (fresh t m) [] bucketInit (R_init _ t m) rfl ht
  have h5 := forall₂_count c T
  have hvalid : (⟨10, 100⟩ : BucketCfg).valid := by constructor <;> norm_num
  have htT : t ≤ T := (exec_clock_le defaultIface py38 isReq es (fresh t m) (R_init _ t m))
  have h6 := C09_window_bound ⟨10, 100⟩ hvalid nows b t (T - t) (by linarith)
  have h7 : (readyTimes nows (bucketWaits ⟨10, 100⟩ bucketInit nows)).countP (· ≤ T) =
      (readyTimes nows (bucketWaits ⟨10, 100⟩ bucketInit nows)).countP
        (fun q => t ≤ q ∧ q ≤ t + (T - t)) := by
    apply List.countP_congr
    intro q hq
    have : t ≤ q := by
      simp only [readyTimes, List.mem_iff_getElem, List.getElem_zipWith] at hq
      obtain ⟨i, hi, rfl⟩ := hq
      simp only [List.length_zipWith, lt_min_iff] at hi
      have e1 := a nows[i] (List.getElem_mem _)
      have e2 := waits_nonneg ⟨10, 100⟩ hvalid nows bucketInit _ (List.getElem_mem hi.2)
      have e3 : (fresh t m : State (List (Part α)) α).rq.q.clock = t := rfl
      rw [e3] at e1
      linarith
    have e : t + (T - t) = T := by ring
    simp [this, e]
  rw [← h7] at h6
  have h8 : allTakes lg ≤ allDueBy T (along defaultIface py38 isReq othersAt (fresh t m) es) +
      (readyTimes nows (bucketWaits ⟨10, 100⟩ bucketInit nows)).countP (· ≤ T) := by
    have h4' := h4.trans h5
    omega
  have h9 : (allTakes lg : ℚ) ≤ (allDueBy T (along defaultIface py38 isReq othersAt (fresh t m) es) : ℚ) +
      ((readyTimes nows (bucketWaits ⟨10, 100⟩ bucketInit nows)).countP (· ≤ T) : ℕ) := by exact_mod_cast h8
  exact h9.trans (by linarith)

/-! ## Non-vacuity -/

private def start : ℚ := 1700000000

/-- Item 7 is added and fails; the retry comes 5 ms later and fails as well; the next comes 10 ms after that. -/
private def retried : List (Ev Nat ℚ) :=
  [.queue (.base (.add 7)), .take 0, .finish 0 .raised (start * 1000000000), .queue (.putDone 0),
    .requeued 0, .wake 0, .queue .loop, .queue .loop, .queue (.wake .item), .queue .loop, .queue .loop,
    .queue .loop, .queue .loop, .take 0, .queue (.tick (5 / 1000)), .queue (.wake .timer), .queue .loop,
    .queue .loop, .queue .loop, .take 0,
    .finish 0 (.result true 0) ((start + 5 / 1000) * 1000000000), .queue (.putDone 0), .requeued 0,
    .queue .loop, .queue (.wake .item), .queue .loop, .queue .loop, .queue .loop, .queue .loop,
    .queue (.tick (10 / 1000)), .queue (.wake .timer), .queue .loop, .queue .loop, .queue .loop, .take 0]

/-- non-vacuity of `C104_backoff`: three deliveries, the last exactly when two back-offs have passed -/
example :
    (along defaultIface true (fun _ => true) othersAt (fresh start 1) retried).filter (·.1 = 7) = [(7, start)] ∧
    along defaultIface true (fun _ => true) (retriesAt defaultIface) (fresh start 1) retried =
      [(7, start + 5 / 1000), (7, start + 15 / 1000)] ∧
    takes 7 (logOf defaultIface true (fun _ => true) (fresh start 1) retried) = 3 ∧
    (exec defaultIface true (fun _ => true) (fresh start 1) retried).rq.q.clock = start + backoffs 2 := by
  refine ⟨?_, ?_, ?_, ?_⟩ <;> decide +kernel

/-- and no outcome resets the back-off -/
example : ∀ a ∈ logOf defaultIface true (fun _ => true) (fresh start 1) retried,
    (match a with | .outcome _ _ o _ => reset o | _ => false) = false := by
  decide +kernel

/-- non-vacuity of `C104_rate` -/
example : Timely defaultIface true (fun _ => true) (fresh start 1) retried := by
  have key : ∀ (es : List (Ev Nat ℚ)) (s : State (List (Part Nat)) Nat),
      (∀ p ∈ along defaultIface true (fun _ => true) (fun s e => [(s.rq.q.clock, e)]) s es,
        (match p.2 with | .finish _ _ now => decide (now = p.1 * 1000000000) | _ => true) = true) →
      Timely defaultIface true (fun _ => true) s es := by
    intro es
    induction es with
    | nil => intro s _; trivial
    | cons e es ih =>
      intro s h
      refine ⟨?_, ih _ fun p hp => h p (by simp only [along, List.mem_append]; exact Or.inr hp)⟩
      rintro w o now rfl
      have := h (s.rq.q.clock, .finish w o now) (by simp [along])
      simpa using this
  apply key
  decide +kernel

end Aiok8s.Controller
