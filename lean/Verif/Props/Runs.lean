import Verif.Spec.Runs
import Verif.Proof.Informer
import Mathlib.Data.List.Induction
/-!
# C114: several calls of `run` of one shared informer
-/
set_option linter.unusedSimpArgs false
namespace Aiok8s.Runs
open Aiok8s.DeltaFifo (Obj Delta Deltas keyOf)
open Aiok8s.DeltaFifo.Spec (Entry pendingOf merge entries)
open Aiok8s.Informer (Note applyOne nextDeltas Inv after viewOf evEntries eventual)
open Aiok8s.Informer.Spec (AllCoherent see target watched eventKey View)
open Spec
variable {K O : Type} [DecidableEq K]

private theorem exec_snoc (key : O → Option K) (e : Ev K O) (es : List (Ev K O)) :
    ∀ {s s' : State K O} {ns : List (Note K O)}, exec key s (es ++ [e]) = some (s', ns) →
    ∃ t a b, exec key s es = some (t, a) ∧ step key t e = some (s', b) ∧ ns = a ++ b := by
  induction es with
  | nil =>
    intro s s' ns h
    simp only [List.nil_append, exec] at h
    cases hs : step key s e with
    | none => rw [hs] at h; cases h
    | some p =>
      rw [hs] at h
      simp only [List.append_nil, Option.some.injEq, Prod.mk.injEq] at h
      obtain ⟨rfl, rfl⟩ := h
      exact ⟨s, [], p.2, rfl, hs, rfl⟩
  | cons e' es ih =>
    intro s s' ns h
    simp only [List.cons_append, exec] at h
    cases hs : step key s e' with
    | none => rw [hs] at h; cases h
    | some p =>
      rw [hs] at h
      dsimp only at h
      cases hx : exec key p.1 (es ++ [e]) with
      | none => rw [hx] at h; cases h
      | some r =>
        rw [hx] at h
        simp only [Option.some.injEq, Prod.mk.injEq] at h
        obtain ⟨rfl, rfl⟩ := h
        obtain ⟨t, a, b, h1, h2, h3⟩ := ih hx
        exact ⟨t, p.2 ++ a, b, by simp only [exec, hs, h1], h2, by rw [h3, List.append_assoc]⟩

/-- What queue and indexer satisfy. -/
private structure Fine (key : O → Option K) (s : State K O) (logs : Nat → List (Entry K O)) : Prop where
  inv : ∀ r, Inv key ⟨s.q r, s.items⟩ (logs r)
  hand : ∀ r ds, s.hand r = some ds → ∀ d ∈ ds, ∃ k, keyOf key d.object = some k

private theorem fine_init (key : O → Option K) : Fine key (init : State K O) fun _ => [] :=
  ⟨fun _ => Informer.inv_init key, by intro r ds h; cases h⟩

/-- What a step does to the logs. -/
private def stepLogs (key : O → Option K) (s : State K O) (logs : Nat → List (Entry K O)) :
    Ev K O → Nat → List (Entry K O)
  | .call r e => put logs r (logs r ++ evEntries key ⟨s.q r, s.items⟩ (logs r) e)
  | .pop r => put logs r (logs r ++ ((s.q r).queue.head?.map Entry.popped).toList)
  | _ => logs

private theorem pop_facts {key : O → Option K} {s : State K O} {logs : Nat → List (Entry K O)}
    (h : Fine key s logs) {r : Nat} {s' : State K O} {ns : List (Note K O)}
    (hs : step key s (.pop r) = some (s', ns)) :
    ∃ k, s.hand r = none ∧ ns = [] ∧ pendingOf k (logs r) ≠ [] ∧ stepLogs key s logs (.pop r) = put logs r (logs r ++ [.popped k]) ∧
      s' = { s with q := put s.q r (DeltaFifo.popLoop (s.q r) .ok (s.q r).queue 0).1
                    hand := put s.hand r (some (pendingOf k (logs r))) } ∧
      DeltaFifo.Sim key (DeltaFifo.popLoop (s.q r) .ok (s.q r).queue 0).1 (logs r ++ [.popped k]) := by
  simp only [step] at hs
  split at hs
  · rename_i ds hh hn
    cases hs
    have hsim := (h.inv r).sim
    rcases DeltaFifo.pop_cases hsim .ok with ⟨h1, h2⟩ | ⟨k, rest, hq, hp, h2⟩
    · exfalso
      simp only [nextDeltas] at hn
      dsimp only at h2
      rw [h2] at hn
      cases hc : (s.q r).closed <;> simp [hc] at hn
    · dsimp only at hq h2
      have hds : ds = pendingOf k (logs r) := by
        simp only [nextDeltas, h2, DeltaFifo.finish] at hn
        exact (Option.some.inj hn).symm
      subst hds
      refine ⟨k, hh, rfl, hp, ?_, rfl, ?_⟩
      · simp [stepLogs, hq]
      · have := DeltaFifo.sim_step hsim (.pop .ok)
        simp only [DeltaFifo.step] at this
        rw [h2] at this ⊢
        simpa [DeltaFifo.finish, entries] using this
  · cases hs

private theorem fine_step {key : O → Option K} {s : State K O} {logs : Nat → List (Entry K O)}
    (h : Fine key s logs) {e : Ev K O} {s' : State K O} {ns : List (Note K O)}
    (hs : step key s e = some (s', ns)) : Fine key s' (stepLogs key s logs e) := by
  cases e with
  | call r e =>
    have hne : (∀ f, e ≠ .pop f) ∧ s' = { s with q := put s.q r (Informer.step key ⟨s.q r, s.items⟩ e).1.q } := by
      simp only [step] at hs
      split at hs
      · cases hs
      · cases hs
      · rename_i hne
        cases hs
        exact ⟨by rintro f rfl; exact hne _ rfl, rfl⟩
    obtain ⟨-, rfl⟩ := hne
    refine ⟨fun v => ?_, h.hand⟩
    by_cases hv : v = r
    · subst hv
      have := (Informer.inv_step (h.inv v) e).1
      simp only [stepLogs, put, if_true]
      exact ⟨this.sim, (h.inv v).wf, (h.inv v).own, this.keyed⟩
    · simp only [stepLogs, put, hv, if_false]
      exact h.inv v
  | pop r =>
    obtain ⟨k, hh, -, hp, hl, rfl, hsim⟩ := pop_facts h hs
    rw [hl]
    constructor
    · intro v
      by_cases hv : v = r
      · subst hv
        simp only [put, if_true]
        refine ⟨hsim, (h.inv v).wf, (h.inv v).own, ?_⟩
        intro j d hd
        rw [DeltaFifo.pendingOf_popped] at hd
        split at hd
        · cases hd
        · exact (h.inv v).keyed j d hd
      · simp only [put, hv, if_false]
        exact h.inv v
    · intro v ds hds d hd
      by_cases hv : v = r
      · subst hv
        simp only [put, if_true, Option.some.injEq] at hds
        subst hds
        exact ⟨k, (h.inv v).keyed k d hd⟩
      · simp only [put, hv, if_false] at hds
        exact h.hand v ds hds d hd
  | lock r =>
    simp only [step] at hs
    split at hs
    · cases hs; exact ⟨h.inv, h.hand⟩
    · cases hs
  | done r =>
    simp only [step] at hs
    split at hs
    · split at hs
      · cases hs
        refine ⟨h.inv, fun v ds hds => ?_⟩
        simp only [put] at hds
        split at hds
        · cases hds
        · exact h.hand v ds hds
      · cases hs
    · cases hs
  | apply r =>
    simp only [step] at hs
    split at hs
    · rename_i d ds hh
      obtain ⟨k, hk⟩ := h.hand r _ hh d (by simp)
      obtain ⟨items', n, ha, hw, hg, -⟩ := Informer.applyOne_spec (h.inv r).wf hk
      dsimp only at ha
      rw [ha] at hs
      split at hs
      · cases hs
        constructor
        · intro v
          refine ⟨(h.inv v).sim, hw, ?_, (h.inv v).keyed⟩
          intro j x hx
          rw [hg] at hx
          split at hx
          · rename_i hj
            subst hj
            split at hx
            · cases hx
            · cases hx; exact hk
          · exact (h.inv v).own j x hx
        · intro v es hes d' hd'
          simp only [put] at hes
          split at hes
          · rename_i hv
            cases hes
            exact h.hand r _ hh d' (by simp [hd'])
          · exact h.hand v es hes d' hd'
      · cases hs
    · cases hs

private theorem fine_exec {key : O → Option K} (es : List (Ev K O)) : ∀ {s : State K O} {ns : List (Note K O)},
    exec key init es = some (s, ns) → ∃ logs, Fine key s logs := by
  induction es using List.reverseRecOn with
  | nil =>
    intro s ns h
    cases h
    exact ⟨_, fine_init key⟩
  | append_singleton es e ih =>
    intro s ns h
    obtain ⟨t, a, b, h1, h2, -⟩ := exec_snoc key e es h
    obtain ⟨logs, hf⟩ := ih h1
    exact ⟨_, fine_step hf h2⟩

private theorem coherent_append {key : O → Option K} (a b : List (Note K O)) : ∀ v : View K O,
    AllCoherent key v a → AllCoherent key (a.foldl (see key) v) b → AllCoherent key v (a ++ b) := by
  induction a with
  | nil => intro v _ h; exact h
  | cons n a ih => intro v h1 h2; exact ⟨h1.1, ih _ h1.2 h2⟩

/-- **C114**: whatever the calls of `run` do: what is distributed is coherent (additions of absent objects, updates
with the object distributed last), and who follows it has what is in the indexer. -/
theorem C114_coherent (key : O → Option K) (es : List (Ev K O)) (s : State K O) (ns : List (Note K O))
    (h : exec key init es = some (s, ns)) :
    AllCoherent key (fun _ => none) ns ∧ ∀ k, ns.foldl (see key) (fun _ => none) k = s.items.get? k := by
  suffices hh : AllCoherent key (fun _ => none) ns ∧ ns.foldl (see key) (fun _ => none) = viewOf s.items from
    ⟨hh.1, fun k => congrFun hh.2 k⟩
  induction es using List.reverseRecOn generalizing s ns with
  | nil => cases h; exact ⟨trivial, rfl⟩
  | append_singleton es e ih =>
    obtain ⟨t, a, b, h1, h2, rfl⟩ := exec_snoc key e es h
    obtain ⟨g1, g2⟩ := ih t a h1
    obtain ⟨logs, hf⟩ := fine_exec es h1
    have hb : AllCoherent key (viewOf t.items) b ∧ b.foldl (see key) (viewOf t.items) = viewOf s.items := by
      have same : b = [] → s.items = t.items →
          AllCoherent key (viewOf t.items) b ∧ b.foldl (see key) (viewOf t.items) = viewOf s.items := by
        rintro rfl h
        rw [h]
        exact ⟨trivial, rfl⟩
      cases e with
      | call r e =>
        simp only [step] at h2
        split at h2
        · cases h2
        · cases h2
        · cases h2; exact same rfl rfl
      | pop r =>
        simp only [step] at h2
        split at h2
        · cases h2; exact same rfl rfl
        · cases h2
      | lock r =>
        simp only [step] at h2
        split at h2
        · cases h2; exact same rfl rfl
        · cases h2
      | done r =>
        simp only [step] at h2
        split at h2
        · split at h2
          · cases h2; exact same rfl rfl
          · cases h2
        · cases h2
      | apply r =>
        simp only [step] at h2
        split at h2
        · rename_i d ds hh
          obtain ⟨k, hk⟩ := hf.hand r _ hh d (by simp)
          obtain ⟨items', n, ha, hw, hg, hs, hc, -⟩ := Informer.applyOne_spec (hf.inv r).wf hk
          dsimp only at ha hs hc
          rw [ha] at h2
          split at h2
          · cases h2
            exact ⟨⟨hc, trivial⟩, hs⟩
          · cases h2
        · cases h2
    refine ⟨coherent_append _ _ _ g1 (by rw [g2]; exact hb.1), ?_⟩
    rw [List.foldl_append, g2, hb.2]

/-! ### Convergence -/

private theorem after_ne {v w : Option (Obj K O)} {ds : Deltas K O} (h : ds ≠ []) : after v ds = after w ds := by
  rcases List.eq_nil_or_concat ds with rfl | ⟨a, d, rfl⟩
  · exact absurd rfl h
  · rw [List.concat_eq_append, Informer.after_snoc, Informer.after_snoc]

/-- The changes of `k` that call `r` has taken and not yet applied. -/
private def handAt (key : O → Option K) (s : State K O) (r : Nat) (k : K) : Deltas K O :=
  ((s.hand r).getD []).filter fun d => keyOf key d.object = some k

/-- All changes of `k` that call `r` has not yet applied. -/
private def todo (key : O → Option K) (s : State K O) (logs : Nat → List (Entry K O)) (r : Nat) (k : K) :
    Deltas K O :=
  handAt key s r k ++ pendingOf k (logs r)

/-- `lp`: who applied the last change of a key. -/
private structure Ok (key : O → Option K) (s : State K O) (logs : Nat → List (Entry K O)) (lp : K → Option Nat)
    (calls : Nat → List (Informer.Ev K O)) : Prop where
  fresh : ∀ r, calls r = [] → logs r = [] ∧ s.hand r = none
  last : ∀ k r, lp k = some r → calls r ≠ []
  right : ∀ r k, (todo key s logs r k ≠ [] ∨ lp k = some r ∨ lp k = none) →
    after (s.items.get? k) (todo key s logs r k) = target key (calls r) k

private theorem once_prefix {key : O → Option K} {cs : List (Informer.Ev K O)} {e : Informer.Ev K O}
    (h : ListsOnce key (cs ++ [e])) :
    (cs = [] ∧ ∃ xs, e = .replace xs ∧ ∀ x ∈ xs, (keyOf key x).isSome) ∨
    (cs ≠ [] ∧ ListsOnce key cs ∧ Informer.Spec.Ev.noList e ∧ e ≠ .resync) := by
  rcases h with h | ⟨xs, rest, h, hx, hr⟩
  · simp at h
  · cases cs with
    | nil =>
      left
      simp only [List.nil_append, List.cons.injEq] at h
      exact ⟨rfl, xs, h.1, hx⟩
    | cons c cs =>
      right
      simp only [List.cons_append, List.cons.injEq] at h
      obtain ⟨rfl, rfl⟩ := h
      refine ⟨by simp, Or.inr ⟨xs, cs, rfl, hx, fun e he => hr e (by simp [he])⟩, hr e (by simp)⟩

private theorem other_key {key : O → Option K} {s : Informer.State K O} {log : List (Entry K O)} {e : Informer.Ev K O}
    (hn : Informer.Spec.Ev.noList e) (hr : e ≠ .resync) (hp : ∀ f, e ≠ .pop f) {k : K} (hk : eventKey key e ≠ some k) :
    pendingOf k (log ++ evEntries key s log e) = pendingOf k log := by
  cases e with
  | add x =>
    simp only [eventKey] at hk
    simp only [evEntries, Informer.opOf, entries]
    cases hx : keyOf key x with
    | none => simp
    | some j =>
      have : j ≠ k := by rintro rfl; exact hk hx
      simp [DeltaFifo.pendingOf_change, this]
  | update x =>
    simp only [eventKey] at hk
    simp only [evEntries, Informer.opOf, entries]
    cases hx : keyOf key x with
    | none => simp
    | some j =>
      have : j ≠ k := by rintro rfl; exact hk hx
      simp [DeltaFifo.pendingOf_change, this]
  | delete x =>
    simp only [eventKey] at hk
    simp only [evEntries, Informer.opOf]
    cases hx : keyOf key x with
    | none => simp [entries, hx]
    | some j =>
      have : k ≠ j := by rintro rfl; exact hk hx
      rw [DeltaFifo.pendingOf_delete key log _ x j hx k]
      simp [this]
  | replace xs => exact hn.elim
  | resync => exact absurd rfl hr
  | pop f => exact absurd rfl (hp f)

private theorem same_key {key : O → Option K} {e : Informer.Ev K O} {k : K} (hk : eventKey key e = some k)
    (v w : View K O) : watched key v e k = watched key w e k := by
  cases e with
  | add x | update x | delete x =>
    simp only [eventKey] at hk
    simp [watched, hk, View.put]
  | _ => cases hk

private theorem ok_init (key : O → Option K) : Ok key (init : State K O) (fun _ => []) (fun _ => none) fun _ => [] :=
  ⟨fun _ _ => ⟨rfl, rfl⟩, fun _ _ h => (nomatch h), fun r k _ => rfl⟩

private theorem ok_call {key : O → Option K} {s : State K O} {logs : Nat → List (Entry K O)} {lp : K → Option Nat}
    {calls : Nat → List (Informer.Ev K O)} (hf : Fine key s logs) (h : Ok key s logs lp calls) {r : Nat}
    {e : Informer.Ev K O} (hh : s.hand r = none) (hp : ∀ f, e ≠ .pop f) (ho : ListsOnce key (calls r ++ [e])) :
    Ok key { s with q := put s.q r (Informer.step key ⟨s.q r, s.items⟩ e).1.q }
      (stepLogs key s logs (.call r e)) lp (put calls r (calls r ++ [e])) := by
  have hat : ∀ k, handAt key s r k = [] := by intro k; simp [handAt, hh]
  constructor
  · intro v hv
    by_cases hvr : v = r
    · subst hvr; simp [put] at hv
    · simp only [put, hvr, if_false, stepLogs] at hv ⊢
      exact h.fresh v hv
  · intro k v hv
    by_cases hvr : v = r
    · subst hvr; simp [put]
    · simp only [put, hvr, if_false]; exact h.last k v hv
  · intro v k hk
    by_cases hvr : v = r
    · subst hvr
      have hold := h.right v k
      simp only [todo, stepLogs, put, if_true] at hk ⊢
      simp only [todo] at hold
      have hat' : handAt key { s with q := put s.q v (Informer.step key ⟨s.q v, s.items⟩ e).1.q } v k = [] := hat k
      rw [hat', List.nil_append] at hk ⊢
      rw [hat, List.nil_append] at hold
      have hitems : (Informer.step key ⟨s.q v, s.items⟩ e).1.items = s.items := by
        cases e with
        | pop f => exact absurd rfl (hp f)
        | _ => rfl
      rcases once_prefix ho with ⟨hc, xs, rfl, hx⟩ | ⟨hc, hoc, hn, hr⟩
      · have hl := (h.fresh v hc).1
        have hclean : Informer.Spec.CleanAt key ⟨s.q v, s.items⟩ xs k := by
          have hpend : Informer.Spec.pending ⟨s.q v, s.items⟩ k = [] := by
            rw [Informer.Spec.pending, (hf.inv v).sim.getD, hl]; rfl
          refine ⟨?_, fun h => absurd hpend h⟩
          rintro - ⟨d, h1, -⟩
          rw [hpend] at h1
          cases h1
        have := Informer.eventual_replace (hf.inv v) xs hx k hclean
        simp only [eventual, hitems] at this
        rw [this, hc]
        rfl
      · have hev := congrFun (Informer.eventual_event (key := key) (s := ⟨s.q v, s.items⟩) (log := logs v) e hp hn hr) k
        have ht : target key (calls v ++ [e]) k = watched key (target key (calls v)) e k := by
          simp [target, List.foldl_append]
        rw [ht]
        simp only [eventual, hitems] at hev
        rw [hev]
        by_cases hek : eventKey key e = some k
        · exact same_key hek _ _
        · refine Informer.watched_congr key k _ _ ?_ e
          rw [other_key hn hr hp hek] at hk
          exact hold hk
    · have : todo key { s with q := put s.q r (Informer.step key ⟨s.q r, s.items⟩ e).1.q }
          (stepLogs key s logs (.call r e)) v k = todo key s logs v k := by
        simp [todo, handAt, stepLogs, put, hvr]
      rw [this] at hk ⊢
      simp only [put, hvr, if_false]
      exact h.right v k hk

private theorem ok_pop {key : O → Option K} {s : State K O} {logs : Nat → List (Entry K O)} {lp : K → Option Nat}
    {calls : Nat → List (Informer.Ev K O)} (hf : Fine key s logs) (h : Ok key s logs lp calls) {r : Nat}
    {s' : State K O} {ns : List (Note K O)} (hs : step key s (.pop r) = some (s', ns)) :
    Ok key s' (stepLogs key s logs (.pop r)) lp calls := by
  obtain ⟨k, hh, -, hp, hl, rfl, -⟩ := pop_facts hf hs
  rw [hl]
  have htodo : ∀ v j, todo key { s with
        q := put s.q r (DeltaFifo.popLoop (s.q r) .ok (s.q r).queue 0).1
        hand := put s.hand r (some (pendingOf k (logs r))) } (put logs r (logs r ++ [.popped k])) v j =
      todo key s logs v j := by
    intro v j
    by_cases hv : v = r
    · subst hv
      simp only [todo, handAt, put, if_true, hh, Option.getD_some, Option.getD_none, List.filter_nil, List.nil_append,
        DeltaFifo.pendingOf_popped]
      have hkeyed := (hf.inv v).keyed k
      by_cases hj : k = j
      · subst hj
        simp only [if_true, List.append_nil]
        rw [List.filter_eq_self]
        intro d hd
        simpa using hkeyed d hd
      · simp only [hj, if_false]
        rw [List.filter_eq_nil_iff.2, List.nil_append]
        intro d hd
        rw [hkeyed d hd]
        simpa using hj
    · simp [todo, handAt, put, hv]
  constructor
  · intro v hv
    by_cases hvr : v = r
    · subst hvr
      exfalso
      rw [(h.fresh v hv).1] at hp
      exact hp rfl
    · simp only [put, hvr, if_false]
      exact h.fresh v hv
  · exact h.last
  · intro v j hj
    rw [htodo] at hj ⊢
    exact h.right v j hj

private theorem ok_apply {key : O → Option K} {s : State K O} {logs : Nat → List (Entry K O)} {lp : K → Option Nat}
    {calls : Nat → List (Informer.Ev K O)} (hf : Fine key s logs) (h : Ok key s logs lp calls) {r : Nat}
    {s' : State K O} {ns : List (Note K O)} (hs : step key s (.apply r) = some (s', ns)) :
    ∃ lp', Ok key s' logs lp' calls := by
  simp only [step] at hs
  split at hs
  · rename_i d ds hh
    obtain ⟨k, hk⟩ := hf.hand r _ hh d (by simp)
    obtain ⟨items', n, ha, hw, hg, -⟩ := Informer.applyOne_spec (hf.inv r).wf hk
    dsimp only at ha hg
    rw [ha] at hs
    split at hs
    · cases hs
      have hcr : calls r ≠ [] := by
        intro hc
        rw [(h.fresh r hc).2] at hh
        cases hh
      refine ⟨fun j => if j = k then some r else lp j, ?_, ?_, ?_⟩
      · intro v hv
        have hvr : v ≠ r := by rintro rfl; exact hcr hv
        simp only [put, hvr, if_false]
        exact h.fresh v hv
      · intro j v hj
        split at hj
        · cases hj; exact hcr
        · exact h.last j v hj
      · intro v j hj
        have hold := h.right v j
        by_cases hvr : v = r
        · subst hvr
          by_cases hjk : j = k
          · subst hjk
            have ht : todo key s logs v j = d :: todo key { s with items := items', hand := put s.hand v (some ds) } logs v j := by
              simp [todo, handAt, put, hh, hk]
            rw [ht] at hold
            rw [← hold (Or.inl (by simp))]
            rw [hg]
            simp only [if_true, after, List.foldl_cons]
          · have ht : todo key { s with items := items', hand := put s.hand v (some ds) } logs v j = todo key s logs v j := by
              have : ¬ k = j := Ne.symm hjk
              simp [todo, handAt, put, hh, hk, this]
            rw [ht] at hj ⊢
            dsimp only at hj ⊢
            rw [if_neg hjk] at hj
            rw [hg, if_neg hjk]
            exact hold hj
        · have ht : todo key { s with items := items', hand := put s.hand r (some ds) } logs v j = todo key s logs v j := by
            simp [todo, handAt, put, hvr]
          rw [ht] at hj ⊢
          dsimp only at hj ⊢
          by_cases hjk : j = k
          · subst hjk
            simp only [if_true, Option.some.injEq, reduceCtorEq, or_false] at hj
            rcases hj with hj | hj
            · rw [after_ne (w := s.items.get? j) hj]
              exact hold (Or.inl hj)
            · exact absurd hj.symm hvr
          · rw [if_neg hjk] at hj
            rw [hg, if_neg hjk]
            exact hold hj
    · cases hs
  · cases hs

private theorem calls_snoc (es : List (Ev K O)) (e : Ev K O) (r : Nat) :
    callsOf r (es ++ [e]) = callsOf r es ++ callsOf r [e] := by
  simp [callsOf, List.filterMap_append]

private theorem ok_exec {key : O → Option K} (es : List (Ev K O)) : ∀ {s : State K O} {ns : List (Note K O)},
    exec key init es = some (s, ns) → (∀ r, ListsOnce key (callsOf r es)) →
    ∃ logs lp, Fine key s logs ∧ Ok key s logs lp fun r => callsOf r es := by
  induction es using List.reverseRecOn with
  | nil =>
    intro s ns h _
    cases h
    exact ⟨_, _, fine_init key, ok_init key⟩
  | append_singleton es e ih =>
    intro s ns h ho
    obtain ⟨t, a, b, h1, h2, -⟩ := exec_snoc key e es h
    have hpre : ∀ r, ListsOnce key (callsOf r es) := by
      intro r
      have := ho r
      rw [calls_snoc] at this
      cases hc : callsOf r [e] with
      | nil => rwa [hc, List.append_nil] at this
      | cons c cs =>
        have hcs : cs = [] := by
          have hlen : (callsOf r [e]).length ≤ 1 := by
            simpa [callsOf] using List.length_filterMap_le _ [e]
          rw [hc] at hlen
          exact List.eq_nil_of_length_eq_zero (by simpa using hlen)
        rw [hc, hcs] at this
        rcases once_prefix this with ⟨h, -⟩ | ⟨-, h, -⟩
        · exact Or.inl h
        · exact h
    obtain ⟨logs, lp, hf, hok⟩ := ih h1 hpre
    have hf' := fine_step hf h2
    have hsame : (∀ r' e', e ≠ .call r' e') → (fun r => callsOf r (es ++ [e])) = fun r => callsOf r es := by
      intro hne
      funext r
      rw [calls_snoc]
      cases e with
      | call r' e' => exact absurd rfl (hne r' e')
      | _ => simp [callsOf]
    cases e with
    | call r e =>
      have hcs : (fun v => callsOf v (es ++ [.call r e])) = put (fun v => callsOf v es) r (callsOf r es ++ [e]) := by
        funext v
        rw [calls_snoc]
        by_cases hv : v = r
        · subst hv; simp [put, callsOf]
        · simp [put, callsOf, hv, Ne.symm hv]
      rw [hcs]
      have hor := ho r
      have := congrFun hcs r
      rw [this] at hor
      simp only [put, if_true] at hor
      simp only [step] at h2
      split at h2
      · cases h2
      · cases h2
      · rename_i hh hne
        cases h2
        exact ⟨_, lp, hf', ok_call hf hok hh (by rintro f rfl; exact hne _ rfl) hor⟩
    | pop r => rw [hsame nofun]; exact ⟨_, lp, hf', ok_pop hf hok h2⟩
    | apply r =>
      rw [hsame nofun]
      obtain ⟨lp', h⟩ := ok_apply hf hok h2
      exact ⟨_, lp', hf', h⟩
    | lock r =>
      rw [hsame nofun]
      refine ⟨_, lp, hf', ?_⟩
      simp only [step] at h2
      split at h2
      · cases h2; exact ⟨hok.fresh, hok.last, hok.right⟩
      · cases h2
    | done r =>
      rw [hsame nofun]
      refine ⟨_, lp, hf', ?_⟩
      simp only [step] at h2
      split at h2
      · rename_i hh
        split at h2
        · cases h2
          have ht : ∀ v k, todo key { t with hand := put t.hand r none, holder := none } logs v k = todo key t logs v k := by
            intro v k
            by_cases hv : v = r
            · subst hv; simp [todo, handAt, put, hh]
            · simp [todo, handAt, put, hv]
          refine ⟨fun v hv => ⟨(hok.fresh v hv).1, ?_⟩, hok.last, fun v k hk => ?_⟩
          · simp only [put]
            split
            · rfl
            · exact (hok.fresh v hv).2
          · simp only [stepLogs] at hk ⊢
            rw [ht] at hk ⊢
            exact hok.right v k hk
        · cases h2
      · cases h2

/-- **C114**: when nothing is pending the indexer has what the reflectors report, if they agree; for any number of
calls of `run`, whose reflectors list once, at different times, and get the changes later or sooner.  Missing:
resyncs (see `C114_refuted`) and further lists. -/
theorem C114_converges_partial (key : O → Option K) (es : List (Ev K O)) (s : State K O) (ns : List (Note K O))
    (h : exec key init es = some (s, ns)) (ho : ∀ r, ListsOnce key (callsOf r es)) (hd : Drained s) (k : K)
    (v : Option (Obj K O)) (hv : ∀ r, callsOf r es ≠ [] → target key (callsOf r es) k = v)
    (hsome : ∃ r, callsOf r es ≠ []) : s.items.get? k = v := by
  obtain ⟨logs, lp, hf, hok⟩ := ok_exec es h ho
  have hnil : ∀ r, todo key s logs r k = [] := by
    intro r
    have : pendingOf k (logs r) = [] := by
      by_contra hc
      have := ((hf.inv r).sim.mem k).2 hc
      rw [← (hf.inv r).sim.queue] at this
      dsimp only at this
      rw [(hd r).1] at this
      cases this
    simp [todo, handAt, this, (hd r).2]
  cases hl : lp k with
  | none =>
    obtain ⟨r, hr⟩ := hsome
    have := hok.right r k (Or.inr (Or.inr hl))
    rw [hnil] at this
    exact this.trans (hv r hr)
  | some r =>
    have := hok.right r k (Or.inr (Or.inl hl))
    rw [hnil] at this
    exact this.trans (hv r (hok.last k r hl))

/-! ### A resync spreads an old object -/

private def exKey : Nat × Nat → Option Nat := fun x => some x.1

/-- The deltas that call `r` has popped are applied. -/
private def round (r : Nat) : List (Ev Nat (Nat × Nat)) := [.pop r, .lock r, .apply r, .done r]

/-- Both list object 1 in version 4.  Call 0 gets version 5, and applies it before call 1 applies its list. -/
private def lag : List (Ev Nat (Nat × Nat)) :=
  [.call 0 (.replace [.real (1, 4)]), .call 1 (.replace [.real (1, 4)])] ++ round 0 ++
    [.call 0 (.update (.real (1, 5)))] ++ round 0 ++ round 1

/-- Then call 1 gets version 5, too. -/
private def catchUp : List (Ev Nat (Nat × Nat)) := [.call 1 (.update (.real (1, 5)))] ++ round 1

/-- Between them call 0 makes a resync, and takes its time with what it has queued. -/
private def stale : List (Ev Nat (Nat × Nat)) := lag ++ [.call 0 .resync] ++ catchUp ++ round 0

/-- Whose event it is. -/
private def who : Ev K O → Nat
  | .call r _ => r
  | .pop r => r
  | .lock r => r
  | .apply r => r
  | .done r => r

private theorem other_step {key : O → Option K} {s s' : State K O} {ns : List (Note K O)} {e : Ev K O} {v : Nat}
    (hv : v ≠ who e) (h : step key s e = some (s', ns)) : s'.q v = s.q v ∧ s'.hand v = s.hand v := by
  cases e <;> simp only [step] at h <;> simp only [who] at hv <;> (repeat' split at h) <;> cases h <;>
    simp [put, hv]

private theorem other_exec {key : O → Option K} {v : Nat} (es : List (Ev K O)) : ∀ {s s' : State K O}
    {ns : List (Note K O)}, (∀ e ∈ es, v ≠ who e) → exec key s es = some (s', ns) →
    s'.q v = s.q v ∧ s'.hand v = s.hand v := by
  induction es with
  | nil => intro s s' ns _ h; cases h; exact ⟨rfl, rfl⟩
  | cons e es ih =>
    intro s s' ns hv h
    simp only [exec] at h
    cases hs : step key s e with
    | none => rw [hs] at h; cases h
    | some p =>
      rw [hs] at h
      dsimp only at h
      cases hx : exec key p.1 es with
      | none => rw [hx] at h; cases h
      | some r =>
        rw [hx] at h
        cases h
        have h1 := other_step (hv e (by simp)) hs
        have h2 := ih (fun e he => hv e (by simp [he])) hx
        exact ⟨h2.1.trans h1.1, h2.2.trans h1.2⟩

/-- The end of a run of two calls. -/
private theorem two_ends (es : List (Ev Nat (Nat × Nat))) (hw : ∀ e ∈ es, who e = 0 ∨ who e = 1)
    (items : PyDict Nat (Obj Nat (Nat × Nat)))
    (h : (exec exKey init es).map (fun p => ((p.1.q 0).queue, (p.1.q 1).queue, p.1.hand 0, p.1.hand 1, p.1.items)) =
      some ([], [], none, none, items)) :
    ∃ s ns, exec exKey init es = some (s, ns) ∧ Drained s ∧ s.items = items := by
  cases hx : exec exKey init es with
  | none => rw [hx] at h; cases h
  | some p =>
    rw [hx] at h
    simp only [Option.map_some, Option.some.injEq, Prod.mk.injEq] at h
    obtain ⟨h1, h2, h3, h4, h5⟩ := h
    refine ⟨p.1, p.2, rfl, fun r => ?_, h5⟩
    by_cases h0 : r = 0
    · subst h0; exact ⟨h1, h3⟩
    · by_cases h1' : r = 1
      · subst h1'; exact ⟨h2, h4⟩
      · have := other_exec (v := r) es (by
          intro e he
          rcases hw e he with h | h <;> rw [h] <;> assumption) hx
        rw [this.1, this.2]
        exact ⟨rfl, rfl⟩

private theorem two_calls {es : List (Ev Nat (Nat × Nat))} (hw : ∀ e ∈ es, who e = 0 ∨ who e = 1)
    {P : List (Informer.Ev Nat (Nat × Nat)) → Prop} (h0 : P (callsOf 0 es)) (h1 : P (callsOf 1 es)) (h2 : P [])
    (r : Nat) : P (callsOf r es) := by
  by_cases hr0 : r = 0
  · subst hr0; exact h0
  · by_cases hr1 : r = 1
    · subst hr1; exact h1
    · have : callsOf r es = [] := by
        simp only [callsOf, List.filterMap_eq_nil_iff]
        intro e he
        have := hw e he
        cases e with
        | call v e =>
          simp only [who] at this
          have : ¬ v = r := by omega
          simp [this]
        | _ => rfl
      rw [this]
      exact h2

/-- **C114** is false with resyncs: both calls list once, both get version 5 of object 1, nothing is pending, and
the indexer has version 4. -/
theorem C114_refuted : ∃ (es : List (Ev Nat (Nat × Nat))) (s : State Nat (Nat × Nat)) (ns : List (Note Nat (Nat × Nat))),
    exec (fun x => some x.1) init es = some (s, ns) ∧ Drained s ∧
    (∀ r, callsOf r es = [] ∨ ∃ xs rest, callsOf r es = .replace xs :: rest ∧ ∀ e ∈ rest, Informer.Spec.Ev.noList e) ∧
    (∀ r, callsOf r es ≠ [] → target (fun x => some x.1) (callsOf r es) 1 = some (.real (1, 5))) ∧
    (∃ r, callsOf r es ≠ []) ∧ s.items.get? 1 = some (.real (1, 4)) := by
  have hw : ∀ e ∈ stale, who e = 0 ∨ who e = 1 := by simp [stale, lag, catchUp, round, who]
  obtain ⟨s, ns, h1, h2, h3⟩ := two_ends stale hw [(1, .real (1, 4))] (by rfl)
  have c0 : callsOf 0 stale = [.replace [.real (1, 4)], .update (.real (1, 5)), .resync] := by
    simp [stale, lag, catchUp, round, callsOf]
  have c1 : callsOf 1 stale = [.replace [.real (1, 4)], .update (.real (1, 5))] := by
    simp [stale, lag, catchUp, round, callsOf]
  refine ⟨stale, s, ns, h1, h2, ?_, ?_, ⟨0, by rw [c0]; simp⟩, by rw [h3]; rfl⟩
  · refine two_calls (P := fun cs => cs = [] ∨ ∃ xs rest, cs = .replace xs :: rest ∧
      ∀ e ∈ rest, Informer.Spec.Ev.noList e) hw ?_ ?_ (Or.inl rfl)
    · exact Or.inr ⟨_, _, c0, by simp [Informer.Spec.Ev.noList]⟩
    · exact Or.inr ⟨_, _, c1, by simp [Informer.Spec.Ev.noList]⟩
  · refine two_calls (P := fun cs => cs ≠ [] → target (fun x => some x.1) cs 1 = some (.real (1, 5))) hw ?_ ?_ ?_
    · rw [c0]; intro _; rfl
    · rw [c1]; intro _; rfl
    · intro h; exact absurd rfl h

/-- The hypotheses of `C114_converges_partial`: the same without the resync.  Version 4 comes after version 5, and
then version 5 again. -/
example : ∃ s ns, exec exKey init (lag ++ catchUp) = some (s, ns) ∧ Drained s ∧
    (∀ r, ListsOnce exKey (callsOf r (lag ++ catchUp))) ∧
    (∀ r, callsOf r (lag ++ catchUp) ≠ [] → target exKey (callsOf r (lag ++ catchUp)) 1 = some (.real (1, 5))) ∧
    (∃ r, callsOf r (lag ++ catchUp) ≠ []) ∧ s.items = [(1, .real (1, 5))] := by
  have hw : ∀ e ∈ lag ++ catchUp, who e = 0 ∨ who e = 1 := by simp [lag, catchUp, round, who]
  obtain ⟨s, ns, h1, h2, h3⟩ := two_ends (lag ++ catchUp) hw [(1, .real (1, 5))] (by rfl)
  have c0 : callsOf 0 (lag ++ catchUp) = [.replace [.real (1, 4)], .update (.real (1, 5))] := by
    simp [lag, catchUp, round, callsOf]
  have c1 : callsOf 1 (lag ++ catchUp) = [.replace [.real (1, 4)], .update (.real (1, 5))] := by
    simp [lag, catchUp, round, callsOf]
  refine ⟨s, ns, h1, h2, ?_, ?_, ⟨0, by rw [c0]; simp⟩, h3⟩
  · refine two_calls (P := ListsOnce exKey) hw ?_ ?_ (Or.inl rfl)
    · exact Or.inr ⟨_, _, c0, by simp [keyOf, exKey], by simp [Informer.Spec.Ev.noList]⟩
    · exact Or.inr ⟨_, _, c1, by simp [keyOf, exKey], by simp [Informer.Spec.Ev.noList]⟩
  · refine two_calls (P := fun cs => cs ≠ [] → target exKey cs 1 = some (.real (1, 5))) hw ?_ ?_ ?_
    · rw [c0]; intro _; rfl
    · rw [c1]; intro _; rfl
    · intro h; exact absurd rfl h

-- what the handlers are told there
example : (exec exKey init (lag ++ catchUp)).map (·.2) =
    some [.onAdd (.real (1, 4)), .onUpdate (.real (1, 4)) (.real (1, 5)), .onUpdate (.real (1, 5)) (.real (1, 4)),
      .onUpdate (.real (1, 4)) (.real (1, 5))] := by decide +kernel

end Aiok8s.Runs
