import Verif.Spec.DelayHeap
import Verif.Proof.Heapq
import Mathlib.Data.List.Nodup
/-! # Simulation between the delay heap and the table -/
set_option linter.unusedSimpArgs false
set_option linter.unusedSectionVars false
namespace Aiok8s.DelayHeap
open Aiok8s.Heapq (IsHeap Order heappush heappop heappush_spec heappop_spec root_least)
variable {P α : Type} [LinearOrder P] [DecidableEq α]

theorem less_iff {e f : Entry P α} :
    less e f = true ↔ e.prio < f.prio ∨ (e.prio = f.prio ∧ e.count < f.count) := by
  simp [less]

theorem less_trans {e f g : Entry P α} (h1 : less e f = true) (h2 : less f g = true) :
    less e g = true := by
  rw [less_iff] at *
  rcases h1 with h1 | ⟨h1, h1'⟩ <;> rcases h2 with h2 | ⟨h2, h2'⟩
  · exact Or.inl (lt_trans h1 h2)
  · exact Or.inl (h2 ▸ h1)
  · exact Or.inl (h1 ▸ h2)
  · exact Or.inr ⟨h1.trans h2, by omega⟩

theorem less_total {e f : Entry P α} (h : e.count ≠ f.count) (h' : ¬ less e f = true) :
    less f e = true := by
  rw [less_iff] at *
  rcases lt_trichotomy e.prio f.prio with h1 | h1 | h1
  · exact absurd (Or.inl h1) h'
  · right
    refine ⟨h1.symm, ?_⟩
    by_contra hh
    exact h' (Or.inr ⟨h1, by omega⟩)
  · exact Or.inl h1

/-- Entries are compared like `(priority, count)`. -/
theorem order_less : Order (less : Entry P α → Entry P α → Bool) := by
  constructor
  · intro a b h
    rw [← Bool.not_eq_true, less_iff]
    rw [less_iff] at h
    rintro (h1 | ⟨h1, h2⟩)
    · rcases h with h | ⟨h, h'⟩
      · exact lt_asymm h h1
      · rw [h] at h1; exact lt_irrefl _ h1
    · rcases h with h | ⟨h, h'⟩
      · rw [h1] at h; exact lt_irrefl _ h
      · omega
  · intro a b c h1 h2
    rw [← Bool.not_eq_true, less_iff] at h1 h2 ⊢
    rintro (h | ⟨h, h'⟩)
    · rcases lt_trichotomy c.prio b.prio with g | g | g
      · exact h2 (Or.inl g)
      · exact h1 (Or.inl (g ▸ h))
      · exact h1 (Or.inl (lt_trans g h))
    · rcases lt_trichotomy c.prio b.prio with g | g | g
      · exact h2 (Or.inl g)
      · by_cases k : c.count < b.count
        · exact h2 (Or.inr ⟨g, k⟩)
        · exact h1 (Or.inr ⟨g.symm.trans h, by omega⟩)
      · exact h1 (Or.inl (h ▸ g))

theorem mark_heap {l : List (Entry P α)} (c : Nat) (h : IsHeap less l) : IsHeap less (mark l c) := by
  have key : ∀ e f : Entry P α, less (if e.count = c then { e with data := none } else e)
      (if f.count = c then { f with data := none } else f) = less e f := by
    intro e f
    split <;> split <;> rfl
  intro i hi h0
  have hi' : i < l.length := by simpa [mark] using hi
  simp only [mark, List.getElem_map, key]
  exact h i hi' h0

/-- The simulation relation; `T` is the table with the counts. -/
structure Sim (h : Heap P α) (T : List (α × P × Nat)) : Prop where
  heap : IsHeap less h.pq
  live : ∀ x p c, (⟨p, c, some x⟩ : Entry P α) ∈ h.pq ↔ (x, p, c) ∈ T
  cnodup : (h.pq.map Entry.count).Nodup
  cbound : ∀ e ∈ h.pq, e.count < h.counter
  tsorted : T.Pairwise (fun a b => a.2.2 < b.2.2)
  tnodup : (T.map Prod.fst).Nodup
  wf : h.finder.WF
  find : ∀ x p c, h.finder.get? x = some (p, c) ↔ (x, p, c) ∈ T
  len : h.len = T.length

theorem Sim.cdist {h : Heap P α} {T : List (α × P × Nat)} (hs : Sim h T) :
    ∀ e ∈ h.pq, ∀ f ∈ h.pq, e.count = f.count → e = f :=
  fun _ he _ hf hc => List.inj_on_of_nodup_map hs.cnodup he hf hc

/-- Forget the counts. -/
def erase (T : List (α × P × Nat)) : Table P α := T.map (fun e => (e.1, e.2.1))

theorem sim_init : Sim (init : Heap P α) [] := by
  constructor <;> simp [init, PyDict.WF_nil, IsHeap]

theorem tbound {h : Heap P α} {T : List (α × P × Nat)} (hs : Sim h T) :
    ∀ e ∈ T, e.2.2 < h.counter := by
  rintro ⟨x, p, c⟩ he
  exact hs.cbound _ ((hs.live x p c).2 he)

theorem uniq {T : List (α × P × Nat)} (hn : (T.map Prod.fst).Nodup) {x : α} {a b : P × Nat}
    (ha : (x, a) ∈ T) (hb : (x, b) ∈ T) : a = b := by
  have := List.inj_on_of_nodup_map hn ha hb rfl
  simpa using this

theorem sim_insertEntry {h : Heap P α} {T : List (α × P × Nat)} (hs : Sim h T) (x : α) (p : P)
    (hx : ∀ a, (x, a) ∉ T) (h' : Heap P α)
    (hlen : h' = { h with len := h.len + 1 }) :
    Sim (insertEntry h' x p) (T ++ [(x, p, h.counter)]) := by
  subst hlen
  have hb := tbound hs
  obtain ⟨h1, h2, h3, h4, h5, h6, h7, h8, h9⟩ := hs
  obtain ⟨g1, g2⟩ := heappush_spec order_less h.pq ⟨p, h.counter, some x⟩ h1
  refine ⟨g1, ?_, ?_, ?_, ?_, ?_, ?_, ?_, ?_⟩
  · intro y q c
    simp only [insertEntry, g2.mem_iff, List.mem_cons, Entry.mk.injEq, Option.some.injEq, h2, List.mem_append,
      List.mem_singleton, Prod.mk.injEq]
    tauto
  · refine ((g2.map Entry.count).nodup_iff).2 ?_
    rw [List.map_cons, List.nodup_cons]
    refine ⟨?_, h3⟩
    intro hc
    obtain ⟨e, he, hc⟩ := List.mem_map.1 hc
    have := h4 e he
    simp only at hc
    omega
  · intro e he
    simp only [insertEntry, g2.mem_iff, List.mem_cons] at he ⊢
    rcases he with rfl | he
    · simp
    · have := h4 e he; omega
  · rw [List.pairwise_append]
    refine ⟨h5, by simp, ?_⟩
    intro a ha b hb'
    rw [List.mem_singleton.1 hb']
    exact hb a ha
  · rw [List.map_append, List.nodup_append]
    refine ⟨h6, by simp, ?_⟩
    intro a ha b hb' hab
    simp only [List.map_cons, List.map_nil, List.mem_singleton] at hb'
    subst hb' hab
    obtain ⟨⟨y, c⟩, hy, rfl⟩ := List.mem_map.1 ha
    exact hx _ hy
  · exact PyDict.WF_set h7 _ _
  · intro y q c
    simp only [insertEntry, PyDict.get?_set, List.mem_append, List.mem_singleton, Prod.mk.injEq]
    by_cases hy : x = y
    · subst hy
      have := hx (q, c)
      simp only [if_true, Option.some.injEq, Prod.mk.injEq, this, false_or, true_and]
      tauto
    · simp only [hy, if_false, h8]
      have : y ≠ x := fun hh => hy hh.symm
      simp [this]
  · simp [insertEntry, h9]

theorem sim_removed {h : Heap P α} {T : List (α × P × Nat)} (hs : Sim h T) {x : α} {p : P} {c : Nat}
    (hx : (x, p, c) ∈ T) :
    Sim { h with finder := h.finder.del x, pq := mark h.pq c, len := h.len - 1 }
      (T.filter (fun e => e.1 ≠ x)) := by
  have hun := @uniq P α _ _ T hs.tnodup
  have hcd := hs.cdist
  obtain ⟨h1, h2, h3, h4, h5, h6, h7, h8, h9⟩ := hs
  have hlive : ∀ y q d, (⟨q, d, some y⟩ : Entry P α) ∈ mark h.pq c ↔ (y, q, d) ∈ T ∧ y ≠ x := by
    intro y q d
    simp only [mark, List.mem_map]
    constructor
    · rintro ⟨e, he, heq⟩
      by_cases hc : e.count = c
      · simp [hc] at heq
      · simp only [hc, if_false] at heq
        subst heq
        refine ⟨(h2 y q d).1 he, ?_⟩
        rintro rfl
        have := hun ((h2 y q d).1 he) hx
        simp only [Prod.mk.injEq] at this
        exact hc this.2
    · rintro ⟨hy, hyx⟩
      refine ⟨_, (h2 y q d).2 hy, ?_⟩
      have : d ≠ c := by
        rintro rfl
        have := hcd _ ((h2 y q d).2 hy) _ ((h2 x p d).2 hx) rfl
        simp only [Entry.mk.injEq, Option.some.injEq] at this
        exact hyx this.2.2
      simp [this]
  have hcnt : ∀ e : Entry P α, (if e.count = c then { e with data := none } else e).count = e.count := by
    intro e; split <;> rfl
  have hpr : ∀ e : Entry P α, (if e.count = c then { e with data := none } else e).prio = e.prio := by
    intro e; split <;> rfl
  refine ⟨?_, ?_, ?_, ?_, ?_, ?_, ?_, ?_, ?_⟩
  · exact mark_heap c h1
  · intro y q d
    rw [hlive]
    simp [List.mem_filter]
  · have : (mark h.pq c).map Entry.count = h.pq.map Entry.count := by
      simp only [mark, List.map_map]
      exact List.map_congr_left fun e _ => hcnt e
    rw [this]
    exact h3
  · intro e he
    simp only [mark, List.mem_map] at he
    obtain ⟨e', he', rfl⟩ := he
    rw [hcnt]
    exact h4 e' he'
  · exact h5.filter _
  · exact h6.sublist (List.Sublist.map _ List.filter_sublist)
  · exact PyDict.WF_del h7 _
  · intro y q d
    simp only [PyDict.get?_del h7, List.mem_filter]
    by_cases hy : x = y
    · subst hy; simp
    · have : y ≠ x := fun hh => hy hh.symm
      simp [hy, h8, this]
  · have hcount : T.length = (T.filter (fun e => e.1 ≠ x)).length + 1 := by
      have hsplit := List.append_of_mem hx
      obtain ⟨a, b, rfl⟩ := hsplit
      simp only [List.map_append, List.map_cons, List.nodup_append, List.nodup_cons] at h6
      have ha : a.filter (fun e => e.1 ≠ x) = a := by
        rw [List.filter_eq_self]
        intro e he
        have := h6.2.2 e.1 (List.mem_map_of_mem he) x (by simp)
        simpa using this
      have hb : b.filter (fun e => e.1 ≠ x) = b := by
        rw [List.filter_eq_self]
        intro e he
        have := h6.2.1.1
        simp only [List.mem_map, not_exists, not_and] at this
        simpa using this e he
      rw [List.filter_append, List.filter_cons, ha, hb]
      simp; omega
    simp only [h9, hcount]
    push_cast
    omega

theorem deadline_eq {T : List (α × P × Nat)} (hn : (T.map Prod.fst).Nodup) {x : α} {p : P} {c : Nat}
    (h : (x, p, c) ∈ T) : (erase T).deadline x = some p := by
  induction T with
  | nil => simp at h
  | cons e T ih =>
    simp only [erase, Table.deadline, List.map_cons, List.find?_cons] at ih ⊢
    simp only [List.map_cons, List.nodup_cons] at hn
    rcases List.mem_cons.1 h with rfl | h
    · simp
    · have : e.1 ≠ x := by
        rintro rfl
        exact hn.1 (List.mem_map.2 ⟨_, h, rfl⟩)
      simp only [this, decide_false]
      exact ih hn.2 h

theorem deadline_none {T : List (α × P × Nat)} {x : α} (h : ∀ a, (x, a) ∉ T) :
    (erase T).deadline x = none := by
  simp only [erase, Table.deadline, Option.map_eq_none_iff, List.find?_eq_none, List.mem_map]
  rintro _ ⟨⟨y, a⟩, he, rfl⟩
  simp only [decide_eq_true_eq]
  rintro rfl
  exact h _ he

theorem erase_filter (T : List (α × P × Nat)) (x : α) :
    erase (T.filter (fun e => e.1 ≠ x)) = (erase T).drop x := by
  simp only [erase, Table.drop, List.filter_map]
  rfl

theorem sim_insert {h : Heap P α} {T : List (α × P × Nat)} (hs : Sim h T) (x : α) (p : P) :
    ∃ T', Sim (insert h x p) T' ∧ erase T' = ((erase T).step (.insert x p)).1 := by
  by_cases hx : h.finder.has x = true
  · obtain ⟨⟨q, c⟩, hq⟩ := Option.isSome_iff_exists.1 hx
    have hm := (hs.find x q c).1 hq
    have hd := deadline_eq hs.tnodup hm
    by_cases hlt : q > p
    · have h1 := sim_removed hs hm
      have hno : ∀ a, (x, a) ∉ T.filter (fun e => e.1 ≠ x) := by simp [List.mem_filter]
      have h2 := sim_insertEntry h1 x p hno
        { h with finder := h.finder.del x, pq := mark h.pq c } (by simp)
      refine ⟨T.filter (fun e => e.1 ≠ x) ++ [(x, p, h.counter)], ?_, ?_⟩
      · simp only [insert, hx, if_true, remove, hq, hlt]
        exact h2
      · simp only [Table.step, hd, not_le.2 hlt, if_false]
        rw [← erase_filter]
        simp [erase]
    · refine ⟨T, ?_, ?_⟩
      · simp only [insert, hx, if_true, remove, hq, hlt, if_false, Bool.false_eq_true]
        exact hs
      · simp [Table.step, hd, not_lt.1 hlt]
  · have hno : ∀ a, (x, a) ∉ T := by
      rintro ⟨q, c⟩ ha
      have := (hs.find x q c).2 ha
      exact hx (by simp [PyDict.has, this])
    refine ⟨T ++ [(x, p, h.counter)], ?_, ?_⟩
    · simp only [insert, hx, if_false, Bool.false_eq_true]
      exact sim_insertEntry hs x p hno _ rfl
    · simp only [Table.step, deadline_none hno]
      simp [erase]

theorem best_of {t : Table P α} {pre post : Table P α} {x : α} {p : P}
    (ht : t = pre ++ (x, p) :: post) (hpre : ∀ e ∈ pre, p < e.2) (hpost : ∀ e ∈ post, p ≤ e.2) :
    t.best = some (x, p) := by
  subst ht
  induction pre with
  | nil =>
    simp only [List.nil_append, Table.best]
    cases hb : Table.best post with
    | none => rfl
    | some f =>
      have : f ∈ post := by
        clear hpost hpre
        induction post generalizing f with
        | nil => simp [Table.best] at hb
        | cons e post ih =>
          simp only [Table.best] at hb
          cases hb' : Table.best post with
          | none => simp [hb'] at hb; simp [hb]
          | some g =>
            simp only [hb'] at hb
            split at hb
            · simp only [Option.some.injEq] at hb; subst hb; exact List.mem_cons_of_mem _ (ih _ hb')
            · simp only [Option.some.injEq] at hb; simp [hb]
      simp [not_lt.2 (hpost f this)]
  | cons e pre ih =>
    simp only [List.cons_append, Table.best]
    rw [ih (fun f hf => hpre f (by simp [hf]))]
    simp [hpre e (by simp)]

theorem best_none {t : Table P α} (h : t.best = none) : t = [] := by
  cases t with
  | nil => rfl
  | cons e t =>
    simp only [Table.best] at h
    split at h
    · simp at h
    · split at h <;> simp at h

/-- Dropping a removed entry in front. -/
theorem sim_cons_removed {h : Heap P α} {T : List (α × P × Nat)} (hs : Sim h T)
    {e : Entry P α} {es es' : List (Entry P α)} (hpq : h.pq = e :: es) (he : e.data = none)
    (hh : IsHeap less es') (hp : es'.Perm es) : Sim { h with pq := es' } T := by
  obtain ⟨h1, h2, h3, h4, h5, h6, h7, h8, h9⟩ := hs
  rw [hpq] at h1 h2 h3 h4
  refine ⟨hh, ?_, ?_, ?_, h5, h6, h7, h8, h9⟩
  · intro x p c
    rw [← h2 x p c, hp.mem_iff]
    simp only [List.mem_cons]
    constructor
    · exact Or.inr
    · rintro (rfl | hh)
      · simp at he
      · exact hh
  · refine ((hp.map Entry.count).nodup_iff).2 ?_
    exact (List.nodup_cons.1 h3).2
  · intro e he; exact h4 e (List.mem_cons_of_mem _ (hp.mem_iff.1 he))

theorem sim_skip {T : List (α × P × Nat)} : ∀ (n : Nat) (h : Heap P α), h.pq.length ≤ n → Sim h T →
    Sim { h with pq := (peekLoop n h.pq).1 } T := by
  intro n
  induction n with
  | zero => intro h _ hs; exact hs
  | succ n ih =>
    rintro ⟨pq, fi, co, le⟩ hn hs
    cases pq with
    | nil => exact hs
    | cons e es =>
      simp only [peekLoop, List.getElem?_cons_zero]
      cases hd : e.data with
      | some x => exact hs
      | none =>
        obtain ⟨h1, -, h3⟩ := heappop_spec order_less e es hs.heap
        refine ih ⟨(heappop less (e :: es)).1, fi, co, le⟩ ?_ (sim_cons_removed hs rfl hd h1 h3)
        simp only [h3.length_eq]
        simpa using hn

theorem peekLoop_prio : ∀ (n : Nat) (pq : List (Entry P α)), pq.length ≤ n → IsHeap less pq →
    (peekLoop n pq).2 = ((peekLoop n pq).1.head?).map Entry.prio ∧
    (∀ e ∈ (peekLoop n pq).1.head?, e.data.isSome) := by
  intro n
  induction n with
  | zero => intro pq hn _; simp at hn; subst hn; simp [peekLoop]
  | succ n ih =>
    intro pq hn hh
    cases pq with
    | nil => simp [peekLoop]
    | cons e es =>
      simp only [peekLoop, List.getElem?_cons_zero]
      cases hd : e.data with
      | some x => simp [hd]
      | none =>
        obtain ⟨h1, -, h3⟩ := heappop_spec order_less e es hh
        exact ih _ (by rw [h3.length_eq]; simpa using hn) h1

theorem popLoop_eq : ∀ (n : Nat) (pq : List (Entry P α)), pq.length ≤ n → IsHeap less pq →
    popLoop n pq = match (peekLoop n pq).1 with
      | [] => ([], none)
      | e :: es => ((heappop less (e :: es)).1, e.data) := by
  intro n
  induction n with
  | zero => intro pq hn _; simp at hn; subst hn; simp [peekLoop, popLoop]
  | succ n ih =>
    intro pq hn hh
    cases pq with
    | nil => simp [peekLoop, popLoop, heappop]
    | cons e es =>
      obtain ⟨h1, h2, h3⟩ := heappop_spec order_less e es hh
      have e1 : heappop less (e :: es) = ((heappop less (e :: es)).1, some e) := by rw [← h2]
      simp only [peekLoop, popLoop, List.getElem?_cons_zero]
      rw [e1]
      simp only
      cases hd : e.data with
      | some x => simp [hd]
      | none => exact ih _ (by rw [h3.length_eq]; simpa using hn) h1

/-- The head of the heap (no removed entries in front) is the best entry of the table. -/
theorem head_best {h : Heap P α} {T : List (α × P × Nat)} (hs : Sim h T)
    {p : P} {c : Nat} {x : α} {es : List (Entry P α)} (hpq : h.pq = ⟨p, c, some x⟩ :: es) :
    (erase T).best = some (x, p) ∧ (x, p, c) ∈ T := by
  have hm : (x, p, c) ∈ T := (hs.live x p c).1 (by simp [hpq])
  refine ⟨?_, hm⟩
  obtain ⟨a, b, hab⟩ := List.append_of_mem hm
  have hmin : ∀ e ∈ T, e ≠ (x, p, c) → p < e.2.1 ∨ (p = e.2.1 ∧ c < e.2.2) := by
    rintro ⟨y, q, d⟩ he hne
    have := (hs.live y q d).2 he
    have hcne : (⟨p, c, some x⟩ : Entry P α).count ≠ (⟨q, d, some y⟩ : Entry P α).count := by
      intro hc
      have heq := hs.cdist ⟨p, c, some x⟩ (by simp [hpq]) _ this hc
      simp only [Entry.mk.injEq, Option.some.injEq] at heq
      obtain ⟨rfl, rfl, rfl⟩ := heq
      exact hne rfl
    have hh := hs.heap
    rw [hpq] at this hh
    rcases List.mem_cons.1 this with heq | hin
    · rw [heq] at hcne; exact absurd rfl hcne
    · obtain ⟨i, hi, hie⟩ := List.getElem_of_mem hin
      have h1 := root_least order_less _ hh (by simp) (i + 1) (by simpa using hi) (by omega)
      simp only [List.getElem_cons_succ, List.getElem_cons_zero, hie] at h1
      have h2 := less_total hcne.symm (by simp [h1])
      rw [less_iff] at h2
      exact h2
  have hts := hs.tsorted
  rw [hab, List.pairwise_append] at hts
  obtain ⟨-, hts2, hts3⟩ := hts
  have hts2 := (List.pairwise_cons.1 hts2).1
  apply best_of (pre := erase a) (post := erase b)
  · simp [hab, erase]
  · intro e he
    obtain ⟨⟨y, q, d⟩, hy, rfl⟩ := List.mem_map.1 he
    have hcd := hts3 _ hy (x, p, c) (by simp)
    simp only at hcd
    rcases hmin (y, q, d) (by simp [hab, hy]) (by rintro ⟨⟩; omega) with h1 | ⟨h1, h2⟩
    · exact h1
    · simp only at h2; omega
  · intro e he
    obtain ⟨⟨y, q, d⟩, hy, rfl⟩ := List.mem_map.1 he
    have hcd := hts2 _ hy
    simp only at hcd
    rcases hmin (y, q, d) (by simp [hab, hy]) (by rintro ⟨⟩; omega) with h1 | ⟨h1, h2⟩
    · exact le_of_lt h1
    · exact le_of_eq h1

theorem empty_best {h : Heap P α} {T : List (α × P × Nat)} (hs : Sim h T) (hpq : h.pq = []) :
    T = [] := by
  cases T with
  | nil => rfl
  | cons e T =>
    obtain ⟨x, p, c⟩ := e
    have := (hs.live x p c).2 (by simp)
    rw [hpq] at this
    simp at this

theorem sim_peek {h : Heap P α} {T : List (α × P × Nat)} (hs : Sim h T) :
    Sim (peek h).1 T ∧ (peek h).2 = ((erase T).best).map Prod.snd := by
  have h1 := sim_skip _ h (Nat.le_refl _) hs
  refine ⟨h1, ?_⟩
  obtain ⟨h2, h3⟩ := peekLoop_prio _ h.pq (Nat.le_refl _) hs.heap
  simp only [peek, h2]
  cases hp : (peekLoop h.pq.length h.pq).1 with
  | nil =>
    have := empty_best h1 hp
    subst this
    simp [erase, Table.best]
  | cons e es =>
    obtain ⟨p, c, d⟩ := e
    rw [hp] at h3
    have h4 := h3 ⟨p, c, d⟩ (by simp)
    obtain ⟨x, rfl⟩ := Option.isSome_iff_exists.1 h4
    have := (head_best h1 hp).1
    rw [this]; simp

theorem sim_pop {h : Heap P α} {T : List (α × P × Nat)} (hs : Sim h T) :
    (T = [] ∧ (pop h).2 = none ∧ Sim (pop h).1 []) ∨
    ∃ x p c, (x, p, c) ∈ T ∧ (erase T).best = some (x, p) ∧ (pop h).2 = some x ∧
      Sim (pop h).1 (T.filter (fun e => e.1 ≠ x)) := by
  have h1 := sim_skip _ h (Nat.le_refl _) hs
  obtain ⟨-, h3⟩ := peekLoop_prio _ h.pq (Nat.le_refl _) hs.heap
  simp only [pop, popLoop_eq _ h.pq (Nat.le_refl _) hs.heap]
  cases hp : (peekLoop h.pq.length h.pq).1 with
  | nil =>
    left
    have := empty_best h1 hp
    subst this
    rw [hp] at h1
    exact ⟨rfl, rfl, h1⟩
  | cons e es =>
    right
    obtain ⟨p, c, d⟩ := e
    rw [hp] at h3 h1
    have h4 := h3 ⟨p, c, d⟩ (by simp)
    obtain ⟨x, rfl⟩ := Option.isSome_iff_exists.1 h4
    obtain ⟨hb, hm⟩ := head_best h1 (es := es) rfl
    refine ⟨x, p, c, hm, hb, rfl, ?_⟩
    have h5 := sim_removed h1 hm
    have hn := h1.cnodup
    have he : es.map (fun e => if e.count = c then { e with data := none } else e) = es := by
      conv_rhs => rw [← List.map_id es]
      apply List.map_congr_left
      intro e he
      have hne : e.count ≠ c := by
        rintro rfl
        simp only [List.map_cons, List.nodup_cons] at hn
        exact hn.1 (List.mem_map_of_mem he)
      simp [hne]
    simp only [mark, List.map_cons, if_true, he] at h5
    obtain ⟨g1, -, g3⟩ := heappop_spec order_less ⟨p, c, some x⟩ es h1.heap
    exact sim_cons_removed h5 rfl rfl g1 g3

theorem sim_step {h : Heap P α} {T : List (α × P × Nat)} (hs : Sim h T) (o : Op P α) :
    ∃ T', Sim (step h o).1 T' ∧ erase T' = ((erase T).step o).1 ∧
      (step h o).2 = ((erase T).step o).2 := by
  cases o with
  | len => exact ⟨T, hs, rfl, by simp [step, Table.step, hs.len, erase]⟩
  | insert x p =>
    obtain ⟨T', h1, h2⟩ := sim_insert hs x p
    refine ⟨T', h1, h2, ?_⟩
    simp only [step, Table.step]
    split
    · rfl
    · split <;> rfl
  | peek =>
    obtain ⟨h1, h2⟩ := sim_peek hs
    refine ⟨T, ?_, ?_, ?_⟩
    · simp only [step]
      split <;> simp_all
    · simp only [Table.step]
      split <;> rfl
    · simp only [step, Table.step]
      cases hb : (erase T).best with
      | none => simp only [hb, Option.map_none] at h2; split <;> simp_all
      | some e => simp only [hb, Option.map_some] at h2; split <;> simp_all
  | pop =>
    rcases sim_pop hs with ⟨h1, h2, h3⟩ | ⟨x, p, c, hm, hb, h2, h3⟩
    · subst h1
      refine ⟨[], ?_, ?_, ?_⟩
      · simp only [step]; split <;> simp_all
      · simp [Table.step, erase, Table.best]
      · simp only [step]; split <;> simp_all [Table.step, erase, Table.best]
    · refine ⟨T.filter (fun e => e.1 ≠ x), ?_, ?_, ?_⟩
      · simp only [step]
        split
        · rename_i heq; simp only [heq] at h3 h2; exact h3
        · rename_i heq; simp [heq] at h2
      · simp only [Table.step, hb]
        exact erase_filter T x
      · simp only [step, Table.step, hb]
        split
        · rename_i heq; simp only [heq, Option.some.injEq] at h2; rw [h2]
        · rename_i heq; simp [heq] at h2

theorem sim_trace {h : Heap P α} {T : List (α × P × Nat)} (hs : Sim h T) (os : List (Op P α)) :
    trace h os = (erase T).trace os := by
  induction os generalizing h T with
  | nil => rfl
  | cons o os ih =>
    obtain ⟨T', h1, h2, h3⟩ := sim_step hs o
    simp only [trace, Table.trace, h3, ih h1, h2]

end Aiok8s.DelayHeap
