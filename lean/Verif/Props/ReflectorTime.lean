import Verif.Spec.ReflectorTime
import Mathlib.Tactic.Linarith
import Mathlib.Tactic.NormNum
import Mathlib.Tactic.Ring
import Mathlib.Tactic.FieldSimp
import Mathlib.Tactic.Positivity
import Mathlib.Tactic.GCongr
/-!
# C108: the reflector does not flood the API server
-/
namespace Aiok8s.ReflectorTime
open Aiok8s.Reflector (Access Event Call Ended Status onEvent storeCall)
open Aiok8s.ReflectorTime.Spec

variable {O G : Type} [DecidableEq G]

/-- What is to be known about the past: the time, the last request (when, and whether it was a list), and whether an
event has been accepted since. -/
private structure Mem where
  now : ℚ
  req : Option (ℚ × Bool)
  paid : Bool

private def Mem.next (m : Mem) (x : ℚ × Entry O) : Mem :=
  if isRequest x.2 then ⟨x.1, some (x.1, isList x.2), false⟩ else ⟨x.1, m.req, m.paid || isEvent x.2⟩

private def Mem.ok (m : Mem) (t : ℚ) (lst : Bool) : Prop :=
  ∀ p b, m.req = some (p, b) → p + 1 ≤ t ∨ (lst = false ∧ (b = true ∨ m.paid = true))

private def Mem.WF (m : Mem) : Prop := ∀ p b, m.req = some (p, b) → p ≤ m.now

private def Mem.after (m : Mem) : List (ℚ × Entry O) → Mem
  | [] => m
  | x :: l => (m.next x).after l

private def Calm : Mem → List (ℚ × Entry O) → Prop
  | _, [] => True
  | m, x :: l => m.now ≤ x.1 ∧ (isRequest x.2 = true → m.ok x.1 (isList x.2)) ∧ Calm (m.next x) l

private theorem after_append (l l' : List (ℚ × Entry O)) : ∀ m : Mem, m.after (l ++ l') = (m.after l).after l' := by
  induction l with
  | nil => intro m; rfl
  | cons x l ih => intro m; exact ih _

private theorem calm_append (l l' : List (ℚ × Entry O)) : ∀ m : Mem, Calm m (l ++ l') ↔
    Calm m l ∧ Calm (m.after l) l' := by
  induction l with
  | nil => intro m; simp [Calm, Mem.after]
  | cons x l ih =>
    intro m
    simp only [List.cons_append, Calm, ih, Mem.after, and_assoc]

private theorem wf_next (m : Mem) (h : m.WF) (x : ℚ × Entry O) (hx : m.now ≤ x.1) : (m.next x).WF := by
  intro p b hp
  unfold Mem.next at hp ⊢
  split at hp
  · rename_i hr
    rw [if_pos hr]
    cases hp
    exact le_rfl
  · rename_i hr
    rw [if_neg hr]
    exact (h p b hp).trans hx

private theorem wf_after (l : List (ℚ × Entry O)) : ∀ m : Mem, m.WF → Calm m l → (m.after l).WF := by
  induction l with
  | nil => intro m h _; exact h
  | cons x l ih => intro m h hc; exact ih _ (wf_next m h x hc.1) hc.2.2

private theorem quiet (m : Mem) (t : ℚ) (e : Event O) (h : m.now ≤ t) :
    let l : List (ℚ × Entry O) := (t, .accepted) :: (storeCall e).map (fun c => (t, .call c))
    Calm m l ∧ (m.after l).now = t ∧ (m.after l).req = m.req ∧ (m.after l).paid = true := by
  cases he : e.type <;>
    simp [storeCall, he, Calm, Mem.after, Mem.next, isRequest, isEvent, h]

private theorem watchLoop_calm (A : Access O G) (wall : ℚ → ℚ) (hw : NotForward wall) (start : ℚ) (end_ : TEnd)
    (after : ℚ) (ha : 0 ≤ after) (es : List (ℚ × Event O)) : ∀ (now : ℚ) (version last : String) (count : Nat)
    (m : Mem), (∀ p ∈ es, 0 ≤ p.1) → start ≤ now → m.now ≤ now → (count ≠ 0 → m.paid = true) →
    let r := watchLoop A wall start end_ after now version last count es
    Calm m r.log ∧ (m.after r.log).now ≤ r.time ∧ start ≤ r.time ∧ (m.after r.log).req = m.req ∧
    (r.ended = .returned → start + 1 ≤ r.time ∨ (m.after r.log).paid = true) := by
  induction es with
  | nil =>
    intro now version last count m _ hs hn hc
    cases end_ with
    | closed =>
      simp only [watchLoop, atEnd, Calm, Mem.after, true_and]
      refine ⟨by linarith, by linarith, ?_⟩
      intro h
      split at h
      · cases h
      · rename_i hh
        by_cases h0 : count = 0
        · left
          have : ¬ wall (now + after) - wall start < 1 := fun h' => hh ⟨h', h0⟩
          have := hw start (now + after) (by linarith)
          linarith
        · exact Or.inr (hc h0)
    | _ =>
      simp only [watchLoop, atEnd, Calm, Mem.after, true_and]
      exact ⟨by linarith, by linarith, nofun⟩
  | cons x es ih =>
    obtain ⟨d, e⟩ := x
    intro now version last count m hv hs hn hc
    have hd : 0 ≤ d := hv _ (List.mem_cons_self ..)
    have hv' : ∀ p ∈ es, 0 ≤ p.1 := fun p hp => hv p (List.mem_cons_of_mem _ hp)
    simp only [watchLoop]
    cases onEvent A e with
    | raised =>
      simp only [Calm, Mem.after, true_and]
      exact ⟨by linarith, by linarith, nofun⟩
    | skipped => exact ih (now + d) version last count m hv' (by linarith) (by linarith) hc
    | accepted v =>
      obtain ⟨q1, q2, q3, q4⟩ := quiet m (now + d) e (by linarith)
      obtain ⟨i1, i2, i3, i4, i5⟩ := ih (now + d) v v (count + 1)
        (m.after ((now + d, .accepted) :: (storeCall e).map (fun c => (now + d, .call c)))) hv' (by linarith)
        (by rw [q2]) (fun _ => q4)
      simp only
      rw [calm_append, after_append]
      exact ⟨⟨q1, i1⟩, i2, i3, i4.trans q3, i5⟩

private theorem watchAll_calm (A : Access O G) (wall : ℚ → ℚ) (hw : NotForward wall) (ws : List (TWatch O)) :
    ∀ (now : ℚ) (version last : String) (m : Mem), (∀ w ∈ ws, WatchValid w) → m.now ≤ now → m.ok now false →
    let o := watchAll A wall now version last ws
    Calm m o.log ∧ (m.after o.log).now ≤ o.time := by
  induction ws with
  | nil =>
    intro now version last m _ hn hk
    exact ⟨⟨hn, fun _ => hk, trivial⟩, le_rfl⟩
  | cons w ws ih =>
    intro now version last m hv hn hk
    have h0 := hv w (List.mem_cons_self ..)
    have hv' : ∀ w ∈ ws, WatchValid w := fun w hw => hv w (List.mem_cons_of_mem _ hw)
    cases w with
    | fails d =>
      refine ⟨⟨hn, fun _ => hk, trivial⟩, ?_⟩
      show now ≤ now + d
      have : 0 ≤ d := h0
      linarith
    | stream d es e after close =>
      obtain ⟨h1, h2, h3, h4⟩ := h0
      have hm : (m.next ((now, .call (.watch version)) : ℚ × Entry O)) = ⟨now, some (now, false), false⟩ := rfl
      obtain ⟨i1, i2, i3, i4, i5⟩ := watchLoop_calm A wall hw (now + d) e after h3 es (now + d) version last 0
        ⟨now, some (now, false), false⟩ h2 le_rfl (by simp only; linarith) (fun h => absurd rfl h)
      simp only [watchAll]
      generalize watchLoop A wall (now + d) e after (now + d) version last 0 es = r at i1 i2 i3 i4 i5
      have c0 : Calm m ((now, .call (.watch version)) :: r.log) := ⟨hn, fun _ => hk, by rw [hm]; exact i1⟩
      have c1 : m.after ((now, .call (.watch version)) :: r.log) =
          Mem.after ⟨now, some (now, false), false⟩ r.log := by
        simp only [Mem.after, hm]
      cases hr : r.ended with
      | returned =>
        simp only
        rw [calm_append, after_append, c1]
        obtain ⟨j1, j2⟩ := ih (r.time + close) r.version r.last
          (Mem.after ⟨now, some (now, false), false⟩ r.log) hv' (by linarith) (by
            intro p b hp
            rw [i4] at hp
            cases hp
            rcases i5 hr with h | h
            · left; linarith
            · exact Or.inr ⟨rfl, Or.inr h⟩)
        exact ⟨⟨c0, j1⟩, j2⟩
      | raised => simp only; rw [c1]; exact ⟨c0, by linarith⟩
      | stuck => simp only; rw [c1]; exact ⟨c0, i2⟩
      | «open» => simp only; rw [c1]; exact ⟨c0, i2⟩

private theorem listAndWatch_calm (A : Access O G) (wall : ℚ → ℚ) (hw : NotForward wall) (s : TScript O)
    (hs : Valid s) (now : ℚ) (last : String) (m : Mem) (hn : m.now ≤ now) (hk : m.ok now true) :
    let o := listAndWatch A wall now last s
    Calm m o.log ∧ (m.after o.log).now ≤ o.time := by
  cases s with
  | listFails d =>
    have : 0 ≤ d := hs
    refine ⟨⟨hn, fun _ => hk, trivial⟩, ?_⟩
    show now ≤ now + d
    linarith
  | replaceFails items v d r =>
    obtain ⟨h1, h2⟩ := hs
    refine ⟨⟨hn, fun _ => hk, ?_, nofun, trivial⟩, ?_⟩
    · show now ≤ now + d
      linarith
    · show now + d ≤ now + d + r
      linarith
  | listed items v d r ws close =>
    obtain ⟨h1, h2, h3, h4⟩ := hs
    obtain ⟨i1, i2⟩ := watchAll_calm A wall hw ws (now + d + r) v v ⟨now + d, some (now, true), false⟩ h3
      (by simp only; linarith) (by
        intro p b hp
        cases hp
        exact Or.inr ⟨rfl, Or.inl rfl⟩)
    refine ⟨⟨hn, fun _ => hk, ?_, nofun, ?_⟩, ?_⟩
    · show now ≤ now + d
      linarith
    · exact i1
    · simp only [listAndWatch]
      refine le_trans (b := (watchAll A wall (now + d + r) v v ws).time) i2 ?_
      linarith

private theorem run_calm (A : Access O G) (wall : ℚ → ℚ) (hw : NotForward wall) (ss : List (TScript O × ℚ)) :
    ∀ (now : ℚ) (last : String) (m : Mem), (∀ s ∈ ss, Valid s.1 ∧ 0 ≤ s.2) → m.WF → m.now ≤ now → m.ok now true →
    Calm m (run A wall now last ss).log := by
  induction ss with
  | nil => intro now last m _ _ _ _; trivial
  | cons s ss ih =>
    obtain ⟨s, lag⟩ := s
    intro now last m hv hwf hn hk
    obtain ⟨hs, hl⟩ := hv (s, lag) (List.mem_cons_self ..)
    obtain ⟨c1, c2⟩ := listAndWatch_calm A wall hw s hs now last m hn hk
    have hwf' := wf_after _ m hwf c1
    simp only at hs hl
    simp only [run]
    generalize listAndWatch A wall now last s = o at c1 c2 hwf'
    cases hst : o.status with
    | ended =>
      simp only
      rw [calm_append]
      refine ⟨c1, ih _ _ _ (fun s hs => hv s (List.mem_cons_of_mem _ hs)) hwf' (by linarith) ?_⟩
      intro p b hp
      left
      have := hwf' p b hp
      linarith
    | stuck => exact c1
    | «open» => exact c1

/-! ### From the gaps to the rate -/

private theorem none_late (a b : ℚ) (q : Entry O → Bool) (l : List (ℚ × Entry O)) : ∀ m : Mem, Calm m l →
    b < m.now → within a b q l = 0 := by
  induction l with
  | nil => intro m _ _; rfl
  | cons x l ih =>
    intro m hc hb
    have hx : ¬ x.1 ≤ b := by have := hc.1; intro h; linarith
    have hi := ih _ hc.2.2 (by
      have := hc.1
      unfold Mem.next
      split <;> (simp only; linarith))
    simp only [within] at hi ⊢
    rw [List.filter_cons_of_neg (by simp [hx])]
    exact hi

private theorem within_cons (a b : ℚ) (q : Entry O → Bool) (x : ℚ × Entry O) (l : List (ℚ × Entry O)) :
    within a b q (x :: l) = (if q x.2 = true ∧ a ≤ x.1 ∧ x.1 ≤ b then 1 else 0) + within a b q l := by
  unfold within
  by_cases h : q x.2 = true ∧ a ≤ x.1 ∧ x.1 ≤ b
  · rw [List.filter_cons_of_pos (by simp [h]), if_pos h, List.length_cons]
    omega
  · rw [List.filter_cons_of_neg (by simpa [and_assoc] using h), if_neg h]
    omega

private theorem bound_in (a b : ℚ) (l : List (ℚ × Entry O)) : ∀ (m : Mem) (p : ℚ) (lst : Bool), Calm m l →
    m.req = some (p, lst) → p ≤ m.now → a ≤ p → p ≤ b →
    (within a b isRequest l : ℚ) ≤ 2 * (b - p) + within a b isEvent l + (if lst then 1 else 0) +
      (if m.paid then 1 else 0) := by
  induction l with
  | nil =>
    intro m p lst _ _ _ _ hb
    simp only [within, List.filter_nil, List.length_nil, Nat.cast_zero]
    have h1 : (0 : ℚ) ≤ if lst then 1 else 0 := by split <;> norm_num
    have h2 : (0 : ℚ) ≤ if m.paid then 1 else 0 := by split <;> norm_num
    linarith
  | cons x l ih =>
    intro m p lst hc hp hpn hap hpb
    have hrest : (0 : ℚ) ≤ if lst then 1 else 0 := by split <;> norm_num
    have hpaid : (0 : ℚ) ≤ if m.paid then 1 else 0 := by split <;> norm_num
    have hev : (0 : ℚ) ≤ within a b isEvent (x :: l) := Nat.cast_nonneg _
    obtain ⟨h1, h2, h3⟩ := hc
    by_cases hxb : x.1 ≤ b
    · by_cases hr : isRequest x.2 = true
      · have hne : isEvent x.2 = false := by
          cases hx : x.2 with
          | call c => rfl
          | accepted => rw [hx] at hr; cases hr
        have hn : m.next x = ⟨x.1, some (x.1, isList x.2), false⟩ := by simp [Mem.next, hr]
        rw [hn] at h3
        have hi := ih ⟨x.1, some (x.1, isList x.2), false⟩ x.1 (isList x.2) h3 rfl le_rfl (by linarith) hxb
        rw [within_cons, within_cons, if_pos ⟨hr, by linarith, hxb⟩, if_neg (by simp [hne])]
        push_cast
        simp only [Bool.false_eq_true, if_false] at hi
        have hl1 : (if isList x.2 = true then (1 : ℚ) else 0) ≤ 1 := by split <;> norm_num
        rcases h2 hr p lst hp with h | ⟨h, h'⟩
        · linarith
        · rw [h] at hi
          simp only [Bool.false_eq_true, if_false] at hi
          rcases h' with h' | h'
          · rw [if_pos h']; linarith
          · rw [if_pos h']; linarith
      · have hn : m.next x = ⟨x.1, m.req, m.paid || isEvent x.2⟩ := by simp [Mem.next, hr]
        rw [hn] at h3
        have hi := ih ⟨x.1, m.req, m.paid || isEvent x.2⟩ p lst h3 hp (by simp only; linarith) hap hpb
        rw [within_cons, within_cons, if_neg (by simp [hr])]
        push_cast
        by_cases he : isEvent x.2 = true
        · rw [if_pos ⟨he, by linarith, hxb⟩]
          simp only [he, Bool.or_true, if_true] at hi
          push_cast
          linarith
        · rw [if_neg (by simp [he])]
          simp only [Bool.not_eq_true] at he
          simp only [he, Bool.or_false] at hi
          push_cast
          linarith
    · have : within a b isRequest (x :: l) = 0 := by
        have hl := none_late a b isRequest l _ h3 (by
          unfold Mem.next
          split <;> (simp only; linarith))
        rw [within_cons, hl, if_neg (fun h => hxb h.2.2)]
      rw [this]
      push_cast
      linarith

private theorem bound_out (a b : ℚ) (hab : a ≤ b) (l : List (ℚ × Entry O)) : ∀ (m : Mem), Calm m l →
    (within a b isRequest l : ℚ) ≤ 2 * (b - a + 1) + within a b isEvent l := by
  induction l with
  | nil => intro m _; simp only [within, List.filter_nil, List.length_nil, Nat.cast_zero]; linarith
  | cons x l ih =>
    intro m hc
    have hi := ih _ hc.2.2
    rw [within_cons, within_cons]
    by_cases hr : isRequest x.2 = true ∧ a ≤ x.1 ∧ x.1 ≤ b
    · obtain ⟨h1, h2, h3⟩ := hc
      have hn : m.next x = ⟨x.1, some (x.1, isList x.2), false⟩ := by simp [Mem.next, hr.1]
      rw [hn] at h3
      have hb := bound_in a b l _ x.1 (isList x.2) h3 rfl le_rfl hr.2.1 hr.2.2
      rw [if_pos hr]
      have hl1 : (if isList x.2 = true then (1 : ℚ) else 0) ≤ 1 := by split <;> norm_num
      have he : (0 : ℚ) ≤ ((if isEvent x.2 = true ∧ a ≤ x.1 ∧ x.1 ≤ b then 1 else 0 : Nat) : ℚ) := Nat.cast_nonneg _
      simp only [Bool.false_eq_true, if_false] at hb
      push_cast at he ⊢
      linarith [hr.2.1]
    · rw [if_neg hr]
      have he : (0 : ℚ) ≤ ((if isEvent x.2 = true ∧ a ≤ x.1 ∧ x.1 ≤ b then 1 else 0 : Nat) : ℚ) := Nat.cast_nonneg _
      push_cast at he ⊢
      linarith

/-- **C108 (gaps).** Whatever the API server and the store answer and however long that takes, and unless the wall
clock is set forward: of two requests in a row the second comes at least a second after the first, or it is a watch
that follows a list, or it is a watch and an event has been accepted in between. -/
theorem C108_gaps (A : Access O G) (wall : ℚ → ℚ) (hw : NotForward wall) (now : ℚ) (last : String)
    (ss : List (TScript O × ℚ)) (hv : ∀ s ∈ ss, Valid s.1 ∧ 0 ≤ s.2) (xs mid ys : List (ℚ × Entry O))
    (e e' : ℚ × Entry O) (hl : (run A wall now last ss).log = xs ++ e :: mid ++ e' :: ys)
    (he : isRequest e.2 = true) (hm : ∀ x ∈ mid, isRequest x.2 = false) (he' : isRequest e'.2 = true) :
    e.1 + 1 ≤ e'.1 ∨ isList e'.2 = false ∧ (isList e.2 = true ∨ ∃ x ∈ mid, isEvent x.2 = true) := by
  have hc := run_calm A wall hw ss now last ⟨now, none, false⟩ hv nofun le_rfl nofun
  rw [hl, calm_append, calm_append] at hc
  obtain ⟨⟨-, -, -, hc1⟩, hc2⟩ := hc
  have hstep : ∀ (l : List (ℚ × Entry O)), (∀ x ∈ l, isRequest x.2 = false) → ∀ m : Mem,
      (m.after l).req = m.req ∧ ((m.after l).paid = true → m.paid = true ∨ ∃ x ∈ l, isEvent x.2 = true) := by
    intro l
    induction l with
    | nil => intro _ m; exact ⟨rfl, Or.inl⟩
    | cons x l ih =>
      intro h m
      have hx := h x (List.mem_cons_self ..)
      obtain ⟨i1, i2⟩ := ih (fun y hy => h y (List.mem_cons_of_mem _ hy)) (m.next x)
      have hn : m.next x = ⟨x.1, m.req, m.paid || isEvent x.2⟩ := by simp [Mem.next, hx]
      refine ⟨by rw [Mem.after, i1, hn], fun hp => ?_⟩
      rcases i2 hp with h | ⟨y, hy, h⟩
      · rw [hn] at h
        simp only [Bool.or_eq_true] at h
        rcases h with h | h
        · exact Or.inl h
        · exact Or.inr ⟨x, List.mem_cons_self .., h⟩
      · exact Or.inr ⟨y, List.mem_cons_of_mem _ hy, h⟩
  rw [after_append] at hc2
  obtain ⟨-, hok, -⟩ := hc2
  obtain ⟨j1, j2⟩ := hstep mid hm ((Mem.after ⟨now, none, false⟩ xs).next e)
  have hn : (Mem.after ⟨now, none, false⟩ xs).next e = ⟨e.1, some (e.1, isList e.2), false⟩ := by simp [Mem.next, he]
  rw [hn] at j1 j2
  have hok' := hok he' e.1 (isList e.2) (by simp only [Mem.after, hn]; exact j1)
  refine hok'.imp_right (And.imp_right (Or.imp_right fun h => ?_))
  simp only [Mem.after, hn] at h
  exact (j2 h).resolve_left nofun

/-- **C108 (rate).** So there are, from `a` to `b`, at most two requests per second, two more, and as many as there
were events. -/
theorem C108_rate (A : Access O G) (wall : ℚ → ℚ) (hw : NotForward wall) (now : ℚ) (last : String)
    (ss : List (TScript O × ℚ)) (hv : ∀ s ∈ ss, Valid s.1 ∧ 0 ≤ s.2) (a b : ℚ) (hab : a ≤ b) :
    (within a b isRequest (run A wall now last ss).log : ℚ) ≤
      2 * (b - a + 1) + within a b isEvent (run A wall now last ss).log :=
  bound_out a b hab _ _ (run_calm A wall hw ss now last ⟨now, none, false⟩ hv nofun le_rfl nofun)

/-! ### Lists alone -/

private theorem watchLoop_plain (A : Access O G) (wall : ℚ → ℚ) (start : ℚ) (end_ : TEnd) (after : ℚ) (ha : 0 ≤ after)
    (es : List (ℚ × Event O)) : ∀ (now : ℚ) (version last : String) (count : Nat), (∀ p ∈ es, 0 ≤ p.1) →
    let r := watchLoop A wall start end_ after now version last count es
    now ≤ r.time ∧ ∀ x ∈ r.log, isList x.2 = false := by
  induction es with
  | nil =>
    intro now version last count _
    cases end_ <;> simp only [watchLoop, atEnd] <;> exact ⟨by linarith, nofun⟩
  | cons x es ih =>
    obtain ⟨d, e⟩ := x
    intro now version last count hv
    have hd : 0 ≤ d := hv _ (List.mem_cons_self ..)
    have hv' : ∀ p ∈ es, 0 ≤ p.1 := fun p hp => hv p (List.mem_cons_of_mem _ hp)
    simp only [watchLoop]
    cases onEvent A e with
    | raised => exact ⟨by simp only; linarith, nofun⟩
    | skipped =>
      obtain ⟨i1, i2⟩ := ih (now + d) version last count hv'
      exact ⟨by simp only at i1 ⊢; linarith, i2⟩
    | accepted v =>
      obtain ⟨i1, i2⟩ := ih (now + d) v v (count + 1) hv'
      refine ⟨by simp only at i1 ⊢; linarith, ?_⟩
      intro x hx
      simp only [List.cons_append, List.mem_cons, List.mem_append, List.mem_map] at hx
      rcases hx with rfl | ⟨c, hc, rfl⟩ | hx
      · rfl
      · cases he : e.type <;> simp [storeCall, he] at hc <;> subst hc <;> rfl
      · exact i2 x hx

private theorem watchAll_plain (A : Access O G) (wall : ℚ → ℚ) (ws : List (TWatch O)) : ∀ (now : ℚ)
    (version last : String), (∀ w ∈ ws, WatchValid w) →
    let o := watchAll A wall now version last ws
    now ≤ o.time ∧ ∀ x ∈ o.log, isList x.2 = false := by
  have one : ∀ (now : ℚ) (version : String), ∀ x ∈ [((now, .call (.watch version)) : ℚ × Entry O)],
      isList x.2 = false := by
    intro now version x hx
    simp only [List.mem_singleton] at hx
    subst hx
    rfl
  induction ws with
  | nil => intro now version last _; exact ⟨le_rfl, one now version⟩
  | cons w ws ih =>
    intro now version last hv
    have h0 := hv w (List.mem_cons_self ..)
    have hv' : ∀ w ∈ ws, WatchValid w := fun w hw => hv w (List.mem_cons_of_mem _ hw)
    cases w with
    | fails d =>
      have : 0 ≤ d := h0
      exact ⟨by simp only [watchAll]; linarith, one now version⟩
    | stream d es e after close =>
      obtain ⟨h1, h2, h3, h4⟩ := h0
      obtain ⟨i1, i2⟩ := watchLoop_plain A wall (now + d) e after h3 es (now + d) version last 0 h2
      have cons : ∀ x ∈ ((now, .call (.watch version)) : ℚ × Entry O) ::
          (watchLoop A wall (now + d) e after (now + d) version last 0 es).log, isList x.2 = false := by
        intro x hx
        rcases List.mem_cons.1 hx with rfl | hx
        · rfl
        · exact i2 x hx
      simp only [watchAll]
      generalize watchLoop A wall (now + d) e after (now + d) version last 0 es = r at i1 i2 cons
      cases r.ended with
      | returned =>
        obtain ⟨j1, j2⟩ := ih (r.time + close) r.version r.last hv'
        refine ⟨by simp only at j1 ⊢; linarith, ?_⟩
        intro x hx
        rcases List.mem_append.1 hx with hx | hx
        · exact cons x hx
        · exact j2 x hx
      | raised => exact ⟨by simp only; linarith, cons⟩
      | stuck => exact ⟨by simp only; linarith, cons⟩
      | «open» => exact ⟨by simp only; linarith, cons⟩

private theorem listAndWatch_plain (A : Access O G) (wall : ℚ → ℚ) (now : ℚ) (last : String) (s : TScript O)
    (hs : Valid s) :
    let o := listAndWatch A wall now last s
    now ≤ o.time ∧ ∃ rest, o.log = (now, .call (.list "0")) :: rest ∧ ∀ x ∈ rest, isList x.2 = false := by
  cases s with
  | listFails d =>
    have : 0 ≤ d := hs
    exact ⟨by simp only [listAndWatch]; linarith, [], rfl, nofun⟩
  | replaceFails items v d r =>
    obtain ⟨h1, h2⟩ := hs
    refine ⟨by simp only [listAndWatch]; linarith, _, rfl, ?_⟩
    intro x hx
    simp only [List.mem_singleton] at hx
    subst hx
    rfl
  | listed items v d r ws close =>
    obtain ⟨h1, h2, h3, h4⟩ := hs
    obtain ⟨i1, i2⟩ := watchAll_plain A wall ws (now + d + r) v v h3
    refine ⟨by simp only [listAndWatch] at i1 ⊢; linarith, _, rfl, ?_⟩
    intro x hx
    rcases List.mem_cons.1 hx with rfl | hx
    · rfl
    · exact i2 x hx

private theorem within_append (a b : ℚ) (q : Entry O → Bool) (l l' : List (ℚ × Entry O)) :
    within a b q (l ++ l') = within a b q l + within a b q l' := by
  simp [within]

private theorem within_none (a b : ℚ) (q : Entry O → Bool) (l : List (ℚ × Entry O)) (h : ∀ x ∈ l, q x.2 = false) :
    within a b q l = 0 := by
  unfold within
  rw [List.length_eq_zero_iff, List.filter_eq_nil_iff]
  intro x hx
  simp [h x hx]

private theorem lists_bound (A : Access O G) (wall : ℚ → ℚ) (a b : ℚ) (hab : a ≤ b) (ss : List (TScript O × ℚ)) :
    ∀ (now : ℚ) (last : String), (∀ s ∈ ss, Valid s.1 ∧ 0 ≤ s.2) →
    (b < now → within a b isList (run A wall now last ss).log = 0) ∧
    (now ≤ b → (within a b isList (run A wall now last ss).log : ℚ) ≤ b - max a now + 1) := by
  induction ss with
  | nil =>
    intro now last _
    refine ⟨fun _ => rfl, fun h => ?_⟩
    have : max a now ≤ b := max_le hab h
    simp only [run, within, List.filter_nil, List.length_nil, Nat.cast_zero]
    linarith
  | cons s ss ih =>
    obtain ⟨s, lag⟩ := s
    intro now last hv
    obtain ⟨hs, hl⟩ := hv (s, lag) (List.mem_cons_self ..)
    obtain ⟨h1, rest, h2, h3⟩ := listAndWatch_plain A wall now last s hs
    simp only at hs hl
    simp only [run]
    generalize listAndWatch A wall now last s = o at h1 h2
    have ho : within a b isList o.log = if a ≤ now ∧ now ≤ b then 1 else 0 := by
      rw [h2, within_cons, within_none a b isList rest h3]
      simp [isList]
    have own : (b < now → within a b isList o.log = 0) ∧
        (now ≤ b → (within a b isList o.log : ℚ) ≤ b - max a now + 1) := by
      refine ⟨fun h => ?_, fun h => ?_⟩
      · rw [ho, if_neg (fun h' => absurd h'.2 (not_le.2 h))]
      · have : max a now ≤ b := max_le hab h
        rw [ho]
        split
        · push_cast; linarith
        · push_cast; linarith
    cases hst : o.status with
    | ended =>
      simp only
      rw [within_append]
      obtain ⟨i1, i2⟩ := ih (o.time + 1 + lag) o.last (fun s hs => hv s (List.mem_cons_of_mem _ hs))
      refine ⟨fun h => ?_, fun h => ?_⟩
      · rw [own.1 h, i1 (by linarith)]
      · push_cast
        by_cases hb : b < o.time + 1 + lag
        · rw [i1 hb]
          have := own.2 h
          push_cast
          linarith
        · have i3 := i2 (not_lt.1 hb)
          rw [ho]
          by_cases hn : a ≤ now
          · rw [max_eq_right hn, if_pos ⟨hn, h⟩]
            rw [max_eq_right (by linarith)] at i3
            push_cast
            linarith
          · rw [if_neg (fun h => hn h.1), max_eq_left (not_le.1 hn).le]
            have := le_max_left a (o.time + 1 + lag)
            push_cast
            linarith
    | stuck => exact own
    | «open» => exact own

/-- **C108 (lists).** The lists alone, whatever the wall clock does and however many events there are: from `a` to `b`
at most one per second and one more. -/
theorem C108_lists (A : Access O G) (wall : ℚ → ℚ) (now : ℚ) (last : String) (ss : List (TScript O × ℚ))
    (hv : ∀ s ∈ ss, Valid s.1 ∧ 0 ≤ s.2) (a b : ℚ) (hab : a ≤ b) :
    (within a b isList (run A wall now last ss).log : ℚ) ≤ b - a + 1 := by
  obtain ⟨h1, h2⟩ := lists_bound A wall a b hab ss now last hv
  by_cases h : b < now
  · rw [h1 h]
    push_cast
    linarith
  · have := h2 (not_lt.1 h)
    have := le_max_left a now
    linarith

/-! ### It does not give up either -/

/-- **C108 (tries again).** As long as the list fails the reflector lists again and again, a second after each
failure, and does nothing else: failures do not make it slower. -/
theorem C108_again (A : Access O G) (wall : ℚ → ℚ) (now : ℚ) (last : String) (d lag : Nat → ℚ) (n : Nat) :
    (run A wall now last ((List.range n).map fun i => (.listFails (d i), lag i))).log =
      (List.range n).map fun i =>
        ((now + ((List.range i).map fun j => d j + 1 + lag j).sum, .call (.list "0")) : ℚ × Entry O) := by
  induction n generalizing now d lag with
  | zero => rfl
  | succ n ih =>
    rw [List.range_succ_eq_map, List.map_cons, List.map_cons, List.map_map, List.map_map]
    have := ih (now + d 0 + 1 + lag 0) (fun i => d (i + 1)) (fun i => lag (i + 1))
    simp only [run, listAndWatch, List.singleton_append, List.range_zero, List.map_nil, List.sum_nil, add_zero]
    congr 1
    refine this.trans ?_
    apply List.map_congr_left
    intro i _
    simp only [Function.comp, Nat.succ_eq_add_one, List.range_succ_eq_map, List.map_cons, List.map_map, List.sum_cons]
    congr 1
    simp only [Function.comp_def, Nat.succ_eq_add_one]
    ring

/-! ### Why the clock matters -/

private theorem fast_watches (A : Access O G) (wall : ℚ → ℚ) (δ : ℚ) (hw : ∀ t, wall (t + δ) - wall t = 1) (v : String)
    (k : Nat) : ∀ now : ℚ, (watchAll A wall now v v (List.replicate k (.stream 0 [] .closed δ 0))).log =
      (List.range (k + 1)).map fun i : Nat => ((now + i * δ, .call (.watch v)) : ℚ × Entry O) := by
  induction k with
  | zero => intro now; simp [watchAll]
  | succ k ih =>
    intro now
    rw [List.range_succ_eq_map, List.map_cons, List.map_map]
    simp only [List.replicate_succ, watchAll, watchLoop, atEnd, ih, List.nil_append, List.cons_append,
      Nat.cast_zero, zero_mul, add_zero, hw, lt_self_iff_false, false_and, if_false]
    congr 1
    apply List.map_congr_left
    intro i _
    simp only [Function.comp, Nat.succ_eq_add_one]
    push_cast
    congr 1
    ring

/-- **C108 needs the clock not to be set forward**: if it is, again and again, there can be any number of requests in
any stretch of time without an event. -/
theorem C108_needs_clock (A : Access O G) (last : String) (n : Nat) (ε : ℚ) (hε : 0 < ε) :
    ∃ (wall : ℚ → ℚ) (ss : List (TScript O × ℚ)), (∀ s ∈ ss, Valid s.1 ∧ 0 ≤ s.2) ∧
      n ≤ within 0 ε isRequest (run A wall 0 last ss).log ∧ within 0 ε isEvent (run A wall 0 last ss).log = 0 := by
  have hδ : (0 : ℚ) < ε / (n + 1) := by positivity
  refine ⟨fun t => t / (ε / (n + 1)), [(.listed [] "1" 0 0 (List.replicate n (.stream 0 [] .closed (ε / (n + 1)) 0)) 0, 0)],
    ?_, ?_⟩
  · intro s hs
    simp only [List.mem_singleton] at hs
    subst hs
    refine ⟨⟨le_rfl, le_rfl, ?_, le_rfl⟩, le_rfl⟩
    intro w hw
    rw [List.eq_of_mem_replicate hw]
    exact ⟨le_rfl, nofun, hδ.le, le_rfl⟩
  · have hf := fast_watches A (fun t => t / (ε / (n + 1))) (ε / (n + 1))
      (fun t => by rw [add_div, div_self hδ.ne']; ring) "1" n (0 + 0 + 0)
    have key : ∀ o : TOutcome O, o.log = ((List.range (n + 1)).map fun i : Nat =>
          (((0 + 0 + 0 : ℚ) + i * (ε / (n + 1)), .call (.watch "1")) : ℚ × Entry O)) →
        n ≤ within 0 ε isRequest (((0 : ℚ), .call (.list "0")) :: (0 + 0, .call (.replace [] "1")) :: o.log) ∧
        within 0 ε isEvent (((0 : ℚ), .call (.list "0")) :: (0 + 0, .call (.replace [] "1")) :: o.log) = 0 := by
      intro o ho
      rw [ho]
      constructor
      · rw [within_cons, within_cons]
        have : within 0 ε isRequest ((List.range (n + 1)).map fun i : Nat =>
          (((0 + 0 + 0 : ℚ) + i * (ε / (n + 1)), .call (.watch "1")) : ℚ × Entry O)) = n + 1 := by
          unfold within
          rw [List.filter_eq_self.2, List.length_map, List.length_range]
          intro x hx
          obtain ⟨i, hi, rfl⟩ := List.mem_map.1 hx
          have hi : (i : ℚ) ≤ n + 1 := by exact_mod_cast (List.mem_range.1 hi).le
          have h1 : (0 : ℚ) ≤ i * (ε / (n + 1)) := by positivity
          have h2 : (i : ℚ) * (ε / (n + 1)) ≤ ε := by
            calc (i : ℚ) * (ε / (n + 1)) ≤ (n + 1) * (ε / (n + 1)) := by gcongr
              _ = ε := by field_simp
          simp [isRequest, h1, h2]
        omega
      · rw [within_cons, within_cons, within_none]
        · simp [isEvent]
        · intro x hx
          obtain ⟨i, -, rfl⟩ := List.mem_map.1 hx
          rfl
    simp only [run, listAndWatch]
    cases hst : (watchAll A (fun t => t / (ε / (n + 1))) (0 + 0 + 0) "1" "1"
      (List.replicate n (TWatch.stream 0 [] TEnd.closed (ε / (n + 1)) 0))).status with
    | ended => simp only [List.append_nil]; exact key _ hf
    | stuck => exact key _ hf
    | «open» => exact key _ hf

/-! ### The calls are those of the model without times -/

private def endOf (short : Bool) : TEnd → Reflector.StreamEnd
  | .closed => .closed short
  | .raises => .raises
  | .resyncFails => .resyncFails
  | .open => .open

private theorem sameEnd (short : Bool) (e : TEnd) : SameEnd e (endOf short e) := by cases e <;> trivial

private theorem calls_append (l l' : List (ℚ × Entry O)) : calls (l ++ l') = calls l ++ calls l' := by
  induction l with
  | nil => rfl
  | cons x l ih =>
    obtain ⟨t, e⟩ := x
    cases e with
    | call c => simp [calls, ih]
    | accepted => simpa [calls] using ih

private theorem calls_store (t : ℚ) (cs : List (Call O)) : calls (cs.map fun c => (t, .call c)) = cs := by
  induction cs with
  | nil => rfl
  | cons c cs ih => simp [calls, ih]

private theorem watchLoop_same (A : Access O G) (wall : ℚ → ℚ) (start : ℚ) (end_ : TEnd) (after : ℚ)
    (es : List (ℚ × Event O)) : ∀ (now : ℚ) (version last : String) (count : Nat),
    let r := watchLoop A wall start end_ after now version last count es
    ∃ short, (⟨calls r.log, r.version, r.last, r.ended⟩ : Reflector.Result O) =
      Reflector.watchLoop A version last count (endOf short end_) (es.map (·.2)) := by
  induction es with
  | nil =>
    intro now version last count
    refine ⟨decide (wall (now + after) - wall start < 1), ?_⟩
    cases end_ with
    | closed =>
      simp only [watchLoop, atEnd, calls, List.map_nil, Reflector.watchLoop, endOf, Reflector.atEnd]
      simp only [Bool.and_eq_true, decide_eq_true_eq, beq_iff_eq]
    | _ => rfl
  | cons x es ih =>
    obtain ⟨d, e⟩ := x
    intro now version last count
    simp only [watchLoop, List.map_cons, Reflector.watchLoop]
    cases onEvent A e with
    | raised => exact ⟨false, rfl⟩
    | skipped => exact ih _ _ _ _
    | accepted v =>
      obtain ⟨short, h⟩ := ih (now + d) v v (count + 1)
      refine ⟨short, ?_⟩
      simp only [← h, calls_append, List.cons_append, calls, calls_store]

private theorem watchAll_same (A : Access O G) (wall : ℚ → ℚ) (ws : List (TWatch O)) : ∀ (now : ℚ)
    (version last : String),
    let o := watchAll A wall now version last ws
    ∃ ws', List.Forall₂ SameWatch ws ws' ∧
      (⟨calls o.log, o.last, o.status⟩ : Reflector.Outcome O) = Reflector.watchAll A version last ws' := by
  induction ws with
  | nil => intro now version last; exact ⟨[], .nil, rfl⟩
  | cons w ws ih =>
    intro now version last
    cases w with
    | fails d =>
      obtain ⟨ws', h, -⟩ := ih now version last
      exact ⟨.fails :: ws', .cons trivial h, rfl⟩
    | stream d es e after close =>
      obtain ⟨short, h⟩ := watchLoop_same A wall (now + d) e after es (now + d) version last 0
      simp only [watchAll]
      generalize watchLoop A wall (now + d) e after (now + d) version last 0 es = r at h
      obtain ⟨ws', h1, h2⟩ := ih (r.time + close) r.version r.last
      refine ⟨.stream (es.map (·.2)) (endOf short e) :: ws', .cons ⟨rfl, sameEnd short e⟩ h1, ?_⟩
      simp only [Reflector.watchAll, ← h]
      cases r.ended with
      | returned => simp only [← h2, calls_append, calls, List.cons_append]
      | raised => rfl
      | stuck => rfl
      | «open» => rfl

private theorem listAndWatch_same (A : Access O G) (wall : ℚ → ℚ) (now : ℚ) (last : String) (s : TScript O) :
    let o := listAndWatch A wall now last s
    ∃ s', SameScript s s' ∧
      (⟨calls o.log, o.last, o.status⟩ : Reflector.Outcome O) = Reflector.listAndWatch A last s' := by
  cases s with
  | listFails d => exact ⟨.listFails, trivial, rfl⟩
  | replaceFails items v d r => exact ⟨.replaceFails items v, ⟨rfl, rfl⟩, rfl⟩
  | listed items v d r ws close =>
    obtain ⟨ws', h1, h2⟩ := watchAll_same A wall ws (now + d + r) v v
    refine ⟨.listed items v ws', ⟨rfl, rfl, h1⟩, ?_⟩
    simp only [listAndWatch, Reflector.listAndWatch, ← h2, calls]

/-- **C108 (the same reflector).** Without the times, a run makes the calls, and ends with the version and in the
state, of a run of the model of C39 to C42 with the same answers. -/
theorem C108_same (A : Access O G) (wall : ℚ → ℚ) (now : ℚ) (last : String) (ss : List (TScript O × ℚ)) :
    let o := run A wall now last ss
    ∃ ss', List.Forall₂ (fun s s' => SameScript s.1 s') ss ss' ∧
      calls o.log = (Reflector.run A last ss').calls ∧ o.last = (Reflector.run A last ss').last ∧
      o.status = (Reflector.run A last ss').status := by
  induction ss generalizing now last with
  | nil => exact ⟨[], .nil, rfl, rfl, rfl⟩
  | cons s ss ih =>
    obtain ⟨s, lag⟩ := s
    obtain ⟨s', h1, h2⟩ := listAndWatch_same A wall now last s
    simp only [run]
    generalize listAndWatch A wall now last s = o at h2
    obtain ⟨ss', j1, j2, j3, j4⟩ := ih (o.time + 1 + lag) o.last
    refine ⟨s' :: ss', .cons h1 j1, ?_⟩
    simp only [Reflector.run, ← h2]
    cases hst : o.status with
    | ended => simp only [calls_append, j2]; exact ⟨trivial, j3, j4⟩
    | stuck => exact ⟨rfl, rfl, hst⟩
    | «open» => exact ⟨rfl, rfl, hst⟩

/-! ### Cases that meet the hypotheses -/

private def exA : Access Nat Nat := ⟨fun _ => true, some, fun _ => true, fun _ => some "7", none⟩

/-- A list, a watch of two seconds without events, one of half a second with one event, one of half a second without
events; a second later the next list. -/
private def exS : List (TScript Nat × ℚ) :=
  [(.listed [1] "5" (1 / 10) 0 [.stream 0 [] .closed 2 0, .stream 0 [(1 / 4, ⟨.added, 3, false⟩)] .closed (1 / 4) 0,
    .stream 0 [] .closed (1 / 2) 0] 0, 0), (.listFails 0, 0)]

example : NotForward (fun t => t) := fun _ _ _ => le_rfl
example : NotForward (fun t => t - if 10 ≤ t then 5 else 0) := by
  intro s t h
  simp only
  split <;> split <;> linarith

example : ∀ s ∈ exS, Valid s.1 ∧ 0 ≤ s.2 := by
  simp only [exS, List.forall_mem_cons, Valid, WatchValid]
  norm_num

example : (run exA (fun t => t) 0 "" exS).log =
    [(0, .call (.list "0")), (1 / 10, .call (.replace [1] "5")), (1 / 10, .call (.watch "5")),
      (21 / 10, .call (.watch "5")), (47 / 20, .accepted), (47 / 20, .call (.add 3)), (13 / 5, .call (.watch "7")),
      (41 / 10, .call (.list "0"))] := by decide +kernel

example : within 0 5 isRequest (run exA (fun t => t) 0 "" exS).log = 5 ∧
    within 0 5 isEvent (run exA (fun t => t) 0 "" exS).log = 1 ∧
    within 0 5 isList (run exA (fun t => t) 0 "" exS).log = 2 := by decide +kernel

end Aiok8s.ReflectorTime
