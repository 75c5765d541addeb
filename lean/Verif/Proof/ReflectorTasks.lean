import Verif.Spec.ReflectorTasks
import Verif.Proof.Reflector
import Mathlib.Tactic.Linarith
/-!
# Lemmas about the reflector's tasks
-/
set_option linter.unusedSimpArgs false
set_option linter.unusedVariables false
namespace Aiok8s.ReflectorTasks
open Aiok8s.Reflector Spec
variable {O G : Type} [DecidableEq G]

theorem exec_cons {A : Access O G} {p : ℚ} {s s' : State O} {a : Act O} {as : List (Act O)}
    {es : List (Ev O)} (h : exec A p s (a :: as) = some (s', es)) :
    ∃ s1 e es', step A p s a = some (s1, e) ∧ exec A p s1 as = some (s', es') ∧ es = e ++ es' := by
  simp only [exec] at h
  cases h1 : step A p s a with
  | none => rw [h1] at h; simp at h
  | some r =>
    obtain ⟨s1, e⟩ := r
    rw [h1] at h
    simp only at h
    cases h2 : exec A p s1 as with
    | none => rw [h2] at h; simp at h
    | some r =>
      obtain ⟨s2, es'⟩ := r
      rw [h2] at h
      simp only [Option.some.injEq, Prod.mk.injEq] at h
      obtain ⟨rfl, rfl⟩ := h
      exact ⟨s1, e, es', rfl, h2, rfl⟩

/-! ## Scripts -/

theorem mapLast_snoc (f : Script O → Script O) (ss : List (Script O)) (s : Script O) :
    mapLast f (ss ++ [s]) = ss ++ [f s] := by
  induction ss with
  | nil => rfl
  | cons a ss ih => cases ss <;> simp_all [mapLast]

theorem mapWatch_snoc (f : Watch O → Watch O) (ws : List (Watch O)) (w : Watch O) :
    mapWatch f (ws ++ [w]) = ws ++ [f w] := by
  induction ws with
  | nil => rfl
  | cons a ws ih => cases ws <;> simp_all [mapWatch]

theorem callsOf_append (a b : List (Ev O)) : callsOf (a ++ b) = callsOf a ++ callsOf b := by
  induction a with
  | nil => rfl
  | cons e a ih => cases e <;> simp [callsOf, ih]

theorem scripts_append (a b : List (Ev O)) : scripts (a ++ b) = b.foldl answer (scripts a) := by
  simp [scripts]

/-- Scripts that are over: what they lead to. -/
def Pre (A : Access O G) (ss : List (Script O)) (cs : List (Call O)) (l : String) : Prop :=
  ∀ tail, (run A "" (ss ++ tail)).calls = cs ++ (run A l tail).calls ∧
    (run A "" (ss ++ tail)).last = (run A l tail).last

theorem pre_nil (A : Access O G) : Pre A [] [] "" := fun tail => ⟨rfl, rfl⟩

theorem pre_snoc {A : Access O G} {ss : List (Script O)} {cs : List (Call O)} {l : String}
    (h : Pre A ss cs l) {s : Script O} (hs : (listAndWatch A l s).status = .ended) :
    Pre A (ss ++ [s]) (cs ++ (listAndWatch A l s).calls) (listAndWatch A l s).last := by
  intro tail
  rw [List.append_assoc, List.singleton_append]
  obtain ⟨h1, h2⟩ := h (s :: tail)
  obtain ⟨h3, h4, -⟩ := run_cons_ended hs tail
  rw [h1, h2, h3, h4, List.append_assoc]
  exact ⟨rfl, rfl⟩

theorem pre_calls {A : Access O G} {ss : List (Script O)} {cs : List (Call O)} {l : String}
    (h : Pre A ss cs l) (s : Script O) :
    (run A "" (ss ++ [s])).calls = cs ++ (listAndWatch A l s).calls ∧
      (run A "" (ss ++ [s])).last = (listAndWatch A l s).last := by
  obtain ⟨h1, h2⟩ := h [s]
  by_cases hs : (listAndWatch A l s).status = .ended
  · obtain ⟨h3, h4, -⟩ := run_cons_ended hs []
    rw [h1, h2, h3, h4]
    simp [run]
  · rw [h1, h2, run_cons_other hs]
    exact ⟨rfl, rfl⟩

/-- Watches that came to a normal end. -/
def WPre (A : Access O G) (v : String) (ws : List (Watch O)) (cs : List (Call O)) (v1 l1 : String) :
    Prop :=
  ∀ tail, (watchAll A v v (ws ++ tail)).calls = cs ++ (watchAll A v1 l1 tail).calls ∧
    (watchAll A v v (ws ++ tail)).last = (watchAll A v1 l1 tail).last ∧
    (watchAll A v v (ws ++ tail)).status = (watchAll A v1 l1 tail).status

theorem wpre_nil (A : Access O G) (v : String) : WPre A v [] [] v v := fun tail => ⟨rfl, rfl, rfl⟩

/-- Events that have been handled. -/
def SPre (A : Access O G) (v1 l1 : String) (es : List (Event O)) (cs : List (Call O)) (v2 l2 : String)
    (n : Nat) : Prop :=
  ∀ x tail, (watchLoop A v1 l1 0 x (es ++ tail)).calls = cs ++ (watchLoop A v2 l2 n x tail).calls ∧
    (watchLoop A v1 l1 0 x (es ++ tail)).version = (watchLoop A v2 l2 n x tail).version ∧
    (watchLoop A v1 l1 0 x (es ++ tail)).last = (watchLoop A v2 l2 n x tail).last ∧
    (watchLoop A v1 l1 0 x (es ++ tail)).ended = (watchLoop A v2 l2 n x tail).ended

theorem spre_nil (A : Access O G) (v l : String) : SPre A v l [] [] v l 0 :=
  fun x tail => ⟨rfl, rfl, rfl, rfl⟩

theorem spre_skip {A : Access O G} {v1 l1 : String} {es : List (Event O)} {cs : List (Call O)}
    {v2 l2 : String} {n : Nat} (h : SPre A v1 l1 es cs v2 l2 n) {e : Event O}
    (he : onEvent A e = .skipped) : SPre A v1 l1 (es ++ [e]) cs v2 l2 n := by
  intro x tail
  rw [List.append_assoc, List.singleton_append]
  have := h x (e :: tail)
  simp only [watchLoop, he] at this
  exact this

theorem spre_take {A : Access O G} {v1 l1 : String} {es : List (Event O)} {cs : List (Call O)}
    {v2 l2 : String} {n : Nat} (h : SPre A v1 l1 es cs v2 l2 n) {e : Event O} {v : String}
    (he : onEvent A e = .accepted v) : SPre A v1 l1 (es ++ [e]) (cs ++ storeCall e) v v (n + 1) := by
  intro x tail
  rw [List.append_assoc, List.singleton_append]
  have := h x (e :: tail)
  simp only [watchLoop, he] at this
  rw [List.append_assoc]
  exact this

/-- In a call of `list_and_watch` with a list. -/
def InList (A : Access O G) (L : List (Ev O)) (v1 l1 : String) (ws' : List (Watch O))
    (cs' : List (Call O)) : Prop :=
  ∃ ss0 cs0 l0 items v ws wcs, Pre A ss0 cs0 l0 ∧ WPre A v ws wcs v1 l1 ∧
    scripts L = ss0 ++ [.listed items v (ws ++ ws')] ∧
    callsOf L = cs0 ++ .list "0" :: .replace items v :: (wcs ++ cs')

def Opening (A : Access O G) (L : List (Ev O)) (v l : String) : Prop :=
  InList A L v l [] [.watch v]

def Watching (A : Access O G) (L : List (Ev O)) (v l : String) (n : Nat) : Prop :=
  ∃ v1 l1 es cs, SPre A v1 l1 es cs v l n ∧ InList A L v1 l1 [.stream es .open] (.watch v1 :: cs)

def Done (A : Access O G) (L : List (Ev O)) (l : String) : Prop := Pre A (scripts L) (callsOf L) l

def Ok (A : Access O G) (L : List (Ev O)) : Prop := (run A "" (scripts L)).calls = callsOf L

theorem done_ok {A : Access O G} {L : List (Ev O)} {l : String} (h : Done A L l) :
    Ok A L ∧ (run A "" (scripts L)).last = l := by
  obtain ⟨h1, h2⟩ := h []
  simp only [List.append_nil, run] at h1 h2
  exact ⟨h1, h2⟩

/-- What the present script leads to. -/
theorem inList_calls {A : Access O G} {L : List (Ev O)} {v1 l1 : String} {ws' : List (Watch O)}
    {cs' : List (Call O)} (h : InList A L v1 l1 ws' cs') (hc : (watchAll A v1 l1 ws').calls = cs') :
    Ok A L ∧ (run A "" (scripts L)).last = (watchAll A v1 l1 ws').last ∧
      ((watchAll A v1 l1 ws').status = .ended → Done A L (watchAll A v1 l1 ws').last) := by
  obtain ⟨ss0, cs0, l0, items, v, ws, wcs, h1, h2, h3, h4⟩ := h
  obtain ⟨w1, w2, w3⟩ := h2 ws'
  have hcalls : (listAndWatch A l0 (.listed items v (ws ++ ws'))).calls =
      .list "0" :: .replace items v :: (wcs ++ cs') := by
    simp only [listAndWatch, w1, hc]
  have hlast : (listAndWatch A l0 (.listed items v (ws ++ ws'))).last = (watchAll A v1 l1 ws').last := by
    simp only [listAndWatch, w2]
  obtain ⟨p1, p2⟩ := pre_calls h1 (.listed items v (ws ++ ws'))
  refine ⟨?_, ?_, ?_⟩
  · unfold Ok; rw [h3, p1, hcalls, h4]
  · rw [h3, p2, hlast]
  · intro hst
    have hs : (listAndWatch A l0 (.listed items v (ws ++ ws'))).status = .ended := by
      simp only [listAndWatch, w3, hst]
    have := pre_snoc h1 hs
    rw [hcalls, hlast] at this
    unfold Done
    rw [h3, h4]
    exact this

theorem opening_ok {A : Access O G} {L : List (Ev O)} {v l : String} (h : Opening A L v l) :
    Ok A L ∧ (run A "" (scripts L)).last = l := by
  obtain ⟨h1, h2, -⟩ := inList_calls h rfl
  exact ⟨h1, h2⟩

theorem watching_ok {A : Access O G} {L : List (Ev O)} {v l : String} {n : Nat}
    (h : Watching A L v l n) : Ok A L ∧ (run A "" (scripts L)).last = l := by
  obtain ⟨v1, l1, es, cs, h1, h2⟩ := h
  obtain ⟨s1, s2, s3, s4⟩ := h1 .open []
  simp only [List.append_nil, watchLoop, atEnd] at s1 s2 s3 s4
  obtain ⟨k1, k2, -⟩ := inList_calls h2 (by simp only [watchAll, s4, s1])
  refine ⟨k1, ?_⟩
  rw [k2]
  simp only [watchAll, s4, s3]

/-- Change the end of the present script. -/
theorem inList_change {A : Access O G} {L : List (Ev O)} {v1 l1 : String} {w w' : Watch O}
    {cs' : List (Call O)} (h : InList A L v1 l1 [w] cs') (e : Ev O) (f : Watch O → Watch O)
    (he : ∀ ss : List (Script O), answer ss e = mapLast (changeWatch f) ss) (hc : callsOf [e] = [])
    (hf : f w = w') : InList A (L ++ [e]) v1 l1 [w'] cs' := by
  obtain ⟨ss0, cs0, l0, items, v, ws, wcs, h1, h2, h3, h4⟩ := h
  refine ⟨ss0, cs0, l0, items, v, ws, wcs, h1, h2, ?_, ?_⟩
  · rw [scripts_append, List.foldl_cons, List.foldl_nil, he, h3, mapLast_snoc, changeWatch,
      mapWatch_snoc, hf]
  · rw [callsOf_append, h4, hc, List.append_nil]

theorem watching_end {A : Access O G} {L : List (Ev O)} {v l : String} {n : Nat}
    (h : Watching A L v l n) (e : Ev O) (x : StreamEnd) (tail : List (Event O)) (f : Watch O → Watch O)
    (he : ∀ ss : List (Script O), answer ss e = mapLast (changeWatch f) ss)
    (hf : ∀ es, f (.stream es .open) = .stream (es ++ tail) x) (hc : callsOf [e] = [])
    (h1 : (watchLoop A v l n x tail).calls = []) (h2 : (watchLoop A v l n x tail).last = l)
    (h3 : (watchLoop A v l n x tail).ended = .raised) : Done A (L ++ [e]) l := by
  obtain ⟨v1, l1, es, cs, k1, k2⟩ := h
  have k3 := inList_change (w' := .stream (es ++ tail) x) k2 e _ he hc (hf es)
  obtain ⟨s1, s2, s3, s4⟩ := k1 x tail
  rw [h1, List.append_nil] at s1
  rw [h2] at s3
  rw [h3] at s4
  obtain ⟨-, -, k⟩ := inList_calls k3 (by simp only [watchAll, s4, s1])
  have hl : (watchAll A v1 l1 [.stream (es ++ tail) x]).last = l := by simp only [watchAll, s4, s3]
  rw [hl] at k
  exact k (by simp only [watchAll, s4])

theorem watching_resyncErr {A : Access O G} {L : List (Ev O)} {v l : String} {n : Nat}
    (h : Watching A L v l n) : Done A (L ++ [.resyncErr]) l :=
  watching_end h _ .resyncFails [] _ (fun ss => rfl) (fun es => by simp only [List.append_nil]) rfl rfl rfl rfl

theorem watching_short {A : Access O G} {L : List (Ev O)} {v l : String}
    (h : Watching A L v l 0) : Done A (L ++ [.closed true]) l :=
  watching_end h _ (.closed true) [] _ (fun ss => rfl) (fun es => by simp only [List.append_nil]) rfl rfl rfl rfl

/-- A fatal event. -/
theorem watching_fatal {A : Access O G} {L : List (Ev O)} {v l : String} {n : Nat}
    (h : Watching A L v l n) {e : Event O} (he : onEvent A e = .raised) : Done A (L ++ [.took e]) l := by
  obtain ⟨v1, l1, es, cs, k1, k2⟩ := h
  have k3 := inList_change (w' := .stream (es ++ [e]) .open) k2 (.took e) _ (fun ss => rfl) rfl rfl
  obtain ⟨s1, s2, s3, s4⟩ := k1 .open [e]
  simp only [watchLoop, he, List.append_nil] at s1 s2 s3 s4
  obtain ⟨-, -, k⟩ := inList_calls k3 (by simp only [watchAll, s4, s1])
  have hl : (watchAll A v1 l1 [.stream (es ++ [e]) .open]).last = l := by simp only [watchAll, s4, s3]
  rw [hl] at k
  exact k (by simp only [watchAll, s4])

theorem watching_skip {A : Access O G} {L : List (Ev O)} {v l : String} {n : Nat}
    (h : Watching A L v l n) {e : Event O} (he : onEvent A e = .skipped) :
    Watching A (L ++ [.took e]) v l n := by
  obtain ⟨v1, l1, es, cs, k1, k2⟩ := h
  exact ⟨v1, l1, es ++ [e], cs, spre_skip k1 he,
    inList_change (w' := .stream (es ++ [e]) .open) k2 (.took e) _ (fun ss => rfl) rfl rfl⟩

theorem watching_take {A : Access O G} {L : List (Ev O)} {v l : String} {n : Nat}
    (h : Watching A L v l n) {e : Event O} {v' : String} (he : onEvent A e = .accepted v') :
    Watching A (L ++ (.took e :: (storeCall e).map .call)) v' v' (n + 1) := by
  obtain ⟨v1, l1, es, cs, k1, k2⟩ := h
  have k3 := inList_change (w' := .stream (es ++ [e]) .open) k2 (.took e) _ (fun ss => rfl) rfl rfl
  refine ⟨v1, l1, es ++ [e], cs ++ storeCall e, spre_take k1 he, ?_⟩
  obtain ⟨ss0, cs0, l0, items, w, ws, wcs, h1, h2, h3, h4⟩ := k3
  refine ⟨ss0, cs0, l0, items, w, ws, wcs, h1, h2, ?_, ?_⟩
  · rw [← List.singleton_append, ← List.append_assoc, scripts_append, h3]
    unfold storeCall
    split <;> rfl
  · rw [← List.singleton_append, ← List.append_assoc, callsOf_append, h4]
    have : callsOf ((storeCall e).map Ev.call) = storeCall e := by
      unfold storeCall
      split <;> rfl
    rw [this]
    simp

theorem watching_again {A : Access O G} {L : List (Ev O)} {v l : String} {n : Nat} {short : Bool}
    (h : Watching A L v l n) (hs : (short && n == 0) = false) :
    Opening A (L ++ [.closed short, .call (.watch v)]) v l := by
  obtain ⟨v1, l1, es, cs, k1, k2⟩ := h
  have k3 := inList_change (w' := .stream es (.closed short)) k2 (.closed short) _ (fun ss => rfl) rfl rfl
  obtain ⟨ss0, cs0, l0, items, w, ws, wcs, h1, h2, h3, h4⟩ := k3
  refine ⟨ss0, cs0, l0, items, w, ws ++ [.stream es (.closed short)], wcs ++ .watch v1 :: cs, h1, ?_, ?_, ?_⟩
  · intro tail
    rw [List.append_assoc, List.singleton_append]
    obtain ⟨w1, w2, w3⟩ := h2 (.stream es (.closed short) :: tail)
    obtain ⟨s1, s2, s3, s4⟩ := k1 (.closed short) []
    simp only [List.append_nil, watchLoop, atEnd, hs] at s1 s2 s3 s4
    rw [w1, w2, w3]
    simp only [watchAll, s4, s1, s2, s3, Bool.false_eq_true, if_false]
    simp
  · rw [show L ++ [Ev.closed short, Ev.call (Call.watch v)] =
        (L ++ [Ev.closed short]) ++ [Ev.call (Call.watch v)] by simp, scripts_append, h3]
    simp [answer]
  · rw [show L ++ [Ev.closed short, Ev.call (Call.watch v)] =
        (L ++ [Ev.closed short]) ++ [Ev.call (Call.watch v)] by simp, callsOf_append, h4]
    simp [callsOf]

theorem opening_failed {A : Access O G} {L : List (Ev O)} {v l : String} (h : Opening A L v l) :
    Done A (L ++ [.watchFailed]) l := by
  obtain ⟨ss0, cs0, l0, items, w, ws, wcs, h1, h2, h3, h4⟩ := h
  have k : InList A (L ++ [.watchFailed]) v l [.fails] [.watch v] := by
    refine ⟨ss0, cs0, l0, items, w, ws, wcs, h1, h2, ?_, ?_⟩
    · rw [scripts_append, List.foldl_cons, List.foldl_nil, answer, h3, mapLast_snoc, addWatch,
        List.append_nil]
    · rw [callsOf_append, h4]; simp [callsOf]
  exact (inList_calls k rfl).2.2 rfl

theorem opening_opened {A : Access O G} {L : List (Ev O)} {v l : String} (h : Opening A L v l) :
    Watching A (L ++ [.opened]) v l 0 := by
  obtain ⟨ss0, cs0, l0, items, w, ws, wcs, h1, h2, h3, h4⟩ := h
  refine ⟨v, l, [], [], spre_nil A v l, ss0, cs0, l0, items, w, ws, wcs, h1, h2, ?_, ?_⟩
  · rw [scripts_append, List.foldl_cons, List.foldl_nil, answer, h3, mapLast_snoc, addWatch,
      List.append_nil]
  · rw [callsOf_append, h4]; simp [callsOf]

/-- Where the tasks are in the scripts. -/
def Rel (A : Access O G) (L : List (Ev O)) (s : State O) : Prop :=
  match s.pc with
  | .sleeping => Done A L s.last
  | .listing => ∃ ss cs, Pre A ss cs s.last ∧ scripts L = ss ++ [.listFails] ∧
      callsOf L = cs ++ [.list "0"]
  | .replacing items v => ∃ ss cs, Pre A ss cs s.last ∧ scripts L = ss ++ [.replaceFails items v] ∧
      callsOf L = cs ++ [.list "0", .replace items v]
  | .opening => Opening A L s.version s.last
  | .waiting => Watching A L s.version s.last s.count
  | .storing v => Watching A L v v (s.count + 1)
  | .leavingWatch (.again short) => Watching A L s.version s.last s.count ∧ (short && s.count == 0) = false
  | .leavingWatch .tooShort => Watching A L s.version s.last s.count ∧ s.count = 0
  | .leavingWatch .resyncErr => Watching A L s.version s.last s.count
  | .leavingWatch .fatal => Done A L s.last
  | .leavingWatch .cancelled => Ok A L
  | .leaving false => Done A L s.last
  | .leaving true => Ok A L
  | .ended => Ok A L

theorem rel_init (A : Access O G) : Rel A [] (init : State O) := pre_nil A

theorem rel_ok {A : Access O G} {L : List (Ev O)} {s : State O} (h : Rel A L s) : Ok A L := by
  unfold Rel at h
  split at h
  · exact (done_ok h).1
  · obtain ⟨ss, cs, h1, h2, h3⟩ := h
    unfold Ok; rw [h2, h3, (pre_calls h1 _).1]; rfl
  · obtain ⟨ss, cs, h1, h2, h3⟩ := h
    unfold Ok; rw [h2, h3, (pre_calls h1 _).1]; rfl
  · exact (opening_ok h).1
  · exact (watching_ok h).1
  · exact (watching_ok h).1
  · exact (watching_ok h.1).1
  · exact (watching_ok h.1).1
  · exact (watching_ok h).1
  · exact (done_ok h).1
  · exact h
  · exact (done_ok h).1
  · exact h
  · exact h

theorem rel_last {A : Access O G} {L : List (Ev O)} {s : State O} (h : Rel A L s)
    (hs : settled s.pc = true) : (run A "" (scripts L)).last = s.last := by
  unfold Rel at h
  split at h <;> rename_i hpc
  · exact (done_ok h).2
  · obtain ⟨ss, cs, h1, h2, h3⟩ := h
    rw [h2, (pre_calls h1 _).2]; rfl
  · obtain ⟨ss, cs, h1, h2, h3⟩ := h
    rw [h2, (pre_calls h1 _).2]; rfl
  · exact (opening_ok h).2
  · exact (watching_ok h).2
  · rw [hpc] at hs; simp [settled] at hs
  · exact (watching_ok h.1).2
  · exact (watching_ok h.1).2
  · exact (watching_ok h).2
  · exact (done_ok h).2
  · rw [hpc] at hs; simp [settled] at hs
  · exact (done_ok h).2
  · rw [hpc] at hs; simp [settled] at hs
  · rw [hpc] at hs; simp [settled] at hs

/-- Events that do not concern the scripts. -/
theorem rel_same {A : Access O G} {L e : List (Ev O)} {s s' : State O} (h : Rel A L s)
    (h1 : s'.pc = s.pc) (h2 : s'.version = s.version) (h3 : s'.last = s.last) (h4 : s'.count = s.count)
    (h5 : ∀ ss : List (Script O), e.foldl answer ss = ss) (h6 : callsOf e = []) : Rel A (L ++ e) s' := by
  have e1 : scripts (L ++ e) = scripts L := by rw [scripts_append, h5]
  have e2 : callsOf (L ++ e) = callsOf L := by rw [callsOf_append, h6, List.append_nil]
  unfold Rel at h ⊢
  rw [h1]
  simp only [h2, h3, h4]
  simp only [Done, Opening, Watching, InList, Ok, e1, e2] at h ⊢
  exact h

theorem rel_cancel {A : Access O G} {L : List (Ev O)} {s' : State O} (h : Ok A L)
    (h1 : s'.pc = .ended ∨ s'.pc = .leaving true ∨ s'.pc = .leavingWatch .cancelled) :
    Rel A (L ++ []) s' := by
  rw [List.append_nil]
  unfold Rel
  rcases h1 with h1 | h1 | h1 <;> rw [h1] <;> exact h

theorem storeCall_one (e : Event O) : storeCall e = [] ∨ ∃ c, storeCall e = [c] := by
  unfold storeCall; split <;> simp

theorem done_fatal {A : Access O G} {L : List (Ev O)} {l : String} (h : Done A L l) :
    Done A (L ++ [.fatal]) l := by
  unfold Done at h ⊢
  rw [scripts_append, callsOf_append]
  simp only [List.foldl_cons, List.foldl_nil, answer, callsOf, List.append_nil]
  exact h

theorem rel_step {A : Access O G} {p : ℚ} {L e : List (Ev O)} {s s' : State O} {a : Act O}
    (h : Rel A L s) (hs : step A p s a = some (s', e)) : Rel A (L ++ e) s' := by
  have hok := rel_ok h
  cases a with
  | list =>
    simp only [step] at hs
    split at hs
    · rename_i hpc
      simp at hs; obtain ⟨rfl, rfl⟩ := hs
      unfold Rel at h
      rw [hpc] at h
      refine ⟨scripts L, callsOf L, h, ?_, ?_⟩
      · rw [scripts_append]; rfl
      · rw [callsOf_append]; rfl
    · cases hs
  | listed ans =>
    simp only [step] at hs
    split at hs
    · rename_i hpc
      unfold Rel at h
      rw [hpc] at h
      obtain ⟨ss, cs, h1, h2, h3⟩ := h
      split at hs
      · simp at hs; obtain ⟨rfl, rfl⟩ := hs
        show Done A (L ++ [.listFailed]) s.last
        have := pre_snoc h1 (s := .listFails) rfl
        unfold Done
        rw [scripts_append, callsOf_append, h2, h3]
        simpa [answer, callsOf, listAndWatch] using this
      · simp at hs; obtain ⟨rfl, rfl⟩ := hs
        refine ⟨ss, cs, h1, ?_, ?_⟩
        · rw [scripts_append, h2, List.foldl_cons, List.foldl_nil, answer, mapLast_snoc]
        · rw [callsOf_append, h3]; simp [callsOf]
    · cases hs
  | replaced ok =>
    simp only [step] at hs
    split at hs
    · rename_i items v hpc
      unfold Rel at h
      rw [hpc] at h
      obtain ⟨ss, cs, h1, h2, h3⟩ := h
      split at hs
      · simp at hs; obtain ⟨rfl, rfl⟩ := hs
        refine ⟨ss, cs, s.last, items, v, [], [], h1, wpre_nil A v, ?_, ?_⟩
        · rw [scripts_append, h2]
          simp only [List.foldl_cons, List.foldl_nil, answer, mapLast_snoc, List.nil_append]
        · rw [callsOf_append, h3]; simp [callsOf]
      · simp at hs; obtain ⟨rfl, rfl⟩ := hs
        show Done A (L ++ [.replaceFailed]) s.last
        have := pre_snoc h1 (s := .replaceFails items v) rfl
        unfold Done
        rw [scripts_append, callsOf_append, h2, h3]
        simpa [answer, callsOf, listAndWatch] using this
    · cases hs
  | watched ok =>
    simp only [step] at hs
    split at hs
    · rename_i hpc
      unfold Rel at h
      rw [hpc] at h
      split at hs
      · simp at hs; obtain ⟨rfl, rfl⟩ := hs
        exact opening_opened h
      · simp at hs; obtain ⟨rfl, rfl⟩ := hs
        exact opening_failed h
    · cases hs
  | read ev =>
    simp only [step] at hs
    split at hs
    · simp at hs; obtain ⟨rfl, rfl⟩ := hs
      exact rel_same h rfl rfl rfl rfl (fun _ => rfl) rfl
    · cases hs
  | readEnd | readFail | readerEnds | resyncEnds =>
    simp only [step] at hs
    split at hs
    · simp at hs; obtain ⟨rfl, rfl⟩ := hs
      exact rel_same h rfl rfl rfl rfl (fun _ => rfl) rfl
    · cases hs
  | errGet =>
    simp only [step] at hs
    split at hs
    · simp at hs; obtain ⟨rfl, rfl⟩ := hs
      exact rel_same h rfl rfl rfl rfl (fun _ => rfl) rfl
    · cases hs
  | resume =>
    simp only [step] at hs
    split at hs
    · rename_i hpc
      have hw : Watching A L s.version s.last s.count := by unfold Rel at h; rw [hpc] at h; exact h
      split at hs
      · simp at hs; obtain ⟨rfl, rfl⟩ := hs
        rw [List.append_nil]; exact hw
      · split at hs
        · cases hs
        · rename_i x rest hq
          simp only [Option.some.injEq] at hs
          cases x with
          | none =>
            simp only [onTaken, Prod.mk.injEq] at hs
            obtain ⟨rfl, rfl⟩ := hs
            rw [List.append_nil]
            by_cases hsh : (decide (s.now - s.start < 1) && s.count == 0) = true
            · rw [if_pos hsh]
              refine ⟨hw, ?_⟩
              simp at hsh; exact hsh.2
            · rw [if_neg hsh]
              refine ⟨hw, ?_⟩
              simpa [leaveWatch] using hsh
          | some ev =>
            simp only [onTaken] at hs
            split at hs
            · rename_i he
              simp only [Prod.mk.injEq] at hs
              obtain ⟨rfl, rfl⟩ := hs
              exact watching_fatal hw he
            · rename_i he
              simp only [Prod.mk.injEq] at hs
              obtain ⟨rfl, rfl⟩ := hs
              have := watching_skip hw he
              unfold Rel
              simp only [hpc]
              exact this
            · rename_i v he
              have := watching_take hw he
              split at hs
              · rename_i c cs' hc
                simp only [Prod.mk.injEq] at hs
                obtain ⟨rfl, rfl⟩ := hs
                rcases storeCall_one ev with h0 | ⟨c', h0⟩
                · rw [h0] at hc; cases hc
                · rw [h0] at hc this; cases hc
                  exact this
              · rename_i hc
                simp only [Prod.mk.injEq] at hs
                obtain ⟨rfl, rfl⟩ := hs
                rw [hc] at this
                unfold Rel
                simp only [hpc]
                exact this
    · cases hs
  | stored =>
    simp only [step] at hs
    split at hs
    · rename_i v hpc
      unfold Rel at h
      rw [hpc] at h
      simp at hs; obtain ⟨rfl, rfl⟩ := hs
      rw [List.append_nil]
      exact h
    · cases hs
  | tasksEnded =>
    simp only [step] at hs
    split at hs
    · rename_i how hpc hr
      unfold Rel at h
      rw [hpc] at h
      cases how with
      | again short =>
        simp only [Option.some.injEq, Prod.mk.injEq] at hs
        obtain ⟨rfl, rfl⟩ := hs
        exact watching_again h.1 h.2
      | tooShort =>
        simp only [Option.some.injEq, Prod.mk.injEq] at hs
        obtain ⟨rfl, rfl⟩ := hs
        simp only [h.2] at h
        exact watching_short h.1
      | fatal =>
        simp only [Option.some.injEq, Prod.mk.injEq] at hs
        obtain ⟨rfl, rfl⟩ := hs
        exact done_fatal h
      | resyncErr =>
        simp only [Option.some.injEq, Prod.mk.injEq] at hs
        obtain ⟨rfl, rfl⟩ := hs
        exact watching_resyncErr h
      | cancelled =>
        simp only [Option.some.injEq, Prod.mk.injEq] at hs
        obtain ⟨rfl, rfl⟩ := hs
        rw [List.append_nil]
        exact h
    · cases hs
  | tick sh =>
    simp only [step] at hs
    split at hs
    · split at hs
      · split at hs <;>
          (simp at hs; obtain ⟨rfl, rfl⟩ := hs
           exact rel_same h rfl rfl rfl rfl (fun _ => rfl) rfl)
      · cases hs
    · cases hs
  | resynced ok =>
    simp only [step] at hs
    split at hs
    · split at hs <;>
        (simp at hs; obtain ⟨rfl, rfl⟩ := hs
         exact rel_same h rfl rfl rfl rfl (fun _ => rfl) rfl)
    · cases hs
  | gathered =>
    simp only [step] at hs
    split at hs
    · rename_i c hpc hr
      simp at hs; obtain ⟨rfl, rfl⟩ := hs
      rw [List.append_nil]
      cases c with
      | true => exact hok
      | false => unfold Rel at h; rw [hpc] at h; exact h
    · cases hs
  | cancel =>
    simp only [step] at hs
    split at hs
    all_goals first
      | (cases hs; done)
      | (simp at hs; obtain ⟨rfl, rfl⟩ := hs
         refine rel_cancel hok ?_
         simp [leave, leaveWatch])
  | pass d =>
    simp only [step] at hs
    split at hs
    · simp at hs; obtain ⟨rfl, rfl⟩ := hs
      exact rel_same h rfl rfl rfl rfl (fun _ => rfl) rfl
    · cases hs

theorem rel_exec {A : Access O G} {p : ℚ} (as : List (Act O)) : ∀ {L es : List (Ev O)} {s s' : State O},
    Rel A L s → exec A p s as = some (s', es) → Rel A (L ++ es) s' := by
  induction as with
  | nil => intro L es s s' h he; simp [exec] at he; obtain ⟨rfl, rfl⟩ := he; rw [List.append_nil]; exact h
  | cons a as ih =>
    intro L es s s' h he
    obtain ⟨s1, e, es', h1, h2, rfl⟩ := exec_cons he
    rw [← List.append_assoc]
    exact ih (rel_step h h1) h2

/-! ## Which tasks there are -/

/-- Which tasks there are. -/
def Shape (s : State O) : Prop :=
  match s.pc with
  | .sleeping | .listing | .replacing _ _ | .ended =>
    s.reader = .none ∧ s.errTask = .none ∧ s.resync = .none
  | .opening => s.reader = .none ∧ s.errTask = .none ∧ s.resync ≠ .none ∧ s.resync ≠ .stopping
  | .waiting | .storing _ => (s.reader = .reading ∨ s.reader = .ended) ∧ s.errTask ≠ .none ∧
      s.resync ≠ .none ∧ s.resync ≠ .stopping
  | .leavingWatch _ => (s.reader = .stopping ∨ s.reader = .ended) ∧ s.errTask = .none ∧
      s.resync ≠ .none ∧ s.resync ≠ .stopping
  | .leaving _ => s.reader = .none ∧ s.errTask = .none ∧ (s.resync = .stopping ∨ s.resync = .ended)

theorem shape_init : Shape (init : State O) := ⟨rfl, rfl, rfl⟩

theorem shape_leaveWatch {s : State O} (h1 : s.reader = .reading ∨ s.reader = .ended)
    (h2 : s.resync ≠ .none) (h3 : s.resync ≠ .stopping) (how : How) : Shape (leaveWatch s how) := by
  refine ⟨?_, rfl, h2, h3⟩
  rcases h1 with h | h <;> simp [leaveWatch, h]

theorem shape_leave {s : State O} (h1 : s.reader = .none) (h0 : s.errTask = .none)
    (h2 : s.resync ≠ .none) (h3 : s.resync ≠ .stopping) (c : Bool) : Shape (leave s c) := by
  refine ⟨h1, h0, ?_⟩
  simp only [leave]
  split <;> simp_all
  rename_i a b
  cases hr : s.resync <;> simp_all

theorem shape_step {A : Access O G} {p : ℚ} {e : List (Ev O)} {s s' : State O} {a : Act O}
    (h : Shape s) (hs : step A p s a = some (s', e)) : Shape s' := by
  cases a with
  | resume =>
    simp only [step] at hs
    split at hs
    · rename_i hpc
      simp only [Shape, hpc] at h
      obtain ⟨h1, h2, h3, h4⟩ := h
      split at hs
      · simp at hs; obtain ⟨rfl, rfl⟩ := hs
        exact shape_leaveWatch h1 h3 h4 .resyncErr
      · split at hs
        · cases hs
        · rename_i x rest hq
          simp only [Option.some.injEq] at hs
          cases x with
          | none =>
            simp only [onTaken, Prod.mk.injEq] at hs
            obtain ⟨rfl, rfl⟩ := hs
            exact shape_leaveWatch (s := { s with queue := rest }) h1 h3 h4 _
          | some ev =>
            simp only [onTaken] at hs
            split at hs
            · simp only [Prod.mk.injEq] at hs
              obtain ⟨rfl, rfl⟩ := hs
              exact shape_leaveWatch (s := { s with queue := rest }) h1 h3 h4 _
            · simp only [Prod.mk.injEq] at hs
              obtain ⟨rfl, rfl⟩ := hs
              simp only [Shape, hpc]
              exact ⟨h1, h2, h3, h4⟩
            · split at hs <;>
                (simp only [Prod.mk.injEq] at hs
                 obtain ⟨rfl, rfl⟩ := hs
                 simp only [Shape, hpc]
                 exact ⟨h1, h2, h3, h4⟩)
    · cases hs
  | tasksEnded =>
    simp only [step] at hs
    split at hs
    · rename_i how hpc hr
      simp only [Shape, hpc] at h
      obtain ⟨h1, h2, h3, h4⟩ := h
      cases how <;>
        (simp only [Option.some.injEq, Prod.mk.injEq] at hs
         obtain ⟨rfl, rfl⟩ := hs
         first
          | exact shape_leave (s := { s with reader := .none }) rfl h2 h3 h4 _
          | exact ⟨rfl, h2, h3, h4⟩)
    · cases hs
  | cancel =>
    simp only [step] at hs
    split at hs <;> rename_i hpc
    all_goals first
      | (cases hs; done)
      | (simp at hs; obtain ⟨rfl, rfl⟩ := hs
         simp only [Shape, hpc] at h
         first
          | exact h
          | exact shape_leave h.1 h.2.1 h.2.2.1 h.2.2.2 _
          | exact shape_leaveWatch h.1 h.2.2.1 h.2.2.2 _)
  | watched ok =>
    simp only [step] at hs
    split at hs
    · rename_i hpc
      simp only [Shape, hpc] at h
      split at hs
      · simp at hs; obtain ⟨rfl, rfl⟩ := hs
        exact ⟨Or.inl rfl, by simp, h.2.2⟩
      · simp at hs; obtain ⟨rfl, rfl⟩ := hs
        exact shape_leave h.1 h.2.1 h.2.2.1 h.2.2.2 _
    · cases hs
  | gathered =>
    simp only [step] at hs
    split at hs
    · rename_i c hpc hr
      simp only [Shape, hpc] at h
      simp at hs; obtain ⟨rfl, rfl⟩ := hs
      cases c <;> exact ⟨h.1, h.2.1, rfl⟩
    · cases hs
  | _ =>
    obtain ⟨pc, v, l, c, st, rd, q, et, er, rs, now⟩ := s
    simp only [step] at hs
    repeat' split at hs
    all_goals first
      | (cases hs; done)
      | (simp only [Option.some.injEq, Prod.mk.injEq] at hs
         obtain ⟨rfl, -⟩ := hs
         first
          | (simp_all [Shape]; done)
          | (cases pc <;> simp_all [Shape]))

/-! ## The stream -/

theorem given_append (a b : List (Ev O)) : given (a ++ b) = b.foldl givenStep (given a) := by
  simp only [given, List.foldl_append]

theorem taken_append (a b : List (Ev O)) : taken (a ++ b) = b.foldl takenStep (taken a) := by
  simp only [taken, List.foldl_append]

/-- What is in the queue was given and not taken; `None` comes last. -/
structure Stream (L : List (Ev O)) (s : State O) : Prop where
  queue : given L = taken L ++ s.queue.filterMap id
  open_ : s.reader = .reading → none ∉ s.queue
  last : ∀ a b, s.queue = a ++ none :: b → b = []
  taken : ∀ short, s.pc = .leavingWatch (.again short) → s.queue = []
  short : s.pc = .leavingWatch .tooShort → s.queue = []
  closed : ∀ L1 b L2, L = L1 ++ .closed b :: L2 → Spec.taken L1 = given L1

theorem stream_init : Stream [] (init : State O) where
  queue := rfl
  open_ := by simp [init]
  last := by simp [init]
  taken := by simp [init]
  short := by simp [init]
  closed := by intro L1 b L2 h; cases L1 <;> simp at h

theorem closed_append {L e : List (Ev O)}
    (h : ∀ L1 b L2, L = L1 ++ .closed b :: L2 → Spec.taken L1 = given L1)
    (he : ∀ L1 b L2, e = L1 ++ .closed b :: L2 → L1 = [] ∧ Spec.taken L = given L) :
    ∀ L1 b L2, L ++ e = L1 ++ .closed b :: L2 → Spec.taken L1 = given L1 := by
  intro L1 b L2 heq
  rw [List.append_eq_append_iff] at heq
  rcases heq with ⟨m, h1, h2⟩ | ⟨m, h1, h2⟩
  · obtain ⟨rfl, h3⟩ := he m b L2 h2
    rw [h1, List.append_nil]; exact h3
  · cases m with
    | nil =>
      obtain ⟨-, h3⟩ := he [] b L2 (by simpa using h2.symm)
      rw [List.append_nil] at h1
      rw [← h1]; exact h3
    | cons x m =>
      simp only [List.cons_append, List.cons.injEq] at h2
      obtain ⟨rfl, -⟩ := h2
      exact h L1 b m h1

theorem no_closed {e : List (Ev O)} (he : ∀ b, Ev.closed b ∉ e) {P : Prop} :
    ∀ L1 b L2, e = L1 ++ .closed b :: L2 → L1 = [] ∧ P := by
  intro L1 b L2 h
  exact absurd (by rw [h]; simp) (he b)

/-- Nothing of the stream changes. -/
theorem stream_same {L e : List (Ev O)} {s s' : State O} (h : Stream L s)
    (h1 : s'.queue = s.queue) (h2 : s'.reader = .reading → s.reader = .reading)
    (h3 : ∀ x, s'.pc = .leavingWatch x → s.pc = .leavingWatch x ∨ x = .cancelled ∨ x = .fatal ∨ x = .resyncErr)
    (h4 : e.foldl givenStep (given L) = given L)
    (h5 : e.foldl takenStep (Spec.taken L) = Spec.taken L)
    (he : ∀ L1 b L2, e = L1 ++ .closed b :: L2 → L1 = [] ∧ Spec.taken L = given L) :
    Stream (L ++ e) s' where
  queue := by rw [given_append, taken_append, h4, h5, h1]; exact h.queue
  open_ := by rw [h1]; exact fun x => h.open_ (h2 x)
  last := by rw [h1]; exact h.last
  taken := by
    intro short hx
    rw [h1]
    rcases h3 _ hx with h | h | h | h
    · exact Stream.taken ‹_› short h
    all_goals cases h
  short := by
    intro hx
    rw [h1]
    rcases h3 _ hx with h | h | h | h
    · exact Stream.short ‹_› h
    all_goals cases h
  closed := closed_append h.closed he

theorem stream_step {A : Access O G} {p : ℚ} {L e : List (Ev O)} {s s' : State O} {a : Act O}
    (hsh : Shape s) (h : Stream L s) (hs : step A p s a = some (s', e)) : Stream (L ++ e) s' := by
  cases a with
  | watched ok =>
    simp only [step] at hs
    split at hs
    · split at hs
      · simp at hs; obtain ⟨rfl, rfl⟩ := hs
        refine ⟨?_, ?_, ?_, ?_, ?_, closed_append h.closed (no_closed (by simp))⟩
        · rw [given_append, taken_append]; rfl
        all_goals simp
      · simp at hs; obtain ⟨rfl, rfl⟩ := hs
        exact stream_same h rfl (fun x => x) (by simp [leave]) rfl rfl (no_closed (by simp))
    · cases hs
  | read ev =>
    simp only [step] at hs
    split at hs
    · rename_i hr
      simp at hs; obtain ⟨rfl, rfl⟩ := hs
      have ho := h.open_ hr
      refine ⟨?_, ?_, ?_, ?_, ?_, closed_append h.closed (no_closed (by simp))⟩
      · rw [given_append, taken_append]
        simp [givenStep, takenStep, h.queue]
      · intro _; simpa using ho
      · intro a b hab
        have : none ∈ s.queue ++ [some ev] := by
          simp only at hab
          rw [hab]; simp
        simp at this; exact absurd this ho
      · intro short hx
        exfalso
        simp only at hx
        simp [Shape, hx, hr] at hsh
      · intro hx
        exfalso
        simp only at hx
        simp [Shape, hx, hr] at hsh
    · cases hs
  | readEnd =>
    simp only [step] at hs
    split at hs
    · rename_i hr
      simp at hs; obtain ⟨rfl, rfl⟩ := hs
      have ho := h.open_ hr
      refine ⟨?_, ?_, ?_, ?_, ?_, closed_append h.closed (no_closed (by simp))⟩
      · rw [given_append, taken_append]
        simp [h.queue]
      · simp
      · intro a b hab
        simp only at hab
        rcases List.eq_nil_or_concat b with rfl | ⟨b', x, rfl⟩
        · rfl
        · exfalso
          rw [List.concat_eq_append, show a ++ none :: (b' ++ [x]) = (a ++ none :: b') ++ [x] by simp] at hab
          have := List.append_inj_left' hab rfl
          exact ho (by rw [this]; simp)
      · intro short hx
        exfalso
        simp only at hx
        simp [Shape, hx, hr] at hsh
      · intro hx
        exfalso
        simp only at hx
        simp [Shape, hx, hr] at hsh
    · cases hs
  | resume =>
    simp only [step] at hs
    split at hs
    · rename_i hpc
      split at hs
      · simp at hs; obtain ⟨rfl, rfl⟩ := hs
        refine stream_same h rfl ?_ (by simp [leaveWatch]) rfl rfl (no_closed (by simp))
        intro hx
        simp only [leaveWatch] at hx
        split at hx <;> simp_all
      · split at hs
        · cases hs
        · rename_i x rest hq
          simp only [Option.some.injEq] at hs
          have hq1 : given L = Spec.taken L ++ (x :: rest).filterMap id := hq ▸ h.queue
          have hq2 : s.reader = .reading → none ∉ x :: rest := hq ▸ h.open_
          have hq3 : ∀ a b, x :: rest = a ++ none :: b → b = [] := hq ▸ h.last
          have hq2' : s.reader = .reading → none ∉ rest := fun hr hm => hq2 hr (List.mem_cons_of_mem _ hm)
          have hq3' : ∀ a b, rest = a ++ none :: b → b = [] := by
            intro a b hab
            exact hq3 (x :: a) b (by rw [hab]; rfl)
          cases x with
          | none =>
            simp only [onTaken, Prod.mk.injEq] at hs
            obtain ⟨rfl, rfl⟩ := hs
            have hr : rest = [] := hq3 [] rest rfl
            refine ⟨?_, ?_, ?_, ?_, ?_, closed_append h.closed (no_closed (by simp))⟩
            · rw [List.append_nil, hq1]; rfl
            · intro hx; simp only [leaveWatch, hr]; simp
            · exact hq3'
            · intro _ _; exact hr
            · intro _; exact hr
          | some ev =>
            have key : ∀ s' : State O, s'.queue = rest → (s'.reader = .reading → s.reader = .reading) →
                (∀ y, s'.pc = .leavingWatch y → y = .fatal) → ∀ e', (e' = [Ev.took ev] ∨ ∃ c, e' = [Ev.took ev, Ev.call c]) →
                Stream (L ++ e') s' := by
              intro s' k1 k2 k3 e' k4
              refine ⟨?_, ?_, ?_, ?_, ?_, closed_append h.closed (no_closed ?_)⟩
              · rw [given_append, taken_append, k1, hq1]
                rcases k4 with rfl | ⟨c, rfl⟩ <;> simp [givenStep, takenStep]
              · rw [k1]; exact fun x => hq2' (k2 x)
              · rw [k1]; exact hq3'
              · intro short hx; cases k3 _ hx
              · intro hx; cases k3 _ hx
              · rcases k4 with rfl | ⟨c, rfl⟩ <;> simp
            simp only [onTaken] at hs
            split at hs
            · simp only [Prod.mk.injEq] at hs
              obtain ⟨rfl, rfl⟩ := hs
              refine key _ ?_ ?_ ?_ _ ?_
              · rfl
              rotate_left
              · simp [leaveWatch]
              · exact Or.inl rfl
              intro hx
              simp only [leaveWatch] at hx
              split at hx <;> simp_all
            · simp only [Prod.mk.injEq] at hs
              obtain ⟨rfl, rfl⟩ := hs
              refine key _ ?_ ?_ ?_ _ ?_ <;> simp [hpc]
            · split at hs
              · simp only [Prod.mk.injEq] at hs
                obtain ⟨rfl, rfl⟩ := hs
                refine key _ ?_ ?_ ?_ _ ?_ <;> simp
              · simp only [Prod.mk.injEq] at hs
                obtain ⟨rfl, rfl⟩ := hs
                refine key _ ?_ ?_ ?_ _ ?_ <;> simp [hpc]
    · cases hs
  | tasksEnded =>
    simp only [step] at hs
    split at hs
    · rename_i how hpc hr
      have eq : s.queue = [] → Spec.taken L = given L := by
        intro hq
        have := h.queue
        rw [hq] at this
        simpa using this.symm
      cases how with
      | again short =>
        simp only [Option.some.injEq, Prod.mk.injEq] at hs
        obtain ⟨rfl, rfl⟩ := hs
        refine stream_same h rfl (by simp) (by simp) rfl rfl ?_
        intro L1 b L2 hx
        refine ⟨?_, eq (h.taken short hpc)⟩
        cases L1 with
        | nil => rfl
        | cons x L1 =>
          simp only [List.cons_append, List.cons.injEq] at hx
          cases L1 <;> simp at hx
      | tooShort =>
        simp only [Option.some.injEq, Prod.mk.injEq] at hs
        obtain ⟨rfl, rfl⟩ := hs
        refine stream_same h rfl (by simp [leave]) (by simp [leave]) rfl rfl ?_
        intro L1 b L2 hx
        refine ⟨?_, eq (h.short hpc)⟩
        cases L1 with
        | nil => rfl
        | cons x L1 =>
          simp only [List.cons_append, List.cons.injEq] at hx
          cases L1 <;> simp at hx
      | _ =>
        simp only [Option.some.injEq, Prod.mk.injEq] at hs
        obtain ⟨rfl, rfl⟩ := hs
        exact stream_same h rfl (by simp [leave]) (by simp [leave]) rfl rfl (no_closed (by simp))
    · cases hs
  | cancel =>
    simp only [step] at hs
    split at hs <;> rename_i hpc
    all_goals first
      | (cases hs; done)
      | (simp at hs; obtain ⟨rfl, rfl⟩ := hs
         refine stream_same h rfl ?_ (by simp [leave, leaveWatch]) rfl rfl (no_closed (by simp))
         intro hx
         first
          | exact hx
          | (simp only [leaveWatch] at hx
             split at hx <;> simp_all))
  | gathered =>
    simp only [step] at hs
    split at hs
    · rename_i c hpc hr
      simp at hs; obtain ⟨rfl, rfl⟩ := hs
      exact stream_same h rfl (fun x => x) (by cases c <;> simp) rfl rfl (no_closed (by simp))
    · cases hs
  | _ =>
    simp only [step] at hs
    repeat' split at hs
    all_goals first
      | (cases hs; done)
      | (simp only [Option.some.injEq, Prod.mk.injEq] at hs
         obtain ⟨rfl, rfl⟩ := hs
         refine stream_same h rfl ?_ ?_ rfl rfl (no_closed (by simp))
         · simp
         · intro x hx
           first
            | exact Or.inl hx
            | (simp at hx; done))

/-! ## When the store is resynced -/

/-- The time of watches, after one more thing was seen. -/
def onStep (on : Bool) : Ev O → Bool
  | .call (.watch _) => true
  | .call (.list _) | .watchFailed | .closed _ | .fatal | .resyncErr => false
  | _ => on

theorem scoped_append (a b : List (Ev O)) : ∀ on, Scoped on (a ++ b) ↔
    Scoped on a ∧ Scoped (a.foldl onStep on) b := by
  induction a with
  | nil => intro on; simp [Scoped]
  | cons e a ih =>
    intro on
    cases e with
    | call c => cases c <;> simp [Scoped, onStep, ih]
    | resync t => simp [Scoped, onStep, ih, and_assoc]
    | _ => simp [Scoped, onStep, ih]

/-- Not before this time, after one more thing was seen. -/
def boundStep (p : ℚ) (b : ℚ) : Ev O → ℚ
  | .replaced t => t + p
  | .resync t => t + p
  | _ => b

theorem spaced_append (p : ℚ) (a b : List (Ev O)) : ∀ x, Spaced p x (a ++ b) ↔
    Spaced p x a ∧ Spaced p (a.foldl (boundStep p) x) b := by
  induction a with
  | nil => intro x; simp [Spaced]
  | cons e a ih => intro x; cases e <;> simp [Spaced, boundStep, ih, and_assoc]

/-- The resync task runs. -/
def active : Resync → Bool
  | .waiting _ | .running => true
  | _ => false

/-- A watch is open or opened. -/
def inWatches : Pc O → Bool
  | .opening | .waiting | .storing _ | .leavingWatch _ => true
  | _ => false

/-- When the store is resynced. -/
structure Timed (p b : ℚ) (L : List (Ev O)) (s : State O) : Prop where
  within : Scoped false L
  spaced : Spaced p b L
  inside : inWatches s.pc = true → L.foldl onStep false = true
  limit : active s.resync = true → L.foldl (boundStep p) b ≤ s.now + p
  wait : ∀ t, s.resync = .waiting (some t) → p ≠ 0 ∧ L.foldl (boundStep p) b ≤ t ∧ t ≤ s.now + p
  never : s.resync = .waiting none → p = 0

theorem timed_init (p b : ℚ) : Timed p b [] (init : State O) where
  within := trivial
  spaced := trivial
  inside := by simp [init, inWatches]
  limit := by simp [init, active]
  wait := by simp [init]
  never := by simp [init]

theorem shape_active {s : State O} (h : Shape s) (ha : active s.resync = true) : inWatches s.pc = true := by
  obtain ⟨pc, v, l, c, st, rd, q, et, er, rs, now⟩ := s
  cases pc with
  | leaving c => rcases h.2.2 with h | h <;> (simp only at h ha; subst h; simp [active] at ha)
  | opening | waiting | storing _ | leavingWatch _ => rfl
  | _ => have h := h.2.2; simp only at h ha; subst h; simp [active] at ha

/-- Nothing that matters for resyncs is seen. -/
theorem timed_same {p b : ℚ} {L e : List (Ev O)} {s s' : State O} (h : Timed p b L s)
    (h1 : ∀ on, Scoped on e) (h2 : ∀ x, Spaced p x e) (h3 : ∀ x, e.foldl (boundStep p) x = x)
    (h4 : inWatches s'.pc = true → e.foldl onStep (L.foldl onStep false) = true)
    (h5 : active s'.resync = true → s'.resync = s.resync) (h6 : s.now ≤ s'.now) : Timed p b (L ++ e) s' where
  within := by rw [scoped_append]; exact ⟨h.within, h1 _⟩
  spaced := by rw [spaced_append]; exact ⟨h.spaced, h2 _⟩
  inside := by rw [List.foldl_append]; exact h4
  limit := by
    intro ha
    rw [List.foldl_append, h3]
    exact le_trans (h.limit (h5 ha ▸ ha)) (by linarith)
  wait := by
    intro t ht
    rw [List.foldl_append, h3]
    have ha : active s'.resync = true := by rw [ht]; rfl
    obtain ⟨k1, k2, k3⟩ := h.wait t (by rw [← h5 ha, ht])
    exact ⟨k1, k2, by linarith⟩
  never := by
    intro ht
    have ha : active s'.resync = true := by rw [ht]; rfl
    exact h.never (by rw [← h5 ha, ht])

theorem timer_none {p now : ℚ} (h : timer p now = none) : p = 0 := by
  unfold timer at h
  by_contra hp
  rw [if_neg hp] at h; cases h

theorem timer_some {p now t : ℚ} (h : timer p now = some t) : p ≠ 0 ∧ t = now + p := by
  unfold timer at h
  by_cases hp : p = 0
  · rw [if_pos hp] at h; cases h
  · rw [if_neg hp] at h; cases h; exact ⟨hp, rfl⟩

theorem active_leave {s : State O} {c : Bool} (h : active (leave s c).resync = true) : False := by
  simp only [leave] at h
  split at h
  · simp [active] at h
  · simp [active] at h
  · rename_i h1 h2
    cases hr : s.resync <;> simp_all [active]

theorem timed_step {A : Access O G} {p b : ℚ} {L e : List (Ev O)} {s s' : State O} {a : Act O}
    (hsh : Shape s) (h : Timed p b L s) (hs : step A p s a = some (s', e)) : Timed p b (L ++ e) s' := by
  have hn : ∀ s' : State O, s'.resync = s.resync → s'.pc = s.pc → s.now = s'.now → Timed p b L s' :=
    fun s' k1 k2 k3 => by
      have := timed_same (e := []) (s' := s') h (fun _ => trivial) (fun _ => trivial) (fun _ => rfl)
        (fun x => h.inside (k2 ▸ x)) (fun _ => k1) (le_of_eq k3)
      simpa using this
  cases a with
  | replaced ok =>
    simp only [step] at hs
    split at hs
    · rename_i items v hpc
      split at hs
      · simp at hs; obtain ⟨rfl, rfl⟩ := hs
        refine ⟨?_, ?_, ?_, ?_, ?_, ?_⟩
        · rw [scoped_append]; exact ⟨h.within, trivial⟩
        · rw [spaced_append]; exact ⟨h.spaced, trivial⟩
        · intro _; rw [List.foldl_append]; rfl
        · intro _; rw [List.foldl_append]; exact le_refl _
        · intro t ht
          simp only [Resync.waiting.injEq] at ht
          obtain ⟨k1, k2⟩ := timer_some ht
          rw [List.foldl_append]
          exact ⟨k1, by rw [k2]; exact le_refl _, by rw [k2]⟩
        · intro ht
          simp only [Resync.waiting.injEq] at ht
          exact timer_none ht
      · simp at hs; obtain ⟨rfl, rfl⟩ := hs
        exact timed_same h (fun _ => trivial) (fun _ => trivial) (fun _ => rfl) (by simp [inWatches])
          (fun _ => rfl) (le_refl _)
    · cases hs
  | tick sh =>
    simp only [step] at hs
    split at hs
    · rename_i t ht
      obtain ⟨k1, k2, k3⟩ := h.wait t ht
      have k4 := h.limit (by rw [ht]; rfl)
      have hw : inWatches s.pc = true := shape_active hsh (by rw [ht]; rfl)
      split at hs
      · rename_i hle
        split at hs
        · simp at hs; obtain ⟨rfl, rfl⟩ := hs
          exact timed_same h (fun _ => trivial) (fun _ => trivial) (fun _ => rfl) (fun x => h.inside x)
            (by simp [active]) (le_refl _)
        · simp at hs; obtain ⟨rfl, rfl⟩ := hs
          rw [List.append_nil]
          refine ⟨h.within, h.spaced, h.inside, fun _ => k4, ?_, ?_⟩
          · intro t' ht'
            simp only [Resync.waiting.injEq] at ht'
            obtain ⟨m1, m2⟩ := timer_some ht'
            exact ⟨m1, by rw [m2]; exact k4, by rw [m2]⟩
          · intro ht'
            simp only [Resync.waiting.injEq] at ht'
            exact timer_none ht'
        · simp at hs; obtain ⟨rfl, rfl⟩ := hs
          refine ⟨?_, ?_, ?_, ?_, by simp, by simp⟩
          · rw [scoped_append]; exact ⟨h.within, h.inside hw, trivial⟩
          · rw [spaced_append]; exact ⟨h.spaced, k1, le_trans k2 hle, trivial⟩
          · intro _; rw [List.foldl_append]; exact h.inside hw
          · intro _; rw [List.foldl_append]; exact le_refl _
      · cases hs
    · cases hs
  | resynced ok =>
    simp only [step] at hs
    split at hs
    · rename_i hr
      have k4 := h.limit (by rw [hr]; rfl)
      split at hs
      · simp at hs; obtain ⟨rfl, rfl⟩ := hs
        rw [List.append_nil]
        refine ⟨h.within, h.spaced, h.inside, fun _ => k4, ?_, ?_⟩
        · intro t' ht'
          simp only [Resync.waiting.injEq] at ht'
          obtain ⟨m1, m2⟩ := timer_some ht'
          exact ⟨m1, by rw [m2]; exact k4, by rw [m2]⟩
        · intro ht'
          simp only [Resync.waiting.injEq] at ht'
          exact timer_none ht'
      · simp at hs; obtain ⟨rfl, rfl⟩ := hs
        exact timed_same h (fun _ => trivial) (fun _ => trivial) (fun _ => rfl) (fun x => h.inside x)
          (by simp [active]) (le_refl _)
    · cases hs
  | pass d =>
    simp only [step] at hs
    split at hs
    · rename_i hd
      simp at hs; obtain ⟨rfl, rfl⟩ := hs
      exact timed_same h (fun _ => trivial) (fun _ => trivial) (fun _ => rfl) (fun x => h.inside x)
        (fun _ => rfl) (by simp; exact hd)
    · cases hs
  | watched ok =>
    simp only [step] at hs
    split at hs
    · rename_i hpc
      split at hs
      · simp at hs; obtain ⟨rfl, rfl⟩ := hs
        exact timed_same h (fun _ => trivial) (fun _ => trivial) (fun _ => rfl)
          (fun x => h.inside (by rw [hpc]; rfl)) (fun _ => rfl) (le_refl _)
      · simp at hs; obtain ⟨rfl, rfl⟩ := hs
        exact timed_same h (fun _ => trivial) (fun _ => trivial) (fun _ => rfl)
          (by simp [leave, inWatches]) (fun x => (active_leave x).elim) (le_refl _)
    · cases hs
  | resume =>
    simp only [step] at hs
    split at hs
    · rename_i hpc
      have hin := h.inside (by rw [hpc]; rfl)
      split at hs
      · simp at hs; obtain ⟨rfl, rfl⟩ := hs
        exact timed_same h (fun _ => trivial) (fun _ => trivial) (fun _ => rfl)
          (fun x => hin) (fun _ => rfl) (le_refl _)
      · split at hs
        · cases hs
        · rename_i x rest hq
          simp only [Option.some.injEq] at hs
          cases x with
          | none =>
            simp only [onTaken, Prod.mk.injEq] at hs
            obtain ⟨rfl, rfl⟩ := hs
            exact timed_same h (fun _ => trivial) (fun _ => trivial) (fun _ => rfl)
              (fun x => hin) (fun _ => rfl) (le_refl _)
          | some ev =>
            simp only [onTaken] at hs
            split at hs
            · simp only [Prod.mk.injEq] at hs
              obtain ⟨rfl, rfl⟩ := hs
              exact timed_same h (fun _ => trivial) (fun _ => trivial) (fun _ => rfl)
                (fun x => hin) (fun _ => rfl) (le_refl _)
            · simp only [Prod.mk.injEq] at hs
              obtain ⟨rfl, rfl⟩ := hs
              exact timed_same h (fun _ => trivial) (fun _ => trivial) (fun _ => rfl)
                (fun x => hin) (fun _ => rfl) (le_refl _)
            · split at hs
              · rename_i c cs' hc
                simp only [Prod.mk.injEq] at hs
                obtain ⟨rfl, rfl⟩ := hs
                have : (∃ o, c = .add o) ∨ (∃ o, c = .update o) ∨ (∃ o, c = .delete o) := by
                  unfold storeCall at hc
                  split at hc <;> simp at hc <;> simp [← hc.1]
                rcases this with ⟨o, rfl⟩ | ⟨o, rfl⟩ | ⟨o, rfl⟩ <;>
                  exact timed_same h (fun _ => trivial) (fun _ => trivial) (fun _ => rfl)
                    (fun x => hin) (fun _ => rfl) (le_refl _)
              · simp only [Prod.mk.injEq] at hs
                obtain ⟨rfl, rfl⟩ := hs
                exact timed_same h (fun _ => trivial) (fun _ => trivial) (fun _ => rfl)
                  (fun x => hin) (fun _ => rfl) (le_refl _)
    · cases hs
  | tasksEnded =>
    simp only [step] at hs
    split at hs
    · rename_i how hpc hr
      have hin := h.inside (by rw [hpc]; rfl)
      cases how with
      | again short =>
        simp only [Option.some.injEq, Prod.mk.injEq] at hs
        obtain ⟨rfl, rfl⟩ := hs
        exact timed_same h (fun _ => trivial) (fun _ => trivial) (fun _ => rfl)
          (fun x => rfl) (fun _ => rfl) (le_refl _)
      | _ =>
        simp only [Option.some.injEq, Prod.mk.injEq] at hs
        obtain ⟨rfl, rfl⟩ := hs
        exact timed_same h (fun _ => trivial) (fun _ => trivial) (fun _ => rfl)
          (by simp [leave, inWatches]) (fun x => (active_leave x).elim) (le_refl _)
    · cases hs
  | cancel =>
    simp only [step] at hs
    split at hs <;> rename_i hpc
    all_goals first
      | (cases hs; done)
      | (simp at hs; obtain ⟨rfl, rfl⟩ := hs
         first
          | exact timed_same h (fun _ => trivial) (fun _ => trivial) (fun _ => rfl)
              (fun _ => h.inside (by rw [hpc]; rfl)) (fun _ => rfl) (le_refl _)
          | exact timed_same h (fun _ => trivial) (fun _ => trivial) (fun _ => rfl)
              (by simp [leave, inWatches]) (fun _ => rfl) (le_refl _)
          | exact timed_same h (fun _ => trivial) (fun _ => trivial) (fun _ => rfl)
              (by simp [leave, inWatches]) (fun x => (active_leave x).elim) (le_refl _))
  | stored =>
    simp only [step] at hs
    split at hs
    · rename_i v hpc
      simp at hs; obtain ⟨rfl, rfl⟩ := hs
      exact timed_same h (fun _ => trivial) (fun _ => trivial) (fun _ => rfl)
        (fun _ => h.inside (by rw [hpc]; rfl)) (fun _ => rfl) (le_refl _)
    · cases hs
  | gathered =>
    simp only [step] at hs
    split at hs
    · rename_i c hpc hr
      simp at hs; obtain ⟨rfl, rfl⟩ := hs
      exact timed_same h (fun _ => trivial) (fun _ => trivial) (fun _ => rfl)
        (by cases c <;> simp [inWatches]) (by simp [active]) (le_refl _)
    · cases hs
  | _ =>
    simp only [step] at hs
    repeat' split at hs
    all_goals first
      | (cases hs; done)
      | (simp only [Option.some.injEq, Prod.mk.injEq] at hs
         obtain ⟨rfl, rfl⟩ := hs
         first
          | exact timed_same h (fun _ => trivial) (fun _ => trivial) (fun _ => rfl)
              (fun x => h.inside x) (fun _ => rfl) (le_refl _)
          | exact timed_same h (fun _ => trivial) (fun _ => trivial) (fun _ => rfl)
              (by simp [inWatches]) (fun _ => rfl) (le_refl _)
          | exact timed_same h (fun _ => trivial) (fun _ => trivial) (fun _ => rfl)
              (fun x => h.inside x) (by simp [active]) (le_refl _))

theorem all_exec {A : Access O G} {p b : ℚ} (as : List (Act O)) : ∀ {L es : List (Ev O)} {s s' : State O},
    Shape s → Stream L s → Timed p b L s → exec A p s as = some (s', es) →
    Shape s' ∧ Stream (L ++ es) s' ∧ Timed p b (L ++ es) s' := by
  induction as with
  | nil =>
    intro L es s s' h1 h2 h3 he
    simp [exec] at he; obtain ⟨rfl, rfl⟩ := he; rw [List.append_nil]; exact ⟨h1, h2, h3⟩
  | cons a as ih =>
    intro L es s s' h1 h2 h3 he
    obtain ⟨s1, e, es', k1, k2, rfl⟩ := exec_cons he
    rw [← List.append_assoc]
    exact ih (shape_step h1 k1) (stream_step h1 h2 k1) (timed_step h1 h3 k1) k2

/-! ## What the tasks do on their own -/

/-- How much is left to do. -/
def todo (s : State O) : Nat :=
  s.queue.length +
  (match s.pc with | .waiting => 3 | .leavingWatch _ => 2 | .leaving _ => 1 | _ => 0) +
  (match s.errTask with | .waiting => 1 | _ => 0) +
  (match s.reader with | .reading | .stopping => 1 | _ => 0) +
  (match s.resync with | .waiting _ | .running | .stopping => 1 | _ => 0)

theorem todo_le (s : State O) : todo s ≤ s.queue.length + 6 := by
  unfold todo
  have h1 : (match s.pc with | .waiting => 3 | .leavingWatch _ => 2 | .leaving _ => 1 | _ => 0) ≤ 3 := by
    split <;> decide
  have h2 : (match s.errTask with | .waiting => 1 | _ => 0) ≤ 1 := by split <;> decide
  have h3 : (match s.reader with | .reading | .stopping => 1 | _ => 0) ≤ 1 := by split <;> decide
  have h4 : (match s.resync with | .waiting _ | .running | .stopping => 1 | _ => 0) ≤ 1 := by
    split <;> decide
  omega

theorem todo_step {A : Access O G} {p : ℚ} {e : List (Ev O)} {s s' : State O} {a : Act O}
    (ha : own a = true) (hs : step A p s a = some (s', e)) : todo s' < todo s := by
  obtain ⟨pc, v, l, c, st, rd, q, et, er, rs, now⟩ := s
  cases a with
  | resume =>
    simp only [step] at hs
    split at hs
    · split at hs
      · simp at hs; obtain ⟨rfl, rfl⟩ := hs
        cases rd <;> simp [todo, leaveWatch]
      · split at hs
        · cases hs
        · rename_i x rest
          simp only [Option.some.injEq] at hs
          cases x with
          | none =>
            simp only [onTaken, Prod.mk.injEq] at hs
            obtain ⟨rfl, rfl⟩ := hs
            cases rd <;> cases et <;> simp [todo, leaveWatch] <;> omega
          | some ev =>
            simp only [onTaken] at hs
            split at hs
            · simp only [Prod.mk.injEq] at hs
              obtain ⟨rfl, rfl⟩ := hs
              cases rd <;> cases et <;> simp [todo, leaveWatch] <;> omega
            · simp only [Prod.mk.injEq] at hs
              obtain ⟨rfl, rfl⟩ := hs
              simp [todo]
            · split at hs <;>
                (simp only [Prod.mk.injEq] at hs
                 obtain ⟨rfl, rfl⟩ := hs
                 simp [todo] <;> omega)
    · cases hs
  | errGet | readerEnds | resyncEnds =>
    simp only [step] at hs
    split at hs
    · simp_all
      obtain ⟨rfl, -⟩ := hs
      simp [todo]
    · cases hs
  | tasksEnded =>
    simp only [step] at hs
    split at hs
    · rename_i how
      cases how <;> cases rs <;>
        (simp only [Option.some.injEq, Prod.mk.injEq] at hs
         obtain ⟨rfl, rfl⟩ := hs
         simp [todo, leave])
    · cases hs
  | gathered =>
    simp only [step] at hs
    split at hs
    · rename_i c
      simp at hs; obtain ⟨rfl, rfl⟩ := hs
      cases c <;> simp [todo]
    · cases hs
  | _ => simp [own] at ha

theorem own_bounded {A : Access O G} {p : ℚ} (as : List (Act O)) : ∀ {es : List (Ev O)} {s s' : State O},
    as.all own = true → exec A p s as = some (s', es) → as.length + todo s' ≤ todo s := by
  induction as with
  | nil => intro es s s' _ he; simp [exec] at he; simp [he.1]
  | cons a as ih =>
    intro es s s' ho he
    obtain ⟨s1, e, es', k1, k2, rfl⟩ := exec_cons he
    simp only [List.all_cons, Bool.and_eq_true] at ho
    have h1 := todo_step ho.1 k1
    have h2 := ih ho.2 k2
    simp only [List.length_cons]; omega

/-- Nothing is left to do. -/
theorem quiet_shape {A : Access O G} {p : ℚ} {s : State O} (h : Shape s)
    (hq : ∀ a, own a = true → step A p s a = none) :
    (∀ how, s.pc ≠ .leavingWatch how) ∧ (∀ c, s.pc ≠ .leaving c) ∧
      (s.pc = .waiting → s.queue = [] ∧ s.error = false ∧ s.errTask = .waiting) := by
  obtain ⟨pc, v, l, c, st, rd, q, et, er, rs, now⟩ := s
  refine ⟨?_, ?_, ?_⟩
  · intro how hpc
    simp only at hpc; subst hpc
    rcases h.1 with hr | hr <;> simp only at hr <;> subst hr
    · have := hq .readerEnds rfl; simp [step] at this
    · have := hq .tasksEnded rfl; simp [step] at this
  · intro how hpc
    simp only at hpc; subst hpc
    rcases h.2.2 with hr | hr <;> simp only at hr <;> subst hr
    · have := hq .resyncEnds rfl; simp [step] at this
    · have := hq .gathered rfl; simp [step] at this
  · intro hpc
    simp only at hpc; subst hpc
    have h1 := hq .resume rfl
    have h2 := hq .errGet rfl
    have h3 := h.2.1
    cases et with
    | none => simp at h3
    | got => simp [step] at h1
    | waiting =>
      cases q with
      | cons x q => simp [step] at h1
      | nil => cases er <;> simp_all [step]

/-! ## After the cancellation -/

/-- `run` was cancelled. -/
def Over (s : State O) : Prop := s.pc = .leavingWatch .cancelled ∨ s.pc = .leaving true ∨ s.pc = .ended

theorem over_cancel {A : Access O G} {p : ℚ} {e : List (Ev O)} {s s' : State O}
    (hs : step A p s .cancel = some (s', e)) : Over s' := by
  simp only [step] at hs
  split at hs
  all_goals first
    | (cases hs; done)
    | (simp at hs; obtain ⟨rfl, rfl⟩ := hs; simp [Over, leave, leaveWatch])

theorem over_step {A : Access O G} {p : ℚ} {e : List (Ev O)} {s s' : State O} {a : Act O}
    (h : Over s) (hs : step A p s a = some (s', e)) : Over s' ∧ callsOf e = [] := by
  cases a with
  | tasksEnded =>
    simp only [step] at hs
    split at hs
    · rename_i how hpc hr
      have : how = .cancelled := by
        rcases h with h | h | h <;> rw [h] at hpc <;> cases hpc
        rfl
      subst this
      simp at hs; obtain ⟨rfl, rfl⟩ := hs
      exact ⟨Or.inr (Or.inl rfl), rfl⟩
    · cases hs
  | gathered =>
    simp only [step] at hs
    split at hs
    · rename_i c hpc hr
      have : c = true := by
        rcases h with h | h | h <;> rw [h] at hpc <;> cases hpc
        rfl
      subst this
      simp at hs; obtain ⟨rfl, rfl⟩ := hs
      exact ⟨Or.inr (Or.inr rfl), rfl⟩
    · cases hs
  | cancel => exact ⟨over_cancel hs, by
      simp only [step] at hs
      split at hs
      all_goals first
        | (cases hs; done)
        | (simp at hs; obtain ⟨-, rfl⟩ := hs; rfl)⟩
  | list | listed _ | replaced _ | watched _ | resume | stored =>
    simp only [step] at hs
    rcases h with h | h | h <;> rw [h] at hs <;> cases hs
  | _ =>
    simp only [step] at hs
    repeat' split at hs
    all_goals first
      | (cases hs; done)
      | (simp only [Option.some.injEq, Prod.mk.injEq] at hs
         obtain ⟨rfl, rfl⟩ := hs
         exact ⟨h, rfl⟩)

theorem over_exec {A : Access O G} {p : ℚ} (as : List (Act O)) : ∀ {es : List (Ev O)} {s s' : State O},
    Over s → exec A p s as = some (s', es) → Over s' ∧ callsOf es = [] := by
  induction as with
  | nil => intro es s s' h he; simp [exec] at he; obtain ⟨rfl, rfl⟩ := he; exact ⟨h, rfl⟩
  | cons a as ih =>
    intro es s s' h he
    obtain ⟨s1, e, es', k1, k2, rfl⟩ := exec_cons he
    obtain ⟨h1, h2⟩ := over_step h k1
    obtain ⟨h3, h4⟩ := ih h1 k2
    exact ⟨h3, by rw [callsOf_append, h2, h4]; rfl⟩

theorem ended_step {A : Access O G} {p : ℚ} {e : List (Ev O)} {s s' : State O} {a : Act O}
    (hsh : Shape s) (h : s.pc = .ended) (hs : step A p s a = some (s', e)) : s'.pc = .ended ∧ e = [] := by
  obtain ⟨pc, v, l, c, st, rd, q, et, er, rs, now⟩ := s
  simp only at h; subst h
  obtain ⟨h1, h2, h3⟩ := hsh
  simp only at h1 h2 h3; subst h1; subst h2; subst h3
  cases a <;> simp [step] at hs
  obtain ⟨-, rfl, rfl⟩ := hs
  exact ⟨rfl, rfl⟩

theorem ended_exec {A : Access O G} {p : ℚ} (as : List (Act O)) : ∀ {es : List (Ev O)} {s s' : State O},
    Shape s → s.pc = .ended → exec A p s as = some (s', es) → s'.pc = .ended ∧ es = [] := by
  induction as with
  | nil => intro es s s' h h1 he; simp [exec] at he; obtain ⟨rfl, rfl⟩ := he; exact ⟨h1, rfl⟩
  | cons a as ih =>
    intro es s s' h hp he
    obtain ⟨s1, e, es', k1, k2, rfl⟩ := exec_cons he
    obtain ⟨h1, rfl⟩ := ended_step h hp k1
    exact ih (shape_step h k1) h1 k2

/-! ## The resync task goes on -/

/-- The resync task runs or its error is on its way. -/
def Alive (s : State O) : Prop :=
  inWatches s.pc = true → active s.resync = true ∨
    (s.resync = .ended ∧ (s.error = true ∨ s.errTask = .got ∨ ∃ h, s.pc = .leavingWatch h ∧ ∀ b, h ≠ .again b))

theorem alive_same {s s' : State O} (h : Alive s) (h1 : inWatches s'.pc = true → inWatches s.pc = true)
    (h2 : s'.resync = s.resync) (h3 : s'.error = s.error)
    (h4 : s.errTask = .got → s'.errTask = .got)
    (h5 : ∀ x, s.pc = .leavingWatch x → (∀ b, x ≠ .again b) →
      inWatches s'.pc = true → ∃ x, s'.pc = .leavingWatch x ∧ ∀ b, x ≠ .again b) : Alive s' := by
  intro hw
  rcases h (h1 hw) with h | ⟨h, k⟩
  · exact Or.inl (h2 ▸ h)
  · refine Or.inr ⟨h2 ▸ h, ?_⟩
    rcases k with k | k | ⟨x, k1, k2⟩
    · exact Or.inl (h3 ▸ k)
    · exact Or.inr (Or.inl (h4 k))
    · exact Or.inr (Or.inr (h5 x k1 k2 hw))

/-- The watch is left other than by its end. -/
theorem alive_leaveWatch {s : State O} (h : Alive s) (hw : inWatches s.pc = true) {x : How}
    (hx : ∀ b, x ≠ .again b) : Alive (leaveWatch s x) := by
  intro _
  rcases h hw with h | ⟨h, k⟩
  · exact Or.inl h
  · exact Or.inr ⟨h, Or.inr (Or.inr ⟨x, rfl, hx⟩)⟩

theorem alive_out {s : State O} (h : inWatches s.pc = false) : Alive s := by
  intro hw; rw [h] at hw; cases hw

theorem alive_step {A : Access O G} {p : ℚ} {e : List (Ev O)} {s s' : State O} {a : Act O}
    (hsh : Shape s) (h : Alive s) (ha : isRaise a = false) (hs : step A p s a = some (s', e)) : Alive s' := by
  cases a with
  | replaced ok =>
    simp only [step] at hs
    split at hs
    · split at hs
      · simp at hs; obtain ⟨rfl, rfl⟩ := hs
        exact fun _ => Or.inl rfl
      · simp at hs; obtain ⟨rfl, rfl⟩ := hs
        exact alive_out rfl
    · cases hs
  | list | listed _ =>
    simp only [step] at hs
    repeat' split at hs
    all_goals first
      | (cases hs; done)
      | (simp only [Option.some.injEq, Prod.mk.injEq] at hs
         obtain ⟨rfl, rfl⟩ := hs
         exact alive_out rfl)
  | watched ok =>
    simp only [step] at hs
    split at hs
    · rename_i hpc
      simp only [Shape, hpc] at hsh
      split at hs
      · simp at hs; obtain ⟨rfl, rfl⟩ := hs
        refine alive_same h (fun _ => by rw [hpc]; rfl) rfl rfl ?_ ?_
        · intro x; rw [hsh.2.1] at x; cases x
        · intro x hx; rw [hpc] at hx; cases hx
      · simp at hs; obtain ⟨rfl, rfl⟩ := hs
        exact alive_out rfl
    · cases hs
  | errGet =>
    simp only [step] at hs
    split at hs
    · rename_i he her
      simp at hs; obtain ⟨rfl, rfl⟩ := hs
      intro hw
      rcases h hw with h | ⟨h, -⟩
      · exact Or.inl h
      · exact Or.inr ⟨h, Or.inr (Or.inl rfl)⟩
    · cases hs
  | resume =>
    simp only [step] at hs
    split at hs
    · rename_i hpc
      have hw : inWatches s.pc = true := by rw [hpc]; rfl
      split at hs
      · simp at hs; obtain ⟨rfl, rfl⟩ := hs
        exact alive_leaveWatch h hw (by simp)
      · rename_i hne
        split at hs
        · cases hs
        · rename_i x rest hq
          have h' : Alive { s with queue := rest } := h
          simp only [Option.some.injEq] at hs
          cases x with
          | none =>
            simp only [onTaken, Prod.mk.injEq] at hs
            obtain ⟨rfl, rfl⟩ := hs
            by_cases hsh' : (decide (s.now - s.start < 1) && s.count == 0) = true
            · rw [if_pos hsh']
              exact alive_leaveWatch h' hw (by simp)
            · rw [if_neg hsh']
              intro _
              rcases h hw with h | ⟨h, k⟩
              · exact Or.inl h
              · refine Or.inr ⟨h, ?_⟩
                rcases k with k | k | ⟨x, k1, k2⟩
                · exact Or.inl k
                · exact absurd k hne
                · rw [hpc] at k1; cases k1
          | some ev =>
            simp only [onTaken] at hs
            split at hs
            · simp only [Prod.mk.injEq] at hs
              obtain ⟨rfl, rfl⟩ := hs
              exact alive_leaveWatch h' hw (by simp)
            · simp only [Prod.mk.injEq] at hs
              obtain ⟨rfl, rfl⟩ := hs
              exact h'
            · split at hs
              · simp only [Prod.mk.injEq] at hs
                obtain ⟨rfl, rfl⟩ := hs
                refine alive_same h' (fun _ => hw) rfl rfl (fun x => x) ?_
                intro x hx; simp only [hpc] at hx; cases hx
              · simp only [Prod.mk.injEq] at hs
                obtain ⟨rfl, rfl⟩ := hs
                exact h'
    · cases hs
  | stored =>
    simp only [step] at hs
    split at hs
    · rename_i v hpc
      simp at hs; obtain ⟨rfl, rfl⟩ := hs
      refine alive_same h (fun _ => by rw [hpc]; rfl) rfl rfl (fun x => x) ?_
      intro x hx; rw [hpc] at hx; cases hx
    · cases hs
  | tasksEnded =>
    simp only [step] at hs
    split at hs
    · rename_i how hpc hr
      simp only [Shape, hpc] at hsh
      cases how with
      | again short =>
        simp only [Option.some.injEq, Prod.mk.injEq] at hs
        obtain ⟨rfl, rfl⟩ := hs
        intro _
        rcases h (by rw [hpc]; rfl) with h | ⟨h, k⟩
        · exact Or.inl h
        · refine Or.inr ⟨h, ?_⟩
          rcases k with k | k | ⟨x, k1, k2⟩
          · exact Or.inl k
          · rw [hsh.2.1] at k; cases k
          · rw [hpc] at k1
            cases k1
            exact absurd rfl (k2 short)
      | _ =>
        simp only [Option.some.injEq, Prod.mk.injEq] at hs
        obtain ⟨rfl, rfl⟩ := hs
        exact alive_out rfl
    · cases hs
  | tick sh =>
    simp only [step] at hs
    split at hs
    · split at hs
      · split at hs
        · simp [isRaise] at ha
        · simp at hs; obtain ⟨rfl, rfl⟩ := hs
          exact fun _ => Or.inl rfl
        · simp at hs; obtain ⟨rfl, rfl⟩ := hs
          exact fun _ => Or.inl rfl
      · cases hs
    · cases hs
  | resynced ok =>
    simp only [step] at hs
    split at hs
    · split at hs
      · simp at hs; obtain ⟨rfl, rfl⟩ := hs
        exact fun _ => Or.inl rfl
      · simp at hs; obtain ⟨rfl, rfl⟩ := hs
        exact fun _ => Or.inr ⟨rfl, Or.inl rfl⟩
    · cases hs
  | resyncEnds =>
    simp only [step] at hs
    split at hs
    · rename_i hr
      simp at hs; obtain ⟨rfl, rfl⟩ := hs
      refine alive_out ?_
      obtain ⟨pc, v, l, c, st, rd, q, et, er, rs, now⟩ := s
      simp only at hr; subst hr
      cases pc <;> simp_all [Shape, inWatches]
    · cases hs
  | gathered =>
    simp only [step] at hs
    split at hs
    · rename_i c hpc hr
      simp at hs; obtain ⟨rfl, rfl⟩ := hs
      refine alive_out ?_
      cases c <;> rfl
    · cases hs
  | cancel =>
    simp only [step] at hs
    split at hs <;> rename_i hpc
    all_goals first
      | (cases hs; done)
      | (simp at hs; obtain ⟨rfl, rfl⟩ := hs
         first
          | exact alive_out rfl
          | exact alive_leaveWatch h (by rw [hpc]; rfl) (by simp)
          | exact alive_same h (fun _ => by rw [hpc]; rfl) rfl rfl (fun x => x)
              (fun _ _ _ _ => ⟨.cancelled, rfl, by simp⟩))
  | _ =>
    simp only [step] at hs
    repeat' split at hs
    all_goals first
      | (cases hs; done)
      | (simp only [Option.some.injEq, Prod.mk.injEq] at hs
         obtain ⟨rfl, rfl⟩ := hs
         exact h)

theorem alive_exec {A : Access O G} {p : ℚ} (as : List (Act O)) : ∀ {es : List (Ev O)} {s s' : State O},
    Shape s → Alive s → as.all (fun a => !isRaise a) = true → exec A p s as = some (s', es) → Alive s' := by
  induction as with
  | nil => intro es s s' _ h _ he; simp [exec] at he; obtain ⟨rfl, rfl⟩ := he; exact h
  | cons a as ih =>
    intro es s s' hsh h ha he
    obtain ⟨s1, e, es', k1, k2, rfl⟩ := exec_cons he
    simp only [List.all_cons, Bool.and_eq_true, Bool.not_eq_true'] at ha
    exact ih (shape_step hsh k1) (alive_step hsh h ha.1 k1) ha.2 k2

/-! ## A resync task that has raised -/

theorem resyncs_append (a b : List (Ev O)) : resyncs (a ++ b) = (resyncs a || resyncs b) := by
  induction a with
  | nil => rfl
  | cons e a ih => cases e <;> simp [resyncs, ih]

theorem asks_append (a b : List (Ev O)) : asks (a ++ b) = (asks a || asks b) := by
  induction a with
  | nil => rfl
  | cons e a ih =>
    cases e with
    | call c => cases c <;> simp [asks, ih]
    | _ => simp [asks, ih]

/-- There is no resync until the next list. -/
def Lost (s : State O) : Prop :=
  active s.resync = false ∧ s.pc ≠ .listing ∧ ∀ items v, s.pc ≠ .replacing items v

theorem lost_step {A : Access O G} {p : ℚ} {e : List (Ev O)} {s s' : State O} {a : Act O}
    (h : Lost s) (hl : asks e = false) (hs : step A p s a = some (s', e)) : Lost s' ∧ resyncs e = false := by
  obtain ⟨h1, h2, h3⟩ := h
  cases a with
  | list =>
    simp only [step] at hs
    split at hs
    · simp at hs; obtain ⟨rfl, rfl⟩ := hs
      simp [asks] at hl
    · cases hs
  | listed _ =>
    simp only [step] at hs
    cases hs
  | replaced _ =>
    simp only [step] at hs
    cases hs
  | tick sh =>
    simp only [step] at hs
    split at hs
    · rename_i hr
      rw [hr] at h1; simp [active] at h1
    · cases hs
  | resynced _ =>
    simp only [step] at hs
    split at hs
    · rename_i hr
      rw [hr] at h1; simp [active] at h1
    · cases hs
  | watched ok =>
    simp only [step] at hs
    split at hs
    · split at hs
      · simp at hs; obtain ⟨rfl, rfl⟩ := hs
        exact ⟨⟨h1, by simp, by simp⟩, rfl⟩
      · simp at hs; obtain ⟨rfl, rfl⟩ := hs
        refine ⟨⟨?_, by simp [leave], by simp [leave]⟩, rfl⟩
        by_contra hc
        exact active_leave (s := s) (c := false) (by simpa using hc)
    · cases hs
  | resume =>
    simp only [step] at hs
    split at hs
    · rename_i hpc
      split at hs
      · simp at hs; obtain ⟨rfl, rfl⟩ := hs
        exact ⟨⟨h1, by simp [leaveWatch], by simp [leaveWatch]⟩, rfl⟩
      · split at hs
        · cases hs
        · rename_i x rest hq
          simp only [Option.some.injEq] at hs
          cases x with
          | none =>
            simp only [onTaken, Prod.mk.injEq] at hs
            obtain ⟨rfl, rfl⟩ := hs
            exact ⟨⟨h1, by simp [leaveWatch], by simp [leaveWatch]⟩, rfl⟩
          | some ev =>
            simp only [onTaken] at hs
            split at hs
            · simp only [Prod.mk.injEq] at hs
              obtain ⟨rfl, rfl⟩ := hs
              exact ⟨⟨h1, by simp [leaveWatch], by simp [leaveWatch]⟩, rfl⟩
            · simp only [Prod.mk.injEq] at hs
              obtain ⟨rfl, rfl⟩ := hs
              exact ⟨⟨h1, h2, h3⟩, rfl⟩
            · split at hs
              · simp only [Prod.mk.injEq] at hs
                obtain ⟨rfl, rfl⟩ := hs
                exact ⟨⟨h1, by simp, by simp⟩, rfl⟩
              · simp only [Prod.mk.injEq] at hs
                obtain ⟨rfl, rfl⟩ := hs
                exact ⟨⟨h1, h2, h3⟩, rfl⟩
    · cases hs
  | tasksEnded =>
    simp only [step] at hs
    split at hs
    · rename_i how hpc hr
      have key : ∀ c, active (leave { s with reader := .none } c).resync = false := by
        intro c
        by_contra hc
        exact active_leave (s := { s with reader := .none }) (c := c) (by simpa using hc)
      cases how with
      | again short =>
        simp only [Option.some.injEq, Prod.mk.injEq] at hs
        obtain ⟨rfl, rfl⟩ := hs
        exact ⟨⟨h1, by simp, by simp⟩, rfl⟩
      | _ =>
        simp only [Option.some.injEq, Prod.mk.injEq] at hs
        obtain ⟨rfl, rfl⟩ := hs
        exact ⟨⟨key _, by simp [leave], by simp [leave]⟩, rfl⟩
    · cases hs
  | gathered =>
    simp only [step] at hs
    split at hs
    · rename_i c hpc hr
      simp at hs; obtain ⟨rfl, rfl⟩ := hs
      cases c <;> exact ⟨⟨rfl, by simp, by simp⟩, rfl⟩
    · cases hs
  | cancel =>
    have key : ∀ c, active (leave s c).resync = false := by
      intro c
      by_contra hc
      exact active_leave (s := s) (c := c) (by simpa using hc)
    simp only [step] at hs
    split at hs <;> rename_i hpc
    all_goals first
      | (cases hs; done)
      | (simp at hs; obtain ⟨rfl, rfl⟩ := hs
         first
          | exact ⟨⟨h1, by simp [leaveWatch], by simp [leaveWatch]⟩, rfl⟩
          | exact ⟨⟨key _, by simp [leave], by simp [leave]⟩, rfl⟩)
  | stored =>
    simp only [step] at hs
    split at hs
    · simp at hs; obtain ⟨rfl, rfl⟩ := hs
      exact ⟨⟨h1, by simp, by simp⟩, rfl⟩
    · cases hs
  | _ =>
    simp only [step] at hs
    repeat' split at hs
    all_goals first
      | (cases hs; done)
      | (simp only [Option.some.injEq, Prod.mk.injEq] at hs
         obtain ⟨rfl, rfl⟩ := hs
         first
          | exact ⟨⟨h1, h2, h3⟩, rfl⟩
          | exact ⟨⟨rfl, h2, h3⟩, rfl⟩)

theorem lost_exec {A : Access O G} {p : ℚ} (as : List (Act O)) : ∀ {es : List (Ev O)} {s s' : State O},
    Lost s → asks es = false → exec A p s as = some (s', es) → resyncs es = false := by
  induction as with
  | nil => intro es s s' _ _ he; simp [exec] at he; obtain ⟨rfl, rfl⟩ := he; rfl
  | cons a as ih =>
    intro es s s' h hl he
    obtain ⟨s1, e, es', k1, k2, rfl⟩ := exec_cons he
    rw [asks_append, Bool.or_eq_false_iff] at hl
    obtain ⟨h1, h2⟩ := lost_step h hl.1 k1
    rw [resyncs_append, h2, ih h1 hl.2 k2]; rfl

/-! ## Why a watch is given up -/

theorem caused_append (a b : List (Ev O)) : ∀ x, Caused x (a ++ b) ↔
    Caused x a ∧ Caused (a.foldl failedStep x) b := by
  induction a with
  | nil => intro x; simp [Caused]
  | cons e a ih =>
    intro x
    cases e <;> simp [Caused, ih, failedStep, and_assoc]

/-- An error that is on its way was raised since the last list. -/
structure Cause (L : List (Ev O)) (s : State O) : Prop where
  seen : Caused false L
  err : s.error = true → inWatches s.pc = true → failed L = true
  got : s.errTask = .got → failed L = true
  out : s.pc = .leavingWatch .resyncErr → failed L = true

theorem cause_same {L e : List (Ev O)} {s s' : State O} (h : Cause L s) (h1 : ∀ x, Caused x e)
    (h2 : ∀ x, e.foldl failedStep x = x)
    (h3 : s'.error = true → inWatches s'.pc = true → s.error = true ∧ inWatches s.pc = true)
    (h4 : s'.errTask = .got → s.errTask = .got)
    (h5 : s'.pc = .leavingWatch .resyncErr → s.pc = .leavingWatch .resyncErr ∨ s.errTask = .got) :
    Cause (L ++ e) s' where
  seen := by rw [caused_append]; exact ⟨h.seen, h1 _⟩
  err := by
    intro a b
    unfold failed
    rw [List.foldl_append, h2]
    exact h.err (h3 a b).1 (h3 a b).2
  got := by
    intro a
    unfold failed
    rw [List.foldl_append, h2]
    exact h.got (h4 a)
  out := by
    intro a
    unfold failed
    rw [List.foldl_append, h2]
    rcases h5 a with k | k
    · exact h.out k
    · exact h.got k

theorem cause_step {A : Access O G} {p : ℚ} {L e : List (Ev O)} {s s' : State O} {a : Act O}
    (hsh : Shape s) (h : Cause L s) (hs : step A p s a = some (s', e)) : Cause (L ++ e) s' := by
  obtain ⟨pc, v, l, c, st, rd, q, et, er, rs, now⟩ := s
  cases a with
  | replaced ok =>
    simp only [step] at hs
    split at hs
    · rename_i it w
      split at hs
      · simp at hs; obtain ⟨rfl, rfl⟩ := hs
        have het : et = .none := hsh.2.1
        subst het
        refine ⟨?_, by simp, by simp, by simp⟩
        rw [caused_append]
        exact ⟨h.seen, by simp [Caused, failedStep]⟩
      · simp at hs; obtain ⟨rfl, rfl⟩ := hs
        exact cause_same h (by simp [Caused, failedStep]) (by simp [failedStep]) (by simp [inWatches])
          (by simp) (by simp)
    · cases hs
  | resynced ok =>
    simp only [step] at hs
    split at hs
    · split at hs
      · simp at hs; obtain ⟨rfl, rfl⟩ := hs
        exact cause_same h (by simp [Caused]) (by simp) (fun a b => ⟨a, b⟩) id Or.inl
      · simp at hs; obtain ⟨rfl, rfl⟩ := hs
        have hf : failed (L ++ [Ev.resyncFailed]) = true := by
          unfold failed
          rw [List.foldl_append]
          rfl
        refine ⟨?_, fun _ _ => hf, fun _ => hf, fun _ => hf⟩
        rw [caused_append]
        exact ⟨h.seen, by simp [Caused, failedStep]⟩
    · cases hs
  | errGet =>
    simp only [step] at hs
    split at hs
    · simp at hs; obtain ⟨rfl, rfl⟩ := hs
      have hw : inWatches pc = true := by
        cases pc with
        | opening | waiting | storing _ | leavingWatch _ => rfl
        | leaving _ => exact absurd hsh.2.1 (by simp)
        | _ => exact absurd hsh.2.1 (by simp)
      have hf := h.err rfl hw
      simp only [List.append_nil]
      exact ⟨h.seen, by simp, fun _ => hf, h.out⟩
    · cases hs
  | tasksEnded =>
    simp only [step] at hs
    split at hs
    · rename_i how
      cases how with
      | resyncErr =>
        simp at hs; obtain ⟨rfl, rfl⟩ := hs
        have hf := h.out rfl
        have hf2 : failed (L ++ [Ev.resyncErr]) = true := by
          unfold failed
          rw [List.foldl_append]
          exact hf
        refine ⟨?_, fun _ _ => hf2, fun _ => hf2, fun _ => hf2⟩
        rw [caused_append]
        exact ⟨h.seen, hf, trivial⟩
      | _ =>
        simp at hs; obtain ⟨rfl, rfl⟩ := hs
        refine cause_same h (by simp [Caused, failedStep]) (by simp [failedStep]) ?_ ?_ ?_
        · simp [leave, inWatches]
        · simp [leave]
        · simp [leave]
    · cases hs
  | resume =>
    simp only [step] at hs
    split at hs
    · split at hs
      · simp at hs; obtain ⟨rfl, rfl⟩ := hs
        exact cause_same h (by simp [Caused]) (by simp) (by simp [leaveWatch, inWatches]) (by simp [leaveWatch])
          (by simp)
      · split at hs
        · cases hs
        · rename_i x rest
          simp only [Option.some.injEq] at hs
          cases x with
          | none =>
            simp only [onTaken, Prod.mk.injEq] at hs
            obtain ⟨rfl, rfl⟩ := hs
            refine cause_same h (by simp [Caused]) (by simp) (by simp [leaveWatch, inWatches])
              (by simp [leaveWatch]) ?_
            simp only [leaveWatch, Pc.leavingWatch.injEq]
            intro hx
            split at hx <;> cases hx
          | some ev =>
            simp only [onTaken] at hs
            split at hs
            · simp only [Prod.mk.injEq] at hs
              obtain ⟨rfl, rfl⟩ := hs
              exact cause_same h (by simp [Caused, failedStep]) (by simp [failedStep])
                (by simp [leaveWatch, inWatches]) (by simp [leaveWatch]) (by simp [leaveWatch])
            · simp only [Prod.mk.injEq] at hs
              obtain ⟨rfl, rfl⟩ := hs
              exact cause_same h (by simp [Caused, failedStep]) (by simp [failedStep])
                (by simp [inWatches]) (by simp) (by simp)
            · split at hs
              · simp only [Prod.mk.injEq] at hs
                obtain ⟨rfl, rfl⟩ := hs
                exact cause_same h (by simp [Caused, failedStep]) (by simp [failedStep])
                  (by simp [inWatches]) (by simp) (by simp)
              · simp only [Prod.mk.injEq] at hs
                obtain ⟨rfl, rfl⟩ := hs
                exact cause_same h (by simp [Caused, failedStep]) (by simp [failedStep])
                  (by simp [inWatches]) (by simp) (by simp)
    · cases hs
  | cancel =>
    simp only [step] at hs
    split at hs
    all_goals first
      | (cases hs; done)
      | (simp at hs; obtain ⟨rfl, rfl⟩ := hs
         exact cause_same h (by simp [Caused]) (by simp) (by simp_all [leave, leaveWatch, inWatches])
           (by simp_all [leave, leaveWatch]) (by simp_all [leave, leaveWatch]))
  | _ =>
    simp only [step] at hs
    repeat' split at hs
    all_goals first
      | (cases hs; done)
      | (simp at hs; obtain ⟨rfl, rfl⟩ := hs
         exact cause_same h (by simp [Caused, failedStep]) (by simp [failedStep])
           (by simp_all [leave, inWatches]) (by simp_all [leave]) (by simp_all [leave]))

theorem cause_exec {A : Access O G} {p : ℚ} (as : List (Act O)) : ∀ {L es : List (Ev O)} {s s' : State O},
    Shape s → Cause L s → exec A p s as = some (s', es) → Cause (L ++ es) s' := by
  induction as with
  | nil =>
    intro L es s s' _ h he
    simp only [exec, Option.some.injEq, Prod.mk.injEq] at he
    obtain ⟨rfl, rfl⟩ := he
    simpa using h
  | cons a as ih =>
    intro L es s s' hsh h he
    simp only [exec] at he
    split at he
    · cases he
    · rename_i s1 e1 h1
      split at he
      · cases he
      · rename_i s2 e2 h2
        simp only [Option.some.injEq, Prod.mk.injEq] at he
        obtain ⟨rfl, rfl⟩ := he
        rw [← List.append_assoc]
        exact ih (shape_step hsh h1) (cause_step hsh h h1) h2

end Aiok8s.ReflectorTasks
