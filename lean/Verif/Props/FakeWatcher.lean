import Verif.Proof.FakeWatcher
/-!
# Property C78: the fake watcher (`aiok8s/watch/watch.py`)
-/
set_option linter.unusedSimpArgs false
namespace Aiok8s.FakeWatcher
open Spec
variable {V : Type}

private theorem sent_logged (s : State V) (e : Ev V) (i : Nat) (h : Log.sent i ∈ (step s e).2) :
    ∃ w, (step s e).1.users[i]? = some (.sent w) := by
  cases e with
  | joined j =>
    simp only [step, joined] at h ⊢
    cases hu : s.users[j]? with
    | none => simp [hu] at h
    | some u =>
      have hl := lt_of_some hu
      cases u with
      | joining v =>
        simp only [hu] at h ⊢
        split at h
        · rename_i hz
          simp only [List.mem_singleton, Log.sent.injEq] at h
          subst h
          simp only [hz, if_true]
          exact ⟨v, by simp [hl]⟩
        · simp at h
      | sending v => simp [hu] at h
      | resetting => simp [hu] at h
      | sent v => simp [hu] at h
      | reset => simp [hu] at h
      | cancelled => simp [hu] at h
  | acquire j =>
    simp only [step, acquire] at h
    split at h <;> simp at h
  | wake r =>
    simp only [step, wake] at h
    split at h
    · split at h
      · split at h <;> simp at h
      · split at h
        · split at h <;> simp at h
        · simp at h
    · simp at h
  | cancelReader r =>
    simp only [step] at h
    split at h <;> simp at h
  | send v => simp [step] at h
  | reset => simp [step] at h
  | cancelUser j => simp [step] at h
  | next => simp [step] at h
  | take r => simp [step] at h
  | stop => simp [step] at h

private theorem dialogue_append (a b : List (Log V)) : dialogue (a ++ b) = dialogue a ++ dialogue b := by
  simp [dialogue]

private theorem mem_dialogue {log : List (Log V)} {x : Log V} (h : x ∈ dialogue log) : x ∈ log :=
  (List.mem_filter.1 h).1

private theorem calls_append (es fs : List (Ev V)) : calls (es ++ fs) = calls es ++ calls fs := by
  simp [calls]

private theorem getElem?_append_some {α : Type} {l m : List α} {i : Nat} {x : α} (h : l[i]? = some x) :
    (l ++ m)[i]? = some x := by
  rw [List.getElem?_append_left (lt_of_some h), h]

private theorem reach (es : List (Ev V)) : NoCancel es →
    ∃ (ph : Phase V) (pairs : List (V × Nat)), Inv (calls es) (exec init es) ph ∧
      dialogue (logOf init es) = pairs.flatMap (fun p => [.got p.1, .sent p.2]) ++
        ph.half.toList.map (fun p => .got p.1) ∧
      ((pairs ++ ph.half.toList).map Prod.snd).Nodup ∧
      (∀ p ∈ pairs ++ ph.half.toList, (calls es)[p.2]? = some (some p.1)) ∧
      ∀ p ∈ pairs, ∃ w, (exec (init : State V) es).users[p.2]? = some (.sent w) := by
  induction es using List.reverseRecOn with
  | nil =>
    intro _
    refine ⟨.idle, [], inv_init, ?_, ?_, ?_, ?_⟩ <;> simp [logOf, dialogue, Phase.half]
  | append_singleton es e ih =>
    intro hn
    obtain ⟨ph, pairs, h1, h2, h3, h4, h5⟩ := ih (fun x hx => hn x (by simp [hx]))
    obtain ⟨ph', g1, g2⟩ := inv_step h1 e (hn e (by simp))
    have hsent : ∀ p ∈ pairs, ∃ w, (exec (init : State V) (es ++ [e])).users[p.2]? = some (.sent w) := by
      intro p hp
      obtain ⟨w, hw⟩ := h5 p hp
      rw [exec_append]
      exact ⟨w, sent_stays _ e _ w hw⟩
    have hlog : dialogue (logOf init (es ++ [e])) =
        dialogue (logOf init es) ++ dialogue (step (exec (init : State V) es) e).2 := by
      rw [logOf_append, dialogue_append]
      simp [logOf]
    have harg : ∀ p ∈ pairs ++ ph.half.toList, (calls (es ++ [e]))[p.2]? = some (some p.1) := by
      intro p hp
      rw [calls_append]
      exact getElem?_append_some (h4 p hp)
    rw [← calls_append] at g1
    rw [hlog, h2]
    have g1' : Inv (calls (es ++ [e])) (exec init (es ++ [e])) ph' := by
      rw [exec_append]; exact g1
    rcases g2 with ⟨k1, k2⟩ | ⟨i, v, k1, k2, k3, k4⟩ | ⟨i, v, k1, k2, k3⟩
    · refine ⟨ph', pairs, g1', ?_, ?_, ?_, hsent⟩
      · rw [k1, k2, List.append_nil]
      · rw [k2]; exact h3
      · rw [k2]; exact harg
    · have hj := (h1.joining i v).2 k4
      refine ⟨ph', pairs, g1', ?_, ?_, ?_, hsent⟩
      · rw [k1, k2, k3]; simp
      · rw [k3]
        rw [k2] at h3
        simp only [Option.toList_none, List.append_nil] at h3
        simp only [Option.toList_some, List.map_append, List.map_cons, List.map_nil]
        rw [List.nodup_append]
        refine ⟨h3, by simp, ?_⟩
        intro a ha b hb hab
        simp only [List.mem_singleton] at hb
        subst hb hab
        obtain ⟨p, hp, rfl⟩ := List.mem_map.1 ha
        obtain ⟨w, hw⟩ := h5 p hp
        rw [userAt, hw] at hj
        simp at hj
      · rw [k3]
        intro p hp
        simp only [Option.toList_some, List.mem_append, List.mem_singleton] at hp
        rcases hp with hp | rfl
        · exact harg p (by simp [hp])
        · rw [calls_append]
          exact getElem?_append_some (h1.arg i v (Or.inr (Or.inl hj)))
    · refine ⟨ph', pairs ++ [(v, i)], g1', ?_, ?_, ?_, ?_⟩
      · rw [k1, k2, k3]; simp
      · rw [k3]
        rw [k2] at h3
        simpa using h3
      · rw [k3]
        rw [k2] at harg
        simpa using harg
      · intro p hp
        simp only [List.mem_append, List.mem_singleton] at hp
        rcases hp with hp | rfl
        · exact hsent p hp
        · rw [exec_append]
          refine sent_logged _ e i (mem_dialogue ?_)
          rw [k1]
          simp

/-- **C78.** If no call is cancelled, receptions and returns of `action` alternate: every event is received at most
once and in the order in which the `action`s return, each of which returns directly after its event was received; no
`__anext__` fails with the `ValueError` of `task_done`.  Missing: cancellation, see `C78_refuted_cancel`. -/
theorem C78_rendezvous_partial (es : List (Ev V)) (hn : NoCancel es) :
    Rendezvous (calls es) (logOf init es) ∧ ∀ x ∈ (exec init es).readers, x ≠ (.failed : Reader V) := by
  obtain ⟨ph, pairs, h1, h2, h3, h4, -⟩ := reach es hn
  refine ⟨⟨pairs, ph.half, h2, h3, h4⟩, ?_⟩
  rintro x hx rfl
  obtain ⟨r, hr, he⟩ := List.getElem_of_mem hx
  exact h1.noFailed r (by rw [readerAt, List.getElem?_eq_getElem hr, he])

/-- The user waits for the lock, joins or has returned. -/
private theorem user_kind (es : List (Ev V)) : NoCancel es → ∀ i v, (calls es)[i]? = some (some v) →
    userAt (exec init es) i = some (.sending v) ∨ userAt (exec init es) i = some (.joining v) ∨
      (userAt (exec init es) i = some (.sent v) ∧ Log.sent i ∈ logOf (init : State V) es) := by
  induction es using List.reverseRecOn with
  | nil => intro _ i v h; simp [calls] at h
  | append_singleton es e ih =>
    intro hn i v h
    have hn' : NoCancel es := fun x hx => hn x (by simp [hx])
    obtain ⟨ph, -, h1, -⟩ := reach es hn'
    have ih := ih hn' i v
    rw [calls_append] at h
    rw [exec_append, logOf_append]
    have hlen := h1.len
    generalize exec (init : State V) es = s at *
    simp only [exec, logOf, List.append_nil]
    by_cases hi : i < (calls es).length
    · rw [List.getElem?_append_left hi] at h
      have set_ : ∀ j u, j ≠ i → (s.users.set j u)[i]? = s.users[i]? := by
        intro j u hj
        rw [List.getElem?_set, if_neg hj]
      have keep : s.users[i]? = (step s e).1.users[i]? →
          userAt (step s e).1 i = some (.sending v) ∨ userAt (step s e).1 i = some (.joining v) ∨
          (userAt (step s e).1 i = some (.sent v) ∧ Log.sent i ∈ logOf (init : State V) es ++ (step s e).2) := by
        intro hk
        have := ih h
        simp only [userAt, hk] at this
        rcases this with g | g | ⟨g, g'⟩
        · exact Or.inl g
        · exact Or.inr (Or.inl g)
        · exact Or.inr (Or.inr ⟨g, List.mem_append.2 (Or.inl g')⟩)
      have hil : i < s.users.length := by omega
      cases e with
      | send w => exact keep (by simp only [step]; rw [List.getElem?_append_left hil])
      | reset => exact keep (by simp only [step]; rw [List.getElem?_append_left hil])
      | acquire j =>
        by_cases hj : j = i
        · subst hj
          rcases ih h with g | g | ⟨g, g'⟩
          · simp only [userAt] at g
            cases hm : s.mutex with
            | none =>
              right; left
              simp only [step, acquire, hm, g, userAt]
              rw [List.getElem?_set, if_pos rfl, if_pos hil]
            | some k => exact keep (by simp [step, acquire, hm])
          · exact keep (by
              simp only [userAt] at g
              simp only [step, acquire, g]
              split <;> simp_all)
          · exact keep (by
              simp only [userAt] at g
              simp only [step, acquire, g]
              split <;> simp_all)
        · refine keep ?_
          simp only [step, acquire]
          split
          · exact (set_ j _ hj).symm
          · exact (set_ j _ hj).symm
          · rfl
      | joined j =>
        by_cases hj : j = i
        · subst hj
          rcases ih h with g | g | ⟨g, g'⟩
          · exact keep (by simp only [userAt] at g; simp [step, joined, g])
          · simp only [userAt] at g
            by_cases hz : (s.queues s.gen).unfinished = 0
            · right; right
              simp only [step, joined, g, hz, userAt, if_true]
              rw [List.getElem?_set, if_pos rfl, if_pos hil]
              exact ⟨rfl, by simp⟩
            · exact keep (by simp [step, joined, g, hz])
          · exact keep (by simp only [userAt] at g; simp [step, joined, g])
        · refine keep ?_
          simp only [step, joined]
          split
          · split
            · exact (set_ j _ hj).symm
            · rfl
          · rfl
      | cancelUser j => exact absurd rfl ((hn (.cancelUser j) (by simp)).1 j)
      | next => exact keep (by simp only [step, next]; split <;> rfl)
      | take r => exact keep (by simp only [step, take]; split <;> (try split) <;> rfl)
      | wake r =>
        refine keep ?_
        simp only [step, wake]
        split
        · split
          · split <;> rfl
          · split
            · split <;> rfl
            · rfl
        · rfl
      | cancelReader r => exact keep (by simp only [step]; split <;> rfl)
      | stop => exact keep rfl
    · rw [List.getElem?_append_right (by omega)] at h
      left
      cases e with
      | send w =>
        have : i - (calls es).length = 0 := by
          have := lt_of_some h
          simp only [show calls [Ev.send w] = [some w] from rfl, List.length_singleton] at this
          omega
        rw [this] at h
        simp [calls] at h
        simp only [userAt, step]
        rw [List.getElem?_append_right (by omega), hlen, this, h]
        rfl
      | reset =>
        have : i - (calls es).length = 0 := by
          have := lt_of_some h
          simp only [show calls [(Ev.reset : Ev V)] = [none] from rfl, List.length_singleton] at this
          omega
        rw [this] at h
        simp [calls] at h
      | acquire j => simp [calls] at h
      | joined j => simp [calls] at h
      | cancelUser j => simp [calls] at h
      | next => simp [calls] at h
      | take r => simp [calls] at h
      | wake r => simp [calls] at h
      | cancelReader r => simp [calls] at h
      | stop => simp [calls] at h

/-- The holder of the lock is served, the others are left alone. -/
private theorem serve {cs : List (Option V)} {s : State V} {ph : Phase V} (h : Inv cs s ph) (i : Nat) (v : V)
    (hj : ph.joiner = some (i, v)) : ∃ es, NoCancel es ∧ calls es = [] ∧ Log.sent i ∈ logOf s es ∧
      Inv cs (exec s es) .idle ∧ ∀ k, k ≠ i → userAt (exec s es) k = userAt s k := by
  have last : ∀ {s : State V}, Inv cs s (.back i v) → Log.sent i ∈ logOf s [.joined i] ∧
      Inv cs (exec s [.joined i]) .idle ∧ ∀ k, k ≠ i → userAt (exec s [.joined i]) k = userAt s k := by
    intro s h
    have hu := (h.joining i v).2 rfl
    have hz : (s.queues s.gen).unfinished = 0 := by rw [h.queue]; rfl
    simp only [userAt] at hu
    have hst : step s (.joined i) = ({ s with mutex := none, users := s.users.set i (.sent v) }, [.sent i]) := by
      simp [step, joined, hu, hz]
    refine ⟨by simp [logOf, hst], ?_, ?_⟩
    · obtain ⟨ph', g1, g2⟩ := inv_joined h i
      have hm := g1.mutex
      have : ph' = .idle := by
        have hst' : joined s i = ({ s with mutex := none, users := s.users.set i (.sent v) }, [.sent i]) := hst
        rw [hst'] at hm
        cases ph' <;> simp [Phase.holder] at hm ⊢
      rw [this] at g1
      exact g1
    · intro k hk
      simp only [exec, hst, userAt]
      rw [List.getElem?_set, if_neg (Ne.symm hk)]
  have wake_ : ∀ {s : State V} {r : Nat}, Inv cs s (.taken i v r) → Log.sent i ∈ logOf s [.wake r, .joined i] ∧
      Inv cs (exec s [.wake r, .joined i]) .idle ∧
      ∀ k, k ≠ i → userAt (exec s [.wake r, .joined i]) k = userAt s k := by
    intro s r h
    obtain ⟨q, t, hr⟩ := (h.got r v).2 rfl
    obtain ⟨ph', g1, g2⟩ := inv_wake h r
    have hu : (s.queues s.gen).unfinished = 1 := by rw [h.queue]; rfl
    simp only [readerAt] at hr
    have hlog : (wake s r).2 = [.got v] := by simp [wake, hr, hu]
    have hus : (wake s r).1.users = s.users := by simp [wake, hr, hu]
    have hph : ph' = .back i v := by
      rw [hlog] at g2
      rcases g2 with ⟨k, -⟩ | ⟨j, w, k1, -, k3, k4⟩ | ⟨j, w, k, -⟩
      · simp [dialogue] at k
      · simp [Phase.joiner] at k4
        obtain ⟨rfl, rfl⟩ := k4
        cases ph' <;> simp [Phase.half] at k3 ⊢
        exact ⟨k3.2, k3.1⟩
      · simp [dialogue] at k
    rw [hph] at g1
    obtain ⟨k1, k2, k3⟩ := last g1
    refine ⟨List.mem_append.2 (Or.inr k1), k2, ?_⟩
    intro k hk
    have := k3 k hk
    rw [userAt, userAt, hus] at this
    exact this
  cases ph with
  | idle => simp [Phase.joiner] at hj
  | put j w =>
    simp [Phase.joiner] at hj
    obtain ⟨rfl, rfl⟩ := hj
    have hq : (s.queues s.gen).items = [w] := by rw [h.queue]; rfl
    obtain ⟨ph', g1, -⟩ := inv_next h
    have hus : (next s).users = s.users := by simp [next, hq]
    have hr : ∃ q t, readerAt (next s) s.readers.length = some (.waiting q t (some w)) :=
      ⟨s.gen, s.gen, by simp [next, hq, readerAt]⟩
    have hp := (g1.got _ _).1 hr
    have hph : ph' = .taken j w s.readers.length := by
      have hu : userAt (next s) j = some (.joining w) := by
        rw [userAt, hus]
        exact (h.joining j w).2 rfl
      have hk := (g1.joining j w).1 hu
      cases ph' <;> simp [Phase.reader, Phase.joiner] at hp hk ⊢
      exact ⟨hk.1, hk.2, hp.1⟩
    rw [hph] at g1
    obtain ⟨k1, k2, k3⟩ := wake_ g1
    refine ⟨[.next, .wake s.readers.length, .joined j], by simp [NoCancel], rfl,
      List.mem_append.2 (Or.inr k1), k2, ?_⟩
    intro k hk
    have := k3 k hk
    rw [userAt, userAt, hus] at this
    exact this
  | taken j w r =>
    simp [Phase.joiner] at hj
    obtain ⟨rfl, rfl⟩ := hj
    exact ⟨[.wake r, .joined j], by simp [NoCancel], rfl, wake_ h⟩
  | back j w =>
    simp [Phase.joiner] at hj
    obtain ⟨rfl, rfl⟩ := hj
    exact ⟨[.joined j], by simp [NoCancel], rfl, last h⟩

/-- **C78.** If no call is cancelled, every `action` can still return, whatever has happened and also after `stop`:
it takes calls of `__anext__`, but no other. -/
theorem C78_served_partial (es : List (Ev V)) (hn : NoCancel es) (i : Nat) (v : V)
    (hi : (calls es)[i]? = some (some v)) (hnot : Log.sent i ∉ logOf (init : State V) es) :
    ∃ fs, NoCancel fs ∧ calls fs = [] ∧ Log.sent i ∈ logOf (exec (init : State V) es) fs := by
  obtain ⟨ph, -, h1, -⟩ := reach es hn
  rcases user_kind es hn i v hi with h | h | ⟨-, h⟩
  · -- first the holder of the lock
    have free : ∃ fs, NoCancel fs ∧ calls fs = [] ∧ Inv (calls es) (exec (exec (init : State V) es) fs) .idle ∧
        userAt (exec (exec (init : State V) es) fs) i = some (.sending v) := by
      cases hj : ph.joiner with
      | none =>
        have : ph = .idle := by cases ph <;> simp [Phase.joiner] at hj ⊢
        subst this
        exact ⟨[], by simp [NoCancel], rfl, h1, h⟩
      | some p =>
        obtain ⟨j, w⟩ := p
        obtain ⟨fs, g1, g2, -, g4, g5⟩ := serve h1 j w hj
        refine ⟨fs, g1, g2, g4, ?_⟩
        rw [g5 i, h]
        rintro rfl
        have := (h1.joining i w).2 hj
        rw [h] at this
        simp at this
    obtain ⟨fs, g1, g2, g3, g4⟩ := free
    obtain ⟨ph', k1, -⟩ := inv_acquire g3 i
    have hil := lt_of_some g4
    have hu : userAt (acquire (exec (exec (init : State V) es) fs) i).1 i = some (.joining v) := by
      have hm := g3.mutex
      simp only [Phase.holder] at hm
      simp only [userAt] at g4
      simp only [acquire, hm, g4, userAt]
      rw [List.getElem?_set, if_pos rfl, if_pos hil]
    obtain ⟨gs, j1, j2, j3, -⟩ := serve k1 i v ((k1.joining i v).1 hu)
    refine ⟨fs ++ .acquire i :: gs, ?_, ?_, ?_⟩
    · intro e he
      simp only [List.mem_append, List.mem_cons] at he
      rcases he with he | rfl | he
      · exact g1 e he
      · simp
      · exact j1 e he
    · rw [calls_append, g2]
      simpa [calls] using j2
    · rw [logOf_append]
      exact List.mem_append.2 (Or.inr (List.mem_append.2 (Or.inr j3)))
  · obtain ⟨fs, g1, g2, g3, -⟩ := serve h1 i v ((h1.joining i v).1 h)
    exact ⟨fs, g1, g2, g3⟩
  · exact absurd h hnot

private theorem stopped_eq (es : List (Ev V)) : ∀ s : State V, Stopped s es s.stopped = (exec s es).stopped := by
  induction es with
  | nil => intro s; rfl
  | cons e es ih =>
    intro s
    simp only [Stopped, exec]
    rw [← ih (step s e).1]
    congr 1
    cases e with
    | acquire i =>
      simp only [step, acquire]
      split <;> simp
    | stop => rfl
    | joined i =>
      simp only [step, joined]
      split
      · split <;> rfl
      · rfl
    | cancelUser i => simp only [step, cancelUser]; split <;> rfl
    | next => simp only [step, next]; split <;> rfl
    | take r => simp only [step, take]; split <;> (try split) <;> rfl
    | wake r =>
      simp only [step, wake]
      split
      · split
        · split <;> rfl
        · split
          · split <;> rfl
          · rfl
      · rfl
    | cancelReader r => simp only [step]; split <;> rfl
    | send v => rfl
    | reset => rfl

/-- **C78.** `StopAsyncIteration` is only raised after `stop` without `reset` since. -/
theorem C78_ended_only (es : List (Ev V)) (e : Ev V) (h : Log.ended ∈ (step (exec (init : State V) es) e).2) :
    Stopped (init : State V) es false = true := by
  have := stopped_eq es (init : State V)
  simp only [init] at this
  rw [show Stopped (init : State V) es false = (exec (init : State V) es).stopped from this]
  cases e with
  | wake r =>
    simp only [step, wake] at h
    split at h
    · split at h
      · split at h <;> simp at h
      · split at h
        · split at h
          · assumption
          · simp at h
        · simp at h
    · simp at h
  | acquire i => simp only [step, acquire] at h; split at h <;> simp at h
  | joined i =>
    simp only [step, joined] at h
    split at h
    · split at h <;> simp at h
    · simp at h
  | cancelReader r => simp only [step] at h; split at h <;> simp at h
  | send v => simp [step] at h
  | reset => simp [step] at h
  | cancelUser j => simp [step] at h
  | next => simp [step] at h
  | take r => simp [step] at h
  | stop => simp [step] at h

/-- **C78.** After `stop`, while no event is on its way, every call of `__anext__`, old or new, raises
`StopAsyncIteration` as soon as it runs. -/
theorem C78_stop (es : List (Ev V)) (hn : NoCancel es) (hs : Stopped (init : State V) es false = true)
    (q t r : Nat) (hr : (exec (init : State V) es).readers[r]? = some (.waiting q t none)) :
    (step (exec (init : State V) es) (.wake r)).2 = [.ended] := by
  obtain ⟨ph, -, h1, -⟩ := reach es hn
  have := stopped_eq es (init : State V)
  simp only [init] at this
  rw [show Stopped (init : State V) es false = (exec (init : State V) es).stopped from this] at hs
  have ht := (h1.task r q t none hr).2
  have hf := h1.fired hs
  simp only [step, wake, hr]
  rw [if_pos (by omega), if_pos hs]

/-- The event of the holder of the lock reaches no reader. -/
private structure Stuck (more : Prop) (s : State V) : Prop where
  mutex : s.mutex ≠ none
  unfinished : (s.queues s.gen).unfinished ≠ 0
  readers : ∀ r q t g, readerAt s r = some (.waiting q t g) → g = none ∧ (s.queues q).items = []
  more : more → (s.queues s.gen).items = []

private theorem stuck_step {more : Prop} {s : State V} (h : Stuck more s) (e : Ev V)
    (hc : ∀ i, e ≠ .cancelUser i) (hm : e = .next → more) :
    Stuck more (step s e).1 ∧ ∀ x ∈ (step s e).2, x = .ended := by
  obtain ⟨h1, h2, h3, h4⟩ := h
  have set_ : ∀ r (x : Reader V), (∀ q t g, x = .waiting q t g → g = none ∧ (s.queues q).items = []) →
      ∀ (r' q t : Nat) (g : Option V), (s.readers.set r x)[r']? = some (Reader.waiting q t g) → g = none ∧ (s.queues q).items = [] := by
    intro r x hx r' q t g hr
    rw [List.getElem?_set] at hr
    split at hr
    · split at hr
      · exact hx q t g (Option.some.inj hr)
      · simp at hr
    · exact h3 r' q t g hr
  cases e with
  | send v => exact ⟨⟨h1, h2, h3, h4⟩, by simp [step]⟩
  | reset => exact ⟨⟨h1, h2, h3, h4⟩, by simp [step]⟩
  | acquire i =>
    obtain ⟨j, hj⟩ := Option.ne_none_iff_exists'.1 h1
    have : step s (.acquire i) = (s, []) := by simp [step, acquire, hj]
    rw [this]
    exact ⟨⟨h1, h2, h3, h4⟩, by simp⟩
  | joined i =>
    have : step s (.joined i) = (s, []) := by
      simp only [step, joined, if_neg h2]
      split <;> rfl
    rw [this]
    exact ⟨⟨h1, h2, h3, h4⟩, by simp⟩
  | cancelUser i => exact absurd rfl (hc i)
  | next =>
    have hq := h4 (hm rfl)
    simp only [step, next, hq]
    refine ⟨⟨h1, h2, ?_, h4⟩, by simp⟩
    intro r q t g hr
    simp only [readerAt, List.getElem?_append] at hr
    split at hr
    · exact h3 r q t g hr
    · cases hk : r - s.readers.length with
      | zero =>
        rw [hk] at hr
        simp at hr
        obtain ⟨rfl, rfl, rfl⟩ := hr
        exact ⟨rfl, hq⟩
      | succ n => rw [hk] at hr; simp at hr
  | take r =>
    refine ⟨?_, by simp [step]⟩
    simp only [step, take]
    cases hr : s.readers[r]? with
    | none => exact ⟨h1, h2, h3, h4⟩
    | some x =>
      cases x with
      | waiting q t g =>
        obtain ⟨rfl, hq⟩ := h3 r q t g hr
        simp only [hq]
        exact ⟨h1, h2, h3, h4⟩
      | orphan q g =>
        cases g with
        | some v => exact ⟨h1, h2, h3, h4⟩
        | none =>
          simp only
          cases hq : (s.queues q).items with
          | nil => exact ⟨h1, h2, h3, h4⟩
          | cons v rest =>
            refine ⟨h1, ?_, ?_, ?_⟩
            · simp only [setQueue]
              split
              · rename_i he; rw [← he]; exact h2
              · exact h2
            · intro r' q' t g hr'
              obtain ⟨k1, k2⟩ := set_ r _ (by simp) r' q' t g hr'
              refine ⟨k1, ?_⟩
              simp only [setQueue]
              split
              · rename_i he
                rw [he, hq] at k2
                simp at k2
              · exact k2
            · intro hmore
              have := h4 hmore
              simp only [setQueue]
              split
              · rename_i he
                rw [he, hq] at this
                simp at this
              · exact this
      | returned v => exact ⟨h1, h2, h3, h4⟩
      | ended => exact ⟨h1, h2, h3, h4⟩
      | failed => exact ⟨h1, h2, h3, h4⟩
  | wake r =>
    simp only [step, wake]
    cases hr : s.readers[r]? with
    | none => exact ⟨⟨h1, h2, h3, h4⟩, by simp⟩
    | some x =>
      cases x with
      | waiting q t g =>
        obtain ⟨rfl, hq⟩ := h3 r q t g hr
        simp only
        by_cases hf : t < s.fired
        · rw [if_pos hf]
          by_cases hs : s.stopped = true
          · rw [if_pos hs]
            exact ⟨⟨h1, h2, set_ r _ (by simp), h4⟩, by simp⟩
          · rw [if_neg hs]
            refine ⟨⟨h1, h2, set_ r _ ?_, h4⟩, by simp⟩
            intro q' t' g hx
            simp at hx
            obtain ⟨rfl, -, rfl⟩ := hx
            exact ⟨rfl, hq⟩
        · rw [if_neg hf]
          exact ⟨⟨h1, h2, h3, h4⟩, by simp⟩
      | orphan q g => exact ⟨⟨h1, h2, h3, h4⟩, by simp⟩
      | returned v => exact ⟨⟨h1, h2, h3, h4⟩, by simp⟩
      | ended => exact ⟨⟨h1, h2, h3, h4⟩, by simp⟩
      | failed => exact ⟨⟨h1, h2, h3, h4⟩, by simp⟩
  | cancelReader r =>
    simp only [step]
    split
    · exact ⟨⟨h1, h2, set_ r _ (by simp), h4⟩, by simp⟩
    · exact ⟨⟨h1, h2, h3, h4⟩, by simp⟩
  | stop => exact ⟨⟨h1, h2, h3, h4⟩, by simp [step]⟩

private theorem stuck_exec {more : Prop} : ∀ (es : List (Ev V)) (s : State V), Stuck more s →
    (∀ e ∈ es, (∀ i, e ≠ .cancelUser i) ∧ (e = .next → more)) → ∀ x ∈ logOf s es, x = .ended := by
  intro es
  induction es with
  | nil => intro s _ _ x hx; simp [logOf] at hx
  | cons e es ih =>
    intro s h he x hx
    obtain ⟨g1, g2⟩ := stuck_step h e (he e (by simp)).1 (he e (by simp)).2
    rcases List.mem_append.1 hx with hx | hx
    · exact g2 x hx
    · exact ih _ g1 (fun f hf => he f (by simp [hf])) x hx

/-- **C78** is false for `stop`: an `action` that nobody receives waits for ever although the watcher is stopped,
and so does a `reset` after it, for it keeps the lock. -/
theorem C78_refuted_stop (v : V) (es : List (Ev V)) (h : ∀ e ∈ es, (∀ i, e ≠ .cancelUser i) ∧ e ≠ .next) :
    Stopped (init : State V) [.send v, .acquire 0, .stop, .reset] false = true ∧
    ∀ x ∈ logOf (exec (init : State V) [.send v, .acquire 0, .stop, .reset]) es,
      x ≠ .resetDone ∧ ∀ i, x ≠ .sent i := by
  refine ⟨rfl, ?_⟩
  intro x hx
  have := stuck_exec (more := False) es _ ⟨?_, ?_, ?_, False.elim⟩ (fun e he => ⟨(h e he).1, (h e he).2⟩) x hx
  · subst this; simp
  · simp [exec, step, acquire, init]
  · simp [exec, step, acquire, init, setQueue]
  · simp [exec, step, acquire, init, readerAt]

/-- **C78** is false for `reset`: a call of `__anext__` that waits while the watcher is stopped and reset waits at
the old queue; an event sent afterwards does not reach it, and its `action` waits for ever. -/
theorem C78_refuted_reset (v : V) (es : List (Ev V)) (h : ∀ e ∈ es, (∀ i, e ≠ .cancelUser i) ∧ e ≠ .next) :
    (exec (init : State V) [.next, .stop, .reset, .acquire 0, .send v, .acquire 1]).readers = [.waiting 0 0 none] ∧
    ∀ x ∈ logOf (exec (init : State V) [.next, .stop, .reset, .acquire 0, .send v, .acquire 1]) es,
      (∀ w, x ≠ .got w) ∧ ∀ i, x ≠ .sent i := by
  refine ⟨rfl, ?_⟩
  intro x hx
  have := stuck_exec (more := False) es _ ⟨?_, ?_, ?_, False.elim⟩ (fun e he => ⟨(h e he).1, (h e he).2⟩) x hx
  · subst this; simp
  · simp [exec, step, acquire, init, next]
  · simp [exec, step, acquire, init, next, setQueue]
  · intro r q t g hr
    cases r with
    | zero =>
      simp [exec, step, acquire, init, next, readerAt] at hr
      obtain ⟨rfl, rfl, rfl⟩ := hr
      exact ⟨rfl, by simp [exec, step, acquire, init, next, setQueue]⟩
    | succ r => simp [exec, step, acquire, init, next, readerAt] at hr

/-- **C78** is false for cancellation: a call of `__anext__` that is cancelled still takes the next event; no later
call gets it, and its `action` waits for ever. -/
theorem C78_refuted_cancel (v : V) (es : List (Ev V)) (h : ∀ e ∈ es, ∀ i, e ≠ .cancelUser i) :
    ∀ x ∈ logOf (exec (init : State V) [.next, .cancelReader 0, .send v, .acquire 0, .take 0]) es,
      (∀ w, x ≠ .got w) ∧ ∀ i, x ≠ .sent i := by
  intro x hx
  have := stuck_exec (more := True) es _ ⟨?_, ?_, ?_, fun _ => ?_⟩ (fun e he => ⟨h e he, fun _ => trivial⟩) x hx
  · subst this; simp
  · simp [exec, step, acquire, init, next, take, setQueue]
  · simp [exec, step, acquire, init, next, take, setQueue]
  · intro r q t g hr
    cases r <;> simp [exec, step, acquire, init, next, take, setQueue, readerAt] at hr
  · simp [exec, step, acquire, init, next, take, setQueue]

/-- **C78** is false for a reset after a cancelled `action`: the call of `__anext__` that has taken its event
raises a `ValueError`, and nobody ever receives the event. -/
theorem C78_refuted_raises (v : V) :
    let es : List (Ev V) := [.next, .send v, .acquire 0, .take 0, .cancelUser 0, .reset, .acquire 1, .wake 0]
    (exec init es).readers = [.failed] ∧ logOf init es = [.resetDone] ∧
    ∀ more : List (Ev V), (∀ e ∈ more, ∀ w, e ≠ .send w) → ∀ w, .got w ∉ logOf (exec init es) more := by
  refine ⟨rfl, rfl, ?_⟩
  -- from here on all queues are empty
  have key : ∀ (more : List (Ev V)) (s : State V), (∀ q, (s.queues q).items = []) →
      (∀ (r q t : Nat) (g : Option V), s.readers[r]? = some (.waiting q t g) → g = none) →
      (∀ (i : Nat) (w : V), s.users[i]? ≠ some (.sending w)) → (∀ e ∈ more, ∀ w, e ≠ .send w) →
      ∀ w, .got w ∉ logOf s more := by
    intro more
    induction more with
    | nil => intro s _ _ _ _ w; simp [logOf]
    | cons e more ih =>
      intro s h1 h2 h3 he w
      have hw : .got w ∉ (step s e).2 ∧ (∀ q, ((step s e).1.queues q).items = []) ∧
          (∀ (r q t : Nat) (g : Option V), (step s e).1.readers[r]? = some (.waiting q t g) → g = none) ∧
          (∀ (i : Nat) (w : V), (step s e).1.users[i]? ≠ some (.sending w)) := by
        have hu : ∀ (i : Nat) (u : User V), (∀ w, u ≠ .sending w) →
            ∀ (j : Nat) (w : V), (s.users.set i u)[j]? ≠ some (.sending w) := by
          intro i u hne j w hj
          rw [List.getElem?_set] at hj
          split at hj
          · split at hj
            · injection hj with hj; exact hne w hj
            · cases hj
          · exact h3 j w hj
        have hr : ∀ (i : Nat) (x : Reader V), (∀ q t g, x = .waiting q t g → g = none) →
            ∀ (r q t : Nat) (g : Option V), (s.readers.set i x)[r]? = some (.waiting q t g) → g = none := by
          intro i x hne r q t g hj
          rw [List.getElem?_set] at hj
          split at hj
          · split at hj
            · injection hj with hj; exact hne q t g hj
            · cases hj
          · exact h2 r q t g hj
        have hq : ∀ (n u : Nat) (q : Nat), (setQueue s.queues n ⟨[], u⟩ q).items = [] := by
          intro n u q; simp only [setQueue]; split
          · rfl
          · exact h1 q
        cases e with
        | send w' => exact absurd rfl (he _ (by simp) w')
        | reset =>
          refine ⟨by simp [step], h1, h2, ?_⟩
          intro j w' hj
          simp only [step, List.getElem?_append] at hj
          split at hj
          · exact h3 j w' hj
          · rcases hk : j - s.users.length with _ | k <;> simp [hk] at hj
        | acquire i =>
          simp only [step, acquire]
          split
          · rename_i hs; exact absurd hs (h3 i _)
          · exact ⟨by simp, hq _ _, h2, hu _ _ (by simp)⟩
          · exact ⟨by simp, h1, h2, h3⟩
        | joined i =>
          simp only [step, joined]
          split
          · split
            · exact ⟨by simp, h1, h2, hu _ _ (by simp)⟩
            · exact ⟨by simp, h1, h2, h3⟩
          · exact ⟨by simp, h1, h2, h3⟩
        | cancelUser i =>
          simp only [step, cancelUser]
          split
          · exact ⟨by simp, h1, h2, hu _ _ (by simp)⟩
          · exact ⟨by simp, h1, h2, hu _ _ (by simp)⟩
          · exact ⟨by simp, h1, h2, hu _ _ (by simp)⟩
          · exact ⟨by simp, h1, h2, h3⟩
        | next =>
          have hn : next s = { s with readers := s.readers ++ [.waiting s.gen s.gen none] } := by
            simp only [next, h1]
          simp only [step, hn]
          refine ⟨by simp, h1, ?_, h3⟩
          intro r q t g hj
          rw [List.getElem?_append] at hj
          split at hj
          · exact h2 r q t g hj
          · rcases hk : r - s.readers.length with _ | k <;> simp [hk] at hj
            exact hj.2.2.symm
        | take r =>
          have : (step s (.take r)).1 = s := by
            simp only [step, take]
            split <;> simp [h1]
          rw [this]
          exact ⟨by simp [step], h1, h2, h3⟩
        | wake r =>
          simp only [step, wake]
          split
          · rename_i q t g hg
            have := h2 r q t g hg
            subst this
            simp only
            split
            · split
              · exact ⟨by simp, h1, hr _ _ (by simp), h3⟩
              · exact ⟨by simp, h1, hr _ _ (by rintro _ _ _ ⟨⟩; rfl), h3⟩
            · exact ⟨by simp, h1, h2, h3⟩
          · exact ⟨by simp, h1, h2, h3⟩
        | cancelReader r =>
          simp only [step]
          split
          · exact ⟨by simp, h1, hr _ _ (by simp), h3⟩
          · exact ⟨by simp, h1, h2, h3⟩
        | stop => exact ⟨by simp [step], h1, h2, h3⟩
      simp only [logOf, List.mem_append, not_or]
      exact ⟨hw.1, ih _ hw.2.1 hw.2.2.1 hw.2.2.2 (fun e h => he e (by simp [h])) w⟩
  intro more hm
  refine key more _ ?_ ?_ ?_ hm
  · intro q
    simp [exec, step, acquire, init, next, take, cancelUser, wake, setQueue]
    split
    · rfl
    · split <;> rfl
  · intro r q t g hr
    cases r <;> simp [exec, step, acquire, init, next, take, cancelUser, wake, setQueue] at hr
  · intro i w hi
    rcases i with _ | _ | i <;> simp [exec, step, acquire, init, next, take, cancelUser, wake, setQueue] at hi

/-! ## Cancelled `action`s -/

/-- The lock is held by the user that is in `join`. -/
private def Holds (s : State V) : Prop :=
  ∀ i, s.mutex = some i → ∃ v, s.users[i]? = some (.joining v)

private theorem holds_set {s s' : State V} (h : Holds s) {i : Nat} {u : User V} (hm : s'.mutex = s.mutex)
    (hu : s'.users = s.users.set i u) (hn : ∀ v, s.users[i]? ≠ some (.joining v)) : Holds s' := by
  intro j hj
  rw [hm] at hj
  obtain ⟨v, hv⟩ := h j hj
  refine ⟨v, ?_⟩
  rw [hu]
  by_cases hij : i = j
  · subst hij; exact absurd hv (hn v)
  · rw [List.getElem?_set_ne hij]; exact hv

private theorem holds_step (s : State V) (e : Ev V) (h : Holds s) : Holds (step s e).1 := by
  cases e with
  | send v | reset =>
    intro i hi
    obtain ⟨v, hv⟩ := h i hi
    exact ⟨v, getElem?_append_some hv⟩
  | acquire i =>
    simp only [step, acquire]
    split
    · rename_i hm hu
      intro j hj
      simp only [Option.some.injEq] at hj
      subst hj
      rename_i v
      exact ⟨v, by simp [lt_of_some hu]⟩
    · rename_i hm hu
      exact holds_set h rfl rfl (by rw [hu]; simp)
    · exact h
  | joined i =>
    simp only [step, joined]
    split
    · split
      · intro j hj; simp at hj
      · exact h
    · exact h
  | cancelUser i =>
    simp only [step, cancelUser]
    split
    · rename_i hu
      exact holds_set h rfl rfl (by rw [hu]; simp)
    · rename_i hu
      exact holds_set h rfl rfl (by rw [hu]; simp)
    · intro j hj; simp at hj
    · exact h
  | next =>
    simp only [step, next]
    split <;> exact h
  | take r =>
    simp only [step, take]
    repeat' split
    all_goals exact h
  | wake r =>
    simp only [step, wake]
    repeat' split
    all_goals exact h
  | cancelReader r =>
    simp only [step]
    split <;> exact h
  | stop => exact h

/-- **C78.** Also if calls are cancelled: an `action` that waits for the lock can put its event, and a `reset` can
be done, as soon as no other `action` is in `join`; a cancelled one does not keep the lock. -/
theorem C78_lock (es : List (Ev V)) (hj : ∀ (j : Nat) (w : V), (exec (init : State V) es).users[j]? ≠ some (.joining w)) (i : Nat) :
    (∀ v, (exec (init : State V) es).users[i]? = some (.sending v) →
      (exec (init : State V) (es ++ [.acquire i])).users[i]? = some (.joining v)) ∧
    ((exec (init : State V) es).users[i]? = some .resetting →
      logOf (exec (init : State V) es) [.acquire i] = [.resetDone]) := by
  have hh : ∀ (es : List (Ev V)) (s : State V), Holds s → Holds (exec s es) := by
    intro es
    induction es with
    | nil => intro s h; exact h
    | cons e es ih => intro s h; exact ih _ (holds_step s e h)
  have h0 := hh es init (by intro i hi; simp [init] at hi)
  have hm : (exec (init : State V) es).mutex = none := by
    cases hx : (exec (init : State V) es).mutex with
    | none => rfl
    | some j => obtain ⟨v, hv⟩ := h0 j hx; exact absurd hv (hj j v)
  refine ⟨?_, ?_⟩
  · intro v hv
    rw [exec_append]
    simp only [exec, step, acquire, hm, hv]
    simp [lt_of_some hv]
  · intro hv
    simp [logOf, step, acquire, hm, hv]

/-- A single reader that follows the events; `cur` is the call of `__anext__` that waits and what it has taken. -/
private structure Follows (s : State V) (ps gs : List V) (cur : Option (Nat × Option V)) : Prop where
  gen : s.gen = 0
  noReset : ∀ i : Nat, s.users[i]? ≠ some .resetting
  only : ∀ (r q t : Nat) (g : Option V), s.readers[r]? = some (.waiting q t g) → q = 0 ∧ cur = some (r, g)
  is : ∀ (r : Nat) (g : Option V), cur = some (r, g) → ∃ t, s.readers[r]? = some (.waiting 0 t g)
  noOrphan : ∀ (r q : Nat) (g : Option V), s.readers[r]? ≠ some (.orphan q g)
  noFailed : ∀ r : Nat, s.readers[r]? ≠ some .failed
  all : gs ++ (cur.bind Prod.snd).toList ++ (s.queues 0).items = ps
  unfinished : (s.queues 0).unfinished = ((cur.bind Prod.snd).toList ++ (s.queues 0).items).length

private theorem follows_users {s s' : State V} {ps gs : List V} {cur : Option (Nat × Option V)}
    (h : Follows s ps gs cur) (h1 : s'.gen = s.gen) (h2 : s'.queues = s.queues) (h3 : s'.readers = s.readers)
    (h4 : ∀ i : Nat, s'.users[i]? ≠ some .resetting) : Follows s' ps gs cur where
  gen := h1 ▸ h.gen
  noReset := h4
  only := h3 ▸ h.only
  is := h3 ▸ h.is
  noOrphan := h3 ▸ h.noOrphan
  noFailed := h3 ▸ h.noFailed
  all := h2 ▸ h.all
  unfinished := h2 ▸ h.unfinished

private theorem noReset_set {us : List (User V)} (h : ∀ i : Nat, us[i]? ≠ some .resetting) (i : Nat) {u : User V}
    (hu : u ≠ .resetting) : ∀ j : Nat, (us.set i u)[j]? ≠ some .resetting := by
  intro j
  rw [List.getElem?_set]
  split
  · split
    · simpa using hu
    · simp
  · exact h j

/-- The reader that waits changes. -/
private theorem follows_reader {s : State V} {ps gs : List V} {r : Nat} {g : Option V}
    (h : Follows s ps gs (some (r, g))) (t' : Nat) (qs : Nat → Queue V) (ps' gs' : List V) (g' : Option V)
    (h1 : gs' ++ g'.toList ++ (qs 0).items = ps') (h2 : (qs 0).unfinished = (g'.toList ++ (qs 0).items).length) :
    Follows { s with queues := qs, readers := s.readers.set r (.waiting 0 t' g') } ps' gs' (some (r, g')) := by
  obtain ⟨t, ht⟩ := h.is r g rfl
  have hlt := lt_of_some ht
  refine ⟨h.gen, h.noReset, ?_, ?_, ?_, ?_, h1, h2⟩
  · intro r2 q t2 g2 hx
    simp only [List.getElem?_set] at hx
    split at hx
    · rename_i heq; subst heq
      simp [hlt] at hx
      obtain ⟨rfl, rfl, rfl⟩ := hx
      exact ⟨rfl, rfl⟩
    · rename_i hne
      have := (h.only r2 q t2 g2 hx).2
      simp at this
      exact absurd this.1 hne
  · intro r2 g2 hx
    simp only [Option.some.injEq, Prod.mk.injEq] at hx
    obtain ⟨rfl, rfl⟩ := hx
    exact ⟨t', by simp [hlt]⟩
  · intro r2 q g2 hx
    simp only [List.getElem?_set] at hx
    split at hx
    · simp [hlt] at hx
    · exact h.noOrphan r2 q g2 hx
  · intro r2 hx
    simp only [List.getElem?_set] at hx
    split at hx
    · simp [hlt] at hx
    · exact h.noFailed r2 hx

/-- The reader that waits is done. -/
private theorem follows_done {s : State V} {ps gs : List V} {r : Nat} {g : Option V}
    (h : Follows s ps gs (some (r, g))) (x : Reader V) (qs : Nat → Queue V) (gs' : List V)
    (hx1 : ∀ q t g, x ≠ .waiting q t g) (hx2 : ∀ q g, x ≠ .orphan q g) (hx3 : x ≠ .failed)
    (h1 : gs' ++ (qs 0).items = ps) (h2 : (qs 0).unfinished = (qs 0).items.length) :
    Follows { s with queues := qs, readers := s.readers.set r x } ps gs' none := by
  obtain ⟨t, ht⟩ := h.is r g rfl
  have hlt := lt_of_some ht
  refine ⟨h.gen, h.noReset, ?_, ?_, ?_, ?_, by simpa using h1, by simpa using h2⟩
  · intro r2 q t2 g2 hx
    simp only [List.getElem?_set] at hx
    split at hx
    · simp [hlt] at hx
      exact absurd hx (hx1 _ _ _)
    · rename_i hne
      have := (h.only r2 q t2 g2 hx).2
      simp at this
      exact absurd this.1 hne
  · intro r2 g2 hx; cases hx
  · intro r2 q g2 hx
    simp only [List.getElem?_set] at hx
    split at hx
    · simp [hlt] at hx
      exact absurd hx (hx2 _ _)
    · exact h.noOrphan r2 q g2 hx
  · intro r2 hx
    simp only [List.getElem?_set] at hx
    split at hx
    · simp [hlt] at hx
      exact absurd hx hx3
    · exact h.noFailed r2 hx

private theorem follows_step {s : State V} {ps gs : List V} {cur : Option (Nat × Option V)}
    (h : Follows s ps gs cur) (e : Ev V) (hr : e ≠ .reset) (ho : OneReader s [e]) :
    ∃ cur', Follows (step s e).1 (ps ++ puts s [e]) (gs ++ Spec.gots (step s e).2) cur' := by
  cases e with
  | send v =>
    refine ⟨cur, ?_⟩
    simp only [puts, gots, step, List.append_nil, List.filterMap_nil]
    refine follows_users h rfl rfl rfl ?_
    intro i
    rw [List.getElem?_append]
    split
    · exact h.noReset i
    · intro hx
      have := List.mem_of_getElem? hx
      simp at this
  | reset => exact absurd rfl hr
  | acquire i =>
    simp only [step, acquire, puts]
    cases hm : s.mutex with
    | some j => exact ⟨cur, by simpa [gots] using h⟩
    | none =>
      cases hu : s.users[i]? with
      | none => exact ⟨cur, by simpa [gots] using h⟩
      | some u =>
        cases u with
        | sending v =>
          refine ⟨cur, ?_⟩
          simp only [gots, List.filterMap_nil, List.append_nil]
          refine ⟨h.gen, noReset_set h.noReset i (by simp), h.only, h.is, h.noOrphan, h.noFailed, ?_, ?_⟩
          · simp only [h.gen, setQueue, if_true]
            rw [← List.append_assoc, h.all]
          · simp only [h.gen, setQueue, if_true, h.unfinished]
            simp; omega
        | resetting => exact absurd hu (h.noReset i)
        | _ => exact ⟨cur, by simpa [gots] using h⟩
  | joined i =>
    refine ⟨cur, ?_⟩
    simp only [puts, List.append_nil, step, joined]
    split
    · split
      · have hg : gs ++ gots [Log.sent (V := V) i] = gs := by simp [gots]
        rw [hg]
        exact follows_users h rfl rfl rfl (noReset_set h.noReset i (by simp))
      · simpa [gots] using h
    · simpa [gots] using h
  | cancelUser i =>
    refine ⟨cur, ?_⟩
    simp only [puts, List.append_nil, step, cancelUser, gots, List.filterMap_nil]
    split
    · exact follows_users h rfl rfl rfl (noReset_set h.noReset i (by simp))
    · exact follows_users h rfl rfl rfl (noReset_set h.noReset i (by simp))
    · exact follows_users h rfl rfl rfl (noReset_set h.noReset i (by simp))
    · exact h
  | next =>
    obtain ⟨stopped, gen, fired, qs0, mutex, users, readers⟩ := s
    obtain rfl : gen = 0 := h.gen
    have hnone : cur = none := by
      cases cur with
      | none => rfl
      | some x =>
        obtain ⟨r, g⟩ := x
        obtain ⟨t, ht⟩ := h.is r g rfl
        exact absurd ht (ho.1 r 0 t g)
    subst hnone
    have hall := h.all
    have hun := h.unfinished
    simp only [Option.bind_none, Option.toList_none, List.append_nil, List.nil_append] at hall hun
    have key : ∀ (qs : Nat → Queue V) (g : Option V), g.toList ++ (qs 0).items = (qs0 0).items →
        (qs 0).unfinished = (qs0 0).unfinished →
        Follows ⟨stopped, 0, fired, qs, mutex, users, readers ++ [.waiting 0 0 g]⟩ ps gs
          (some (readers.length, g)) := by
      intro qs g k1 k2
      refine ⟨h.gen, h.noReset, ?_, ?_, ?_, ?_, ?_, ?_⟩
      · intro r q t g' hx
        simp only [List.getElem?_append] at hx
        split at hx
        · have := h.only r q t g' hx
          cases this.2
        · rename_i hlt
          have hr0 : r - readers.length = 0 := by
            cases hh : r - readers.length with
            | zero => rfl
            | succ n => rw [hh] at hx; simp at hx
          rw [hr0] at hx
          simp at hx
          obtain ⟨rfl, rfl, rfl⟩ := hx
          exact ⟨rfl, by congr 2; omega⟩
      · intro r g' hx
        simp only [Option.some.injEq, Prod.mk.injEq] at hx
        obtain ⟨rfl, rfl⟩ := hx
        exact ⟨0, by simp⟩
      · intro r q g' hx
        simp only [List.getElem?_append] at hx
        split at hx
        · exact h.noOrphan _ _ _ hx
        · have := List.mem_of_getElem? hx
          simp at this
      · intro r hx
        simp only [List.getElem?_append] at hx
        split at hx
        · exact h.noFailed _ hx
        · have := List.mem_of_getElem? hx
          simp at this
      · show gs ++ g.toList ++ (qs 0).items = ps
        rw [List.append_assoc, k1]; exact hall
      · show (qs 0).unfinished = (g.toList ++ (qs 0).items).length
        rw [k1, k2]; exact hun
    simp only [puts, List.append_nil, gots, step, List.filterMap_nil, next]
    split
    · rename_i hq
      exact ⟨_, key qs0 none (by simp) rfl⟩
    · rename_i v rest hq
      refine ⟨_, key _ (some v) ?_ ?_⟩
      · simp [setQueue, hq]
      · simp [setQueue]
  | take r =>
    simp only [puts, List.append_nil, gots, step, List.filterMap_nil, take]
    split
    · rename_i q t hx
      obtain ⟨rfl, rfl⟩ := h.only r q t none hx
      have hall := h.all
      have hun := h.unfinished
      simp only [Option.bind_some, Option.toList_none, List.append_nil, List.nil_append] at hall hun
      split
      · exact ⟨_, h⟩
      · rename_i v rest hq
        refine ⟨_, follows_reader h t _ ps gs (some v) ?_ ?_⟩
        · rw [hq] at hall
          simpa [setQueue] using hall
        · rw [hq] at hun
          simpa [setQueue, Nat.add_comm] using hun
    · rename_i q hx
      exact absurd hx (h.noOrphan _ _ _)
    · exact ⟨_, h⟩
  | wake r =>
    obtain ⟨stopped, gen, fired, qs0, mutex, users, readers⟩ := s
    obtain rfl : gen = 0 := h.gen
    simp only [puts, List.append_nil, step, wake]
    split
    · rename_i q t got hx
      obtain ⟨rfl, rfl⟩ := h.only r q t got hx
      have hall := h.all
      have hun := h.unfinished
      cases got with
      | some v =>
        simp only [Option.bind_some, Option.toList_some, List.singleton_append, List.length_cons] at hall hun
        simp only
        rw [if_neg (by omega)]
        refine ⟨_, follows_done h (.returned v) _ _ (by simp) (by simp) (by simp) ?_ ?_⟩
        · simpa [setQueue, gots] using hall
        · simp only [setQueue, if_true]; omega
      | none =>
        simp only [Option.bind_some, Option.toList_none, List.append_nil, List.nil_append] at hall hun
        simp only
        split
        · split
          · refine ⟨_, follows_done h .ended qs0 _ (by simp) (by simp) (by simp) ?_ hun⟩
            simpa [gots] using hall
          · refine ⟨_, follows_reader h _ qs0 _ _ none ?_ ?_⟩
            · simpa [gots] using hall
            · simpa using hun
        · exact ⟨_, by simpa [gots] using h⟩
    · exact ⟨_, by simpa [gots] using h⟩
  | cancelReader r => exact ho.1.elim
  | stop =>
    refine ⟨cur, ?_⟩
    simp only [puts, gots, step, List.append_nil, List.filterMap_nil]
    exact follows_users h rfl rfl rfl h.noReset

private theorem gots_append (a b : List (Log V)) : Spec.gots (a ++ b) = Spec.gots a ++ Spec.gots b := by
  simp [gots]

private theorem follows_exec (es : List (Ev V)) : ∀ {s : State V} {ps gs : List V} {cur : Option (Nat × Option V)},
    Follows s ps gs cur → Ev.reset ∉ es → OneReader s es →
    ∃ cur', Follows (exec s es) (ps ++ puts s es) (gs ++ Spec.gots (logOf s es)) cur' := by
  induction es with
  | nil => intro s ps gs cur h _ _; exact ⟨cur, by simpa [exec, puts, logOf, gots] using h⟩
  | cons e es ih =>
    intro s ps gs cur h hr ho
    simp only [List.mem_cons, not_or] at hr
    obtain ⟨cur1, h1⟩ := follows_step h e (fun x => hr.1 x.symm) ⟨ho.1, trivial⟩
    obtain ⟨cur2, h2⟩ := ih h1 hr.2 ho.2
    refine ⟨cur2, ?_⟩
    have e1 : puts s (e :: es) = puts s [e] ++ puts (step s e).1 es := by
      simp only [puts, List.append_nil]
    rw [e1, logOf, gots_append, ← List.append_assoc, ← List.append_assoc]
    exact h2

/-- **C78.** A single reader receives the events in the order in which they were put, also if `action`s are
cancelled; what was put and not received is in the queue, or in the hands of the call that waits; and no call
fails. -/
theorem C78_order (es : List (Ev V)) (hr : Ev.reset ∉ es) (ho : OneReader (init : State V) es) :
    (∃ held : Option V,
      Spec.gots (logOf (init : State V) es) ++ held.toList ++
        ((exec (init : State V) es).queues (exec (init : State V) es).gen).items = puts (init : State V) es ∧
      ∀ v, held = some v → ∃ r q t : Nat, (exec (init : State V) es).readers[r]? = some (.waiting q t (some v))) ∧
    ∀ r : Nat, (exec (init : State V) es).readers[r]? ≠ some .failed := by
  obtain ⟨cur, h⟩ := follows_exec es (s := (init : State V)) (ps := []) (gs := []) (cur := none)
    ⟨rfl, by simp [init], by simp [init], by simp, by simp [init], by simp [init], rfl, rfl⟩ hr ho
  refine ⟨⟨cur.bind Prod.snd, ?_, ?_⟩, h.noFailed⟩
  · have := h.all
    rw [h.gen]
    simpa using this
  · intro v hv
    cases cur with
    | none => cases hv
    | some x =>
      obtain ⟨r, g⟩ := x
      simp only [Option.bind_some] at hv
      subst hv
      obtain ⟨t, ht⟩ := h.is r (some v) rfl
      exact ⟨r, 0, t, ht⟩

-- an `action` is cancelled, the next one puts its event, both are received
private def cancelled : List (Ev Nat) :=
  [.send 5, .send 6, .acquire 0, .cancelUser 0, .acquire 1, .next, .wake 0, .next, .wake 1, .joined 1]

example : puts init cancelled = [5, 6] ∧ Spec.gots (logOf init cancelled) = [5, 6] := by decide
example : OneReader init cancelled := by
  simp [OneReader, cancelled, init, step, acquire, cancelUser, next, wake, joined, setQueue]
  intro r q t g h
  rcases r with _ | r <;> simp at h
example : ((exec init (cancelled.take 4)).users[1]?.map fun | .sending v => v | _ => 0) = some 6 := by decide

/-- Two events, a reader that waits and one that comes late, `stop`, `reset` and another event. -/
private def run : List (Ev Nat) :=
  [.send 5, .send 6, .reset, .next, .acquire 0, .take 0, .wake 0, .joined 0, .acquire 1, .next, .wake 1, .joined 1,
   .next, .stop, .wake 2, .acquire 2, .send 7, .acquire 3, .next, .wake 3]

-- the hypotheses of the theorems are met, and all that can be seen is seen
example : NoCancel run ∧ calls run = [some 5, some 6, none, some 7] ∧
    logOf init run = [.got 5, .sent 0, .got 6, .sent 1, .ended, .resetDone, .got 7] ∧
    Log.sent 3 ∉ logOf init run := by
  refine ⟨?_, rfl, by decide +kernel, by decide +kernel⟩
  intro e he
  simp only [run, List.mem_cons, List.not_mem_nil, or_false] at he
  constructor <;> (intro i hi; subst hi; simp at he)

example : Stopped (init : State Nat) (run.take 14) false = true ∧
    (exec (init : State Nat) (run.take 14)).readers[2]? = some (.waiting 0 0 none) ∧
    Log.ended ∈ (step (exec (init : State Nat) (run.take 14)) (.wake 2)).2 :=
  ⟨rfl, rfl, by decide +kernel⟩

-- the refutations speak of sequences in which much happens
example : ∀ e ∈ ([.stop, .take 0, .wake 0, .reset, .acquire 2, .joined 0, .joined 1] : List (Ev Nat)),
    (∀ i, e ≠ .cancelUser i) ∧ e ≠ .next := by simp

end Aiok8s.FakeWatcher
