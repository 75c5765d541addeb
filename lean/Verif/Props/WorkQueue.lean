import Verif.Proof.WorkQueue
/-!
# Properties C01-C05: the work queue (`aiok8s/workqueue/queue.py`)

`trace init ops` is the history of a new queue on which the calls `ops` were made, in that
order, each with its result; `exec init ops` is the state afterwards.
-/
namespace Aiok8s.WorkQueue
variable {α : Type} [DecidableEq α]

/-- **C01.** Between two deliveries of the same item there is a successful `done` of it. -/
theorem C01_no_concurrent_processing (ops : List (Op α)) (x : α)
    (a b c : List (Op α × Out α))
    (h : trace init ops = a ++ (Op.get, Out.item x) :: b ++ (Op.get, Out.item x) :: c) :
    (Op.done x, Out.ok) ∈ b := by
  apply Classical.byContradiction
  intro hn
  rw [List.append_assoc] at h
  obtain ⟨as, r, rfl, -, h⟩ := trace_split h
  obtain ⟨r, rfl, ho, h⟩ := trace_cons_inv h
  obtain ⟨bs, r, rfl, hb, h⟩ := trace_split h
  obtain ⟨cs, rfl, ho', -⟩ := trace_cons_inv h
  have hinv : Inv (exec (init : State α) as) := inv_exec inv_init as
  have h1 : x ∈ (step (exec (init : State α) as) .get).1.processing := (get_item ho).2.1
  have h2 := processing_stays h1 (os := bs) (by rw [hb]; exact hn)
  exact (inv_exec (inv_step hinv .get) bs).q_proc x (get_item ho').1 h2

/-- non-vacuity: a history with two deliveries of one item -/
example : trace (init : State Nat) [.add 1, .get, .add 1, .done 1, .get]
    = [(.add 1, .ok)] ++ (.get, .item 1) :: [(.add 1, .ok), (.done 1, .ok)]
      ++ (.get, .item 1) :: [] := by decide

/-- **C02.** After an `add` of `x` on a queue not shut down, and whatever happens next, `x` has
been delivered since, or is waiting, or is in progress and goes (back) to the waiting line the
moment it is `done`. -/
theorem C02_accepted_add_not_lost (before after : List (Op α)) (x : α)
    (hopen : Op.shutDown ∉ before) :
    (Op.get, Out.item x) ∈ trace (exec init (before ++ [.add x])) after ∨
    x ∈ (exec init (before ++ .add x :: after)).queue ∨
    (x ∈ (exec init (before ++ .add x :: after)).processing ∧
     x ∈ (done (exec init (before ++ .add x :: after)) x).1.queue) := by
  have e : before ++ Op.add x :: after = (before ++ [.add x]) ++ after := by simp
  rw [e, exec_append init (before ++ [Op.add x]) after]
  have hdirty : x ∈ (exec init (before ++ [.add x])).dirty := by
    rw [exec_append]
    have hs := shuttingDown_only (s := (init : State α)) rfl hopen
    simp only [exec, step, add, hs]
    grind [PySet.mem_add]
  have hinv : Inv (exec (init : State α) (before ++ [.add x])) := inv_exec inv_init _
  by_cases hd : (Op.get, Out.item x) ∈ trace (exec init (before ++ [.add x])) after
  · exact Or.inl hd
  · right
    have h1 := dirty_stays hdirty hd
    rcases (inv_exec hinv after).dirty_cov x h1 with h2 | h2
    · exact Or.inl h2
    · right
      refine ⟨h2, ?_⟩
      simp [done, h2, h1]

example : (Op.shutDown : Op Nat) ∉ [.add 3, .get] := by decide

/-- **C02.** An item waiting behind `pre` is delivered within the next `pre.length + 1` calls
of `get`, whatever other calls are made in between. -/
theorem C02_waiting_item_is_served (ops more : List (Op α)) (x : α) (pre post : List α)
    (hq : (exec init ops).queue = pre ++ x :: post) (hg : pre.length < gets more) :
    (Op.get, Out.item x) ∈ trace (exec init ops) more :=
  delivered_by hq hg

example : (exec (init : State Nat) [.add 1, .add 2]).queue = [1] ++ 2 :: [] ∧
    [1].length < gets [Op.get, .add 7, .done 1, .get] := by decide

/-- **C03.** Between two deliveries of `x` there is an `add` of `x` made while the queue was
not shut down. -/
theorem C03_delivery_needs_new_add (ops : List (Op α)) (x : α)
    (a b c : List (Op α × Out α))
    (h : trace init ops = a ++ (Op.get, Out.item x) :: b ++ (Op.get, Out.item x) :: c) :
    ∃ b1 b2, b = b1 ++ (Op.add x, Out.ok) :: b2 ∧ Op.shutDown ∉ (a ++ b1).map Prod.fst := by
  rw [List.append_assoc] at h
  obtain ⟨as, r, rfl, ha, h⟩ := trace_split h
  obtain ⟨r, rfl, ho, h⟩ := trace_cons_inv h
  obtain ⟨bs, r, rfl, hb, h⟩ := trace_split h
  obtain ⟨cs, rfl, ho', -⟩ := trace_cons_inv h
  have map_fst : ∀ (s : State α) (os : List (Op α)), (trace s os).map Prod.fst = os := by
    intro s os
    induction os generalizing s with
    | nil => rfl
    | cons o os ih => simp [trace, ih]
  have hinv : Inv (exec (init : State α) as) := inv_exec inv_init as
  have h1 : x ∉ (step (exec (init : State α) as) .get).1.dirty := (get_item ho).2.2 hinv
  apply Classical.byContradiction
  intro hn
  have hnd : x ∉ (exec (step (exec (init : State α) as) .get).1 bs).dirty := by
    apply not_dirty_stays h1
    by_cases hsd : Op.shutDown ∈ as
    · left
      obtain ⟨u, v, rfl⟩ := List.append_of_mem hsd
      have : exec (init : State α) (u ++ Op.shutDown :: v) =
          exec (shutDown (exec init u)) v := by rw [exec_append]; rfl
      have h2 := shuttingDown_stays (s := shutDown (exec (init : State α) u)) rfl v
      rw [← this] at h2
      exact shuttingDown_stays h2 [.get]
    · right
      intro us vs huv
      apply Classical.byContradiction
      intro hus
      apply hn
      refine ⟨trace (step (exec (init : State α) as) .get).1 us,
        trace (step (exec (step (exec (init : State α) as) .get).1 us) (.add x)).1 vs, ?_, ?_⟩
      · rw [← hb, huv, trace_append]; rfl
      · simp only [List.map_append, map_fst, ← ha, List.mem_append, not_or]
        exact ⟨hsd, hus⟩
  exact hnd ((inv_exec (inv_step hinv .get) bs).q_dirty x (get_item ho').1)

/-- **C03.** However often an item was added, `len` counts it once: the waiting items are
pairwise different and `len` is their number. -/
theorem C03_len_counts_distinct (ops : List (Op α)) :
    (exec (init : State α) ops).queue.Nodup ∧
    len (exec (init : State α) ops) = (exec (init : State α) ops).queue.length :=
  ⟨(inv_exec inv_init ops).nodup, rfl⟩

/-- **C04.** Every history of the queue is a history of the reference. -/
theorem C04_refines_reference (ops : List (Op α)) :
    trace (init : State α) ops = Ref.empty.trace ops :=
  sim_trace sim_init ops

/-- **C05.** After `shut_down`, `add` calls make no difference to anything. -/
theorem C05_add_ignored_after_shutdown (before after : List (Op α)) :
    (trace (exec init (before ++ [.shutDown])) after).filter (fun p => notAdd p.1)
      = trace (exec init (before ++ [.shutDown])) (after.filter notAdd) ∧
    exec (exec init (before ++ [.shutDown])) after
      = exec (exec init (before ++ [.shutDown])) (after.filter notAdd) := by
  have hs : (exec (init : State α) (before ++ [.shutDown])).shuttingDown = true := by
    rw [exec_append]; rfl
  revert hs
  generalize exec (init : State α) (before ++ [.shutDown]) = s
  intro hs
  induction after generalizing s with
  | nil => exact ⟨rfl, rfl⟩
  | cons o os ih =>
    have hs' := shuttingDown_stays hs [o]
    simp only [exec] at hs'
    have ih := ih _ hs'
    cases o with
    | add x =>
      have : (step s (.add x)).1 = s := by simp [step, add, hs]
      rw [this] at ih
      have hn : notAdd (Op.add x) = false := rfl
      simp only [trace, exec, this, List.filter_cons, hn]
      simpa using ih
    | _ => simpa [trace, exec, List.filter_cons, notAdd] using ih

/-- **C05.** After `shut_down` no `get` ever blocks. -/
theorem C05_get_never_blocks_after_shutdown (before after : List (Op α)) (o : Op α) :
    (o, Out.blocked) ∉ trace (exec init (before ++ [.shutDown])) after := by
  have hs : (exec (init : State α) (before ++ [.shutDown])).shuttingDown = true := by
    rw [exec_append]; rfl
  revert hs
  generalize exec (init : State α) (before ++ [.shutDown]) = s
  intro hs
  induction after generalizing s with
  | nil => simp [trace]
  | cons o' os ih =>
    have hs' := shuttingDown_stays hs [o']
    simp only [exec] at hs'
    simp only [trace, List.mem_cons, not_or]
    refine ⟨?_, ih _ hs'⟩
    cases o' <;> simp only [step, get, done] <;> grind

/-- **C05.** After `shut_down`, repeated `get` returns the waiting items in order and then
`(None, True)` for ever. -/
theorem C05_drain_then_quit (before : List (Op α)) (m : Nat) :
    trace (exec init (before ++ [.shutDown]))
      (List.replicate ((exec (init : State α) (before ++ [.shutDown])).queue.length + m) .get)
    = (exec (init : State α) (before ++ [.shutDown])).queue.map (fun x => (Op.get, Out.item x))
      ++ List.replicate m (Op.get, Out.quit) := by
  have hs : (exec (init : State α) (before ++ [.shutDown])).shuttingDown = true := by
    rw [exec_append]; rfl
  revert hs
  generalize exec (init : State α) (before ++ [.shutDown]) = s
  intro hs
  obtain ⟨d, p, q, sd⟩ := s
  simp only at hs
  subst hs
  induction q generalizing d p with
  | nil =>
    induction m with
    | zero => rfl
    | succ m ih =>
      simp only [List.length_nil, Nat.zero_add, List.map_nil, List.nil_append] at ih ⊢
      rw [List.replicate_succ, List.replicate_succ]
      simp only [trace, step, get, if_true]
      rw [ih]
  | cons x q ih =>
    have : (x :: q).length + m = (q.length + m) + 1 := by simp; omega
    rw [this, List.replicate_succ]
    simp only [trace, step, get, List.map_cons, List.cons_append]
    rw [ih]

/-- **C05.** After `shut_down` each item is delivered at most once more. -/
theorem C05_at_most_once_after_shutdown (before after : List (Op α)) (x : α) :
    (trace (exec init (before ++ [.shutDown])) after).count (Op.get, Out.item x) ≤ 1 := by
  apply Classical.byContradiction
  intro hn
  have two : ∀ (l : List (Op α × Out α)) (p : Op α × Out α), 1 < l.count p →
      ∃ a b c, l = a ++ p :: b ++ p :: c := by
    intro l p hl
    have h1 : p ∈ l := List.count_pos_iff.1 (by omega)
    obtain ⟨a, r, rfl, ha⟩ := List.eq_append_cons_of_mem h1
    rw [List.count_append, List.count_cons_self, List.count_eq_zero.2 ha] at hl
    have h2 : p ∈ r := List.count_pos_iff.1 (by omega)
    obtain ⟨b, c, rfl, -⟩ := List.eq_append_cons_of_mem h2
    exact ⟨a, b, c, by simp⟩
  obtain ⟨a, b, c, h⟩ := two _ (Op.get, Out.item x) (Nat.lt_of_not_le hn)
  have hfull : trace (init : State α) ((before ++ [.shutDown]) ++ after) =
      (trace init (before ++ [.shutDown]) ++ a) ++ (Op.get, Out.item x) :: b
        ++ (Op.get, Out.item x) :: c := by
    rw [trace_append, h]; simp
  obtain ⟨b1, b2, -, hsd⟩ := C03_delivery_needs_new_add _ x _ b c hfull
  apply hsd
  rw [trace_append]
  simp [trace, step]

example : trace (init : State Nat) [.add 1, .get, .add 1, .shutDown, .add 2, .done 1, .get, .get]
    = [(.add 1, .ok), (.get, .item 1), (.add 1, .ok), (.shutDown, .ok), (.add 2, .ok),
       (.done 1, .ok), (.get, .item 1), (.get, .quit)] := by decide

end Aiok8s.WorkQueue
