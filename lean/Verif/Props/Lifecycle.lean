import Verif.Proof.Lifecycle
import Verif.Props.Listener
/-!
# C80, C81: the life of a shared informer
-/
namespace Aiok8s.Lifecycle
open Spec
variable {N : Type}

/-! ## C80: the end of `run` -/

/-- **C80**: `run` that was cancelled ends.  At any moment after the cancellation there is a bound on what
the tasks can go on to do by themselves, and when they can do no more, `run` has ended, every call of
`add_event_handler` has ended, no lock is held and the tasks of all listeners have ended. -/
theorem C80_ends_partial (as : List (Act N)) (s : State N) (L : List (Ev N))
    (ha : Act.cancelAgain ∉ as) (hc : Act.cancel ∈ as) (h : exec init as = some (s, L)) :
    ∃ bound, ∀ (bs : List (Act N)) (s' : State N) (es : List (Ev N)), (∀ b ∈ bs, own b = true) →
      exec s bs = some (s', es) →
      bs.length ≤ bound ∧
      ((∀ b, own b = true → step s' b = none) →
        s'.run = .ended ∧ (∀ (r : Nat) (p : Reg N), s'.regs[r]? = some p → Over p) ∧
        s'.startedBy = none ∧ s'.block = none ∧
        (s'.started = true → s'.proc = .done ∧ ∀ x ∈ s'.listeners, over x = true)) := by
  have hi := inv_exec as ha inv_init h
  refine ⟨work s, fun bs s' es hb hx => ?_⟩
  have hw := work_exec bs hi hb hx
  refine ⟨by omega, fun hq => ?_⟩
  have hi' := inv_exec bs (own_again hb) hi hx
  have hcan := cancelled_exec bs hx (.inl (cancelled_exec as h (.inr hc)))
  have hend : s'.run = .ended := by
    rcases hcan with e | e | e | e
    · exact (quiet_ended hi' hq (.inl e)).elim
    · exact (quiet_ended hi' hq (.inr (.inl e))).elim
    · exact (quiet_ended hi' hq (.inr (.inr e))).elim
    · exact e
  obtain ⟨h1, h2, h3, h4⟩ := ended_facts hi' hend
  refine ⟨hend, ?_, h1, h2, ?_⟩
  · exact quiet_regs hi' hq (no_ready hq) (by rw [h2]; simp)
  · intro hst
    rcases h4 with ⟨e, -⟩ | ⟨-, -, e⟩
    · rw [hst] at e; cases e
    · refine ⟨e, fun x hx => ?_⟩
      obtain ⟨l, hl⟩ := List.mem_iff_getElem?.1 hx
      exact hi'.fin e l x hl

/-- **C80**: when `run` has ended, nothing is left of what it started: the tasks of all listeners have
ended and both locks are free.  From then on no handler is called, whatever happens; if `run` had got
so far as to start the listeners, there are no new listeners and no new call of `add_event_handler`
succeeds. -/
theorem C80_silent_partial (as bs : List (Act N)) (s s' : State N) (L es : List (Ev N))
    (ha : Act.cancelAgain ∉ as) (h : exec init as = some (s, L)) (hr : s.run = .ended)
    (hx : exec s bs = some (s', es)) :
    s.startedBy = none ∧ s.block = none ∧
    (s.started = true → ∀ x ∈ s.listeners, over x = true) ∧
    (∀ l, calls l es = [] ∧ puts l es = []) ∧
    (s.started = true → es = [] ∧ s'.listeners.length = s.listeners.length ∧
      ∀ (r l : Nat), s.regs.length ≤ r → s'.regs[r]? ≠ some (.ended (.registered l))) := by
  have hi := inv_exec as ha inv_init h
  obtain ⟨h1, h2, h3, h4⟩ := ended_facts hi hr
  obtain ⟨k0, k1, k2, k3, k4⟩ := ended_exec bs hi hr hx
  refine ⟨h1, h2, ?_, k3, ?_⟩
  · intro hst x hx
    rcases h4 with ⟨e, -⟩ | ⟨-, -, e⟩
    · rw [hst] at e; cases e
    · obtain ⟨l, hl⟩ := List.mem_iff_getElem?.1 hx
      exact hi.fin e l x hl
  · intro hst
    obtain ⟨b1, b2, b3, b4⟩ := k4 hst
    refine ⟨b1, b2, fun r l hlt hm => ?_⟩
    have := (List.getElem?_eq_some_iff.1 (b4 r l hm)).1
    omega

/-- A handler, a notification, a cancellation in the middle of the distribution and the end. -/
example : ∃ (s : State Nat) (L : List (Ev Nat)), exec init
    [.addHandler, .regEnter 0, .start, .enter, .procStart, .deltaBlock, .distribute 7 false [7],
     .deltaPut, .lis 0 .getTask, .lis 0 .popResume, .lis 0 .putTask, .lis 0 .popResume, .lis 0 .runGet,
     .lis 0 .runResume, .cancel, .addHandler, .regEnter 1, .regBlock 1, .regPut 1, .reflectorEnds]
      = some (s, L) ∧ s.run = .leaving ∧ s.startedBy = some 1 ∧ calls 0 L = [7] ∧ told 1 L = [7] :=
  ⟨_, _, rfl, rfl, rfl, rfl, rfl⟩

/-- The same, to the end. -/
example : ∃ (s : State Nat) (L : List (Ev Nat)), exec init
    [.addHandler, .regEnter 0, .start, .enter, .procStart, .deltaBlock, .distribute 7 false [7],
     .deltaPut, .lis 0 .getTask, .lis 0 .popResume, .lis 0 .putTask, .lis 0 .popResume, .lis 0 .runGet,
     .lis 0 .runResume, .cancel, .addHandler, .regEnter 1, .regBlock 1, .regPut 1, .reflectorEnds,
     .lis 1 .getTask, .regJoin 1, .leave, .procStop, .lis 0 (.handlerEnds true), .lis 0 .joined, .lis 0 .popResume,
     .lis 0 .runResume, .lis 1 .popResume, .lis 1 .runResume, .procDone, .finish]
      = some (s, L) ∧ s.run = .ended ∧ s.started = true ∧ calls 0 L = [7] ∧ calls 1 L = [] :=
  ⟨_, _, rfl, rfl, rfl, rfl, rfl⟩

/-- **C80**, false in general: `run` that is cancelled a second time while it waits for `_started_lock`
(line 156) ends without stopping the processor, and whatever happens afterwards the processor goes on
running, with its listeners. -/
theorem C80_refuted_again (as : List (Act N)) : ∀ (bs : List (Act N)) (s : State N)
    (L : List (Ev N)), Act.cancelAgain ∉ as →
    exec init (as ++ .cancelAgain :: bs) = some (s, L) →
    s.run = .ended ∧ s.stopped = false ∧ (s.proc = .ready ∨ s.proc = .running) := by
  have key : ∀ (as bs : List (Act N)) (s s' : State N) (L : List (Ev N)), Inv s →
      Act.cancelAgain ∉ as → exec s (as ++ .cancelAgain :: bs) = some (s', L) →
      s'.run = .ended ∧ s'.stopped = false ∧ (s'.proc = .ready ∨ s'.proc = .running) := by
    intro as
    induction as with
    | nil =>
      intro bs s s' L hi _ he
      obtain ⟨s1, e, es', h1, h2, rfl⟩ := exec_cons he
      refine again_exec bs ?_ h2
      simp only [step] at h1
      split at h1
      · rename_i hr
        simp at h1; obtain ⟨rfl, -⟩ := h1
        have hpc := hi.pc
        unfold pcOK at hpc
        rw [hr] at hpc
        exact ⟨rfl, hpc.2.1, hpc.2.2.1⟩
      · cases h1
    | cons a as ih =>
      intro bs s s' L hi hn he
      obtain ⟨s1, e, es', h1, h2, rfl⟩ := exec_cons he
      exact ih bs s1 s' es' (inv_step (fun e => hn (by simp [e])) hi h1) (fun e => hn (by simp [e])) h2
  exact fun bs s L hn he => key as bs init s L inv_init hn he

/-- It happens: `add_event_handler` has the lock; and after the end of `run` the handler is called. -/
example : ∃ (s : State Nat) (L : List (Ev Nat)), exec init
    ([.addHandler, .regEnter 0, .start, .enter, .procStart, .deltaBlock, .distribute 7 false [7],
     .deltaPut, .lis 0 .getTask, .cancel, .addHandler, .regEnter 1, .regBlock 1, .reflectorEnds]
     ++ .cancelAgain :: [.regPut 1, .lis 0 .popResume, .lis 0 .putTask, .lis 0 .popResume,
       .lis 0 .runGet, .lis 0 .runResume])
      = some (s, L) ∧ s.run = .ended ∧ s.proc = .running ∧ L.drop 4 = [.put 1 7, .call 0 7] :=
  ⟨_, _, rfl, rfl, rfl, rfl⟩

/-! ## C81: what the handlers are told -/

/-- **C81**: whatever happens, cancellations included, each handler is called with what was put into its
queue, in that order, none twice and none left out before the last. -/
theorem C81_order (as : List (Act N)) (s : State N) (L : List (Ev N)) (l : Nat)
    (h : exec init as = some (s, L)) : calls l L <+: puts l L := by
  obtain ⟨ht, -⟩ := trace_exec as trace_init (by simp [syncOK, init]) h
  rw [List.nil_append] at ht
  cases hx : s.listeners[l]? with
  | none =>
    obtain ⟨h1, h2, -⟩ := ht.none l hx
    rw [h1, h2]
    exact List.prefix_refl _
  | some x =>
    obtain ⟨as', h1, h2, -⟩ := ht.some l x hx
    rw [← h2]
    exact Listener.C37_prefix as' x _ h1

/-- **C81**: what the handlers are to be told.  A listener that is made while `run` runs is to be told the
content that the indexer has at this moment, before that nothing; a notification is sent to all listeners
there are, or, if it comes from a resync, to those that the resync check selected. -/
theorem C81_content (as : List (Act N)) (s s' : State N) (L e : List (Ev N)) (a : Act N)
    (ha : Act.cancelAgain ∉ as) (h : exec init as = some (s, L)) (hs : step s a = some (s', e)) :
    (∀ l items, Ev.new l items ∈ e →
      l = s.listeners.length ∧ s'.listeners.length = l + 1 ∧
      ((s.run = .idle ∨ s.run = .entering) ∧ items = [] ∨
        (s.run = .running ∨ s.run = .closing ∨ s.run = .leaving) ∧ items = s.store ∨
        s.run = .ended ∧ s.proc = .none ∧ items = [])) ∧
    (∀ n ls, Ev.send n ls ∈ e → ∃ sync st, a = .distribute n sync st ∧ s'.store = st ∧
      ls = if sync then s.syncing else List.range s.listeners.length) := by
  have hi := inv_exec as ha inv_init h
  have hpc := hi.pc
  unfold pcOK at hpc
  have none : e = [] → _ := fun he => (show (∀ l items, Ev.new l items ∈ e →
      l = s.listeners.length ∧ s'.listeners.length = l + 1 ∧
      ((s.run = .idle ∨ s.run = .entering) ∧ items = [] ∨
        (s.run = .running ∨ s.run = .closing ∨ s.run = .leaving) ∧ items = s.store ∨
        s.run = .ended ∧ s.proc = .none ∧ items = [])) ∧
    (∀ n ls, Ev.send n ls ∈ e → ∃ sync st, a = .distribute n sync st ∧ s'.store = st ∧
      ls = if sync then s.syncing else List.range s.listeners.length) by
      rw [he]; exact ⟨nofun, nofun⟩)
  cases a with
  | regEnter r =>
    simp only [step] at hs
    split at hs
    · split at hs
      · simp at hs; exact none hs.2
      · rename_i hst
        split at hs
        · simp at hs; exact none hs.2
        · rename_i hstd
          simp at hs; obtain ⟨rfl, rfl⟩ := hs
          refine ⟨?_, by simp⟩
          intro l items hm
          simp at hm; obtain ⟨rfl, rfl⟩ := hm
          refine ⟨rfl, by simp [State.setReg, State.addListener], ?_⟩
          cases hr : s.run with
          | idle | entering => simp
          | ended =>
            rw [hr] at hpc
            rcases hpc.2 with ⟨-, -, e⟩ | ⟨e, -⟩
            · exact .inr (.inr ⟨rfl, e, rfl⟩)
            · exact absurd e hstd
          | running | closing | leaving | awaiting => rw [hr] at hpc; exact absurd hpc.1 hstd
    · cases hs
  | regBlock r =>
    simp only [step] at hs
    split at hs
    · rename_i hreg _
      simp only [Option.some.injEq, Prod.mk.injEq] at hs
      obtain ⟨rfl, rfl⟩ := hs
      refine ⟨?_, by simp⟩
      intro l items hm
      simp at hm; obtain ⟨rfl, rfl⟩ := hm
      refine ⟨rfl, by rw [regNext_listeners]; simp [State.addListener], ?_⟩
      obtain ⟨e1, e2⟩ := holder_early hi hreg rfl
      rw [e1, e2] at hpc
      cases hr : s.run <;> rw [hr] at hpc <;> simp at hpc ⊢
    · cases hs
  | distribute n sy st =>
    simp only [step] at hs
    split at hs
    · simp only [Option.some.injEq, Prod.mk.injEq] at hs
      obtain ⟨rfl, rfl⟩ := hs
      refine ⟨by simp, ?_⟩
      intro n' ls hm
      simp only [List.mem_singleton, Ev.send.injEq] at hm
      obtain ⟨rfl, rfl⟩ := hm
      refine ⟨sy, st, rfl, ?_, rfl⟩
      cases hls : (if sy then s.syncing else List.range s.listeners.length) <;> rfl
    · cases hs
  | lis l a =>
    simp only [step] at hs
    repeat' split at hs
    all_goals first
      | (cases hs; done)
      | (rename_i c _ ; simp only [Option.some.injEq, Prod.mk.injEq] at hs; obtain ⟨-, rfl⟩ := hs; constructor <;> simp)
  | regPut r =>
    simp only [step] at hs
    repeat' split at hs
    all_goals first
      | (cases hs; done)
      | (simp only [Option.some.injEq, Prod.mk.injEq] at hs; obtain ⟨-, rfl⟩ := hs; constructor <;> simp)
  | deltaPut =>
    simp only [step] at hs
    repeat' split at hs
    all_goals first
      | (cases hs; done)
      | (simp only [Option.some.injEq, Prod.mk.injEq] at hs; obtain ⟨-, rfl⟩ := hs; constructor <;> simp)
  | _ =>
    refine none ?_
    simp only [step] at hs
    repeat' split at hs
    all_goals first
      | (cases hs; done)
      | (simp only [Option.some.injEq, Prod.mk.injEq] at hs; exact hs.2.symm)

/-- **C81**: as long as nothing is cancelled, each handler is called with what it is to be told: first the
content of the indexer at the moment of its registration, then every notification sent to it, in order,
without gap. -/
theorem C81_told (as : List (Act N)) (s : State N) (L : List (Ev N)) (l : Nat)
    (ha : Act.cancelAgain ∉ as) (hc : noCancel as)
    (h : exec init as = some (s, L)) : calls l L <+: told l L := by
  have ht : Told s L := by
    have := told_exec as inv_init trace_init (fun l => rfl) ha hc h
    simpa using this
  have h1 := C81_order as s L l h
  have h2 : puts l L <+: told l L := ⟨_, ht l⟩
  exact h1.trans h2

/-- **C81**: nothing gets stuck.  As long as nothing is cancelled there is a bound on what the tasks can
go on to do by themselves, and when they can do no more, every call of `add_event_handler` has returned
with a listener, `handle_deltas` has returned, and, if `run` runs, each handler has been called with all
it is to be told. -/
theorem C81_delivered_partial (as : List (Act N)) (s : State N) (L : List (Ev N))
    (ha : Act.cancelAgain ∉ as) (hc : noCancel as) (h : exec init as = some (s, L)) :
    ∃ bound, ∀ (bs : List (Act N)) (s' : State N) (es : List (Ev N)), (∀ b ∈ bs, own b = true) →
      exec s bs = some (s', es) →
      bs.length ≤ bound ∧
      ((∀ b, own b = true → step s' b = none) →
        (∀ (r : Nat), r < s'.regs.length →
          ∃ l, s'.regs[r]? = some (.ended (.registered l)) ∧ l < s'.listeners.length) ∧
        s'.deltas = .idle ∧
        (s'.run = .running → ∀ l, calls l (L ++ es) = told l (L ++ es))) := by
  have hi := inv_exec as ha inv_init h
  refine ⟨work s, fun bs s' es hb hx => ?_⟩
  have hw := work_exec bs hi hb hx
  refine ⟨by omega, fun hq => ?_⟩
  have hi' := inv_exec bs (own_again hb) hi hx
  have hcb : noCancel bs := by
    refine ⟨fun e => ?_, fun r e => ?_⟩
    · have := hb _ e; simp [own] at this
    · have := hb _ e; simp [own] at this
  have hg : Good s' := by
    refine good_exec bs hi ?_ (own_again hb) hcb hx
    refine good_exec as inv_init ?_ ha hc h
    exact ⟨.inl rfl, by simp [init]⟩
  have hd : s'.deltas = .idle := by
    have hpc := hi'.pc
    unfold pcOK at hpc
    rcases hg.1 with e | e | e
    · rw [e] at hpc; exact hpc.2.2.2
    · rw [e] at hpc; exact hpc.2.2.2
    · exact quiet_deltas hi' hq e
  have hover := quiet_regs hi' hq (no_ready hq) fun e => hi'.blkd.1 e hd
  refine ⟨?_, hd, ?_⟩
  · intro r hr
    obtain ⟨p, hp⟩ : ∃ p, s'.regs[r]? = some p := ⟨_, List.getElem?_eq_getElem hr⟩
    have := hover r p hp
    cases p <;> simp [Over] at this
    obtain ⟨l, rfl, hl⟩ := hg.2 r _ hp
    exact ⟨l, hp, hl⟩
  · intro hrun l
    have ht0 := trace_exec as trace_init (by simp [syncOK, init]) h
    have hL := trace_exec bs ht0.1 ht0.2 hx
    simp only [List.nil_append] at hL ht0
    have htold : Told s' (L ++ es) := by
      refine told_exec bs hi ht0.1 ?_ (own_again hb) hcb hx
      have := told_exec as inv_init trace_init (fun l => rfl) ha hc h
      simpa using this
    have hblk : s'.block = none := by
      cases hbk : s'.block with
      | none => rfl
      | some b =>
        cases b with
        | deltas => exact absurd hd (hi'.blkd.1 hbk)
        | reg r =>
          obtain ⟨p, h1, h2⟩ := (hi'.blk r).1 hbk
          have := hover r p h1
          cases p <;> simp [Over] at this
          simp [hasBlock] at h2
    have hpend : pending l s' = [] := by simp [pending, hblk]
    have hput := htold l
    rw [hpend, List.append_nil] at hput
    rw [← hput]
    cases hxl : s'.listeners[l]? with
    | none =>
      obtain ⟨h1, h2, -⟩ := hL.1.none l hxl
      rw [h1, h2]
    | some x =>
      obtain ⟨as', h1, h2, h3⟩ := hL.1.some l x hxl
      have hpc := hi'.pc
      unfold pcOK at hpc
      rw [hrun] at hpc
      have hp : s'.proc = .running := by
        rcases hpc.2.2 with e | e
        · exact absurd e (no_ready hq)
        · exact e
      have hsa : x.stopAdd = false := by
        cases hsa : x.stopAdd with
        | false => rfl
        | true => rcases (hi'.stop l x hxl).1 hsa with e | e <;> rw [hp] at e <;> cases e
      have hfl := (quiet_empty (hi'.lis l x hxl)
        (quiet_lis hq (by rw [hp]; exact ⟨nofun, nofun⟩) hxl) hsa).1
      have := Listener.C37_order as' x _ (h3 hsa) h1
      rw [hfl, List.append_nil, h2] at this
      exact this

/-- Two handlers, the second added while the informer runs, and two notifications, one of them only for
the listeners that resync. -/
private def demo : List (Act Nat) :=
  [.addHandler, .start, .regEnter 0, .enter, .procStart, .deltaBlock, .distribute 7 false [7, 8],
   .deltaPut, .addHandler, .regEnter 1, .lis 0 .getTask, .deltaJoin, .deltaEnd, .regBlock 1, .regPut 1,
   .lis 1 .getTask, .regJoin 1, .lis 0 .popResume, .lis 0 .putTask, .lis 0 .popResume, .lis 0 .runGet,
   .lis 0 .runResume, .lis 1 .popResume, .regPut 1, .lis 1 .getTask, .regJoin 1, .check [1], .deltaBlock,
   .distribute 9 true [9]]

example : Act.cancelAgain ∉ demo ∧ noCancel demo ∧ ∃ (s : State Nat) (L : List (Ev Nat)),
    exec init demo = some (s, L) ∧ s.run = .running ∧ told 0 L = [7] ∧ calls 0 L = [7] ∧
      told 1 L = [7, 8, 9] ∧ puts 1 L = [7, 8] ∧ s.deltas = .putting 9 1 [] :=
  ⟨by simp [demo], ⟨by simp [demo], by simp [demo]⟩, _, _, rfl, rfl, rfl, rfl, rfl, rfl, rfl⟩

/-- **C81**, false of a handler that registers another one: there is a history after which a handler that
waits for its own call of `add_event_handler` waits forever.  The handler of listener 0 is being called,
call 1 waits for `_block_deltas`, `handle_deltas` has it and waits for listener 0 to take a notification;
and nothing can happen by itself but the end of the handler. -/
theorem C81_refuted_handler : ∃ (as : List (Act Nat)) (s : State Nat) (L : List (Ev Nat)),
    exec init as = some (s, L) ∧ s.run = .running ∧ s.regs[1]? = some .atBlock ∧
    s.deltas = .joining 3 0 [] ∧ (∃ x, s.listeners[0]? = some x ∧ x.run = .handling 1) ∧
    ∀ b, own b = true → (∀ ok, b ≠ .lis 0 (.handlerEnds ok)) → step s b = none := by
  refine ⟨[.addHandler, .regEnter 0, .start, .enter, .procStart, .deltaBlock,
     .distribute 1 false [1], .deltaPut, .lis 0 .getTask, .deltaJoin, .lis 0 .popResume, .lis 0 .putTask,
     .lis 0 .popResume, .lis 0 .runGet, .lis 0 .joined, .lis 0 .runResume,
     .addHandler, .regEnter 1,
     .distribute 2 false [1, 2], .deltaPut, .lis 0 .getTask, .deltaJoin, .lis 0 .popResume, .lis 0 .putTask,
     .lis 0 .popResume, .distribute 3 false [1, 2, 3], .deltaPut], _, _, rfl, rfl, rfl, rfl,
    ⟨_, rfl, rfl⟩, ?_⟩
  intro b hb hne
  cases b with
  | regEnter r | regBlock r | regPut r | regJoin r =>
    rcases r with _ | _ | r <;> rfl
  | lis l a =>
    rcases l with _ | l
    · cases a with
      | handlerEnds ok => exact absurd rfl (hne ok)
      | _ => rfl
    · cases a <;> rfl
  | addHandler | regCancel | start | deltaBlock | distribute | check | cancel | cancelAgain =>
    simp [own] at hb
  | enter | procStart | deltaPut | deltaJoin | deltaEnd | reflectorEnds | leave | procStop | procDone
  | finish => rfl

end Aiok8s.Lifecycle
