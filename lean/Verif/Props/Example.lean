import Verif.Spec.Example
import Verif.Props.System
import Verif.Props.Meta
/-!
# C94: the example program tells what is in the cluster
-/
namespace Aiok8s.Example
open Aiok8s Aiok8s.System Aiok8s.System.Spec Aiok8s.Source.Spec Aiok8s.RateLimiters
open Aiok8s.Meta (Val Str NamespacedName str)
open Aiok8s.Informer (Note)
open Aiok8s.SharedInformer.Spec
variable {σ ε : Type}

/-- What is read under a key has this key. -/
private theorem own_log (I : Iface σ NamespacedName ε) (py38 : Bool) (ps : List Source.Pred) (i : Nat)
    (es : List (Ev ε)) : ∀ s : State σ, SharedInformer.Good Meta.keyFunc s.inf →
    ∀ l ∈ logOf I py38 ps i s es, ∀ x, l.cached = some x →
      DeltaFifo.keyOf Meta.keyFunc x = some (Meta.objectKeyToStoreKey l.request) := by
  induction es with
  | nil => intro s _ l hl; simp [logOf] at hl
  | cons e es ih =>
    intro s hg l hl x hx
    simp only [logOf, List.mem_append] at hl
    rcases hl with hl | hl
    · cases e with
      | inf e => simp [System.step] at hl
      | deliver => simp only [System.step] at hl; split at hl <;> simp at hl
      | add => simp only [System.step] at hl; split at hl <;> simp at hl
      | ctl e =>
        simp only [System.step, calls, List.mem_filterMap] at hl
        obtain ⟨c, -, hc⟩ := hl
        cases c with
        | reconcile w nn =>
          simp only [Option.some.injEq] at hc
          subst hc
          obtain ⟨log, hi, -⟩ := hg
          exact hi.own _ x hx
        | _ => simp at hc
    · refine ih _ ?_ l hl x hx
      cases e with
      | inf e => exact SharedInformer.good_step hg e
      | deliver => simp only [System.step]; split <;> exact hg
      | add => simp only [System.step]; split <;> exact hg
      | ctl e => exact hg

private theorem pod_key {x : Source.Obj} {ns name : Str} (h : Pod x ns name) :
    DeltaFifo.keyOf Meta.keyFunc x = some (some (label ns name)) := by
  obtain ⟨⟨rest, rfl⟩, ⟨h1, -⟩, -⟩ := h
  cases ns with
  | nil => simp at h1
  | cons c cs => simp [DeltaFifo.keyOf, Meta.keyFunc, Meta.accessor, Meta.Accessor.ns, Meta.Accessor.name,
      Meta.truthy, Meta.str, label]

private theorem key_pod {ns name : Str} (h : ns ≠ []) :
    Meta.objectKeyToStoreKey ⟨some ns, some name⟩ = some (label ns name) := by
  cases ns with
  | nil => simp at h
  | cons c cs => simp [Meta.objectKeyToStoreKey, Meta.truthy, Meta.str, label]

/-- Two pods with the same key are the same. -/
private theorem label_inj {a b n m : Str} (ha : '/' ∉ a) (hb : '/' ∉ b) (h : label a n = label b m) :
    a = b ∧ n = m := by
  unfold label at h
  induction a generalizing b with
  | nil =>
    cases b with
    | nil => simpa using h
    | cons c cs => simp at h; exact absurd (by simp [← h.1]) hb
  | cons c cs ih =>
    cases b with
    | nil => simp at h; exact absurd (by simp [h.1]) ha
    | cons d ds =>
      simp only [List.cons_append, List.cons.injEq] at h
      obtain ⟨rfl, h⟩ := h
      obtain ⟨rfl, rfl⟩ := ih (fun hm => ha (List.mem_cons_of_mem _ hm)) (fun hm => hb (List.mem_cons_of_mem _ hm)) h
      exact ⟨rfl, rfl⟩

/-- **C94 is false**: the line about a deleted pod gives its name twice, not its namespace; for every pod
whose namespace is not called like the pod. -/
theorem C94_refuted_name (ip : Source.Obj → Option Val) (ns name : Str) (hs : '/' ∉ ns) (hn : '/' ∉ name)
    (h : ns ≠ name) : ∃ t, line ip ⟨some ns, some name⟩ none = some t ∧ ¬ label ns name <+: t := by
  refine ⟨_, rfl, ?_⟩
  rintro ⟨rest, hr⟩
  simp only [Meta.str] at hr
  have : label ns (name ++ rest) = label name (name ++ " deleted".toList) := by
    simpa [label] using hr
  exact h (label_inj hs hn this).1

/-- **C94 is false**: of two pods of the same name in different namespaces the line does not tell which one
is deleted. -/
theorem C94_refuted_ambiguous (ip : Source.Obj → Option Val) (a b : Val) (name : Val) :
    line ip ⟨a, name⟩ none = line ip ⟨b, name⟩ none := rfl

/-- **C94 is false**: a pod that is found missing by a relist is gone from the cache, nothing is left to do,
and the last line about it is the one with its address. -/
theorem C94_refuted_relist (ip : Source.Obj → Option Val) (hip : ∀ x, ip x = some (some "10.0.0.1".toList)) :
    ∃ (σ : Type) (I : Iface σ NamespacedName Unit) (l : σ) (es : List (Ev Unit)),
      let s := exec I true [] 0 (init l 0 1) es
      Quiet s 0 ∧ s.inf.inf.items.get? (some "ns/a".toList) = none ∧
      lastLine "ns".toList "a".toList (output ip (logOf I true [] 0 (init l 0 1) es)) =
        some "ns/a: ip 10.0.0.1".toList := by
  obtain ⟨h1, h2, h3, -⟩ := C75_refuted
  refine ⟨_, _, _, _, h1, h2, ?_⟩
  revert h3
  generalize hlog : logOf _ true [] 0 _ _ = log
  intro _
  have hl : log = [⟨0, ⟨some "ns".toList, some "a".toList⟩,
      some (.real (.typed (some (some "ns".toList, some "a".toList)) 1))⟩] := by
    rw [← hlog]; decide +kernel
  rw [hl]
  simp [output, line, hip, lastLine, Meta.str]
  rfl

/-- **C94**, the part that holds: every line with an address is about the pod the reconciler was asked for,
and names it by namespace and name; the address is the one in the cache at the time. -/
theorem C94_line_partial (I : Iface σ NamespacedName ε) (py38 : Bool) (ps : List Source.Pred) (i : Nat)
    (l : σ) (t : ℚ) (n : Nat) (es : List (Ev ε)) (ip : Source.Obj → Option Val) (ns name : Str)
    (hs : ns ≠ [] ∧ '/' ∉ ns) (hn : '/' ∉ name) (c : Log) (hc : c ∈ logOf I py38 ps i (init l t n) es)
    (hr : c.request = ⟨some ns, some name⟩) (x : Source.Obj) (hx : c.cached = some x) (ns' name' : Str)
    (hp : Pod x ns' name') :
    ns' = ns ∧ name' = name ∧
      ∀ a, ip x = some a → line ip c.request c.cached = some (label ns name ++ ": ip ".toList ++ str a) := by
  have h1 := own_log I py38 ps i es (init l t n) (SharedInformer.good_init _) c hc x hx
  rw [pod_key hp, hr, key_pod hs.1] at h1
  obtain ⟨rfl, rfl⟩ := label_inj hp.ns.2 hs.2 (Option.some.inj (Option.some.inj h1))
  refine ⟨rfl, rfl, ?_⟩
  intro a ha
  obtain ⟨⟨rest, rfl⟩, -, -⟩ := hp
  simp [hx, line, ha, Meta.str, label]

/-- **C94**, the part that holds: when nothing is left to do, the last line about every pod in the cache
gives the address it has now.  For the handlers of C75. -/
theorem C94_current_partial (I : Iface σ NamespacedName ε) (py38 : Bool) (ps : List Source.Pred) (i : Nat)
    (l : σ) (t : ℚ) (n : Nat) (es : List (Ev ε)) (hs : ∀ e ∈ informerEvents es, Ev.selects i e)
    (hr : ∀ e ∈ informerEvents es, EvAll Proper e) (nts : List (Note Val Meta.Obj))
    (hreg : (exec I py38 ps i (init l t n) es).inf.sent[i]? = some nts) (hp : ∀ m ∈ nts, Accepted ps m)
    (hq : Quiet (exec I py38 ps i (init l t n) es) i) (ip : Source.Obj → Option Val) (ns name : Str)
    (x : Source.Obj) (hx : (exec I py38 ps i (init l t n) es).inf.inf.items.get? (some (label ns name)) = some x)
    (hpod : Pod x ns name) (a : Val) (ha : ip x = some a) :
    lastLine ns name (output ip (logOf I py38 ps i (init l t n) es)) =
      some (label ns name ++ ": ip ".toList ++ str a) := by
  have h1 := (C75_quiet_partial I py38 ps i l t n es hs hr nts hreg hp hq (some (label ns name))).1 x hx
  generalize logOf I py38 ps i (init l t n) es = log at *
  unfold lastSeen at h1
  obtain ⟨c, hc, hcx⟩ := Option.bind_eq_some_iff.1 h1
  have key : ∀ (rl : List Log),
      rl.find? (fun d => Meta.objectKeyToStoreKey d.request = some (label ns name)) = some c →
      ((output ip rl).find? fun d => Meta.objectKeyToStoreKey d.1 = some (label ns name)).map (·.2) =
        some (label ns name ++ ": ip ".toList ++ str a) := by
    intro rl
    induction rl with
    | nil => intro h; simp at h
    | cons d rl ih =>
      intro h
      by_cases hd : Meta.objectKeyToStoreKey d.request = some (label ns name)
      · rw [List.find?_cons_of_pos (by simpa using hd)] at h
        obtain rfl := Option.some.inj h
        have h3 : line ip d.request d.cached = some (label ns name ++ ": ip ".toList ++ str a) := by
          obtain ⟨⟨rest, rfl⟩, -, -⟩ := hpod
          simp [hcx, line, ha, Meta.str, label]
        simp only [output, List.filterMap_cons, h3, Option.map_some]
        rw [List.find?_cons_of_pos (by simpa using hd)]
        rfl
      · rw [List.find?_cons_of_neg (by simpa using hd)] at h
        have h2 := ih h
        simp only [output, List.filterMap_cons]
        cases hl : line ip d.request d.cached with
        | none => exact h2
        | some t =>
          simp only [Option.map_some]
          rw [List.find?_cons_of_neg (by simpa using hd)]
          exact h2
  have h4 := key log.reverse hc
  unfold lastLine
  rw [show (output ip log).reverse = output ip log.reverse by simp [output, List.filterMap_reverse]]
  exact h4

/-- **C94**: when nothing is left to do, the last line about a pod whose deletion was watched says that it
is deleted (of a pod of its name). -/
theorem C94_deleted_partial (I : Iface σ NamespacedName ε) (py38 : Bool) (ps : List Source.Pred) (i : Nat)
    (l : σ) (t : ℚ) (n : Nat) (es : List (Ev ε)) (hs : ∀ e ∈ informerEvents es, Ev.selects i e)
    (hr : ∀ e ∈ informerEvents es, EvAll Proper e) (nts : List (Note Val Meta.Obj))
    (hreg : (exec I py38 ps i (init l t n) es).inf.sent[i]? = some nts) (hp : ∀ m ∈ nts, Accepted ps m)
    (hq : Quiet (exec I py38 ps i (init l t n) es) i) (ip : Source.Obj → Option Val) (ns name : Str)
    (pre post : List (Note Val Meta.Obj)) (x : Source.Obj) (hsplit : nts = pre ++ .onDelete x :: post)
    (hpod : Pod x ns name) (hlast : ∀ m ∈ post, noteKey Meta.keyFunc m ≠ some (some (label ns name))) :
    ∃ r : NamespacedName, Meta.objectKeyToStoreKey r = some (label ns name) ∧
      lastLine ns name (output ip (logOf I py38 ps i (init l t n) es)) =
        some (str r.name ++ "/".toList ++ str r.name ++ " deleted".toList) := by
  obtain ⟨hcall, h1⟩ := (C75_quiet_partial I py38 ps i l t n es hs hr nts hreg hp hq (some (label ns name))).2 pre x post
    hsplit (by simp only [noteKey]; exact pod_key hpod) hlast (by
      obtain ⟨⟨rest, rfl⟩, -, -⟩ := hpod; exact trivial)
  generalize logOf I py38 ps i (init l t n) es = log at *
  unfold lastSeen at h1
  cases hf : log.reverse.find? (fun d => Meta.objectKeyToStoreKey d.request = some (label ns name)) with
  | none =>
    obtain ⟨c, hc, hk⟩ := hcall
    have := List.find?_eq_none.1 hf c (List.mem_reverse.2 hc)
    simp [hk] at this
  | some c =>
    rw [hf] at h1
    have hck : Meta.objectKeyToStoreKey c.request = some (label ns name) := by
      simpa using List.find?_some hf
    refine ⟨c.request, hck, ?_⟩
    have key : ∀ (rl : List Log),
        rl.find? (fun d => Meta.objectKeyToStoreKey d.request = some (label ns name)) = some c →
        ((output ip rl).find? fun d => Meta.objectKeyToStoreKey d.1 = some (label ns name)).map (·.2) =
          some (str c.request.name ++ "/".toList ++ str c.request.name ++ " deleted".toList) := by
      intro rl
      induction rl with
      | nil => intro h; simp at h
      | cons d rl ih =>
        intro h
        by_cases hd : Meta.objectKeyToStoreKey d.request = some (label ns name)
        · rw [List.find?_cons_of_pos (by simpa using hd)] at h
          obtain rfl := Option.some.inj h
          have hcn : d.cached = none := h1
          simp only [output, List.filterMap_cons, line, hcn, Option.map_some]
          rw [List.find?_cons_of_pos (by simpa using hd)]
          rfl
        · rw [List.find?_cons_of_neg (by simpa using hd)] at h
          have h2 := ih h
          simp only [output, List.filterMap_cons]
          cases hl : line ip d.request d.cached with
          | none => exact h2
          | some t =>
            simp only [Option.map_some]
            rw [List.find?_cons_of_neg (by simpa using hd)]
            exact h2
    unfold lastLine
    rw [show (output ip log).reverse = output ip log.reverse by simp [output, List.filterMap_reverse]]
    exact key log.reverse hf

/-- A pod in namespace `ns`. -/
private def pod (name : String) (v : Nat) : Source.Obj :=
  .real (.typed (some (some "ns".toList, some name.toList)) v)

private def I₀ : Iface (RateLimiters.Failures NamespacedName) NamespacedName Unit :=
  RateLimitingQueue.expIface ⟨1 / 100, 1000, true⟩

/-- Two pods, one gets another address, the other is deleted. -/
private def sample : List (Ev Unit) :=
  [.inf .register, .inf .start, .inf (.replace [pod "a" 1, pod "b" 1]), .inf .pop, .inf .pop, .deliver, .add,
    .deliver, .add, .ctl (.take 0), .ctl (.finish 0 (.result false 0) ()), .ctl (.take 0),
    .ctl (.finish 0 (.result false 0) ()), .inf (.update (pod "a" 2)), .inf (.delete (pod "b" 1)), .inf .pop,
    .inf .pop, .deliver, .add, .add, .deliver, .add, .ctl (.take 0), .ctl (.finish 0 (.result false 0) ()),
    .ctl (.take 0), .ctl (.finish 0 (.result false 0) ())]

/-- The address is the number in the object. -/
private def ipOf : Source.Obj → Option Val
  | .real (.typed _ v) => some (some ("10.0.0.".toList ++ (toString v).toList))
  | _ => none

/-- non-vacuity: the hypotheses are met, and the output -/
example : (∀ e ∈ informerEvents sample, Ev.selects 0 e) ∧ (∀ e ∈ informerEvents sample, EvAll Proper e) ∧
    (exec I₀ true [] 0 (init [] 0 1) sample).inf.sent[0]? = some [.onAdd (pod "a" 1), .onAdd (pod "b" 1),
      .onUpdate (pod "a" 1) (pod "a" 2), .onDelete (pod "b" 1)] ∧
    (exec I₀ true [] 0 (init [] 0 1) sample).delivered = 4 ∧
    (exec I₀ true [] 0 (init [] 0 1) sample).todo = [] ∧
    (exec I₀ true [] 0 (init [] 0 1) sample).ctl.rq.q.core.queue = [] ∧
    (exec I₀ true [] 0 (init [] 0 1) sample).inf.inf.items.get? (some (label "ns".toList "a".toList)) =
      some (pod "a" 2) ∧
    Pod (pod "a" 2) "ns".toList "a".toList ∧
    (output ipOf (logOf I₀ true [] 0 (init [] 0 1) sample)).map (fun l => l.2) =
      ["ns/a: ip 10.0.0.1".toList, "ns/b: ip 10.0.0.1".toList, "ns/a: ip 10.0.0.2".toList, "b/b deleted".toList] := by
  refine ⟨?_, ?_, by decide +kernel, by decide +kernel, by decide +kernel, by decide +kernel, by decide +kernel,
    ⟨⟨2, rfl⟩, by decide, by decide⟩, by decide +kernel⟩
  · simp [sample, informerEvents, SharedInformer.Spec.Ev.selects]
  · simp [sample, informerEvents, EvAll, pod, Proper]

end Aiok8s.Example
