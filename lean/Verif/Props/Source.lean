import Verif.Proof.Source
import Verif.Props.Meta
import Mathlib.Data.List.Forall2
import Verif.Props.SharedInformer
/-!
# Sources: C57
-/
namespace Aiok8s.Source
open Aiok8s.Meta (Val NamespacedName)
open Aiok8s.Informer (Note)
open Aiok8s.Source.Spec

theorem names_iff (x : Obj) (nn : NamespacedName) :
    Names x nn ↔ (accessor x).bind request = some nn := by
  constructor
  · rintro (⟨ns, name, rest⟩ | ⟨m, ns, name, rest, h1, h2⟩)
    · rfl
    · simp only [accessor, Meta.accessor, request, Meta.Accessor.ns, Meta.Accessor.name, Option.map_some,
        Option.bind_some, h1, h2]
  · intro h
    cases x with
    | gone k => cases h
    | goneWith k x => cases h
    | real o =>
      cases o with
      | explicitKey s => cases h
      | other n => cases h
      | typed m rest =>
        cases m with
        | none => cases h
        | some m =>
          cases h
          exact .typed _ _ _
      | raw m rest =>
        cases m with
        | none => cases h
        | some m =>
          simp only [accessor, Meta.accessor, Option.map_some, Option.bind_some, request,
            Meta.Accessor.ns, Meta.Accessor.name, Option.bind_eq_some_iff, Option.map_eq_some_iff] at h
          obtain ⟨name, h2, ns, h1, rfl⟩ := h
          exact .raw _ _ _ _ h1 h2

private theorem passes_true {l : List (Option Bool)} : passes l = some true ↔ ∀ b ∈ l, b = some true := by
  induction l with
  | nil => simp [passes]
  | cons b l ih =>
    rcases b with _ | ⟨_ | _⟩ <;> simp [passes, ih]

private theorem passes_map (ps : List Pred) (f : Pred → Option Bool) :
    passes (ps.map f) = some true ↔ ∀ p ∈ ps, f p = some true := by
  rw [passes_true]; simp

/-- **C57**, for objects with namespace and name: if all predicates accept a notification, the request
for each of its objects is added to the queue, in order, and nothing is raised.  Missing: notifications
without such objects, in particular deletions found out by a relist, see `C57_refuted`. -/
theorem C57_enqueued_partial (ps : List Pred) (n : Note Val Meta.Obj) (ha : Accepted ps n) (hn : Named n) :
    List.Forall₂ Names (objects n) (handle ps n).1 ∧ (handle ps n).2 = .ok := by
  cases n with
  | onAdd x =>
    obtain ⟨nn, h⟩ := hn x (by simp [objects])
    have hp := (passes_map ps fun p => p.create x).2 ha
    have h' := (names_iff x nn).1 h
    rw [Option.bind_eq_some_iff] at h'
    obtain ⟨a, h1, h2⟩ := h'
    simp only [handle, onAdd, h1, hp, enqueueOne, h2, objects, and_true]
    exact .cons h .nil
  | onDelete x =>
    obtain ⟨nn, h⟩ := hn x (by simp [objects])
    have hp := (passes_map ps fun p => p.delete x).2 ha
    have h' := (names_iff x nn).1 h
    rw [Option.bind_eq_some_iff] at h'
    obtain ⟨a, h1, h2⟩ := h'
    simp only [handle, onDelete, h1, hp, enqueueOne, h2, objects, and_true]
    exact .cons h .nil
  | onUpdate x y =>
    obtain ⟨nn, h⟩ := hn x (by simp [objects])
    obtain ⟨mm, g⟩ := hn y (by simp [objects])
    have hp := (passes_map ps fun p => p.update x y).2 ha
    have h' := (names_iff x nn).1 h
    have g' := (names_iff y mm).1 g
    rw [Option.bind_eq_some_iff] at h' g'
    obtain ⟨a, h1, h2⟩ := h'
    obtain ⟨b, g1, g2⟩ := g'
    simp only [handle, onUpdate, h1, g1, hp, enqueueTwo, h2, g2, objects, and_true]
    exact .cons h (.cons g .nil)

/-- **C57**: nothing else is added to the queue: a request is the namespace and name of an object of a
notification that all predicates accepted. -/
theorem C57_only (ps : List Pred) (ns : List (Note Val Meta.Obj)) (nn : NamespacedName)
    (h : nn ∈ requests ps ns) : ∃ n ∈ ns, Accepted ps n ∧ ∃ x ∈ objects n, Names x nn := by
  simp only [requests, List.mem_flatMap] at h
  obtain ⟨n, hn, h⟩ := h
  refine ⟨n, hn, ?_⟩
  cases n with
  | onAdd x =>
    simp only [handle, onAdd] at h
    split at h
    · cases h
    · rename_i a hx
      split at h
      · cases h
      · cases h
      · rename_i hp
        simp only [enqueueOne] at h
        split at h
        · rename_i r hr
          rw [List.mem_singleton] at h
          subst h
          exact ⟨(passes_map ps fun p => p.create x).1 hp, x, by simp [objects],
            (names_iff _ _).2 (by simp [hx, hr])⟩
        · cases h
  | onDelete x =>
    simp only [handle, onDelete] at h
    split at h
    · cases h
    · rename_i a hx
      split at h
      · cases h
      · cases h
      · rename_i hp
        simp only [enqueueOne] at h
        split at h
        · rename_i r hr
          rw [List.mem_singleton] at h
          subst h
          exact ⟨(passes_map ps fun p => p.delete x).1 hp, x, by simp [objects],
            (names_iff _ _).2 (by simp [hx, hr])⟩
        · cases h
  | onUpdate old new =>
    simp only [handle, onUpdate] at h
    split at h
    · cases h
    · rename_i a hx
      split at h
      · cases h
      · rename_i b hy
        split at h
        · cases h
        · cases h
        · rename_i hp
          have hacc := (passes_map ps fun p => p.update old new).1 hp
          simp only [enqueueTwo] at h
          split at h
          · cases h
          · rename_i r hr
            split at h
            · rw [List.mem_singleton] at h
              subst h
              exact ⟨hacc, old, by simp [objects], (names_iff _ _).2 (by simp [hx, hr])⟩
            · rename_i r' hr'
              simp only [List.mem_cons, List.not_mem_nil, or_false] at h
              rcases h with h | h
              · subst h
                exact ⟨hacc, old, by simp [objects], (names_iff _ _).2 (by simp [hx, hr])⟩
              · subst h
                exact ⟨hacc, new, by simp [objects], (names_iff _ _).2 (by simp [hy, hr'])⟩

/-- Two raw objects, a typed one, and a predicate that looks at the new object only. -/
private def pod (name : String) (rest : Nat) : Obj :=
  .real (.raw (some [("namespace".toList, some "ns".toList), ("name".toList, some name.toList)]) rest)

private def big : Pred where
  create _ := some true
  update _ x := match x with
    | .real (.raw _ n) => some (decide (1 < n))
    | _ => none
  delete _ := some true

example : Accepted [big] (.onUpdate (pod "a" 1) (pod "a" 2)) ∧ Named (.onUpdate (pod "a" 1) (pod "a" 2)) ∧
    handle [big] (.onUpdate (pod "a" 1) (pod "a" 2)) =
      ([⟨some "ns".toList, some "a".toList⟩, ⟨some "ns".toList, some "a".toList⟩], .ok) ∧
    handle [big] (.onUpdate (pod "a" 2) (pod "a" 1)) = ([], .ok) := by
  refine ⟨?_, ?_, ?_, ?_⟩
  · intro p hp; rw [List.mem_singleton.1 hp]; rfl
  · intro x hx
    have : x = pod "a" 1 ∨ x = pod "a" 2 := by simpa [objects] using hx
    rcases this with rfl | rfl
    · exact ⟨_, .raw _ _ _ _ rfl rfl⟩
    · exact ⟨_, .raw _ _ _ _ rfl rfl⟩
  · rfl
  · rfl

/-- **C57** is false for deletions found out by a relist: the handler gets a `DeletedFinalStateUnknown`,
which has no metadata, and drops it, whatever the predicates. -/
theorem C57_refuted (ps : List Pred) (k : Val) (x : Obj) : handle ps (.onDelete (.goneWith k x)) = ([], .ok) :=
  rfl

/-- **C57**, the whole way: an object is listed, and in the next list it is gone.  The cache and the
handler hear of it, but no request is added: there is one request in all, the one for the addition. -/
theorem C57_refuted_relist (ps : List Pred) (h : ∀ p ∈ ps, ∀ x, p.create x = some true) :
    let s := SharedInformer.exec Meta.keyFunc SharedInformer.init
      [.register, .start, .replace [pod "a" 1], .pop, .replace [], .pop]
    s.inf.items = [] ∧
    ∃ ns, s.sent[0]? = some ns ∧ ns = [.onAdd (pod "a" 1), .onDelete (.goneWith (some "ns/a".toList) (pod "a" 1))] ∧
      requests ps ns = [⟨some "ns".toList, some "a".toList⟩] := by
  intro s
  refine ⟨by decide +kernel, [.onAdd (pod "a" 1), .onDelete (.goneWith (some "ns/a".toList) (pod "a" 1))],
    by decide +kernel, rfl, ?_⟩
  have hp : passes (ps.map fun p => p.create (pod "a" 1)) = some true :=
    (passes_map ps _).2 fun p hp => h p hp _
  have h1 : handle ps (.onAdd (pod "a" 1)) = ([⟨some "ns".toList, some "a".toList⟩], .ok) := by
    simp only [handle, onAdd, hp]
    rfl
  simp only [requests, List.flatMap_cons, h1, C57_refuted]
  rfl

/-! ### The whole way -/

open SharedInformer.Spec Informer.Spec in
theorem see_other {key : Meta.Obj → Option Val} {k : Val} (v : View Val Meta.Obj)
    {n : Note Val Meta.Obj} (hn : noteKey key n ≠ some k) : see key v n k = v k := by
  have hput : ∀ (j : Val) (o : Option Obj), k ≠ j → v.put j o k = v k := by
    intro j o h; simp [View.put, h]
  cases n with
  | onAdd x =>
    simp only [noteKey] at hn
    cases hj : DeltaFifo.keyOf key x with
    | none => simp [see, hj]
    | some j => simp only [see, hj]; exact hput j _ fun hc => hn (by rw [hj, hc])
  | onUpdate old x =>
    simp only [noteKey] at hn
    cases hj : DeltaFifo.keyOf key x with
    | none => simp [see, hj]
    | some j => simp only [see, hj]; exact hput j _ fun hc => hn (by rw [hj, hc])
  | onDelete x =>
    simp only [noteKey] at hn
    cases hj : DeltaFifo.keyOf key x with
    | none => simp [see, hj]
    | some j => simp only [see, hj]; exact hput j _ fun hc => hn (by rw [hj, hc])

open SharedInformer.Spec Informer.Spec in
theorem last_seen (key : Meta.Obj → Option Val) (k : Val) (ns : List (Note Val Meta.Obj)) :
    ((∀ m ∈ ns, noteKey key m ≠ some k) ∧ view key ns k = none) ∨
    ∃ pre n post, ns = pre ++ n :: post ∧ noteKey key n = some k ∧ (∀ m ∈ post, noteKey key m ≠ some k) ∧
      view key ns k = (match n with
        | .onAdd x => some x
        | .onUpdate _ x => some x
        | .onDelete _ => none) := by
  induction ns using List.reverseRecOn with
  | nil => left; exact ⟨by simp, rfl⟩
  | append_singleton ns n ih =>
    have hv : view key (ns ++ [n]) = see key (view key ns) n := by
      simp [view, List.foldl_append]
    by_cases hn : noteKey key n = some k
    · right
      refine ⟨ns, n, [], rfl, hn, by simp, ?_⟩
      rw [hv]
      cases n <;> simp only [noteKey] at hn <;> simp [see, hn, View.put]
    · have hsame : view key (ns ++ [n]) k = view key ns k := by
        rw [hv]
        exact see_other _ hn
      rcases ih with h | ⟨pre, m, post, h1, h2, h3, h4⟩
      · left
        refine ⟨fun m hm => ?_, by rw [hsame]; exact h.2⟩
        rcases List.mem_append.1 hm with hm | hm
        · exact h.1 m hm
        · rw [List.mem_singleton.1 hm]; exact hn
      · right
        refine ⟨pre, m, post ++ [n], by rw [h1]; simp, h2, ?_, by rw [hsame]; exact h4⟩
        intro m' hm
        rcases List.mem_append.1 hm with hm | hm
        · exact h3 m' hm
        · rw [List.mem_singleton.1 hm]; exact hn

theorem proper_named {x : Obj} {k : Val} (hx : Proper x) (hk : DeltaFifo.keyOf Meta.keyFunc x = some k) :
    ∃ nn, Names x nn ∧ Meta.objectKeyToStoreKey nn = k := by
  cases x with
  | gone _ => cases hx
  | goneWith _ _ => cases hx
  | real o =>
    simp only [DeltaFifo.keyOf] at hk
    have hname : ∃ nn, Meta.nameOf o = some nn := by
      have hk' : ((Meta.accessor o).bind fun a => a.ns.bind fun ns =>
          if Meta.truthy ns then a.name.map fun n => some (Meta.str ns ++ '/' :: Meta.str n)
          else a.name) = some k := by
        cases o with
        | explicitKey s => cases hx
        | _ => exact hk
      obtain ⟨a, ha, hk'⟩ := Option.bind_eq_some_iff.1 hk'
      obtain ⟨ns, hns, hk'⟩ := Option.bind_eq_some_iff.1 hk'
      cases hn : a.name with
      | none => rw [hn] at hk'; split at hk' <;> cases hk'
      | some n => exact ⟨⟨ns, n⟩, by simp [Meta.nameOf, ha, hn, hns]⟩
    obtain ⟨nn, hnn⟩ := hname
    refine ⟨nn, (names_iff _ _).2 hnn, ?_⟩
    have := Meta.key_of_name hnn
    rw [hk] at this
    exact (Option.some.inj this).symm

open SharedInformer.Spec Informer.Spec in
theorem sensible_at {key : Meta.Obj → Option Val} : ∀ (pre : List (Note Val Meta.Obj)) (v : View Val Meta.Obj)
    (n : Note Val Meta.Obj) (post : List (Note Val Meta.Obj)), AllSensible key v (pre ++ n :: post) →
    Sensible key (pre.foldl (see key) v) n := by
  intro pre
  induction pre with
  | nil => intro v n post h; exact h.1
  | cons a pre ih => intro v n post h; exact ih _ n post h.2

open SharedInformer.Spec in
/-- **C57**, the whole way from the reflector, for a handler that every check finds due and that accepts
everything: every object in the cache has been requested after its last change, and the request leads
back to the object.  Missing: handlers that some check left out (see `C34_refuted`). -/
theorem C57_cached_partial (ps : List Pred) (es : List (SharedInformer.Ev Val Meta.Obj)) (i : Nat)
    (hs : ∀ e ∈ es, Ev.selects i e) (hr : ∀ e ∈ es, EvAll Proper e) (ns : List (Note Val Meta.Obj))
    (h : (SharedInformer.exec Meta.keyFunc SharedInformer.init es).sent[i]? = some ns)
    (hp : ∀ n ∈ ns, Accepted ps n) (k : Val) (x : Obj)
    (hx : (SharedInformer.exec Meta.keyFunc SharedInformer.init es).inf.items.get? k = some x) :
    ∃ nn pre n post, Names x nn ∧ Meta.objectKeyToStoreKey nn = k ∧ ns = pre ++ n :: post ∧
      nn ∈ (handle ps n).1 ∧ ∀ m ∈ post, noteKey Meta.keyFunc m ≠ some k := by
  have hv := SharedInformer.C34_due_partial Meta.keyFunc es i hs ns h k
  have hsens := SharedInformer.C34_sensible_partial Meta.keyFunc es i hs ns h
  have hreal := (real_exec (key := Meta.keyFunc) es real_init hr).sent ns (List.mem_of_getElem? h)
  -- an object somebody has been told of is proper and has that key
  have told : ∀ (l : List (Note Val Meta.Obj)), (∀ n ∈ l, n ∈ ns) → ∀ y, view Meta.keyFunc l k = some y →
      ∃ pre n post, l = pre ++ n :: post ∧ (∀ m ∈ post, noteKey Meta.keyFunc m ≠ some k) ∧
        Proper y ∧ DeltaFifo.keyOf Meta.keyFunc y = some k ∧ (n = .onAdd y ∨ ∃ old, n = .onUpdate old y) := by
    intro l hl y hy
    rcases last_seen Meta.keyFunc k l with hno | ⟨pre, n, post, h1, h2, h3, h4⟩
    · rw [hno.2] at hy
      cases hy
    · have hm : n ∈ ns := hl n (by rw [h1]; simp)
      have hg := hreal n hm
      refine ⟨pre, n, post, h1, h3, ?_⟩
      rw [hy] at h4
      cases n with
      | onAdd z => cases h4; exact ⟨hg, h2, Or.inl rfl⟩
      | onUpdate old z => cases h4; exact ⟨hg, h2, Or.inr ⟨old, rfl⟩⟩
      | onDelete z => cases h4
  obtain ⟨pre, n, post, h1, h3, hpx, hkx, hn⟩ := told ns (fun _ hm => hm) x (hv.trans hx)
  obtain ⟨nn, hnn, hkk⟩ := proper_named hpx hkx
  have hnm : n ∈ ns := by rw [h1]; simp
  have hacc := hp n hnm
  refine ⟨nn, pre, n, post, hnn, hkk, h1, ?_, h3⟩
  have hnamed : Named n := by
    rcases hn with rfl | ⟨old, rfl⟩
    · intro y hy
      rw [List.mem_singleton.1 hy]
      exact ⟨nn, hnn⟩
    · intro y hy
      have : y = old ∨ y = x := by simpa [objects] using hy
      rcases this with rfl | rfl
      · rw [h1] at hsens
        obtain ⟨k', hk', hold⟩ := sensible_at pre _ _ post hsens
        have : k' = k := by rw [hkx] at hk'; exact (Option.some.inj hk').symm
        subst this
        obtain ⟨_, _, _, _, _, hpo, hko, _⟩ := told pre (fun m hm => by rw [h1]; simp [hm]) y hold
        exact ⟨_, (proper_named hpo hko).choose_spec.1⟩
      · exact ⟨nn, hnn⟩
  obtain ⟨hf, -⟩ := C57_enqueued_partial ps n hacc hnamed
  have uniq : ∀ nn', Names x nn' → nn' = nn := by
    intro nn' h'
    have a := (names_iff _ _).1 h'
    have b := (names_iff _ _).1 hnn
    rw [a] at b
    exact Option.some.inj b
  generalize (handle ps n).1 = adds at hf
  rcases hn with rfl | ⟨old, rfl⟩
  · simp only [objects] at hf
    cases hf with
    | cons ha hb => rw [uniq _ ha]; simp
  · simp only [objects] at hf
    cases hf with
    | cons ha hb =>
      cases hb with
      | cons hc hd => rw [uniq _ hc]; simp

open SharedInformer.Spec in
/-- **C57**, the whole way, for what is not in the cache any more: the last the handler heard of it was
its deletion, and unless that came as a `DeletedFinalStateUnknown`, it has been requested.  Missing:
deletions found out by a relist, see `C57_refuted_relist`. -/
theorem C57_deleted_partial (ps : List Pred) (es : List (SharedInformer.Ev Val Meta.Obj)) (i : Nat)
    (hs : ∀ e ∈ es, Ev.selects i e) (ns : List (Note Val Meta.Obj))
    (h : (SharedInformer.exec Meta.keyFunc SharedInformer.init es).sent[i]? = some ns)
    (hp : ∀ n ∈ ns, Accepted ps n) (k : Val) (hk : ∃ n ∈ ns, noteKey Meta.keyFunc n = some k)
    (hx : (SharedInformer.exec Meta.keyFunc SharedInformer.init es).inf.items.get? k = none) :
    ∃ pre x post, ns = pre ++ .onDelete x :: post ∧ (∀ m ∈ post, noteKey Meta.keyFunc m ≠ some k) ∧
      (Proper x → ∃ nn, Names x nn ∧ Meta.objectKeyToStoreKey nn = k ∧
        nn ∈ (handle ps (.onDelete x)).1) := by
  have hv := SharedInformer.C34_due_partial Meta.keyFunc es i hs ns h k
  rw [hx] at hv
  rcases last_seen Meta.keyFunc k ns with hno | ⟨pre, n, post, h1, h2, h3, h4⟩
  · obtain ⟨n, hn, hk⟩ := hk
    exact absurd hk (hno.1 n hn)
  · rw [hv] at h4
    cases n with
    | onAdd z => cases h4
    | onUpdate old z => cases h4
    | onDelete z =>
      refine ⟨pre, z, post, h1, h3, fun hz => ?_⟩
      obtain ⟨nn, hnn, hkk⟩ := proper_named hz h2
      refine ⟨nn, hnn, hkk, ?_⟩
      obtain ⟨hf, -⟩ := C57_enqueued_partial ps (.onDelete z) (hp _ (by rw [h1]; simp))
        (fun y hy => by rw [List.mem_singleton.1 hy]; exact ⟨nn, hnn⟩)
      generalize (handle ps (.onDelete z)).1 = adds at hf
      simp only [objects] at hf
      cases hf with
      | cons ha hb =>
        have a := (names_iff _ _).1 ha
        have b := (names_iff _ _).1 hnn
        rw [a] at b
        rw [Option.some.inj b]; simp

open SharedInformer.Spec in
/-- Every notification about `k` makes the handler request it, unless it is the deletion of a
`DeletedFinalStateUnknown`. -/
theorem requests_of_note (ps : List Pred) (es : List (SharedInformer.Ev Val Meta.Obj)) (i : Nat)
    (hs : ∀ e ∈ es, Ev.selects i e) (hr : ∀ e ∈ es, EvAll Proper e) (pre : List (Note Val Meta.Obj))
    (n : Note Val Meta.Obj) (post : List (Note Val Meta.Obj))
    (h : (SharedInformer.exec Meta.keyFunc SharedInformer.init es).sent[i]? = some (pre ++ n :: post))
    (hp : Accepted ps n) (k : Val) (hk : noteKey Meta.keyFunc n = some k)
    (hd : ∀ x, n = .onDelete x → Proper x) :
    ∃ nn ∈ (handle ps n).1, Meta.objectKeyToStoreKey nn = k := by
  have hsens := SharedInformer.C34_sensible_partial Meta.keyFunc es i hs _ h
  have hreal := (real_exec (key := Meta.keyFunc) es real_init hr).sent _ (List.mem_of_getElem? h)
  have main : ∀ y, (n = .onAdd y ∨ ∃ old, n = .onUpdate old y) ∨ n = .onDelete y →
      ∃ nn ∈ (handle ps n).1, Meta.objectKeyToStoreKey nn = k := by
    intro y hy
    have hpy : Proper y := by
      have := hreal n (by simp)
      rcases hy with (rfl | ⟨old, rfl⟩) | rfl
      · exact this
      · exact this
      · exact hd y rfl
    have hky : DeltaFifo.keyOf Meta.keyFunc y = some k := by
      rcases hy with (rfl | ⟨old, rfl⟩) | rfl <;> exact hk
    obtain ⟨nn, hnn, hkk⟩ := proper_named hpy hky
    have hnamed : Named n := by
      rcases hy with (rfl | ⟨old, rfl⟩) | rfl
      · intro z hz
        rw [List.mem_singleton.1 hz]
        exact ⟨nn, hnn⟩
      · intro z hz
        have : z = old ∨ z = y := by simpa [objects] using hz
        rcases this with rfl | rfl
        · obtain ⟨k', hk', hold⟩ := sensible_at pre _ _ post hsens
          have : k' = k := by rw [hky] at hk'; exact (Option.some.inj hk').symm
          subst this
          rcases last_seen Meta.keyFunc k' pre with hno | ⟨pre', m, post', h1, h2, h3, h4⟩
          · change view Meta.keyFunc pre k' = _ at hold
            rw [hno.2] at hold
            cases hold
          · change view Meta.keyFunc pre k' = _ at hold
            rw [hold] at h4
            have hg := hreal m (by rw [h1]; simp)
            cases m with
            | onAdd z => cases h4; exact ⟨_, (proper_named hg h2).choose_spec.1⟩
            | onUpdate o z => cases h4; exact ⟨_, (proper_named hg h2).choose_spec.1⟩
            | onDelete z => cases h4
        · exact ⟨nn, hnn⟩
      · intro z hz
        rw [List.mem_singleton.1 hz]
        exact ⟨nn, hnn⟩
    obtain ⟨hf, -⟩ := C57_enqueued_partial ps n hp hnamed
    have uniq : ∀ nn', Names y nn' → nn' = nn := by
      intro nn' h'
      have a := (names_iff _ _).1 h'
      have b := (names_iff _ _).1 hnn
      rw [a] at b
      exact Option.some.inj b
    refine ⟨nn, ?_, hkk⟩
    generalize (handle ps n).1 = adds at hf
    rcases hy with (rfl | ⟨old, rfl⟩) | rfl
    · simp only [objects] at hf
      cases hf with
      | cons ha hb => rw [uniq _ ha]; simp
    · simp only [objects] at hf
      cases hf with
      | cons ha hb =>
        cases hb with
        | cons hc hd => rw [uniq _ hc]; simp
    · simp only [objects] at hf
      cases hf with
      | cons ha hb => rw [uniq _ ha]; simp
  cases n with
  | onAdd y => exact main y (Or.inl (Or.inl rfl))
  | onUpdate old y => exact main y (Or.inl (Or.inr ⟨old, rfl⟩))
  | onDelete y => exact main y (Or.inr rfl)

/-- A history with an addition, an update and a deletion, a handler registered late, and a resync. -/
private def sample : List (SharedInformer.Ev Val Meta.Obj) :=
  [.start, .replace [pod "a" 1, pod "b" 1], .pop, .pop, .register, .update (pod "a" 2), .pop,
    .delete (pod "b" 1), .pop, .check (fun _ => true), .resync, .pop]

example : (∀ e ∈ sample, SharedInformer.Spec.Ev.selects 0 e) ∧ (∀ e ∈ sample, EvAll Proper e) ∧
    (SharedInformer.exec Meta.keyFunc SharedInformer.init sample).inf.items =
      [(some "ns/a".toList, pod "a" 2)] ∧
    (SharedInformer.exec Meta.keyFunc SharedInformer.init sample).sent =
      [[.onAdd (pod "a" 1), .onAdd (pod "b" 1), .onUpdate (pod "a" 1) (pod "a" 2), .onDelete (pod "b" 1),
        .onUpdate (pod "a" 2) (pod "a" 2)]] := by
  refine ⟨?_, ?_, by decide +kernel, by decide +kernel⟩
  · simp [sample, SharedInformer.Spec.Ev.selects]
  · simp [sample, EvAll, pod, Proper]

end Aiok8s.Source
