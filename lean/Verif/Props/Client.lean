import Verif.Spec.Client
/-!
# Property C79: the registry of clients and the requests of an informer
-/
set_option linter.unusedSimpArgs false
namespace Aiok8s.Client
variable {G T M : Type} [DecidableEq G] [DecidableEq T]

private theorem load_append (r : Registry G T M) (cs ds : List (Cls G T M)) :
    load r (cs ++ ds) = ((load (load r cs).1 ds).1, (load r cs).2 ++ (load (load r cs).1 ds).2) := by
  induction cs generalizing r with
  | nil => rfl
  | cons c cs ih => simp only [List.cons_append, load, ih]

private theorem load_snoc (r : Registry G T M) (cs : List (Cls G T M)) (c : Cls G T M) :
    load r (cs ++ [c]) = ((register (load r cs).1 c).1, (load r cs).2 ++ [(register (load r cs).1 c).2]) := by
  rw [load_append]; rfl

/-- The registry against the accepted classes. -/
private structure Inv (cs acc : List (Cls G T M)) (r : Registry G T M) : Prop where
  client : ∀ g c, PyDict.get? r.clients g = some c ↔ c ∈ acc ∧ c.gvk = g
  seen : ∀ c ∈ cs, ∃ d ∈ acc, d.gvk = c.gvk
  sub : ∀ c ∈ acc, c ∈ cs
  type : ∀ g t, PyDict.get? r.types g = some t ↔ ∃ c ∈ acc, c.gvk = g ∧ c.objectType = some t
  gvk : ∀ t, PyDict.get? r.gvks t =
    (acc.reverse.find? fun c => decide (c.objectType = some t)).map (·.gvk)
  un : ∀ g, g ∈ r.unstructured ↔ ∃ c ∈ acc, c.gvk = g ∧ c.objectType = none

private theorem inv_of {cs acc : List (Cls G T M)} {bs : List Bool} (h : Accepted cs bs acc) :
    Inv cs acc (load init cs).1 ∧ (load init cs).2 = bs := by
  induction h with
  | nil =>
    refine ⟨⟨?_, ?_, ?_, ?_, ?_, ?_⟩, rfl⟩ <;> simp [load, init]
  | take cs bs acc c _ hnew ih =>
    obtain ⟨i, hb⟩ := ih
    have hn : PyDict.has (load init cs).1.clients c.gvk = false := by
      cases hh : PyDict.has (load init cs).1.clients c.gvk with
      | false => rfl
      | true =>
        unfold PyDict.has at hh
        obtain ⟨d, hd⟩ := Option.isSome_iff_exists.1 hh
        obtain ⟨hda, hdg⟩ := (i.client _ _).1 hd
        exact absurd hdg (hnew d (i.sub d hda))
    have hna : ∀ d ∈ acc, d.gvk ≠ c.gvk := fun d hd => hnew d (i.sub d hd)
    rw [load_snoc]
    cases ht : c.objectType with
    | some t =>
      have hr : register (load init cs).1 c =
          ({ (load init cs).1 with
              clients := PyDict.set (load init cs).1.clients c.gvk c
              types := PyDict.set (load init cs).1.types c.gvk t
              gvks := PyDict.set (load init cs).1.gvks t c.gvk }, false) := by
        unfold register; rw [hn]; simp [ht]
      rw [hr]
      refine ⟨⟨?_, ?_, ?_, ?_, ?_, ?_⟩, by rw [hb]⟩
      · intro g d
        simp only [PyDict.get?_set]
        by_cases hg : c.gvk = g
        · rw [if_pos (by simpa using hg)]
          constructor
          · intro e; cases e; exact ⟨by simp, hg⟩
          · rintro ⟨hd, hdg⟩
            rcases List.mem_append.1 hd with hd | hd
            · exact absurd (hdg.trans hg.symm) (hna d hd)
            · rw [List.mem_singleton.1 hd]
        · rw [if_neg (by simpa using hg), i.client]
          constructor
          · rintro ⟨hd, hdg⟩; exact ⟨List.mem_append_left _ hd, hdg⟩
          · rintro ⟨hd, hdg⟩
            rcases List.mem_append.1 hd with hd | hd
            · exact ⟨hd, hdg⟩
            · rw [List.mem_singleton.1 hd] at hdg; exact absurd hdg hg
      · intro d hd
        rcases List.mem_append.1 hd with hd | hd
        · obtain ⟨e, he, heg⟩ := i.seen d hd; exact ⟨e, List.mem_append_left _ he, heg⟩
        · exact ⟨c, by simp, by rw [List.mem_singleton.1 hd]⟩
      · intro d hd
        rcases List.mem_append.1 hd with hd | hd
        · exact List.mem_append_left _ (i.sub d hd)
        · exact List.mem_append_right _ hd
      · intro g t'
        simp only [PyDict.get?_set]
        by_cases hg : c.gvk = g
        · rw [if_pos (by simpa using hg)]
          constructor
          · intro e; cases e; exact ⟨c, by simp, hg, ht⟩
          · rintro ⟨d, hd, hdg, hdt⟩
            rcases List.mem_append.1 hd with hd | hd
            · exact absurd (hdg.trans hg.symm) (hna d hd)
            · rw [List.mem_singleton.1 hd, ht] at hdt; exact hdt
        · rw [if_neg (by simpa using hg), i.type]
          constructor
          · rintro ⟨d, hd, hdg⟩; exact ⟨d, List.mem_append_left _ hd, hdg⟩
          · rintro ⟨d, hd, hdg, hdt⟩
            rcases List.mem_append.1 hd with hd | hd
            · exact ⟨d, hd, hdg, hdt⟩
            · rw [List.mem_singleton.1 hd] at hdg; exact absurd hdg hg
      · intro t'
        simp only [PyDict.get?_set, List.reverse_append, List.reverse_singleton, List.singleton_append,
          List.find?_cons, ht]
        by_cases htt : t = t'
        · subst htt; simp
        · have hne : ¬(some t = some t') := by simpa using htt
          rw [if_neg (by simpa using htt), i.gvk]; simp [hne, htt]
      · intro g
        show g ∈ (load init cs).1.unstructured ↔ _
        rw [i.un]
        constructor
        · rintro ⟨d, hd, hdg⟩; exact ⟨d, List.mem_append_left _ hd, hdg⟩
        · rintro ⟨d, hd, hdg, hdt⟩
          rcases List.mem_append.1 hd with hd | hd
          · exact ⟨d, hd, hdg, hdt⟩
          · rw [List.mem_singleton.1 hd, ht] at hdt; exact nomatch hdt
    | none =>
      have hr : register (load init cs).1 c =
          ({ (load init cs).1 with
              clients := PyDict.set (load init cs).1.clients c.gvk c
              unstructured := PySet.add (load init cs).1.unstructured c.gvk }, false) := by
        unfold register; rw [hn]; simp [ht]
      rw [hr]
      refine ⟨⟨?_, ?_, ?_, ?_, ?_, ?_⟩, by rw [hb]⟩
      · intro g d
        simp only [PyDict.get?_set]
        by_cases hg : c.gvk = g
        · rw [if_pos (by simpa using hg)]
          constructor
          · intro e; cases e; exact ⟨by simp, hg⟩
          · rintro ⟨hd, hdg⟩
            rcases List.mem_append.1 hd with hd | hd
            · exact absurd (hdg.trans hg.symm) (hna d hd)
            · rw [List.mem_singleton.1 hd]
        · rw [if_neg (by simpa using hg), i.client]
          constructor
          · rintro ⟨hd, hdg⟩; exact ⟨List.mem_append_left _ hd, hdg⟩
          · rintro ⟨hd, hdg⟩
            rcases List.mem_append.1 hd with hd | hd
            · exact ⟨hd, hdg⟩
            · rw [List.mem_singleton.1 hd] at hdg; exact absurd hdg hg
      · intro d hd
        rcases List.mem_append.1 hd with hd | hd
        · obtain ⟨e, he, heg⟩ := i.seen d hd; exact ⟨e, List.mem_append_left _ he, heg⟩
        · exact ⟨c, by simp, by rw [List.mem_singleton.1 hd]⟩
      · intro d hd
        rcases List.mem_append.1 hd with hd | hd
        · exact List.mem_append_left _ (i.sub d hd)
        · exact List.mem_append_right _ hd
      · intro g t'
        show PyDict.get? (load init cs).1.types g = _ ↔ _
        rw [i.type]
        constructor
        · rintro ⟨d, hd, hdg⟩; exact ⟨d, List.mem_append_left _ hd, hdg⟩
        · rintro ⟨d, hd, hdg, hdt⟩
          rcases List.mem_append.1 hd with hd | hd
          · exact ⟨d, hd, hdg, hdt⟩
          · rw [List.mem_singleton.1 hd, ht] at hdt; exact nomatch hdt
      · intro t'
        show PyDict.get? (load init cs).1.gvks t' = _
        rw [i.gvk]
        simp [ht]
      · intro g
        simp only [PySet.mem_add, i.un]
        constructor
        · rintro (rfl | ⟨d, hd, hdg⟩)
          · exact ⟨c, by simp, rfl, ht⟩
          · exact ⟨d, List.mem_append_left _ hd, hdg⟩
        · rintro ⟨d, hd, hdg, hdt⟩
          rcases List.mem_append.1 hd with hd | hd
          · exact .inr ⟨d, hd, hdg, hdt⟩
          · rw [List.mem_singleton.1 hd] at hdg; exact .inl hdg.symm
  | refuse cs bs acc c d _ hd hdg ih =>
    obtain ⟨i, hb⟩ := ih
    obtain ⟨e, he, heg⟩ := i.seen d hd
    have hn : PyDict.has (load init cs).1.clients c.gvk = true := by
      unfold PyDict.has
      rw [(i.client c.gvk e).2 ⟨he, heg.trans hdg⟩]; rfl
    have hr : register (load init cs).1 c = ((load init cs).1, true) := by
      unfold register; rw [hn]; rfl
    rw [load_snoc, hr]
    refine ⟨⟨i.client, ?_, fun x hx => List.mem_append_left _ (i.sub x hx), i.type, i.gvk, i.un⟩, by rw [hb]⟩
    intro x hx
    rcases List.mem_append.1 hx with hx | hx
    · exact i.seen x hx
    · rw [List.mem_singleton.1 hx]; exact ⟨e, he, heg.trans hdg⟩

/-- **C79.** Whatever classes are defined, exactly those whose gvk an earlier one has raise. -/
theorem C79_raises (cs : List (Cls G T M)) : ∃ acc, Accepted cs (load init cs).2 acc := by
  suffices h : ∀ ds : List (Cls G T M), ∃ bs acc, Accepted ds.reverse bs acc by
    obtain ⟨bs, acc, ha⟩ := h cs.reverse
    rw [List.reverse_reverse] at ha
    exact ⟨acc, by rw [(inv_of ha).2]; exact ha⟩
  intro ds
  induction ds with
  | nil => exact ⟨[], [], .nil⟩
  | cons c ds ih =>
    obtain ⟨bs, acc, ha⟩ := ih
    rw [List.reverse_cons]
    by_cases hc : ∃ d ∈ ds.reverse, d.gvk = c.gvk
    · obtain ⟨d, hd, hg⟩ := hc
      exact ⟨_, _, .refuse _ _ _ c d ha hd hg⟩
    · exact ⟨_, _, .take _ _ _ c ha fun d hd hg => hc ⟨d, hd, hg⟩⟩

/-- **C79.** A definition that raises changes nothing. -/
theorem C79_atomic (cs : List (Cls G T M)) (c : Cls G T M)
    (h : (load init (cs ++ [c])).2.getLast? = some true) :
    (load init (cs ++ [c])).1 = (load init cs).1 := by
  rw [load_snoc] at h ⊢
  simp only [List.getLast?_append, List.getLast?_singleton, Option.some_or, Option.some.injEq] at h
  show (register (load init cs).1 c).1 = _
  unfold register at h ⊢
  split
  · rfl
  · rename_i hh
    rw [if_neg hh] at h
    split at h <;> simp at h

/-- **C79.** A gvk leads to the accepted class that has it, and to its object type. -/
theorem C79_by_gvk (cs acc : List (Cls G T M)) (bs : List Bool) (h : Accepted cs bs acc) (g : G) :
    (∀ c, restClientForGvk (load init cs).1 g = some c ↔ c ∈ acc ∧ c.gvk = g) ∧
    (∀ t, PyDict.get? (load init cs).1.types g = some t ↔
      ∃ c ∈ acc, c.gvk = g ∧ c.objectType = some t) ∧
    (g ∈ (load init cs).1.unstructured ↔ ∃ c ∈ acc, c.gvk = g ∧ c.objectType = none) :=
  let i := (inv_of h).1
  ⟨i.client g, i.type g, i.un g⟩

/-- **C79.** The gvk of an object type is that of the last accepted class with this type. -/
theorem C79_by_type (cs acc : List (Cls G T M)) (bs : List Bool) (h : Accepted cs bs acc) (t : T) (g : G) :
    gvkForObject (load init cs).1 t = some g ↔
      ∃ pre c post, acc = pre ++ c :: post ∧ c.gvk = g ∧ c.objectType = some t ∧
        ∀ d ∈ post, d.objectType ≠ some t := by
  unfold gvkForObject
  rw [(inv_of h).1.gvk, Option.map_eq_some_iff]
  constructor
  · rintro ⟨c, hc, hg⟩
    obtain ⟨hp, as, bs, he, hn⟩ := List.find?_eq_some_iff_append.1 hc
    refine ⟨bs.reverse, c, as.reverse, ?_, hg, by simpa using hp, ?_⟩
    · have := congrArg List.reverse he; simpa using this
    · intro d hd; have := hn d (by simpa using hd); simpa using this
  · rintro ⟨pre, c, post, rfl, hg, ht, hn⟩
    refine ⟨c, List.find?_eq_some_iff_append.2 ⟨by simpa using ht, post.reverse, pre.reverse, by simp, ?_⟩, hg⟩
    intro d hd; simpa using hn d (by simpa using hd)

/-- **C79.** The client that an object type leads to is one for this type. -/
theorem C79_consistent (cs : List (Cls G T M)) (t : T) (g : G)
    (h : gvkForObject (load init cs).1 t = some g) :
    ∃ c ∈ cs, restClientForGvk (load init cs).1 g = some c ∧ c.gvk = g ∧ c.objectType = some t := by
  obtain ⟨acc, ha⟩ := C79_raises cs
  obtain ⟨pre, c, post, he, hg, ht, -⟩ := (C79_by_type cs acc _ ha t g).1 h
  have hc : c ∈ acc := by rw [he]; simp
  exact ⟨c, (inv_of ha).1.sub c hc, ((C79_by_gvk cs acc _ ha g).1 c).2 ⟨hc, hg⟩, hg, ht⟩

/-- **C79, partial.** If no two accepted classes have the same object type, every accepted class with an
object type is found by it.  Missing: classes that share a type, see `C79_refuted_shared`. -/
theorem C79_found_partial (cs acc : List (Cls G T M)) (bs : List Bool) (h : Accepted cs bs acc)
    (hd : ∀ c ∈ acc, ∀ d ∈ acc, c.objectType = d.objectType → c.objectType ≠ none → c = d)
    (c : Cls G T M) (hc : c ∈ acc) (t : T) (ht : c.objectType = some t) :
    ((gvkForObject (load init cs).1 t).bind (restClientForGvk (load init cs).1)) = some c := by
  have hg : gvkForObject (load init cs).1 t = some c.gvk := by
    unfold gvkForObject
    rw [(inv_of h).1.gvk]
    cases hf : acc.reverse.find? fun c => decide (c.objectType = some t) with
    | none => exact absurd (List.find?_eq_none.1 hf c (by simpa using hc)) (by simpa using ht)
    | some d =>
      have h1 := List.find?_some hf
      have h2 : d ∈ acc := by simpa using List.mem_of_find?_eq_some hf
      have h3 : d.objectType = some t := by simpa using h1
      rw [hd d h2 c hc (h3.trans ht.symm) (by rw [h3]; simp)]; rfl
  rw [hg]
  exact ((C79_by_gvk cs acc bs h c.gvk).1 c).2 ⟨hc, rfl⟩

/-- **C79 is false** for classes with the same object type: the second one is not refused, and the first
one is no longer found by its type. -/
theorem C79_refuted_shared :
    ∃ c d : Cls Nat Nat Nat, (load init [c, d]).2 = [false, false] ∧ c.objectType = some 7 ∧
      ((gvkForObject (load init [c, d]).1 7).bind (restClientForGvk (load init [c, d]).1)) = some d ∧
      c ≠ d :=
  ⟨⟨1, some 7, 10, 11⟩, ⟨2, some 7, 20, 21⟩, by decide, rfl, by decide, by decide⟩

private theorem kwargs_get (n : List Char) (hn : n ≠ []) (options : PyDict (List Char) (List Char))
    (k : List Char) : PyDict.get? (getKwargs (some n) options) k =
      if k = "namespace".toList then some n else PyDict.get? options k := by
  cases n with
  | nil => exact absurd rfl hn
  | cons a n =>
    unfold getKwargs
    simp only [truthy, if_true, PyDict.get?_set]
    by_cases hk : "namespace".toList = k
    · simp [hk]
    · have : ¬ k = "namespace".toList := fun e => hk e.symm
      rw [if_neg (by simpa using hk), if_neg this]

private theorem meets (c : Cls G T M) (ns : Option (List Char)) (options : PyDict (List Char) (List Char))
    (w : Bool) : Meets c ns (PyDict.get? options) ⟨getLister c ns, getKwargs ns options, w⟩ := by
  constructor
  · rintro n rfl hn
    refine ⟨?_, kwargs_get n hn options⟩
    cases n with
    | nil => exact absurd rfl hn
    | cons a n => rfl
  · rintro (rfl | rfl) <;> exact ⟨rfl, fun k => rfl⟩

/-- **C79.** The requests of the informer for an object type, at any time after it was asked for and
whatever classes were defined since: they go to the client of this type, for the namespace of the cache
only if it has one, with the options of the reflector; list and watch ask for the same objects. -/
theorem C79_requests (cs later : List (Cls G T M)) (t : T) (g : G) (ns : Option (List Char))
    (options : PyDict (List Char) (List Char)) (h : gvkForObject (load init cs).1 t = some g) :
    ∃ c ∈ cs, c.gvk = g ∧ c.objectType = some t ∧ ∃ q w,
      listFunc (load init (cs ++ later)).1 ns g options = some q ∧
      watchFunc (load init (cs ++ later)).1 ns g options = some w ∧
      q.watch = false ∧ w.watch = true ∧
      Meets c ns (PyDict.get? options) q ∧ Meets c ns (PyDict.get? options) w := by
  obtain ⟨c, hc, hr, hg, ht⟩ := C79_consistent cs t g h
  have hr' : restClientForGvk (load init (cs ++ later)).1 g = some c := by
    rw [load_append]
    have hk : ∀ (ls : List (Cls G T M)) (r : Registry G T M), restClientForGvk r g = some c →
        restClientForGvk (load r ls).1 g = some c := by
      intro ls
      induction ls with
      | nil => exact fun r h => h
      | cons d ls ih =>
        intro r h
        show restClientForGvk (load (register r d).1 ls).1 g = some c
        refine ih _ ?_
        unfold register
        split
        · exact h
        · rename_i hh
          have hne : d.gvk ≠ g := by
            rintro rfl; apply hh; unfold PyDict.has; unfold restClientForGvk at h; rw [h]; rfl
          have : PyDict.get? (PyDict.set r.clients d.gvk d) g = some c := by
            rw [PyDict.get?_set, if_neg (by simpa using hne)]; exact h
          split <;> exact this
    exact hk later _ hr
  refine ⟨c, hc, hg, ht, _, _, ?_, ?_, rfl, rfl, meets c ns options false, meets c ns options true⟩
  · unfold listFunc; rw [hr']
  · unfold watchFunc; rw [hr']

/-- **C79.** For an object type without a class there is no informer: `gvk_for_object` raises. -/
theorem C79_unknown (cs : List (Cls G T M)) (t : T) (h : ∀ c ∈ cs, c.objectType ≠ some t) :
    gvkForObject (load init cs).1 t = none := by
  cases hg : gvkForObject (load init cs).1 t with
  | none => rfl
  | some g =>
    obtain ⟨c, hc, -, -, ht⟩ := C79_consistent cs t g hg
    exact absurd ht (h c hc)

/-! Non-vacuity: the pod client, a second class for its gvk, one without a type. -/
private def pod : Cls Nat Nat Nat := ⟨1, some 7, 10, 11⟩
private def again : Cls Nat Nat Nat := ⟨1, some 8, 20, 21⟩
private def bare : Cls Nat Nat Nat := ⟨2, none, 30, 31⟩

example : Accepted [pod, again, bare] [false, true, false] [pod, bare] :=
  .take [pod, again] [false, true] [pod] bare
    (.refuse [pod] [false] [pod] again pod (.take [] [] [] pod .nil (by decide)) (by decide) (by decide))
    (by decide)
example : (load init [pod, again, bare]).2 = [false, true, false] := by decide
example : (load init ([pod] ++ [again])).2.getLast? = some true := by decide
example : gvkForObject (load init [pod, again, bare]).1 7 = some 1 := by decide
example : gvkForObject (load init [pod, again, bare]).1 8 = none := by decide
example : listFunc (load init [pod, again, bare]).1 (some "x".toList) 1
    [("resource_version".toList, "0".toList)] =
    some ⟨10, [("resource_version".toList, "0".toList), ("namespace".toList, "x".toList)], false⟩ := by decide
example : watchFunc (load init [pod, again, bare]).1 none 1 [("resource_version".toList, "0".toList)] =
    some ⟨11, [("resource_version".toList, "0".toList)], true⟩ := by decide

end Aiok8s.Client
