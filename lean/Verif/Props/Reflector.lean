import Verif.Proof.Reflector
/-!
# C39-C43: the reflector
-/
set_option linter.unusedSimpArgs false
set_option linter.unusedSectionVars false
namespace Aiok8s.Reflector
open Spec
variable {O G : Type} [DecidableEq G]

private theorem begun_cons {A : Access O G} {s : Script O} (h : Finished A s)
    (ss : List (Script O)) : begun A (s :: ss) = s :: begun A ss := by
  simp [begun, h]

private theorem begun_cons_not {A : Access O G} {s : Script O} (h : ¬ Finished A s)
    (ss : List (Script O)) : begun A (s :: ss) = [s] := by
  simp [begun, h]

/-- Objects for examples: kind, whether there is metadata, version. -/
private structure Ex where
  kind : Nat
  version : String
deriving DecidableEq

private abbrev exAccess : Access Ex Nat where
  isExpected o := o.kind != 9
  gvk o := if o.kind = 8 then none else some o.kind
  isObject o := o.kind != 7
  version o := if o.version = "" then none else some o.version
  expected := some 1

/-- A list, a watch with events of all sorts, a short watch without events. -/
private abbrev exScript : Script Ex :=
  .listed [⟨1, "5"⟩] "5"
    [.stream [⟨.added, ⟨1, "6"⟩, false⟩, ⟨.added, ⟨2, "7"⟩, false⟩, ⟨.modified, ⟨1, "8"⟩, true⟩,
      ⟨.bookmark, ⟨1, "9"⟩, false⟩, ⟨.added, ⟨9, "10"⟩, false⟩] (.closed true),
     .stream [⟨.deleted, ⟨1, "11"⟩, false⟩, ⟨.other, ⟨1, "12"⟩, false⟩] (.closed false),
     .stream [⟨.deleted, ⟨2, "13"⟩, false⟩] (.closed true)]

/-- **C39**, over a whole run: the watches start from the version of the list, each later one from
the last version accepted since the list. -/
theorem C39_resume (A : Access O G) (l : String) (ss : List (Script O)) :
    watches (run A l ss).calls = (begun A ss).flatMap (resumed A) := by
  have one : ∀ (l : String) (s : Script O), watches (listAndWatch A l s).calls = resumed A s := by
    intro l s
    cases s with
    | listFails => rfl
    | replaceFails items v => rfl
    | listed items v ws => exact watchAll_watches A ws v v
  induction ss generalizing l with
  | nil => rfl
  | cons s ss ih =>
    by_cases h : Finished A s
    · rw [(run_cons_ended (listAndWatch_ended.2 h) ss).1, watches_append, one, ih, begun_cons h,
        List.flatMap_cons]
    · rw [run_cons_other (fun hs => h (listAndWatch_ended.1 hs)), one, begun_cons_not h]
      simp

example : watches (run exAccess "" [.listFails, exScript, exScript]).calls
    = ["5", "9", "12", "5", "9", "12"] := by decide

/-- **C40**, over a whole run: the calls on the store are, for each list, `replace` with it
followed by one call for every accepted event that adds, modifies or deletes, in order. -/
theorem C40_calls (A : Access O G) (l : String) (ss : List (Script O)) :
    onStore (run A l ss).calls = (begun A ss).flatMap (wantedCalls A) := by
  have one : ∀ (l : String) (s : Script O),
      onStore (listAndWatch A l s).calls = wantedCalls A s := by
    intro l s
    cases s with
    | listFails => rfl
    | replaceFails items v => rfl
    | listed items v ws =>
      rw [wantedCalls, ← watchAll_onStore A ws v v]
      rfl
  induction ss generalizing l with
  | nil => rfl
  | cons s ss ih =>
    by_cases h : Finished A s
    · rw [(run_cons_ended (listAndWatch_ended.2 h) ss).1, onStore_append, one, ih, begun_cons h,
        List.flatMap_cons]
    · rw [run_cons_other (fun hs => h (listAndWatch_ended.1 hs)), one, begun_cons_not h]
      simp

example : onStore (run exAccess "" [exScript, .replaceFails [] "20"]).calls
    = [.replace [⟨1, "5"⟩] "5", .add ⟨1, "6"⟩, .update ⟨1, "8"⟩, .delete ⟨1, "11"⟩,
       .replace [] "20"] := by decide

/-- **C42**: after any run, `last_sync_resource_version` is the version of the last accepted event
since the last list, else of that list, else empty. -/
theorem C42_last (A : Access O G) (ss : List (Script O)) :
    (run A "" ss).last = ((begun A ss).flatMap (learnt A)).getLastD "" := by
  suffices h : ∀ l, (run A l ss).last = ((begun A ss).flatMap (learnt A)).getLastD l from h ""
  intro l
  induction ss generalizing l with
  | nil => rfl
  | cons s ss ih =>
    by_cases h : Finished A s
    · rw [(run_cons_ended (listAndWatch_ended.2 h) ss).2.1, ih, begun_cons h, List.flatMap_cons,
        getLastD_append', listAndWatch_last]
    · rw [run_cons_other (fun hs => h (listAndWatch_ended.1 hs)), begun_cons_not h,
        listAndWatch_last]
      simp

example : (run exAccess "" [exScript]).last = "12" := by decide
example : (run exAccess "" [exScript, .replaceFails [] "20", .listFails]).last = "12" := by decide
example : (run exAccess "" [exScript, .listed [] "20" []]).last = "20" := by decide
example : (run exAccess "" [.listFails]).last = "" := by decide

/-- **C41** is false: when the iterator over the events raises, `list_and_watch` waits for ever;
nothing is called any more, whatever the server would answer. -/
theorem C41_refuted (A : Access O G) (l : String) (items : List O) (v : String)
    (es : List (Event O)) (ws : List (Watch O)) (hes : ∀ e ∈ es, ¬ Fatal A e)
    (ss : List (Script O)) :
    (run A l (.listed items v (.stream es .raises :: ws) :: ss)).status = .stuck ∧
    (run A l (.listed items v (.stream es .raises :: ws) :: ss)).calls =
      (run A l [.listed items v [.stream es .raises]]).calls := by
  have hn : ¬ ∃ x ∈ es, Fatal A x := fun ⟨x, hx, hf⟩ => hes x hx hf
  have hN : ¬ Normal A (.stream es .raises) := by simp [Normal]
  have hs : ∀ ws, (listAndWatch A l (.listed items v (.stream es .raises :: ws))).status
      = .stuck := by
    intro ws
    have := watchAll_status A (.stream es .raises :: ws) v v
    rw [final_cons_not hN] at this
    simp only [if_neg hn] at this
    exact this
  have hne : ∀ ws, (listAndWatch A l (.listed items v (.stream es .raises :: ws))).status
      ≠ .ended := by
    intro ws; rw [hs ws]; simp
  rw [run_cons_other (hne ws), run_cons_other (hne [])]
  refine ⟨hs ws, ?_⟩
  simp only [listAndWatch, (watchAll_last hN v v _).1]

example : ∃ e : Event Ex, ¬ Fatal exAccess e :=
  ⟨⟨.added, ⟨1, "6"⟩, false⟩, by decide⟩

/-- **C41**, without streams that raise: when the first watch that does not come to a normal end is
one that could not be started, that contains an error or an event that cannot be understood, that
was too short, or during which a resync failed, `list_and_watch` ends and `run` lists again.
Missing: streams that raise, see `C41_refuted`. -/
theorem C41_partial (A : Access O G) (l : String) (items : List O) (v : String)
    (ws : List (Watch O)) (w : Watch O) (hw : final A ws = some w)
    (ho : Over w ∨ ∃ e ∈ events w, Fatal A e) (s : Script O) (ss : List (Script O)) :
    (run A l [.listed items v ws]).status = .open ∧
    lists (run A l [.listed items v ws]).calls = 1 ∧
    ∃ cs, (run A l (.listed items v ws :: s :: ss)).calls =
      (run A l [.listed items v ws]).calls ++ .list "0" :: cs := by
  have hf : Finished A (.listed items v ws) := ⟨w, hw, ho⟩
  have he := listAndWatch_ended (l := l).2 hf
  obtain ⟨c1, -, s1⟩ := run_cons_ended he []
  obtain ⟨c2, -, -⟩ := run_cons_ended he (s :: ss)
  refine ⟨by rw [s1]; rfl, ?_, ?_⟩
  · rw [c1]
    have hl : ∀ (ws : List (Watch O)) (v l : String), lists (watchAll A v l ws).calls = 0 := by
      have hc : ∀ (es : List (Event O)) (cs : List (Call O)),
          lists (es.filterMap change ++ cs) = lists cs := by
        intro es cs
        induction es with
        | nil => rfl
        | cons e es ih =>
          rw [List.filterMap_cons]
          unfold change at *
          cases e.type <;> simpa [lists] using ih
      intro ws
      induction ws with
      | nil => intros; rfl
      | cons w ws ih =>
        intro v l
        by_cases h : Normal A w
        · rw [(watchAll_normal h v l ws).1]
          have := hc (accepted A (events w)) (watchAll A ((versions A (events w)).getLastD v)
            ((versions A (events w)).getLastD l) ws).calls
          rw [ih] at this
          simpa [lists] using this
        · rw [(watchAll_last h v l ws).1]
          have := hc (accepted A (events w)) []
          simpa [lists] using this
    have := hl ws v v
    simp only [run, List.append_nil, listAndWatch]
    simpa [lists] using this
  · have hc : ∃ cs, (run A (listAndWatch A l (.listed items v ws)).last (s :: ss)).calls
        = .list "0" :: cs := by
      generalize (listAndWatch A l (.listed items v ws)).last = l'
      have h1 : ∃ cs, (listAndWatch A l' s).calls = .list "0" :: cs := by
        cases s <;> exact ⟨_, rfl⟩
      obtain ⟨cs, hcs⟩ := h1
      by_cases hs : (listAndWatch A l' s).status = .ended
      · exact ⟨cs ++ (run A (listAndWatch A l' s).last ss).calls,
          by rw [(run_cons_ended hs ss).1, hcs]; rfl⟩
      · exact ⟨cs, by rw [run_cons_other hs, hcs]⟩
    obtain ⟨cs, hcs⟩ := hc
    exact ⟨cs, by rw [c1, c2, hcs]; simp [run]⟩

example : final exAccess [.stream [] (.closed false), .stream [⟨.added, ⟨1, "6"⟩, false⟩]
    .resyncFails, .fails] = some (.stream [⟨.added, ⟨1, "6"⟩, false⟩] .resyncFails) := by
  unfold final; rfl

private theorem takeWhile_all {α : Type} {p : α → Bool} {xs : List α} (h : ∀ x ∈ xs, p x = true) :
    xs.takeWhile p = xs := by
  induction xs with
  | nil => rfl
  | cons x xs ih =>
    rw [List.takeWhile_cons, if_pos (h x (by simp)), ih fun y hy => h y (by simp [hy])]

private theorem gvk_iff {api kind g v k : List Char} :
    groupVersionKind api kind = some (g, v, k) ↔
      '/' ∉ g ∧ '/' ∉ v ∧ api = g ++ '/' :: v ∧ kind = k := by
  constructor
  · intro h
    unfold groupVersionKind at h
    have hs := pySplit_spec '/' api
    split at h
    · rename_i g' v' hp
      cases h
      rw [hp] at hs
      refine ⟨hs.1 g (by simp), hs.1 v (by simp), ?_, rfl⟩
      rw [hs.2]
      simp [List.intercalate]
    · simp at h
  · rintro ⟨hg, hv, rfl, rfl⟩
    simp [groupVersionKind, pySplit_append hg, pySplit_of_not_mem hv]

/-- **C43** is false for the kinds of the core group: an object whose `apiVersion` names the
expected version ends the watch instead of being put in the store. -/
theorem C43_refuted (v k : List Char) (hv : '/' ∉ v) (t : EType) (version : String)
    (items : List Dict) (lv l : String) (es : List (Event Dict)) (end_ : StreamEnd)
    (ws : List (Watch Dict)) :
    (listAndWatch (dictAccess [] v k) l (.listed items lv
      (.stream (⟨t, ⟨apiVersionOf [] v, k, version⟩, false⟩ :: es) end_ :: ws))).calls
      = [.list "0", .replace items lv, .watch lv] ∧
    (listAndWatch (dictAccess [] v k) l (.listed items lv
      (.stream (⟨t, ⟨apiVersionOf [] v, k, version⟩, false⟩ :: es) end_ :: ws))).status
      = .ended := by
  have hr : onEvent (dictAccess [] v k) ⟨t, ⟨apiVersionOf [] v, k, version⟩, false⟩ = .raised := by
    unfold onEvent check
    simp [dictAccess, groupVersionKind, apiVersionOf, pySplit_of_not_mem hv]
  simp [listAndWatch, watchAll, watchLoop, hr]

example : apiVersionOf [] "v1".toList = "v1".toList ∧ '/' ∉ "v1".toList := by decide

/-- **C43** for the other groups: in a stream without errors whose objects all have a group, exactly
the objects are put in the store whose `apiVersion` and `kind` name the expected kind.  Missing:
the core group, see `C43_refuted`. -/
theorem C43_partial (g v k : List Char) (hg : '/' ∉ g) (hg' : g ≠ []) (hv : '/' ∉ v)
    (items : List Dict) (lv l : String) (es : List (Event Dict))
    (hes : ∀ e ∈ es, e.type ≠ .error ∧ ∃ g' v', '/' ∉ g' ∧ '/' ∉ v' ∧ g' ≠ [] ∧
      e.object.apiVersion = apiVersionOf g' v') :
    onStore (listAndWatch (dictAccess g v k) l (.listed items lv [.stream es .open])).calls =
      .replace items lv :: (es.filter fun e =>
        e.object.apiVersion = apiVersionOf g v ∧ e.object.kind = k).filterMap change := by
  have hk : ∀ e ∈ es, ¬ Fatal (dictAccess g v k) e ∧ (Wanted (dictAccess g v k) e ↔
      e.object.apiVersion = apiVersionOf g v ∧ e.object.kind = k) := by
    intro e he
    obtain ⟨h1, g', v', h2, h3, h4, h5⟩ := hes e he
    have hx : groupVersionKind e.object.apiVersion e.object.kind = some (g', v', e.object.kind) :=
      gvk_iff.2 ⟨h2, h3, by rw [h5, apiVersionOf, if_neg h4], rfl⟩
    refine ⟨?_, ?_⟩
    · rintro (h | ⟨-, -, h⟩ | ⟨-, h⟩)
      · exact h1 h
      · simp only [dictAccess] at h; rw [hx] at h; simp at h
      · simp [dictAccess] at h
    · constructor
      · rintro ⟨-, h, -⟩
        have := gvk_iff.1 (h (g, v, k) rfl)
        exact ⟨by rw [apiVersionOf, if_neg hg']; exact this.2.2.1, this.2.2.2⟩
      · rintro ⟨ha, hb⟩
        refine ⟨rfl, ?_, rfl⟩
        intro x hx'
        cases hx'
        refine gvk_iff.2 ⟨hg, hv, ?_, hb⟩
        rw [ha, apiVersionOf, if_neg hg']
  have hacc : accepted (dictAccess g v k) es = es.filter fun e =>
      e.object.apiVersion = apiVersionOf g v ∧ e.object.kind = k := by
    unfold accepted
    rw [takeWhile_all fun e he => by simp [(hk e he).1]]
    exact List.filter_congr fun e he => by simp only [(hk e he).2]
  have hst : onStore (listAndWatch (dictAccess g v k) l
      (.listed items lv [.stream es .open])).calls
      = .replace items lv :: onStore (watchAll (dictAccess g v k) lv lv [.stream es .open]).calls :=
    rfl
  have hN : ¬ Normal (dictAccess g v k) (.stream es .open) := by simp [Normal]
  rw [hst, watchAll_onStore, made_cons_not hN, ← hacc]
  simp [events]

example : apiVersionOf "apps".toList "v1".toList = "apps/v1".toList := by decide

end Aiok8s.Reflector
