import Verif.Proof.Heapq
/-!
# Property C77: `heapq`
-/
set_option linter.unusedSimpArgs false
namespace Aiok8s.Heapq
variable {E : Type} {lt : E → E → Bool}

/-- **C77.** The lists that pushes and pops make satisfy the documented invariant. -/
theorem C77_invariant (ho : Order lt) (os : List (Op E)) : IsHeap lt (run lt [] os).1 := by
  suffices h : ∀ os heap, IsHeap lt heap → IsHeap lt (run lt heap os).1 from
    h os [] (by intro i h; simp at h)
  intro os
  induction os with
  | nil => intro heap h; exact h
  | cons o os ih =>
    intro heap h
    cases o with
    | push x => exact ih _ (heappush_spec ho heap x h).1
    | pop =>
      refine ih _ ?_
      cases heap with
      | nil => exact h
      | cons top rest => exact (heappop_spec ho top rest h).1

private theorem bag_perm {os : List (Op E)} {outs : List (Option E)} {a : List E} (h : Bag lt a os outs) :
    ∀ b : List E, b.Perm a → Bag lt b os outs := by
  induction h with
  | done bag => intro b _; exact .done b
  | push bag x os outs _ ih => intro b hb; exact .push b x os outs (ih _ (hb.cons x))
  | empty os outs h _ => intro b hb; rw [List.perm_nil.1 hb]; exact .empty os outs h
  | pop bag x rest os outs hp hm h _ => intro b hb; exact .pop b x rest os outs (hb.trans hp) hm h

/-- **C77.** Any pushes and pops behave like a bag from which every pop takes a smallest entry: nothing is
lost, doubled or made up, and a pop fails only if the bag is empty. -/
theorem C77_bag (ho : Order lt) (os : List (Op E)) : Bag lt [] os (run lt [] os).2 := by
  suffices h : ∀ os heap, IsHeap lt heap → Bag lt heap os (run lt heap os).2 from
    h os [] (by intro i h; simp at h)
  intro os
  induction os with
  | nil => intro heap h; exact .done heap
  | cons o os ih =>
    intro heap h
    cases o with
    | push x =>
      have := heappush_spec ho heap x h
      exact .push heap x os _ (bag_perm (ih _ this.1) _ this.2.symm)
    | pop =>
      cases heap with
      | nil => exact .empty os _ (ih [] h)
      | cons top rest =>
        obtain ⟨h1, h2, h3⟩ := heappop_spec ho top rest h
        simp only [run, h2]
        refine .pop _ top rest os _ (List.Perm.refl _) ?_ (bag_perm (ih _ h1) _ h3.symm)
        intro y hy
        obtain ⟨i, hi, rfl⟩ := List.getElem_of_mem hy
        have := root_least ho (top :: rest) h (by simp) (i + 1) (by simpa using hi) (by omega)
        simpa using this

private theorem order_nat : Order (fun a b : Nat => decide (a < b)) :=
  ⟨fun a b h => by simp at h ⊢; omega, fun a b c h1 h2 => by simp at h1 h2 ⊢; omega⟩

-- the list is not sorted, the pops come out in order
example : Order (fun a b : Nat => decide (a < b)) ∧
    run (fun a b : Nat => decide (a < b)) [] ([9, 3, 7, 1, 8, 2, 5, 2].map Op.push) =
      ([1, 2, 2, 3, 8, 7, 5, 9], []) ∧
    (run (fun a b : Nat => decide (a < b)) []
      ([9, 3, 7, 1, 8, 2, 5, 2].map Op.push ++ List.replicate 9 .pop)).2 =
      [some 1, some 2, some 2, some 3, some 5, some 7, some 8, some 9, none] :=
  ⟨order_nat, by decide +kernel, by decide +kernel⟩

end Aiok8s.Heapq
