/-!
# Python's `str.split` with a separator of one character

Strings are lists of characters.
-/
namespace Aiok8s

/-- `s.split(sep)`. -/
def pySplit (sep : Char) : List Char → List (List Char)
  | [] => [[]]
  | c :: cs =>
    if c = sep then [] :: pySplit sep cs
    else match pySplit sep cs with
      | [] => [[c]]
      | p :: ps => (c :: p) :: ps

theorem pySplit_ne_nil (sep : Char) (s : List Char) : pySplit sep s ≠ [] := by
  cases s with
  | nil => simp [pySplit]
  | cons c cs =>
    rw [pySplit]
    split
    · simp
    · split <;> simp

theorem pySplit_of_not_mem {sep : Char} {s : List Char} (h : sep ∉ s) : pySplit sep s = [s] := by
  induction s with
  | nil => rfl
  | cons c cs ih =>
    simp only [List.mem_cons, not_or] at h
    rw [pySplit, if_neg (fun hc => h.1 hc.symm), ih h.2]

theorem pySplit_append {sep : Char} {s : List Char} (h : sep ∉ s) (t : List Char) :
    pySplit sep (s ++ sep :: t) = s :: pySplit sep t := by
  induction s with
  | nil => simp [pySplit]
  | cons c cs ih =>
    simp only [List.mem_cons, not_or] at h
    rw [List.cons_append, pySplit, if_neg (fun hc => h.1 hc.symm), ih h.2]

/-- Splitting loses nothing and leaves no separator. -/
theorem pySplit_spec (sep : Char) (s : List Char) :
    (∀ p ∈ pySplit sep s, sep ∉ p) ∧ s = List.intercalate [sep] (pySplit sep s) := by
  induction s with
  | nil => simp [pySplit, List.intercalate]
  | cons c cs ih =>
    rw [pySplit]
    split
    · rename_i h
      subst h
      refine ⟨by simpa using ih.1, ?_⟩
      have := pySplit_ne_nil c cs
      cases hp : pySplit c cs with
      | nil => exact absurd hp this
      | cons p ps =>
        have h2 := ih.2
        rw [hp] at h2
        rw [List.intercalate_cons_cons]
        simp [← h2]
    · rename_i h
      cases hp : pySplit sep cs with
      | nil => exact absurd hp (pySplit_ne_nil sep cs)
      | cons p ps =>
        rw [hp] at ih
        refine ⟨?_, ?_⟩
        · intro q hq
          simp only [List.mem_cons] at hq
          rcases hq with rfl | hq
          · have := ih.1 p (by simp)
            simp only [List.mem_cons, not_or]
            exact ⟨fun hc => h hc.symm, this⟩
          · exact ih.1 q (by simp [hq])
        · have h2 := ih.2
          cases ps with
          | nil => simp [List.intercalate] at h2 ⊢; exact h2
          | cons q qs =>
            rw [List.intercalate_cons_cons] at h2 ⊢
            rw [h2]
            simp

end Aiok8s
