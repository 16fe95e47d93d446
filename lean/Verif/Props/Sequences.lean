import Verif.Sequences
/-! # C48: duplicate removal keeps exactly the first occurrences, in order -/
namespace Verif.Sequences

/-- Specification: the elements at the positions `i` where the value does not
occur at an earlier position, in order of position. -/
def firstOccurrences {α : Type} [DecidableEq α] (l : List α) : List α :=
  ((List.range l.length).filterMap (fun i => match l[i]? with
    | some x => if x ∈ l.take i then none else some x
    | none => none))

theorem removeDups_eq {α : Type} [DecidableEq α] (pre : List α) : ∀ (l : List α) (seen : List α),
    (∀ x, x ∈ seen ↔ x ∈ pre) →
    removeDups seen l = (List.range l.length).filterMap (fun i => match l[i]? with
      | some x => if x ∈ pre ++ l.take i then none else some x
      | none => none) := by
  intro l
  induction l generalizing pre with
  | nil => intro seen _; rfl
  | cons y ys ih =>
    intro seen hs
    rw [List.length_cons, List.range_succ_eq_map, List.filterMap_cons, List.filterMap_map]
    simp only [removeDups, List.getElem?_cons_zero, List.take_zero, List.append_nil]
    by_cases hy : y ∈ seen
    · rw [if_pos hy, if_pos ((hs y).1 hy)]
      simp only
      rw [ih pre seen hs]
      congr 1
      funext i
      simp only [Function.comp, List.getElem?_cons_succ, List.take_succ_cons]
      cases ys[i]? with
      | none => rfl
      | some x =>
        simp only [List.mem_append, List.mem_cons]
        have : (x ∈ pre ∨ x ∈ ys.take i) ↔ (x ∈ pre ∨ x = y ∨ x ∈ ys.take i) := by
          constructor
          · rintro (h | h)
            · exact Or.inl h
            · exact Or.inr (Or.inr h)
          · rintro (h | h | h)
            · exact Or.inl h
            · subst h; exact Or.inl ((hs x).1 hy)
            · exact Or.inr h
        simp only [this]
    · rw [if_neg hy, if_neg (fun h => hy ((hs y).2 h))]
      simp only
      rw [ih (pre ++ [y]) (y :: seen) (by intro x; simp [hs x, or_comm])]
      congr 2
      funext i
      simp only [Function.comp, List.getElem?_cons_succ, List.take_succ_cons]
      cases ys[i]? with
      | none => rfl
      | some x => simp [List.append_assoc]

/-- The result is the list of first occurrences. -/
theorem removeRightDuplicates_first {α : Type} [DecidableEq α] (l : List α) :
    removeRightDuplicates l = firstOccurrences l := by
  unfold removeRightDuplicates firstOccurrences
  rw [removeDups_eq [] l [] (by simp)]
  simp only [List.nil_append]

/-- The result has no duplicates, the same members, and is a subsequence. -/
theorem removeRightDuplicates_set {α : Type} [DecidableEq α] (l : List α) :
    (removeRightDuplicates l).Nodup ∧ (∀ x, x ∈ removeRightDuplicates l ↔ x ∈ l) ∧
    (removeRightDuplicates l).Sublist l := by
  have key : ∀ (l seen : List α), (removeDups seen l).Nodup ∧
      (∀ x, x ∈ removeDups seen l ↔ x ∈ l ∧ x ∉ seen) ∧ (removeDups seen l).Sublist l := by
    intro l
    induction l with
    | nil => intro seen; simp [removeDups]
    | cons y ys ih =>
      intro seen
      simp only [removeDups]
      split
      · rename_i hy
        obtain ⟨a, b, c⟩ := ih seen
        refine ⟨a, fun x => ?_, c.cons y⟩
        rw [b]
        constructor
        · rintro ⟨h1, h2⟩; exact ⟨by simp [h1], h2⟩
        · rintro ⟨h1, h2⟩
          rcases List.mem_cons.1 h1 with h | h
          · subst h; exact absurd hy h2
          · exact ⟨h, h2⟩
      · rename_i hy
        obtain ⟨a, b, c⟩ := ih (y :: seen)
        refine ⟨?_, fun x => ?_, c.cons_cons y⟩
        · rw [List.nodup_cons]
          refine ⟨?_, a⟩
          rw [b]; simp
        · rw [List.mem_cons, List.mem_cons, b]
          constructor
          · rintro (h | ⟨h1, h2⟩)
            · subst h; exact ⟨Or.inl rfl, hy⟩
            · exact ⟨Or.inr h1, fun h => h2 (by simp [h])⟩
          · rintro ⟨h | h, h2⟩
            · exact Or.inl h
            · by_cases hxy : x = y
              · exact Or.inl hxy
              · exact Or.inr ⟨h, by simp [hxy, h2]⟩
  obtain ⟨a, b, c⟩ := key l []
  exact ⟨a, fun x => by rw [removeRightDuplicates, b]; simp, c⟩

example : removeRightDuplicates [3, 1, 3, 2, 1, 4] = [3, 1, 2, 4] := by decide

end Verif.Sequences
