/-! # removeRightDuplicates (include/sequences.h) -/
namespace Verif.Sequences

/-- include/sequences.h:24-46: `remove_if` with the `Duplicate` predicate, which
keeps the set of values seen so far (here: a list used only for membership).
`std::remove_if` applies the predicate to each element in order and keeps those
for which it is false. -/
def removeDups {α : Type} [DecidableEq α] : List α → List α → List α
  | _, [] => []
  | seen, x :: xs => if x ∈ seen then removeDups seen xs else x :: removeDups (x :: seen) xs

/-- `removeRightDuplicates(list)`. -/
def removeRightDuplicates {α : Type} [DecidableEq α] (l : List α) : List α := removeDups [] l

end Verif.Sequences
