import Verif.EncTable
/-!
# The command's list of encodings

Models `printEncodings`, src/cmd/main.cpp:78-107, for the two tables of encodings.h.
-/
namespace Verif.EncTable

/-- Grouping the names by the numbers of their canonical names, src/cmd/main.cpp:83-92; `none` is
a number without canonical name, with which both arrays are read out of bounds. -/
def group (canon : List Name) : IdMap → List (List Name) → Option (List (List Name))
  | [], aliases => some aliases
  | (n, i) :: m, aliases =>
    match canon[i]? with
    | none => none
    | some c => if n ≠ c then group canon m (aliases.modify i (· ++ [n])) else group canon m aliases

/-- The lines of one encoding, src/cmd/main.cpp:95-101. -/
def encodingLines (c : Name) (aliases : List Name) : List UInt8 :=
  c ++ [10] ++ aliases.flatMap fun a => [9] ++ a ++ [10]

/-- `printEncodings`, src/cmd/main.cpp:78-107, for `LG_CANONICAL_ENCODINGS` and `LG_ENCODINGS`. -/
def printEncodings (canon : List Name) (encodings : IdMap) : Option (List UInt8) :=
  (group canon encodings (List.replicate canon.length [])).map fun aliases =>
    ((canon.zip aliases).flatMap fun x => encodingLines x.1 x.2) ++ [10]

end Verif.EncTable
