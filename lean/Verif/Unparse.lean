import Verif.Encoders
/-!
# Writing a pattern from its parse tree (src/lib/unparser.cpp)

Texts are lists of characters, all of them below 128.
-/
namespace Verif.Unparse

open Verif.Regex (Tree UNB)
open Verif.Encoders (Node)

/-- The digits of a number, the most significant first, as `operator<<` writes them; `n` bounds their number. -/
def digits (b : Nat) : Nat → Nat → List Nat
  | 0, _ => []
  | n + 1, x => if x < b then [x] else digits b n (x / b) ++ [x % b]

/-- A decimal number, parsenode.cpp 39–45. -/
def decimal (x : Nat) : List Nat := (digits 10 (x + 1) x).map (48 + ·)

/-- An upper-case hexadecimal digit (`std::hex << std::uppercase`). -/
def hexDigit (d : Nat) : Nat := if d < 10 then 48 + d else 55 + d

/-- A hexadecimal number with at least two digits, unparser.cpp 77–78, 107–108. -/
def hexCode (x : Nat) : List Nat :=
  let ds := (digits 16 (x + 1) x).map hexDigit
  if ds.length < 2 then 48 :: ds else ds

/-- `byteToLiteralString`, unparser.cpp 56–83, and with `inClass` `byteToCharacterString`, 85–113, which differ
in the escape for the backspace only. -/
def escaped (inClass : Bool) (i : Nat) : List Nat :=
  if i = 92 then [92, 92]
  else if 0x20 ≤ i ∧ i ≤ 0x7E then [i]
  else if i = 7 then [92, 97]
  else if inClass ∧ i = 8 then [92, 98]
  else if i = 9 then [92, 116]
  else if i = 10 then [92, 110]
  else if i = 12 then [92, 102]
  else if i = 13 then [92, 114]
  else if i = 27 then [92, 101]
  else 92 :: 120 :: hexCode i

/-! ## Classes -/

/-- The variables of the first loop of `byteSetToCharacterClass`, unparser.cpp 128–131. -/
structure Sizes where
  diff : Int
  left : Nat
  both : Bool

/-- One iteration of the loop of unparser.cpp 133–143. -/
def sizeStep (bs : Nat → Bool) (s : Sizes) (i : Nat) : Sizes :=
  let s := if i < 256 ∧ (bs i ^^ bs 0) then { s with both := true } else s
  if i = 256 ∨ (bs (i - 1) ^^ bs i) then
    let len : Int := (Nat.min (i - s.left) 3 : Nat)
    { s with diff := s.diff + (if bs (i - 1) then len else -len), left := i }
  else s

/-- The first loop, unparser.cpp 127–143: `i` from 1 to 256. -/
def sizes (bs : Nat → Bool) : Sizes := (List.range' 1 256).foldl (sizeStep bs) ⟨-1, 0, false⟩

/-- The variables of the second loop, unparser.cpp 153–163; `left` above 255 stands for no range. -/
structure St where
  left : Nat
  first : Bool
  caret : Bool
  hyphen : Bool
  out : List Nat

/-- The loop over a small range, unparser.cpp 210–221: `n` characters from `j`. -/
def enumerate : Nat → Nat → Bool → List Nat → List Nat
  | 0, _, _, out => out
  | n + 1, j, first, out =>
    if j = 93 then
      enumerate n (j + 1) false ((if first then out else out ++ [92]) ++ escaped true j)
    else enumerate n (j + 1) first (out ++ escaped true j)

/-- Writing the range from `left` to `right`, unparser.cpp 208–242. -/
def writeRange (left right : Nat) (first : Bool) (out : List Nat) : List Nat :=
  if right - left + 1 < 4 then enumerate (right - left + 1) left first out
  else
    (if left = 93 ∧ first = false then out ++ [92] else out) ++ escaped true left ++ [45] ++
      (if right = 93 then [92] else []) ++ escaped true right

/-- From unparser.cpp 194 on: the caret, and writing the range. -/
def completeCaret (s : St) (left right : Nat) (hyphen : Bool) : St :=
  if (s.first || hyphen) = true ∧ left = 94 then
    if left = right then ⟨256, false, true, hyphen, s.out⟩
    else ⟨256, false, true, hyphen, writeRange (left + 1) right s.first s.out⟩
  else ⟨256, false, s.caret, hyphen, writeRange left right s.first s.out⟩

/-- A completed range ending at `right`, unparser.cpp 173–246. -/
def complete (s : St) (right : Nat) : St :=
  if s.left = 45 then
    if s.left = right then ⟨256, false, s.caret, true, s.out⟩
    else completeCaret s (s.left + 1) right true
  else if right = 45 then completeCaret s s.left (right - 1) true
  else completeCaret s s.left right s.hyphen

/-- One iteration of the loop of unparser.cpp 165–247; `on` is `invert ^ bs[i]`. -/
def step (on : Nat → Bool) (s : St) (i : Nat) : St :=
  if i < 256 ∧ on i then (if s.left > 255 then { s with left := i } else s)
  else if s.left ≤ 255 then complete s (i - 1)
  else s

/-- What is written after the loop, unparser.cpp 249–271. -/
def tail (s : St) : List Nat :=
  if s.hyphen then
    if s.caret then (if s.out = [] then [45, 94] else s.out ++ [94, 45])
    else s.out ++ [45]
  else if s.caret then (if s.out = [] then [92, 94] else s.out ++ [94])
  else s.out

/-- `byteSetToCharacterClass`, unparser.cpp 125–274. -/
def classText (bs : Nat → Bool) : List Nat :=
  let z := sizes bs
  if z.both = false then
    if bs 0 then [92, 120, 48, 48, 45, 92, 120, 70, 70] else [94, 92, 120, 48, 48, 45, 92, 120, 70, 70]
  else
    let invert : Bool := decide (z.diff > 0)
    tail ((List.range 257).foldl (step fun i => invert ^^ bs i) ⟨256, true, false, false, if invert then [94] else []⟩)

/-! ## Trees -/

/-- `is_atomic`, unparser.cpp 31–34. -/
def isAtomic : Tree Node → Bool
  | .leaf .dot => true
  | .leaf (.cls ..) => true
  | .leaf (.lit _) => true
  | _ => false

/-- Whether a node is an `ALTERNATION`. -/
def isAlt : Tree Node → Bool
  | .alt .. => true
  | _ => false

/-- Parentheses, if they are asked for. -/
def paren (b : Bool) (s : List Nat) : List Nat := if b then 40 :: (s ++ [41]) else s

/-- `repetition`, parsenode.cpp 20–48. -/
def repetition (min max : Nat) : List Nat :=
  if min = 0 ∧ max = 1 then [63]
  else if min = 0 ∧ max = UNB then [42]
  else if min = 1 ∧ max = UNB then [43]
  else 123 :: (decimal min ++ (if max = UNB then [44] else if max ≠ min then 44 :: decimal max else []) ++ [125])

/-- A node that is no operator, unparser.cpp 327–348: a class is written from its code points below 256. -/
def leafText : Node → List Nat
  | .dot => [46]
  | .cls cps _ _ => 91 :: (classText (fun i => RangeSet.test cps i) ++ [93])
  | .lit c => escaped false c
  | .byte b => escaped false b.toNat

/-- `unparse`, unparser.cpp 276–354, below the root; `none` is the exception. -/
def unparse : Tree Node → Option (List Nat)
  | .leaf a => some (leafText a)
  | .alt l r => do some ((← unparse l) ++ 124 :: (← unparse r))
  | .cat l r => do some (paren (isAlt l) (← unparse l) ++ paren (isAlt r) (← unparse r))
  | .rep ng lo hi t => do some (paren (!isAtomic t) (← unparse t) ++ repetition lo hi ++ (if ng then [63] else []))
  | .look _ _ => none

/-- `unparse` on a whole tree, unparser.cpp 276–284, 356–360; the root has no child if the rewriter left nothing. -/
def unparseRoot : Option (Tree Node) → Option (List Nat)
  | none => some []
  | some t => unparse t

end Verif.Unparse
