import Verif.RangeSet
/-!
# Numeric escapes, case folding and the built-in character classes

Models `include/parseutil.h`, `src/lib/parseutil.cpp` and the escape part of the
lexer in `src/lib/re_grammar.ypp`.  Pattern text is a list of `Int`: the decoder
delivers code points as `int`, with -1 for malformed UTF-8.  A parsing function that
takes `Iterator& i` becomes a function returning the result and the remaining text.
The value −1 ("refused") is `none`.
-/
namespace Verif.ParseUtil

/-- `parseHexChar`, parseutil.cpp 28–58. -/
def parseHexChar (c : Int) : Option Nat :=
  if 48 ≤ c ∧ c ≤ 57 then some (c - 48).toNat
  else if 65 ≤ c ∧ c ≤ 70 then some (c - 65 + 10).toNat
  else if 97 ≤ c ∧ c ≤ 102 then some (c - 97 + 10).toNat
  else none

/-- `parseOctChar`, parseutil.cpp 60–62. -/
def parseOctChar (c : Int) : Option Nat :=
  if 48 ≤ c ∧ c ≤ 55 then some (c - 48).toNat else none

/-- `parseHexByte`, parseutil.h 38–51.  `val |= -1` is -1, so a bad second digit is
refused too. -/
def parseHexByte : List Int → Option Nat × List Int
  | [] => (none, [])
  | c :: t =>
    match parseHexChar c, t with
    | none, t => (none, t)
    | some _, [] => (none, [])
    | some v, d :: r =>
      match parseHexChar d with
      | none => (none, r)
      | some w => (some ((v <<< 4) ||| w), r)

/-- The loop of `parseHexCodePoint`, parseutil.h 61–101: `n` characters are left
before `end`. -/
def hexLoop : Nat → Nat → List Int → Option Nat × List Int
  | 0, _, t => (none, t)
  | _ + 1, _, [] => (none, [])
  | n + 1, val, c :: t =>
    match parseHexChar c with
    | some d => hexLoop n ((val <<< 4) ||| d) t
    | none => if c = 125 then (if val > 0x10FFFF then (none, t) else (some val, t)) else (none, t)

/-- `parseHexCodePoint`, parseutil.h 54–102 (`end = min(i + 7, iend)`). -/
def parseHexCodePoint : List Int → Option Nat × List Int
  | [] => (none, [])
  | c :: t => if c = 125 then (none, c :: t) else hexLoop 7 0 (c :: t)

/-- The loop of `parseOctByte`, parseutil.h 111–122. -/
def octLoop : Nat → Nat → List Int → Nat × List Int
  | 0, oct, t => (oct, t)
  | _ + 1, oct, [] => (oct, [])
  | n + 1, oct, c :: t =>
    match parseOctChar c with
    | none => (oct, c :: t)
    | some d => octLoop n ((oct <<< 3) ||| d) t

/-- `parseOctByte`, parseutil.h 107–125. -/
def parseOctByte (t : List Int) : Option Nat × List Int :=
  let r := octLoop 3 0 t
  (if r.1 > 255 then none else some r.1, r.2)

/-- `parseNamedCodePoint`, parseutil.h 158–188; `byName` stands for the ICU branch
(lines 175–187; without ICU it is `fun t => (none, t)`). -/
def parseNamedCodePoint (byName : List Int → Option Nat × List Int) :
    List Int → Option Nat × List Int
  | [] => (none, [])
  | c :: t =>
    if c ≠ 123 then (none, t)
    else match t with
      | 85 :: 43 :: r => parseHexCodePoint r
      | _ => byName t

/-- Lexer tokens that a numeric escape can give. -/
inductive Tok where
  | char (n : Nat)
  | byte (n : Nat)
  | bad
  deriving DecidableEq, Repr

/-- `consumeSingleton`, re_grammar.ypp 1097–1107. -/
def consumeSingleton (r : Option Nat × List Int) (type : Nat → Tok) : Tok × List Int :=
  match r.1 with
  | none => (.bad, r.2)
  | some v => (type v, r.2)

/-- The numeric cases of `consumeEscape`, re_grammar.ypp 1242–1273.  The argument is
the text after the backslash; `none` if the escape is not one of the numeric ones. -/
def consumeNumeric (byName : List Int → Option Nat × List Int) :
    List Int → Option (Tok × List Int)
  | [] => none
  | c :: t =>
    if c = 120 then
      match t with
      | [] => some (.bad, [])
      | d :: r =>
        if d = 123 then some (consumeSingleton (parseHexCodePoint r) .char)
        else some (consumeSingleton (parseHexByte (d :: r)) .char)
    else if c = 122 then some (consumeSingleton (parseHexByte t) .byte)
    else if 48 ≤ c ∧ c ≤ 55 then some (consumeSingleton (parseOctByte (c :: t)) .char)
    else if c = 78 then some (consumeSingleton (parseNamedCodePoint byName t) .char)
    else none

/-! ## Case folding -/

/-- The number of code points, the bound of `UnicodeSet` (include/rangeset.h,
include/basic.h: `RangeSet<uint32_t, 0x110000>`). -/
def cps : Nat := 0x110000

/-- One of the two loops of `caseDesensitizeAscii`, parseutil.cpp 123–135: insert
each range, moved by `f`. -/
def insertMoved (f : Nat → Nat) (us : List Nat) (rs : List (Nat × Nat)) : List Nat :=
  rs.foldl (fun us r => RangeSet.insert us (f r.1) (f r.2)) us

/-- The ICU part of `caseDesensitizeAscii`, parseutil.cpp 137–144. -/
def icuPart (icu : Option (List Nat → Option (List Nat))) (us2 : List Nat) : Option (List Nat) :=
  match icu with
  | none => some us2
  | some close => do
    let high ← RangeSet.inter cps us2 [0x80, 0x110000]
    if RangeSet.any high then
      match close high with
      | none => some us2
      | some h => RangeSet.union us2 h
    else some us2

/-- `caseDesensitizeAscii`, parseutil.cpp 116–148: the new set and the returned flag.
`icu` is `none` for a build without ICU; otherwise it is `caseDesensitizeUnicode`
(lines 101–113), giving the closed set or nothing if there was no change.  The
outer `Option` is undefined behaviour inside the range set. -/
def caseDesensitizeAscii (icu : Option (List Nat → Option (List Nat))) (us : List Nat) :
    Option (List Nat × Bool) := do
  let up ← RangeSet.inter cps us [65, 91]
  let us1 := insertMoved (· + 32) us (RangeSet.ranges up)
  let lo ← RangeSet.inter cps us1 [97, 123]
  let us2 := insertMoved (· - 32) us1 (RangeSet.ranges lo)
  let us3 ← icuPart icu us2
  some (us3, decide (RangeSet.count us < RangeSet.count us3))

/-! ## Built-in classes (in ASCII mode, and the two space classes) -/

/-- `us.set(x)` and `us.insert(a, b)` in sequence, from the empty set
(`ctx->USet.reset()` before each use, re_grammar.ypp 1176–1240). -/
def build (rs : List (Nat × Nat)) : List Nat :=
  rs.foldl (fun us r => RangeSet.insert us r.1 r.2) []

/-- `setDigitClass` in ASCII mode, parseutil.cpp 158–171. -/
def digitClass : List Nat := build [(48, 58)]

/-- `setWordClass` in ASCII mode, parseutil.cpp 218–236. -/
def wordClass : List Nat := build [(48, 58), (65, 91), (95, 96), (97, 123)]

/-- `setHorizontalSpaceClass`, parseutil.cpp 173–194. -/
def hSpaceRanges : List (Nat × Nat) :=
  [(9, 10), (32, 33), (0xA0, 0xA1), (0x1680, 0x1681), (0x180E, 0x180F), (0x2000, 0x200B),
   (0x202F, 0x2030), (0x205F, 0x2060), (0x3000, 0x3001)]

/-- `setVerticalSpaceClass`, parseutil.cpp 196–202. -/
def vSpaceRanges : List (Nat × Nat) := [(0x0A, 0x0E), (0x85, 0x86), (0x2028, 0x202A)]

/-- `setSpaceClass`, parseutil.cpp 204–216. -/
def spaceClass (ascii : Bool) : List Nat :=
  if ascii then build [(9, 0x0E), (32, 33)] else build (hSpaceRanges ++ vSpaceRanges)

/-- `setHorizontalSpaceClass` on an empty set. -/
def hSpaceClass : List Nat := build hSpaceRanges

/-- `setVerticalSpaceClass` on an empty set. -/
def vSpaceClass : List Nat := build vSpaceRanges

/-- The upper-case escapes: the class, then `flip()`, re_grammar.ypp 1183–1240. -/
def negated (c : List Nat) : Option (List Nat) := RangeSet.flip cps c

end Verif.ParseUtil
