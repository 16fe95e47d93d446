/-!
# UTF-8, UTF-16 and UTF-32 codecs

Bytes are natural numbers below 256.  A decoder looks at the bytes from the
current position to the end of the buffer; indexing outside them is the outcome
`ub`.  Code points handed to the encoders are `Int` (the C++ `int32_t`).
-/
namespace Verif.Utf

/-- Outcome of decoding one code point: value and bytes consumed, failure
(0 consumed), or an out-of-bounds read. -/
inductive Dec where
  | ok (cp n : Nat)
  | fail
  | ub
deriving Repr, DecidableEq

/-- Reading `buf[i]`. -/
def rd (buf : List Nat) (i : Nat) (k : Nat → Dec) : Dec :=
  match buf[i]? with
  | none => .ub
  | some b => k b

/-- The `CONTINUATION` macro, include/decoders/utf8.h:20-28, with `i` already
incremented. -/
def cont (buf : List Nat) (i cp : Nat) (k : Nat → Dec) : Dec :=
  if i = buf.length then .fail
  else rd buf i fun x =>
    let b := x &&& 0xFF
    if b < 0x80 ∨ 0xBF < b then .fail else k ((cp <<< 6) ||| (b &&& 0x3F))

/-- include/decoders/utf8.h:31-89 `utf8_to_cp`. -/
def utf8ToCp (buf : List Nat) : Dec :=
  if buf.length = 0 then .fail
  else rd buf 0 fun x =>
    let cp := x &&& 0xFF
    if cp < 0x80 then .ok cp 1
    else if cp < 0xE0 then
      if cp < 0xC2 then .fail
      else cont buf 1 (cp &&& 0x1F) fun cp => .ok cp 2
    else if cp < 0xF0 then
      cont buf 1 (cp &&& 0x0F) fun cp => cont buf 2 cp fun cp =>
        if cp < 0x800 ∨ (0xD7FF < cp ∧ cp < 0xE000) then .fail else .ok cp 3
    else if cp < 0xF5 then
      cont buf 1 (cp &&& 0x07) fun cp => cont buf 2 cp fun cp => cont buf 3 cp fun cp =>
        if cp < 0x10000 ∨ cp > 0x10FFFF then .fail else .ok cp 4
    else .fail

/-- include/decoders/utf8.h:93-140 `cp_to_utf8`, and src/lib/utf8.cpp:21-67
`UTF8::write(cp, buf)`, which has the same body.  The empty list is the return
value 0. -/
def cpToUtf8 (c : Int) : List Nat :=
  if c < 0 then []
  else
    let cp := c.toNat
    if cp < 0x80 then [cp]
    else if cp < 0x800 then
      [0xC0 ||| ((cp >>> 6) &&& 0x1F), 0x80 ||| (cp &&& 0x3F)]
    else if cp < 0xD800 then
      [0xE0 ||| ((cp >>> 12) &&& 0x0F), 0x80 ||| ((cp >>> 6) &&& 0x3F), 0x80 ||| (cp &&& 0x3F)]
    else if cp < 0xE000 then []
    else if cp < 0x10000 then
      [0xE0 ||| ((cp >>> 12) &&& 0x0F), 0x80 ||| ((cp >>> 6) &&& 0x3F), 0x80 ||| (cp &&& 0x3F)]
    else if cp < 0x110000 then
      [0xF0 ||| ((cp >>> 18) &&& 0x07), 0x80 ||| ((cp >>> 12) &&& 0x3F),
        0x80 ||| ((cp >>> 6) &&& 0x3F), 0x80 ||| (cp &&& 0x3F)]
    else []

/-- Outcome of `utf8_to_unicode`: the code point (`none` for -1) and the number
of bytes used, or an out-of-bounds read. -/
inductive DecU where
  | ret (cp : Option Nat) (used : Nat)
  | ub
deriving Repr, DecidableEq

/-- The `CONTINUATION` macro of include/unicode.h:24-34. -/
def contU (buf : List Nat) (i cp used : Nat) (k : Nat → DecU) : DecU :=
  if i = buf.length then .ret none used
  else match buf[i]? with
    | none => .ub
    | some x =>
      let b := x &&& 0xFF
      if b < 0x80 ∨ 0xBF < b then .ret none used else k ((cp <<< 6) ||| (b &&& 0x3F))

/-- include/unicode.h:36-97 `utf8_to_unicode`. -/
def utf8ToUnicode (buf : List Nat) : DecU :=
  if buf.length = 0 then .ret none 0
  else match buf[0]? with
    | none => .ub
    | some x =>
      let cp := x &&& 0xFF
      if cp < 0x80 then .ret (some cp) 1
      else if cp < 0xE0 then
        if cp < 0xC2 then .ret none 1
        else contU buf 1 (cp &&& 0x1F) 2 fun cp => .ret (some cp) 2
      else if cp < 0xF0 then
        contU buf 1 (cp &&& 0x0F) 2 fun cp => contU buf 2 cp 3 fun cp =>
          if cp < 0x800 ∨ (0xD7FF < cp ∧ cp < 0xE000) then .ret none 3 else .ret (some cp) 3
      else if cp < 0xF5 then
        contU buf 1 (cp &&& 0x07) 2 fun cp => contU buf 2 cp 3 fun cp => contU buf 3 cp 4 fun cp =>
          if cp < 0x10000 ∨ cp > 0x10FFFF then .ret none 4 else .ret (some cp) 4
      else .ret none 1

/-- include/unicode.h:116-137 `transform_utf8_to_unicode` as called on the
pattern text in src/lib/re_grammar.ypp:1501-1506: `rest` is what lies between
`ibegin` and `iend`.  The outer `none` is the undefined behaviour of moving
`ibegin` past `iend`.  An inner `none` is the code point -1.  `n` bounds the
iterations. -/
def transformUtf8 : Nat → List Nat → Option (List (Option Nat))
  | 0, _ => none
  | n + 1, rest =>
    if rest.length = 0 then some []
    else match utf8ToUnicode rest with
      | .ub => none
      | .ret cp used =>
        if rest.length < used then none
        else (transformUtf8 n (rest.drop used)).map (cp :: ·)

/-- Decoding of a pattern's text (src/lib/re_grammar.ypp:1501-1506). -/
def patternText (text : List Nat) : Option (List (Option Nat)) :=
  transformUtf8 (text.length + 1) text

/-- The two bytes of a 16-bit unit, as stored by include/decoders/utf16.h:75-76
(`buf[LE ? 0 : 1]`, `buf[LE ? 1 : 0]`). -/
def put16 (le : Bool) (lo hi : Nat) : List Nat := if le then [lo, hi] else [hi, lo]

/-- include/decoders/utf16.h:67-104 `cp_to_utf16`, and
include/encoders/utf16.h:32-68 `UTF16Base::write(cp, buf)`. -/
def cpToUtf16 (le : Bool) (c : Int) : List Nat :=
  if c < 0 then []
  else
    let cp := c.toNat
    if cp < 0xD800 then put16 le (cp &&& 0xFF) (cp >>> 8)
    else if cp < 0xE000 then []
    else if cp < 0x10000 then put16 le (cp &&& 0xFF) (cp >>> 8)
    else if cp < 0x110000 then
      let lead := 0xD800 - (0x10000 >>> 10) + (cp >>> 10)
      let trail := 0xDC00 + (cp &&& 0x3FF)
      put16 le (lead &&& 0xFF) (lead >>> 8) ++ put16 le (trail &&& 0xFF) (trail >>> 8)
    else []

/-- `buf[LE ? i : i+1] | (buf[LE ? i+1 : i] << 8)`. -/
def get16 (le : Bool) (buf : List Nat) (i : Nat) (k : Nat → Dec) : Dec :=
  rd buf (if le then i else i + 1) fun lo =>
    rd buf (if le then i + 1 else i) fun hi => k (lo ||| (hi <<< 8))

/-- include/decoders/utf16.h:20-65 `utf16_to_cp`. -/
def utf16ToCp (le : Bool) (buf : List Nat) : Dec :=
  if buf.length < 2 then .fail
  else get16 le buf 0 fun cp =>
    if cp < 0xD800 then .ok cp 2
    else if cp < 0xDC00 then
      if buf.length < 4 then .fail
      else get16 le buf 2 fun trail =>
        if trail < 0xDC00 then .fail
        else if trail < 0xE000 then
          .ok (((cp - (0xD800 - (0x10000 >>> 10))) <<< 10) ||| (trail - 0xDC00)) 4
        else .fail
    else if cp < 0xE000 then .fail
    else .ok cp 2

/-- The four bytes stored by include/decoders/utf32.h:49-52. -/
def put32 (le : Bool) (b0 b1 b2 b3 : Nat) : List Nat :=
  if le then [b0, b1, b2, b3] else [b3, b2, b1, b0]

/-- include/decoders/utf32.h:42-70 `cp_to_utf32`, and
include/encoders/utf32.h:32-59 `UTF32Base::write(cp, buf)`. -/
def cpToUtf32 (le : Bool) (c : Int) : List Nat :=
  if c < 0 then []
  else
    let cp := c.toNat
    if cp < 0xD800 then
      put32 le (cp &&& 0xFF) ((cp >>> 8) &&& 0xFF) ((cp >>> 16) &&& 0xFF) ((cp >>> 24) &&& 0xFF)
    else if cp < 0xE000 then []
    else if cp < 0x110000 then
      put32 le (cp &&& 0xFF) ((cp >>> 8) &&& 0xFF) ((cp >>> 16) &&& 0xFF) ((cp >>> 24) &&& 0xFF)
    else []

/-- include/decoders/utf32.h:20-40 `utf32_to_cp`; a value of 2^31 or more is a
negative `int32_t`. -/
def utf32ToCp (le : Bool) (buf : List Nat) : Dec :=
  if buf.length < 4 then .fail
  else
    rd buf (if le then 0 else 3) fun b0 => rd buf (if le then 1 else 2) fun b1 =>
    rd buf (if le then 2 else 1) fun b2 => rd buf (if le then 3 else 0) fun b3 =>
      let cp := b0 ||| (b1 <<< 8) ||| (b2 <<< 16) ||| (b3 <<< 24)
      if 0x80000000 ≤ cp ∨ (0xD800 ≤ cp ∧ cp < 0xE000) ∨ 0x110000 ≤ cp then .fail
      else .ok cp 4

end Verif.Utf
