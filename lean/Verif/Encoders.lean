import Verif.NfaBuilder
import Verif.RangeSet
import Verif.Converter
import Verif.Utf
import Verif.Transforms
import Mathlib.Data.List.Sort
/-!
# Encoding character classes

Models `EncoderBase::write` and what it calls for the encoders of
include/encoders/ascii.h, utf8.h, utf16.h, utf32.h, icuencoder.h and for the decorating ones
(rotencoder.h, oceencoder.h, xorencoder.h), and the cache of caching_encoder.h.

Simplifications.  A code point set is the list of its ranges (`RangeSet.ranges`).  A
`std::vector<ByteSet>` is a list of `BSet`.  Reversed or too long byte ranges, and using
bytes of the buffer which `write` has not written, are the outcome `none`; so is a loop
that runs out of its step budget.  `std::sort` is insertion sort.
-/
namespace Verif.Encoders
open Verif.Nfa Verif.NfaBuilder

/-- A sequence of byte sets, one element of the vector `va`, `vb` or `vo`. -/
abbrev Enc := List BSet

/-- `bs.set(b)` for a byte. -/
def setByte (s : BSet) (b : Nat) : BSet := s ||| BitVec.ofNat 256 (2 ^ b)

/-- `bs.set(beg, end, true)`, include/byteset.h 55–74; that function is modelled in the
`ByteSet` module, where it is shown to add the bytes `beg … end-1`. -/
def setRange (s : BSet) (beg e : Nat) : Option BSet :=
  if beg ≤ e ∧ e ≤ 256 then some ((List.range' beg (e - beg)).foldl setByte s) else none

/-- Changing one element; `none` is an index out of range. -/
def updateAt (v : Enc) (i : Nat) (f : BSet → Option BSet) : Option Enc :=
  match v[i]? with
  | none => none
  | some s => (f s).map (v.set i ·)

/-! ## Collapsing -/

/-- The bytes of the byte sets in memory. -/
def image (v : Enc) : List Nat :=
  v.flatMap fun s => (List.range 32).map fun i => (s.toNat / 2 ^ (8 * i)) % 256

/-- `EncodingRangeComparator`, encoderbase.cpp 83–100, as `!(b < a)`. -/
def notAfter (skip : Nat) (a b : Enc) : Bool :=
  let pa := image (a.take skip)
  let pb := image (b.take skip)
  if pa < pb then true
  else if pb < pa then false
  else decide (image (a.drop (skip + 1)) ≤ image (b.drop (skip + 1)))

/-- `equal_except_at`, encoderbase.cpp 102–110, of two sequences of equal length. -/
def equalExceptAt (n : Nat) (a b : Enc) : Bool :=
  (decide (a.length ≤ n + 1) || a.take (a.length - (n + 1)) == b.take (a.length - (n + 1))) &&
  (decide (n = 0) || a.drop (a.length - n) == b.drop (b.length - n))

/-- The collapsing loop over one size group, encoderbase.cpp 142–152, from its second
element on; `e` is the encoding being extended. -/
def collapse (n skip : Nat) (e : Enc) : List Enc → List Enc
  | [] => [e]
  | x :: xs =>
    if equalExceptAt n e x then collapse n skip (e.modify skip (· ||| x.getD skip 0)) xs
    else e :: collapse n skip x xs

/-- One size group, encoderbase.cpp 132–152. -/
def collapseGroup (n : Nat) (grp : List Enc) : List Enc :=
  match grp with
  | [] => []
  | e :: _ =>
    let skip := e.length - n - 1
    match (if e.length > 1 then grp.insertionSort fun a b => notAfter skip a b = true else grp) with
    | [] => []
    | x :: xs => collapse n skip x xs

/-- One round over all size groups (found with `std::adjacent_find`), encoderbase.cpp
121–153: what goes to the output and what is kept for the next round. -/
def round (n : Nat) (va : List Enc) : List Enc × List Enc :=
  ((va.splitBy fun a b => a.length == b.length).flatMap (collapseGroup n)).partition fun e => n + 1 == e.length

/-- The rounds, encoderbase.cpp 119–157, from round `n` on, `k` of them. -/
def rounds : Nat → Nat → List Enc → List Enc
  | 0, _, _ => []
  | k + 1, n, va =>
    let r := round n va
    r.1 ++ rounds k (n + 1) r.2

/-! ## Collecting, encoding by encoding -/

/-- The sequence accepting one encoding. -/
def exactly (bs : List Nat) : Enc := bs.map (setByte 0)

/-- The loop of `EncoderBase::collectRanges`, encoderbase.cpp 48–73; `prev` is what
`prev` and `plen` hold (empty at first). -/
def collectLoop (write : Nat → List Nat) : List Nat → List Nat → List Enc → List Enc
  | [], _, va => va
  | cp :: cps, prev, va =>
    let cur := write cp
    if cur = [] then collectLoop write cps prev va
    else if cur.length = prev.length ∧ cur.dropLast = prev.take (cur.length - 1) then
      collectLoop write cps prev
        (va.dropLast ++ [(va.getLastD []).modify (cur.length - 1) (setByte · (cur.getLastD 0))])
    else collectLoop write cps cur (va ++ [exactly cur])

/-- The code points of the ranges, in order. -/
def codePoints (rs : List (Nat × Nat)) : List Nat := rs.flatMap fun r => List.range' r.1 (r.2 - r.1)

/-- `EncoderBase::collectRanges`, encoderbase.cpp 42–81. -/
def collectBase (write : Nat → List Nat) (rs : List (Nat × Nat)) : List Enc :=
  (collectLoop write (codePoints rs) [] []).insertionSort fun a b => a.length ≤ b.length

/-- `EncoderBase::write` of a set with that `collectRanges`, encoderbase.cpp 112–158. -/
def writeBase (mlen : Nat) (write : Nat → List Nat) (rs : List (Nat × Nat)) : List Enc :=
  rounds mlen 0 (collectBase write rs)

/-! ## Collecting for the Unicode encodings -/

/-- The Unicode encoders. -/
inductive Utf where
  | utf8
  | utf16 (le : Bool)
  | utf32 (le : Bool)
  deriving DecidableEq

/-- `write` of a code point. -/
def Utf.write : Utf → Nat → List Nat
  | .utf8, cp => Verif.Utf.cpToUtf8 cp
  | .utf16 le, cp => Verif.Utf.cpToUtf16 le cp
  | .utf32 le, cp => Verif.Utf.cpToUtf32 le cp

/-- `writeRangeBlock`: utf8.cpp 102–114, include/encoders/utf16.h 132–138, utf32.h
100–106.  Returns the sequence and the new `l`. -/
def Utf.block : Utf → Enc → Nat → Nat → Nat → Nat → Option (Enc × Nat)
  | .utf8, v, l, h, len, blimit =>
    if len = 1 then
      let m := min h blimit
      (updateAt v (len - 1) fun s => setRange s l m).map (·, m)
    else if l < min h blimit ∧ l % 64 > 0 then
      let m := min (min h blimit) ((l / 64 + 1) * 64)
      (updateAt v (len - 1) fun s => setRange s ((l &&& 0x3F) ||| 0x80) ((((m - 1) &&& 0x3F) ||| 0x80) + 1)).map (·, m)
    else some (v, l)
  | .utf16 le, v, l, h, len, blimit =>
    if l < min h blimit ∧ l % 256 > 0 then
      let m := min (min h blimit) ((l / 256 + 1) * 256)
      (updateAt v (len - if le then 2 else 1) fun s => setRange s (l &&& 0xFF) (((m - 1) &&& 0xFF) + 1)).map (·, m)
    else some (v, l)
  | .utf32 le, v, l, h, _, blimit =>
    if l < min h blimit ∧ l % 256 > 0 then
      let m := min (min h blimit) ((l / 256 + 1) * 256)
      (updateAt v (if le then 0 else 3) fun s => setRange s (l &&& 0xFF) (((m - 1) &&& 0xFF) + 1)).map (·, m)
    else some (v, l)

/-- What `writeRange` and `skipRange` work on: the output, the ranges from the iterator
`i` on (`[]` is `iend`), and `l` and `h`. -/
structure Walk where
  va : List Enc
  rest : List (Nat × Nat)
  l : Nat
  h : Nat

/-- `UTFBase::writeRange`, utfbase.cpp 20–52. -/
def writeRange (u : Utf) (len blimit : Nat) : Nat → Walk → Option Walk
  | 0, _ => none
  | n + 1, s =>
    if s.l < min s.h blimit then
      let cur := u.write s.l
      if cur.length < len then none
      else
        match u.block (exactly (cur.take len)) (s.l + 1) s.h len blimit with
        | none => none
        | some (v, l) =>
          let s := { s with va := s.va ++ [v], l }
          if l < s.h then
            if blimit ≤ l then some s else writeRange u len blimit n s
          else
            match s.rest with
            | [] => some s
            | [_] => some { s with rest := [] }
            | _ :: r :: rest => writeRange u len blimit n { s with rest := r :: rest, l := r.1, h := r.2 }
    else some s

/-- The loop of `skipRange`, utfbase.cpp 60–69. -/
def skipLoop (ubound : Nat) (s : Walk) : List (Nat × Nat) → Walk
  | [] => { s with rest := [] }
  | r :: rest =>
    if ubound < r.2 then { s with rest := r :: rest, l := if r.1 < ubound then ubound else r.1, h := r.2 }
    else skipLoop ubound { s with l := r.1, h := r.2 } rest

/-- `UTFBase::skipRange`, utfbase.cpp 54–71. -/
def skipRange (ubound : Nat) (s : Walk) : Walk :=
  if s.l < ubound then
    match s.rest with
    | [] => s
    | _ :: rest => skipLoop ubound s rest
  else s

/-- `collectRanges`: utf8.cpp 73–100, utf16.h 109–130, utf32.h 80–98. -/
def Utf.collect (u : Utf) (rs : List (Nat × Nat)) : Option (List Enc) :=
  match rs with
  | [] => some []
  | r :: _ => do
    let fuel := (rs.map fun r => r.2 - r.1).sum + 1
    let s : Walk := { va := [], rest := rs, l := r.1, h := r.2 }
    let s ← match u with
      | .utf8 => do
        let s ← writeRange u 1 0x80 fuel s
        let s ← writeRange u 2 0x800 fuel s
        let s ← writeRange u 3 0xD800 fuel s
        let s := skipRange 0xE000 s
        let s ← writeRange u 3 0x10000 fuel s
        writeRange u 4 0x110000 fuel s
      | .utf16 _ => do
        let s ← writeRange u 2 0xD800 fuel s
        let s := skipRange 0xE000 s
        let s ← writeRange u 2 0x10000 fuel s
        writeRange u 4 0x110000 fuel s
      | .utf32 _ => do
        let s ← writeRange u 4 0xD800 fuel s
        let s := skipRange 0xE000 s
        writeRange u 4 0x110000 fuel s
    some s.va

/-- `EncoderBase::write` of a set for the Unicode encoders (`maxByteLength` is 4). -/
def Utf.writeSet (u : Utf) (rs : List (Nat × Nat)) : Option (List Enc) :=
  (u.collect rs).map (rounds 4 0)

/-- The loop of `ASCII::write` of a set, ascii.cpp 35–46. -/
def asciiLoop (s : BSet) : List (Nat × Nat) → Option BSet
  | [] => some s
  | r :: rs =>
    if r.1 > 0x7F then some s
    else if r.2 > 0x7F then setRange s r.1 0x80
    else (setRange s r.1 r.2).bind (asciiLoop · rs)

/-- `ASCII::write` of a set, ascii.cpp 33–47. -/
def asciiSet (rs : List (Nat × Nat)) : Option (List Enc) := (asciiLoop 0 rs).map fun s => [[s]]

/-- `ASCII::write` of a code point, ascii.cpp 20–31. -/
def asciiWrite (cp : Nat) : List Nat := if cp < 0x80 then [cp] else []

/-! ## The cache -/

/-- A `ByteSet` from pairs, include/byteset.h 38–42. -/
def ofPairs (ps : List (Nat × Nat)) : BSet :=
  ps.foldl (fun s p => (setRange s p.1 p.2).getD 0) 0

/-- The code points of `\p{Any}` as a key of the cache, utf8.h 50. -/
def anyKey : List (Nat × Nat) := [(0, 0xD800), (0xE000, 0x110000)]

/-- The prepared entries: utf8.h 51–60, utf16.h 152–155 and 169–172, utf32.h 120–123 and
137–140. -/
def Utf.anyEntry : Utf → List Enc
  | .utf8 => [
      [ofPairs [(0x00, 0x80)]],
      [ofPairs [(0xC2, 0xE0)], ofPairs [(0x80, 0xC0)]],
      [setByte 0 0xE0, ofPairs [(0xA0, 0xC0)], ofPairs [(0x80, 0xC0)]],
      [setByte 0 0xED, ofPairs [(0x80, 0xA0)], ofPairs [(0x80, 0xC0)]],
      [ofPairs [(0xE1, 0xED), (0xEE, 0xF0)], ofPairs [(0x80, 0xC0)], ofPairs [(0x80, 0xC0)]],
      [setByte 0 0xF0, ofPairs [(0x90, 0xC0)], ofPairs [(0x80, 0xC0)], ofPairs [(0x80, 0xC0)]],
      [setByte 0 0xF4, ofPairs [(0x80, 0x90)], ofPairs [(0x80, 0xC0)], ofPairs [(0x80, 0xC0)]],
      [ofPairs [(0xF1, 0xF4)], ofPairs [(0x80, 0xC0)], ofPairs [(0x80, 0xC0)], ofPairs [(0x80, 0xC0)]]]
  | .utf16 true => [
      [ofPairs [(0x00, 0x100)], ofPairs [(0x00, 0xD8), (0xE0, 0x100)]],
      [ofPairs [(0x00, 0x100)], ofPairs [(0xD8, 0xDC)], ofPairs [(0x00, 0x100)], ofPairs [(0xDC, 0xE0)]]]
  | .utf16 false => [
      [ofPairs [(0x00, 0xD8), (0xE0, 0x100)], ofPairs [(0x00, 0x100)]],
      [ofPairs [(0xD8, 0xDC)], ofPairs [(0x00, 0x100)], ofPairs [(0xDC, 0xE0)], ofPairs [(0x00, 0x100)]]]
  | .utf32 true => [
      [ofPairs [(0x00, 0x100)], ofPairs [(0xD8, 0xE0)], ofPairs [(0x01, 0x11)], setByte 0 0x00],
      [ofPairs [(0x00, 0x100)], ofPairs [(0x00, 0xD8), (0xE0, 0x100)], ofPairs [(0x00, 0x11)], setByte 0 0x00]]
  | .utf32 false => [
      [setByte 0 0x00, setByte 0 0x00, ofPairs [(0x00, 0xD8), (0xE0, 0x100)], ofPairs [(0x00, 0x100)]],
      [setByte 0 0x00, ofPairs [(0x01, 0x11)], ofPairs [(0x00, 0x100)], ofPairs [(0x00, 0x100)]]]

/-- `CachingEncoder::Cache`. -/
abbrev Cache := List (List (Nat × Nat) × List Enc)

/-- `CachingEncoder::write` of a set into an empty vector (as nfabuilder.cpp 199 calls
it), include/encoders/caching_encoder.h 58–67. -/
def cachedWrite (base : List (Nat × Nat) → Option (List Enc)) (c : Cache) (rs : List (Nat × Nat)) :
    Option (Cache × List Enc) :=
  match c.lookup rs with
  | some v => some (c, v)
  | none => (base rs).map fun v => ((rs, v) :: c, v)

/-- A history of requests. -/
def cachedAll (base : List (Nat × Nat) → Option (List Enc)) : Cache → List (List (Nat × Nat)) → Option (Cache × List (List Enc))
  | c, [] => some (c, [])
  | c, rs :: rss => do
    let r ← cachedWrite base c rs
    let r' ← cachedAll base r.1 rss
    some (r'.1, r.2 :: r'.2)

/-! ## What the builder asks for -/

/-- The encoders `EncoderFactory::get` makes: a base encoding, perhaps ICU's, then byte
transforms, then rotations of letters, src/lib/encoderfactory.cpp 38–115. -/
inductive Encoder where
  | ascii
  | utf (u : Utf)
  | icu (t : Converter)
  | bytes (t : Transforms.ByteT) (e : Encoder)
  | rot (r : Nat) (e : Encoder)

/-- `validCodePoints`: ascii.h 23, utfbase.h 27, icuencoder.cpp 21–26; byteencoder.cpp 33–35,
rotencoder.h 57–59. -/
def Encoder.valid : Encoder → RangeSet.Vec
  | .ascii => [0, 0x80]
  | .utf _ => [0, 0xD800, 0xE000, 0x110000]
  | .icu t => t.valid
  | .bytes _ e => e.valid
  | .rot _ e => e.valid

/-- `maxByteLength`: ascii.h, utf8.h, utf16.h, utf32.h, icuencoder.h; byteencoder.cpp 23–25,
rotencoder.h 55. -/
def Encoder.maxLen : Encoder → Nat
  | .ascii => 1
  | .utf _ => 4
  | .icu t => t.maxLen
  | .bytes _ e => e.maxLen
  | .rot _ e => e.maxLen

/-- `write` of a code point: icuencoder.cpp 28–30, byteencoder.cpp 37–41, charencoder.cpp
28–30. -/
def Encoder.write : Encoder → Nat → List Nat
  | .ascii, cp => asciiWrite cp
  | .utf u, cp => u.write cp
  | .icu t, cp => t.write cp
  | .bytes t e, cp => (e.write cp).map t.fwd
  | .rot r e, cp => e.write (Transforms.rotFwd r cp).toNat

/-- `write` of a set; ICU's and the transforming encoders inherit `EncoderBase::write`
(icuencoder.h 27, byteencoder.h 65, charencoder.h 60). -/
def Encoder.writeSet : Encoder → List (Nat × Nat) → Option (List Enc)
  | .ascii, rs => asciiSet rs
  | .utf u, rs => u.writeSet rs
  | e, rs => some (writeBase e.maxLen e.write rs)

/-- The leaf nodes the parser makes, parsenode.h 40–43: a code point, a raw byte, any
code point, a class with its code points, its breakout bytes and whether those are added. -/
inductive Node where
  | lit (c : Nat)
  | byte (b : UInt8)
  | dot
  | cls (cps : RangeSet.Vec) (brk : BSet) (additive : Bool)

/-- What `charClass` makes of a class before it builds vertices: the code points valid in
the encoding are encoded, nfabuilder.cpp 183 and 198–200.  Returns the encoder's cache
too. -/
def Encoder.classLeaf (e : Encoder) (c : Cache) (cps : RangeSet.Vec) (brk : BSet) (additive : Bool) : Option (Cache × Leaf) := do
  let uset ← RangeSet.inter 0x110000 cps e.valid
  if RangeSet.none uset then some (c, .cls [] brk additive)
  else
    let r ← cachedWrite e.writeSet c (RangeSet.ranges uset)
    some (r.1, .cls r.2 brk additive)

/-- What the builder takes from the encoder for a leaf node: nfabuilder.cpp 146–154
(an empty encoding is the exception there), 171–176, 178–180, 182–200. -/
def Encoder.leaf (e : Encoder) (c : Cache) : Node → Option (Cache × Leaf)
  | .lit cp => some (c, .lit (((e.write cp)).map UInt8.ofNat))
  | .byte b => some (c, .lit [b])
  | .dot => e.classLeaf c [0, 0x110000] 0 true
  | .cls cps brk additive => e.classLeaf c cps brk additive

/-- All leaves of a tree, in the order of the callbacks. -/
def Encoder.leaves (e : Encoder) (c : Cache) : Regex.Tree Node → Option (Cache × Regex.Tree Leaf)
  | .leaf n => (e.leaf c n).map fun r => (r.1, .leaf r.2)
  | .alt l r => do
    let a ← e.leaves c l
    let b ← e.leaves a.1 r
    some (b.1, .alt a.2 b.2)
  | .cat l r => do
    let a ← e.leaves c l
    let b ← e.leaves a.1 r
    some (b.1, .cat a.2 b.2)
  | .rep ng m M t => do
    let a ← e.leaves c t
    some (a.1, .rep ng m M a.2)
  | .look k t => do
    let a ← e.leaves c t
    some (a.1, .look k a.2)

/-- The cache of a new encoder: `EncoderFactory::EncoderFactory`, encoderfactory.cpp
38–47, for the names of the Unicode encodings; empty for a chain, 113. -/
def Encoder.startCache : Encoder → Cache
  | .utf u => [(anyKey, u.anyEntry)]
  | _ => []

end Verif.Encoders
