import Verif.Encoders
import Verif.Decoders
/-!
# Encoding chains

Models `src/lib/chain.cpp`, `find_trans_id` of `src/lib/lightgrep_c_util.cpp` and
`EncoderFactory::get` of `src/lib/encoderfactory.cpp`, with the tables of
`include/lightgrep/transforms.h` and `include/lightgrep/encodings.h`.  The latter comes with
the library for a build without ICU (`encodings.h.no_icu`), and is generated by
`src/enc/encodings.cpp` for a build with ICU (see `Verif.EncTable`); `Build` is either.  A name
is the list of its bytes, without a NUL.
-/
namespace Verif.Chain
open Verif.Encoders
open Verif.Transforms (ByteT)

/-- The ASCII text of a name. -/
def name (s : String) : List UInt8 := s.toList.map fun c => UInt8.ofNat c.toNat

/-- `::tolower` of the C locale. -/
def lower (b : UInt8) : UInt8 := if 65 ≤ b ∧ b ≤ 90 then b + 32 else b

/-- `find_trans_id`, lightgrep_c_util.cpp 36–52; `none` is -1. -/
def findTrans (table : List (List UInt8 × Nat)) (n : List UInt8) : Option Nat :=
  (table.find? fun t => n.map lower == t.1.map lower).map (·.2)

/-- `LG_CHAR_TRANSFORMS`, transforms.h 28–30. -/
def charTransforms : List (List UInt8 × Nat) := [(name "identity", 0)]

/-- `LG_CANONICAL_CHAR_TRANSFORMS`, transforms.h 32–34. -/
def canonicalCharTransforms : List (List UInt8) := [name "identity"]

/-- What depends on how the library was built: the table of encodings, and ICU's converters,
which a build without ICU does not have.  The last six fields are assumptions about ICU and
about the table, which `Build.plain` and `EncTable.build` meet. -/
class Build where
  /-- `LG_ENCODINGS` of encodings.h. -/
  encodings : List (List UInt8 × Nat)
  /-- `LG_CANONICAL_ENCODINGS` of encodings.h. -/
  canonicalEncodings : List (List UInt8)
  /-- `ICUConverter(name)`, icuconverter.cpp 31–37 and 53–128; `none` is an exception, or that
  there is no ICU. -/
  converter : List UInt8 → Option Converter
  /-- Lightgrep's own Unicode encodings are in the table, under their names. -/
  own : ∀ s ∈ ["UTF-8", "UTF-16LE", "UTF-16BE", "UTF-32LE", "UTF-32BE"],
    (findTrans encodings (name s)).bind (canonicalEncodings[·]?) = some (name s)
  /-- `ASCII` is in the table as another name of `US-ASCII`. -/
  ascii : (findTrans encodings (name "ASCII")).bind (canonicalEncodings[·]?) = some (name "US-ASCII")
  /-- It is not a canonical name. -/
  notAscii : name "ASCII" ∉ canonicalEncodings
  /-- The converters keep their promises, when they write, -/
  ok : ∀ n t, converter n = some t → t.Ok
  /-- and when they read, -/
  reads : ∀ n t, converter n = some t → t.Reads
  /-- and the one for ASCII is one for ASCII. -/
  usAscii : ∀ t, converter (name "US-ASCII") = some t → t.write = asciiWrite

/-- `LG_ENCODINGS`, encodings.h.no_icu 12–20. -/
def plainEncodings : List (List UInt8 × Nat) :=
  [(name "ASCII", 5), (name "US-ASCII", 5), (name "UTF-16BE", 1), (name "UTF-16LE", 2), (name "UTF-32BE", 3),
   (name "UTF-32LE", 4), (name "UTF-8", 0)]

/-- `LG_CANONICAL_ENCODINGS`, encodings.h.no_icu 22–29. -/
def plainCanonical : List (List UInt8) :=
  [name "UTF-8", name "UTF-16BE", name "UTF-16LE", name "UTF-32BE", name "UTF-32LE", name "US-ASCII"]

/-- A build without ICU. -/
@[reducible] def Build.plain : Build where
  encodings := plainEncodings
  canonicalEncodings := plainCanonical
  converter _ := none
  own := by decide
  ascii := by decide
  notAscii := by decide
  ok := by simp
  reads := by simp
  usAscii := by simp

/-- `LG_BYTE_TRANSFORMS`, transforms.h 39–42. -/
def byteTransforms : List (List UInt8 × Nat) := [(name "identity", 0), (name "OCE", 1)]

/-- `LG_CANONICAL_BYTE_TRANSFORMS`, transforms.h 44–47. -/
def canonicalByteTransforms : List (List UInt8) := [name "identity", name "OCE"]

/-- `boost::tokenizer` with `char_separator("|")`, chain.cpp 37–41: the parts between the
bars that are not empty. -/
def tokens (chain : List UInt8) : List (List UInt8) := (chain.splitOn 124).filter (· ≠ [])

/-- The loop over the character transforms, chain.cpp 47–54: their canonical names and the
tokens that are left.  An index out of range cannot be told from a missing name here; the
tables have none. -/
def charLoop : List (List UInt8) → List (List UInt8) × List (List UInt8)
  | [] => ([], [])
  | n :: ns =>
    match (findTrans charTransforms n).bind (canonicalCharTransforms[·]?) with
    | none => ([], n :: ns)
    | some c =>
      let r := charLoop ns
      (c :: r.1, r.2)

/-- The loop over the byte transforms, chain.cpp 75–84; `none` is the exception. -/
def byteLoop : List (List UInt8) → Option (List (List UInt8))
  | [] => some []
  | n :: ns => do
    let c ← (findTrans byteTransforms n).bind (canonicalByteTransforms[·]?)
    let r ← byteLoop ns
    some (c :: r)

/-- `parseChain`, chain.cpp 33–91; `none` is an exception. -/
def parseChain [Build] (chain : List UInt8) : Option (List (List UInt8) × List UInt8 × List (List UInt8)) := do
  let r := charLoop (tokens chain)
  match r.2 with
  | [] => none
  | n :: ns =>
    let c ← (findTrans Build.encodings n).bind (Build.canonicalEncodings[·]?)
    let bs ← byteLoop ns
    some (r.1, c, bs)

/-- The base encoder, encoderfactory.cpp 61–88, with `ICUEncoder`, icuencoder.cpp 21–26; `none`
is the exception for an unrecognized encoding. -/
def base [Build] (charbyte : List UInt8) : Option Encoder :=
  if charbyte = name "ASCII" then some .ascii
  else if charbyte = name "UTF-8" then some (.utf .utf8)
  else if charbyte = name "UTF-16LE" then some (.utf (.utf16 true))
  else if charbyte = name "UTF-16BE" then some (.utf (.utf16 false))
  else if charbyte = name "UTF-32LE" then some (.utf (.utf32 true))
  else if charbyte = name "UTF-32BE" then some (.utf (.utf32 false))
  else (Build.converter charbyte).map .icu

/-- The loop over the byte transforms, encoderfactory.cpp 90–97; other names are ignored. -/
def wrapBytes (e : Encoder) : List (List UInt8) → Encoder
  | [] => e
  | b :: bs =>
    if b = name "identity" then wrapBytes e bs
    else if b = name "OCE" then wrapBytes (.bytes .oce e) bs
    else wrapBytes e bs

/-- `EncoderFactory::Cache`, encoderfactory.cpp 38–47: the encoders under their names, each
with its own cache of encoded classes, which `ASCII` does not have. -/
structure Entry where
  key : List UInt8
  enc : Encoder
  caching : Bool
  cache : Cache

abbrev Factory := List Entry

/-- A Unicode encoder as it is prepared. -/
def prepared (s : String) (u : Utf) : Entry := ⟨name s, .utf u, true, (Encoder.utf u).startCache⟩

/-- `EncoderFactory::EncoderFactory`, encoderfactory.cpp 38–47. -/
def Factory.init : Factory :=
  [⟨name "ASCII", .ascii, false, []⟩, prepared "UTF-8" .utf8, prepared "UTF-16LE" (.utf16 true),
   prepared "UTF-16BE" (.utf16 false), prepared "UTF-32LE" (.utf32 true), prepared "UTF-32BE" (.utf32 false)]

/-- `EncoderFactory::get`, encoderfactory.cpp 49–116: the encoder and its cache, which is
empty for one assembled from a chain; `none` is an exception.  The loop over the character
transforms, 99–113, has nothing to do: `identity` is the only one there is. -/
def Factory.get [Build] (f : Factory) (chain : List UInt8) : Option (Encoder × Cache) :=
  match f.find? (fun x => decide (x.key = chain)) with
  | some x => some (x.enc, x.cache)
  | none => do
    let p ← parseChain chain
    let e ← base p.2.1
    some (wrapBytes e p.2.2, [])

/-- The cache of a shared encoder after it was used. -/
def Factory.put (f : Factory) (chain : List UInt8) (c : Cache) : Factory :=
  f.map fun x => if x.key = chain ∧ x.caching = true then { x with cache := c } else x

/-- `DecoderFactory::get`, src/lib/decoders/decoderfactory.cpp 39–108; its `Cache` is never
filled.  `none` is an exception. -/
def decoder [Build] (chain : List UInt8) : Option Decoders.Shape := do
  let p ← parseChain chain
  let ts := p.2.2.map fun b => if b = name "OCE" then ByteT.oce else ByteT.identity
  if p.2.1 = name "ASCII" ∨ p.2.1 = name "US-ASCII" then some (Decoders.chain [] .ascii ts)
  else if p.2.1 = name "UTF-8" then some (Decoders.chain [] .utf8 ts)
  else if p.2.1 = name "UTF-16LE" then some (Decoders.chain [] (.utf16 true) ts)
  else if p.2.1 = name "UTF-16BE" then some (Decoders.chain [] (.utf16 false) ts)
  else if p.2.1 = name "UTF-32LE" then some (Decoders.chain [] (.utf32 true) ts)
  else if p.2.1 = name "UTF-32BE" then some (Decoders.chain [] (.utf32 false) ts)
  else (Build.converter p.2.1).map fun t => .icu t (Decoders.byteChain ts)

end Verif.Chain
