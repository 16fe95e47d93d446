import Verif.Transforms
import Verif.Converter
/-!
# Decoders

The decoder chain assembled by `DecoderFactory::get` and `lg_read_window`.
A buffer is a list of bytes; pointers into it are positions.
-/
namespace Verif.Decoders

open Verif.Utf Verif.Transforms

/-- include/decoders/decoder.h `END`, also `LG_WINDOW_END`. -/
def END : Int := -0x110001

/-- The character set of a chain. -/
inductive Charset where
  | ascii
  | utf8
  | utf16 (le : Bool)
  | utf32 (le : Bool)
deriving Repr, DecidableEq

/-- The `decode` method of the UTF decoders (include/decoders/utf8decoder.h:55-57,
utf16decoder.h:56-58, utf32decoder.h:56-58).  ASCII has its own decoder and does
not use this. -/
def Charset.decode : Charset → List Nat → Dec
  | .ascii, _ => .fail
  | .utf8, l => utf8ToCp l
  | .utf16 le, l => utf16ToCp le l
  | .utf32 le, l => utf32ToCp le l

/-- A decoder object: which decoder wraps which. -/
inductive Shape where
  | source
  | bytes (t : ByteT) (s : Shape)
  | ascii (s : Shape)
  | utf (c : Charset) (s : Shape)
  | icu (t : Converter) (s : Shape)
  | rot (r : Nat) (s : Shape)

/-- Mutable state of a decoder object: `Cur` and `End` of the `ByteSource`, and the
queue `In` of each UTF decoder (include/decoders/utfdecoderbase.h:109-112) and ICU decoder
(icudecoder.h:136). -/
def Shape.State : Shape → Type
  | .source => Nat × Nat
  | .bytes _ s => s.State
  | .ascii s => s.State
  | .utf _ s => List (Int × Nat) × s.State
  | .icu _ s => List (Int × Nat) × s.State
  | .rot _ s => s.State

/-- A freshly built decoder (`ByteSource(nullptr, nullptr)`, empty queue). -/
def Shape.init : (s : Shape) → s.State
  | .source => ((0, 0) : Nat × Nat)
  | .bytes _ s => s.init
  | .ascii s => s.init
  | .utf _ s => ([], s.init)
  | .icu _ s => ([], s.init)
  | .rot _ s => s.init

/-- `reset(beg, end)`: include/decoders/bytesource.h:51-54,
utfdecoderbase.h:96-99, icudecoder.h:123-127 and the pass-through of the others. -/
def Shape.reset : (s : Shape) → s.State → Nat → Nat → s.State
  | .source, _, b, e => ((b, e) : Nat × Nat)
  | .bytes _ s, st, b, e => s.reset st b e
  | .ascii s, st, b, e => s.reset st b e
  | .utf _ s, st, b, e => ([], s.reset st.2 b e)
  | .icu _ s, st, b, e => ([], s.reset st.2 b e)
  | .rot _ s, st, b, e => s.reset st b e

/-- include/decoders/utfdecoderbase.h:51-53, with `nxt` the wrapped decoder's
`next` and `n` the number of missing elements. -/
def fill {σ : Type} (nxt : σ → (Int × Nat) × σ) :
    Nat → List (Int × Nat) → σ → List (Int × Nat) × σ
  | 0, q, st => (q, st)
  | n + 1, q, st => fill nxt n (q ++ [(nxt st).1]) (nxt st).2

/-- include/decoders/utfdecoderbase.h:55-93: decoding the front of a filled queue;
the result and the remaining queue.  `utf8_to_cp` and the others never read outside
a buffer of bytes (C30, C31), so their outcome `ub` does not arise here; it is
treated like a failure. -/
def decodeFront (c : Charset) (q : List (Int × Nat)) : (Int × Nat) × List (Int × Nat) :=
  let bs := (q.take 4).takeWhile (fun x => decide (0 ≤ x.1 ∧ x.1 ≤ 0xFF))
  let front := q.headD (0, 0)
  match bs with
  | [] => (front, q.drop 1)
  | _ :: _ =>
    match c.decode (bs.map fun x => x.1.toNat) with
    | .ok cp n => ((cp, front.2), q.drop n)
    | _ => ((-front.1 - 1, front.2), q.drop 1)

/-- A queued element that is a byte: include/decoders/icudecoder.h:69-71. -/
def isByte (x : Int × Nat) : Bool := decide (0 ≤ x.1 ∧ x.1 ≤ 0xFF)

/-- include/decoders/icudecoder.h:74-82: pump the wrapped decoder until it delivers something
that is not a byte, which is queued too; `n` bounds the iterations. -/
def pump {σ : Type} (nxt : σ → (Int × Nat) × σ) :
    Nat → List (Int × Nat) → σ → List (Int × Nat) × σ
  | 0, q, st => (q, st)
  | n + 1, q, st =>
    let (x, st) := nxt st
    if isByte x then pump nxt n (q ++ [x]) st else (q ++ [x], st)

/-- include/decoders/icudecoder.h:84-120: decoding the front of the queue; the result and the
remaining queue. -/
def icuFront (t : Converter) (q : List (Int × Nat)) : (Int × Nat) × List (Int × Nat) :=
  let bs := q.takeWhile isByte
  let front := q.headD (0, 0)
  match bs with
  | [] => (front, q.drop 1)
  | _ :: _ =>
    match t.read (bs.map fun x => x.1.toNat) with
    | some (cp, n) => (((cp : Int), front.2), q.drop n)
    | none => ((-front.1 - 1, front.2), q.drop 1)

/-- `next()`: include/decoders/bytesource.h:41-49, xordecoder.h:66-79,
ocedecoder.h:58-71, asciidecoder.h:55-61, utfdecoderbase.h:49-94, icudecoder.h:65-121,
rotdecoder.h:62-71.  Reading a byte outside `buf` cannot happen between `beg` and
`end`, which callers keep inside the buffer. -/
def Shape.next (buf : List Nat) : (s : Shape) → s.State → (Int × Nat) × s.State
  | .source, st =>
    let st : Nat × Nat := st
    if st.1 = st.2 then ((END, st.2), st)
    else ((((buf.getD st.1 0 : Nat) : Int), st.1), ((st.1 + 1, st.2) : Nat × Nat))
  | .bytes t s, st =>
    let (n, st) := s.next buf st
    ((if n.1 < 0 then n.1
      else if n.1 < 0x100 then (t.bwd n.1.toNat : Int)
      else -n.1 - 1, n.2), st)
  | .ascii s, st =>
    let (n, st) := s.next buf st
    ((if n.1 ≥ 0x80 then -n.1 - 1 else n.1, n.2), st)
  | .utf c s, st =>
    let (q, st') := fill (s.next buf) (4 - st.1.length) st.1 st.2
    let (r, q) := decodeFront c q
    (r, (q, st'))
  | .icu t s, st =>
    let (q, st') := if st.1.all isByte then pump (s.next buf) (buf.length + 1) st.1 st.2 else st
    let (r, q) := icuFront t q
    (r, (q, st'))
  | .rot r s, st =>
    let (n, st) := s.next buf st
    ((rotBwd r n.1, n.2), st)

/-- `maxByteLength()`: include/decoders/utfdecoderbase.h:101-104, icudecoder.h:129-132 and the
pass-through of the others. -/
def Shape.maxLen : Shape → Nat
  | .source => 1
  | .bytes _ s => s.maxLen
  | .ascii s => s.maxLen
  | .utf _ s => 4 * s.maxLen
  | .icu t s => t.maxLen * s.maxLen
  | .rot _ s => s.maxLen

/-- src/lib/decoders/decoderfactory.cpp:54-66: the byte transforms, last one
innermost. -/
def byteChain (ts : List ByteT) : Shape :=
  ts.foldr (fun t s => match t with
    | .identity => s
    | t => .bytes t s) .source

/-- src/lib/decoders/decoderfactory.cpp:68-85. -/
def charsetDecoder : Charset → Shape → Shape
  | .ascii, s => .ascii s
  | c, s => .utf c s

/-- src/lib/decoders/decoderfactory.cpp:39-108 `DecoderFactory::get`, after the
chain's name has been split into character transforms (rotations), character set
and byte transforms. -/
def chain (rots : List Nat) (c : Charset) (ts : List ByteT) : Shape :=
  rots.foldr (fun r s => .rot r s) (charsetDecoder c (byteChain ts))

/-- The loop `while ((cp = dec.next()).first != END)` of
src/lib/lightgrep_c_util.cpp:136-141, collecting; `n` bounds the iterations. -/
def readAll (buf : List Nat) (s : Shape) : Nat → s.State → List (Int × Nat) × s.State
  | 0, st => ([], st)
  | n + 1, st =>
    let (x, st) := s.next buf st
    if x.1 = END then ([], st)
    else
      let (l, st) := readAll buf s n st
      (x :: l, st)

/-! ## lg_read_window -/

/-- `2^32`, the range of `unsigned int`. -/
def U32 : Nat := 0x100000000

/-- Number of entries that are not characters. -/
def negs (l : List (Int × Nat)) : Nat := l.countP (fun x => decide (x.1 < 0))

/-- src/lib/lightgrep_c_util.cpp:144-147: pad left with raw bytes, from position
`b - 1` downwards, while shorter than `leading`. -/
def padLeft (buf : List Nat) (leading : Nat) : Nat → List (Int × Nat) → List (Int × Nat)
  | 0, l => l
  | b + 1, l =>
    if l.length < leading then
      padLeft buf leading b ((-((buf.getD b 0 : Nat) : Int) - 1, b) :: l)
    else l

/-- src/lib/lightgrep_c_util.cpp:149-155: length of the good sequence adjacent to
the hit. -/
def adjGood (l : List (Int × Nat)) : Nat :=
  (l.reverse.takeWhile (fun x => decide (0 ≤ x.1))).length

/-- `max_adj_good`, `max_inv_bad` and `cps` of
src/lib/lightgrep_c_util.cpp:124,113. -/
structure Best where
  adj : Nat
  inv : Nat
  cps : List (Int × Nat)
deriving Repr, DecidableEq

/-- src/lib/lightgrep_c_util.cpp:131-168: one leading sequence, from `l` to the hit.
The counters are `unsigned int`; they cannot wrap for buffers below 4 GiB, and only
the final sum is reduced modulo 2^32 here. -/
def leadStep (buf : List Nat) (s : Shape) (leading hbeg l : Nat) (b : Best) (st : s.State) :
    Best × s.State :=
  let st := s.reset st l hbeg
  let (out, st) := readAll buf s (hbeg - l + 1) st
  let lctx := padLeft buf leading l out
  let adj := adjGood lctx
  let inv := U32 - 1 - negs lctx
  if b.adj < adj ∨ (b.adj = adj ∧ b.inv ≤ inv) then
    (⟨adj, inv, lctx.drop (lctx.length - leading)⟩, st)
  else (b, st)

/-- src/lib/lightgrep_c_util.cpp:130: `l` runs from `hbeg - 1` down, for the first
`k` values of it. -/
def leadLoop (buf : List Nat) (s : Shape) (leading hbeg : Nat) :
    Nat → Best × s.State → Best × s.State
  | 0, b => b
  | k + 1, b =>
    let (b, st) := leadLoop buf s leading hbeg k b
    leadStep buf s leading hbeg (hbeg - (k + 1)) b st

/-- src/lib/lightgrep_c_util.cpp:180-185: entries that start inside the hit, and the
first entry that does not. -/
def hitLoop (buf : List Nat) (s : Shape) (hend : Nat) :
    Nat → s.State → List (Int × Nat) × (Int × Nat) × s.State
  | 0, st => let (x, st) := s.next buf st; ([], x, st)
  | n + 1, st =>
    let (x, st) := s.next buf st
    if x.2 < hend then
      let (l, y, st) := hitLoop buf s hend n st
      (x :: l, y, st)
    else ([], x, st)

/-- src/lib/lightgrep_c_util.cpp:192-204: trailing context; `n` is the number of
further iterations `--trailing > 0` allows.  With `trailing = 0` the subtraction
wraps, but then the decoder ends at the hit and the first test breaks (the case
`n = 0` is only reached as the last iteration). -/
def trailLoop (buf : List Nat) (s : Shape) :
    Nat → (Int × Nat) → s.State → List (Int × Nat) × (Int × Nat)
  | n, x, st =>
    if x.1 = END then ([], x)
    else
      let (y, st) := s.next buf st
      match n with
      | 0 => ([x], y)
      | n + 1 =>
        let (l, z) := trailLoop buf s n y st
        (x :: l, z)

/-- What `decode` leaves behind. -/
structure Window where
  cps : List (Int × Nat)
  hitBegin : Nat
  hitEnd : Nat
  bad : Nat
deriving Repr, DecidableEq

/-- src/lib/lightgrep_c_util.cpp:104-213 `decode`, with the offsets relative to the
start of the buffer as `readWindow` (215-261) reports them.  `trailing - 1` is the
number of further iterations of the trailing loop; for `trailing = 0` see
`trailLoop`.  Products and pointer sums are taken without wrap-around. -/
def window (buf : List Nat) (s : Shape) (st : s.State) (hbeg hend leading trailing : Nat) :
    Window :=
  let (b, st) := leadLoop buf s leading hbeg (min hbeg (leading * s.maxLen)) (⟨0, 0, []⟩, st)
  let bad0 := U32 - 1 - b.inv
  let st := s.reset st hbeg (min (hend + trailing * s.maxLen) buf.length)
  let (hit, x, st) := hitLoop buf s hend (buf.length - hbeg) st
  let (post, y) := trailLoop buf s (trailing - 1) x st
  { cps := b.cps ++ hit ++ post ++ [(END, y.2)]
    hitBegin := b.cps.length
    hitEnd := b.cps.length + hit.length
    bad := (bad0 + negs hit + negs post) % U32 }

/-! ## lg_hit_context -/

/-- src/lib/lightgrep_c_util.cpp:263-268 `cp_range_to_utf8`: values that are not
positive are written as the replacement. -/
def rangeToUtf8 (repl : Nat) (cps : List (Int × Nat)) : List Nat :=
  cps.flatMap fun x => cpToUtf8 (if x.1 ≤ 0 then (repl : Int) else x.1)

/-- What `lg_hit_context` returns: the string with its terminator, the range of the
data covered (`outer`), the range of the string that is the hit (`decodedHit`) and
the return value. -/
structure HitText where
  utf8 : List Nat
  outer : Nat × Nat
  hit : Nat × Nat
  bad : Nat
deriving Repr, DecidableEq

/-- src/lib/lightgrep_c_util.cpp:270-329 `hitContext`.  `repl` is below `2^31`. -/
def hitContext (buf : List Nat) (s : Shape) (st : s.State) (dataOffset hbeg hend size repl : Nat) :
    HitText :=
  let w := window buf s st hbeg hend size size
  let a := rangeToUtf8 repl (w.cps.take w.hitBegin)
  let b := rangeToUtf8 repl ((w.cps.take w.hitEnd).drop w.hitBegin)
  let c := rangeToUtf8 repl ((w.cps.take (w.cps.length - 1)).drop w.hitEnd)
  { utf8 := a ++ b ++ c ++ [0]
    outer := (dataOffset + (w.cps.headD (0, 0)).2, dataOffset + (w.cps.getLastD (0, 0)).2)
    hit := (a.length, a.length + b.length)
    bad := w.bad }

end Verif.Decoders
