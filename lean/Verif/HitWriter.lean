import Verif.Cmd
import Verif.Decoders
import Verif.Vm
/-!
# What the command-line tool shows and counts for a hit

`HitOutputData::decodeContext` and the order in which `SearchController::searchFile` changes
buffers and hits arrive.
-/
namespace Verif.Cmd

open Verif.Decoders

/-- Subtraction of `uint64_t` values. -/
def sub64 (a b : Nat) : Nat := (a + (2 ^ 64 - b % 2 ^ 64)) % 2 ^ 64

/-- src/cmd/hitwriter.cpp:195-196: the hit in the current buffer, as positions in it. -/
def hitRange (b : Buf) (h : SHit) : Nat × Nat :=
  (if h.start < b.2 then 0 else h.start - b.2, min (sub64 h.stop b.2) b.1.length)

/-- src/cmd/hitwriter.cpp:198-201: `cbeg` and `cend`, as positions in the current buffer;
`before` and `after` are the numbers of lines asked for, negative for none. -/
def contextRange (before after : Int) (b : Buf) (h : SHit) : Nat × Nat :=
  let r := hitRange b h
  (if before < 0 then r.1 else leadingContext b.1 r.1 before.toNat,
   if after < 0 then r.2 else trailingContext b.1 r.2 after.toNat)

/-- What `decodeContext` gives: a text and the offset at which it begins, or the memory read
is not part of the buffer. -/
inductive Shown where
  | text (b : HBuf) (dataOffset : Nat)
  | outside
deriving DecidableEq

/-- src/cmd/hitwriter.cpp:194-237 `HitOutputData::decodeContext` for a chain that can be
decoded.  `prior` are the bytes that lie in memory before the buffer and belong to the same
object: the part of the file already searched when it is memory mapped, nothing when it is
read into a buffer (src/cmd/reader.cpp:41-45, 54-82).  `lg_hit_context` is given `cbeg`, `cend`,
the hit and the offset of `cbeg`, and computes the ends of the hit from them
(src/lib/lightgrep_c_util.cpp:233-236); its requirement that the hit lies between `cbeg` and
`cend` (lightgrep_c_util.cpp:115-116) is not checked here.  If the hit begins before `cbeg`
the loop over the leading context does not run (130) and decoding begins at the hit (178).
If it ends behind `cend` the loop at 180 runs on.  The C string ends at its first null byte
(234). -/
def shown (prior : List Nat) (before after : Int) (s : Shape) (st : s.State) (b : Buf) (h : SHit) :
    Shown :=
  let c := contextRange before after b h
  let size := c.2 - c.1
  let all := prior ++ b.1
  if b.2 + c.1 ≤ h.start ∧ h.start ≤ h.stop ∧ h.stop ≤ b.2 + c.2 then
    let r := hitContext ((b.1.drop c.1).take size) s st (b.2 + c.1) (h.start - (b.2 + c.1))
      (h.stop - (b.2 + c.1)) size 0xFFFD
    .text ⟨r.utf8.takeWhile (· ≠ 0), r.hit.1, r.hit.2⟩ (b.2 + c.1)
  else if b.2 ≤ h.start + prior.length ∧ h.start ≤ h.stop ∧ h.stop ≤ b.2 + c.2 then
    let w := window (all.take (prior.length + c.2)) s st (prior.length + h.start - b.2)
      (prior.length + h.stop - b.2) 0 size
    let t := rangeToUtf8 0xFFFD ((w.cps.take w.hitEnd).drop w.hitBegin)
    .text ⟨(rangeToUtf8 0xFFFD w.cps.dropLast).takeWhile (· ≠ 0), 0, t.length⟩ (b.2 + c.1)
  else .outside

/-- What decoding depends on when the file searched is memory mapped.  `chainOf` is the encoding
chain of a keyword (`info->EncodingChain`, src/cmd/hitwriter.cpp:212-219), `st` the state the
decoder, which is kept between calls (hitwriter.cpp:187), happens to be in. -/
def mappedTables (file : List Nat) (before after : Int) (chainOf : Nat → Shape)
    (st : Buf → (h : SHit) → (chainOf h.kw).State) (info : Nat → List Nat × Nat) : Tables where
  decode b h :=
    match shown (file.take b.2) before after (chainOf h.kw) (st b h) b h with
    | .text t _ => some t
    | .outside => none
  info := info

/-- The blocks of a file, as `searchFile` gets them: those of a memory mapped file
(src/cmd/searchcontroller.cpp:50-77, src/cmd/reader.cpp:76-82).  Files read into a buffer are cut
in the same way (`file_blocks`). -/
def mappedBlocks (file : List UInt8) (bs : Nat) : List (Nat × List UInt8) :=
  (mappedSearch (file.map UInt8.toNat) bs (file.length + 1) 0).map fun x => (x.1, x.2.map UInt8.ofNat)

/-- The hits reported between two states of the search. -/
def newHits (σ σ' : Vm.St) : List SHit :=
  (σ'.log.drop σ.log.length).map fun h => ⟨h.start, h.end, h.label⟩

/-- src/cmd/searchcontroller.cpp:50-75: the buffers handed to `setBuffer` and `lg_search`, one
after the other, each followed by the hits reported while it is searched. -/
def searchEvents (P : Vm.Program) (first : List Vm.Thread) (fuel : Nat) (ctx : Bool) :
    List (Nat × List UInt8) → Vm.St → Vm.Res (List Event × Vm.St)
  | [], σ => .ok ([], σ)
  | (off, blk) :: rest, σ => do
    let (_, σ') ← Vm.step P first fuel (.search blk off true) σ
    let (es, σ'') ← searchEvents P first fuel ctx rest σ'
    .ok (.buffer (blk.map UInt8.toNat, off) :: (newHits σ σ').map (.hit · ctx) ++ es, σ'')

/-- src/cmd/searchcontroller.cpp:34-84 `searchFile`: `blocks` are the blocks read, the last of
them empty (the loop of line 51 ends with it, and line 73 searches it as well); then the
search is closed out, the last buffer still being the current one. -/
def fileEvents (P : Vm.Program) (first : List Vm.Thread) (fuel : Nat) (ctx : Bool)
    (blocks : List (Nat × List UInt8)) (σ : Vm.St) : Vm.Res (List Event × Vm.St) := do
  let (es, σ') ← searchEvents P first fuel ctx blocks σ
  let (_, σ'') ← Vm.step P first fuel (.closeOut true) σ'
  .ok (es ++ (newHits σ' σ'').map (.hit · ctx), σ'')

end Verif.Cmd
