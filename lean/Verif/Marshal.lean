import Verif.Vm
/-!
# Serialized programs

`lg_write_program`, `lg_read_program`, `lg_program_size`.  A buffer is a list of
bytes; a machine with little-endian integers, 4-byte `uint32_t`/`Instruction` and
8-byte `uint64_t`/`size_t` is assumed, and unaligned loads are taken to work.
Reading outside the buffer is the outcome `ub`.
-/
namespace Verif.Marshal

open Verif.Vm (Program)

/-- include/lightgrep/api.h `LG_PatternInfo`: the pattern and encoding chain as the
bytes before their terminating NUL, and the user index. -/
structure Info where
  pattern : List Nat
  chain : List Nat
  idx : Nat
deriving Repr, DecidableEq

/-- `n` bytes of an integer, least significant first (`memcpy` of an integer). -/
def le : Nat → Nat → List Nat
  | 0, _ => []
  | n + 1, x => x % 256 :: le n (x / 256)

/-- The integer stored in a list of bytes. -/
def ofLe : List Nat → Nat
  | [] => 0
  | b :: l => b + 256 * ofLe l

/-- Loading an `n`-byte integer at position `i`. -/
def load (mem : List Nat) (n i : Nat) : Option Nat :=
  if i + n ≤ mem.length then some (ofLe ((mem.drop i).take n)) else none

/-- `strlen` of the string at position `i`: runs to the first NUL. -/
def strlenAt (mem : List Nat) (i : Nat) : Option Nat :=
  let t := (mem.drop i).takeWhile (fun b => decide (b ≠ 0))
  if i + t.length < mem.length then some t.length else none

/-- src/lib/pattern_map.cpp:87-98, one pattern. -/
def marshallInfo (p : Info) : List Nat := p.pattern ++ [0] ++ p.chain ++ [0] ++ le 8 p.idx

/-- src/lib/pattern_map.cpp:82-101 `PatternMap::marshall`. -/
def marshallMap (ps : List Info) : List Nat := ps.flatMap marshallInfo

/-- src/lib/pattern_map.cpp:103-114 `PatternMap::bufSize`.  The C++ accumulates in
an `int`; sizes of 2^31 and more are not modelled. -/
def mapSize (ps : List Info) : Nat :=
  ps.foldl (fun s p => s + p.pattern.length + 1 + p.chain.length + 1 + 8) 0

/-- One byte of the filter, src/lib/program.cpp:50-57. -/
def packByte (f : Nat → Bool) (b : Nat) : Nat :=
  (f b).toNat ||| ((f (b + 1)).toNat <<< 1) ||| ((f (b + 2)).toNat <<< 2) |||
    ((f (b + 3)).toNat <<< 3) ||| ((f (b + 4)).toNat <<< 4) ||| ((f (b + 5)).toNat <<< 5) |||
    ((f (b + 6)).toNat <<< 6) ||| ((f (b + 7)).toNat <<< 7)

/-- src/lib/program.cpp:31-67 `Program::marshall`. -/
def marshallProg (P : Program) : List Nat :=
  le 4 P.maxLabel ++ le 4 P.maxCheck ++ le 4 P.filterOff ++
    (List.range (256 * 256 / 8)).map (fun b => packByte P.filter (8 * b)) ++
    P.code.flatMap (le 4)

/-- include/program.h:140-146 `Program::bufSize`. -/
def progSize (P : Program) : Nat := 4 + 4 + 4 + 256 * 256 / 8 + P.code.length * 4

/-- src/lib/lightgrep_c_api.cpp:384-387 `lg_program_size` (an `unsigned int`). -/
def programSize (ps : List Info) (P : Program) : Nat :=
  (8 + mapSize ps + 8 + progSize P) % 2 ^ 32

/-- src/lib/lightgrep_c_api.cpp:390-406 `write_program`: the bytes stored. -/
def writeProgram (ps : List Info) (P : Program) : List Nat :=
  le 8 (marshallMap ps).length ++ marshallMap ps ++ le 8 (marshallProg P).length ++ marshallProg P

/-- Outcome of `read_program`. -/
inductive ReadRes where
  | ub
  | null
  | ok (ps : List Info) (P : Program)

/-- src/lib/pattern_map.cpp:127-135: the loop of `PatternMap::unmarshall`; `none` is
a read outside the buffer, `n` bounds the iterations. -/
def unmarshallLoop (mem : List Nat) (e : Nat) : Nat → Nat → Option (List Info)
  | 0, _ => none
  | n + 1, i =>
    if i < e then do
      let pl ← strlenAt mem i
      let chain := i + pl + 1
      let cl ← strlenAt mem chain
      let idx := chain + cl + 1
      let x ← load mem 8 idx
      let rest ← unmarshallLoop mem e n (idx + 8)
      pure (⟨(mem.drop i).take pl, (mem.drop chain).take cl, x⟩ :: rest)
    else some []

/-- src/lib/pattern_map.cpp:116-138 `PatternMap::unmarshall`. -/
def unmarshallMap (mem : List Nat) (i len : Nat) : Option (List Info) :=
  unmarshallLoop mem (i + len) (len + 1) i

/-- Bit `k` of a filter byte, src/lib/program.cpp:85-92. -/
def filterBit (mem : List Nat) (i k : Nat) : Bool :=
  decide (mem.getD (i + k / 8) 0 &&& (1 <<< (k % 8)) ≠ 0)

/-- src/lib/program.cpp:69-104 `Program::unmarshall`.  The instruction count is
computed by a `size_t` subtraction that wraps.  The instructions stay in the
buffer; a count that reaches outside it is `none`, as are header and filter reads
outside it. -/
def unmarshallProg (mem : List Nat) (i len : Nat) : Option Program :=
  let icount := (len + 2 ^ 64 - (4 + 4 + 4 + 256 * 256 / 8)) % 2 ^ 64 / 4
  let code := i + 12 + 8192
  if code + 4 * icount ≤ mem.length then do
    let ml ← load mem 4 i
    let mc ← load mem 4 (i + 4)
    let fo ← load mem 4 (i + 8)
    pure { code := (List.range icount).map (fun k => ofLe ((mem.drop (code + 4 * k)).take 4))
           maxLabel := ml
           maxCheck := mc
           filterOff := fo
           filter := fun k => decide (k < 65536) && filterBit mem (i + 12) k }
  else none

/-- Adding to a pointer, on a machine with 64-bit addresses. -/
def ptrAdd (a n : Nat) : Nat := (a + n) % 2 ^ 64

/-- src/lib/lightgrep_c_api.cpp:408-441 `read_program` on a buffer that starts at
address `base` and holds the bytes `mem`. -/
def readProgram (base : Nat) (mem : List Nat) : ReadRes :=
  let e := base + mem.length
  if ptrAdd base 8 > e then .null
  else match load mem 8 0 with
  | none => .ub
  | some ms =>
    if ptrAdd (base + 8) ms > e then .null
    else match unmarshallMap mem 8 ms with
    | none => .ub
    | some ps =>
      let src := 8 + ms
      if ptrAdd (base + src) 8 > e then .null
      else match load mem 8 src with
      | none => .ub
      | some prs =>
        if ptrAdd (base + src + 8) prs > e then .null
        else match unmarshallProg mem (src + 8) prs with
        | none => .ub
        | some P => .ok ps P

end Verif.Marshal
