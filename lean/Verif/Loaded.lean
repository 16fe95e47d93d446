import Verif.Marshal
/-!
# Programs that live in the caller's buffer

`lg_read_program` does not copy the instructions and the pattern strings: the handle points
into the buffer it was given (`Program::unmarshall`, `PatternMap::unmarshall`).  Here memory is
made of blocks that can be written and freed, and a handle that was read refers to its block;
using such a handle reads the block as it is then.

Simplifications.  A block keeps its number when it is freed, so that using a freed block is
visible; its memory is never handed out again.  `lg_write_program` is always given a new block
of the size `lg_program_size` tells.  The machine is that of `Verif.Marshal`.
-/
namespace Verif.Loaded

open Verif.Vm (Program)
open Verif.Marshal

/-- An `LG_PatternInfo` made by `PatternMap::unmarshall`, src/lib/pattern_map.cpp:127-135: two
pointers into the buffer and a number. -/
structure Ref where
  pattern : Nat
  chain : Nat
  idx : Nat
deriving DecidableEq

/-- A `ProgramHandle` (include/handles.h:48-51) made by `read_program`,
src/lib/lightgrep_c_api.cpp:408-441: the block of its buffer, the pattern pointers, the numbers
and the filter that `Program::unmarshall` copies, and `IBeg` and `IEnd - IBeg`. -/
structure Handle where
  block : Nat
  refs : List Ref
  maxLabel : Nat
  maxCheck : Nat
  filterOff : Nat
  filter : Nat → Bool
  code : Nat
  count : Nat

/-- The loop of `PatternMap::unmarshall`, src/lib/pattern_map.cpp:127-135, keeping the pointers. -/
def refsLoop (mem : List Nat) (e : Nat) : Nat → Nat → Option (List Ref)
  | 0, _ => none
  | n + 1, i =>
    if i < e then do
      let pl ← strlenAt mem i
      let chain := i + pl + 1
      let cl ← strlenAt mem chain
      let idx := chain + cl + 1
      let x ← load mem 8 idx
      let rest ← refsLoop mem e n (idx + 8)
      pure (⟨i, chain, x⟩ :: rest)
    else some []

/-- `Program::unmarshall`, src/lib/program.cpp:69-104, keeping `IBeg` and the count; reading the
header or the filter outside the buffer, or a count that reaches outside it, is `none`. -/
def attachProg (block : Nat) (refs : List Ref) (mem : List Nat) (i len : Nat) : Option Handle :=
  let icount := (len + 2 ^ 64 - (4 + 4 + 4 + 256 * 256 / 8)) % 2 ^ 64 / 4
  let code := i + 12 + 8192
  if code + 4 * icount ≤ mem.length then do
    let ml ← load mem 4 i
    let mc ← load mem 4 (i + 4)
    let fo ← load mem 4 (i + 8)
    pure { block, refs, maxLabel := ml, maxCheck := mc, filterOff := fo
           filter := fun k => decide (k < 65536) && filterBit mem (i + 12) k
           code, count := icount }
  else none

/-- Outcome of `lg_read_program`. -/
inductive Attached where
  | ub
  | null
  | ok (h : Handle)

/-- `read_program`, src/lib/lightgrep_c_api.cpp:408-441, on the block with this number that
starts at address `base` and holds `mem`. -/
def attach (block base : Nat) (mem : List Nat) : Attached :=
  let e := base + mem.length
  if ptrAdd base 8 > e then .null
  else match load mem 8 0 with
  | none => .ub
  | some ms =>
    if ptrAdd (base + 8) ms > e then .null
    else match refsLoop mem (8 + ms) (ms + 1) 8 with
    | none => .ub
    | some refs =>
      let src := 8 + ms
      if ptrAdd (base + src) 8 > e then .null
      else match load mem 8 src with
      | none => .ub
      | some prs =>
        if ptrAdd (base + src + 8) prs > e then .null
        else match attachProg block refs mem (src + 8) prs with
        | none => .ub
        | some h => .ok h

/-- A program handle: from `lg_create_program`, with its own pattern list and instructions, or
from `lg_read_program`. -/
inductive Prog where
  | made (ps : List Info) (P : Program)
  | read (h : Handle)

/-- The blocks of memory with their addresses, `none` once freed, and the program handles, `none`
once destroyed. -/
structure World where
  heap : List (Option (Nat × List Nat))
  progs : List (Option Prog)

/-- The bytes of a block that is not freed. -/
def World.bytes (w : World) (k : Nat) : Option (List Nat) := ((w.heap[k]?).join).map (·.2)

/-- Reading instruction `pc` of a handle, include/program.h:126-132 `operator[]`; `none` is a read
outside the program or of freed memory. -/
def fetch (w : World) : Prog → Nat → Option Nat
  | .made _ P, pc => P.code[pc]?
  | .read h, pc => if pc < h.count then (w.bytes h.block).bind fun m => load m 4 (h.code + 4 * pc) else none

/-- Reading the NUL-terminated string at a position. -/
def stringAt (mem : List Nat) (i : Nat) : Option (List Nat) :=
  (strlenAt mem i).map fun n => (mem.drop i).take n

/-- Reading a pattern, its encoding chain and its index. -/
def readRef (mem : List Nat) (r : Ref) : Option Info := do
  let p ← stringAt mem r.pattern
  let c ← stringAt mem r.chain
  some ⟨p, c, r.idx⟩

/-- `lg_prog_pattern_info`, src/lib/lightgrep_c_api.cpp:355-359, and reading the two strings it
points to. -/
def patternInfo (w : World) : Prog → Nat → Option Info
  | .made ps _, i => ps[i]?
  | .read h, i => (h.refs[i]?).bind fun r => (w.bytes h.block).bind fun m => readRef m r

/-- `lg_prog_pattern_count`, src/lib/lightgrep_c_api.cpp:351-353. -/
def patternCount : Prog → Nat
  | .made ps _ => ps.length
  | .read h => h.refs.length

/-- Reading all patterns of a handle. -/
def patterns (w : World) (q : Prog) : Option (List Info) :=
  (List.range (patternCount q)).mapM (patternInfo w q)

/-- The program that a search with a handle executes: its instructions and the other members
of `Program`, include/program.h:44-47. -/
def program (w : World) : Prog → Option Program
  | .made _ P => some P
  | .read h => ((List.range h.count).mapM (fetch w (.read h))).map fun code =>
      { code, maxLabel := h.maxLabel, maxCheck := h.maxCheck, filterOff := h.filterOff, filter := h.filter }

/-- All that a handle can be used for: its pattern list and its program. -/
def view (w : World) (q : Nat) : Option (List Info × Program) := do
  let p ← (w.progs[q]?).join
  let ps ← patterns w p
  let P ← program w p
  some (ps, P)

/-- What a client can do.  Blocks and handles are numbered in the order of their creation. -/
inductive Op where
  /-- a new block with these bytes at this address -/
  | alloc (base : Nat) (bytes : List Nat)
  /-- storing a byte in a block -/
  | store (k i b : Nat)
  /-- giving a block back -/
  | free (k : Nat)
  /-- `lg_create_program` -/
  | create (ps : List Info) (P : Program)
  /-- `lg_program_size`, a new block and `lg_write_program`, src/lib/lightgrep_c_api.cpp:384-406 -/
  | write (q base : Nat)
  /-- `lg_read_program` of a whole block, src/lib/lightgrep_c_api.cpp:444-449 -/
  | read (k : Nat)
  /-- `lg_destroy_program`, src/lib/lightgrep_c_api.cpp:455-457 -/
  | destroy (q : Nat)

/-- One operation; `none` is an access to memory that is not there.  A null handle is `none`
among the handles. -/
def step (w : World) : Op → Option World
  | .alloc base bytes => some { w with heap := w.heap ++ [some (base, bytes)] }
  | .store k i b =>
    match w.heap[k]? with
    | some (some (base, m)) => if i < m.length then some { w with heap := w.heap.set k (some (base, m.set i b)) } else none
    | _ => none
  | .free k => some { w with heap := w.heap.set k none }
  | .create ps P => some { w with progs := w.progs ++ [some (.made ps P)] }
  | .write q base =>
    match view w q with
    | some (ps, P) => some { w with heap := w.heap ++ [some (base, writeProgram ps P)] }
    | none => none
  | .read k =>
    match w.heap[k]? with
    | some (some (base, m)) =>
      match attach k base m with
      | .ub => none
      | .null => some { w with progs := w.progs ++ [none] }
      | .ok h => some { w with progs := w.progs ++ [some (.read h)] }
    | _ => none
  | .destroy q => some { w with progs := w.progs.set q none }

/-- One operation after the other. -/
def runOps (w : World) : List Op → Option World
  | [] => some w
  | o :: os => (step w o).bind fun w' => runOps w' os

/-- `loadProgram`, src/cmd/main.cpp:157-180, for the contents of the program file: the file is
read into the vector `buf`, `lg_read_program` is called on it, and on return `buf` is destroyed.
`base` is where the vector's memory happens to be.  The result is the number of the handle. -/
def loadProgram (w : World) (base : Nat) (file : List Nat) : Option (World × Nat) :=
  (runOps w [.alloc base file, .read w.heap.length, .free w.heap.length]).map fun w' => (w', w.progs.length)

end Verif.Loaded
