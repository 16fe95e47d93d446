import Verif.Utf
/-!
# The Java binding

The Java classes check their arguments (`Throws.java`) before they call native code, and
the native code (`jlightgrep.cpp`) turns handles, arrays, buffers and strings into what the
C API takes.  `byte`, `int` and `long` are `UInt8`, `Int32` and `Int64`, with Java's wrapping
arithmetic.  Java's own classes (`String`, `ByteBuffer`, arrays) and the JNI functions are
modelled as they are documented; class loading, garbage collection, running out of memory
and threads are left out.

Java sources are in src/java/src/main/java/com/lightboxtechnologies/lightgrep/, the native
code is src/java/jni/jlightgrep.cpp.
-/
namespace Verif.Java

/-- The exceptions of the binding. -/
inductive Exn where
  | nullPointer | outOfBounds | illegalState | program | keyword | encoding
deriving DecidableEq

/-- What a call comes to: a result, a Java exception, or undefined behaviour in native code
(memory accessed that is not the caller's, a null or dangling pointer used). -/
inductive Out (α : Type) where
  | ok (a : α)
  | threw (e : Exn)
  | wild
deriving DecidableEq

/-- Exceptions and undefined behaviour end a call. -/
def Out.bind {α β : Type} : Out α → (α → Out β) → Out β
  | .ok a, f => f a
  | .threw e, _ => .threw e
  | .wild, _ => .wild

instance : Monad Out where
  pure := .ok
  bind := Out.bind

/-! ## Throws.java -/

/-- Throws.java:6-10; the result is the object, now known not to be null. -/
def throwIfNull {α : Type} : Option α → Out α
  | some a => .ok a
  | none => .threw .nullPointer

/-- Throws.java:12-14 and 20-26 (the same condition in 16-18 and 28-34 for `long`). -/
def throwIfNegative (x : Int32) : Out Unit := if x < 0 then .threw .outOfBounds else .ok ()

/-- Throws.java:16-18 and 28-34. -/
def throwIfNegativeLong (x : Int64) : Out Unit := if x < 0 then .threw .outOfBounds else .ok ()

/-- Throws.java:36-42. -/
def throwIfGreaterThan (x max : Int32) : Out Unit := if max < x then .threw .outOfBounds else .ok ()

/-- Throws.java:44-58, both forms for `long`. -/
def throwIfGreaterThanLong (x max : Int64) : Out Unit := if max < x then .threw .outOfBounds else .ok ()

/-- Throws.java:68-77; `len` is `buffer.length`. -/
def throwIfByteArrayTooSmall (len off size : Int32) : Out Unit :=
  if len - off < size then .threw .outOfBounds else .ok ()

/-- Throws.java:79-86. -/
def throwIfByteBufferTooSmall (remaining size : Int32) : Out Unit :=
  if remaining < size then .threw .outOfBounds else .ok ()

/-- Handle.java:3-25: the native pointer, 0 when there is none.  Throws.java:60-66. -/
def throwIfDestroyed (pointer : Nat) : Out Unit :=
  if pointer = 0 then .threw .illegalState else .ok ()

/-! ## Arrays and buffers -/

/-- `buffer.length`; arrays have fewer than 2^31 elements. -/
def length (a : List UInt8) : Int32 := Int32.ofNat a.length

/-- What backs a `java.nio.ByteBuffer`: memory outside the heap, an array that the buffer
gives access to (`hasArray()`) with the place in it where the buffer begins
(`arrayOffset()`), or an array that it hides because it is read-only. -/
inductive Store where
  | direct (mem : List UInt8)
  | array (arr : List UInt8) (arrayOffset : Nat)
  | readOnly (arr : List UInt8) (arrayOffset : Nat)

/-- A `java.nio.ByteBuffer`. -/
structure Buffer where
  store : Store
  position : Nat
  limit : Nat
  capacity : Nat

/-- `remaining()` -/
def Buffer.remaining (b : Buffer) : Int32 := Int32.ofNat (b.limit - b.position)

/-- The memory `[off, off+size)` of `mem`: `buf += offset` and `buf + size` in
jlightgrep.cpp 702–721 and 767–786, and the reads of the library in between. -/
def span (mem : List UInt8) (off size : Int32) : Out (List UInt8) :=
  if 0 ≤ off.toInt ∧ 0 ≤ size.toInt ∧ off.toInt + size.toInt ≤ mem.length then
    .ok ((mem.drop off.toInt.toNat).take size.toInt.toNat)
  else .wild

/-- `buffer.get(new byte[size])` for a buffer with at least `size` bytes left: the copy,
and the buffer with its position moved. -/
def Buffer.get (b : Buffer) (arr : List UInt8) (arrayOffset : Nat) (size : Int32) : List UInt8 × Buffer :=
  ((arr.drop (arrayOffset + b.position)).take size.toInt.toNat,
   { b with position := b.position + size.toInt.toNat })

/-- The choice between the two native methods: ContextHandle.java:44-62 (`startsWith`),
100-118 (`search`) and LGUtil.java:54-72 (`getHitContext`) are the same code.  The result
is the memory handed to native code and the buffer afterwards. -/
def handOver (b : Buffer) (size : Int32) : Out (List UInt8 × Buffer) :=
  match b.store with
  | .direct mem => do
    let s ← span mem (Int32.ofNat b.position) size
    .ok (s, b)
  | .array arr arrayOffset => do
    let s ← span arr (Int32.ofNat arrayOffset + Int32.ofNat b.position) size
    .ok (s, b)
  | .readOnly arr arrayOffset => do
    let (copy, b') := b.get arr arrayOffset size
    let s ← span copy 0 size
    .ok (s, b')

/-! ## ContextHandle: searching -/

/-- What `lg_search` and `lg_starts_with` are called with: the bytes between the two
pointers and the offset of the first. -/
structure Given where
  bytes : List UInt8
  start : UInt64
deriving DecidableEq

/-- ContextHandle.java:81-90 (`search`) and 25-34 (`startsWith`), which check the same, with
jlightgrep.cpp 723–732 and 788–796.  `ctx` is the handle's pointer. -/
def searchArray (ctx : Nat) (buffer : Option (List UInt8)) (offset size : Int32) (startOffset : Int64)
    (callback : Option Unit) : Out Given := do
  let arr ← throwIfNull buffer
  throwIfNegative offset
  throwIfNegative size
  throwIfByteArrayTooSmall (length arr) offset size
  throwIfNegativeLong startOffset
  let _ ← throwIfNull callback
  throwIfDestroyed ctx
  let bytes ← span arr offset size
  .ok ⟨bytes, startOffset.toUInt64⟩

/-- ContextHandle.java:92-119 (`search`) and 36-63 (`startsWith`), with jlightgrep.cpp
734–749 and 798–812. -/
def searchBuffer (ctx : Nat) (buffer : Option Buffer) (size : Int32) (startOffset : Int64)
    (callback : Option Unit) : Out (Given × Buffer) := do
  let b ← throwIfNull buffer
  throwIfNegative size
  throwIfByteBufferTooSmall b.remaining size
  throwIfNegativeLong startOffset
  let _ ← throwIfNull callback
  throwIfDestroyed ctx
  let (bytes, b') ← handOver b size
  .ok (⟨bytes, startOffset.toUInt64⟩, b')

/-- jlightgrep.cpp 702–721: the result of `lg_search`, a `uint64_t`, is returned as an `int`. -/
def searchResult (r : UInt64) : Int32 := r.toUInt32.toInt32

/-- jlightgrep.cpp 679–700 `callbackShim`: a hit as Java sees it. -/
structure SearchHit where
  start : Int64
  stop : Int64
  keywordIndex : Int32
deriving DecidableEq

/-- jlightgrep.cpp 689–695. -/
def searchHit (start stop : UInt64) (label : UInt32) : SearchHit :=
  ⟨start.toInt64, stop.toInt64, label.toInt32⟩

/-! ## ProgramHandle: writing and reading -/

/-- jlightgrep.cpp 575–580 through src/lib/lightgrep_c_api.cpp:384-387: the size of a program
as an `unsigned int`, returned as an `int`. -/
def programSize (prog : List UInt8) : Int32 := (UInt32.ofNat prog.length).toInt32

/-- src/lib/lightgrep_c_api.cpp:390-406 `write_program` into memory at `off`. -/
def writeAt (mem prog : List UInt8) (off : UInt32) : Out (List UInt8) :=
  if off.toNat + prog.length ≤ mem.length then
    .ok (mem.take off.toNat ++ prog ++ mem.drop (off.toNat + prog.length))
  else .wild

/-- ProgramHandle.java:57-65 with jlightgrep.cpp 582–594; `prog` is what `lg_write_program`
writes for the program behind the handle. -/
def writeProgram (ptr : Nat) (prog : List UInt8) (buffer : Option (List UInt8)) (offset : Int32) :
    Out (List UInt8) := do
  let arr ← throwIfNull buffer
  throwIfNegative offset
  throwIfDestroyed ptr
  throwIfByteArrayTooSmall (length arr) offset (programSize prog)
  throwIfDestroyed ptr
  writeAt arr prog offset.toUInt32

/-- The method IDs that `LibraryLoader.init` sets (LibraryLoader.java:4-17).  `ProgramHandle`
declares no `init()`, so that `ProgramHandle.init()` is `Handle.init()`, and nothing sets
`programHandleCtor` (jlightgrep.cpp 93–102).  (Calling it would not help: the class has no
constructor that takes a `long`, ProgramHandle.java:13-17.) -/
structure Ids where
  patternInfoCtor : Bool
  programHandleCtor : Bool
  contextHandleCtor : Bool
  hitContextCtor : Bool

/-- LibraryLoader.java:4-17. -/
def ids : Ids := ⟨true, false, true, true⟩

/-- `NewObject` with a method ID; using one that is null is undefined. -/
def newObject (id : Bool) : Out Unit := if id then .ok () else .wild

/-- ProgramHandle.java:73-79 with jlightgrep.cpp 596–618 and 340–352.  `readable` tells whether
`lg_read_program` accepts the bytes. -/
def readProgram (readable : List UInt8 → Bool) (buffer : Option (List UInt8)) (offset size : Int32) :
    Out (List UInt8) := do
  let arr ← throwIfNull buffer
  throwIfNegative offset
  throwIfNegative size
  throwIfByteArrayTooSmall (length arr) offset size
  let bytes ← span arr offset size
  if readable bytes then
    newObject ids.programHandleCtor
    .ok bytes
  else .threw .program

/-! ## Pattern information -/

/-- jlightgrep.cpp 396–404 `throwIfPatternIndexOOB`; `count` is `lg_fsm_pattern_count` or
`lg_prog_pattern_count`. -/
def throwIfPatternIndexOOB (count : UInt32) (patternIndex : Int32) : Out Unit :=
  if count.toInt32 ≤ patternIndex then .threw .outOfBounds else .ok ()

/-- src/lib/lightgrep_c_api.cpp:345-349 and 355-359: the address of an entry of the pattern map. -/
def entryAt {α : Type} (m : List α) (i : UInt32) : Out α :=
  match m[i.toNat]? with
  | some a => .ok a
  | none => .wild

/-- FSMHandle.java:73-79, ProgramHandle.java:111-117 with jlightgrep.cpp 446–463.  `m` are the
user indices in the pattern map. -/
def getUserIndex (ptr : Nat) (m : List UInt64) (patternIndex : Int32) : Out Int32 := do
  throwIfDestroyed ptr
  throwIfNegative patternIndex
  throwIfPatternIndexOOB (UInt32.ofNat m.length) patternIndex
  let u ← entryAt m patternIndex.toUInt32
  .ok u.toUInt32.toInt32

/-- FSMHandle.java:87-93, ProgramHandle.java:125-131 with jlightgrep.cpp 473–487. -/
def setUserIndex (ptr : Nat) (m : List UInt64) (patternIndex userIndex : Int32) : Out (List UInt64) := do
  throwIfDestroyed ptr
  throwIfNegative patternIndex
  throwIfPatternIndexOOB (UInt32.ofNat m.length) patternIndex
  let _ ← entryAt m patternIndex.toUInt32
  .ok (m.set patternIndex.toUInt32.toNat userIndex.toInt64.toUInt64)

/-- FSMHandle.java:35-41 with jlightgrep.cpp 505–537 for a pattern that is accepted: the
user index that is recorded. -/
def addUserIndex (m : List UInt64) (userIndex : Int32) : List UInt64 :=
  m ++ [userIndex.toInt64.toUInt64]

/-! ## LGUtil: text around a hit -/

/-- What `lg_hit_context` is called with. -/
structure ContextArgs where
  bytes : List UInt8
  start : UInt64
  hitBegin : UInt64
  hitEnd : UInt64
  windowSize : UInt64
  replacement : UInt32
deriving DecidableEq

/-- The checks that both forms of `getHitContext` make after those of the buffer:
LGUtil.java:21-31 and 41-51. -/
def contextChecks (size : Int32) (startOffset ibegin iend : Int64) (encoding : Option Unit)
    (windowSize replacement : Int32) : Out Unit := do
  throwIfNegativeLong startOffset
  throwIfNegativeLong ibegin
  throwIfNegativeLong iend
  throwIfGreaterThanLong startOffset ibegin
  throwIfGreaterThanLong ibegin iend
  throwIfGreaterThanLong iend (startOffset + size.toInt64)
  let _ ← throwIfNull encoding
  throwIfNegative windowSize
  throwIfNegative replacement
  throwIfGreaterThan replacement 0x10FFFF

/-- src/lib/lightgrep_c_util.cpp:360-385 uses its decoder handle without looking at it. -/
def useDecoder (ptr : Nat) : Out Unit := if ptr = 0 then .wild else .ok ()

/-- LGUtil.java:15-34 with jlightgrep.cpp 830–872 and 874–884, up to the call of the
library.  Note that nothing checks whether the decoder handle was destroyed. -/
def hitContextArray (dec : Option Nat) (buffer : Option (List UInt8)) (offset size : Int32)
    (startOffset ibegin iend : Int64) (encoding : Option Unit) (windowSize replacement : Int32) :
    Out ContextArgs := do
  let ptr ← throwIfNull dec
  let arr ← throwIfNull buffer
  throwIfNegative offset
  throwIfNegative size
  throwIfByteArrayTooSmall (length arr) offset size
  contextChecks size startOffset ibegin iend encoding windowSize replacement
  let bytes ← span arr offset size
  useDecoder ptr
  .ok ⟨bytes, startOffset.toUInt64, ibegin.toUInt64, iend.toUInt64, windowSize.toInt64.toUInt64, replacement.toUInt32⟩

/-- LGUtil.java:36-73 with jlightgrep.cpp 830–872 and 886–901. -/
def hitContextBuffer (dec : Option Nat) (buffer : Option Buffer) (size : Int32)
    (startOffset ibegin iend : Int64) (encoding : Option Unit) (windowSize replacement : Int32) :
    Out (ContextArgs × Buffer) := do
  let ptr ← throwIfNull dec
  let b ← throwIfNull buffer
  throwIfNegative size
  throwIfByteBufferTooSmall b.remaining size
  contextChecks size startOffset ibegin iend encoding windowSize replacement
  let (bytes, b') ← handOver b size
  useDecoder ptr
  .ok (⟨bytes, startOffset.toUInt64, ibegin.toUInt64, iend.toUInt64, windowSize.toInt64.toUInt64, replacement.toUInt32⟩, b')

/-! ## Options -/

/-- jlightgrep.cpp 546–569: the `boolean` `Determinize` becomes the number
`DeterminizeDepth` (include/lightgrep/api.h:98-100). -/
def determinizeDepth (determinize : Bool) : UInt32 := if determinize then 1 else 0

end Verif.Java
