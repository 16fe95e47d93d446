import Verif.Vm
import Verif.ByteSet
/-!
# Transitions (include/states.h, src/lib/states.cpp, include/transitionfactory.h)

The four transition classes, the instruction words they emit
(src/lib/instructions.cpp) and the factory that chooses and shares them.
Bytes are natural numbers below 256; pointers to shared transitions are
replaced by their values.
-/
namespace Verif.Transition

open Verif.ByteSet (Bits)

/-- include/states.h:34-172: `ByteState`, `EitherState`, `RangeState`,
`ByteSetState`. -/
inductive Trans where
  | byte (b : Nat)
  | either (a b : Nat)
  | range (a b : Nat)
  | set (s : Bits)

/-- The `allowed` members (include/states.h:39, 72, 107, 146) on one byte. -/
def Trans.allowed : Trans → Nat → Bool
  | .byte b, c => c == b
  | .either a b, c => c == a || c == b
  | .range a b, c => decide (a ≤ c) && decide (c ≤ b)
  | .set s, c => s c

/-- The `numInstructions` members (include/states.h:54, 88, 121, 161). -/
def Trans.size : Trans → Nat
  | .set _ => 9
  | _ => 1

/-- The 4-byte instruction with the given bytes, include/instructions.h:47-74
(packed, little-endian). -/
def mkWord (op b1 b2 b3 : Nat) : Nat := op + 256 * b1 + 65536 * b2 + 16777216 * b3

/-- The number whose `n` low bits are the bits of `s` from `i` on: the memory
of a `std::bitset` read as a little-endian integer. -/
def bitsFrom (s : Bits) : Nat → Nat → Nat
  | 0, _ => 0
  | n + 1, i => (if s i then 1 else 0) + 2 * bitsFrom s n (i + 1)

/-- The `toInstruction` members (src/lib/states.cpp:46-49, 61-64, 77-80,
93-98) with `makeByte`, `makeEither`, `makeRange`, `makeAny`, `makeBitVector`
(src/lib/instructions.cpp:101-141).  `none` is the exception of `makeRange`. -/
def Trans.emit : Trans → Option (List Nat)
  | .byte b => some [mkWord 1 0 b 0]
  | .either a b => some [mkWord 3 0 a b]
  | .range a b =>
    if a = 0 ∧ b = 255 then some [mkWord 5 0 0 0]
    else if b < a then none
    else some [mkWord 4 0 a b]
  | .set s => some (mkWord 2 0 0 0 :: (List.range 8).map (fun k => bitsFrom s 32 (32 * k)))

/-- The classification state of `getSmallest`, include/transitionfactory.h:70-77. -/
inductive Cls where
  | none
  | one (low high : Nat)
  | range (low high : Nat)
  | two (low high : Nat)

/-- include/transitionfactory.h:107-121: the choice after the loop. -/
def choose (s : Bits) : Cls → Trans
  | .none => .set s
  | .one low _ => .byte low
  | .range low high => .range low high
  | .two low high => .either low high

/-- include/transitionfactory.h:80-105: the loop, with `n` iterations left, at
byte `i`.  `++high` is 8-bit arithmetic. -/
def scan (s : Bits) : Nat → Nat → Cls → Trans
  | 0, _, c => choose s c
  | n + 1, i, c =>
    if s i then
      match c with
      | .none => scan s n (i + 1) (.one i i)
      | .one low high =>
        if (high + 1) % 256 ≠ i then scan s n (i + 1) (.two low i)
        else scan s n (i + 1) (.range low ((high + 1) % 256))
      | .range low high =>
        if (high + 1) % 256 = i then scan s n (i + 1) (.range low ((high + 1) % 256))
        else .set s
      | .two _ _ => .set s
    else scan s n (i + 1) c

/-- include/transitionfactory.h:69-122 `getSmallest`. -/
def getSmallest (s : Bits) : Trans := scan s 256 0 .none

/-- The 32 bytes of a byte set in memory. -/
def bytesOf (s : Bits) : List Nat := (List.range 32).map (fun k => bitsFrom s 8 (8 * k))

/-- `memcmp(a, b) < 0` on equally long buffers, include/byteset.h:45-53. -/
def memLess : List Nat → List Nat → Bool
  | a :: as, b :: bs => if a < b then true else if b < a then false else memLess as bs
  | _, _ => false

/-- include/states.h:174-263 `TransitionComparator`. -/
def less : Trans → Trans → Bool
  | .byte a, .byte b => decide (a < b)
  | .byte _, _ => true
  | .either _ _, .byte _ => false
  | .either a1 a2, .either b1 b2 =>
    if a1 < b1 then true else if b1 < a1 then false else decide (a2 < b2)
  | .either _ _, _ => true
  | .range _ _, .byte _ => false
  | .range _ _, .either _ _ => false
  | .range a1 a2, .range b1 b2 =>
    if a1 < b1 then true else if b1 < a1 then false else decide (a2 < b2)
  | .range _ _, .set _ => true
  | .set s, .set t => memLess (bytesOf s) (bytesOf t)
  | .set _, _ => false

/-- include/transitionfactory.h:124-127 `get`: look up an equivalent exemplar
or add a copy.  `std::set` is a list searched for an equivalent element. -/
def get (ex : List Trans) (t : Trans) : Trans × List Trans :=
  match ex.find? (fun e => !less e t && !less t e) with
  | some e => (e, ex)
  | none => (t, t :: ex)

end Verif.Transition
