import Verif.Graph
/-!
# Choosing the byte-pair filter

Models `bestPair`, src/lib/utility.cpp 23–118.

Simplifications.  A `std::bitset<65536>` is a predicate on pairs (first byte, second
byte); a bit is `first + 256 * second` (the comment at 76–82).  The loop gets fuel and
`none` is fuel exhausted; the property theorems show that enough fuel exists when a
match state can be reached.  The counts compared by `min_element` are taken from the
predicates.
-/
namespace Verif.BestPair
open Verif.Nfa

/-- One element of the vector `b`: the pairs admitted at one offset. -/
abbrev Pairs := UInt8 → UInt8 → Bool

/-- `set::emplace` on the heap of (depth, vertex) pairs, kept in order, utility.cpp
25–26 and 57. -/
def emplace (d v : Nat) : List (Nat × Nat) → List (Nat × Nat)
  | [] => [(d, v)]
  | (e, u) :: ps =>
    if d < e ∨ (d = e ∧ v < u) then (d, v) :: (e, u) :: ps
    else if d = e ∧ v = u then (e, u) :: ps
    else (e, u) :: emplace d v ps

/-- Putting the successors in the heap, utility.cpp 56–58. -/
def emplaceAll (d : Nat) : List Nat → List (Nat × Nat) → List (Nat × Nat)
  | [], next => next
  | t :: ts, next => emplaceAll d ts (emplace d t next)

/-- What the successor `t0` of the head contributes, utility.cpp 69–96. -/
def contribute (g : Graph) (t0 : Nat) : Pairs := fun x y =>
  (g.v t0).bytes.has x &&
    ((g.v t0).isMatch || (g.v t0).out.any fun t1 => (g.v t1).bytes.has y)

/-- Everything recorded for the head `h`, utility.cpp 69–96. -/
def contributions (g : Graph) (h : Nat) : Pairs := fun x y =>
  (g.v h).out.any fun t0 => contribute g t0 x y

/-- `b.resize` if needed and the updates of `b[depth]`, utility.cpp 61–96. -/
def record (b : List Pairs) (d : Nat) (p : Pairs) : List Pairs :=
  let b := b ++ List.replicate (d + 1 - b.length) (fun _ _ => false)
  b.modify d fun q x y => q x y || p x y

/-- The loop, utility.cpp 37–97. -/
def loop (g : Graph) : Nat → List (Nat × Nat) → List Pairs → Nat → Option (List Pairs × Nat)
  | _, [], b, lmin => some (b, lmin)
  | 0, _ :: _, _, _ => none
  | fuel + 1, (d, h) :: next, b, lmin =>
    if d > lmin + 1 then some (b, lmin)
    else
      let lmin := if (g.v h).isMatch ∧ d < lmin then d else lmin
      let next := if d < lmin + 1 then emplaceAll (d + 1) (g.v h).out next else next
      loop g fuel next (record b d (contributions g h)) lmin

/-- `bitset::count`. -/
def count (p : Pairs) : Nat :=
  ((List.range 65536).filter fun i => p (UInt8.ofNat (i % 256)) (UInt8.ofNat (i / 256))).length

/-- `std::min_element` by count: the position of the first least element, given the
best so far. -/
def argmin (best : Nat) (bestCount : Nat) : Nat → List Pairs → Nat
  | _, [] => best
  | i, p :: ps =>
    if count p < bestCount then argmin i (count p) (i + 1) ps else argmin best bestCount (i + 1) ps

/-- `bestPair`; also `none` when the vector is empty (the result would be read out of
bounds). -/
def bestPair (fuel : Nat) (g : Graph) : Option (Nat × Pairs) :=
  match loop g fuel [(0, 0)] [] 4294967294 with
  | none => none
  | some (b, lmin) =>
    -- 99–108: cut the vector at the least match length
    match b.take lmin with
    | [] => none
    | p :: ps =>
      let i := argmin 0 (count p) 1 ps
      (p :: ps)[i]?.map fun q => (i, q)

end Verif.BestPair
