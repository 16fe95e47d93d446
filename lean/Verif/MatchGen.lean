import Verif.Graph
/-!
# Sample matches

Models `matchgen`, src/lib/matchgen.cpp, which the command line's `samples` command uses.  The random
engine is a parameter: `rng k` is the outcome of the `k`-th draw.  A distribution turns it into
a truth value or an index; whether with the probabilities given in the code is not modelled,
except that a probability of 1 is certainty.
-/
namespace Verif.MatchGen
open Verif.Nfa

/-- The outcomes of the draws. -/
abbrev Rng := Nat → Nat

/-- A draw from a `std::bernoulli_distribution` with a probability that is neither 0 nor 1. -/
def coin (rng : Rng) (k : Nat) : Bool := rng k % 2 == 0

/-- `addRange`, matchgen.cpp 25–33. -/
def addRange (allowed : BSet) (ranges : List (Nat × Nat)) : List UInt8 :=
  ((ranges.flatMap fun r => List.range' r.1 (r.2 + 1 - r.1)).filter fun b => allowed.getLsbD b).map UInt8.ofNat

/-- The bytes to choose from, matchgen.cpp 37–51, with the number of the next draw. -/
def choices (rng : Rng) (k : Nat) (allowed : BSet) : List UInt8 × Nat :=
  let b0 := addRange allowed [(48, 57), (65, 90), (97, 122)]
  let k1 := if b0.isEmpty then k else k + 1
  let b1 := b0 ++ addRange allowed [(33, 47), (58, 64), (91, 96), (123, 126)]
  let k2 := if b1.isEmpty then k1 else k1 + 1
  let b2 := b1 ++ addRange allowed [(0, 32), (127, 255)]
  if b0.isEmpty || coin rng k then
    if b1.isEmpty || coin rng k1 then (b2, k2) else (b1, k2)
  else (b0, k1)

/-- `chooseByte`, matchgen.cpp 35–55, with the number of the next draw; `none` is an access
to an empty vector. -/
def chooseByte (rng : Rng) (k : Nat) (allowed : BSet) : Option (UInt8 × Nat) :=
  let r := choices rng k allowed
  (r.1[rng r.2 % r.1.length]?).map fun b => (b, r.2 + 1)

/-- Writing the match along the path, matchgen.cpp 84–92.  A vertex without transition is one
with no bytes. -/
def writeMatch (g : Graph) (rng : Rng) : Nat → List Nat → Option (List UInt8 × Nat)
  | k, [] => some ([], k)
  | k, w :: ws =>
    if (g.v w).bytes = 0 then writeMatch g rng k ws
    else match chooseByte rng k (g.v w).bytes with
      | none => none
      | some (b, k) => (writeMatch g rng k ws).map fun r => (b :: r.1, r.2)

/-- Finding a successor, matchgen.cpp 112–144: the one chosen so far, how many were eligible,
and the next draw.  The first one eligible is taken with probability 1. -/
def successor (rng : Rng) (maxLoops : Nat) (seen : Nat → Nat) : List Nat → Nat → Nat → Nat → Nat × Nat × Nat
  | [], s, c, k => (s, c, k)
  | w :: ws, s, c, k =>
    if seen w < maxLoops then
      successor rng maxLoops seen ws (if c == 0 || coin rng k then w else s) (c + 1) (k + 1)
    else successor rng maxLoops seen ws s c k

/-- The local variables of `matchgen`: the path, the visits and the matches (the set of them as
a list, the latest first), and the next draw. -/
structure Walk where
  path : List Nat
  seen : Nat → Nat
  found : List (List UInt8)
  k : Nat

/-- What happens next: another vertex, the end of this walk, or an access to an empty vector. -/
inductive Next where
  | visit (v : Nat) (s : Walk)
  | stop (s : Walk)
  | ub

/-- Moving on or back, matchgen.cpp 112–154. -/
def move (g : Graph) (rng : Rng) (maxLoops v : Nat) (s : Walk) : Next :=
  let r := successor rng maxLoops s.seen (g.v v).out 0 0 s.k
  if r.2.1 = 0 then
    match s.path.dropLast.getLast? with
    | none => .ub
    | some v => .visit v { s with path := s.path.dropLast, k := r.2.2 }
  else .visit r.1 { s with k := r.2.2 }

/-- One round of the inner loop, matchgen.cpp 78–155. -/
def visit (g : Graph) (rng : Rng) (maxLoops v : Nat) (s : Walk) : Next :=
  let s := { s with path := s.path ++ [v], seen := fun x => if x = v then s.seen x + 1 else s.seen x }
  if (g.v v).isMatch then
    match writeMatch g rng s.k s.path with
    | none => .ub
    | some (w, k) =>
      let s := { s with found := w :: s.found, k := k + 1 }
      if coin rng k && (g.v v).out.any (fun w => decide (s.seen w < maxLoops)) then move g rng maxLoops v s
      else .stop s
  else move g rng maxLoops v s

/-- The inner loop with a step budget; `none` is "not finished", `some none` undefined
behaviour. -/
def walk (g : Graph) (rng : Rng) (maxLoops : Nat) : Nat → Nat → Walk → Option (Option Walk)
  | 0, _, _ => none
  | n + 1, v, s =>
    match visit g rng maxLoops v s with
    | .ub => some none
    | .stop s => some (some s)
    | .visit v s => walk g rng maxLoops n v s

/-- `matchgen`, matchgen.cpp 58–159: the matches, and the next draw. -/
def matchgen (g : Graph) (rng : Rng) (maxLoops fuel : Nat) : Nat → List (List UInt8) → Nat →
    Option (Option (List (List UInt8) × Nat))
  | 0, found, k => some (some (found, k))
  | n + 1, found, k =>
    match walk g rng maxLoops fuel 0 { path := [], seen := fun _ => 0, found, k } with
    | none => none
    | some none => some none
    | some (some s) => matchgen g rng maxLoops fuel n s.found s.k

end Verif.MatchGen
