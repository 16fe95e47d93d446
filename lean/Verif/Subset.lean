import Verif.Graph
import Verif.Sequences
import Verif.Label
import Mathlib.Data.List.Sort
/-!
# Subset construction

Models `NFAOptimizer::subsetDFA` and what it calls, src/lib/nfaoptimizer.cpp 388–697,
and `FSMThingy::finalizeGraph`, src/lib/fsmthingy.cpp 48–61.  Loops have a step budget;
`none` is "not finished within the budget".
-/
namespace Verif.Subset
open Verif.Nfa Verif.Sequences Verif.Label

/-- `SubsetState`, nfaoptimizer.h 32: the bytes leading to the state, and the states of
the original automaton in order of preference. -/
abbrev Key := BSet × List Nat

/-- The tails for a byte, `makePerByteOutNeighborhoods` for each head,
nfaoptimizer.cpp 388–404 and 499–502, and then `removeRightDuplicates`, 505–507. -/
def tails (src : Graph) (heads : List Nat) (b : Nat) : List Nat :=
  removeRightDuplicates (heads.flatMap fun h => (src.v h).out.filter fun t => (src.v t).bytes.getLsbD b)

/-- The bytes with the given list of tails, nfaoptimizer.cpp 417–421. -/
def bytesWith (src : Graph) (heads l : List Nat) : BSet :=
  (List.range 256).foldl (fun s b => if tails src heads b = l then s ||| BitVec.ofNat 256 (2 ^ b) else s) 0

/-- The bytes of a `ByteSet` in memory (little-endian words): byte `i` has bits
`8i … 8i+7`. -/
def memory (s : BSet) : List Nat := (List.range 32).map fun i => (s.toNat / 2 ^ (8 * i)) % 256

/-- `ByteSet::operator<=` by way of `compare`, byteset.h 45–53, 104–106. -/
def setLe (s t : BSet) : Bool := decide (memory s ≤ memory t)

/-- `makeByteSetsWithDistinctOutNeighborhoods`, nfaoptimizer.cpp 408–428: the byte sets
with their tails, in the order of the map's keys. -/
def byteSets (src : Graph) (heads : List Nat) : List Key :=
  ((removeRightDuplicates ((List.range 256).map (tails src heads))).map fun l => (bytesWith src heads l, l)).insertionSort
    fun a b => setLe a.1 b.1 = true

/-- `addToDeterminizationGroup`, nfaoptimizer.cpp 430–449: the groups made so far, and
`startGroup`. -/
def addGroup (src : Graph) (s : List (List Nat) × Bool) (t : Nat) : List (List Nat) × Bool :=
  if (src.v t).isMatch then (s.1 ++ [[t]], true)
  else if s.2 then (s.1 ++ [[t]], false)
  else (s.1.dropLast ++ [s.1.getLastD [] ++ [t]], false)

/-- The groups of a list of tails, nfaoptimizer.cpp 516–524. -/
def groups (src : Graph) (ts : List Nat) : List (List Nat) := (ts.foldl (addGroup src) ([], true)).1

/-- The local variables of `subsetDFA`. -/
structure Sub where
  dst : Graph
  /-- `dstList2Dst` -/
  tab : Key → Option Nat
  /-- `dstStack`, the top first -/
  stack : List (Key × Nat)
  /-- `src2Dst` -/
  s2d : Nat → Option Nat

/-- `makeDestinationState`, nfaoptimizer.cpp 451–486. -/
def makeDest (src : Graph) (dstHead depth : Nat) (s : Sub) (k : Key) : Sub :=
  match s.tab k with
  | none =>
    let t := s.dst.n
    let dst := s.dst.addVertex k.1
    let front := src.v (k.2.headD 0)
    let dst := if front.isMatch then dst.modify t fun x => { x with isMatch := true, label := front.label } else dst
    { s with dst := dst.addEdge dstHead t, tab := fun k' => if k' = k then some t else s.tab k',
             stack := (k, depth) :: s.stack }
  | some t => { s with dst := s.dst.addEdge dstHead t }

/-- The keys of the successors of a subset state, nfaoptimizer.cpp 509–531. -/
def succKeys (src : Graph) (heads : List Nat) : List Key :=
  (byteSets src heads).flatMap fun k => (groups src k.2).map fun l => (k.1, l)

/-- `handleSubsetStateSuccessors`, nfaoptimizer.cpp 488–534. -/
def handle (src : Graph) (heads : List Nat) (dstHead depth : Nat) (s : Sub) : Sub :=
  (succKeys src heads).foldl (makeDest src dstHead depth) s

/-- The inner loop body of `connectSubsetStateToOriginal`, nfaoptimizer.cpp 565–571. -/
def connectTo (dstHead : Nat) (s : Sub) (n : Nat) : Sub :=
  match s.s2d n with
  | none =>
    let t := s.dst.n
    { s with dst := (s.dst.addVertex 0).addEdge dstHead t, s2d := fun x => if x = n then some t else s.s2d x }
  | some t => { s with dst := s.dst.addEdge dstHead t }

/-- `connectSubsetStateToOriginal`, nfaoptimizer.cpp 536–573. -/
def connectOrig (src : Graph) (heads : List Nat) (dstHead : Nat) (s : Sub) : Sub :=
  (heads.flatMap fun h => (src.v h).out).foldl (connectTo dstHead) s

/-- The loop of `subsetDFA`, nfaoptimizer.cpp 659–690. -/
def subsetLoop (src : Graph) (limit : Nat) : Nat → Sub → Option Sub
  | 0, _ => none
  | n + 1, s =>
    match s.stack with
    | [] => some s
    | (k, depth) :: st =>
      let s := { s with stack := st }
      let dstHead := (s.tab k).getD 0
      subsetLoop src limit n
        (if depth < limit then handle src k.2 dstHead (depth + 1) s else connectOrig src k.2 dstHead s)

/-- What `completeOriginal` keeps. -/
structure Copy where
  dst : Graph
  s2d : Nat → Option Nat
  next : List Nat

/-- The inner loop body of `completeOriginal`, nfaoptimizer.cpp 627–641. -/
def copyEdge (hh : Nat) (c : Copy) (t : Nat) : Copy :=
  match c.s2d t with
  | none =>
    let tt := c.dst.n
    { dst := (c.dst.addVertex 0).addEdge hh tt, s2d := fun x => if x = t then some tt else c.s2d x, next := t :: c.next }
  | some tt => { c with dst := c.dst.addEdge hh tt }

/-- The loop of `completeOriginal`, nfaoptimizer.cpp 618–643. -/
def copyLoop (src : Graph) : Nat → Copy → Option Graph
  | 0, _ => none
  | n + 1, c =>
    match c.next with
    | [] => some c.dst
    | h :: next =>
      let hh := (c.s2d h).getD 0
      let dst := c.dst.modify hh fun x =>
        { x with label := (src.v h).label, isMatch := (src.v h).isMatch, bytes := (src.v h).bytes }
      copyLoop src n ((src.v h).out.foldl (copyEdge hh) { c with dst, next })

/-- `subsetDFA` into a new automaton of one vertex, nfaoptimizer.cpp 645–697.  The states
to copy are pushed in increasing order. -/
def subsetDFA (fuel : Nat) (src : Graph) (limit : Nat) : Option Graph :=
  let d0 : Key := (0, [0])
  match subsetLoop src limit fuel
      { dst := Graph.init, tab := fun k => if k = d0 then some 0 else none, stack := [(d0, 0)], s2d := fun _ => none } with
  | none => none
  | some s => copyLoop src fuel
      { dst := s.dst, s2d := s.s2d, next := ((List.range src.n).filter fun x => (s.s2d x).isSome).reverse }

/-- `FSMThingy::finalizeGraph`, fsmthingy.cpp 48–61; `.error ()` is the exception "No valid
patterns were parsed".  `det` is the automaton's flag `Deterministic`. -/
def finalizeGraph (fuel : Nat) (det : Bool) (depth : Nat) (g : Graph) : Option (Except Unit Graph) :=
  if g.n < 2 then some (.error ())
  else if depth ≠ 0 ∧ det = false then
    match subsetDFA fuel g depth with
    | none => none
    | some d => (labelGuardStates fuel d).map .ok
  else (labelGuardStates fuel g).map .ok

end Verif.Subset
