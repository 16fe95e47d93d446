import Verif.Graph
/-!
# Guard labels

Models `NFAOptimizer::labelGuardStates` and what it calls, src/lib/nfaoptimizer.cpp
262–387.  Simplifications: the two reserved values NONE and UNLABELABLE of the label
field are separate constructors (labels are below 2^32-2); loops have a step budget, and
`none` is "not finished within the budget"; the test for the initial state,
"has no transition", is "is vertex 0".
-/
namespace Verif.Label
open Verif.Nfa

/-- Values of the label field during labelling, nfaoptimizer.cpp 26–27. -/
inductive Mark where
  | none
  | lab (l : Nat)
  | un
deriving DecidableEq

/-- The label field of a vertex. -/
def Mark.ofLabel : Option Nat → Mark
  | .none => .none
  | .some l => .lab l

@[inherit_doc Mark.ofLabel] def Mark.toLabel : Mark → Option Nat
  | .none => .none
  | .lab l => .some l
  | .un => .some 4294967294

def set (L : Nat → Mark) (v : Nat) (m : Mark) : Nat → Mark := fun x => if x = v then m else L x

/-- Marking a vertex and its ancestors, nfaoptimizer.cpp 315–331.  The stack's top is the
head of the list. -/
def walkUn (g : Graph) : Nat → List Nat → (Nat → Mark) → Option (Nat → Mark)
  | 0, _, _ => Option.none
  | _ + 1, [], L => some L
  | n + 1, u :: st, L =>
    let L := set L u .un
    let ps := (g.v u).inn.filter (fun h => h ≠ 0 ∧ L h ≠ .un)
    walkUn g n (ps.reverse ++ st) L

/-- The loop over the parents of a vertex, nfaoptimizer.cpp 293–332. -/
def parents (g : Graph) (fuel : Nat) (l : Mark) : List Nat → List Nat → (Nat → Mark) → Option (List Nat × (Nat → Mark))
  | [], st, L => some (st, L)
  | h :: hs, st, L =>
    if h = 0 then parents g fuel l hs st L
    else if L h = .none then parents g fuel l hs (h :: st) (set L h l)
    else if L h = .un then parents g fuel l hs st L
    else if L h = l then parents g fuel l hs st L
    else match walkUn g fuel [h] L with
      | Option.none => Option.none
      | some L => parents g fuel l hs st L

/-- The walk back from a match state, nfaoptimizer.cpp 288–333. -/
def walk (g : Graph) (l : Mark) : Nat → List Nat → (Nat → Mark) → Option (Nat → Mark)
  | 0, _, _ => Option.none
  | _ + 1, [], L => some L
  | n + 1, t :: st, L =>
    match parents g n l (g.v t).inn st L with
    | Option.none => Option.none
    | some (st, L) => walk g l n st L

/-- `propagateMatchLabels`, nfaoptimizer.cpp 268–335, from vertex `m` on. -/
def propagate (g : Graph) (fuel : Nat) : List Nat → (Nat → Mark) → Option (Nat → Mark)
  | [], L => some L
  | m :: ms, L =>
    if (g.v m).isMatch then
      match walk g (L m) fuel [m] L with
      | Option.none => Option.none
      | some L => propagate g fuel ms L
    else propagate g fuel ms L

/-- What the first loop of `removeNonMinimalLabels` keeps. -/
structure Sweep where
  L : Nat → Mark
  visited : Nat → Bool
  heads : Nat → Bool

/-- The loop over the successors of a vertex, nfaoptimizer.cpp 353–367. -/
def sweepOut : List Nat → List Nat → Sweep → List Nat × Sweep
  | [], st, s => (st, s)
  | t :: ts, st, s =>
    if s.visited t then sweepOut ts st s
    else
      let visited := fun x => if x = t then true else s.visited x
      if s.L t = .un then sweepOut ts (t :: st) { s with L := set s.L t .none, visited }
      else sweepOut ts st { s with heads := fun x => if x = t then true else s.heads x, visited }

/-- The first loop of `removeNonMinimalLabels`, nfaoptimizer.cpp 345–368. -/
def sweep (g : Graph) : Nat → List Nat → Sweep → Option Sweep
  | 0, _, _ => Option.none
  | _ + 1, [], s => some s
  | n + 1, h :: st, s =>
    let (st, s) := sweepOut (g.v h).out st s
    sweep g n st s

/-- The loop over the successors of a vertex, nfaoptimizer.cpp 380–388. -/
def clearOut : List Nat → List Nat → Sweep → List Nat × Sweep
  | [], st, s => (st, s)
  | t :: ts, st, s =>
    if s.visited t then clearOut ts st s
    else clearOut ts (t :: st)
      { s with L := set s.L t .none, visited := fun x => if x = t then true else s.visited x }

/-- The last loop of `removeNonMinimalLabels`, nfaoptimizer.cpp 375–389. -/
def clear (g : Graph) : Nat → List Nat → Sweep → Option Sweep
  | 0, _, _ => Option.none
  | _ + 1, [], s => some s
  | n + 1, h :: st, s =>
    let (st, s) := clearOut (g.v h).out st s
    clear g n st s

/-- `removeNonMinimalLabels`, nfaoptimizer.cpp 337–387.  `heads` is a `std::set`, pushed
in increasing order. -/
def removeNonMinimal (g : Graph) (fuel : Nat) (L : Nat → Mark) : Option (Nat → Mark) :=
  match sweep g fuel [0] { L, visited := fun x => x = 0, heads := fun _ => false } with
  | Option.none => Option.none
  | some s =>
    match clear g fuel ((List.range g.n).filter s.heads).reverse s with
    | Option.none => Option.none
    | some s => some s.L

/-- `labelGuardStates`, nfaoptimizer.cpp 262–266. -/
def labelGuardStates (fuel : Nat) (g : Graph) : Option Graph :=
  match propagate g fuel (List.range g.n) (fun v => Mark.ofLabel (g.v v).label) with
  | Option.none => Option.none
  | some L =>
    match removeNonMinimal g fuel L with
    | Option.none => Option.none
    | some L => some { g with v := fun x => { g.v x with label := (L x).toLabel } }

end Verif.Label
