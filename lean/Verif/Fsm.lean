import Verif.NfaBuilder
import Verif.Optimizer
import Verif.Label
/-!
# The combined automaton

Models `FSMThingy`, src/lib/fsmthingy.cpp.  A pattern is given by its rewritten tree,
the leaves being encoded already (see `Verif.NfaBuilder`).
-/
namespace Verif.Fsm
open Verif.Nfa Verif.Regex Verif.NfaBuilder Verif.Optimizer

/-- How adding a pattern ends. -/
inductive Outcome where
  | added
  | refused
  | threw
  deriving DecidableEq

/-- `FSMThingy::addPattern`, fsmthingy.cpp 29–46: the combined automaton afterwards, and
whether there was an exception; `none` is one of the loops running out of fuel. -/
def addPattern (fuel : Nat) (g : Graph) (label : Nat) (t : Option (Tree Leaf)) : Option (Graph × Outcome) :=
  match build label t with
  | .good p => do
    let p ← pruneBranches fuel p
    let g ← mergeIntoFSM fuel g p
    some (g, .added)
  | .empty => some (g, .refused)
  | .threw => some (g, .threw)

/-- Adding one pattern after the other to an FSM, each with its own label. -/
def addAll (fuel : Nat) (g : Graph) : List (Nat × Option (Tree Leaf)) → Option Graph
  | [] => some g
  | (l, t) :: ps => do
    let r ← addPattern fuel g l t
    addAll fuel r.1 ps

end Verif.Fsm
