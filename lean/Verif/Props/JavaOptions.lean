import Verif.Java
import Verif.Props.Finalize
/-!
# C88: the option `Determinize` of the Java binding
-/
namespace Verif.Java
open Verif.Fsm Verif.Compiler Verif.Subset
open Verif.Regex (Tree)
open Verif.Nfa Verif.NfaBuilder

/-- **C88** Without `Determinize` every program has, from one state to another, at most one edge,
so that searching with it finds the leftmost non-overlapping matches (`finalized_hits_partial`). -/
theorem determinize_off_partial {ps : List (Nat × Tree Leaf)} (hps : Patterns ps) {f1 f2 : Nat} {g g' : Graph} {det : Bool}
    (hadd : addAll f1 Graph.init (calls ps) = some g)
    (hfin : finalizeGraph f2 det (determinizeDepth false).toNat g = some (.ok g')) : ∀ v, (g'.v v).out.Nodup :=
  finalized_parallel hps hadd hfin (Or.inl rfl)

/-- **C88** is false with `Determinize`: it asks for a depth of one instead of no limit, and
compiling `(?:[ab]|[cb]|[db]|[eb])x` then writes past the end of the program. -/
theorem determinize_on_overruns : ∃ g g', addAll 40 Graph.init (calls [(0, overlapping)]) = some g ∧
    finalizeGraph 40 false (determinizeDepth true).toNat g = some (Except.ok g') ∧ codegen g' = .ub := by
  obtain ⟨g, g', h1, h2, -, h3⟩ := limited_overruns
  exact ⟨g, g', h1, h2, h3⟩

end Verif.Java
