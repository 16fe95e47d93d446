import Mathlib.Computability.Language
/-!
# The automaton graph

Models `include/graph.h` (as the builder and the optimizer use it) and
`include/automata.h`.  Simplifications: the out-list and in-list of a vertex hold the
neighbouring vertices rather than edge numbers (edges carry no data, `Empty` in
automata.h 87), so parallel edges are repeated entries; the transition of a vertex is
the set of bytes it accepts (`Transition::getBytes`; the `Transition` module shows
that the compact representations keep it).
-/
namespace Verif.Nfa

/-- A set of bytes, `ByteSet`. -/
abbrev BSet := BitVec 256

/-- Membership. -/
def BSet.has (s : BSet) (b : UInt8) : Bool := s.getLsbD b.toNat

/-- The set of one byte, `TransitionFactory::getByte`. -/
def BSet.single (b : UInt8) : BSet := BitVec.ofNat 256 (2 ^ b.toNat)

/-- `Glushkov`, automata.h 28–52, with the vertex's edge lists, graph.h 40–55.
`label = none` is `NOLABEL`. -/
structure Vertex where
  bytes : BSet := 0
  out : List Nat := []
  inn : List Nat := []
  isMatch : Bool := false
  label : Option Nat := none

/-- Vertices `0 … n-1`. -/
structure Graph where
  n : Nat
  v : Nat → Vertex

/-- Changing one vertex. -/
def Graph.modify (g : Graph) (i : Nat) (f : Vertex → Vertex) : Graph :=
  { g with v := fun j => if j = i then f (g.v j) else g.v j }

/-- A graph with one vertex, `NFA(1)`. -/
def Graph.init : Graph := { n := 1, v := fun _ => {} }

/-- `Graph::addVertex`, graph.h 326–329, and the transition set right after. -/
def Graph.addVertex (g : Graph) (s : BSet) : Graph :=
  { n := g.n + 1, v := fun j => if j = g.n then { bytes := s } else g.v j }

/-- `VectorFamily::insert`, vectorfamily.h 82–105. -/
def insertAt (l : List Nat) (i x : Nat) : List Nat := l.take i ++ x :: l.drop i

/-- `Graph::insertEdge`, graph.h 349–355 (always at the end of the in-list). -/
def Graph.insertEdge (g : Graph) (h t pos : Nat) : Graph :=
  (g.modify h fun x => { x with out := insertAt x.out pos t }).modify t
    fun x => { x with inn := x.inn ++ [h] }

/-- `Graph::addEdge`, graph.h 341–347. -/
def Graph.addEdge (g : Graph) (h t : Nat) : Graph :=
  (g.modify h fun x => { x with out := x.out ++ [t] }).modify t
    fun x => { x with inn := x.inn ++ [h] }

/-! ## What an automaton accepts -/

/-- The automaton reads the bytes, entering the first state with the first byte and
ending in the given last state. -/
inductive Path (g : Graph) : Nat → List UInt8 → Nat → Prop
  | one {v : Nat} {b : UInt8} : (g.v v).bytes.has b = true → Path g v [b] v
  | cons {v u t : Nat} {b : UInt8} {w : List UInt8} : (g.v v).bytes.has b = true → u ∈ (g.v v).out →
      Path g u w t → Path g v (b :: w) t

/-- The automaton accepts the bytes with the label: from the initial state 0 it can
read them and be in a match state with that label. -/
def Accepts (g : Graph) (l : Nat) (w : List UInt8) : Prop :=
  ∃ u ∈ (g.v 0).out, ∃ t, Path g u w t ∧ (g.v t).isMatch = true ∧ (g.v t).label = some l

/-- The automaton matches the bytes, with whatever label. -/
def Matches (g : Graph) (w : List UInt8) : Prop :=
  ∃ u ∈ (g.v 0).out, ∃ t, Path g u w t ∧ (g.v t).isMatch = true

theorem has_single (b c : UInt8) : (BSet.single b).has c = true ↔ b = c := by
  unfold BSet.has BSet.single
  rw [BitVec.getLsbD_ofNat]
  have hc : c.toNat < 256 := c.toNat_lt
  simp only [hc, decide_true, Bool.true_and, Nat.testBit_two_pow, decide_eq_true_eq]
  constructor
  · intro h; exact UInt8.toNat_inj.1 h
  · rintro rfl; rfl

end Verif.Nfa
