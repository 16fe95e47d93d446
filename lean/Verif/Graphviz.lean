import Verif.Transition
import Verif.Graph
import Verif.SearchCmd
/-!
# What the command `graph` writes (src/lib/utility.cpp, src/lib/states.cpp, src/lib/automata.cpp)

Texts are lists of bytes.
-/
namespace Verif.Graphviz
open Verif.Nfa (Graph BSet)
open Verif.ByteSet (Bits)
open Verif.Transition (Trans getSmallest)
open Verif.Cmd (Str decimal)

/-- An upper-case hexadecimal digit (`std::hex << std::uppercase`, src/lib/states.cpp:29-31). -/
def hexDigit (d : Nat) : Nat := if d < 10 then 48 + d else 55 + d

/-- `printByte`, src/lib/states.cpp:25-33, with `isgraph` of the C locale. -/
def printByte (b : Nat) : Str :=
  if 33 ≤ b ∧ b ≤ 126 then [b] else [92, 120, hexDigit (b / 16), hexDigit (b % 16)]

/-- `printRange`, src/lib/states.cpp:35-45. -/
def printRange (beg fin : Nat) : Str :=
  printByte beg ++ (if fin - beg > 1 then [45] else []) ++ (if fin ≠ beg then printByte fin else [])

/-- The ranges that `ByteSetState::label`, src/lib/states.cpp:104-129, prints, with `n` iterations left at byte
`i`; the last argument is `beg` and `end`, `none` where `beg` is -1. -/
def ranges (s : Bits) : Nat → Nat → Option (Nat × Nat) → List (Nat × Nat)
  | 0, _, none => []
  | 0, _, some p => [p]
  | n + 1, i, none => if s i then ranges s n (i + 1) (some (i, i)) else ranges s n (i + 1) none
  | n + 1, i, some p => if s i then ranges s n (i + 1) (some (p.1, i)) else p :: ranges s n (i + 1) none

/-- `ByteSetState::label`, src/lib/states.cpp:104-129. -/
def setLabel (s : Bits) : Str := (ranges s 256 0 none).flatMap fun p => printRange p.1 p.2

/-- The `label` members, src/lib/states.cpp:56-60, 71-76, 87-91, 104-129. -/
def transLabel : Trans → Str
  | .byte b => printByte b
  | .either a b => printByte a ++ printByte b
  | .range a b => printRange a b
  | .set s => setLabel s

/-- The bits of the byte set that src/lib/nfabuilder.cpp and src/lib/nfaoptimizer.cpp hand to the factory of transitions. -/
def bitsOf (s : BSet) : Bits := fun i => s.getLsbD i

/-- `Glushkov::label`, src/lib/automata.cpp:24-33.  State 0 is the one without a transition.  A transition is what
`getSmallest` makes of its bytes. -/
def stateLabel (g : Graph) (u : Nat) : Str :=
  if u = 0 then []
  else transLabel (getSmallest (bitsOf (g.v u).bytes)) ++ (match (g.v u).label with
    | none => []
    | some l => 47 :: decimal l)

/-- `escape`, src/lib/utility.cpp:155-164: a backslash before each occurrence of the character. -/
def escape (c : Nat) : Str → Str
  | [] => []
  | x :: xs => if x = c then 92 :: x :: escape c xs else x :: escape c xs

/-- A string literal of src/lib/utility.cpp:144-188, as bytes. -/
def str (s : String) : Str := s.toList.map Char.toNat

/-- `writeVertex`, src/lib/utility.cpp:144-153, without the line break. -/
def vertexLine (v : Nat) (isMatch : Bool) : Str :=
  str "  " ++ decimal v ++ str " [label=\"" ++ decimal v ++ str "\"" ++ (if isMatch then str ", peripheries=2" else []) ++ str "];"

/-- `writeEdge`, src/lib/utility.cpp:166-172, without the line break. -/
def edgeLine (v u : Nat) (label : Str) (priority : Nat) : Str :=
  str "  " ++ decimal v ++ str " -> " ++ decimal u ++ str " [" ++ str "label=\"" ++ escape 34 (escape 92 label) ++ str "\", " ++
    str "taillabel=\"" ++ decimal priority ++ str "\"];"

/-- `writeGraphviz`, src/lib/utility.cpp:174-188. -/
def writeGraphviz (g : Graph) : Str :=
  str "digraph G {\n  rankdir=LR;\n  ranksep=equally;\n  node [shape=\"circle\"];\n" ++
  ((List.range g.n).flatMap fun v => vertexLine v (g.v v).isMatch ++ [10]) ++
  ((List.range g.n).flatMap fun h => (g.v h).out.zipIdx.flatMap fun p => edgeLine h p.1 (stateLabel g p.1) p.2 ++ [10]) ++
  str "}\n"

end Verif.Graphviz
