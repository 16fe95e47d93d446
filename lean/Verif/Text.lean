import Verif.Parser
import Verif.Utf
/-!
# From the text of a pattern to its rewritten tree

Models `src/lib/parser.cpp`, `nodesUpperBound` and `ParseTree::init` of
`src/lib/parsetree.cpp`, and the decoding at the start of `parse` in
`src/lib/re_grammar.ypp`.  A text is the list of its bytes.
-/
namespace Verif.Text
open Verif.Regex (Tree)
open Verif.Encoders (Node)
open Verif.Parser (Env PatternOpts Res Err)

-- `operator==` of parse nodes compares all of a leaf, parsenode.h 316–321.
deriving instance DecidableEq for Encoders.Node

/-- The code points of a text, with -1 for malformed UTF-8, re_grammar.ypp 1502–1506; `none` is
reading behind the end (`Utf.patternText`). -/
def codePoints (expr : List UInt8) : Option (List Int) :=
  (Utf.patternText (expr.map UInt8.toNat)).map fun cs => cs.map fun
    | some c => (c : Int)
    | none => -1

/-- `std::string::find(c, pos) != npos`. -/
def findFrom (c : UInt8) (expr : List UInt8) (pos : Nat) : Bool := decide (c ∈ expr.drop pos)

/-- `std::string::rfind(c, pos)`: the last position not behind `pos`. -/
def rfind (c : UInt8) : List UInt8 → Nat → Option Nat
  | [], _ => none
  | b :: bs, pos =>
    match (if pos = 0 then none else rfind c bs (pos - 1)) with
    | some i => some (i + 1)
    | none => if b = c then some 0 else none

/-- `containsPossibleNongreedy`, parser.cpp 25–29. -/
def possibleNongreedy (expr : List UInt8) : Bool := findFrom 63 expr 2

/-- `containsPossibleCountedRepetition`, parser.cpp 31–36; the subtraction is modulo 2^64. -/
def possibleCounted (expr : List UInt8) : Bool :=
  match rfind 123 expr ((expr.length + 18446744073709551616 - 3) % 18446744073709551616) with
  | none => false
  | some cr => decide (cr > 0)

/-- The loop of `nodesUpperBound`, parsetree.cpp 51–67; `prev` is the character before. -/
def extraNodes (prev : Option UInt8) : List UInt8 → Nat
  | [] => 0
  | b :: bs =>
    (if b = 94 ∨ b = 36 then 1
     else if (b = 98 ∨ b = 66) ∧ prev = some 92 then 6
     else 0) + extraNodes (some b) bs

/-- `nodesUpperBound`, parsetree.cpp 47–68, in 32 bits. -/
def nodesUpperBound (expr : List UInt8) : Nat := (2 * expr.length + extraNodes none expr) % 4294967296

/-- The room that `ParseTree::init` makes, parsetree.cpp 70–74, in 32 bits. -/
def reserved (expr : List UInt8) : Nat := 2 * nodesUpperBound expr % 4294967296

/-- `parse`, re_grammar.ypp 1501–1527: the tree below the root and the number of nodes. -/
def parseText (env : Env) (p : PatternOpts) (expr : List UInt8) : Res (Tree Node × Nat) :=
  match codePoints expr with
  | none => .error .ub
  | some cs => Parser.parse env p cs

/-- `parseAndReduce`, parser.cpp 39–61; the exception of the rewriter for a lookaround is
`thrown`, and the dummy literal is the `x` of rewriter.cpp 199. -/
def parseAndReduce (env : Env) (p : PatternOpts) (expr : List UInt8) : Res (Option (Tree Node)) :=
  match parseText env p expr with
  | .error e => .error e
  | .ok (t, _) =>
    match Regex.reduce (.lit 120) (possibleNongreedy expr) (possibleCounted expr) t with
    | none => .error .thrown
    | some u => .ok u

end Verif.Text
