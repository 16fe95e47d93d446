import Verif.BestPair
import Verif.Transition
/-!
# Code generation

Models `src/lib/codegen.cpp`, `include/codegen.h` and `src/lib/compiler.cpp`.

Simplifications.  The arrays indexed by vertex (`DiscoverRanks`, `Snippets`) are
functions; a vertex never discovered keeps `NONE`.  Sizes are natural numbers (no wrap
at 2^32).  The transition object of a vertex is the one `getSmallest` gives for its
byte set.  The instructions of a state are listed and then written at the state's
start; writing outside the program is the outcome `ub`, an exception is `threw`.
-/
namespace Verif.Compiler
open Verif.Nfa Verif.Transition

/-- `NONE`, codegen.h 28. -/
def NONE : Nat := 4294967295

/-- The transition of a vertex with these bytes. -/
def transOf (s : BSet) : Trans := getSmallest fun i => s.getLsbD i

/-! ## Layout -/

/-- The loop over the successors in `specialVisit`, codegen.cpp 119–130: the queue and
the discovered vertices. -/
def visitSucc (nobranch : Bool) : List Nat → List Nat → List Nat → List Nat × List Nat
  | [], queue, disc => (queue, disc)
  | t :: ts, queue, disc =>
    if t ∈ disc then visitSucc nobranch ts queue disc
    else visitSucc nobranch ts (if nobranch then t :: queue else queue ++ [t]) (t :: disc)

/-- The loop of `specialVisit`, codegen.cpp 110–131: the vertices in the order they
leave the queue.  Every vertex enters the queue once, so `n` rounds are enough. -/
def visit (g : Graph) : Nat → List Nat → List Nat → List Nat
  | 0, _, _ => []
  | _, [], _ => []
  | fuel + 1, v :: queue, disc =>
    let r := visitSucc (decide ((g.v v).out.length < 2)) (g.v v).out queue disc
    v :: visit g fuel r.1 r.2

/-- `inOrder` of `specialVisit`, codegen.cpp 100–115. -/
def order (g : Graph) : List Nat := visit g g.n [0] [0]

/-- `DiscoverRanks`, codegen.h 60: the position in the order; past the end if never
discovered. -/
def rank (g : Graph) (v : Nat) : Nat := (order g).idxOf v

/-- `CheckIndex`, codegen.h 62–64: consecutive numbers from 1 for the vertices with
more than one in edge, in the order of discovery. -/
def checks (g : Graph) : List Nat → Nat → Nat → Option Nat
  | [], _, _ => none
  | v :: vs, k, u =>
    if (g.v v).inn.length > 1 then if u = v then some (k + 1) else checks g vs (k + 1) u
    else if u = v then none else checks g vs k u

/-- The check index of a vertex. -/
def check (g : Graph) (v : Nat) : Option Nat := checks g (order g) 0 v

/-- `MaxCheck`, codegen.h 63. -/
def maxCheck (g : Graph) : Nat := ((order g).filter fun v => (g.v v).inn.length > 1).length

/-- `MaxLabel`, codegen.h 66–69. -/
def maxLabel (g : Graph) : Nat :=
  (order g).foldl (fun m v => match (g.v v).label with
    | none => m
    | some l => max m l) 0

/-- One column of `pivotStates`, utility.cpp 120–133: the successors reached with the
byte, each once. -/
def pivot (g : Graph) (v : Nat) (b : Nat) : List Nat :=
  (g.v v).out.foldl (fun acc u => if (g.v u).bytes.getLsbD b ∧ u ∉ acc then acc ++ [u] else acc) []

/-- `maxOutbound`, utility.cpp 135–142. -/
def maxOutbound (tbl : Nat → List Nat) : Nat :=
  (List.range 256).foldl (fun m i => max m (tbl i).length) 0

/-- One round of the loop of `calcJumpTableSize`, codegen.cpp 37–44: first, last and the
size of the indirect tables. -/
def extentStep (tbl : Nat → List Nat) (r : Nat × Nat × Nat) (i : Nat) : Nat × Nat × Nat :=
  let num := (tbl i).length
  let size := if num > 1 then r.2.2 + num else r.2.2
  if num = 0 then (r.1, r.2.1, size) else (min r.1 i, i, size)

/-- The loop of `calcJumpTableSize`, codegen.cpp 31–45. -/
def tableExtent (tbl : Nat → List Nat) : Nat × Nat × Nat :=
  (List.range 256).foldl (extentStep tbl) (256, 0, 0)

/-- Whether a vertex gets a jump table, codegen.cpp 28–30 and 47. -/
def isTable (g : Graph) (v : Nat) : Bool :=
  decide ((g.v v).out.length > 3) && decide (maxOutbound (pivot g v) < (g.v v).out.length)

/-- `calcJumpTableSize` for a vertex with a table, codegen.cpp 49. -/
def tableSize (g : Graph) (v : Nat) : Nat :=
  let r := tableExtent (pivot g v)
  2 + (r.2.1 - r.1) + 2 * r.2.2

/-- `targetCodeFollowsSource`, compiler.cpp 105–107. -/
def follows (g : Graph) (v u : Nat) : Bool := rank g v + 1 == rank g u

/-- `outOps`, codegen.cpp 74–89. -/
def outSize (g : Graph) (v : Nat) : Nat :=
  match (g.v v).out with
  | [] => 0
  | u :: us =>
    if isTable g v then tableSize g v
    else 2 * us.length + (if follows g v u then 0 else 2)

/-- `NumEval`, codegen.cpp 60: the initial state has no transition. -/
def evalSize (g : Graph) (v : Nat) : Nat := if v = 0 then 0 else (transOf (g.v v).bytes).size

/-- `NumOther`, codegen.cpp 58–92. -/
def otherSize (g : Graph) (v : Nat) : Nat :=
  outSize g v + (if (g.v v).label = none then 0 else 1) +
    (if (g.v v).isMatch then 2 + (if (g.v v).out = [] then 0 else 1) else 0) +
    (if check g v = none then 0 else 1)

/-- `addSnippet` over the order, codegen.h 72–78 and codegen.cpp 133–135. -/
def starts (g : Graph) : List Nat → Nat → Nat → Nat
  | [], _, _ => NONE
  | v :: vs, guard, u =>
    if u = v then guard else starts g vs (guard + (evalSize g v + otherSize g v)) u

/-- `Snippets[v].Start`. -/
def start (g : Graph) (v : Nat) : Nat := starts g (order g) 0 v

/-- The final `Guard`. -/
def guard (g : Graph) : Nat := ((order g).map fun v => evalSize g v + otherSize g v).sum

/-! ## Emission -/

/-- `makeFork` and `makeJump`, instructions.cpp. -/
def fork (a : Nat) : List Nat := [mkWord 7 0 0 0, a]
@[inherit_doc fork] def jump (a : Nat) : List Nat := [mkWord 8 0 0 0, a]

/-- `makeLabel` and `makeCheckHalt`: `none` is the exception of `makeRaw24`. -/
def raw24 (op val : Nat) : Option (List Nat) := if val < 16777216 then some [op + 256 * val] else none

/-- `figureOutLanding`, compiler.cpp 26–37. -/
def landing (g : Graph) (v : Nat) : Nat :=
  match (g.v v).out with
  | [u] => if (g.v v).label = none ∧ (g.v v).isMatch = false then start g u else start g v + evalSize g v
  | _ => start g v + evalSize g v

/-- `minAndMaxValues`, compiler.cpp 39–56. -/
def minAndMax (tbl : Nat → List Nat) : Nat × Nat :=
  let first := ((List.range 256).find? fun i => decide (tbl i ≠ [])).getD 0
  let last := ((List.range 256).reverse.find? fun i => decide (first < i ∧ tbl i ≠ [])).getD 255
  (first, last)

/-- The indirect table of one byte, compiler.cpp 84–93. -/
def indirect (g : Graph) : List Nat → List Nat
  | [] => []
  | t :: ts => ts.reverse.flatMap (fun u => fork (landing g u)) ++ jump (landing g t)

/-- The loop of `createJumpTable`, compiler.cpp 72–95: the table and the indirect
tables behind it; `ind` is the address of the next indirect table. -/
def tableWords (g : Graph) (tbl : Nat → List Nat) : List Nat → Nat → List Nat × List Nat
  | [], _ => ([], [])
  | i :: is, ind =>
    match tbl i with
    | [] => let r := tableWords g tbl is ind; (0 :: r.1, r.2)
    | [t] => let r := tableWords g tbl is ind; (landing g t :: r.1, r.2)
    | ts => let r := tableWords g tbl is (ind + 2 * ts.length); (ind :: r.1, indirect g ts ++ r.2)

/-- `createJumpTable` at the given address, compiler.cpp 59–95. -/
def jumpTable (g : Graph) (v at_ : Nat) : List Nat :=
  let tbl := pivot g v
  let (first, last) := minAndMax tbl
  let r := tableWords g tbl (List.range' first (last + 1 - first)) (at_ + 2 + (last - first))
  mkWord 0 0 first last :: (r.1 ++ r.2)

/-- The label and check of a state, compiler.cpp 116–121. -/
def emitMarks (g : Graph) (v : Nat) : Option (List Nat) := do
  let l ← (match (g.v v).label with
    | none => some []
    | some l => raw24 10 l)
  let c ← (match check g v with
    | none => some []
    | some k => raw24 9 k)
  some (l ++ c)

/-- The match of a state, compiler.cpp 122–134. -/
def emitMatch (g : Graph) (v : Nat) : List Nat :=
  if (g.v v).isMatch then
    mkWord 11 0 0 0 ::
      (if (g.v v).out = [] then [mkWord 6 0 0 0] else fork (guard g + 1))
  else []

/-- Leaving a state without a jump table, compiler.cpp 141–158. -/
def emitOut (g : Graph) (v : Nat) : List Nat :=
  match (g.v v).out with
  | [] => []
  | u :: us =>
    us.reverse.flatMap (fun t => fork (start g t)) ++
      (if follows g v u then [] else jump (start g u))

/-- Everything before a state is left, compiler.cpp 111–135. -/
def emitPre (g : Graph) (v : Nat) : Option (List Nat) :=
  if v = 0 then some []
  else do
    let e ← (transOf (g.v v).bytes).emit
    let m ← emitMarks g v
    some (e ++ m ++ emitMatch g v)

/-- `encodeState`, compiler.cpp 109–160. -/
def encodeState (g : Graph) (v : Nat) : Option (List Nat) := do
  let p ← emitPre g v
  if isTable g v then some (p ++ jumpTable g v (start g v + p.length))
  else some (p ++ emitOut g v)

/-- Outcome of compiling. -/
inductive Out (α : Type) where
  | ok (a : α)
  | threw
  | ub
  deriving DecidableEq

/-- Writing instructions into the program. -/
def place (code : List Nat) (at_ : Nat) (ws : List Nat) : List Nat :=
  code.take at_ ++ ws ++ code.drop (at_ + ws.length)

/-- The loop of `createProgram`, compiler.cpp 178–183, with the check at the end of a
jump table, compiler.cpp 97–102. -/
def encodeAll (g : Graph) : List Nat → List Nat → Out (List Nat)
  | [], code => .ok code
  | v :: vs, code =>
    match encodeState g v with
    | none => .threw
    | some ws =>
      if code.length < start g v + ws.length then .ub
      else if isTable g v ∧ ws.length ≠ evalSize g v + otherSize g v then .threw
      else encodeAll g vs (place code (start g v) ws)

/-- `createProgram`, compiler.cpp 165–190, without the filter. -/
def codegen (g : Graph) : Out (List Nat) :=
  match encodeAll g (List.range g.n) (List.replicate (guard g + 2) (mkWord 12 0 0 0)) with
  | .ok code => .ok ((code.set (guard g) (mkWord 12 0 0 0)).set (guard g + 1) (mkWord 6 0 0 0))
  | .threw => .threw
  | .ub => .ub

/-- `createProgram`, compiler.cpp 165–190; `none` is the filter loop running out of
fuel.  The filter is a `std::bitset<65536>`. -/
def createProgram (fuel : Nat) (g : Graph) : Option (Out Vm.Program) :=
  match BestPair.bestPair fuel g with
  | none => none
  | some (off, f) =>
    match codegen g with
    | .ok code => some (.ok {
        code, maxLabel := maxLabel g, maxCheck := maxCheck g, filterOff := off,
        filter := fun i => decide (i < 65536) && f (UInt8.ofNat (i % 256)) (UInt8.ofNat (i / 256)) })
    | .threw => some .threw
    | .ub => some .ub

end Verif.Compiler
