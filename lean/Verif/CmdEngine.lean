import Verif.CmdLine
import Verif.Session
import Verif.Subset
import Verif.Compiler
/-!
# The program made for a command line

The handles of `Verif.Handles` with the automaton and the parser they stand for, and
`parsePatterns` of `src/cmd/lg_app.cpp` with `lg_create_program`.
-/
namespace Verif.Handles
open Verif.Marshal (Info)

/-- The bytes of a text. -/
def ofBytes (l : List Nat) : List UInt8 := l.map UInt8.ofNat

/-- `FSMThingy`, include/fsmthingy.h: the automaton and the encoders.  `none` is a state behind a
loop that ran out of fuel, or behind a read past the end of a text. -/
abbrev Machine := Option (Nfa.Graph × Chain.Factory)

/-- A parsed pattern, `none` for a text that was read past its end. -/
abbrev ParsedTree := Option (Option (Regex.Tree Encoders.Node))

/-- `FSMThingy::addPattern`, src/lib/fsmthingy.cpp:29-46, and `FSMThingy::finalizeGraph`, 48-61. -/
def realEngine [Chain.Build] (fuel : Nat) (depth : Nat) : Engine ParsedTree Machine where
  empty := some (.init, .init)
  add m t enc label :=
    match m, t with
    | some (g, f), some t =>
      match Session.addTree fuel ⟨g, f, label⟩ (ofBytes enc) t with
      | none => (none, true)
      | some (s, r) => (some (s.graph, s.factory), r.isSome)
    | _, _ => (none, true)
  finalize m :=
    match m with
    | none => (none, true)
    | some (g, f) =>
      match Subset.finalizeGraph fuel false depth g with
      | none => (none, true)
      | some (.ok g') => (some (g', f), true)
      | some (.error _) => (some (g, f), false)

/-- `lg_parse_pattern`, src/lib/lightgrep_c_api.cpp:69-121.  `cast` is
`boost::lexical_cast<bool>`. -/
def realFront (env : Parser.Env) (cast : List Nat → Option Bool) : Front ParsedTree where
  parse p o :=
    match Text.parseAndReduce env ⟨o.fixed, o.caseInsensitive, o.unicode⟩ (ofBytes p) with
    | .error .ub => some none
    | .error _ => none
    | .ok t => some (some t)
  castBool := cast

/-- The FSM after `parsePatterns`, src/cmd/lg_app.cpp:46-82, and the number of errors. -/
def commandFsm [Chain.Build] (fuel depth : Nat) (env : Parser.Env) (cast : List Nat → Option Bool) (o : CmdOptions) :
    World Machine × Nat :=
  let E := realEngine fuel depth
  parsePatterns E (realFront env cast) 0 o (step E World.init .createFsm).1

/-- `parsePatterns`, src/cmd/lg_app.cpp:46-82, with `lg_create_program`,
src/lib/lightgrep_c_api.cpp:361-382: the automaton, the program and its patterns; `none` if there
is no program. -/
def commandProgram [Chain.Build] (fuel depth : Nat) (env : Parser.Env) (cast : List Nat → Option Bool) (o : CmdOptions) :
    Option (Nfa.Graph × Vm.Program × List Info) :=
  let w := (commandFsm fuel depth env cast o).1
  match w.fsms[0]? with
  | some (some (some (g, _), p)) =>
    match Subset.finalizeGraph fuel false depth g with
    | some (.ok g') =>
      match Compiler.createProgram fuel g' with
      | some (.ok P) => some (g', P, w.maps.getD p [])
      | _ => none
    | _ => none
  | _ => none

end Verif.Handles
