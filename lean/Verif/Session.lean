import Verif.Chain
import Verif.Text
import Verif.Fsm
/-!
# From requests to an automaton

Models the calls `lg_parse_pattern` and `lg_add_pattern` of `src/lib/lightgrep_c_api.cpp` on
one FSM, with what `FSMThingy::addPattern` of `src/lib/fsmthingy.cpp` does: the factory of
encoders, the builder and the combined automaton.  The pattern map is reduced to its length,
the next label; see `Verif.Handles` for the rest of it.

Simplification: all leaves of a tree are encoded before the builder starts, so that a cache
also holds classes behind a character that the encoding does not have.
-/
namespace Verif.Session
open Verif.Encoders Verif.Chain Verif.Nfa
open Verif.Regex (Tree)
open Verif.Parser (Env PatternOpts)

/-- `FSMHandle`: the automaton and the encoders of its `FSMThingy`, and the number of entries
of its `PatternMap`. -/
structure State where
  graph : Graph
  factory : Factory
  count : Nat

/-- `create_fsm`, lightgrep_c_api.cpp 123–133, and `FSMThingy::FSMThingy`, fsmthingy.cpp 25–27. -/
def State.init : State := ⟨.init, .init, 0⟩

/-- `addPattern`, lightgrep_c_api.cpp 149–160, with `FSMThingy::addPattern`, fsmthingy.cpp
29–46: the label, or `none` for an exception, which `lg_add_pattern` turns into -1.
The result is `none` if a loop runs out of fuel or an encoder misbehaves. -/
def addTree [Build] (fuel : Nat) (s : State) (chain : List UInt8) (t : Option (Tree Node)) : Option (State × Option Nat) :=
  match s.factory.get chain with
  | none => some (s, none)
  | some (e, c) =>
    match t with
    | none => (Fsm.addPattern fuel s.graph s.count none).map fun r => ({ s with graph := r.1 }, none)
    | some t => do
      let l ← e.leaves c t
      let r ← Fsm.addPattern fuel s.graph s.count (some l.2)
      let s' := { s with graph := r.1, factory := s.factory.put chain l.1 }
      some (if r.2 = .added then ({ s' with count := s.count + 1 }, some s.count) else (s', none))

/-- What a caller asks for: a pattern's text, its options and an encoding chain. -/
structure Request where
  expr : List UInt8
  opts : PatternOpts
  chain : List UInt8

/-- `lg_parse_pattern`, lightgrep_c_api.cpp 69–121, and, if it succeeds, `lg_add_pattern`,
163–195.  Reading behind the end of a text is `none`. -/
def request [Build] (fuel : Nat) (env : Env) (s : State) (r : Request) : Option (State × Option Nat) :=
  match Text.parseAndReduce env r.opts r.expr with
  | .error .ub => none
  | .error _ => some (s, none)
  | .ok t => addTree fuel s r.chain t

/-- One request after the other, with their replies. -/
def requests [Build] (fuel : Nat) (env : Env) (s : State) : List Request → Option (State × List (Option Nat))
  | [] => some (s, [])
  | r :: rs => do
    let a ← request fuel env s r
    let b ← requests fuel env a.1 rs
    some (b.1, a.2 :: b.2)

end Verif.Session
