import Verif.Handles
/-!
# Pattern lists

`lg_add_pattern_list`: a text of pattern lines, columns separated by tabs.  The
pattern parser and `boost::lexical_cast<bool>` are parameters.
-/
namespace Verif.Handles

open Verif.Marshal (Info)

variable {Tree Graph : Type}

/-- `boost::tokenizer` with a `char_separator` that drops the separators and empty
tokens (the default). -/
def tokGo (sep : Nat → Bool) : List Nat → List Nat → List (List Nat)
  | [], cur => if cur.isEmpty then [] else [cur]
  | c :: l, cur =>
    if sep c then (if cur.isEmpty then tokGo sep l [] else cur :: tokGo sep l [])
    else tokGo sep l (cur ++ [c])

def tokens (sep : Nat → Bool) (l : List Nat) : List (List Nat) := tokGo sep l []

/-- include/lightgrep/api.h `LG_KeyOptions`. -/
structure Opts where
  fixed : Bool
  caseInsensitive : Bool
  unicode : Bool
deriving DecidableEq

/-- `lg_parse_pattern` and `boost::lexical_cast<bool>`; `none` when they throw. -/
structure Front (Tree : Type) where
  parse : List Nat → Opts → Option Tree
  castBool : List Nat → Option Bool

/-- The error chain, as the line numbers recorded in it, and the state. -/
structure ImpSt (Graph : Type) where
  world : World Graph
  errs : List Nat

/-- src/lib/lightgrep_c_api.cpp:199-222 `addPatternHelper`, the loop over the
encodings: every refused pattern appends one error with this line's number. -/
def addEncodings (E : Engine Tree Graph) (f : Nat) (t : Tree) (pat : List Nat) (lnum : Nat) :
    List (List Nat) → ImpSt Graph → ImpSt Graph
  | [], s => s
  | enc :: encs, s =>
    let r := addPattern E s.world f t pat enc lnum
    addEncodings E f t pat lnum encs
      { world := r.1, errs := if r.2 = -1 then s.errs ++ [lnum] else s.errs }

/-- src/lib/lightgrep_c_api.cpp:199-222 `addPatternHelper`. -/
def addPatternHelper (E : Engine Tree Graph) (F : Front Tree) (f : Nat) (pat : List Nat) (o : Opts)
    (encs : List (List Nat)) (lnum : Nat) (s : ImpSt Graph) : ImpSt Graph :=
  match F.parse pat o with
  | none => { s with errs := s.errs ++ [lnum] }
  | some t => addEncodings E f t pat lnum encs s

/-- src/lib/lightgrep_c_api.cpp:287-296: the option columns; `none` when a cast
throws. -/
def readOpts (F : Front Tree) (o : Opts) : List (List Nat) → Option Opts
  | [] => some o
  | c1 :: cs => do
    let b1 ← F.castBool c1
    let o := { o with fixed := b1 }
    match cs with
    | [] => pure o
    | c2 :: cs => do
      let b2 ← F.castBool c2
      let o := { o with caseInsensitive := b2 }
      match cs with
      | [] => pure o
      | c3 :: _ => do
        let b3 ← F.castBool c3
        pure { o with unicode := b3 }

/-- src/lib/lightgrep_c_api.cpp:252-304: one line; `none` when it throws. -/
def addLine (E : Engine Tree Graph) (F : Front Tree) (f : Nat) (defEncs : List (List Nat)) (o : Opts)
    (lnum : Nat) (line : List Nat) (s : ImpSt Graph) : Option (ImpSt Graph) :=
  match tokens (· == 9) line with
  | [] => some { s with errs := s.errs ++ [lnum] }
  | [pat] => some (addPatternHelper E F f pat o defEncs lnum s)
  | pat :: el :: rest =>
    match tokens (· == 44) el with
    | [] => some { s with errs := s.errs ++ [lnum] }
    | encs =>
      match readOpts F o rest with
      | none => none
      | some o' => some (addPatternHelper E F f pat o' encs lnum s)

/-- The loop over the lines, and whether it was left by an exception. -/
def addLines (E : Engine Tree Graph) (F : Front Tree) (f : Nat) (defEncs : List (List Nat)) (o : Opts) :
    Nat → List (List Nat) → ImpSt Graph → ImpSt Graph × Bool
  | _, [], s => (s, false)
  | n, line :: lines, s =>
    match addLine E F f defEncs o n line s with
    | none => (s, true)
    | some s' => addLines E F f defEncs o (n + 1) lines s'

/-- src/lib/lightgrep_c_api.cpp:224-307 `addPatternList` within 310-339
`lg_add_pattern_list`, called with a non-null `err` whose target is null: the final
state, the number of errors in the chain and the return value.  After an exception
the chain holds only the exception's own error (include/c_api_util.h:36-40). -/
def addPatternList (E : Engine Tree Graph) (F : Front Tree) (w : World Graph) (f : Nat)
    (patterns : List Nat) (defEncs : List (List Nat)) (o : Opts) : World Graph × Nat × Int :=
  let r := addLines E F f defEncs o 0 (tokens (fun c => c == 10 || c == 13) (cstr patterns)) ⟨w, []⟩
  if r.2 then (r.1.world, 1, -1)
  else (r.1.world, r.1.errs.length, -1)

/-- The same with a null `err`: `none` is the null dereference at
src/lib/lightgrep_c_api.cpp:208, which every line that reaches `addPatternHelper`
meets.  Lines that do not reach it skip the error (259, 277). -/
def reachesHelper (F : Front Tree) (o : Opts) (line : List Nat) : Option Bool :=
  match tokens (· == 9) line with
  | [] => some false
  | [_] => some true
  | _ :: el :: rest =>
    match tokens (· == 44) el with
    | [] => some false
    | _ => match readOpts F o rest with
      | none => none
      | some _ => some true

def addPatternListNullErr (F : Front Tree) (o : Opts) : List (List Nat) → Option Int
  | [] => some 0
  | line :: lines =>
    match reachesHelper F o line with
    | none => some (-1)
    | some true => none
    | some false => addPatternListNullErr F o lines

end Verif.Handles
