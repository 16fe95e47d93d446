import Verif.PatternList
/-!
# Patterns on the command line

`Options::getPatternLines`, src/cmd/options.cpp, and `parsePatterns`, src/cmd/lg_app.cpp.
The parsing of the command line itself (boost::program_options) is not modelled.
-/
namespace Verif.Handles

variable {Tree Graph : Type}

/-- The members of `Options` read here, include/options.h.  Of the pattern files the
contents are given, `none` for one that cannot be opened. -/
structure CmdOptions where
  patterns : List (List Nat)
  files : List (Option (List Nat))
  encodings : List (List Nat)
  literal : Bool
  caseInsensitive : Bool
  unicode : Bool

/-- A truth value written as a number. -/
def digit (b : Bool) : List Nat := if b then [49] else [48]

/-- The line of one pattern without its newline, src/cmd/options.cpp 52–64. -/
def patternLine (o : CmdOptions) (p : List Nat) : List Nat :=
  p ++ [9] ++ o.encodings.flatMap (fun e => e ++ [44]) ++ [9] ++ digit o.literal ++ [9] ++ digit o.caseInsensitive

/-- `Options::getPatternLines`, src/cmd/options.cpp 44–88: the texts. -/
def getPatternLines (o : CmdOptions) : List (List Nat) :=
  if !o.patterns.isEmpty then [o.patterns.flatMap fun p => patternLine o p ++ [10]]
  else o.files.filterMap id

/-- `parsePatterns`, src/cmd/lg_app.cpp 46–82, up to the program: the handles afterwards and
the number of errors. -/
def parseTexts (E : Engine Tree Graph) (F : Front Tree) (f : Nat) (o : CmdOptions) : List (List Nat) → World Graph → World Graph × Nat
  | [], w => (w, 0)
  | text :: texts, w =>
    let r := addPatternList E F w f text o.encodings ⟨o.literal, o.caseInsensitive, o.unicode⟩
    let s := parseTexts E F f o texts r.1
    (s.1, r.2.1 + s.2)

def parsePatterns (E : Engine Tree Graph) (F : Front Tree) (f : Nat) (o : CmdOptions) (w : World Graph) : World Graph × Nat :=
  parseTexts E F f o (getPatternLines o) w

end Verif.Handles
