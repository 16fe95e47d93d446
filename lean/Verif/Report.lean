import Verif.CmdLine
import Verif.SearchCmd
/-!
# Error reports

The errors that `lg_add_pattern_list` records (src/lib/lightgrep_c_api.cpp, src/lib/c_api_util.cpp), the chain
they form, `Errors` of src/lib/errors.cpp, which joins the chains and prints them, and the commands
that do (src/cmd/main.cpp, src/cmd/lg_app.cpp).  `PatternList` has the same calls with the errors reduced
to their number.
-/
namespace Verif.Handles

variable {Tree Graph : Type}

/-- `LG_Error`, include/lightgrep/api.h 109–116, without `Next`. -/
structure Error where
  message : List Nat
  pattern : Option (List Nat)
  chain : Option (List Nat)
  source : Option (List Nat)
  index : Int
deriving DecidableEq

/-- `makeError`, src/lib/c_api_util.cpp 23–46; strings are copied up to their first NUL. -/
def makeError (msg : List Nat) (pattern chain source : Option (List Nat)) (index : Int) : Error :=
  ⟨cstr msg, pattern.map cstr, chain.map cstr, source.map cstr, index⟩

/-- What the exceptions say: of `parseAndReduce`, of `FSMThingy::addPattern`, which looks at the
tree and the encoding, and of `boost::lexical_cast<bool>`. -/
structure Messages (Tree : Type) where
  parse : List Nat → Opts → List Nat
  add : Tree → List Nat → List Nat
  cast : List Nat

/-- The `LG_Error` objects: the object at each address with its `Next`. -/
abbrev Heap := List (Error × Option Nat)

/-- The objects, the pointer of the caller and `LG_Error** err` of `addPatternList`: the pointer of
the caller (`none`) or the `Next` of an object. -/
structure Rec (Graph : Type) where
  world : World Graph
  heap : Heap
  head : Option Nat
  cur : Option Nat

/-- `Next` of the object at `a` becomes `p`. -/
def setNext (h : Heap) (a : Nat) (p : Option Nat) : Heap :=
  match h[a]? with
  | some (e, _) => h.set a (e, p)
  | none => h

/-- `*err = makeError(…)` followed by `err = &((*err)->Next)`, src/lib/lightgrep_c_api.cpp 208–211,
216–220, 260–261, 278–282. -/
def Rec.put (s : Rec Graph) (e : Error) : Rec Graph :=
  let a := s.heap.length
  match s.cur with
  | none => { s with heap := s.heap ++ [(e, none)], head := some a, cur := some a }
  | some c => { s with heap := setNext (s.heap ++ [(e, none)]) c (some a), cur := some a }

/-- The loop over the encodings in `addPatternHelper`, src/lib/lightgrep_c_api.cpp 214–221; pattern and
encoding are written into the error by `lg_add_pattern`, 189–192. -/
def recEncodings (E : Engine Tree Graph) (M : Messages Tree) (f : Nat) (t : Tree) (pat : List Nat) (lnum : Nat) :
    List (List Nat) → Rec Graph → Rec Graph
  | [], s => s
  | enc :: encs, s =>
    let r := addPattern E s.world f t pat enc lnum
    let s := { s with world := r.1 }
    recEncodings E M f t pat lnum encs
      (if r.2 = -1 then s.put (makeError (M.add t (cstr enc)) (some pat) (some enc) none lnum) else s)

/-- `addPatternHelper`, src/lib/lightgrep_c_api.cpp 199–222; the pattern is written into the error by
`lg_parse_pattern_slice`, 99–102. -/
def recHelper (E : Engine Tree Graph) (F : Front Tree) (M : Messages Tree) (f : Nat) (pat : List Nat) (o : Opts)
    (encs : List (List Nat)) (lnum : Nat) (s : Rec Graph) : Rec Graph :=
  match F.parse pat o with
  | none => s.put (makeError (M.parse pat o) (some pat) none none lnum)
  | some t => recEncodings E M f t pat lnum encs s

/-- "no pattern" -/
def noPattern : List Nat := [110, 111, 32, 112, 97, 116, 116, 101, 114, 110]

/-- "no encoding list" -/
def noEncodings : List Nat := [110, 111, 32, 101, 110, 99, 111, 100, 105, 110, 103, 32, 108, 105, 115, 116]

/-- One line, src/lib/lightgrep_c_api.cpp 252–304; `none` when it throws. -/
def recLine (E : Engine Tree Graph) (F : Front Tree) (M : Messages Tree) (f : Nat) (source : List Nat) (defEncs : List (List Nat))
    (o : Opts) (lnum : Nat) (line : List Nat) (s : Rec Graph) : Option (Rec Graph) :=
  match tokens (· == 9) line with
  | [] => some (s.put (makeError noPattern none none (some source) lnum))
  | [pat] => some (recHelper E F M f pat o defEncs lnum s)
  | pat :: el :: rest =>
    match tokens (· == 44) el with
    | [] => some (s.put (makeError noEncodings (some pat) none (some source) lnum))
    | encs =>
      match readOpts F o rest with
      | none => none
      | some o' => some (recHelper E F M f pat o' encs lnum s)

/-- The loop over the lines, and whether it was left by an exception. -/
def recLines (E : Engine Tree Graph) (F : Front Tree) (M : Messages Tree) (f : Nat) (source : List Nat) (defEncs : List (List Nat))
    (o : Opts) : Nat → List (List Nat) → Rec Graph → Rec Graph × Bool
  | _, [], s => (s, false)
  | n, line :: lines, s =>
    match recLine E F M f source defEncs o n line s with
    | none => (s, true)
    | some s' => recLines E F M f source defEncs o (n + 1) lines s'

/-- `lg_add_pattern_list`, src/lib/lightgrep_c_api.cpp 224–339, with the address of a null pointer: the
handles, the objects and the pointer.  The handler of an exception writes over the pointer of the
caller (include/c_api_util.h 31–49). -/
def recList (E : Engine Tree Graph) (F : Front Tree) (M : Messages Tree) (w : World Graph) (h : Heap) (f : Nat)
    (patterns source : List Nat) (defEncs : List (List Nat)) (o : Opts) : World Graph × Heap × Option Nat :=
  let r := recLines E F M f source defEncs o 0 (tokens (fun c => c == 10 || c == 13) (cstr patterns)) ⟨w, h, none, none⟩
  if r.2 then (r.1.world, r.1.heap ++ [(makeError M.cast none none none (-1), none)], some r.1.heap.length)
  else (r.1.world, r.1.heap, r.1.head)

/-- `Errors`, include/errors.h 22–33. -/
structure Errors where
  err : Option Nat
  tail : Option Nat

/-- `for ( ; TailErr->Next; TailErr = TailErr->Next);`, src/lib/errors.cpp 34; `none` is a null pointer
dereferenced, or a loop without end. -/
def toTail (h : Heap) : Nat → Nat → Option Nat
  | 0, _ => none
  | k + 1, a =>
    match h[a]? with
    | none => none
    | some (_, none) => some a
    | some (_, some b) => toTail h k b

/-- `Errors::extend`, src/lib/errors.cpp 26–35. -/
def Errors.extend (h : Heap) (E : Errors) (new : Nat) : Option (Heap × Errors) :=
  let r : Option (Heap × Option Nat × Nat) := match E.err, E.tail with
    | some e, some t => some (setNext h t (some new), some e, t)
    | some _, none => none
    | none, _ => some (h, some new, new)
  match r with
  | none => none
  | some (h, e, t) => (toTail h (h.length + 1) t).map fun t => (h, ⟨e, some t⟩)

/-- A text inserted into a stream; inserting a null pointer is undefined. -/
abbrev Text := Option (List Nat)

/-- "pattern " -/
def wordPattern : List Nat := [112, 97, 116, 116, 101, 114, 110, 32]

/-- An `int` in decimal. -/
def decimalInt : Int → List Nat
  | .ofNat n => Cmd.decimal n
  | .negSucc n => 45 :: Cmd.decimal (n + 1)

/-- One round of the loop in `Errors::outputErrors`, src/lib/errors.cpp 40–46. -/
def printError (printFilename : Bool) (e : Error) : Text :=
  let rest := wordPattern ++ decimalInt e.index ++ [32] ++ e.pattern.getD [] ++ [32] ++ e.chain.getD [] ++ [58, 32] ++ e.message ++ [10]
  if printFilename then e.source.map fun s => s ++ [44, 32] ++ rest
  else some rest

/-- `Errors::outputErrors`, src/lib/errors.cpp 37–49. -/
def outputErrors (h : Heap) (printFilename : Bool) : Nat → Option Nat → Text
  | _, none => some []
  | 0, _ => none
  | k + 1, some a =>
    match h[a]? with
    | none => none
    | some (e, next) =>
      match printError printFilename e with
      | none => none
      | some l => (outputErrors h printFilename k next).map (l ++ ·)

/-- `lg_free_error`, src/lib/lightgrep_c_api.cpp 61–71: the objects deleted, in order. -/
def freeErrors (h : Heap) : Nat → Option Nat → Option (List Nat)
  | _, none => some []
  | 0, _ => none
  | k + 1, some a =>
    match h[a]? with
    | none => none
    | some (_, next) => (freeErrors h k next).map (a :: ·)

/-- Where the keywords come from, include/options.h: as `CmdOptions`, with the names of the files. -/
structure Keys where
  patterns : List (List Nat)
  files : List (List Nat × Option (List Nat))
  encodings : List (List Nat)
  literal : Bool
  caseInsensitive : Bool
  unicode : Bool

def Keys.cmd (o : Keys) : CmdOptions := ⟨o.patterns, o.files.map Prod.snd, o.encodings, o.literal, o.caseInsensitive, o.unicode⟩

/-- "Could not open pattern file " -/
def notOpened : List Nat :=
  [67, 111, 117, 108, 100, 32, 110, 111, 116, 32, 111, 112, 101, 110, 32, 112, 97, 116, 116, 101, 114, 110, 32, 102, 105, 108, 101, 32]

/-- `Options::getPatternLines`, src/cmd/options.cpp 44–88: the names and texts, and what is written to
standard error. -/
def namedLines (o : Keys) : List (List Nat × List Nat) × List Nat :=
  if !o.patterns.isEmpty then ([([], o.patterns.flatMap fun p => patternLine o.cmd p ++ [10])], [])
  else (o.files.filterMap fun x => x.2.map fun t => (x.1, t),
    o.files.flatMap fun x => match x.2 with
      | some _ => []
      | none => notOpened ++ x.1 ++ [10])

/-- The loop in `parsePatterns`, src/cmd/lg_app.cpp 66–80. -/
def recTexts (E : Engine Tree Graph) (F : Front Tree) (M : Messages Tree) (f : Nat) (o : Keys) :
    List (List Nat × List Nat) → World Graph → Heap → Errors → Option (World Graph × Heap × Errors)
  | [], w, h, e => some (w, h, e)
  | (name, text) :: texts, w, h, e =>
    match recList E F M w h f text name o.encodings ⟨o.literal, o.caseInsensitive, o.unicode⟩ with
    | (w, h, none) => recTexts E F M f o texts w h e
    | (w, h, some p) =>
      match e.extend h p with
      | none => none
      | some (h, e) => recTexts E F M f o texts w h e

/-- `const bool printFilename = …`, src/cmd/main.cpp 304, 409, 428, src/cmd/lg_app.cpp 103. -/
def printFilename (o : Keys) : Bool := o.patterns.isEmpty && decide (o.files.length > 1)

/-- What `validate` writes to standard error, src/cmd/main.cpp 425–430, and what the errors leave in
memory: the objects and those deleted.  The other commands begin in the same way. -/
def validate (E : Engine Tree Graph) (F : Front Tree) (M : Messages Tree) (o : Keys) (w : World Graph) : Option (List Nat × Heap × List Nat) :=
  let l := namedLines o
  match recTexts E F M 0 o l.1 w [] ⟨none, none⟩ with
  | none => none
  | some (_, h, e) =>
    match outputErrors h (printFilename o) (h.length + 1) e.err, freeErrors h (h.length + 1) e.err with
    | some t, some d => some (l.2 ++ t, h, d)
    | _, _ => none

/-- What `samples` writes if there was an error, src/cmd/main.cpp 452–456; `pnum` is 0. -/
def sampleComplaint (h : Heap) (e : Errors) : Option Text :=
  match e.err with
  | none => none
  | some a =>
    match h[a]? with
    | none => some none
    | some (x, _) => some (x.pattern.map fun p =>
        x.message ++ [32, 111, 110, 32] ++ wordPattern ++ Cmd.decimal 0 ++ [44, 32, 39] ++ p ++ [39, 10])

end Verif.Handles
