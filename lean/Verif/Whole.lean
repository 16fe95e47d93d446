import Verif.Report
import Verif.CmdEngine
import Verif.Graphviz
import Verif.Listing
/-!
# The command as a whole

`parse_opts` of src/cmd/optparser.cpp behind boost's parser, the options of all commands
(src/cmd/options.cpp), and `main` of src/cmd/main.cpp with its exit status.
-/
namespace Verif.Whole
open Verif.Cmd (Args Opts OptErr Str keyFilesOf contextOptions)
open Verif.Marshal (Info)

/-- The bytes of a word. -/
def word (s : String) : Str := s.toList.map Char.toNat

/-- `Options::CommandTypes`, include/options.h:39-49, without `BOGUS`. -/
inductive Command where
  | search
  | graph
  | program
  | samples
  | validate
  | version
  | help
  | encodings
deriving DecidableEq

/-- The options with the values boost's parser finds or puts in for them, src/cmd/optparser.cpp:67-117.
`--verbose` is left out; it does not change what is modelled here. -/
structure Given extends Args where
  command : Str := word "search"
  help : Bool := false
  version : Bool := false
  listEncodings : Bool := false
  /-- `-e`, empty if it is not given -/
  encoding : List Str := []
  ignoreCase : Bool := false
  fixedStrings : Bool := false
  output : Str := Cmd.dash
  histogramFile : Str := []
  groupSeparator : Str := [45, 45]
  blockSize : Nat := 8388608
  depth : Nat := 4294967295
  binary : Bool := false

/-- Exceptions: of options.cpp, of `boost::lexical_cast<uint32_t>`, and for an unknown command. -/
inductive Err where
  | option (e : OptErr)
  | number
  | command
deriving DecidableEq

/-- include/options.h:51-76. -/
structure Settings where
  command : Command
  opts : Opts
  encodings : List Str
  caseInsensitive : Bool
  literal : Bool
  output : Str
  histogramFile : Str
  groupSeparator : Str
  blockSize : Nat
  depth : Nat
  sampleLimit : Nat
  loopLimit : Nat

/-- The names of the commands, src/cmd/optparser.cpp:164-169. -/
def commands : List (Str × Command) :=
  [(word "search", .search), (word "graph", .graph), (word "program", .program), (word "sample", .samples),
    (word "validate", .validate)]

/-- Which command, src/cmd/optparser.cpp:150-174; `none` is `BOGUS`. -/
def commandOf (g : Given) : Option Command :=
  if g.help then some .help
  else if g.version then some .version
  else if g.listEncodings then some .encodings
  else commands.lookup g.command

/-- `toupper` of the C locale. -/
def upper (b : Nat) : Nat := if 97 ≤ b ∧ b ≤ 122 then b - 32 else b

/-- The encodings: the default of src/cmd/optparser.cpp:84, in capitals by src/cmd/options.cpp:108-111. -/
def encodingsOf (g : Given) : List Str :=
  (if g.encoding = [] then [word "US-ASCII"] else g.encoding).map fun e => e.map upper

/-- `populateSampleOptions`, src/cmd/options.cpp:198-213: the limits and the arguments left.
`number` is `boost::lexical_cast<uint32_t>`; the limit that is not given is the largest `size_t`. -/
def sampleOptions (number : Str → Option Nat) : List Str → Except Err (Nat × Nat × List Str)
  | [] => .ok (18446744073709551615, 1, [])
  | p :: ps =>
    match number p, ps with
    | none, _ => .error .number
    | some n, [] => .ok (n, 1, [])
    | some n, q :: qs =>
      match number q with
      | none => .error .number
      | some m => .ok (n, m, qs)

/-- `validateAndPopulateOptions`, src/cmd/options.cpp:92-127, for the commands other than `search`, for
which it is `Cmd.validate`. -/
def otherOptions (number : Str → Option Nat) (samples : Bool) (a : Args) : Except Err (Opts × Nat × Nat) :=
  match keyFilesOf a, contextOptions a with
  | .error e, _ => .error (.option e)
  | .ok _, .error e => .error (.option e)
  | .ok (keyFiles, pargs), .ok (before, after, mmap) =>
    if a.withFilename ∧ a.noFilename then .error (.option .bothFilename)
    else
      match if samples then sampleOptions number pargs else .ok (0, 0, pargs) with
      | .error e => .error e
      | .ok (n, m, rest) =>
        if rest ≠ [] then .error (.option .tooMany)
        else .ok (⟨a.programFile.getD [], keyFiles, a.patterns, before, after, [], a.argFiles, false, a.recursive, mmap, a.noOutput⟩, n, m)

/-- No options are looked at, src/cmd/optparser.cpp:190-194. -/
def Opts.none : Opts := ⟨[], [], [], -1, -1, [], [], false, false, false, false⟩

/-- `parse_opts`, src/cmd/optparser.cpp:50-199, behind boost's parser. -/
def parseOpts (number : Str → Option Nat) (g : Given) : Except Err Settings :=
  let set (c : Command) (o : Opts) (n m : Nat) : Settings :=
    ⟨c, o, encodingsOf g, g.ignoreCase, g.fixedStrings, g.output, g.histogramFile, g.groupSeparator, g.blockSize, g.depth, n, m⟩
  match commandOf g with
  | none => .error .command
  | some .search =>
    match Cmd.validate g.toArgs with
    | .error e => .error (.option e)
    | .ok o => .ok (set .search o 0 0)
  | some .help => .ok (set .help Opts.none 0 0)
  | some .version => .ok (set .version Opts.none 0 0)
  | some .encodings => .ok (set .encodings Opts.none 0 0)
  | some c =>
    match otherOptions number (decide (c = .samples)) g.toArgs with
    | .error e => .error e
    | .ok (o, n, m) => .ok (set c o n m)

/-- What the command finds around it: the keyword files, program files that can be opened, files that
can be written to, and the inputs. -/
structure Outside where
  keyFile : Str → Option (List Nat)
  programFile : Str → Bool
  writable : Str → Bool
  world : Cmd.World

/-- What the library is made of and cannot be seen from here: ICU, `boost::lexical_cast`, the messages of
exceptions, how the hits of a program with these patterns are decoded; and enough fuel for the loops of the
compiler and of the search. -/
structure Library where
  env : Parser.Env
  castBool : List Nat → Option Bool
  number : Str → Option Nat
  messages : Handles.Messages Handles.ParsedTree
  display : List Info → Opts → Bool → List UInt8 → Cmd.Display
  fuel : Nat
  vmFuel : Nat

/-- Where the keywords come from. -/
def keysOf (X : Outside) (s : Settings) : Handles.Keys :=
  ⟨s.opts.patterns, s.opts.keyFiles.map fun f => (f, X.keyFile f), s.encodings, s.literal, s.caseInsensitive, false⟩

/-- Something undefined happened, or the fuel was not enough. -/
inductive Bad where
  | undefined
  | stuck

/-- `outputErrors(std::cerr, printFilename)` behind `parsePatterns`: what is written to standard error,
`none` if that is undefined. -/
def reports [Chain.Build] (L : Library) (k : Handles.Keys) (depth : Nat) : Option (List Nat) :=
  let E := Handles.realEngine L.fuel depth
  (Handles.validate E (Handles.realFront L.env L.castBool) L.messages k (Handles.step E Handles.World.init .createFsm).1).map (·.1)

/-- `openOutput`, src/cmd/options.cpp:26-42. -/
def opens (X : Outside) (s : Settings) : Bool := decide (s.output = Cmd.dash) || X.writable s.output

/-- The exit status, and for `search`, `graph` and `program` what was written to the output. -/
abbrev Outcome := Except Bad (Nat × Str)

/-- What a search is made with, src/cmd/main.cpp:322-343. -/
def confOf (L : Library) (s : Settings) (P : Vm.Program) (first : List Vm.Thread) (infos : List Info) : Cmd.Conf :=
  ⟨P, first, L.vmFuel, ⟨Cmd.selectCallbackFn s.opts, s.groupSeparator, decide (s.histogramFile ≠ [])⟩, L.display infos s.opts,
    s.blockSize, s.opts.mmap, s.opts.recursive⟩

/-- src/cmd/main.cpp:313-399 `search` with a program. -/
def searchWith (L : Library) (X : Outside) (s : Settings) (P : Vm.Program) (infos : List Info) : Outcome :=
  if s.histogramFile ≠ [] ∧ X.writable s.histogramFile = false then .ok (1, [])
  else if opens X s = false then .ok (1, [])
  else
    match Vm.create P L.vmFuel with
    | .ub => .error .undefined
    | .fuel => .error .stuck
    | .ok (first, σ₀) =>
      match Cmd.searchCommand (confOf L s P first infos) X.world s.opts.inputLists s.opts.inputs σ₀ with
      | .ub => .error .undefined
      | .fuel => .error .stuck
      | .ok st => .ok (if st.dead then 1 else 0, st.out.text)

/-- src/cmd/main.cpp:292-399 `search`.  A program file that can be opened is undefined (finding 65). -/
def search [Chain.Build] (L : Library) (X : Outside) (s : Settings) : Outcome :=
  if s.opts.programFile ≠ [] then
    if X.programFile s.opts.programFile then .error .undefined else .ok (1, [])
  else
    match reports L (keysOf X s) s.depth with
    | none => .error .undefined
    | some _ =>
      match Handles.commandProgram L.fuel s.depth L.env L.castBool (keysOf X s).cmd with
      | none => .ok (1, [])
      | some (_, P, infos) => searchWith L X s P infos

/-- What `writeProgram`, src/cmd/lg_app.cpp:118-125, writes; `none` where the listing reads behind the end of the program. -/
def written (binary : Bool) (infos : List Info) (P : Vm.Program) : Option Str :=
  if binary then some (Marshal.writeProgram infos P) else Listing.listing P.code

/-- src/cmd/main.cpp:479-522 `main`, behind boost's parser, with src/cmd/main.cpp:401-477 and src/cmd/lg_app.cpp:96-114: every exception ends
it with status 1.  `--binary` (src/cmd/options.cpp:99) is taken from
the command line.  The output of commands other than `search`, `graph` and `program` is left out, and what the walk of `sample`
does (C75). -/
def main [Chain.Build] (L : Library) (X : Outside) (g : Given) : Outcome :=
  match parseOpts L.number g with
  | .error _ => .ok (1, [])
  | .ok s =>
    match s.command with
    | .search => search L X s
    | .graph =>
      match reports L (keysOf X s) s.depth with
      | none => .error .undefined
      | some _ =>
        match Handles.commandProgram L.fuel s.depth L.env L.castBool (keysOf X s).cmd with
        | none => .ok (1, [])
        | some (G, _, _) => if opens X s then .ok (0, Graphviz.writeGraphviz G) else .ok (1, [])
    | .program =>
      if opens X s = false then .ok (1, [])
      else
        match reports L (keysOf X s) s.depth with
        | none => .error .undefined
        | some _ =>
          match Handles.commandProgram L.fuel s.depth L.env L.castBool (keysOf X s).cmd with
          | none => .ok (1, [])
          | some (_, P, infos) =>
            match written g.binary infos P with
            | none => .error .undefined
            | some t => .ok (0, t)
    | .samples => .ok (if opens X s then 0 else 1, [])
    | .validate =>
      match reports L (keysOf X s) s.depth with
      | none => .error .undefined
      | some _ => .ok (0, [])
    | _ => .ok (0, [])

end Verif.Whole
