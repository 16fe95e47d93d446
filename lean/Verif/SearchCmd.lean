import Verif.HitWriter
/-!
# The search command

Which inputs the command line tool searches, in which order, and what it prints for them.
-/
namespace Verif.Cmd

/-- Bytes of a path, a name, a line. -/
abbrev Str := List Nat

/-! ## Options, src/cmd/options.cpp -/

/-- What was given on the command line, as boost's parser leaves it in `optsMap`, `pargs` and the
variables bound to options (src/cmd/optparser.cpp:50-127).  Only the search command and the
options that say what is searched and printed; the splitting of the command line into options is
not modelled. -/
structure Args where
  programFile : Option Str := none
  patterns : List Str := []
  keywords : List Str := []
  /-- `-B`, `-A`, `-C` -/
  before : Option Int := none
  after : Option Int := none
  around : Option Int := none
  /-- `--arg-file` -/
  argFiles : List Str := []
  withFilename : Bool := false
  noFilename : Bool := false
  recursive : Bool := false
  mmap : Bool := false
  noOutput : Bool := false
  pargs : List Str := []

/-- include/options.h:51-76, the same part. -/
structure Opts where
  programFile : Str
  keyFiles : List Str
  patterns : List Str
  before : Int
  after : Int
  inputs : List Str
  inputLists : List Str
  printPath : Bool
  recursive : Bool
  mmap : Bool
  noOutput : Bool

/-- The exceptions of src/cmd/options.cpp:92-196. -/
inductive OptErr where
  | programAndKeywords
  | patternAndKeywords
  | noKeywords
  | negativeContext
  | bothFilename
  | mmapStdin
  | tooMany
deriving DecidableEq

/-- src/cmd/options.cpp:129-153 `validateAndPopulateKeyFiles`: the keyword files and the
positional arguments left. -/
def keyFilesOf (a : Args) : Except OptErr (List Str × List Str) :=
  if a.programFile.isSome then
    if a.patterns ≠ [] ∨ a.keywords ≠ [] then .error .programAndKeywords else .ok (a.keywords, a.pargs)
  else if a.keywords ≠ [] ∨ a.patterns ≠ [] then
    if a.keywords ≠ [] ∧ a.patterns ≠ [] then .error .patternAndKeywords else .ok (a.keywords, a.pargs)
  else
    match a.pargs with
    | [] => .error .noKeywords
    | p :: ps => .ok ([p], ps)

/-- `BeforeContext` after parsing: `-B` and `-C` are bound to the same variable
(src/cmd/optparser.cpp:99-100) and `po::notify` goes through the options in alphabetical order. -/
def beforeVar (a : Args) : Int := (a.around.or a.before).getD (-1)

/-- src/cmd/options.cpp:155-171 `populateContextOptions`: `BeforeContext`, `AfterContext`,
`MemoryMapped`. -/
def contextOptions (a : Args) : Except OptErr (Int × Int × Bool) :=
  let before := beforeVar a
  let after := a.after.getD (-1)
  if (before < 0 ∧ (a.before.isSome ∨ a.around.isSome)) ∨ (after < 0 ∧ a.after.isSome) then
    .error .negativeContext
  else
    let after := if a.around.isSome then before else after
    .ok (before, after, a.mmap || decide (before ≠ -1 ∨ after ≠ -1))

/-- The path of standard input. -/
def dash : Str := [45]

/-- src/cmd/options.cpp:173-196 `validateAndPopulateSearchOptions`: `Inputs`, `PrintPath`. -/
def searchOptions (a : Args) (pargs : List Str) (mmap : Bool) : Except OptErr (List Str × Bool) :=
  let path0 := a.withFilename
  let path1 := if a.argFiles ≠ [] then !a.noFilename else path0
  let r : List Str × Bool :=
    if pargs ≠ [] then (pargs, !a.noFilename)
    else if a.argFiles = [] then ([dash], path1)
    else ([], path1)
  if mmap ∧ dash ∈ r.1 then .error .mmapStdin else .ok r

/-- src/cmd/options.cpp:92-127 `validateAndPopulateOptions` for the search command.  No positional
argument is left at the end: `validateAndPopulateSearchOptions` takes all. -/
def validate (a : Args) : Except OptErr Opts := do
  let (keyFiles, pargs) ← keyFilesOf a
  let (before, after, mmap) ← contextOptions a
  if a.withFilename ∧ a.noFilename then .error .bothFilename
  else do
    let (inputs, printPath) ← searchOptions a pargs mmap
    .ok ⟨a.programFile.getD [], keyFiles, a.patterns, before, after, inputs, a.argFiles, printPath,
      a.recursive, mmap, a.noOutput⟩

/-! ## What is written for a hit -/

/-- include/lightgrep/api.h `LG_PatternInfo`. -/
structure Info where
  pattern : Str
  chain : Str
  idx : Nat

/-- What printing a hit depends on: decoding a hit in a buffer (`none` when `lg_hit_context`
reports an error) gives a text and the offset of its first byte; and the program's table of
patterns. -/
structure Display where
  decode : Buf → SHit → Option (HBuf × Nat)
  info : Nat → Info

/-- What the histogram sees of it. -/
def Display.tables (D : Display) : Tables where
  decode b h := (D.decode b h).map Prod.fst
  info k := ((D.info k).pattern, (D.info k).idx)

/-- The three template arguments of `callbackFn`, include/hitwriter.h:160-196. -/
structure Style where
  path : Bool
  context : Bool
  output : Bool
deriving DecidableEq

/-- src/cmd/main.cpp:222-240 `selectCallbackFn`. -/
def selectCallbackFn (o : Opts) : Style :=
  let fns : List Style := [⟨false, false, false⟩, ⟨false, false, true⟩, ⟨false, true, true⟩, ⟨true, false, true⟩,
    ⟨true, true, true⟩]
  if o.noOutput then fns.getD 0 ⟨false, false, false⟩
  else fns.getD (1 + 2 * o.printPath.toNat + (decide (o.before > -1 ∨ o.after > -1)).toNat) ⟨false, false, false⟩

/-- A number in decimal. -/
def decimal (n : Nat) : Str := (Nat.toDigits 10 n).map Char.toNat

/-- src/cmd/hitwriter.cpp:84-90 `OutputInfo::writeHit`. -/
def hitColumns (i : Info) (h : SHit) : Str :=
  decimal h.start ++ [9] ++ decimal h.stop ++ [9] ++ decimal i.idx ++ [9] ++ i.pattern ++ [9] ++ i.chain

/-- src/cmd/hitwriter.cpp:96-117 `OutputInfo::writeContext`, with the columns before the text. -/
def contextColumns (r : HBuf × Nat) : Str := [9] ++ decimal r.2 ++ [9] ++ writeContext r.1.context

/-- include/hitwriter.h:108-158 `HitOutputData`: what has been written, the path, `NumHits`, and
the state of the histogram and the current buffer. -/
structure Out where
  text : Str
  path : Str
  hits : Nat
  hist : HistSt

/-- What does not change while the command runs. -/
structure Fmt where
  style : Style
  groupSep : Str
  histogram : Bool

/-- include/hitwriter.h:160-196 `callbackFn`. -/
def callback (F : Fmt) (D : Display) (s : Out) (h : SHit) : Out :=
  let s1 :=
    if F.style.output then
      let sep := if s.hits > 0 ∧ F.style.context then F.groupSep ++ [10] else []
      let path := if F.style.path then s.path ++ [9] else []
      let ctx := if F.style.context then contextColumns ((D.decode s.hist.buf h).getD (⟨[], 0, 0⟩, 0)) else []
      { s with
        text := s.text ++ sep ++ path ++ hitColumns (D.info h.kw) h ++ ctx ++ [10]
        hist := if F.style.context then (decodeContext D.tables s.hist h).2 else s.hist }
    else s
  let s2 := if F.histogram then { s1 with hist := writeHitToHistogram D.tables s1.hist h } else s1
  { s2 with hits := s2.hits + 1 }

/-- src/cmd/hitwriter.cpp:189-192 `setBuffer`, or a hit. -/
def outStep (F : Fmt) (D : Display) (s : Out) : Event → Out
  | .buffer b => { s with hist := { s.hist with buf := b, cache := ⟨[], 0, 0⟩ } }
  | .hit h _ => callback F D s h

def outRun (F : Fmt) (D : Display) (s : Out) (es : List Event) : Out := es.foldl (outStep F D) s

/-! ## Inputs, src/cmd/main.cpp -/

mutual
/-- What a path names.  `read` is what `fopen` and `fread` give, `map` what mapping it gives;
`none` when that fails (src/cmd/reader.cpp:27-40, 69-74). -/
inductive Node where
  | file (read map : Option (List UInt8))
  | dir (es : Entries)
/-- The entries of a directory in the order in which the system lists them.  Links to directories
are not followed and not modelled. -/
inductive Entries where
  | nil
  | cons (name : Str) (n : Node) (rest : Entries)
end

/-- `fs::path::operator/` -/
def joinPath (p name : Str) : Str := if p.getLast? = some 47 then p ++ name else p ++ [47] ++ name

mutual
/-- The paths `fs::recursive_directory_iterator` gives that are not directories
(src/cmd/main.cpp:140-155), with what they name; a directory's entries follow it. -/
def walkNode (p : Str) : Node → List (Str × Option (List UInt8) × Option (List UInt8))
  | .file r m => [(p, r, m)]
  | .dir es => walk p es
@[inherit_doc walkNode]
def walk (p : Str) : Entries → List (Str × Option (List UInt8) × Option (List UInt8))
  | .nil => []
  | .cons name n rest => walkNode (joinPath p name) n ++ walk p rest
end

/-- What the command finds: what paths name (`none` when there is nothing) and what comes from
standard input. -/
structure World where
  node : Str → Option Node
  stdin : List UInt8

/-- `std::getline` until it fails (src/cmd/main.cpp:182-208); `cur` is what has been read of the
line. -/
def getLines (cur : Str) : List UInt8 → List Str
  | [] => if cur = [] then [] else [cur]
  | c :: cs => if c = 10 then cur :: getLines [] cs else getLines (cur ++ [c.toNat]) cs

/-- The engine and the settings of a run of the command. -/
structure Conf where
  P : Vm.Program
  first : List Vm.Thread
  fuel : Nat
  fmt : Fmt
  /-- how hits are decoded, depending on whether the file is mapped and on its content -/
  display : Bool → List UInt8 → Display
  blockSize : Nat
  mmap : Bool
  recursive : Bool

/-- State of the command.  `dead`: an exception has been thrown; then nothing more is done
(src/cmd/main.cpp:516-521). -/
structure CmdSt where
  vm : Vm.St
  out : Out
  stdinUsed : Bool
  dead : Bool

/-- `(standard input)` -/
def stdinName : Str := [40, 115, 116, 97, 110, 100, 97, 114, 100, 32, 105, 110, 112, 117, 116, 41]

/-- src/cmd/main.cpp:113-138 `search`, for what has been found at the path: standard input is
never mapped. -/
def searchContent (C : Conf) (mapped : Bool) (shown : Str) (content : Option (List UInt8)) (s : CmdSt) :
    Vm.Res CmdSt :=
  if s.dead then .ok s
  else
    match content with
    | none => .ok { s with dead := true }
    | some c => do
      let (_, v1) ← Vm.step C.P C.first C.fuel .reset s.vm
      let (es, v2) ← fileEvents C.P C.first C.fuel C.fmt.style.context (mappedBlocks c C.blockSize) v1
      .ok { s with vm := v2, out := outRun C.fmt (C.display mapped c) { s.out with path := shown } es }

/-- src/cmd/main.cpp:113-138 `search` -/
def search1 (C : Conf) (w : World) (i : Str) (s : CmdSt) : Vm.Res CmdSt :=
  if i = dash then searchContent C false stdinName (some w.stdin) s
  else
    searchContent C C.mmap i
      (match w.node i with
        | some (.file r m) => if C.mmap then m else r
        | _ => none) s

/-- src/cmd/main.cpp:140-155 `searchRecursively` -/
def searchWalk (C : Conf) : List (Str × Option (List UInt8) × Option (List UInt8)) → CmdSt → Vm.Res CmdSt
  | [], s => .ok s
  | (p, r, m) :: fs, s => do
    let s ← searchContent C C.mmap p (if C.mmap then m else r) s
    searchWalk C fs s

/-- src/cmd/main.cpp:242-272 `searchRec`, `searchNonRec` -/
def searchPath (C : Conf) (w : World) (i : Str) (s : CmdSt) : Vm.Res CmdSt :=
  match w.node i with
  | some (.dir es) => if C.recursive then searchWalk C (walk i es) s else .ok s
  | _ => search1 C w i s

/-- src/cmd/main.cpp:210-220, 285-289: one turn of the loop of `searchInputs`, with `skipStdin`. -/
def searchInput (C : Conf) (w : World) (i : Str) (s : CmdSt) : Vm.Res CmdSt :=
  if s.dead then .ok s
  else if i = dash then
    if s.stdinUsed then .ok s else searchPath C w i { s with stdinUsed := true }
  else searchPath C w i s

/-- src/cmd/main.cpp:274-290 `searchInputs` -/
def searchInputs (C : Conf) (w : World) : List Str → CmdSt → Vm.Res CmdSt
  | [], s => .ok s
  | i :: is, s => do
    let s ← searchInput C w i s
    searchInputs C w is s

/-- src/cmd/main.cpp:347-375: one list of inputs.  A directory given as a list has no lines. -/
def searchList (C : Conf) (w : World) (l : Str) (s : CmdSt) : Vm.Res CmdSt :=
  if s.dead then .ok s
  else if l = dash then
    if s.stdinUsed then .ok s
    else searchInputs C w (getLines [] w.stdin) { s with stdinUsed := true }
  else
    match w.node l with
    | some (.file (some c) _) => searchInputs C w (getLines [] c) s
    | some (.dir _) => .ok s
    | _ => .ok { s with dead := true }

/-- src/cmd/main.cpp:347-375: the lists of inputs, one after the other. -/
def searchLists (C : Conf) (w : World) : List Str → CmdSt → Vm.Res CmdSt
  | [], s => .ok s
  | l :: ls, s => do
    let s ← searchList C w l s
    searchLists C w ls s

/-- A `HitOutputData` as it is made (src/cmd/hitwriter.cpp:186-187, include/hitwriter.h:136-145). -/
def Out.init : Out := ⟨[], [], 0, ⟨([], 0), ⟨0, 0, 0⟩, ⟨[], 0, 0⟩, []⟩⟩

/-- src/cmd/main.cpp:292-399 `search`, from the creation of the context to the histogram. -/
def searchCommand (C : Conf) (w : World) (inputLists inputs : List Str) (σ₀ : Vm.St) : Vm.Res CmdSt := do
  let s ← searchLists C w inputLists ⟨σ₀, Out.init, false, false⟩
  searchInputs C w inputs s

end Verif.Cmd
