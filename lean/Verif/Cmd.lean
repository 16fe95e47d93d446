/-!
# The command-line tool

Context lines, the hit histogram, and the double-buffered file search.
-/
namespace Verif.Cmd

/-! ## Context lines, src/cmd/hitwriter.cpp -/

/-- Conversion of a `size_t` to `int`, as the number of loop iterations it allows
(src/cmd/hitwriter.cpp:32, 41): negative values allow none. -/
def iterations (n : Nat) : Nat := if n % 2 ^ 32 < 2 ^ 31 then n % 2 ^ 32 else 0

/-- `std::find` backwards for a newline; positions are the bases of the reverse
iterators. -/
def rfind (buf : List Nat) : Nat → Nat
  | 0 => 0
  | b + 1 => if buf.getD b 0 = 10 then b + 1 else rfind buf b

/-- src/cmd/hitwriter.cpp:31-34 -/
def leadLoop (buf : List Nat) : Nat → Nat → Nat
  | 0, b => b
  | i + 1, b => if b = 0 then b else leadLoop buf i (rfind buf (b - 1))

/-- src/cmd/hitwriter.cpp:26-36 `find_leading_context`, as a position in the buffer. -/
def leadingContext (buf : List Nat) (hbeg lines : Nat) : Nat :=
  leadLoop buf (iterations (lines + 1)) (hbeg + 1)

/-- `std::find` for a newline from `p` on. -/
def ffind (buf : List Nat) (p : Nat) : Nat :=
  p + ((buf.drop p).takeWhile (fun c => decide (c ≠ 10))).length

/-- src/cmd/hitwriter.cpp:40-43; the position is kept one past `rnl`. -/
def trailLoop (buf : List Nat) : Nat → Nat → Nat
  | 0, p => p
  | i + 1, p => if p = buf.length + 1 then p else trailLoop buf i (ffind buf p + 1)

/-- src/cmd/hitwriter.cpp:38-53 `find_trailing_context`, as a position in the
buffer (a number below zero is cut to zero). -/
def trailingContext (buf : List Nat) (hend lines : Nat) : Nat :=
  let rnl := trailLoop buf (iterations (lines + 1)) hend - 1
  if rnl > hend ∧ rnl ≠ buf.length ∧ buf.getD (rnl - 1) 0 = 13 then rnl - 1 else rnl

/-! ## Escaping, src/cmd/hitwriter.cpp:123-154 `escapeControlChars` -/

/-- The two characters written for a control character, or the character itself. -/
def escapeChar (c : Nat) : List Nat :=
  match c with
  | 7 => [92, 97]
  | 8 => [92, 98]
  | 9 => [92, 116]
  | 10 => [92, 110]
  | 11 => [92, 118]
  | 12 => [92, 102]
  | 13 => [92, 114]
  | c => [c]

def escapeControlChars (s : List Nat) : List Nat := s.flatMap escapeChar

/-- src/cmd/hitwriter.cpp:96-117 `OutputInfo::writeContext`, the text part: tab,
newline and carriage return are escaped. -/
def writeContext (s : List Nat) : List Nat :=
  s.flatMap fun c => if c = 9 then [92, 116] else if c = 10 then [92, 110]
    else if c = 13 then [92, 114] else [c]

/-! ## The histogram -/

/-- include/hitwriter.h:60-73 `HistogramKey`. -/
structure Key where
  text : List Nat
  pattern : List Nat
  idx : Nat
deriving DecidableEq

/-- src/cmd/hitwriter.cpp:55-60 `histogramKeyComp`. -/
def histogramKeyComp (a b : Key × Nat) : Bool :=
  decide (a.2 > b.2) ||
    (decide (a.2 = b.2) && (decide (a.1.idx < b.1.idx) ||
      (decide (a.1.idx = b.1.idx) && decide (a.1.text < b.1.text))))

/-- include/lightgrep/search_hit.h `LG_SearchHit`. -/
structure SHit where
  start : Nat
  stop : Nat
  kw : Nat
deriving DecidableEq

/-- include/hitwriter.h:37-58 `HitBuffer`: decoded context and the hit's window in
it. -/
structure HBuf where
  context : List Nat
  lo : Nat
  hi : Nat
deriving DecidableEq

/-- include/hitwriter.h:45-47 `HitBuffer::hit`. -/
def HBuf.hit (b : HBuf) : List Nat := (b.context.drop b.lo).take (b.hi - b.lo)

/-- A search buffer: content and offset. -/
abbrev Buf := List Nat × Nat

/-- Histogram, cache and current buffer: src/cmd/hitwriter.cpp:123-134,
include/hitwriter.h:136-143. -/
structure HistSt where
  buf : Buf
  cacheHit : SHit
  cache : HBuf
  hist : List (Key × Nat)

/-- `++Histogram[key]` -/
def bump (k : Key) : List (Key × Nat) → List (Key × Nat)
  | [] => [(k, 1)]
  | (k', n) :: l => if k' = k then (k', n + 1) :: l else (k', n) :: bump k l

/-- The count stored under a key. -/
def countOf (k : Key) (l : List (Key × Nat)) : Nat := ((l.find? fun x => x.1 = k).map Prod.snd).getD 0

/-- What decoding a hit depends on: the program's pattern table and the decoder.
`decode` is `lg_hit_context` on the context of the hit (`none` when it reports an
error), src/cmd/hitwriter.cpp:194-237; `info` is `lg_prog_pattern_info`. -/
structure Tables where
  decode : Buf → SHit → Option HBuf
  info : Nat → List Nat × Nat

/-- src/cmd/hitwriter.cpp:194-237 `HitOutputData::decodeContext`: remembers what it
decoded. -/
def decodeContext (T : Tables) (s : HistSt) (h : SHit) : HBuf × HistSt :=
  match T.decode s.buf h with
  | none => (⟨[], 0, 0⟩, s)
  | some b => (b, { s with cacheHit := h, cache := b })

/-- src/cmd/hitwriter.cpp:178-182 `HistogramInfo::writeHitToHistogram`. -/
def writeHitToHistogram (T : Tables) (s : HistSt) (h : SHit) : HistSt :=
  let r := if h = s.cacheHit ∧ s.cache.context ≠ [] then (s.cache, s) else decodeContext T s h
  let k : Key := ⟨r.1.hit, (T.info h.kw).1, (T.info h.kw).2⟩
  { r.2 with hist := bump k r.2.hist }

/-- What happens to the output data: a new buffer (src/cmd/hitwriter.cpp:189-192) or
a hit (include/hitwriter.h:160-176), with or without its context being printed
first. -/
inductive Event where
  | buffer (b : Buf)
  | hit (h : SHit) (withContext : Bool)

def histStep (T : Tables) (s : HistSt) : Event → HistSt
  | .buffer b => { s with buf := b, cache := ⟨[], 0, 0⟩ }
  | .hit h ctx => writeHitToHistogram T (if ctx then (decodeContext T s h).2 else s) h

def histRun (T : Tables) (s : HistSt) (es : List Event) : HistSt := es.foldl (histStep T) s

/-! ## Searching a file -/

/-- Where the searching thread is: src/cmd/searchcontroller.cpp:50-77. -/
inductive Phase where
  /-- in `get()`, waiting for the block being read -/
  | waiting
  /-- in `lg_search` on a block of `len` bytes in buffer `b`, having looked at `seen` -/
  | searching (b : Bool) (len : Nat) (seen : List Nat)
  /-- after `lg_closeout_search` -/
  | done

/-- The asynchronous `fread`: target buffer, file position, bytes it will transfer,
bytes transferred so far.  src/cmd/reader.cpp:54-67. -/
structure Task where
  b : Bool
  start : Nat
  len : Nat
  put : Nat

/-- `next` tells which of the two buffers the pointer `Next` names.  `mem` is the
content of the buffers; `log` the finished `lg_search` calls: offset and bytes. -/
structure FileSt where
  next : Bool
  mem : Bool → Nat → Nat
  cursor : Nat
  task : Task
  phase : Phase
  offset : Nat
  log : List (Nat × List Nat)

/-- src/cmd/reader.cpp:54-67 `FileReader::read`: swap, then start reading into
`Next`.  `fread` gives a short count only at the end of the file. -/
def readAsync (file : List Nat) (bs : Nat) (s : FileSt) : FileSt :=
  { s with
    next := !s.next
    cursor := s.cursor + min bs (file.length - s.cursor)
    task := ⟨!s.next, s.cursor, min bs (file.length - s.cursor), 0⟩ }

/-- Before the loop: the first block has been asked for. -/
def fileInit (file : List Nat) (bs : Nat) (mem : Bool → Nat → Nat) : FileSt :=
  readAsync file bs ⟨true, mem, 0, ⟨true, 0, 0, 0⟩, .waiting, 0, []⟩

/-- One step of either thread, in any order. -/
inductive FileStep (file : List Nat) (bs : Nat) : FileSt → FileSt → Prop
  /-- the reading thread stores a byte -/
  | transfer (s : FileSt) (h : s.task.put < s.task.len) :
      FileStep file bs s
        { s with
          mem := fun b i => if b = s.task.b ∧ i = s.task.put then file.getD (s.task.start + s.task.put) 0
            else s.mem b i
          task := { s.task with put := s.task.put + 1 } }
  /-- `get()` returns a non-empty block: start reading the next one, then search
  this one; src/cmd/searchcontroller.cpp:50-58, 68 -/
  | get (s : FileSt) (hp : s.phase = .waiting) (h : s.task.put = s.task.len) (h0 : s.task.len ≠ 0) :
      FileStep file bs s
        { readAsync file bs s with phase := .searching s.task.b s.task.len [] }
  /-- the searching thread looks at the next byte of its block -/
  | look (s : FileSt) (b : Bool) (len : Nat) (seen : List Nat) (hp : s.phase = .searching b len seen)
      (h : seen.length < len) :
      FileStep file bs s { s with phase := .searching b len (seen ++ [s.mem b seen.length]) }
  /-- `lg_search` returns; src/cmd/searchcontroller.cpp:58-60 -/
  | finish (s : FileSt) (b : Bool) (len : Nat) (seen : List Nat) (hp : s.phase = .searching b len seen)
      (h : seen.length = len) :
      FileStep file bs s
        { s with phase := .waiting, offset := s.offset + len, log := s.log ++ [(s.offset, seen)] }
  /-- `get()` returns an empty block: search it and close out;
  src/cmd/searchcontroller.cpp:71-77 -/
  | last (s : FileSt) (hp : s.phase = .waiting) (h : s.task.put = s.task.len) (h0 : s.task.len = 0) :
      FileStep file bs s { s with phase := .done, log := s.log ++ [(s.offset, [])] }

/-- Everything that can happen. -/
inductive Reach (file : List Nat) (bs : Nat) (mem : Bool → Nat → Nat) : FileSt → Prop
  | init : Reach file bs mem (fileInit file bs mem)
  | step (s t : FileSt) : Reach file bs mem s → FileStep file bs s t → Reach file bs mem t

/-- src/cmd/reader.cpp:76-82 `MemoryMappedFileReader::read` driven by the loop of
src/cmd/searchcontroller.cpp:50-75, with at most `n` blocks: the `lg_search` calls. -/
def mappedSearch (file : List Nat) (bs : Nat) : Nat → Nat → List (Nat × List Nat)
  | 0, _ => []
  | n + 1, pos =>
    let len := min bs (file.length - pos)
    if len = 0 then [(pos, [])]
    else (pos, (file.drop pos).take len) :: mappedSearch file bs n (pos + len)

end Verif.Cmd
