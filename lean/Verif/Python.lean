import Verif.Session
import Verif.Vm
/-!
# The Python binding

Models pylightgrep/lightgrep/__init__.py.  A Python string is the list of its code points.
ctypes and the interpreter work as documented.
-/
namespace Verif.Python
open Verif.Parser (Env PatternOpts)
open Verif.Regex (Tree)
open Verif.Encoders (Node)

/-- The outcome of a call: a value, an exception, or undefined behaviour (also the model's
loops running out of fuel, see `Verif.Session`). -/
inductive Out (α : Type) where
  | ok (a : α)
  | raised
  | ub
deriving DecidableEq

/-! ## Strings -/

/-- `str.encode('utf-8')`, which raises for lone surrogates. -/
def encode (s : List Nat) : Option (List UInt8) :=
  if s.all (fun c => (Utf.cpToUtf8 c).length ≠ 0) then some ((s.flatMap fun c : Nat => Utf.cpToUtf8 c).map UInt8.ofNat)
  else none

/-- A `c_char_p` argument as C reads it: up to the first null. -/
def cString (b : List UInt8) : List UInt8 := b.takeWhile (· ≠ 0)

/-! ## Buffers -/

/-- An object with the buffer protocol: its bytes and the size of its items. -/
structure Buf where
  bytes : List UInt8
  itemsize : Nat

/-- `len(buf)`: the number of items. -/
def Buf.len (b : Buf) : Nat := b.bytes.length / b.itemsize

/-- `buf_range`, pylightgrep/lightgrep/__init__.py:110-113, with `ptype` `c_char`: the bytes from the first on, as many as
the buffer has items. -/
def bufRange (b : Buf) : List UInt8 := b.bytes.take b.len

/-! ## Patterns -/

/-- `LG_PatternInfo` as kept by the pattern map, include/lightgrep/api.h:79-83. -/
structure Info where
  pattern : List UInt8
  chain : List UInt8
  user : Nat
deriving DecidableEq

/-- An FSM with its pattern map. -/
structure Fsm where
  state : Session.State
  infos : List Info

/-- `Fsm.__init__`, pylightgrep/lightgrep/__init__.py:311-317. -/
def Fsm.init : Fsm := ⟨.init, []⟩

/-- One entry of the argument of `add_patterns`: text, encodings and options. -/
structure Entry where
  text : List Nat
  encs : List (List Nat)
  opts : PatternOpts

/-- The inner loop of `add_patterns` with `add_pattern`, pylightgrep/lightgrep/__init__.py:323-328, 341-342.  `text` is the
text of the pattern that was parsed and `t` its tree. -/
def addEncs [Chain.Build] (fuel : Nat) (text : List UInt8) (t : Option (Tree Node)) (i : Nat) : List (List Nat) → Fsm → Out Fsm
  | [], f => .ok f
  | e :: es, f =>
    match encode e with
    | none => .raised
    | some b =>
      match Session.addTree fuel f.state (cString b) t with
      | none => .ub
      | some (_, none) => .raised
      | some (s, some _) => addEncs fuel text t i es ⟨s, f.infos ++ [⟨text, cString b, i⟩]⟩

/-- `Pattern.parse`, pylightgrep/lightgrep/__init__.py:304-307: the text and the tree of the parsed pattern. -/
def parse (env : Env) (s : List Nat) (p : PatternOpts) : Out (List UInt8 × Option (Tree Node)) :=
  match encode s with
  | none => .raised
  | some b =>
    match Text.parseAndReduce env p (cString b) with
    | .error .ub => .ub
    | .error _ => .raised
    | .ok t => .ok (cString b, t)

/-- `add_patterns`, pylightgrep/lightgrep/__init__.py:330-342, from entry `i` on. -/
def addPatterns [Chain.Build] (fuel : Nat) (env : Env) : Nat → List Entry → Fsm → Out Fsm
  | _, [], f => .ok f
  | i, e :: es, f =>
    if e.text = [] then .raised
    else if e.encs = [] then .raised
    else match parse env e.text e.opts with
      | .ub => .ub
      | .raised => .raised
      | .ok (text, t) =>
        match addEncs fuel text t i e.encs f with
        | .ok f' => addPatterns fuel env (i + 1) es f'
        | .raised => .raised
        | .ub => .ub

/-! ## Hits -/

/-- A hit as `HitAccumulator.Hits` keeps it, pylightgrep/lightgrep/__init__.py:504-513. -/
structure Rec where
  start : Nat
  stop : Nat
  keywordIndex : Nat
  pattern : List UInt8
  encChain : List UInt8
deriving DecidableEq

/-- `HitAccumulator`, pylightgrep/lightgrep/__init__.py:496-513; `counts` is the `Counter`. -/
structure Acc where
  hits : List Rec
  counts : List UInt8 → Nat

/-- `HitAccumulator.reset`, pylightgrep/lightgrep/__init__.py:500-502. -/
def Acc.empty : Acc := ⟨[], fun _ => 0⟩

/-- `HitAccumulator.lgCallback`, pylightgrep/lightgrep/__init__.py:504-513. -/
def Acc.add (a : Acc) (x : Vm.Hit) (i : Info) : Acc :=
  ⟨a.hits ++ [⟨x.start, x.end, i.user, i.pattern, i.chain⟩],
    fun p => if p = i.pattern then a.counts p + 1 else a.counts p⟩

/-- `_the_callback_impl`, pylightgrep/lightgrep/__init__.py:437-440.  Without a pattern info the null pointer raises an exception,
which ctypes does not pass on. -/
def Acc.callback (infos : List Info) (a : Acc) (x : Vm.Hit) : Acc :=
  match infos[x.label]? with
  | none => a
  | some i => a.add x i

/-! ## Contexts -/

/-- The methods of `Context`, pylightgrep/lightgrep/__init__.py:398-434, with data as `buf_range` gives it,
and `HitAccumulator.reset` (500-502).  All methods of a history use the same accumulator. -/
inductive Op where
  | search (data : List UInt8) (off : Nat)
  | startswith (data : List UInt8) (off : Nat)
  | closeout
  | reset
  | searchBuffer (data : List UInt8)
  | searchBufferStartswith (data : List UInt8)
  | clear

/-- The calls of the C API that a method makes. -/
def Op.calls : Op → List Vm.Call
  | .search data off => [.search data off true]
  | .startswith data off => [.startsWith data off true]
  | .closeout => [.closeOut true]
  | .reset => [.reset]
  | .searchBuffer data => [.search data 0 true, .closeOut true, .reset]
  | .searchBufferStartswith data => [.startsWith data 0 true, .closeOut true, .reset]
  | .clear => []

/-- A context and its accumulator. -/
structure Py where
  ctx : Vm.St
  acc : Acc

/-- What `Context.search` returns: the result type of `lg_search` is declared as `c_void_p`
(pylightgrep/lightgrep/__init__.py:587), for which ctypes gives `None` instead of 0. -/
def searchResult (r : Nat) : Option Nat := if r = 0 then none else some r

/-- What a method returns, pylightgrep/lightgrep/__init__.py:413, 424-434: nothing, the result of the search, or the
number of hits in the accumulator. -/
def Op.result : Op → List (Option Nat) → Acc → Option Nat
  | .search _ _, [some r], _ => searchResult r
  | .searchBuffer _, _, a => some a.hits.length
  | .searchBufferStartswith _, _, a => some a.hits.length
  | _, _, _ => none

/-- One method call.  `infos` is the pattern map of the program.  The hits of the call are those the
context has reported since (`log` has all of them). -/
def Op.run (P : Vm.Program) (first : List Vm.Thread) (fuel : Nat) (infos : List Info) (o : Op) (s : Py) :
    Vm.Res (Option Nat × Py) :=
  match o with
  | .clear => .ok (none, ⟨s.ctx, .empty⟩)
  | _ => do
    let (rs, σ) ← Vm.run P first fuel o.calls s.ctx
    let acc := (σ.log.drop s.ctx.log.length).foldl (Acc.callback infos) s.acc
    .ok (o.result rs acc, ⟨σ, acc⟩)

/-- A history of method calls: what they return and the final state. -/
def runs (P : Vm.Program) (first : List Vm.Thread) (fuel : Nat) (infos : List Info) :
    List Op → Py → Vm.Res (List (Option Nat) × Py)
  | [], s => .ok ([], s)
  | o :: os, s => do
    let (r, s) ← o.run P first fuel infos s
    let (rs, s) ← runs P first fuel infos os s
    .ok (r :: rs, s)

/-- The user index as `lg_add_pattern` gets it: declared as `c_int` (pylightgrep/lightgrep/__init__.py:541), for which ctypes
keeps the lower 32 bits. -/
def userIndex (x : Int) : Int32 := Int32.ofInt x

end Verif.Python
