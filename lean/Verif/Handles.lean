import Verif.Marshal
/-!
# FSM and program handles

The pattern lists behind `LG_HFSM` and `LG_HPROGRAM`: shared, reference counted,
copied before modification.  The automaton itself is a parameter: `Engine` says
only whether it accepts a pattern and what it becomes.
-/
namespace Verif.Handles

open Verif.Marshal (Info)

/-- The automaton side.  `add` is src/lib/fsmthingy.cpp:29-46 `FSMThingy::addPattern`;
`finalize` is src/lib/fsmthingy.cpp:48-61 together with src/lib/compiler.cpp
`createProgram`; the flag tells whether they returned or threw. -/
structure Engine (Tree Graph : Type) where
  empty : Graph
  add : Graph → Tree → List Nat → Nat → Graph × Bool
  finalize : Graph → Graph × Bool

variable {Tree Graph : Type}

/-- A C string: the bytes before the first NUL. -/
def cstr (l : List Nat) : List Nat := l.takeWhile (fun b => decide (b ≠ 0))

/-- Pattern maps live on a heap and are named by their position in `maps`; the
shared pointers are those positions.  Destroyed handles become `none`.
include/handles.h:34-59. -/
structure World (Graph : Type) where
  maps : List (List Info)
  fsms : List (Option (Graph × Nat))
  progs : List (Option Nat)

/-- No handles yet. -/
def World.init : World Graph := ⟨[], [], []⟩

/-- Does a live FSM handle hold map `p`? -/
def holds (p : Nat) : Option (Graph × Nat) → Bool
  | some (_, q) => q == p
  | none => false

/-- `shared_ptr::use_count` of a pattern map. -/
def World.useCount (w : World Graph) (p : Nat) : Nat :=
  w.fsms.countP (holds p) + w.progs.countP (fun o => o == some p)

/-- src/lib/pattern_map.cpp:78-80 through 54-64 `PatternMap::addPattern`. -/
def pushInfo (m : List Info) (pat chain : List Nat) (idx : Nat) : List Info :=
  m ++ [⟨cstr pat, cstr chain, idx⟩]

/-- src/lib/pattern_map.cpp:37-46, the copy constructor. -/
def copyMap (m : List Info) : List Info :=
  m.foldl (fun acc i => pushInfo acc i.pattern i.chain i.idx) []

/-- src/lib/lightgrep_c_api.cpp:149-160 `addPattern`, wrapped by 163-195
`lg_add_pattern` (non-null `err`; the label is kept as an unbounded number).
`pat` is `hPattern->Pat.Expression`, `enc` the encoding argument. -/
def addPattern (E : Engine Tree Graph) (w : World Graph) (f : Nat) (t : Tree)
    (pat enc : List Nat) (idx : Nat) : World Graph × Int :=
  match w.fsms[f]? with
  | some (some (g, p)) =>
    let label := (w.maps.getD p []).length
    match E.add g t (cstr enc) label with
    | (g', false) => ({ w with fsms := w.fsms.set f (some (g', p)) }, -1)
    | (g', true) =>
      if w.useCount p > 1 then
        ({ w with
            maps := w.maps ++ [pushInfo (copyMap (w.maps.getD p [])) pat enc idx]
            fsms := w.fsms.set f (some (g', w.maps.length)) }, label)
      else
        ({ w with
            maps := w.maps.set p (pushInfo (w.maps.getD p []) pat enc idx)
            fsms := w.fsms.set f (some (g', p)) }, label)
  | _ => (w, -1)

/-- src/lib/lightgrep_c_api.cpp:361-382 `create_program`, `lg_create_program`. -/
def createProgram (E : Engine Tree Graph) (w : World Graph) (f : Nat) : World Graph × Int :=
  match w.fsms[f]? with
  | some (some (g, p)) =>
    let r := E.finalize g
    let w := { w with fsms := w.fsms.set f (some (r.1, p)) }
    if r.2 then ({ w with progs := w.progs ++ [some p] }, w.progs.length) else (w, -1)
  | _ => (w, -1)

/-- The calls that concern pattern lists. -/
inductive Call (Tree : Type) where
  /-- src/lib/lightgrep_c_api.cpp:123-142 `lg_create_fsm` -/
  | createFsm
  /-- `lg_add_pattern` on FSM number `f` -/
  | add (f : Nat) (t : Tree) (pat enc : List Nat) (idx : Nat)
  /-- `lg_create_program` on FSM number `f` -/
  | createProgram (f : Nat)
  /-- src/lib/lightgrep_c_api.cpp:144-146 `lg_destroy_fsm` -/
  | destroyFsm (f : Nat)
  /-- src/lib/lightgrep_c_api.cpp:455-457 `lg_destroy_program` -/
  | destroyProgram (q : Nat)
  /-- a successful `lg_read_program`, src/lib/lightgrep_c_api.cpp:408-449 -/
  | readProgram (ps : List Info)

/-- One call; handles are numbered in the order of their creation and the return
value is the new handle's number, the keyword index, or -1. -/
def step (E : Engine Tree Graph) (w : World Graph) : Call Tree → World Graph × Int
  | .createFsm =>
    ({ w with maps := w.maps ++ [[]], fsms := w.fsms ++ [some (E.empty, w.maps.length)] },
      w.fsms.length)
  | .add f t pat enc idx => addPattern E w f t pat enc idx
  | .createProgram f => createProgram E w f
  | .destroyFsm f => ({ w with fsms := w.fsms.set f none }, 0)
  | .destroyProgram q => ({ w with progs := w.progs.set q none }, 0)
  | .readProgram ps =>
    ({ w with maps := w.maps ++ [ps], progs := w.progs ++ [some w.maps.length] }, w.progs.length)

/-- A history: the calls with their return values, and the final state. -/
def runCalls (E : Engine Tree Graph) (w : World Graph) : List (Call Tree) → World Graph × List (Call Tree × Int)
  | [] => (w, [])
  | c :: cs =>
    let r := step E w c
    let s := runCalls E r.1 cs
    (s.1, (c, r.2) :: s.2)

/-- What `lg_fsm_pattern_count` and `lg_fsm_pattern_info` see,
src/lib/lightgrep_c_api.cpp:341-349. -/
def fsmList (w : World Graph) (f : Nat) : Option (List Info) :=
  match w.fsms[f]? with
  | some (some (_, p)) => some (w.maps.getD p [])
  | _ => none

/-- What `lg_prog_pattern_count` and `lg_prog_pattern_info` see,
src/lib/lightgrep_c_api.cpp:351-359. -/
def progList (w : World Graph) (q : Nat) : Option (List Info) :=
  match w.progs[q]? with
  | some (some p) => some (w.maps.getD p [])
  | _ => none

end Verif.Handles
