import Verif.Java
/-!
# Java handles

Every Java handle (`Handle.java`) holds the address of an object that the library made, or
0.  Here the library's objects are only made, used and freed; what they do is modelled
elsewhere.  Using or freeing an object that is not there, or is of another kind, is
undefined behaviour.
-/
namespace Verif.Java

/-- The classes derived from `Handle`. -/
inductive Kind where
  | pattern | fsm | program | context | decoder
deriving DecidableEq

/-- `natives` are the objects that the library has made so far, each with whether it still
exists; `handles` are the Java handle objects, each with its `Pointer` (Handle.java:14): 0, or
one more than the place of the object in `natives`. -/
structure World where
  natives : List (Kind × Bool)
  handles : List (Kind × Nat)
deriving DecidableEq

/-- Nothing made yet. -/
def World.init : World := ⟨[], []⟩

/-- The calls.  Handles are given by their place; a place where there is no handle of the
right class stands for a null reference.  `made` says whether the library could make the
object. -/
inductive Op where
  | create (k : Kind) (made : Bool)
  | newProgram
  | compile (p f : Nat) (made : Bool)
  | createContext (p : Nat) (made : Bool)
  | use (k : Kind) (h : Nat)
  | addPattern (f p : Nat)
  | hitContext (d : Nat)
  | destroy (h : Nat)
deriving DecidableEq

/-- A reference to a handle of class `k`. -/
def World.handle (w : World) (k : Kind) (h : Nat) : Out Nat :=
  match w.handles[h]? with
  | some (k', p) => if k' = k then .ok p else .threw .nullPointer
  | none => .threw .nullPointer

/-- The library uses the object at an address. -/
def World.touch (w : World) (k : Kind) (p : Nat) : Out Unit :=
  match p with
  | 0 => .wild
  | i + 1 => if w.natives[i]? = some (k, true) then .ok () else .wild

/-- A new object, if there is one, and a new handle for it: PatternHandle.java:10-13,
FSMHandle.java:13-18, DecoderHandle.java:10-13 (with jlightgrep.cpp 295–297, 497–499, 671–673),
and jlightgrep.cpp 620–632 with 634–658 for contexts. -/
def World.makeHandle (w : World) (k : Kind) (made : Bool) : World :=
  if made then ⟨w.natives ++ [(k, true)], w.handles ++ [(k, w.natives.length + 1)]⟩
  else ⟨w.natives, w.handles ++ [(k, 0)]⟩

/-- jlightgrep.cpp 286–293 `destroyHandle`, the `destroy` of all classes (Handle.java:22-24
`close` calls it). -/
def destroyHandle (w : World) (h : Nat) : Out World :=
  match w.handles[h]? with
  | none => .threw .nullPointer
  | some (k, p) =>
    match p with
    | 0 => .ok w
    | i + 1 =>
      if w.natives[i]? = some (k, true) then .ok ⟨w.natives.set i (k, false), w.handles.set h (k, 0)⟩
      else .wild

/-- ProgramHandle.java:38-48 with jlightgrep.cpp 546–569. -/
def compile (w : World) (p f : Nat) (made : Bool) : Out World := do
  let pp ← w.handle .program p
  let fp ← w.handle .fsm f
  throwIfDestroyed fp
  if pp ≠ 0 then .threw .program
  else
    w.touch .fsm fp
    if made then .ok ⟨w.natives ++ [(.program, true)], w.handles.set p (.program, w.natives.length + 1)⟩
    else .threw .program

/-- ProgramHandle.java:139-143. -/
def createContext (w : World) (p : Nat) (made : Bool) : Out World := do
  let pp ← w.handle .program p
  throwIfDestroyed pp
  w.touch .program pp
  .ok (w.makeHandle .context made)

/-- The methods that use only their own object: `parsePattern` (PatternHandle.java:29-34);
`count`, `getPatternInfo`, `getUserIndex`, `setUserIndex` (FSMHandle.java:48-93,
ProgramHandle.java:86-131); `size` and `write` (ProgramHandle.java:26-65); `startsWith`, `reset`,
`search` and `closeoutSearch` (ContextHandle.java:25-131).  They all check first whether the
handle was destroyed. -/
def useHandle (w : World) (k : Kind) (h : Nat) : Out World := do
  let p ← w.handle k h
  throwIfDestroyed p
  w.touch k p
  .ok w

/-- FSMHandle.java:35-41 with jlightgrep.cpp 505–537. -/
def addPattern (w : World) (f p : Nat) : Out World := do
  let pp ← w.handle .pattern p
  let fp ← w.handle .fsm f
  throwIfDestroyed fp
  throwIfDestroyed pp
  w.touch .fsm fp
  w.touch .pattern pp
  .ok w

/-- LGUtil.java:15-73 with jlightgrep.cpp 830–872: no check whether the decoder was
destroyed. -/
def hitContext (w : World) (d : Nat) : Out World := do
  let p ← w.handle .decoder d
  w.touch .decoder p
  .ok w

/-- One call.  `create` is for the classes with a public constructor that makes an object;
`new ProgramHandle(n)` makes none (ProgramHandle.java:13-17, jlightgrep.cpp 354–356). -/
def step (w : World) : Op → Out World
  | .create k made => if k = .program ∨ k = .context then .ok w else .ok (w.makeHandle k made)
  | .newProgram => .ok (w.makeHandle .program false)
  | .compile p f made => compile w p f made
  | .createContext p made => createContext w p made
  | .use k h => if k = .decoder then .ok w else useHandle w k h
  | .addPattern f p => addPattern w f p
  | .hitContext d => hitContext w d
  | .destroy h => destroyHandle w h

/-- A history of calls; a call that throws changes nothing.  `none`: undefined behaviour. -/
def run : List Op → World → Option World
  | [], w => some w
  | o :: os, w =>
    match step w o with
    | .ok w' => run os w'
    | .threw _ => run os w
    | .wild => none

end Verif.Java
