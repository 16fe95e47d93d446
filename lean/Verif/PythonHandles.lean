import Verif.Python
import Verif.JavaHandles
/-!
# Python handles

Every Python handle (`Handle`, pylightgrep/lightgrep/__init__.py:253-275) holds the address of an object that the
library made, or `None`.  The objects and the handles are those of `Verif.JavaHandles`, with 0 for `None`.
-/
namespace Verif.Python
open Verif.Java (Kind World destroyHandle)

/-- The objects and handles, and for each context handle its `prog` (398-401), the program handle it
was made with. -/
structure Handles where
  objs : World
  prog : Nat → Nat

/-- Nothing made yet. -/
def Handles.init : Handles := ⟨World.init, fun _ => 0⟩

/-- The calls.  Handles are given by their place; `made` says whether the library could make the object. -/
inductive Do where
  | create (k : Kind) (made : Bool)
  | program (f : Nat) (made : Bool)
  | read (made : Bool)
  | context (p : Nat) (made : Bool)
  | use (k : Kind) (h : Nat)
  | addPattern (f p : Nat)
  | search (c : Nat)
  | reset (c : Nat)
  | hitContext (d : Nat)
  | close (h : Nat)
deriving DecidableEq

/-- `Handle.get`, pylightgrep/lightgrep/__init__.py:269-275: raises an exception when the handle is closed.  A place without a
handle of the class is an object without the method, or of the wrong type. -/
def Handles.get (w : Handles) (k : Kind) (h : Nat) : Out Nat :=
  match w.objs.handles[h]? with
  | some (k', p) => if k' = k ∧ p ≠ 0 then .ok p else .raised
  | none => .raised

/-- The library uses the object at an address. -/
def Handles.touch (w : Handles) (k : Kind) (p : Nat) : Out Handles :=
  match w.objs.touch k p with
  | .ok _ => .ok w
  | _ => .ub

/-- `Pattern()`, `Fsm(…)`, `HitDecoder()`: pylightgrep/lightgrep/__init__.py:296-298, 311-317, 446-448.  When the library makes
nothing, `_checkHandleForErrors` (pylightgrep/lightgrep/__init__.py:640-643) compares `None` with 0 and lets it
pass. -/
def create (w : Handles) (k : Kind) (made : Bool) : Out Handles := .ok ⟨w.objs.makeHandle k made, w.prog⟩

/-- `Program.__init__`, pylightgrep/lightgrep/__init__.py:349-378: no handle when there is no program. -/
def newProgram (w : Handles) (made : Bool) : Out Handles :=
  if made then .ok ⟨w.objs.makeHandle .program true, w.prog⟩ else .raised

/-- `Program(fsm, opts)`, pylightgrep/lightgrep/__init__.py:370-378. -/
def program (w : Handles) (f : Nat) (made : Bool) : Out Handles :=
  match w.get .fsm f with
  | .ok p => match w.touch .fsm p with
    | .ok w => newProgram w made
    | _ => .ub
  | _ => .raised

/-- `Context.__init__`, pylightgrep/lightgrep/__init__.py:399-401. -/
def context (w : Handles) (p : Nat) (made : Bool) : Out Handles :=
  match w.get .program p with
  | .ok a => match w.touch .program a with
    | .ok w => .ok ⟨w.objs.makeHandle .context made, fun h => if h = w.objs.handles.length then p else w.prog h⟩
    | _ => .ub
  | _ => .raised

/-- The methods that use only their own object: `parse` (304-307), `count` (344-345, 384-385), `size`, `write` (387-395),
`reset` (407-408), `hit_context` and `full_hit_context` (454-493) of pylightgrep/lightgrep/__init__.py. -/
def use (w : Handles) (k : Kind) (h : Nat) : Out Handles :=
  match w.get k h with
  | .ok p => w.touch k p
  | _ => .raised

/-- `Fsm.add_pattern`, pylightgrep/lightgrep/__init__.py:323-328. -/
def addPattern (w : Handles) (f p : Nat) : Out Handles :=
  match w.get .fsm f with
  | .ok a => match w.get .pattern p with
    | .ok b => match w.touch .fsm a with
      | .ok w => w.touch .pattern b
      | _ => .ub
    | _ => .raised
  | _ => .raised

/-- `Context.search`, `startswith` and `closeout`, pylightgrep/lightgrep/__init__.py:410-422.  They need the program, for the
pattern infos in `_the_callback_impl` (437-440). -/
def search (w : Handles) (c : Nat) : Out Handles :=
  match w.get .program (w.prog c) with
  | .ok a => match w.get .context c with
    | .ok b => match w.touch .context b with
      | .ok w => w.touch .program a
      | _ => .ub
    | _ => .raised
  | _ => .raised

/-- The `close` methods, pylightgrep/lightgrep/__init__.py:266-267, 300-302, 319-321, 380-382, 403-405, 450-452.  Freeing the null
pointer does nothing. -/
def close (w : Handles) (h : Nat) : Out Handles :=
  match destroyHandle w.objs h with
  | .ok o => .ok ⟨o, w.prog⟩
  | .threw _ => .raised
  | .wild => .ub

/-- One call. -/
def step (w : Handles) : Do → Out Handles
  | .create k made => if k = .program ∨ k = .context then .ok w else create w k made
  | .program f made => program w f made
  | .read made => newProgram w made
  | .context p made => context w p made
  | .use k h => use w k h
  | .addPattern f p => addPattern w f p
  | .search c => search w c
  | .reset c => use w .context c
  | .hitContext d => use w .decoder d
  | .close h => close w h

/-- A history of calls; a call that raises an exception changes nothing.  `none`: undefined behaviour. -/
def history : List Do → Handles → Option Handles
  | [], w => some w
  | o :: os, w =>
    match step w o with
    | .ok w' => history os w'
    | .raised => history os w
    | .ub => none

end Verif.Python
