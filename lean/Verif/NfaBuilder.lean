import Verif.Regex
import Verif.Graph
/-!
# Building the automaton of a pattern

Models `src/lib/nfabuilder.cpp` and `include/fragment.h`.

Simplifications.  `traverse` walks the tree with two explicit stacks and the callbacks
keep fragments on a third; here the walk is recursion and a callback takes and returns
fragments.  The encoder has already turned a literal into its bytes and a character
class into byte-set sequences (`Enc->write`); this is what a leaf holds.  `NOSKIP` is
`none`.
-/
namespace Verif.NfaBuilder
open Verif.Regex Verif.Nfa

/-- A leaf: a literal's (or raw byte's) encoding, or a character class: the encoded
ranges of its code points valid in the encoding, the breakout bytes and whether they
are added or removed. -/
inductive Leaf where
  | lit (bs : List UInt8)
  | cls (encs : List (List BSet)) (brk : BSet) (additive : Bool)
  deriving DecidableEq

/-- `Fragment`, fragment.h 31–70. -/
structure Frag where
  ins : List Nat
  outs : List (Nat × Nat)
  skip : Option Nat

/-- The inner loops of `patch_mid`, nfabuilder.cpp 118–129: edges from `v` to each of
the vertices, inserted from position `pos` on. -/
def insertEdges (g : Graph) (v pos : Nat) : List Nat → Graph
  | [] => g
  | u :: us => insertEdges (g.insertEdge v u pos) v (pos + 1) us

/-- `patch_mid`, nfabuilder.cpp 105–134. -/
def patchMid (g : Graph) (dst : List Nat) (skip : Option Nat) : List (Nat × Nat) → Graph × List (Nat × Nat)
  | [] => (g, [])
  | (v, pos) :: os =>
    let k := match skip with
      | none => dst.length
      | some s => min s dst.length
    let g1 := insertEdges g v pos (dst.take k)
    let g2 := insertEdges g1 v (pos + k) (dst.drop k)
    let r := patchMid g2 dst skip os
    (r.1, (v, pos + k) :: r.2)

/-- The vertex loop of `literal`, nfabuilder.cpp 159–164. -/
def litLoop (g : Graph) (prev : Nat) : List UInt8 → Graph × Nat
  | [] => (g, prev)
  | b :: bs =>
    let last := g.n
    litLoop ((g.addVertex (.single b)).addEdge prev last) last bs

/-- `literal` and `rawByte`, nfabuilder.cpp 146–176; `none` is the exception for a
character the encoding does not have. -/
def literal (g : Graph) : List UInt8 → Option (Graph × Frag)
  | [] => none
  | b :: bs =>
    let r := litLoop (g.addVertex (.single b)) g.n bs
    some (r.1, { ins := [g.n], outs := [(r.2, 0)], skip := none })

/-- Adding or removing the breakout bytes, nfabuilder.cpp 187–233. -/
def breakout (encs : List (List BSet)) (brk : BSet) (additive : Bool) : Option (List (List BSet)) :=
  match encs with
  | [] => if additive = false ∨ brk = 0 then none else some [[brk]]
  | e :: es =>
    if brk = 0 then some (e :: es)
    else if additive then
      match e with
      | [s] => some ([s ||| brk] :: es)
      | _ => some ((e :: es) ++ [[brk]])
    else
      match e with
      | [s] =>
        if s &&& ~~~brk = 0 then
          if es = [] then none else some es
        else some ([s &&& ~~~brk] :: es)
      | _ => some (e :: es)

/-- Walking backwards through an existing suffix, nfabuilder.cpp 259–276.  The list is
the rest of the sequence, last first; returns the vertex reached and what is still
to be built. -/
def walkBack (g : Graph) (tail : Nat) : List BSet → Nat × List BSet
  | [] => (tail, [])
  | s :: ss =>
    match (g.v tail).inn.find? (fun h => (g.v h).bytes == s) with
    | some h => walkBack g h ss
    | none => (tail, s :: ss)

/-- Building what is missing, nfabuilder.cpp 289–294. -/
def buildFront (g : Graph) (tail : Nat) : List BSet → Graph × Nat
  | [] => (g, tail)
  | s :: ss =>
    let head := g.n
    buildFront ((g.addVertex s).addEdge head tail) head ss

/-- One encoded range sequence, nfabuilder.cpp 239–297. -/
def encStep (st : Graph × Frag) (enc : List BSet) : Graph × Frag :=
  match enc.reverse with
  | [] => st
  | s :: ss =>
    match st.2.outs.find? (fun p => (st.1.v p.1).bytes == s) with
    | some p =>
      let w := walkBack st.1 p.1 ss
      let r := buildFront st.1 w.1 w.2
      (r.1, { st.2 with ins := st.2.ins ++ [r.2] })
    | none =>
      let tail := st.1.n
      let r := buildFront (st.1.addVertex s) tail ss
      (r.1, { st.2 with ins := st.2.ins ++ [r.2], outs := st.2.outs ++ [(tail, 0)] })

/-- `charClass`, nfabuilder.cpp 182–300. -/
def charClass (g : Graph) (encs : List (List BSet)) (brk : BSet) (additive : Bool) :
    Option (Graph × Frag) := do
  let es ← breakout encs brk additive
  some (es.foldl encStep (g, { ins := [], outs := [], skip := none }))

/-- `question` and `question_ng`, nfabuilder.cpp 302–312. -/
def question (ng : Bool) (f : Frag) : Frag :=
  if ng then { f with skip := some 0 }
  else match f.skip with
    | none => { f with skip := some f.ins.length }
    | some k => { f with skip := some (min k f.ins.length) }

/-- `plus` and `plus_ng`, nfabuilder.cpp 314–328. -/
def plus (ng : Bool) (g : Graph) (f : Frag) : Graph × Frag :=
  let r := patchMid g f.ins (if ng then some 0 else none) f.outs
  (r.1, { f with outs := r.2 })

/-- `repetition` and `repetition_ng`, nfabuilder.cpp 340–376. -/
def repetition (ng : Bool) (m M : Nat) (g : Graph) (f : Frag) : Graph × Frag :=
  if m = 0 then
    if M = 1 then (g, question ng f)
    else if M = UNB then
      let r := plus ng g f
      (r.1, question ng r.2)
    else (g, f)
  else if m = 1 ∧ M = UNB then plus ng g f
  else (g, f)

/-- `alternate`, nfabuilder.cpp 378–401. -/
def alternate (f s : Frag) : Frag where
  ins := f.ins ++ s.ins
  outs := f.outs ++ s.outs
  skip := match f.skip, s.skip with
    | some k, _ => some k
    | none, some k => some (f.ins.length + k)
    | none, none => none

/-- `concatenate`, nfabuilder.cpp 403–431. -/
def concatenate (g : Graph) (f s : Frag) : Graph × Frag :=
  let r := patchMid g s.ins s.skip f.outs
  (r.1, {
    ins := match f.skip with
      | some k => f.ins.take k ++ s.ins ++ f.ins.drop k
      | none => f.ins
    outs := match s.skip with
      | some _ => r.2 ++ s.outs
      | none => s.outs
    skip := match f.skip, s.skip with
      | some j, some k => some (j + k)
      | _, _ => none })

/-- The bounded optional part `(T(T(…)?)?)?` with `k + 1` copies, nfabuilder.cpp
551–570. -/
def optional {α : Type} (ng : Bool) (t : Tree α) : Nat → Tree α
  | 0 => .rep ng 0 1 t
  | k + 1 => .rep ng 0 1 (.cat t (optional ng t k))

/-- `k` copies of `t` before `s`, nfabuilder.cpp 507–517. -/
def copies {α : Type} (t s : Tree α) : Nat → Tree α
  | 0 => s
  | k + 1 => .cat t (copies t s k)

/-- What `traverse` replaces a repetition by, nfabuilder.cpp 481–572. -/
def expandRep {α : Type} (ng : Bool) (m M : Nat) (t : Tree α) : Tree α :=
  if (m = 0 ∧ (M = 1 ∨ M = UNB)) ∨ (m = 1 ∧ M = UNB) then .rep ng m M t
  else if m = M then copies t t (m - 1)
  else if M = UNB then copies t (.rep ng 1 UNB t) (m - 1)
  else copies t (optional ng t (M - m - 1)) m

/-- `traverse`'s synthesis throughout the tree. -/
def expand {α : Type} : Tree α → Tree α
  | .leaf a => .leaf a
  | .alt l r => .alt (expand l) (expand r)
  | .cat l r => .cat (expand l) (expand r)
  | .rep ng m M t => expandRep ng m M (expand t)
  | .look k t => .look k t

/-- The callbacks in postorder, nfabuilder.cpp 610–641.  A lookaround node never gets
here (the rewriter refuses it); modelled as an exception. -/
def fragment (g : Graph) : Tree Leaf → Option (Graph × Frag)
  | .leaf (.lit bs) => literal g bs
  | .leaf (.cls encs brk additive) => charClass g encs brk additive
  | .alt l r => do
    let a ← fragment g l
    let b ← fragment a.1 r
    some (b.1, alternate a.2 b.2)
  | .cat l r => do
    let a ← fragment g l
    let b ← fragment a.1 r
    some (concatenate b.1 a.2 b.2)
  | .rep ng m M t => do
    let a ← fragment g t
    some (repetition ng m M a.1 a.2)
  | .look _ _ => none

/-- Marking the match states, nfabuilder.cpp 447–449. -/
def mark (g : Graph) (label : Nat) : List (Nat × Nat) → Graph
  | [] => g
  | (v, _) :: os => mark (g.modify v fun x => { x with isMatch := true, label := some label }) label os

/-- Outcome of building: an automaton; refusal ("Empty matches"); or an exception
naming a character the encoding lacks. -/
inductive Built where
  | good (g : Graph)
  | empty
  | threw

/-- `finish`, nfabuilder.cpp 433–460. -/
def finish (g : Graph) (label : Nat) (f : Frag) : Built :=
  let r := concatenate g { ins := [0], outs := [(0, 0)], skip := none } f
  if r.2.outs.any (fun p => p.1 == 0) then .empty
  else .good (mark r.1 label r.2.outs)

/-- `build` after `reset` and `setCurLabel`, nfabuilder.cpp 605–608, 72–95: an empty
root leaves one fragment on the stack, which `finish` refuses. -/
def build (label : Nat) : Option (Tree Leaf) → Built
  | none => .empty
  | some t =>
    match fragment .init (expand t) with
    | none => .threw
    | some r => finish r.1 label r.2

end Verif.NfaBuilder
