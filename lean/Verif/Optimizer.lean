import Verif.Graph
/-!
# Pruning and merging automata

Models `NFAOptimizer::pruneBranches` and `NFAOptimizer::mergeIntoFSM` with its helpers,
src/lib/nfaoptimizer.cpp 31–260.  Loops have a step budget; `none` is "not finished
within the budget".  `mergeIntoFSM` reads the top of its stack through a reference after
popping it (lines 181–193); modelled as reading it before.
-/
namespace Verif.Optimizer
open Verif.Nfa

/-- `Graph::removeEdge` for the `i`-th edge leaving `h`, graph.h 357–361.  Of parallel
edges the first one is taken out of the in-list (its entries are the same vertex). -/
def removeEdge (g : Graph) (h i : Nat) : Graph :=
  match (g.v h).out[i]? with
  | none => g
  | some t =>
    (g.modify h fun x => { x with out := x.out.eraseIdx i }).modify t
      fun x => { x with inn := x.inn.erase h }

/-- What `pruneBranches` keeps. -/
structure Prune where
  g : Graph
  next : List Nat
  seen : List Nat

/-- The loop over the edges leaving `head`, nfaoptimizer.cpp 227–258.  The list is what
is left of the edges, the first of them at index `i`. -/
def pruneOut (head : Nat) : List Nat → Nat → BSet → Prune → Prune
  | [], _, _, s => s
  | tail :: ts, i, mbs, s =>
    let s := if tail ∈ s.seen then s else { s with next := tail :: s.next, seen := tail :: s.seen }
    let obs := (s.g.v tail).bytes &&& ~~~mbs
    let mbs := if (s.g.v tail).isMatch then mbs ||| obs else mbs
    if obs = 0 then pruneOut head ts i mbs { s with g := removeEdge s.g head i }
    else pruneOut head ts (i + 1) mbs s

/-- The walk of `pruneBranches`, nfaoptimizer.cpp 219–259. -/
def pruneLoop : Nat → Prune → Option Graph
  | 0, _ => none
  | n + 1, s =>
    match s.next with
    | [] => some s.g
    | head :: next => pruneLoop n (pruneOut head (s.g.v head).out 0 0 { s with next })

/-- `pruneBranches`, nfaoptimizer.cpp 210–260. -/
def pruneBranches (fuel : Nat) (g : Graph) : Option Graph :=
  pruneLoop fuel { g, next := [0], seen := [0] }

/-- The members of `NFAOptimizer` used while merging, nfaoptimizer.h 55–60, and the
destination. -/
structure Merge where
  dst : Graph
  s2d : Nat → Option Nat
  /-- No entry is an empty list. -/
  d2s : Nat → List Nat
  pos : Nat → Option Nat

/-- `canMerge`, nfaoptimizer.cpp 31–71. -/
def canMerge (m : Merge) (src : Graph) (dt st : Nat) : Bool :=
  (m.dst.v dt).label == (src.v st).label &&
  ((m.dst.v dt).label == none || ((src.v st).out.length == 0 && (m.dst.v dt).out.length == 0)) &&
  (m.dst.v dt).inn.length == 1 && (src.v st).inn.length == 1 &&
  (match m.d2s dt with
    | [] => true
    | x :: _ => (src.v x).inn.length == 1) &&
  (m.dst.v dt).bytes == (src.v st).bytes

/-- The search for a successor to merge with, nfaoptimizer.cpp 111–122: index and vertex. -/
def findMerge (m : Merge) (src : Graph) (st : Nat) : List Nat → Nat → Option (Nat × Nat)
  | [], _ => none
  | dt :: ts, di => if canMerge m src dt st then some (di, dt) else findMerge m src st ts (di + 1)

/-- A new vertex with the data of another, nfaoptimizer.cpp 129–130. -/
def copyVertex (g : Graph) (x : Vertex) : Graph :=
  { n := g.n + 1,
    v := fun j => if j = g.n then { bytes := x.bytes, isMatch := x.isMatch, label := x.label } else g.v j }

/-- Adding the edge if there is none, nfaoptimizer.cpp 142–153; `deg` is the number of
edges the head had. -/
def connect (g : Graph) (dh dt di : Nat) : Graph :=
  if dt ∈ (g.v dh).out then g else g.insertEdge dh dt di

/-- The destination vertex for the tail of the edge, and the index for the edge:
nfaoptimizer.cpp 80–139. -/
def place (m : Merge) (src : Graph) (st dh : Nat) : Graph × Nat × Nat :=
  match m.s2d st with
  | some dt => (m.dst, dt, (m.dst.v dh).out.idxOf dt)
  | none =>
    let di := (m.pos dh).getD 0
    match findMerge m src st ((m.dst.v dh).out.drop di) di with
    | some (di, dt) => (m.dst, dt, di)
    | none =>
      (copyVertex m.dst (src.v st), m.dst.n, if m.pos dh = none then 0 else max di (m.dst.v dh).out.length)

/-- `processChild`, nfaoptimizer.cpp 73–165, and the updates after it, 195–199. -/
def processChild (m : Merge) (src : Graph) (st dh : Nat) : Merge :=
  let (g, dt, di) := place m src st dh
  { dst := connect g dh dt di
    s2d := fun x => if x = st then some dt else m.s2d x
    d2s := fun x => if x = dt then m.d2s dt ++ [st] else m.d2s x
    pos := fun x => if x = dh then some di else m.pos x }

/-- The edges leaving a vertex, first on top of the stack, nfaoptimizer.cpp 176–178. -/
def edgesOf (src : Graph) (v : Nat) : List (Nat × Nat) :=
  (List.range (src.v v).out.length).map fun i => (v, i)

/-- The loop of `mergeIntoFSM`, nfaoptimizer.cpp 180–205. -/
def mergeLoop (src : Graph) : Nat → List (Nat × Nat) → List (Nat × Nat) → Merge → Option Graph
  | 0, _, _, _ => none
  | _ + 1, [], _, m => some m.dst
  | n + 1, (h, i) :: es, visited, m =>
    if (h, i) ∈ visited then mergeLoop src n es visited m
    else
      let st := (src.v h).out.getD i 0
      let dh := (m.s2d h).getD 0
      mergeLoop src n (edgesOf src st ++ es) ((h, i) :: visited) (processChild m src st dh)

/-- `mergeIntoFSM`, nfaoptimizer.cpp 167–208. -/
def mergeIntoFSM (fuel : Nat) (dst src : Graph) : Option Graph :=
  mergeLoop src fuel (edgesOf src 0) []
    { dst, s2d := fun x => if x = 0 then some 0 else none, d2s := fun _ => [], pos := fun _ => none }

end Verif.Optimizer
