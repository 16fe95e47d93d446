import Mathlib.Computability.Language
/-!
# Parse trees and their rewriting

Models `include/parsenode.h`, `src/lib/rewriter.cpp` and `src/lib/parser.cpp`.

The C++ rewrites trees of nodes in place, splicing a node out by storing its
replacement into the parent.  Here a pass returns the new subtree; the parent stores
it.  Every pass also returns the Boolean the C++ function returns.  A thrown
`std::logic_error` (which makes adding the pattern fail) is `none`.

The leaves (`DOT`, `CHAR_CLASS`, `LITERAL`, `BYTE`) are an arbitrary type with
decidable equality, as `operator==` gives it (parsenode.h 316–321).
-/
namespace Verif.Regex

/-- `UNBOUNDED`, parsenode.h 27. -/
def UNB : Nat := 4294967295

/-- A parse tree below the root, parsenode.h 29–73. `rep ng min max t` is a
`REPETITION` (`ng = false`) or `REPETITION_NG`; `look k t` one of the four
lookarounds. -/
inductive Tree (α : Type) where
  | leaf (a : α)
  | alt (l r : Tree α)
  | cat (l r : Tree α)
  | rep (ng : Bool) (min max : Nat) (t : Tree α)
  | look (kind : Fin 4) (t : Tree α)
  deriving DecidableEq, Repr

variable {α : Type}

/-- 32-bit addition. -/
def add32 (a b : Nat) : Nat := (a + b) % 4294967296

/-- `hasZeroLengthMatch`, rewriter.cpp 83–108 (below the root). -/
def hasZero : Tree α → Option Bool
  | .leaf _ => some false
  | .alt l r => do if ← hasZero l then some true else hasZero r
  | .cat l r => do if ← hasZero l then hasZero r else some false
  | .rep _ min _ t => if min = 0 then some true else hasZero t
  | .look _ _ => none

/-- `hasZeroLengthMatch` of the root, rewriter.cpp 85–86. -/
def hasZeroRoot : Option (Tree α) → Option Bool
  | none => some true
  | some t => hasZero t

/-- `has_only_zero_length_match`, rewriter.cpp 141–169 (below the root). -/
def onlyZero : Tree α → Option Bool
  | .leaf _ => some false
  | .alt l _ => onlyZero l
  | .cat l r => do if ← onlyZero l then onlyZero r else some false
  | .rep _ min max t => if min = 0 ∧ max = 0 then some true else onlyZero t
  | .look _ _ => none

/-- `makeBinopsRightAssociative`, rewriter.cpp 420–488. -/
def assoc : Tree α → Bool × Tree α
  | .leaf a => (false, .leaf a)
  | .look k t => let r := assoc t; (r.1, .look k r.2)
  | .rep ng m M t => let r := assoc t; (r.1, .rep ng m M r.2)
  | .alt l r =>
    let l' := assoc l
    let r' := assoc r
    match l'.2 with
    | .alt e f => (true, .alt e (.alt f r'.2))
    | t => (l'.1 || r'.1, .alt t r'.2)
  | .cat l r =>
    let l' := assoc l
    let r' := assoc r
    match l'.2 with
    | .cat e f => (true, .cat e (.cat f r'.2))
    | t => (l'.1 || r'.1, .cat t r'.2)

/-- The merged bounds, rewriter.cpp 376–379 and 389–392. -/
def sumMax (b d : Nat) : Nat := if b = UNB ∨ d = UNB then UNB else add32 b d

variable [DecidableEq α]

/-- `combineConsecutiveRepetitions`, rewriter.cpp 348–413; `combinable` (340–346)
asks for two repetitions of the same kind that are equal as trees. -/
def combine : Tree α → Option (Bool × Tree α)
  | .leaf a => some (false, .leaf a)
  | .look _ _ => none
  | .rep ng m M t => do
    let r ← combine t
    some (r.1, .rep ng m M r.2)
  | .alt l r => do
    let l' ← combine l
    let r' ← combine r
    some (l'.1 || r'.1, .alt l'.2 r'.2)
  | .cat l r => do
    let l' ← combine l
    let r' ← combine r
    match l'.2, r'.2 with
    | .rep ng m M t, .rep ng' m' M' t' =>
      if ng = ng' ∧ m = m' ∧ M = M' ∧ t = t' then
        some (true, .rep ng (add32 m m') (sumMax M M') t)
      else some (l'.1 || r'.1, .cat (.rep ng m M t) (.rep ng' m' M' t'))
    | .rep ng m M t, .cat (.rep ng' m' M' t') s =>
      if ng = ng' ∧ m = m' ∧ M = M' ∧ t = t' then
        some (true, .cat (.rep ng (add32 m m') (sumMax M M') t) s)
      else some (l'.1 || r'.1, .cat (.rep ng m M t) (.cat (.rep ng' m' M' t') s))
    | a, b => some (l'.1 || r'.1, .cat a b)

/-- `reduceTrailingNongreedyThenEmpty`, rewriter.cpp 582–670. -/
def thenEmpty : Tree α → Option (Bool × Tree α)
  | .leaf a => some (false, .leaf a)
  | .look k t => do
    let r ← thenEmpty t
    some (r.1, .look k r.2)
  | .rep false m M t => do
    let r ← thenEmpty t
    some (r.1, .rep false m M r.2)
  | .rep true m _ t => do
    let r ← thenEmpty t
    some (true, .rep false m m r.2)
  | .alt l r => do
    let l' ← thenEmpty l
    let r' ← thenEmpty r
    some (l'.1 || r'.1, .alt l'.2 r'.2)
  | .cat l r => do
    let l' ← (do
      if ← hasZero r then
        match l with
        | .rep true m _ t => some (true, .rep false m m t)
        | _ => thenEmpty l
      else some (false, l))
    let r' ← thenEmpty r
    some (l'.1 || r'.1, .cat l'.2 r'.2)

/-- `reduceTrailingNongreedyThenGreedy`, rewriter.cpp 495–575. -/
def thenGreedy : Tree α → Bool × Tree α
  | .leaf a => (false, .leaf a)
  | .look k t => let r := thenGreedy t; (r.1, .look k r.2)
  | .rep ng m M t => let r := thenGreedy t; (r.1, .rep ng m M r.2)
  | .alt l r =>
    let l' := thenGreedy l
    let r' := thenGreedy r
    (l'.1 || r'.1, .alt l'.2 r'.2)
  | .cat (.rep true a b s) r =>
    let r' := thenGreedy r
    match r'.2 with
    | .rep false c d s' =>
      if s = s' then
        (true, .rep false (add32 a c) (if d = UNB then UNB else add32 a d) (thenGreedy s).2)
      else if s = .rep false c d s' then
        (true, .rep false (add32 a 1) (add32 a 1) (thenGreedy s).2)
      else (r'.1, .cat (.rep true a b s) (.rep false c d s'))
    | t =>
      if s = t then (true, .rep false (add32 a 1) (add32 a 1) (thenGreedy s).2)
      else (r'.1, .cat (.rep true a b s) t)
  | .cat l r => let r' := thenGreedy r; (r'.1, .cat l r'.2)

/-- The fix-up on the way back in `reduceEmptySubtrees`, rewriter.cpp 238–255. -/
def fixDead : Tree α → Option (Tree α)
  | .cat l r => do
    if ← onlyZero l then some r
    else if ← onlyZero r then some l
    else some (.cat l r)
  | .alt l r => do
    if ← onlyZero r then some (.rep false 0 1 l) else some (.alt l r)
  | t => some t

/-- `reduceEmptySubtrees`, rewriter.cpp 171–258, below the root; `x` is the dummy
literal of line 199.  (The returned flag is not used by the caller.) -/
def reduceEmpty (x : α) : Tree α → Option (Tree α)
  | .leaf a => some (.leaf a)
  | .look _ _ => none
  | .rep ng m M t => do
    if ← onlyZero (.rep ng m M t) then some (.rep false 0 0 (.leaf x))
    else some (.rep ng m M (← reduceEmpty x t))
  | .alt l r => do
    if ← onlyZero (.alt l r) then some (.rep false 0 0 (.leaf x))
    else
      let l' ← reduceEmpty x l
      let r' ← reduceEmpty x r
      fixDead (.alt l' r')
  | .cat l r => do
    if ← onlyZero (.cat l r) then some (.rep false 0 0 (.leaf x))
    else
      let l' ← reduceEmpty x l
      let r' ← reduceEmpty x r
      fixDead (.cat l' r')

/-- `reduceEmptySubtrees` at the root, rewriter.cpp 180–185 and 210–214. -/
def reduceEmptyRoot (x : α) : Option (Tree α) → Option (Option (Tree α))
  | none => some none
  | some t => do
    if ← onlyZero t then some none else some (some (← reduceEmpty x t))

/-- `prune_useless_repetitions`, rewriter.cpp 265–290, on the child of the branch's
top. -/
def prune : Tree α → Tree α
  | .rep ng m M t =>
    if m = 1 ∧ M = 1 then prune t
    else if ng = true ∧ m = M then .rep false m M t
    else .rep ng m M t
  | t => t

omit [DecidableEq α] in
theorem prune_size (t : Tree α) : sizeOf (prune t) ≤ sizeOf t := by
  induction t with
  | rep ng m M t ih =>
    unfold prune
    split
    · simp only [Tree.rep.sizeOf_spec]; omega
    · split
      · next h => simp only [Tree.rep.sizeOf_spec, h.1]; simp
      · exact Nat.le_refl _
  | _ => simp [prune]

/-- `reduceUselessRepetitions`, rewriter.cpp 292–333, below the root. -/
def useless : Tree α → Option (Tree α)
  | .leaf a => some (.leaf a)
  | .look _ _ => none
  | .rep ng m M t => do some (.rep ng m M (← useless (prune t)))
  | .alt l r => do some (.alt (← useless (prune l)) (← useless (prune r)))
  | .cat l r => do some (.cat (← useless (prune l)) (← useless (prune r)))
termination_by t => sizeOf t
decreasing_by
  all_goals first
    | (have := prune_size t; simp only [Tree.rep.sizeOf_spec]; omega)
    | (have := prune_size l; simp only [Tree.alt.sizeOf_spec, Tree.cat.sizeOf_spec]; omega)
    | (have := prune_size r; simp only [Tree.alt.sizeOf_spec, Tree.cat.sizeOf_spec]; omega)

/-- `reduceUselessRepetitions` at the root, rewriter.cpp 300–308. -/
def uselessRoot : Option (Tree α) → Option (Option (Tree α))
  | none => some none
  | some t => do some (some (← useless (prune t)))

/-- `reduce`, parser.cpp 47–61.  The root is never empty after parsing
(re_grammar.ypp 141–146).  `nongreedy` and `counted` are the two tests on the
pattern's text (parser.cpp 25–36). -/
def reduce (x : α) (nongreedy counted : Bool) (t : Tree α) : Option (Option (Tree α)) := do
  let a := assoc t
  let c ← combine a.2
  let (rw, t) ← (if nongreedy then do
      let e ← thenEmpty c.2
      let g := thenGreedy e.2
      some (a.1 || c.1 || e.1 || g.1, g.2)
    else some (a.1 || c.1, c.2))
  if rw || counted then
    uselessRoot (← reduceEmptyRoot x (some t))
  else some (some t)

end Verif.Regex
