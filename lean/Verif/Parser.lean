import Verif.ParseUtil
import Verif.Encoders
/-!
# The lexer and the grammar (src/lib/re_grammar.ypp)

The pattern's text is the list of code points delivered by `transform_utf8_to_unicode`
(`Utf.patternText`), with -1 for malformed UTF-8.

The parser that Bison generates from the grammar is not in the repository; it is an LALR(1)
automaton whose two shift/reduce conflicts are resolved by shifting.  The model is a
recursive-descent parser that accepts the same token sequences and runs the same semantic
actions; `Verif.Parser.Alt` and its companions in `Verif/Props/Parser.lean` are the grammar's
productions, and the two are proved to agree.  Bison's error recovery is modelled as far as
it decides which error is reported: at the end of the text the innermost open `(` or `[`
reports the error, everywhere else `yyerror` throws.

The lexer is a separate pass.  In the code the sets for `\d`, `\w`, `\s` and `\p{…}` are
computed when the token is read, from the options then in force; here when the token is
used.  No semantic action that changes the options runs in between: the actions for the
switches and for `)` are default reductions, which Bison performs before it reads the next
token, and `(` copies the options.  Nor does one that overwrites the shared `USet`: a
character, `\b`, `\B`, `^` and `$` are reduced by default reductions too.
-/
namespace Verif.Parser

open Verif.Regex (Tree UNB)
open Verif.Encoders (Node)
open Verif.Nfa (BSet)

/-! ## Lexer -/

/-- The named classes, re_grammar.ypp 1176–1240 and 1275–1279. -/
inductive Named where
  | digit (neg : Bool)
  | space (neg : Bool)
  | hspace (neg : Bool)
  | vspace (neg : Bool)
  | word (neg : Bool)
  | prop (text : List Int)
deriving DecidableEq, Repr

/-- Tokens, re_grammar.ypp 108–125.  `sym c` is the token that is the character `c`
itself; `noProp` stands for the exception that `propertyGetter` throws (parseutil.cpp 64–98)
when it does not know a property. -/
inductive Tok where
  | char (c : Nat)
  | digit (c : Nat)
  | byte (b : Nat)
  | sym (c : Nat)
  | hyphens
  | amps
  | tildes
  | textStart
  | textEnd
  | notWord
  | kill
  | word
  | set (n : Named)
  | bad
  | noProp
deriving DecidableEq, Repr

/-- What the parser gets from outside this file: the code point with a given name, whether
a text is a property, the set for a named class in ASCII mode or not and case-insensitive or
not, and `caseDesensitize`.  `none` is undefined behaviour. -/
structure Env where
  byName : List Int → Option Nat × List Int
  isProp : List Int → Bool
  named : Bool → Bool → Named → Option RangeSet.Vec
  fold : Bool → RangeSet.Vec → Option (RangeSet.Vec × Bool)

/-- A class or its complement, re_grammar.ypp 1177–1240. -/
def signed (neg : Bool) (s : RangeSet.Vec) : Option RangeSet.Vec :=
  if neg then RangeSet.flip 0x110000 s else some s

/-- A build without ICU: parseutil.cpp 64–98 (no properties), 150–236, parseutil.h 186. -/
def plain : Env where
  byName t := (none, t)
  isProp _ := false
  named ascii _ n :=
    match n with
    | .digit neg => signed neg ParseUtil.digitClass
    | .space neg => signed neg (ParseUtil.spaceClass ascii)
    | .hspace neg => signed neg ParseUtil.hSpaceClass
    | .vspace neg => signed neg ParseUtil.vSpaceClass
    | .word neg => signed neg ParseUtil.wordClass
    | .prop _ => none
  fold _ s := ParseUtil.caseDesensitizeAscii none s

/-- The characters that a backslash makes ordinary, re_grammar.ypp 1133–1154:
`| ( ) ? + * . [ ] ^ $ - { } & ~ < = ! \`. -/
def metas : List Int :=
  [124, 40, 41, 63, 43, 42, 46, 91, 93, 94, 36, 45, 123, 125, 38, 126, 60, 61, 33, 92]

/-- The ASCII escapes, re_grammar.ypp 1156–1174. -/
def asciiEscape (c : Int) : Option Nat :=
  if c = 97 then some 7
  else if c = 101 then some 0x1B
  else if c = 102 then some 12
  else if c = 110 then some 10
  else if c = 114 then some 13
  else if c = 116 then some 9
  else none

/-- The named classes by their letter, re_grammar.ypp 1176–1240. -/
def classEscape (c : Int) : Option Named :=
  if c = 100 then some (.digit false)
  else if c = 68 then some (.digit true)
  else if c = 115 then some (.space false)
  else if c = 83 then some (.space true)
  else if c = 104 then some (.hspace false)
  else if c = 72 then some (.hspace true)
  else if c = 118 then some (.vspace false)
  else if c = 86 then some (.vspace true)
  else if c = 119 then some (.word false)
  else if c = 87 then some (.word true)
  else none

/-- The assertions, re_grammar.ypp 1281–1291. -/
def assertEscape (c : Int) : Option Tok :=
  if c = 65 then some .textStart
  else if c = 66 then some .notWord
  else if c = 75 then some .kill
  else if c = 90 then some .textEnd
  else if c = 98 then some .word
  else none

/-- `parseProperty`, parseutil.h 192–216, with `prepareStringForICU` 138–155 and
`unicode_to_ascii` 127–136: `c` is the letter after the backslash and `t` the text after it.
Whether `propertyGetter` accepts the text is taken not to depend on the options. -/
def property (env : Env) (c : Int) (t : List Int) : Tok × List Int :=
  match t with
  | [] => (.bad, [])
  | d :: _ =>
    if d ≠ 123 then (.bad, t)
    else if 125 ∈ t then
      let name := t.takeWhile (· ≠ 125)
      let good := name.takeWhile (fun x => decide (0 ≤ x ∧ x < 128))
      if good = name then
        (if env.isProp (92 :: c :: name) then .set (.prop (92 :: c :: name)) else .noProp,
          t.drop (name.length + 1))
      else (.bad, t.drop good.length)
    else (.bad, [])

/-- `consumeEscape`, re_grammar.ypp 1125–1296, on the text after the backslash. -/
def escape (env : Env) : List Int → Tok × List Int
  | [] => (.bad, [])
  | c :: t =>
    if c ∈ metas then (.char c.toNat, t)
    else match asciiEscape c with
    | some v => (.char v, t)
    | none => match classEscape c with
    | some n => (.set n, t)
    | none => match ParseUtil.consumeNumeric env.byName (c :: t) with
    | some (.char n, r) => (.char n, r)
    | some (.byte n, r) => (.byte n, r)
    | some (.bad, r) => (.bad, r)
    | none =>
      if c = 112 ∨ c = 80 then property env c t
      else match assertEscape c with
        | some k => (k, t)
        | none => (.bad, t)

/-- The characters that are tokens of their own, re_grammar.ypp 1317–1337:
`a i | ( ) ? + * . [ ] ^ $ { } , < = !`. -/
def symbols : List Int :=
  [97, 105, 124, 40, 41, 63, 43, 42, 46, 91, 93, 94, 36, 123, 125, 44, 60, 61, 33]

/-- `yylex` on a text that is not at its end, re_grammar.ypp 1304–1408: the token and the
remaining text. -/
def lexOne (env : Env) (literal : Bool) (c : Int) (t : List Int) : Tok × List Int :=
  if c < 1 then (.bad, t)
  else if literal then (.char c.toNat, t)
  else if c ∈ symbols then (.sym c.toNat, t)
  else if c = 38 then
    match t with
    | 38 :: r => (.amps, r)
    | _ => (.char 38, t)
  else if c = 126 then
    match t with
    | 126 :: r => (.tildes, r)
    | _ => (.char 126, t)
  else if c = 45 then
    match t with
    | [] => (.char 45, t)
    | 93 :: _ => (.char 45, t)
    | 45 :: r => (.hyphens, r)
    | _ => (.sym 45, t)
  else if c = 92 then escape env t
  else if 48 ≤ c ∧ c ≤ 57 then (.digit c.toNat, t)
  else (.char c.toNat, t)

/-- A token with `first_column` and `last_column`, re_grammar.ypp 1299, 1305, 1341, 1353,
1372, 1388. -/
structure LTok where
  tok : Tok
  first : Nat
  last : Nat
deriving DecidableEq, Repr

/-- The tokens of a text, up to the end; `total` is the length of the whole text and `n`
bounds the number of tokens. -/
def lex (env : Env) (literal : Bool) (total : Nat) : Nat → List Int → List LTok
  | 0, _ => []
  | _ + 1, [] => []
  | n + 1, c :: t =>
    let r := lexOne env literal c t
    ⟨r.1, total - (t.length + 1), total - r.2.length⟩ :: lex env literal total n r.2

/-! ## Errors -/

/-- `ParseError`, re_grammar.ypp 52–75. -/
inductive ErrKind where
  | nonatomicRepetition
  | reversedRepetition
  | invalidEscape
  | unmatchedParen
  | unmatchedBracket
  | emptyClass
  | reversedChars
  | reversedBytes
  | missingOperand
deriving DecidableEq, Repr

/-- Ways for a parse to fail.  `report k b e` is `throwError` with the range `[b, e)`;
`eof` the end of the text inside something; `unparsed` the failure of `yyparse` without an
exception (parser.cpp 41–43); `thrown` the exception for an unknown property; `ub` undefined behaviour
(overflow of a repetition count, or inside a range set); `fuel` the bound of the model's
recursion. -/
inductive Err where
  | report (k : ErrKind) (b e : Nat)
  | eof
  | unparsed
  | thrown
  | ub
  | fuel
deriving DecidableEq, Repr

/-- `yyerror`, re_grammar.ypp 1414–1451, at the first of the remaining tokens.  The exception
for an unknown property is thrown when the token is read, which is here too, except after
`{3,2}`, where the code reads ahead before it reports the bounds. -/
def unexpected : List LTok → Err
  | [] => .eof
  | t :: _ =>
    if t.tok = .bad then .report .invalidEscape t.first t.last
    else if t.tok = .noProp then .thrown
    else .report .nonatomicRepetition t.first t.last

/-- The error actions of `'(' error` and `'[' … error`, re_grammar.ypp 310–319, 591–630. -/
def unclosed (k : ErrKind) (t : LTok) : Err → Err
  | .eof => .report k t.first t.last
  | e => e

abbrev Res (α : Type) := Except Err α

/-- A partial operation that is undefined behaviour when it has no result. -/
def orUb {α : Type} : Option α → Res α
  | some a => .ok a
  | none => .error .ub

/-! ## Character classes -/

/-- `CharacterClassInternals`, parsenode.h 59–65. -/
structure Cls where
  cps : RangeSet.Vec
  brk : BSet
  additive : Bool
deriving DecidableEq, Repr

/-- The options on top of the stack, re_grammar.ypp 28, 36–37. -/
structure Opts where
  cased : Bool
  ascii : Bool
deriving DecidableEq, Repr

/-- `cc_char`, re_grammar.ypp 1011–1082. -/
def ccChar : Tok → Option Nat
  | .char c => some c
  | .digit c => some c
  | .word => some 8
  | .sym c =>
    if (c : Int) ∈ [97, 105, 124, 40, 41, 63, 43, 42, 46, 123, 125, 44, 60, 61, 33, 36] then some c
    else none
  | _ => none

/-- `cc_char_first`, re_grammar.ypp 991–1001. -/
def ccFirst : Tok → Option Nat
  | .sym 93 => some 93
  | .sym 45 => some 45
  | t => ccChar t

/-- `cc_char_not_first`, re_grammar.ypp 1003–1009. -/
def ccNotFirst : Tok → Option Nat
  | .sym 94 => some 94
  | t => ccChar t

/-- A new node `CHAR_CLASS` with a range of code points, re_grammar.ypp 853–854, 888–889. -/
def chars (a b : Nat) : Cls := ⟨RangeSet.insert [] a b, 0, true⟩

/-- A new node `CHAR_CLASS` with breakout bytes, re_grammar.ypp 876–877, 893–894. -/
def byteSet (s : BSet) : Cls := ⟨[], s, true⟩

/-- The set operators, re_grammar.ypp 815–838, 899–922. -/
inductive SetOp where
  | union | inter | minus | xor
deriving DecidableEq, Repr

/-- Combining two classes: the code points and the bytes separately; the flag of the
first stays. -/
def Cls.combine (op : SetOp) (a b : Cls) : Option Cls :=
  match op with
  | .union => do some ⟨← RangeSet.union a.cps b.cps, a.brk ||| b.brk, a.additive⟩
  | .inter => do some ⟨← RangeSet.inter 0x110000 a.cps b.cps, a.brk &&& b.brk, a.additive⟩
  | .minus => do some ⟨← RangeSet.diff 0x110000 a.cps b.cps, a.brk &&& ~~~b.brk, a.additive⟩
  | .xor => do some ⟨← RangeSet.symm 0x110000 a.cps b.cps, a.brk ^^^ b.brk, a.additive⟩

/-- `caseDesensitize` if the options ask for it, re_grammar.ypp 525–527, 553–555. -/
def foldCls (env : Env) (o : Opts) (c : Cls) : Res Cls :=
  if o.cased then .ok c
  else match env.fold o.ascii c.cps with
    | some r => .ok { c with cps := r.1 }
    | none => .error .ub

/-- The action for `[…]`, re_grammar.ypp 521–539; `b` and `e` are the range of the class in
the text. -/
def closePos (env : Env) (o : Opts) (b e : Nat) (c : Cls) : Res Cls := do
  let c ← foldCls env o c
  if RangeSet.none c.cps && c.brk == 0 then .error (.report .emptyClass b e) else .ok c

/-- The action for `[^…]`, re_grammar.ypp 540–590. -/
def closeNeg (env : Env) (o : Opts) (b e : Nat) (c : Cls) : Res Cls :=
  if RangeSet.any c.cps then do
    let c ← foldCls env o c
    let s ← orUb (RangeSet.flip 0x110000 c.cps)
    if RangeSet.none s then .error (.report .emptyClass b e)
    else .ok ⟨s, c.brk, if c.brk == 0 then c.additive else false⟩
  else if c.brk ≠ 0 then
    if ~~~c.brk == 0 then .error (.report .emptyClass b e)
    else .ok { c with brk := ~~~c.brk }
  else do
    let s ← orUb (RangeSet.flip 0x110000 c.cps)
    .ok { c with cps := s }

/-- Whether the next token is `-`. -/
def hyphenNext : List LTok → Bool
  | [] => false
  | t :: _ => t.tok = .sym 45

/-- The token `BYTE`. -/
def byteTok : Tok → Option Nat
  | .byte b => some b
  | _ => none

/-- The set operators as tokens. -/
def setOp : Tok → Option SetOp
  | .amps => some .inter
  | .hyphens => some .minus
  | .tildes => some .xor
  | _ => none

mutual

/-- `charclass` for the token `t`, which is a named class or `[`, re_grammar.ypp 520–812,
1084–1089: the class, the number of nodes added and the remaining tokens. -/
def charclass (env : Env) (o : Opts) : Nat → LTok → List LTok → Res (Cls × Nat × List LTok)
  | 0, _, _ => .error .fuel
  | n + 1, t, ts =>
    match t.tok with
    | .set s =>
      match env.named o.ascii (!o.cased) s with
      | some v => .ok (⟨v, 0, true⟩, 1, ts)
      | none => .error .ub
    | .sym 91 =>
      match ts with
      | [] => .error (unclosed .unmatchedBracket t .eof)
      | u :: us =>
        if u.tok = .sym 94 then
          match us with
          | [] => .error (unclosed .unmatchedBracket t .eof)
          | v :: vs =>
            if (setOp v.tok).isSome then .error (.report .missingOperand v.first v.last)
            else match ccAtom env o n false (v :: vs) with
              | .error e => .error (unclosed .unmatchedBracket t e)
              | .ok (c, k, ws) => ccItems env o n t true c k ws
        else if (setOp u.tok).isSome then .error (.report .missingOperand u.first u.last)
        else match ccAtom env o n true (u :: us) with
          | .error e => .error (unclosed .unmatchedBracket t e)
          | .ok (c, k, ws) => ccItems env o n t false c k ws
    | _ => .error (unexpected (t :: ts))

/-- `cc_atom`, re_grammar.ypp 926–989, or with `first` the alternatives of `cc_expr_pos` that
start a class, 839–895. -/
def ccAtom (env : Env) (o : Opts) : Nat → Bool → List LTok → Res (Cls × Nat × List LTok)
  | 0, _, _ => .error .fuel
  | _ + 1, _, [] => .error .eof
  | n + 1, first, t :: ts =>
    match (if first then ccFirst t.tok else ccNotFirst t.tok) with
    | some c =>
      if hyphenNext ts then
        match ts.tail with
        | [] => .error .eof
        | v :: vs =>
          match ccNotFirst v.tok with
          | some d =>
            if d ≤ c then .error (.report .reversedChars t.first v.last)
            else .ok (chars c (d + 1), 1, vs)
          | none =>
            match charclass env o n v vs with
            | .error e => .error e
            | .ok (x, k, ws) =>
              .ok ({ x with cps := RangeSet.insert (RangeSet.insert x.cps c (c + 1)) 45 46 }, k, ws)
      else .ok (chars c (c + 1), 1, ts)
    | none =>
      match byteTok t.tok with
      | some b =>
        if hyphenNext ts then
          match ts.tail with
          | [] => .error .eof
          | v :: vs =>
            match byteTok v.tok with
            | some d =>
              if d ≤ b then .error (.report .reversedBytes t.first v.last)
              else match Encoders.setRange 0 b (d + 1) with
                | some s => .ok (byteSet s, 1, vs)
                | none => .error .ub
            | none =>
              match charclass env o n v vs with
              | .error e => .error e
              | .ok (x, k, ws) =>
                .ok ({ x with cps := RangeSet.insert x.cps 45 46, brk := Encoders.setByte x.brk b }, k, ws)
        else .ok (byteSet (Encoders.setByte 0 b), 1, ts)
      | none =>
        if t.tok = .sym 45 then .ok (chars 45 46, 1, ts) else charclass env o n t ts

/-- The rest of `cc_expr_pos` or `cc_expr_neg` and the closing bracket, re_grammar.ypp
520–590, 641–660, 814–838, 898–922.  `t` is the opening bracket, `c` the class so far and
`k` the nodes so far. -/
def ccItems (env : Env) (o : Opts) :
    Nat → LTok → Bool → Cls → Nat → List LTok → Res (Cls × Nat × List LTok)
  | 0, _, _, _, _, _ => .error .fuel
  | _ + 1, t, _, _, _, [] => .error (unclosed .unmatchedBracket t .eof)
  | n + 1, t, neg, c, k, u :: us =>
    if u.tok = .sym 93 then
      match (if neg then closeNeg env o t.first u.last c else closePos env o t.first u.last c) with
      | .ok c' => .ok (c', k, us)
      | .error e => .error e
    else
      match setOp u.tok with
      | some op =>
        match us with
        | [] => .error (unclosed .unmatchedBracket t .eof)
        | v :: vs =>
          if v.tok = .sym 93 ∨ v.tok = u.tok then .error (.report .missingOperand u.first u.last)
          else match ccAtom env o n false (v :: vs) with
            | .error e => .error (unclosed .unmatchedBracket t e)
            | .ok (d, j, ws) =>
              match Cls.combine op c d with
              | some c' => ccItems env o n t neg c' (k + j) ws
              | none => .error .ub
      | none =>
        match ccAtom env o n false (u :: us) with
        | .error e => .error (unclosed .unmatchedBracket t e)
        | .ok (d, j, ws) =>
          match Cls.combine .union c d with
          | some c' => ccItems env o n t neg c' (k + j) ws
          | none => .error .ub

end

/-! ## Atoms -/

/-- `character`, re_grammar.ypp 475–518. -/
def character : Tok → Option Nat
  | .char c => some c
  | .digit c => some c
  | .sym c =>
    if (c : Int) ∈ [97, 105, 93, 45, 123, 125, 44, 60, 61, 33] then some c else none
  | _ => none

/-- The action for a character outside a class, re_grammar.ypp 430–446. -/
def literal (env : Env) (o : Opts) (c : Nat) : Res Node :=
  if o.cased then .ok (.lit c)
  else match env.fold o.ascii (RangeSet.insert [] c (c + 1)) with
    | some (s, true) => .ok (.cls s 0 true)
    | some (_, false) => .ok (.lit c)
    | none => .error .ub

/-- `[0-9A-Z_a-z]`, re_grammar.ypp 341–345. -/
def wordSet : RangeSet.Vec := ParseUtil.build [(48, 58), (65, 91), (95, 96), (97, 123)]

/-- The line breaks, re_grammar.ypp 402–406. -/
def lineBreaks : RangeSet.Vec := ParseUtil.build [(10, 14), (0x85, 0x86), (0x2028, 0x2029), (0x2029, 0x202A)]

/-- A class without breakout bytes as a tree. -/
def setTree (s : RangeSet.Vec) : Tree Node := .leaf (.cls s 0 true)

/-- Two literals in a row, re_grammar.ypp 451–471. -/
def twice (c : Nat) : Tree Node := .cat (.leaf (.lit c)) (.leaf (.lit c))

/-- `\b`, re_grammar.ypp 336–362. -/
def wordBoundary (w W : RangeSet.Vec) : Tree Node :=
  .alt (.cat (.look 1 (setTree w)) (.look 3 (setTree W))) (.cat (.look 1 (setTree W)) (.look 3 (setTree w)))

/-- `\B`, re_grammar.ypp 363–389. -/
def notWordBoundary (w W : RangeSet.Vec) : Tree Node :=
  .alt (.cat (.look 1 (setTree w)) (.look 3 (setTree w))) (.cat (.look 1 (setTree W)) (.look 3 (setTree W)))

/-- The atoms that are one token other than a class, re_grammar.ypp 336–471: the tree and
the number of nodes added; `none` if the token is not such an atom. -/
def simpleAtom (env : Env) (o : Opts) : Tok → Option (Res (Tree Node × Nat))
  | .word => some (do let W ← orUb (RangeSet.flip 0x110000 wordSet); .ok (wordBoundary wordSet W, 11))
  | .notWord => some (do let W ← orUb (RangeSet.flip 0x110000 wordSet); .ok (notWordBoundary wordSet W, 11))
  | .textStart => some (.ok (.look 1 (.leaf .dot), 2))
  | .textEnd => some (.ok (.look 3 (.leaf .dot), 2))
  | .sym 94 => some (.ok (.look 1 (setTree lineBreaks), 2))
  | .sym 36 => some (.ok (.look 3 (setTree lineBreaks), 2))
  | .byte b => some (.ok (.leaf (.byte (UInt8.ofNat b)), 1))
  | .sym 46 => some (.ok (.leaf .dot, 1))
  | .hyphens => some (.ok (twice 45, 3))
  | .amps => some (.ok (twice 38, 3))
  | .tildes => some (.ok (twice 126, 3))
  | t =>
    match character t with
    | some c => some (do let a ← literal env o c; .ok (.leaf a, 1))
    | none => none

/-- Whether a token starts a class. -/
def startsClass : Tok → Bool
  | .set _ => true
  | .sym 91 => true
  | _ => false

/-! ## Repetition -/

/-- The token `DIGIT`. -/
def digitTok : Tok → Option Nat
  | .digit d => some (d - 48)
  | _ => none

/-- `number`, re_grammar.ypp 292–302, after its first digit.  `Val` is an `int`; its overflow
is undefined behaviour. -/
def number (v : Nat) : List LTok → Res (Nat × List LTok)
  | [] => .ok (v, [])
  | t :: ts =>
    match digitTok t.tok with
    | some d => if v * 10 + d < 2 ^ 31 then number (v * 10 + d) ts else .error .ub
    | none => .ok (v, t :: ts)

/-- `number`. -/
def readNumber : List LTok → Res (Nat × List LTok)
  | [] => .error .eof
  | t :: ts =>
    match digitTok t.tok with
    | some d => number d ts
    | none => .error (unexpected (t :: ts))

/-- The optional `?` of a repetition. -/
def nongreedy : List LTok → Bool × List LTok
  | [] => (false, [])
  | t :: ts => if t.tok = .sym 63 then (true, ts) else (false, t :: ts)

/-- What follows the `{` at `f` of a counted repetition, re_grammar.ypp 228–252, 265–289. -/
def counted (f : Nat) (ts : List LTok) : Res (Option (Bool × Nat × Nat) × Nat × List LTok) :=
  match readNumber ts with
  | .error e => .error e
  | .ok (_, []) => .error .eof
  | .ok (n, x :: ws) =>
    if x.tok = .sym 125 then .ok (some ((nongreedy ws).1, n, n), 2, (nongreedy ws).2)
    else if x.tok = .sym 44 then
      match ws with
      | [] => .error .eof
      | y :: xs =>
        if y.tok = .sym 125 then .ok (some ((nongreedy xs).1, n, UNB), 2, (nongreedy xs).2)
        else match readNumber ws with
          | .error e => .error e
          | .ok (_, []) => .error .eof
          | .ok (m, z :: zs) =>
            if z.tok = .sym 125 then
              if n > m then
                .error (.report .reversedRepetition f
                  (if (nongreedy zs).1 then (zs.head?.map (·.last)).getD z.last else z.last))
              else .ok (some ((nongreedy zs).1, n, m), 3, (nongreedy zs).2)
            else .error (unexpected (z :: zs))
    else .error (unexpected (x :: ws))

/-- What follows an atom, re_grammar.ypp 214–290: nothing, or a repetition with its bounds
and whether it is non-greedy; the number of nodes added; the remaining tokens. -/
def quantifier : List LTok → Res (Option (Bool × Nat × Nat) × Nat × List LTok)
  | [] => .ok (none, 0, [])
  | t :: ts =>
    if t.tok = .sym 42 then .ok (some ((nongreedy ts).1, 0, UNB), 1, (nongreedy ts).2)
    else if t.tok = .sym 43 then .ok (some ((nongreedy ts).1, 1, UNB), 1, (nongreedy ts).2)
    else if t.tok = .sym 63 then .ok (some ((nongreedy ts).1, 0, 1), 1, (nongreedy ts).2)
    else if t.tok = .sym 123 then counted t.first ts
    else .ok (none, 0, t :: ts)

/-- The actions for repetitions, re_grammar.ypp 214–290. -/
def repeated (t : Tree Node) : Option (Bool × Nat × Nat) → Tree Node
  | none => t
  | some (ng, lo, hi) => .rep ng lo hi t

/-! ## Switches, concatenation and alternation -/

/-- `switches_on`, `switches_off` and the closing parenthesis, re_grammar.ypp 176–212.  `on`
tells which of the two is being read and `seen` whether it has a switch already. -/
def switches (on seen : Bool) (o : Opts) : List LTok → Res (Opts × List LTok)
  | [] => .error .eof
  | t :: ts =>
    if t.tok = .sym 97 then switches on true { o with ascii := on } ts
    else if t.tok = .sym 105 then switches on true { o with cased := !on } ts
    else if t.tok = .sym 45 ∧ on = true then switches false false o ts
    else if t.tok = .sym 41 ∧ seen = true then .ok (o, ts)
    else .error (unexpected (t :: ts))

/-- `alt '|' concat`, re_grammar.ypp 148–153: the tree and the number of nodes added. -/
def joinAlt (l : Option (Tree Node)) (r : Tree Node) : Tree Node × Nat :=
  match l with
  | none => (r, 0)
  | some l => (.alt l r, 1)

/-- `concat rep`, re_grammar.ypp 160–165. -/
def joinCat (l : Option (Tree Node)) (r : Tree Node) : Tree Node × Nat :=
  match l with
  | none => (r, 0)
  | some l => (.cat l r, 1)

/-- Which lookaround the tokens after `(?` start, re_grammar.ypp 320–335, and the tokens
after it. -/
def lookKind : List LTok → Option (Fin 4 × List LTok)
  | [] => none
  | [t] => if t.tok = .sym 61 then some (2, []) else if t.tok = .sym 33 then some (3, []) else none
  | t :: u :: us =>
    if t.tok = .sym 61 then some (2, u :: us)
    else if t.tok = .sym 33 then some (3, u :: us)
    else if t.tok = .sym 60 ∧ u.tok = .sym 61 then some (0, us)
    else if t.tok = .sym 60 ∧ u.tok = .sym 33 then some (1, us)
    else none

/-- The error when the tokens after `(?` start neither a lookaround nor, where they may,
switches. -/
def badGroup : List LTok → Err
  | [] => .eof
  | t :: ts => if t.tok = .sym 60 then unexpected ts else unexpected (t :: ts)

/-- Whether the tokens after `(?` start switches. -/
def startsSwitch : List LTok → Bool
  | [] => false
  | t :: _ => t.tok = .sym 97 || t.tok = .sym 105 || t.tok = .sym 45

/-- Whether the next token is `?`. -/
def queryNext : List LTok → Bool
  | [] => false
  | t :: _ => t.tok = .sym 63

/-- No further element: the concatenation must not be empty. -/
def finish (l c : Option (Tree Node)) (ts : List LTok) (o : Opts) (k : Nat) :
    Res (Tree Node × Opts × Nat × List LTok) :=
  match c with
  | none => .error (unexpected ts)
  | some c => .ok ((joinAlt l c).1, o, k + (joinAlt l c).2, ts)

mutual

/-- `alt` and `concat`, re_grammar.ypp 148–174, up to a token that cannot continue them.
`l` is the alternation so far (`alt '|'` has been read), `c` the concatenation so far, `sw`
whether a switch may come although `c` is missing, `k` the number of nodes so far. -/
def body (env : Env) : Nat → Opts → Option (Tree Node) → Option (Tree Node) → Bool → Nat →
    List LTok → Res (Tree Node × Opts × Nat × List LTok)
  | 0, _, _, _, _, _, _ => .error .fuel
  | _ + 1, o, l, c, _, k, [] => finish l c [] o k
  | n + 1, o, l, c, sw, k, u :: us =>
    if u.tok = .sym 124 then
      match c with
      | none => .error (unexpected (u :: us))
      | some c => body env n o (some (joinAlt l c).1) none false (k + (joinAlt l c).2) us
    else if u.tok = .kill then
      match c with
      | none => .error (unexpected (u :: us))
      | some c => body env n o l (some (.look 0 c)) false (k + 1) us
    else if u.tok = .sym 40 then
      if queryNext us then
        match lookKind us.tail with
        | some (kind, vs) =>
          match body env n o none none true 0 vs with
          | .error x => .error (unclosed .unmatchedParen u x)
          | .ok (_, _, _, []) => .error (unclosed .unmatchedParen u .eof)
          | .ok (t, o', j, w :: ws) =>
            if w.tok = .sym 41 then afterAtom env n o' l c (k + (j + 1)) (.look kind t) ws
            else .error (unclosed .unmatchedParen u (unexpected (w :: ws)))
        | none =>
          if (sw || c.isSome) && startsSwitch us.tail then
            match switches true false o us.tail with
            | .error x => .error (unclosed .unmatchedParen u x)
            | .ok (o', vs) => body env n o' l c sw k vs
          else .error (unclosed .unmatchedParen u (badGroup us.tail))
      else
        match body env n o none none true 0 us with
        | .error x => .error (unclosed .unmatchedParen u x)
        | .ok (_, _, _, []) => .error (unclosed .unmatchedParen u .eof)
        | .ok (t, _, j, w :: ws) =>
          if w.tok = .sym 41 then afterAtom env n o l c (k + j) t ws
          else .error (unclosed .unmatchedParen u (unexpected (w :: ws)))
    else if startsClass u.tok then
      match charclass env o n u us with
      | .error x => .error x
      | .ok (x, j, vs) => afterAtom env n o l c (k + j) (.leaf (.cls x.cps x.brk x.additive)) vs
    else
      match simpleAtom env o u.tok with
      | some (.error x) => .error x
      | some (.ok (t, j)) => afterAtom env n o l c (k + j) t us
      | none => finish l c (u :: us) o k

/-- `rep` once its atom `t` has been read, and `concat rep`, re_grammar.ypp 160–165,
214–290. -/
def afterAtom (env : Env) : Nat → Opts → Option (Tree Node) → Option (Tree Node) → Nat → Tree Node →
    List LTok → Res (Tree Node × Opts × Nat × List LTok)
  | 0, _, _, _, _, _, _ => .error .fuel
  | n + 1, o, l, c, k, t, ts =>
    match quantifier ts with
    | .error x => .error x
    | .ok (q, j, us) =>
      body env n o l (some (joinCat c (repeated t q)).1) false
        (k + (j + (joinCat c (repeated t q)).2)) us

end

/-! ## Parsing -/

/-- A bound on the depth of recursion that `enough_fuel` shows to suffice. -/
def fuelFor (ts : List LTok) : Nat := 4 * ts.length + 4

/-- `regexp` and the end of the text, re_grammar.ypp 141–146, and `yyparse`: the tree below
the root and the number of nodes.  At the very start `yylloc` is `{1, 1, 1, 1}` (Bison
initializes it so when `YYLTYPE_IS_TRIVIAL`, re_grammar.ypp 87), so that for an empty text
`yyerror` sees the columns 0 and 1. -/
def parseTokens (env : Env) (o : Opts) (ts : List LTok) : Res (Tree Node × Nat) :=
  match body env (fuelFor ts) o none none true 0 ts with
  | .ok (t, _, k, []) => .ok (t, k + 1)
  | .ok (_, _, _, us) => .error (unexpected us)
  | .error .eof => if ts = [] then .error (.report .nonatomicRepetition 0 1) else .error .unparsed
  | .error e => .error e

/-- The options of a pattern, pattern.h. -/
structure PatternOpts where
  fixed : Bool
  caseless : Bool
  unicode : Bool

/-- `parse`, re_grammar.ypp 1501–1527, on the decoded text. -/
def parse (env : Env) (p : PatternOpts) (text : List Int) : Res (Tree Node × Nat) :=
  parseTokens env ⟨!p.caseless, !p.unicode⟩ (lex env p.fixed text.length text.length text)

end Verif.Parser
