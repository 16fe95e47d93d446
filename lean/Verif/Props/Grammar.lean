import Verif.Parser
/-!
# The parser accepts exactly the grammar (C58)

`CC` and `Re` are the productions of src/lib/re_grammar.ypp with their semantic actions.
Both of Bison's conflicts, and the precedence of `-` in a class, are resolved by shifting;
the flags `bare` and `isOpen` say so: a `{` directly after a bare atom belongs to a counted
repetition, and a `-` directly after a single character or byte in a class to a range.
-/
namespace Verif.Parser

open Verif.Regex (Tree UNB)
open Verif.Encoders (Node)

/-! ## The grammar -/

/-- Nonterminals of character classes: `charclass`; `cc_expr_neg` or `cc_expr_pos`; `cc_atom`
or what `cc_expr_pos` may start with. -/
inductive CNT where
  | charclass
  | expr (neg isOpen : Bool)
  | atom (first isOpen : Bool)

/-- The characters of a class that can stand first, or elsewhere. -/
def ccOf (first : Bool) (t : Tok) : Option Nat := if first then ccFirst t else ccNotFirst t

/-- Whether the tokens start with the token `-`, `{`, …. -/
def StartsWith (t : Tok) (ts : List LTok) : Prop := ∃ u us, ts = u :: us ∧ u.tok = t

/-- The productions of character classes, re_grammar.ypp 520–540, 811–1089: with the options
`o` the tokens are the nonterminal, make the class and add that many nodes. -/
inductive CC (env : Env) (o : Opts) : CNT → List LTok → Cls → Nat → Prop
  | named {t s v} (h : t.tok = .set s) (hv : env.named o.ascii (!o.cased) s = some v) :
      CC env o .charclass [t] ⟨v, 0, true⟩ 1
  | pos {a b p op c c' k} (ha : a.tok = .sym 91) (hb : b.tok = .sym 93)
      (h : CC env o (.expr false op) p c k) (hc : closePos env o 0 0 c = .ok c') :
      CC env o .charclass (a :: (p ++ [b])) c' k
  | neg {a x b p op c c' k} (ha : a.tok = .sym 91) (hx : x.tok = .sym 94) (hb : b.tok = .sym 93)
      (h : CC env o (.expr true op) p c k) (hc : closeNeg env o 0 0 c = .ok c') :
      CC env o .charclass (a :: x :: (p ++ [b])) c' k
  | start {neg op p c k} (h : CC env o (.atom (!neg) op) p c k) : CC env o (.expr neg op) p c k
  | union {neg op op' p q a b c j k} (h : CC env o (.expr neg op) p a j)
      (h' : CC env o (.atom false op') q b k) (hop : op = true → ¬ StartsWith (.sym 45) q)
      (hc : Cls.combine .union a b = some c) : CC env o (.expr neg op') (p ++ q) c (j + k)
  | binary {neg op op' p x s q a b c j k} (h : CC env o (.expr neg op) p a j)
      (hx : setOp x.tok = some s) (h' : CC env o (.atom false op') q b k)
      (hc : Cls.combine s a b = some c) : CC env o (.expr neg op') (p ++ x :: q) c (j + k)
  | range {first x y z a b} (hx : ccOf first x.tok = some a) (hy : y.tok = .sym 45)
      (hz : ccNotFirst z.tok = some b) (hab : a < b) :
      CC env o (.atom first false) [x, y, z] (chars a (b + 1)) 1
  | charThenClass {first x y p a c k} (hx : ccOf first x.tok = some a) (hy : y.tok = .sym 45)
      (h : CC env o .charclass p c k) :
      CC env o (.atom first false) (x :: y :: p)
        { c with cps := RangeSet.insert (RangeSet.insert c.cps a (a + 1)) 45 46 } k
  | byteRange {first x y z a b s} (hx : x.tok = .byte a) (hy : y.tok = .sym 45)
      (hz : z.tok = .byte b) (hab : a < b) (hs : Encoders.setRange 0 a (b + 1) = some s) :
      CC env o (.atom first false) [x, y, z] (byteSet s) 1
  | byteThenClass {first x y p a c k} (hx : x.tok = .byte a) (hy : y.tok = .sym 45)
      (h : CC env o .charclass p c k) :
      CC env o (.atom first false) (x :: y :: p)
        { c with cps := RangeSet.insert c.cps 45 46, brk := Encoders.setByte c.brk a } k
  | nested {first p c k} (h : CC env o .charclass p c k) : CC env o (.atom first false) p c k
  | char {first x a} (hx : ccOf first x.tok = some a) :
      CC env o (.atom first true) [x] (chars a (a + 1)) 1
  | hyphen {x} (hx : x.tok = .sym 45) : CC env o (.atom false false) [x] (chars 45 46) 1
  | byte {first x a} (hx : x.tok = .byte a) :
      CC env o (.atom first true) [x] (byteSet (Encoders.setByte 0 a)) 1

/-- `number`, re_grammar.ypp 292–302.  A number that does not fit into an `int` is undefined
behaviour and no number. -/
inductive Number : List LTok → Nat → Prop
  | one {x d} (hx : digitTok x.tok = some d) : Number [x] d
  | more {p v x d} (h : Number p v) (hx : digitTok x.tok = some d) (hv : v * 10 + d < 2 ^ 31) :
      Number (p ++ [x]) (v * 10 + d)

/-- The optional `?`. -/
inductive Lazy : List LTok → Bool → Prop
  | no : Lazy [] false
  | yes {x} (hx : x.tok = .sym 63) : Lazy [x] true

/-- What can follow the atom of a repetition, re_grammar.ypp 214–290: the bounds, and the
nodes added. -/
inductive Quant : List LTok → Bool → Nat → Nat → Nat → Prop
  | star {x q ng} (hx : x.tok = .sym 42) (h : Lazy q ng) : Quant (x :: q) ng 0 UNB 1
  | plus {x q ng} (hx : x.tok = .sym 43) (h : Lazy q ng) : Quant (x :: q) ng 1 UNB 1
  | opt {x q ng} (hx : x.tok = .sym 63) (h : Lazy q ng) : Quant (x :: q) ng 0 1 1
  | exact {x y p n q ng} (hx : x.tok = .sym 123) (hp : Number p n) (hy : y.tok = .sym 125)
      (h : Lazy q ng) : Quant (x :: (p ++ y :: q)) ng n n 2
  | atLeast {x y z p n q ng} (hx : x.tok = .sym 123) (hp : Number p n) (hy : y.tok = .sym 44)
      (hz : z.tok = .sym 125) (h : Lazy q ng) : Quant (x :: (p ++ y :: z :: q)) ng n UNB 2
  | between {x y z p n r m q ng} (hx : x.tok = .sym 123) (hp : Number p n) (hy : y.tok = .sym 44)
      (hr : Number r m) (hz : z.tok = .sym 125) (hnm : n ≤ m) (h : Lazy q ng) :
      Quant (x :: (p ++ y :: (r ++ z :: q))) ng n m 3

/-- `switches_on` or `switches_off`, re_grammar.ypp 182–212. -/
inductive Flags (on : Bool) : Opts → List LTok → Opts → Prop
  | ascii {o x} (hx : x.tok = .sym 97) : Flags on o [x] { o with ascii := on }
  | caseless {o x} (hx : x.tok = .sym 105) : Flags on o [x] { o with cased := !on }
  | more {o p o' q o''} (h : Flags on o p o') (h' : Flags on o' q o'') : Flags on o (p ++ q) o''

/-- `switch`, re_grammar.ypp 176–180. -/
inductive Switch : Opts → List LTok → Opts → Prop
  | on {a b c o p o'} (ha : a.tok = .sym 40) (hb : b.tok = .sym 63) (h : Flags true o p o')
      (hc : c.tok = .sym 41) : Switch o (a :: b :: (p ++ [c])) o'
  | off {a b c d o p o'} (ha : a.tok = .sym 40) (hb : b.tok = .sym 63) (hd : d.tok = .sym 45)
      (h : Flags false o p o') (hc : c.tok = .sym 41) : Switch o (a :: b :: d :: (p ++ [c])) o'
  | both {a b c d o p o' q o''} (ha : a.tok = .sym 40) (hb : b.tok = .sym 63)
      (h : Flags true o p o') (hd : d.tok = .sym 45) (h' : Flags false o' q o'')
      (hc : c.tok = .sym 41) : Switch o (a :: b :: (p ++ d :: (q ++ [c]))) o''

/-- Nonterminals outside classes.  `bare` says that the last thing read is an atom without
repetition. -/
inductive NT where
  | alt (bare : Bool)
  | concat (bare : Bool)
  | rep (bare : Bool)
  | atom

/-- The productions outside classes, re_grammar.ypp 141–473: starting with the options `o` the
tokens are the nonterminal, make the tree, leave the options `o'` and add that many nodes. -/
inductive Re (env : Env) : NT → Opts → List LTok → Tree Node → Opts → Nat → Prop
  | concat {b o p t o' k} (h : Re env (.concat b) o p t o' k) : Re env (.alt b) o p t o' k
  | alt {b b' o p l o' j x q r o'' k} (h : Re env (.alt b) o p l o' j) (hx : x.tok = .sym 124)
      (h' : Re env (.concat b') o' q r o'' k) :
      Re env (.alt b') o (p ++ x :: q) (.alt l r) o'' (j + k + 1)
  | switchAlt {b o p o' q t o'' k} (h : Switch o p o') (h' : Re env (.alt b) o' q t o'' k) :
      Re env (.alt b) o (p ++ q) t o'' k
  | rep {b o p t o' k} (h : Re env (.rep b) o p t o' k) : Re env (.concat b) o p t o' k
  | cat {b b' o p l o' j q r o'' k} (h : Re env (.concat b) o p l o' j)
      (h' : Re env (.rep b') o' q r o'' k) (hb : b = true → ¬ StartsWith (.sym 123) q) :
      Re env (.concat b') o (p ++ q) (.cat l r) o'' (j + k + 1)
  | kill {b o p t o' k x} (h : Re env (.concat b) o p t o' k) (hx : x.tok = .kill) :
      Re env (.concat false) o (p ++ [x]) (.look 0 t) o' (k + 1)
  | catSwitch {b o p t o' k q o''} (h : Re env (.concat b) o p t o' k) (h' : Switch o' q o'') :
      Re env (.concat false) o (p ++ q) t o'' k
  | atom {o p t o' k} (h : Re env .atom o p t o' k) : Re env (.rep true) o p t o' k
  | quant {o p t o' k q ng lo hi j} (h : Re env .atom o p t o' k) (h' : Quant q ng lo hi j) :
      Re env (.rep false) o (p ++ q) (.rep ng lo hi t) o' (k + j)
  | group {b a c o p t o' k} (ha : a.tok = .sym 40) (h : Re env (.alt b) o p t o' k)
      (hc : c.tok = .sym 41) : Re env .atom o (a :: (p ++ [c])) t o k
  | behindPos {b a x y z c o p t o' k} (ha : a.tok = .sym 40) (hx : x.tok = .sym 63)
      (hy : y.tok = .sym 60) (hz : z.tok = .sym 61) (h : Re env (.alt b) o p t o' k)
      (hc : c.tok = .sym 41) : Re env .atom o (a :: x :: y :: z :: (p ++ [c])) (.look 0 t) o' (k + 1)
  | behindNeg {b a x y z c o p t o' k} (ha : a.tok = .sym 40) (hx : x.tok = .sym 63)
      (hy : y.tok = .sym 60) (hz : z.tok = .sym 33) (h : Re env (.alt b) o p t o' k)
      (hc : c.tok = .sym 41) : Re env .atom o (a :: x :: y :: z :: (p ++ [c])) (.look 1 t) o' (k + 1)
  | aheadPos {b a x y c o p t o' k} (ha : a.tok = .sym 40) (hx : x.tok = .sym 63)
      (hy : y.tok = .sym 61) (h : Re env (.alt b) o p t o' k)
      (hc : c.tok = .sym 41) : Re env .atom o (a :: x :: y :: (p ++ [c])) (.look 2 t) o' (k + 1)
  | aheadNeg {b a x y c o p t o' k} (ha : a.tok = .sym 40) (hx : x.tok = .sym 63)
      (hy : y.tok = .sym 33) (h : Re env (.alt b) o p t o' k)
      (hc : c.tok = .sym 41) : Re env .atom o (a :: x :: y :: (p ++ [c])) (.look 3 t) o' (k + 1)
  | simple {x o t k} (h : simpleAtom env o x.tok = some (.ok (t, k))) : Re env .atom o [x] t o k
  | cls {o p c k} (h : CC env o .charclass p c k) :
      Re env .atom o p (.leaf (.cls c.cps c.brk c.additive)) o k

/-! ## Positions do not matter to the actions -/

theorem closePos_pos {env o b e c c'} : closePos env o b e c = .ok c' ↔ closePos env o 0 0 c = .ok c' := by
  unfold closePos
  cases foldCls env o c with
  | error x => simp [bind, Except.bind]
  | ok x => simp only [bind, Except.bind]; split <;> simp

theorem closeNeg_pos {env o b e c c'} : closeNeg env o b e c = .ok c' ↔ closeNeg env o 0 0 c = .ok c' := by
  unfold closeNeg
  split
  · cases foldCls env o c with
    | error x => simp [bind, Except.bind]
    | ok x =>
      simp only [bind, Except.bind]
      cases orUb (RangeSet.flip 0x110000 x.cps) with
      | error x => simp
      | ok x => simp only; split <;> simp
  · split
    · split <;> simp
    · rfl

/-! ## Every parse is a derivation -/

theorem number_sound : ∀ (ts : List LTok) (v w : Nat) (rest : List LTok) (p : List LTok),
    Number p v → number v ts = .ok (w, rest) →
    ∃ q, ts = q ++ rest ∧ Number (p ++ q) w
  | [], v, w, rest, p, hp, h => by
    simp only [number, Except.ok.injEq, Prod.mk.injEq] at h
    obtain ⟨rfl, rfl⟩ := h
    exact ⟨[], rfl, by simpa using hp⟩
  | t :: ts, v, w, rest, p, hp, h => by
    rw [number] at h
    cases hd : digitTok t.tok with
    | none =>
      rw [hd] at h
      simp only [Except.ok.injEq, Prod.mk.injEq] at h
      obtain ⟨rfl, rfl⟩ := h
      exact ⟨[], rfl, by simpa using hp⟩
    | some d =>
      rw [hd] at h
      simp only at h
      by_cases hv : v * 10 + d < 2 ^ 31
      · rw [if_pos hv] at h
        obtain ⟨q, hq, hn⟩ := number_sound ts _ w rest (p ++ [t]) (.more hp hd hv) h
        exact ⟨t :: q, by rw [hq]; rfl, by simpa using hn⟩
      · rw [if_neg hv] at h; cases h

theorem readNumber_sound {ts w rest} (h : readNumber ts = .ok (w, rest)) :
    ∃ q, ts = q ++ rest ∧ Number q w := by
  cases ts with
  | nil => cases h
  | cons t ts =>
    rw [readNumber] at h
    cases hd : digitTok t.tok with
    | none => rw [hd] at h; cases h
    | some d =>
      rw [hd] at h
      obtain ⟨q, hq, hn⟩ := number_sound ts d w rest [t] (.one hd) h
      exact ⟨t :: q, by rw [hq]; rfl, hn⟩

/-- The optional `?` was read. -/
theorem nongreedy_sound (ts : List LTok) :
    ∃ q, ts = q ++ (nongreedy ts).2 ∧ Lazy q (nongreedy ts).1 ∧
      ((nongreedy ts).1 = false → ¬ StartsWith (.sym 63) ts) := by
  cases ts with
  | nil => exact ⟨[], rfl, .no, fun _ ⟨_, _, h, _⟩ => by cases h⟩
  | cons t ts =>
    rw [nongreedy]
    by_cases ht : t.tok = .sym 63
    · rw [if_pos ht]; exact ⟨[t], rfl, .yes ht, fun h => by cases h⟩
    · rw [if_neg ht]
      exact ⟨[], rfl, .no, fun _ ⟨_, _, h, h'⟩ => by cases h; exact ht h'⟩

theorem counted_sound {x : LTok} (hx : x.tok = .sym 123) {f ts q j rest}
    (h : counted f ts = .ok (q, j, rest)) :
    ∃ p ng lo hi, q = some (ng, lo, hi) ∧ ts = p ++ rest ∧ Quant (x :: p) ng lo hi j := by
  unfold counted at h
  cases hn : readNumber ts with
  | error e => rw [hn] at h; cases h
  | ok r =>
    obtain ⟨n, vs⟩ := r
    rw [hn] at h
    obtain ⟨p, rfl, hp⟩ := readNumber_sound hn
    cases vs with
    | nil => cases h
    | cons y ws =>
      simp only at h
      by_cases hy : y.tok = .sym 125
      · rw [if_pos hy] at h
        simp only [Except.ok.injEq, Prod.mk.injEq] at h
        obtain ⟨rfl, rfl, rfl⟩ := h
        obtain ⟨z, hz, hl, -⟩ := nongreedy_sound ws
        exact ⟨p ++ y :: z, _, _, _, rfl, by rw [List.append_assoc, List.cons_append, ← hz], .exact hx hp hy hl⟩
      · rw [if_neg hy] at h
        by_cases hc : y.tok = .sym 44
        · rw [if_pos hc] at h
          cases ws with
          | nil => cases h
          | cons z xs =>
            simp only at h
            by_cases hz : z.tok = .sym 125
            · rw [if_pos hz] at h
              simp only [Except.ok.injEq, Prod.mk.injEq] at h
              obtain ⟨rfl, rfl, rfl⟩ := h
              obtain ⟨g, hg, hl, -⟩ := nongreedy_sound xs
              exact ⟨p ++ y :: z :: g, _, _, _, rfl, by simp [← hg], .atLeast hx hp hc hz hl⟩
            · rw [if_neg hz] at h
              cases hm : readNumber (z :: xs) with
              | error e => rw [hm] at h; cases h
              | ok r =>
                obtain ⟨m, vs⟩ := r
                rw [hm] at h
                obtain ⟨p', hp', hm'⟩ := readNumber_sound hm
                rw [hp']
                cases vs with
                | nil => cases h
                | cons w zs =>
                  simp only at h
                  by_cases hw : w.tok = .sym 125
                  · rw [if_pos hw] at h
                    by_cases hnm : n > m
                    · rw [if_pos hnm] at h; cases h
                    · rw [if_neg hnm] at h
                      simp only [Except.ok.injEq, Prod.mk.injEq] at h
                      obtain ⟨rfl, rfl, rfl⟩ := h
                      obtain ⟨g, hg, hl, -⟩ := nongreedy_sound zs
                      exact ⟨p ++ y :: (p' ++ w :: g), _, _, _, rfl, by simp [← hg],
                        .between hx hp hc hm' hw (by omega) hl⟩
                  · rw [if_neg hw] at h; cases h
        · rw [if_neg hc] at h; cases h

theorem quantifier_sound {ts q j rest} (h : quantifier ts = .ok (q, j, rest)) :
    (q = none ∧ j = 0 ∧ ts = rest ∧ ¬ StartsWith (.sym 123) ts) ∨
    ∃ p ng lo hi, q = some (ng, lo, hi) ∧ ts = p ++ rest ∧ Quant p ng lo hi j := by
  cases ts with
  | nil =>
    simp only [quantifier, Except.ok.injEq, Prod.mk.injEq] at h
    obtain ⟨rfl, rfl, rfl⟩ := h
    exact .inl ⟨rfl, rfl, rfl, fun ⟨_, _, h, _⟩ => by cases h⟩
  | cons t ts =>
    rw [quantifier] at h
    by_cases h1 : t.tok = .sym 42
    · rw [if_pos h1] at h
      simp only [Except.ok.injEq, Prod.mk.injEq] at h
      obtain ⟨rfl, rfl, rfl⟩ := h
      obtain ⟨g, hg, hl, -⟩ := nongreedy_sound ts
      exact .inr ⟨t :: g, _, _, _, rfl, by simp [← hg], .star h1 hl⟩
    rw [if_neg h1] at h
    by_cases h2 : t.tok = .sym 43
    · rw [if_pos h2] at h
      simp only [Except.ok.injEq, Prod.mk.injEq] at h
      obtain ⟨rfl, rfl, rfl⟩ := h
      obtain ⟨g, hg, hl, -⟩ := nongreedy_sound ts
      exact .inr ⟨t :: g, _, _, _, rfl, by simp [← hg], .plus h2 hl⟩
    rw [if_neg h2] at h
    by_cases h3 : t.tok = .sym 63
    · rw [if_pos h3] at h
      simp only [Except.ok.injEq, Prod.mk.injEq] at h
      obtain ⟨rfl, rfl, rfl⟩ := h
      obtain ⟨g, hg, hl, -⟩ := nongreedy_sound ts
      exact .inr ⟨t :: g, _, _, _, rfl, by simp [← hg], .opt h3 hl⟩
    rw [if_neg h3] at h
    by_cases h4 : t.tok = .sym 123
    · rw [if_pos h4] at h
      obtain ⟨p, ng, lo, hi, e, rfl, hq⟩ := counted_sound h4 h
      exact .inr ⟨t :: p, ng, lo, hi, e, rfl, hq⟩
    · rw [if_neg h4] at h
      simp only [Except.ok.injEq, Prod.mk.injEq] at h
      obtain ⟨rfl, rfl, rfl⟩ := h
      exact .inl ⟨rfl, rfl, rfl, fun ⟨_, _, h, h'⟩ => by cases h; exact h4 h'⟩

theorem switches_off_sound : ∀ (ts : List LTok) (seen : Bool) (o o' : Opts) (rest : List LTok),
    switches false seen o ts = .ok (o', rest) → ∀ (o0 : Opts) (p : List LTok),
    (seen = true → Flags false o0 p o) → (seen = false → p = [] ∧ o0 = o) →
    ∃ q c, ts = q ++ c :: rest ∧ c.tok = .sym 41 ∧ Flags false o0 (p ++ q) o'
  | [], _, _, _, _, h, _, _, _, _ => by cases h
  | t :: ts, seen, o, o', rest, h, o0, p, hs, hn => by
    rw [switches] at h
    have next : ∀ o1, Flags false o [t] o1 → Flags false o0 (p ++ [t]) o1 := by
      intro o1 h1
      cases seen with
      | true => exact .more (hs rfl) h1
      | false => obtain ⟨rfl, rfl⟩ := hn rfl; exact h1
    by_cases h1 : t.tok = .sym 97
    · rw [if_pos h1] at h
      obtain ⟨q, c, e, hc, hf⟩ := switches_off_sound ts true _ o' rest h o0 (p ++ [t])
        (fun _ => next _ (.ascii h1)) (fun h => by cases h)
      exact ⟨t :: q, c, by rw [e]; rfl, hc, by simpa using hf⟩
    rw [if_neg h1] at h
    by_cases h2 : t.tok = .sym 105
    · rw [if_pos h2] at h
      obtain ⟨q, c, e, hc, hf⟩ := switches_off_sound ts true _ o' rest h o0 (p ++ [t])
        (fun _ => next _ (.caseless h2)) (fun h => by cases h)
      exact ⟨t :: q, c, by rw [e]; rfl, hc, by simpa using hf⟩
    rw [if_neg h2, if_neg (by simp)] at h
    by_cases h3 : t.tok = .sym 41 ∧ seen = true
    · rw [if_pos h3] at h
      simp only [Except.ok.injEq, Prod.mk.injEq] at h
      obtain ⟨rfl, rfl⟩ := h
      exact ⟨[], t, rfl, h3.1, by simpa using hs h3.2⟩
    · rw [if_neg h3] at h; cases h

theorem switches_on_sound : ∀ (ts : List LTok) (seen : Bool) (o o' : Opts) (rest : List LTok),
    switches true seen o ts = .ok (o', rest) → ∀ (o0 : Opts) (p : List LTok),
    (seen = true → Flags true o0 p o) → (seen = false → p = [] ∧ o0 = o) →
    ∃ q c, ts = q ++ c :: rest ∧ c.tok = .sym 41 ∧
      (Flags true o0 (p ++ q) o' ∨
        ∃ q1 d q2 o1, q = q1 ++ d :: q2 ∧ d.tok = .sym 45 ∧ Flags false o1 q2 o' ∧
          (Flags true o0 (p ++ q1) o1 ∨ (p ++ q1 = [] ∧ o1 = o0)))
  | [], _, _, _, _, h, _, _, _, _ => by cases h
  | t :: ts, seen, o, o', rest, h, o0, p, hs, hn => by
    rw [switches] at h
    have next : ∀ o1, Flags true o [t] o1 → Flags true o0 (p ++ [t]) o1 := by
      intro o1 h1
      cases seen with
      | true => exact .more (hs rfl) h1
      | false => obtain ⟨rfl, rfl⟩ := hn rfl; exact h1
    have step : ∀ o1, Flags true o [t] o1 → switches true true o1 ts = .ok (o', rest) →
        ∃ q c, t :: ts = q ++ c :: rest ∧ c.tok = .sym 41 ∧
          (Flags true o0 (p ++ q) o' ∨
            ∃ q1 d q2 o1, q = q1 ++ d :: q2 ∧ d.tok = .sym 45 ∧ Flags false o1 q2 o' ∧
              (Flags true o0 (p ++ q1) o1 ∨ (p ++ q1 = [] ∧ o1 = o0))) := by
      intro o1 h1 h2
      obtain ⟨q, c, e, hc, hf⟩ := switches_on_sound ts true _ o' rest h2 o0 (p ++ [t])
        (fun _ => next _ h1) (fun h => by cases h)
      refine ⟨t :: q, c, by rw [e]; rfl, hc, ?_⟩
      rcases hf with hf | ⟨q1, d, q2, o2, e1, hd, hf, hg⟩
      · exact .inl (by simpa using hf)
      · refine .inr ⟨t :: q1, d, q2, o2, by rw [e1]; rfl, hd, hf, ?_⟩
        rcases hg with hg | ⟨hg, -⟩
        · exact .inl (by simpa using hg)
        · simp at hg
    by_cases h1 : t.tok = .sym 97
    · rw [if_pos h1] at h; exact step _ (.ascii h1) h
    rw [if_neg h1] at h
    by_cases h2 : t.tok = .sym 105
    · rw [if_pos h2] at h; exact step _ (.caseless h2) h
    rw [if_neg h2] at h
    by_cases h4 : t.tok = .sym 45
    · rw [if_pos ⟨h4, rfl⟩] at h
      obtain ⟨q, c, e, hc, hf⟩ := switches_off_sound ts false o o' rest h o []
        (fun h => by cases h) (fun _ => ⟨rfl, rfl⟩)
      refine ⟨t :: q, c, by rw [e]; rfl, hc, .inr ⟨[], t, q, o, rfl, h4, hf, ?_⟩⟩
      cases seen with
      | true => exact .inl (by simpa using hs rfl)
      | false => obtain ⟨rfl, rfl⟩ := hn rfl; exact .inr ⟨rfl, rfl⟩
    rw [if_neg (by simp [h4])] at h
    by_cases h3 : t.tok = .sym 41 ∧ seen = true
    · rw [if_pos h3] at h
      simp only [Except.ok.injEq, Prod.mk.injEq] at h
      obtain ⟨rfl, rfl⟩ := h
      exact ⟨[], t, rfl, h3.1, .inl (by simpa using hs h3.2)⟩
    · rw [if_neg h3] at h; cases h

theorem switches_sound {a b : LTok} (ha : a.tok = .sym 40) (hb : b.tok = .sym 63) {o o' ts rest}
    (h : switches true false o ts = .ok (o', rest)) :
    ∃ p, a :: b :: ts = p ++ rest ∧ Switch o p o' := by
  obtain ⟨q, c, rfl, hc, hf⟩ := switches_on_sound ts false o o' rest h o []
    (fun h => by cases h) (fun _ => ⟨rfl, rfl⟩)
  rcases hf with hf | ⟨q1, d, q2, o1, rfl, hd, hf, hg⟩
  · exact ⟨a :: b :: (q ++ [c]), by simp, .on ha hb hf hc⟩
  · rcases hg with hg | ⟨hg, rfl⟩
    · exact ⟨a :: b :: (q1 ++ d :: (q2 ++ [c])), by simp, .both ha hb hg hd hf hc⟩
    · simp only [List.nil_append] at hg
      subst hg
      exact ⟨a :: b :: d :: (q2 ++ [c]), by simp, .off ha hb hd hf hc⟩

theorem unclosed_error {k t e} {α : Type} {a : α} : (Except.error (unclosed k t e) : Res α) ≠ .ok a := by
  intro h; cases h

theorem byteTok_eq {t b} (h : byteTok t = some b) : t = .byte b := by
  cases t <;> simp_all [byteTok]

theorem hyphenNext_tail {ts} (h : hyphenNext ts = true) : ∃ y, ts = y :: ts.tail ∧ y.tok = .sym 45 := by
  cases ts with
  | nil => cases h
  | cons y ys => exact ⟨y, rfl, by simpa [hyphenNext] using h⟩

theorem not_hyphenNext {ts} (h : ¬ hyphenNext ts = true) : ¬ StartsWith (.sym 45) ts := by
  rintro ⟨u, us, rfl, hu⟩
  exact h (by simp [hyphenNext, hu])

/-- What a class parser delivers is derived from the tokens it has read. -/
theorem cc_sound (env : Env) (o : Opts) : ∀ n : Nat,
    (∀ t ts c k rest, charclass env o n t ts = .ok (c, k, rest) →
      ∃ p, t :: ts = p ++ rest ∧ CC env o .charclass p c k) ∧
    (∀ first ts c k rest, ccAtom env o n first ts = .ok (c, k, rest) →
      ∃ p op, ts = p ++ rest ∧ CC env o (.atom first op) p c k ∧
        (op = true → ¬ StartsWith (.sym 45) rest)) ∧
    (∀ t neg c k ts c' k' rest, ccItems env o n t neg c k ts = .ok (c', k', rest) →
      ∀ p op, CC env o (.expr neg op) p c k → (op = true → ¬ StartsWith (.sym 45) ts) →
      ∃ q b op' c0, ts = q ++ b :: rest ∧ b.tok = .sym 93 ∧ CC env o (.expr neg op') (p ++ q) c0 k' ∧
        (if neg then closeNeg env o 0 0 c0 = .ok c' else closePos env o 0 0 c0 = .ok c')) := by
  intro n
  induction n with
  | zero =>
    refine ⟨fun _ _ _ _ _ h => ?_, fun _ _ _ _ _ h => ?_, fun _ _ _ _ _ _ _ _ h => ?_⟩
    · rw [charclass] at h; cases h
    · rw [ccAtom] at h; cases h
    · rw [ccItems] at h; cases h
  | succ n ih =>
    obtain ⟨ih1, ih2, ih3⟩ := ih
    refine ⟨fun t ts c k rest h => ?_, fun first ts c k rest h => ?_,
      fun t neg c k ts c' k' rest h p op hp hop => ?_⟩
    · rw [charclass.eq_def] at h
      simp only at h
      split at h
      · rename_i s hs
        split at h
        · rename_i v hv
          simp only [Except.ok.injEq, Prod.mk.injEq] at h
          obtain ⟨rfl, rfl, rfl⟩ := h
          exact ⟨[t], rfl, .named hs hv⟩
        · cases h
      · rename_i ht
        split at h
        · cases h
        · rename_i u us
          by_cases hu : u.tok = .sym 94
          · rw [if_pos hu] at h
            split at h
            · cases h
            · rename_i v vs
              split at h
              · cases h
              · split at h
                · cases h
                · rename_i c0 k0 ws h0
                  obtain ⟨p, op, e, hp, hop⟩ := ih2 _ _ _ _ _ h0
                  obtain ⟨q, b, op', c1, rfl, hb, hq, hc⟩ := ih3 _ _ _ _ _ _ _ _ h p op (.start hp) hop
                  refine ⟨t :: u :: (p ++ q ++ [b]), by rw [e]; simp, .neg ht hu hb hq (by simpa using hc)⟩
          · rw [if_neg hu] at h
            split at h
            · cases h
            · split at h
              · cases h
              · rename_i c0 k0 ws h0
                obtain ⟨p, op, e, hp, hop⟩ := ih2 _ _ _ _ _ h0
                obtain ⟨q, b, op', c1, rfl, hb, hq, hc⟩ := ih3 _ _ _ _ _ _ _ _ h p op (.start hp) hop
                refine ⟨t :: (p ++ q ++ [b]), by rw [e]; simp, .pos ht hb hq (by simpa using hc)⟩
      · cases h
    · cases ts with
      | nil => rw [ccAtom] at h; cases h
      | cons t ts =>
        rw [ccAtom.eq_def] at h
        simp only at h
        split at h
        · rename_i a ha
          have ha' : ccOf first t.tok = some a := ha
          by_cases hh : hyphenNext ts = true
          · rw [if_pos hh] at h
            obtain ⟨y, e, hy⟩ := hyphenNext_tail hh
            split at h
            · cases h
            · rename_i v vs hv
              rw [hv] at e
              split at h
              · rename_i d hd
                split at h
                · cases h
                · rename_i hdc
                  simp only [Except.ok.injEq, Prod.mk.injEq] at h
                  obtain ⟨rfl, rfl, rfl⟩ := h
                  exact ⟨[t, y, v], false, by rw [e]; rfl, .range ha' hy hd (by omega), fun h => by cases h⟩
              · split at h
                · cases h
                · rename_i x k' ws hx
                  simp only [Except.ok.injEq, Prod.mk.injEq] at h
                  obtain ⟨rfl, rfl, rfl⟩ := h
                  obtain ⟨p, ep, hp⟩ := ih1 _ _ _ _ _ hx
                  exact ⟨t :: y :: p, false, by rw [e, ep]; rfl, .charThenClass ha' hy hp, fun h => by cases h⟩
          · rw [if_neg hh] at h
            simp only [Except.ok.injEq, Prod.mk.injEq] at h
            obtain ⟨rfl, rfl, rfl⟩ := h
            exact ⟨[t], true, rfl, .char ha', fun _ => not_hyphenNext hh⟩
        · rename_i hnone
          split at h
          · rename_i b hb
            have hb' := byteTok_eq hb
            by_cases hh : hyphenNext ts = true
            · rw [if_pos hh] at h
              obtain ⟨y, e, hy⟩ := hyphenNext_tail hh
              split at h
              · cases h
              · rename_i v vs hv
                rw [hv] at e
                split at h
                · rename_i d hd
                  split at h
                  · cases h
                  · rename_i hdc
                    split at h
                    · rename_i s hs
                      simp only [Except.ok.injEq, Prod.mk.injEq] at h
                      obtain ⟨rfl, rfl, rfl⟩ := h
                      exact ⟨[t, y, v], false, by rw [e]; rfl,
                        .byteRange hb' hy (byteTok_eq hd) (by omega) hs, fun h => by cases h⟩
                    · cases h
                · split at h
                  · cases h
                  · rename_i x k' ws hx
                    simp only [Except.ok.injEq, Prod.mk.injEq] at h
                    obtain ⟨rfl, rfl, rfl⟩ := h
                    obtain ⟨p, ep, hp⟩ := ih1 _ _ _ _ _ hx
                    exact ⟨t :: y :: p, false, by rw [e, ep]; rfl, .byteThenClass hb' hy hp, fun h => by cases h⟩
            · rw [if_neg hh] at h
              simp only [Except.ok.injEq, Prod.mk.injEq] at h
              obtain ⟨rfl, rfl, rfl⟩ := h
              exact ⟨[t], true, rfl, .byte hb', fun _ => not_hyphenNext hh⟩
          · split at h
            · rename_i ht
              simp only [Except.ok.injEq, Prod.mk.injEq] at h
              obtain ⟨rfl, rfl, rfl⟩ := h
              cases first with
              | true => rw [if_pos rfl, ht] at hnone; cases hnone
              | false => exact ⟨[t], false, rfl, .hyphen ht, fun h => by cases h⟩
            · obtain ⟨p, ep, hp⟩ := ih1 _ _ _ _ _ h
              exact ⟨p, false, ep, .nested hp, fun h => by cases h⟩
    · cases ts with
      | nil => rw [ccItems] at h; cases h
      | cons u us =>
        rw [ccItems.eq_def] at h
        simp only at h
        by_cases hu : u.tok = .sym 93
        · rw [if_pos hu] at h
          split at h
          · rename_i c1 hc1
            simp only [Except.ok.injEq, Prod.mk.injEq] at h
            obtain ⟨rfl, rfl, rfl⟩ := h
            refine ⟨[], u, op, c, rfl, hu, by simpa using hp, ?_⟩
            cases neg with
            | true => exact closeNeg_pos.1 hc1
            | false => exact closePos_pos.1 hc1
          · cases h
        · rw [if_neg hu] at h
          split at h
          · rename_i s hs
            split at h
            · cases h
            · rename_i v vs
              split at h
              · cases h
              · split at h
                · cases h
                · rename_i d j ws hd
                  split at h
                  · rename_i c1 hc1
                    obtain ⟨q, op1, e, hq, hop1⟩ := ih2 _ _ _ _ _ hd
                    obtain ⟨q', b, op', c2, rfl, hb, hq', hc⟩ :=
                      ih3 _ _ _ _ _ _ _ _ h (p ++ u :: q) op1 (.binary hp hs hq hc1) hop1
                    exact ⟨u :: (q ++ q'), b, op', c2, by rw [e]; simp, hb, by simpa using hq', hc⟩
                  · cases h
          · split at h
            · cases h
            · rename_i d j ws hd
              split at h
              · rename_i c1 hc1
                obtain ⟨q, op1, e, hq, hop1⟩ := ih2 _ _ _ _ _ hd
                have hop2 : op = true → ¬ StartsWith (.sym 45) q := by
                  rintro ho ⟨x, xs, rfl, hx⟩
                  exact hop ho ⟨x, xs ++ ws, by rw [e]; rfl, hx⟩
                obtain ⟨q', b, op', c2, rfl, hb, hq', hc⟩ :=
                  ih3 _ _ _ _ _ _ _ _ h (p ++ q) op1 (.union hp hq hop2 hc1) hop1
                exact ⟨q ++ q', b, op', c2, by rw [e]; simp, hb, by simpa using hq', hc⟩
              · cases h

/-- A sequence of switches. -/
inductive Switches : Opts → List LTok → Opts → Prop
  | nil {o} : Switches o [] o
  | snoc {o p o' q o''} (h : Switches o p o') (h' : Switch o' q o'') : Switches o (p ++ q) o''

theorem Switches.alt {env b o p o' q t o'' k} (h : Switches o p o') :
    Re env (.alt b) o' q t o'' k → Re env (.alt b) o (p ++ q) t o'' k := by
  induction h generalizing q with
  | nil => intro h; exact h
  | snoc h h' ih => intro hq; rw [List.append_assoc]; exact ih (.switchAlt h' hq)

/-- What `body` has read so far: the alternation up to the last `|`, the concatenation since
then, the options now in force, the nodes added and whether a bare atom came last. -/
inductive Upto (env : Env) (o0 : Opts) :
    List LTok → Option (Tree Node) → Option (Tree Node) → Opts → Nat → Bool → Prop
  | init {p o} (h : Switches o0 p o) : Upto env o0 p none none o 0 false
  | cat {p o q c o' k b} (h : Switches o0 p o) (h' : Re env (.concat b) o q c o' k) :
      Upto env o0 (p ++ q) none (some c) o' k b
  | bar {p b l o k x} (h : Re env (.alt b) o0 p l o k) (hx : x.tok = .sym 124) :
      Upto env o0 (p ++ [x]) (some l) none o k false
  | alt {p b' l o j x q c o' k b} (h : Re env (.alt b') o0 p l o j) (hx : x.tok = .sym 124)
      (h' : Re env (.concat b) o q c o' k) :
      Upto env o0 (p ++ x :: q) (some l) (some c) o' (j + k) b

theorem Upto.rep {env o0 p l c o k b q r o' j b'} (h : Upto env o0 p l c o k b)
    (hq : Re env (.rep b') o q r o' j) (hb : b = true → ¬ StartsWith (.sym 123) q) :
    Upto env o0 (p ++ q) l (some (joinCat c r).1) o' (k + (j + (joinCat c r).2)) b' := by
  cases h with
  | init h => simpa [joinCat] using Upto.cat h (.rep hq)
  | cat h h' =>
    simpa [joinCat, Nat.add_assoc] using Upto.cat h (.cat h' hq hb)
  | bar h hx => simpa [joinCat] using Upto.alt h hx (.rep hq)
  | alt h hx h' => simpa [joinCat, Nat.add_assoc] using Upto.alt h hx (.cat h' hq hb)

theorem Upto.kill {env o0 p l c o k b} {x : LTok} (h : Upto env o0 p l (some c) o k b)
    (hx : x.tok = .kill) : Upto env o0 (p ++ [x]) l (some (.look 0 c)) o (k + 1) false := by
  cases h with
  | cat h h' => simpa using Upto.cat h (.kill h' hx)
  | alt h hy h' => simpa [Nat.add_assoc] using Upto.alt h hy (.kill h' hx)

theorem Upto.switch {env o0 p l c o k b q o'} (h : Upto env o0 p l c o k b)
    (hs : Switch o q o') (hc : c = none → l = none) :
    Upto env o0 (p ++ q) l c o' k false := by
  cases h with
  | init h => exact .init (.snoc h hs)
  | cat h h' => simpa using Upto.cat h (.catSwitch h' hs)
  | bar h hx => cases hc rfl
  | alt h hx h' => simpa using Upto.alt h hx (.catSwitch h' hs)

theorem Upto.done {env o0 p l c o k b} (h : Upto env o0 p l (some c) o k b) :
    Re env (.alt b) o0 p (joinAlt l c).1 o (k + (joinAlt l c).2) := by
  cases h with
  | cat h h' => exact h.alt (.concat h')
  | alt h hx h' => exact .alt h hx h'

theorem lookKind_sound {a x : LTok} (ha : a.tok = .sym 40) (hx : x.tok = .sym 63) {ts kind vs}
    (h : lookKind ts = some (kind, vs)) :
    ∃ q, a :: x :: ts = q ++ vs ∧ (∃ w, q = a :: w) ∧
      ∀ {env b c o p t o' k}, Re env (.alt b) o p t o' k → c.tok = .sym 41 →
        Re env .atom o (q ++ (p ++ [c])) (.look kind t) o' (k + 1) := by
  cases ts with
  | nil => cases h
  | cons t ts =>
    have ahead : ∀ vs, ts = vs → (t.tok = .sym 61 → ∃ q, a :: x :: t :: ts = q ++ vs ∧ (∃ w, q = a :: w) ∧
        ∀ {env b c o p t o' k}, Re env (.alt b) o p t o' k → c.tok = .sym 41 →
          Re env .atom o (q ++ (p ++ [c])) (.look 2 t) o' (k + 1)) ∧
        (t.tok = .sym 33 → ∃ q, a :: x :: t :: ts = q ++ vs ∧ (∃ w, q = a :: w) ∧
        ∀ {env b c o p t o' k}, Re env (.alt b) o p t o' k → c.tok = .sym 41 →
          Re env .atom o (q ++ (p ++ [c])) (.look 3 t) o' (k + 1)) := by
      rintro vs rfl
      exact ⟨fun ht => ⟨[a, x, t], rfl, ⟨_, rfl⟩, fun h hc => .aheadPos ha hx ht h hc⟩,
        fun ht => ⟨[a, x, t], rfl, ⟨_, rfl⟩, fun h hc => .aheadNeg ha hx ht h hc⟩⟩
    cases ts with
    | nil =>
      rw [lookKind] at h
      split at h
      · cases h; exact (ahead _ rfl).1 ‹_›
      · split at h
        · cases h; exact (ahead _ rfl).2 ‹_›
        · cases h
    | cons u us =>
      rw [lookKind] at h
      split at h
      · cases h; exact (ahead _ rfl).1 ‹_›
      · split at h
        · cases h; exact (ahead _ rfl).2 ‹_›
        · split at h
          · rename_i ht
            cases h
            exact ⟨[a, x, t, u], rfl, ⟨_, rfl⟩, fun h hc => .behindPos ha hx ht.1 ht.2 h hc⟩
          · split at h
            · rename_i ht
              cases h
              exact ⟨[a, x, t, u], rfl, ⟨_, rfl⟩, fun h hc => .behindNeg ha hx ht.1 ht.2 h hc⟩
            · cases h

theorem queryNext_tail {ts} (h : queryNext ts = true) : ∃ y, ts = y :: ts.tail ∧ y.tok = .sym 63 := by
  cases ts with
  | nil => cases h
  | cons y ys => exact ⟨y, rfl, by simpa [queryNext] using h⟩

/-- A prefix that starts like the whole. -/
theorem not_startsWith_prefix {t : Tok} {p ts rest : List LTok} (e : ts = p ++ rest)
    (h : ¬ StartsWith t ts) : ¬ StartsWith t p := by
  rintro ⟨u, us, rfl, hu⟩
  exact h ⟨u, us ++ rest, by rw [e]; rfl, hu⟩

theorem CC.ne_nil {env o nt p c k} (h : CC env o nt p c k) : p ≠ [] := by
  induction h with
  | start _ ih => exact ih
  | nested _ ih => exact ih
  | union _ _ _ _ ih _ => simp [ih]
  | _ => simp

/-- The first token of an atom is not a repetition operator. -/
def Starter (t : Tok) : Prop := t ≠ .sym 42 ∧ t ≠ .sym 43 ∧ t ≠ .sym 63

theorem CC.head {env o p c k} (h : CC env o .charclass p c k) :
    ∃ u us, p = u :: us ∧ startsClass u.tok = true := by
  cases h with
  | named h _ => exact ⟨_, _, rfl, by simp [h, startsClass]⟩
  | pos h _ _ _ => exact ⟨_, _, rfl, by simp [h, startsClass]⟩
  | neg h _ _ _ _ => exact ⟨_, _, rfl, by simp [h, startsClass]⟩

theorem Switch.head {o p o'} (h : Switch o p o') : ∃ u us, p = u :: us ∧ u.tok = .sym 40 := by
  cases h with
  | on h => exact ⟨_, _, rfl, h⟩
  | off h => exact ⟨_, _, rfl, h⟩
  | both h => exact ⟨_, _, rfl, h⟩

theorem Re.head {env nt o p t o' k} (h : Re env nt o p t o' k) :
    ∃ u us, p = u :: us ∧ Starter u.tok := by
  have paren : ∀ {t : Tok}, t = .sym 40 → Starter t := by rintro _ rfl; simp [Starter]
  induction h with
  | concat _ ih => exact ih
  | rep _ ih => exact ih
  | atom _ ih => exact ih
  | alt _ _ _ ih => obtain ⟨u, us, rfl, hu⟩ := ih; exact ⟨u, _, rfl, hu⟩
  | switchAlt h _ => obtain ⟨u, us, rfl, hu⟩ := h.head; exact ⟨u, _, rfl, paren hu⟩
  | cat _ _ _ ih => obtain ⟨u, us, rfl, hu⟩ := ih; exact ⟨u, _, rfl, hu⟩
  | kill _ _ ih => obtain ⟨u, us, rfl, hu⟩ := ih; exact ⟨u, _, rfl, hu⟩
  | catSwitch _ _ ih => obtain ⟨u, us, rfl, hu⟩ := ih; exact ⟨u, _, rfl, hu⟩
  | quant _ _ ih => obtain ⟨u, us, rfl, hu⟩ := ih; exact ⟨u, _, rfl, hu⟩
  | group ha => exact ⟨_, _, rfl, paren ha⟩
  | behindPos ha => exact ⟨_, _, rfl, paren ha⟩
  | behindNeg ha => exact ⟨_, _, rfl, paren ha⟩
  | aheadPos ha => exact ⟨_, _, rfl, paren ha⟩
  | aheadNeg ha => exact ⟨_, _, rfl, paren ha⟩
  | simple h =>
    refine ⟨_, _, rfl, ?_, ?_, ?_⟩ <;> intro he <;> rw [he] at h <;> simp [simpleAtom, character] at h
  | cls h =>
    obtain ⟨u, us, rfl, hu⟩ := h.head
    refine ⟨u, us, rfl, ?_, ?_, ?_⟩ <;> intro he <;> rw [he] at hu <;> simp [startsClass] at hu

theorem Re.ne_nil {env nt o p t o' k} (h : Re env nt o p t o' k) : p ≠ [] := by
  obtain ⟨u, us, rfl, -⟩ := h.head
  simp

/-- What `body` delivers is derived from the tokens read. -/
theorem body_sound (env : Env) (n : Nat) :
    (∀ o l c sw k ts t o' k' rest, body env n o l c sw k ts = .ok (t, o', k', rest) →
      ∀ o0 pre b, Upto env o0 pre l c o k b → (c = none → sw = true → l = none) →
        (b = true → ¬ StartsWith (.sym 123) ts) →
        ∃ p b', ts = p ++ rest ∧ Re env (.alt b') o0 (pre ++ p) t o' k') ∧
    (∀ o l c k a ts t o' k' rest, afterAtom env n o l c k a ts = .ok (t, o', k', rest) →
      ∀ o0 pre b o1 k1 q j, Upto env o0 pre l c o1 k1 b → Re env .atom o1 q a o j → k = k1 + j →
        (b = true → ¬ StartsWith (.sym 123) q) →
        ∃ p b', ts = p ++ rest ∧ Re env (.alt b') o0 (pre ++ (q ++ p)) t o' k') := by
  induction n with
  | zero =>
    refine ⟨fun _ _ _ _ _ _ _ _ _ _ h => ?_, fun _ _ _ _ _ _ _ _ _ _ h => ?_⟩
    · rw [body] at h; cases h
    · rw [afterAtom] at h; cases h
  | succ n ih =>
    obtain ⟨ih1, ih2⟩ := ih
    have fin : ∀ o l c k ts t o' k' rest, finish l c ts o k = .ok (t, o', k', rest) →
      ∀ o0 pre b, Upto env o0 pre l c o k b →
        ∃ p b', ts = p ++ rest ∧ Re env (.alt b') o0 (pre ++ p) t o' k' := by
      intro o l c k ts t o' k' rest h o0 pre b hU
      cases c with
      | none => cases h
      | some c =>
        simp only [finish, Except.ok.injEq, Prod.mk.injEq] at h
        obtain ⟨rfl, rfl, rfl, rfl⟩ := h
        exact ⟨[], b, rfl, by simpa using hU.done⟩
    refine ⟨fun o l c sw k ts t o' k' rest h o0 pre b hU hsw hb => ?_,
      fun o l c k a ts t o' k' rest h o0 pre b o1 k1 q j hU hq hk hb => ?_⟩
    · cases ts with
      | nil =>
        rw [body] at h
        exact fin _ _ _ _ _ _ _ _ _ h _ _ _ hU
      | cons u us =>
        rw [body.eq_def] at h
        simp only at h
        have hbq : ∀ q w, q = u :: w → (b = true → ¬ StartsWith (.sym 123) q) := by
          rintro q w rfl hb' ⟨x, xs, e, hx⟩
          cases e
          exact hb hb' ⟨_, _, rfl, hx⟩
        split at h
        · rename_i hu
          cases c with
          | none => cases h
          | some c =>
            simp only at h
            obtain ⟨p, b', rfl, hp⟩ := ih1 _ _ _ _ _ _ _ _ _ _ h o0 (pre ++ [u]) false
              (.bar hU.done hu) (fun _ h => by cases h) (fun h => by cases h)
            exact ⟨u :: p, b', rfl, by simpa using hp⟩
        split at h
        · rename_i hu
          cases c with
          | none => cases h
          | some c =>
            simp only at h
            obtain ⟨p, b', rfl, hp⟩ := ih1 _ _ _ _ _ _ _ _ _ _ h o0 (pre ++ [u]) false
              (hU.kill hu) (fun h => by cases h) (fun h => by cases h)
            exact ⟨u :: p, b', rfl, by simpa using hp⟩
        split at h
        · rename_i hu
          by_cases hq : queryNext us = true
          · rw [if_pos hq] at h
            obtain ⟨y, e, hy⟩ := queryNext_tail hq
            split at h
            · rename_i kind vs hk
              obtain ⟨q, eq, ⟨w, hw⟩, hRe⟩ := lookKind_sound hu hy hk
              split at h
              · cases h
              · cases h
              · rename_i t1 o1 j w ws hbody
                split at h
                · rename_i hw'
                  obtain ⟨p, b1, rfl, hp⟩ := ih1 _ _ _ _ _ _ _ _ _ _ hbody o [] false
                    (.init .nil) (fun _ _ => rfl) (fun h => by cases h)
                  obtain ⟨p', b', rfl, hp'⟩ := ih2 _ _ _ _ _ _ _ _ _ _ h o0 pre b o k
                    (q ++ (p ++ [w])) (j + 1) hU (hRe (by simpa using hp) hw') rfl
                    (hbq _ _ (by rw [hw]; rfl))
                  refine ⟨q ++ (p ++ [w]) ++ p', b', ?_, hp'⟩
                  rw [e, eq]; simp
                · cases h
            · split at h
              · rename_i hs
                split at h
                · cases h
                · rename_i o1 vs hsw'
                  obtain ⟨q, eq, hq'⟩ := switches_sound hu hy hsw'
                  have hc : c = none → l = none := by
                    intro hc
                    subst hc
                    simp only [Option.isSome_none, Bool.or_false, Bool.and_eq_true] at hs
                    exact hsw rfl hs.1
                  obtain ⟨p, b', rfl, hp⟩ := ih1 _ _ _ _ _ _ _ _ _ _ h o0 (pre ++ q) false
                    (hU.switch hq' hc) hsw (fun h => by cases h)
                  exact ⟨q ++ p, b', by rw [e, eq]; simp, by simpa using hp⟩
              · cases h
          · rw [if_neg hq] at h
            split at h
            · cases h
            · cases h
            · rename_i t1 o1 j w ws hbody
              split at h
              · rename_i hw'
                obtain ⟨p, b1, rfl, hp⟩ := ih1 _ _ _ _ _ _ _ _ _ _ hbody o [] false
                  (.init .nil) (fun _ _ => rfl) (fun h => by cases h)
                obtain ⟨p', b', rfl, hp'⟩ := ih2 _ _ _ _ _ _ _ _ _ _ h o0 pre b o k
                  (u :: (p ++ [w])) j hU (.group hu (by simpa using hp) hw') rfl (hbq _ _ rfl)
                exact ⟨u :: (p ++ [w]) ++ p', b', by simp, hp'⟩
              · cases h
        split at h
        · split at h
          · cases h
          · rename_i x j vs hx
            obtain ⟨p, e, hp⟩ := (cc_sound env o n).1 _ _ _ _ _ hx
            obtain ⟨w, hw⟩ : ∃ w, p = u :: w ∨ p = [] := by
              cases p with
              | nil => exact ⟨[], .inr rfl⟩
              | cons y ys => cases e; exact ⟨ys, .inl rfl⟩
            have hb' : b = true → ¬ StartsWith (.sym 123) p := by
              rcases hw with hw | hw
              · exact hbq _ _ hw
              · rintro _ ⟨_, _, e, _⟩; rw [hw] at e; cases e
            obtain ⟨p', b', rfl, hp'⟩ := ih2 _ _ _ _ _ _ _ _ _ _ h o0 pre b o k p j hU (.cls hp) rfl hb'
            exact ⟨p ++ p', b', by rw [e]; simp, hp'⟩
        split at h
        · cases h
        · rename_i t1 j hs
          obtain ⟨p', b', rfl, hp'⟩ := ih2 _ _ _ _ _ _ _ _ _ _ h o0 pre b o k [u] j hU (.simple hs) rfl
            (hbq _ _ rfl)
          exact ⟨u :: p', b', rfl, hp'⟩
        · exact fin _ _ _ _ _ _ _ _ _ h _ _ _ hU
    · rw [afterAtom.eq_def] at h
      simp only at h
      split at h
      · cases h
      · rename_i qq i us hqq
        rcases quantifier_sound hqq with ⟨rfl, rfl, rfl, hns⟩ | ⟨p, ng, lo, hi, rfl, rfl, hQ⟩
        · obtain ⟨p, b', rfl, hp⟩ := ih1 _ _ _ _ _ _ _ _ _ _ h o0 (pre ++ q) true
            (by have := hU.rep (.atom hq) hb; simpa [repeated, hk, Nat.add_assoc] using this)
            (fun h => by cases h) (fun _ => hns)
          exact ⟨p, b', rfl, by simpa using hp⟩
        · obtain ⟨p', b', rfl, hp⟩ := ih1 _ _ _ _ _ _ _ _ _ _ h o0 (pre ++ (q ++ p)) false
            (by
              have := hU.rep (.quant hq hQ) (by
                intro hb'
                have := hb hb'
                rintro ⟨x, xs, e, hx⟩
                cases q with
                | nil => exact absurd rfl hq.ne_nil
                | cons y ys => cases e; exact this ⟨_, _, rfl, hx⟩)
              simpa [repeated, hk, Nat.add_assoc] using this)
            (fun h => by cases h) (fun h => by cases h)
          exact ⟨p ++ p', b', by simp, by simpa using hp⟩

/-! ## Every derivation is parsed -/

theorem startsWith_cons {t : Tok} {u us} : StartsWith t (u :: us) ↔ u.tok = t :=
  ⟨fun ⟨_, _, e, h⟩ => by cases e; exact h, fun h => ⟨_, _, rfl, h⟩⟩

theorem not_startsWith_nil {t : Tok} : ¬ StartsWith t [] := fun ⟨_, _, e, _⟩ => by cases e

theorem hyphenNext_false {ts} (h : ¬ StartsWith (.sym 45) ts) : hyphenNext ts = false := by
  cases ts with
  | nil => rfl
  | cons t ts => rw [startsWith_cons] at h; simp [hyphenNext, h]

theorem queryNext_false {ts} (h : ¬ StartsWith (.sym 63) ts) : queryNext ts = false := by
  cases ts with
  | nil => rfl
  | cons t ts => rw [startsWith_cons] at h; simp [queryNext, h]

theorem ccChar_not_class {t : Tok} {a} (h : ccChar t = some a) : startsClass t = false := by
  cases t with
  | sym c =>
    simp only [ccChar] at h
    split at h
    · rename_i hm
      have hc : c ≠ 91 := by rintro rfl; simp at hm
      unfold startsClass
      split
      · rename_i h'; cases h'
      · rename_i h'; cases h'; exact absurd rfl hc
      · rfl
    · cases h
  | set n => cases h
  | _ => rfl

theorem ccOf_not_class {first} {t : Tok} {a} (h : ccOf first t = some a) : startsClass t = false := by
  unfold ccOf at h
  split at h
  · unfold ccFirst at h
    split at h
    · rfl
    · rfl
    · exact ccChar_not_class h
  · unfold ccNotFirst at h
    split at h
    · rfl
    · exact ccChar_not_class h

theorem class_not_ccOf {first} {t : Tok} (h : startsClass t = true) : ccOf first t = none := by
  cases hh : ccOf first t with
  | none => rfl
  | some a => rw [ccOf_not_class hh] at h; cases h

theorem byte_not_ccOf {first b} : ccOf first (.byte b) = none := by
  cases first <;> rfl

theorem class_not_byte {t : Tok} (h : startsClass t = true) : byteTok t = none := by
  cases t <;> simp_all [startsClass, byteTok]

theorem class_not_setOp {t : Tok} (h : startsClass t = true) : setOp t = none := by
  cases t <;> simp_all [startsClass, setOp]

/-- The first token of an atom in a class is neither `]` nor a set operator, unless it is a
`]` at the very start. -/
theorem CC.atom_head {env o first op p c k} (h : CC env o (.atom first op) p c k) :
    ∃ u us, p = u :: us ∧ setOp u.tok = none ∧ (first = false → u.tok ≠ .sym 93) ∧
      (first = true → u.tok ≠ .sym 94) := by
  have char : ∀ {t : Tok} {a}, ccOf first t = some a →
      setOp t = none ∧ (first = false → t ≠ .sym 93) ∧ (first = true → t ≠ .sym 94) := by
    intro t a ht
    refine ⟨?_, ?_, ?_⟩
    · cases t with
      | hyphens => cases first <;> simp [ccOf, ccFirst, ccNotFirst, ccChar] at ht
      | amps => cases first <;> simp [ccOf, ccFirst, ccNotFirst, ccChar] at ht
      | tildes => cases first <;> simp [ccOf, ccFirst, ccNotFirst, ccChar] at ht
      | _ => rfl
    · rintro rfl rfl; simp [ccOf, ccNotFirst, ccChar] at ht
    · rintro rfl rfl; simp [ccOf, ccFirst, ccChar] at ht
  have cls : ∀ {p c k}, CC env o .charclass p c k → ∃ u us, p = u :: us ∧ setOp u.tok = none ∧
      (first = false → u.tok ≠ .sym 93) ∧ (first = true → u.tok ≠ .sym 94) := by
    intro p c k h
    obtain ⟨u, us, rfl, hu⟩ := h.head
    exact ⟨u, us, rfl, class_not_setOp hu, fun _ h' => (by rw [h'] at hu; cases hu),
      fun _ h' => (by rw [h'] at hu; cases hu)⟩
  cases h with
  | range hx => exact ⟨_, _, rfl, char hx⟩
  | charThenClass hx => exact ⟨_, _, rfl, char hx⟩
  | char hx => exact ⟨_, _, rfl, char hx⟩
  | byteRange hx => exact ⟨_, _, rfl, by simp [hx, setOp]⟩
  | byteThenClass hx => exact ⟨_, _, rfl, by simp [hx, setOp]⟩
  | byte hx => exact ⟨_, _, rfl, by simp [hx, setOp]⟩
  | hyphen hx => exact ⟨_, _, rfl, by simp [hx, setOp]⟩
  | nested h => exact cls h

theorem CC.expr_head {env o nt p c k} (h : CC env o nt p c k) :
    ∀ neg op, nt = .expr neg op → ∃ u us, p = u :: us ∧ setOp u.tok = none ∧
      (neg = true → u.tok ≠ .sym 93) ∧ (neg = false → u.tok ≠ .sym 94) := by
  induction h with
  | start h _ =>
    rintro neg op ⟨⟩
    obtain ⟨u, us, rfl, h1, h2, h3⟩ := h.atom_head
    exact ⟨u, us, rfl, h1, fun h => h2 (by simp [h]), fun h => h3 (by simp [h])⟩
  | union _ _ _ _ ih _ =>
    rintro neg op ⟨⟩
    obtain ⟨u, us, rfl, h⟩ := ih _ _ rfl
    exact ⟨u, _, rfl, h⟩
  | binary _ _ _ _ ih _ =>
    rintro neg op ⟨⟩
    obtain ⟨u, us, rfl, h⟩ := ih _ _ rfl
    exact ⟨u, _, rfl, h⟩
  | _ => rintro neg op h; cases h

/-- Reading a class after its opening bracket. -/
def ccStart (env : Env) (o : Opts) (n : Nat) (t : LTok) (neg : Bool) (ts : List LTok) :
    Res (Cls × Nat × List LTok) :=
  match ccAtom env o n (!neg) ts with
  | .error e => .error (unclosed .unmatchedBracket t e)
  | .ok (c, k, ws) => ccItems env o n t neg c k ws

theorem charclass_open {env o n} {t u : LTok} {us} (ht : t.tok = .sym 91) (hu : u.tok ≠ .sym 94)
    (hs : setOp u.tok = none) :
    charclass env o (n + 1) t (u :: us) = ccStart env o n t false (u :: us) := by
  rw [charclass.eq_def]
  simp only [ht, ccStart]
  rw [if_neg hu]
  simp only [hs, Option.isSome_none, Bool.false_eq_true, if_false]
  rfl

theorem charclass_openNeg {env o n} {t x u : LTok} {us} (ht : t.tok = .sym 91) (hx : x.tok = .sym 94)
    (hs : setOp u.tok = none) :
    charclass env o (n + 1) t (x :: u :: us) = ccStart env o n t true (u :: us) := by
  rw [charclass.eq_def]
  simp only [ht, ccStart]
  rw [if_pos hx]
  simp only [hs, Option.isSome_none, Bool.false_eq_true, if_false]
  rfl

/-- What a derivation in a class means for the parser. -/
def Parses (env : Env) (o : Opts) : CNT → List LTok → Cls → Nat → Prop
  | .charclass, p, c, k => ∀ n, 2 * p.length ≤ n → ∀ t ts rest, p = t :: ts →
      charclass env o n t (ts ++ rest) = .ok (c, k, rest)
  | .atom first op, p, c, k => ∀ n, 2 * p.length + 1 ≤ n → ∀ rest,
      (op = true → ¬ StartsWith (.sym 45) rest) → ccAtom env o n first (p ++ rest) = .ok (c, k, rest)
  | .expr neg op, p, c, k => ∃ m, m ≤ p.length ∧ ∀ n, 2 * p.length + 2 ≤ n → ∀ t rest,
      (op = true → ¬ StartsWith (.sym 45) rest) →
      ccStart env o n t neg (p ++ rest) = ccItems env o (n - m) t neg c k rest

theorem ccAtom_class {env o n first} {u : LTok} {us} (hu : startsClass u.tok = true) :
    ccAtom env o (n + 1) first (u :: us) = charclass env o n u us := by
  rw [ccAtom.eq_def]
  have h1 : (if first = true then ccFirst u.tok else ccNotFirst u.tok) = none := class_not_ccOf hu
  simp only [h1, class_not_byte hu]
  rw [if_neg]
  rintro h; rw [h] at hu; cases hu

theorem ccItems_close {env o n} {t u : LTok} {neg c k us c'} (hu : u.tok = .sym 93)
    (h : if neg then closeNeg env o 0 0 c = .ok c' else closePos env o 0 0 c = .ok c') :
    ccItems env o (n + 1) t neg c k (u :: us) = .ok (c', k, us) := by
  rw [ccItems.eq_def]
  simp only [hu, if_true]
  cases neg with
  | true => simp only [if_true] at h ⊢; rw [closeNeg_pos.2 h]
  | false => simp only [if_false, Bool.false_eq_true] at h ⊢; rw [closePos_pos.2 h]

theorem cc_complete {env o nt p c k} (h : CC env o nt p c k) : Parses env o nt p c k := by
  induction h with
  | named ht hv =>
    rintro n hn t ts rest ⟨⟩
    obtain ⟨m, rfl⟩ : ∃ m, n = m + 1 := ⟨n - 1, by simp at hn; omega⟩
    rw [charclass.eq_def]
    simp [ht, hv]
  | @pos a b p op c c' k ha hb h hc ih =>
    rintro n hn t ts rest ⟨⟩
    obtain ⟨m, hm, ih⟩ := ih
    simp only [List.length_cons, List.length_append, List.length_nil] at hn
    obtain ⟨N, rfl⟩ : ∃ N, n = N + 1 := ⟨n - 1, by omega⟩
    obtain ⟨u, us, e, h1, -, h3⟩ := h.expr_head _ _ rfl
    have := ih N (by omega) a (b :: rest) (by rintro - ⟨x, xs, e, hx⟩; cases e; rw [hb] at hx; cases hx)
    rw [List.append_assoc]
    rw [e] at this ⊢
    simp only [List.cons_append, List.nil_append] at this ⊢
    rw [charclass_open ha (h3 rfl) h1, this]
    obtain ⟨M, hM⟩ : ∃ M, N - m = M + 1 := ⟨N - m - 1, by omega⟩
    rw [hM, ccItems_close hb (by simpa using hc)]
  | @neg a x b p op c c' k ha hx hb h hc ih =>
    rintro n hn t ts rest ⟨⟩
    obtain ⟨m, hm, ih⟩ := ih
    simp only [List.length_cons, List.length_append, List.length_nil] at hn
    obtain ⟨N, rfl⟩ : ∃ N, n = N + 1 := ⟨n - 1, by omega⟩
    obtain ⟨u, us, e, h1, -, h3⟩ := h.expr_head _ _ rfl
    have := ih N (by omega) a (b :: rest) (by rintro - ⟨x, xs, e, hx⟩; cases e; rw [hb] at hx; cases hx)
    rw [List.cons_append, List.append_assoc]
    rw [e] at this ⊢
    simp only [List.cons_append, List.nil_append] at this ⊢
    rw [charclass_openNeg ha hx h1, this]
    obtain ⟨M, hM⟩ : ∃ M, N - m = M + 1 := ⟨N - m - 1, by omega⟩
    rw [hM, ccItems_close hb (by simpa using hc)]
  | start h ih =>
    refine ⟨0, Nat.zero_le _, fun n hn t rest hr => ?_⟩
    rw [ccStart, ih n (by omega) rest hr]
    rfl
  | @union neg op op' p q a b c j k h h' hop hc ih ih' =>
    obtain ⟨m, hm, ih⟩ := ih
    obtain ⟨u, us, rfl, hu, hu', -⟩ := h'.atom_head
    refine ⟨m + 1, by simp; omega, fun n hn t rest hr => ?_⟩
    simp only [List.length_append, List.length_cons] at hn
    rw [List.append_assoc, ih n (by omega) t _ (by
      rintro ho ⟨x, xs, e, hx⟩; cases e; exact hop ho ⟨_, _, rfl, hx⟩)]
    obtain ⟨M, hM⟩ : ∃ M, n - m = M + 1 := ⟨n - m - 1, by omega⟩
    rw [show n - (m + 1) = M by omega, hM]
    have := ih' M (by simp; omega) rest hr
    rw [List.cons_append] at this ⊢
    rw [ccItems.eq_def]
    simp only [if_neg (hu' rfl), hu, this, hc]
  | @binary neg op op' p x s q a b c j k h hx h' hc ih ih' =>
    obtain ⟨m, hm, ih⟩ := ih
    obtain ⟨u, us, rfl, hu, hu', -⟩ := h'.atom_head
    refine ⟨m + 1, by simp; omega, fun n hn t rest hr => ?_⟩
    simp only [List.length_append, List.length_cons] at hn
    rw [List.append_assoc, ih n (by omega) t _ (by
      rintro - ⟨y, ys, e, hy⟩; cases e; rw [hy] at hx; cases hx)]
    obtain ⟨M, hM⟩ : ∃ M, n - m = M + 1 := ⟨n - m - 1, by omega⟩
    rw [show n - (m + 1) = M by omega, hM]
    have := ih' M (by simp; omega) rest hr
    rw [List.cons_append, List.cons_append] at *
    rw [ccItems.eq_def]
    have hx' : x.tok ≠ .sym 93 := by intro e; rw [e] at hx; cases hx
    simp only [if_neg hx', hx]
    rw [if_neg (by
      rintro (e | e)
      · exact hu' rfl e
      · rw [e, hx] at hu; cases hu)]
    simp only [this, hc]
  | @range first x y z a b hx hy hz hab =>
    intro n hn rest hr
    obtain ⟨N, rfl⟩ : ∃ N, n = N + 1 := ⟨n - 1, by omega⟩
    rw [List.cons_append, ccAtom.eq_def]
    have h1 : (if first = true then ccFirst x.tok else ccNotFirst x.tok) = some a := hx
    have h2 : hyphenNext (y :: z :: rest) = true := by simp [hyphenNext, hy]
    simp only [h1, List.cons_append, List.nil_append]
    simp only [h2, if_true, List.tail_cons, hz]
    rw [if_neg (by omega)]
  | @charThenClass first x y p a c k hx hy h ih =>
    intro n hn rest hr
    obtain ⟨N, rfl⟩ : ∃ N, n = N + 1 := ⟨n - 1, by omega⟩
    obtain ⟨u, us, rfl, hu⟩ := h.head
    rw [List.cons_append, ccAtom.eq_def]
    have h1 : (if first = true then ccFirst x.tok else ccNotFirst x.tok) = some a := hx
    have h2 : hyphenNext (y :: (u :: us ++ rest)) = true := by simp [hyphenNext, hy]
    have h3 : ccNotFirst u.tok = none := class_not_ccOf (first := false) hu
    have h4 := ih N (by simp at hn ⊢; omega) u us rest rfl
    simp only [h1, List.cons_append] at h2 ⊢
    simp only [h2, if_true, List.tail_cons, h3, h4]
  | @byteRange first x y z a b s hx hy hz hab hs =>
    intro n hn rest hr
    obtain ⟨N, rfl⟩ : ∃ N, n = N + 1 := ⟨n - 1, by omega⟩
    rw [List.cons_append, ccAtom.eq_def]
    have h1 : (if first = true then ccFirst x.tok else ccNotFirst x.tok) = none := by
      rw [hx]; exact byte_not_ccOf
    have h2 : hyphenNext (y :: z :: rest) = true := by simp [hyphenNext, hy]
    simp only [h1, List.cons_append, List.nil_append]
    simp only [h2, if_true, List.tail_cons, hx, byteTok, hz]
    rw [if_neg (by omega), hs]
  | @byteThenClass first x y p a c k hx hy h ih =>
    intro n hn rest hr
    obtain ⟨N, rfl⟩ : ∃ N, n = N + 1 := ⟨n - 1, by omega⟩
    obtain ⟨u, us, rfl, hu⟩ := h.head
    rw [List.cons_append, ccAtom.eq_def]
    have h1 : (if first = true then ccFirst x.tok else ccNotFirst x.tok) = none := by
      rw [hx]; exact byte_not_ccOf
    have h2 : hyphenNext (y :: (u :: us ++ rest)) = true := by simp [hyphenNext, hy]
    have h4 := ih N (by simp at hn ⊢; omega) u us rest rfl
    simp only [h1, List.cons_append] at h2 ⊢
    simp only [h2, if_true, List.tail_cons, class_not_byte hu, h4]
    simp [hx, byteTok]
  | @nested first p c k h ih =>
    intro n hn rest hr
    obtain ⟨N, rfl⟩ : ∃ N, n = N + 1 := ⟨n - 1, by omega⟩
    obtain ⟨u, us, rfl, hu⟩ := h.head
    rw [List.cons_append, ccAtom_class hu, ih N (by omega) u us rest rfl]
  | @char first x a hx =>
    intro n hn rest hr
    obtain ⟨N, rfl⟩ : ∃ N, n = N + 1 := ⟨n - 1, by omega⟩
    rw [List.cons_append, ccAtom.eq_def]
    have h1 : (if first = true then ccFirst x.tok else ccNotFirst x.tok) = some a := hx
    simp only [h1, List.nil_append, hyphenNext_false (hr rfl)]
    rfl
  | @hyphen x hx =>
    intro n hn rest hr
    obtain ⟨N, rfl⟩ : ∃ N, n = N + 1 := ⟨n - 1, by omega⟩
    rw [List.cons_append, ccAtom.eq_def]
    simp [hx, ccNotFirst, ccChar, byteTok]
  | @byte first x a hx =>
    intro n hn rest hr
    obtain ⟨N, rfl⟩ : ∃ N, n = N + 1 := ⟨n - 1, by omega⟩
    rw [List.cons_append, ccAtom.eq_def]
    have h1 : (if first = true then ccFirst x.tok else ccNotFirst x.tok) = none := by
      rw [hx]; exact byte_not_ccOf
    simp only [h1]
    simp only [hx, byteTok, List.nil_append, hyphenNext_false (hr rfl)]
    rfl

/-- What may follow: no `?` that would still belong to the repetition before it, and no
repetition after a bare atom. -/
def Follow (b : Bool) (ts : List LTok) : Prop :=
  ¬ StartsWith (.sym 63) ts ∧
    (b = true → ¬ StartsWith (.sym 42) ts ∧ ¬ StartsWith (.sym 43) ts ∧ ¬ StartsWith (.sym 123) ts)

theorem follow_cons {b} {u : LTok} {us} (h : u.tok ≠ .sym 63) (h1 : u.tok ≠ .sym 42)
    (h2 : u.tok ≠ .sym 43) (h3 : b = true → u.tok ≠ .sym 123) : Follow b (u :: us) :=
  ⟨by rwa [startsWith_cons], fun hb =>
    ⟨by rwa [startsWith_cons], by rwa [startsWith_cons], by rw [startsWith_cons]; exact h3 hb⟩⟩

theorem nongreedy_lazy {q ng rest} (h : Lazy q ng) (hr : ¬ StartsWith (.sym 63) rest) :
    nongreedy (q ++ rest) = (ng, rest) := by
  cases h with
  | no =>
    cases rest with
    | nil => rfl
    | cons u us => rw [startsWith_cons] at hr; simp [nongreedy, hr]
  | yes hx => simp [nongreedy, hx]

theorem number_run {p v} (h : Number p v) : ∃ x xs d, p = x :: xs ∧ digitTok x.tok = some d ∧
    ∀ rest, number d (xs ++ rest) = number v rest := by
  induction h with
  | one hx => exact ⟨_, [], _, rfl, hx, fun _ => rfl⟩
  | @more p v y e h hy hv ih =>
    obtain ⟨x, xs, d, rfl, hd, ih⟩ := ih
    refine ⟨x, xs ++ [y], d, rfl, hd, fun rest => ?_⟩
    rw [List.append_assoc, ih, List.singleton_append, number, hy]
    simp only [if_pos hv]

theorem readNumber_number {p v} {u : LTok} {rest} (h : Number p v) (hu : digitTok u.tok = none) :
    readNumber (p ++ u :: rest) = .ok (v, u :: rest) := by
  obtain ⟨x, xs, d, rfl, hd, e⟩ := number_run h
  rw [List.cons_append, readNumber, hd]
  simp only
  rw [e, number, hu]

theorem number_head {p v} (h : Number p v) : ∃ x xs d, p = x :: xs ∧ x.tok = .digit d := by
  obtain ⟨x, xs, d, rfl, hd, -⟩ := number_run h
  cases ht : x.tok with
  | digit c => exact ⟨x, xs, c, rfl, ht⟩
  | _ => rw [ht] at hd; cases hd

theorem quantifier_quant {q ng lo hi j rest} (h : Quant q ng lo hi j)
    (hr : ¬ StartsWith (.sym 63) rest) :
    quantifier (q ++ rest) = .ok (some (ng, lo, hi), j, rest) := by
  have d1 : ∀ {y : LTok} {c}, y.tok = .sym c → digitTok y.tok = none := by
    intro y c h; rw [h]; rfl
  cases h with
  | star hx h => rw [List.cons_append, quantifier, if_pos hx, nongreedy_lazy h hr]
  | plus hx h =>
    rw [List.cons_append, quantifier, if_neg (by simp [hx]), if_pos hx, nongreedy_lazy h hr]
  | opt hx h =>
    rw [List.cons_append, quantifier, if_neg (by simp [hx]), if_neg (by simp [hx]), if_pos hx,
      nongreedy_lazy h hr]
  | @exact x y p n q ng hx hp hy h =>
    rw [List.cons_append, quantifier, if_neg (by simp [hx]), if_neg (by simp [hx]),
      if_neg (by simp [hx]), if_pos hx, counted, List.append_assoc, List.cons_append,
      readNumber_number hp (d1 hy)]
    simp only
    rw [if_pos hy, nongreedy_lazy h hr]
  | @atLeast x y z p n q ng hx hp hy hz h =>
    rw [List.cons_append, quantifier, if_neg (by simp [hx]), if_neg (by simp [hx]),
      if_neg (by simp [hx]), if_pos hx, counted, List.append_assoc, List.cons_append,
      readNumber_number hp (d1 hy)]
    simp only
    rw [if_neg (by simp [hy]), if_pos hy, List.cons_append]
    simp only
    rw [if_pos hz, nongreedy_lazy h hr]
  | @between x y z p n r m q ng hx hp hy hr' hz hnm h =>
    rw [List.cons_append, quantifier, if_neg (by simp [hx]), if_neg (by simp [hx]),
      if_neg (by simp [hx]), if_pos hx, counted, List.append_assoc, List.cons_append,
      readNumber_number hp (d1 hy)]
    simp only
    obtain ⟨w, ws, d, rfl, hd⟩ := number_head hr'
    have := readNumber_number (rest := q ++ rest) hr' (d1 hz)
    simp only [List.append_assoc, List.cons_append] at this ⊢
    rw [if_neg (by simp [hy]), if_pos hy, if_neg (by simp [hd]), this]
    simp only
    rw [if_pos hz, if_neg (by omega), nongreedy_lazy h hr]

theorem quantifier_none {rest} (h : Follow true rest) : quantifier rest = .ok (none, 0, rest) := by
  obtain ⟨h0, h⟩ := h
  obtain ⟨h1, h2, h3⟩ := h rfl
  cases rest with
  | nil => rfl
  | cons u us =>
    rw [startsWith_cons] at h0 h1 h2 h3
    rw [quantifier, if_neg h1, if_neg h2, if_neg h0, if_neg h3]

theorem flags_run {on o p o'} (h : Flags on o p o') : ∀ seen rest,
    switches on seen o (p ++ rest) = switches on true o' rest := by
  induction h with
  | ascii hx => intro seen rest; rw [List.cons_append, switches, if_pos hx]; rfl
  | caseless hx =>
    intro seen rest
    rw [List.cons_append, switches, if_neg (by simp [hx]), if_pos hx]; rfl
  | more _ _ ih ih' => intro seen rest; rw [List.append_assoc, ih, ih']

theorem Flags.head {on o p o'} (h : Flags on o p o') : ∃ u us, p = u :: us ∧
    (u.tok = .sym 97 ∨ u.tok = .sym 105) := by
  induction h with
  | ascii hx => exact ⟨_, _, rfl, .inl hx⟩
  | caseless hx => exact ⟨_, _, rfl, .inr hx⟩
  | more _ _ ih _ => obtain ⟨u, us, rfl, h⟩ := ih; exact ⟨u, _, rfl, h⟩

theorem switches_close {on o} {c : LTok} {rest} (hc : c.tok = .sym 41) :
    switches on true o (c :: rest) = .ok (o, rest) := by
  rw [switches, if_neg (by simp [hc]), if_neg (by simp [hc]), if_neg (by simp [hc]), if_pos ⟨hc, rfl⟩]

theorem switches_dash {seen o} {d : LTok} {rest} (hd : d.tok = .sym 45) :
    switches true seen o (d :: rest) = switches false false o rest := by
  rw [switches, if_neg (by simp [hd]), if_neg (by simp [hd]), if_pos ⟨hd, rfl⟩]

theorem switch_run {o p o'} (h : Switch o p o') : ∃ a b ps, p = a :: b :: ps ∧ a.tok = .sym 40 ∧
    b.tok = .sym 63 ∧ ∀ rest, switches true false o (ps ++ rest) = .ok (o', rest) ∧
      startsSwitch (ps ++ rest) = true ∧ lookKind (ps ++ rest) = none := by
  have key : ∀ (u : LTok) (us : List LTok), (u.tok = .sym 97 ∨ u.tok = .sym 105 ∨ u.tok = .sym 45) →
      startsSwitch (u :: us) = true ∧ lookKind (u :: us) = none := by
    intro u us h
    refine ⟨by simpa [startsSwitch, or_assoc] using h, ?_⟩
    cases us with
    | nil => rcases h with h | h | h <;> simp [lookKind, h]
    | cons v vs => rcases h with h | h | h <;> simp [lookKind, h]
  cases h with
  | @on a b c _ p _ ha hb h hc =>
    refine ⟨a, b, _, rfl, ha, hb, fun rest => ?_⟩
    obtain ⟨u, us, rfl, hu⟩ := h.head
    rw [List.append_assoc]
    refine ⟨by rw [flags_run h, List.singleton_append, switches_close hc], ?_⟩
    exact key _ _ (by tauto)
  | @off a b c d _ p _ ha hb hd h hc =>
    refine ⟨a, b, _, rfl, ha, hb, fun rest => ?_⟩
    refine ⟨?_, key _ _ (by tauto)⟩
    rw [List.cons_append, switches_dash hd, List.append_assoc, flags_run h, List.singleton_append,
      switches_close hc]
  | @both a b c d _ p _ q _ ha hb h hd h' hc =>
    refine ⟨a, b, _, rfl, ha, hb, fun rest => ?_⟩
    obtain ⟨u, us, rfl, hu⟩ := h.head
    rw [List.append_assoc]
    refine ⟨?_, key _ _ (by tauto)⟩
    rw [flags_run h, List.cons_append, switches_dash hd, List.append_assoc, flags_run h',
      List.singleton_append, switches_close hc]

theorem body_switch {env o p o'} (h : Switch o p o') (n l c sw k rest) (hsw : (sw || c.isSome) = true) :
    body env (n + 1) o l c sw k (p ++ rest) = body env n o' l c sw k rest := by
  obtain ⟨a, b, ps, rfl, ha, hb, h⟩ := switch_run h
  obtain ⟨h1, h2, h3⟩ := h rest
  rw [List.cons_append, body.eq_def]
  have hq : queryNext (b :: (ps ++ rest)) = true := by simp [queryNext, hb]
  simp only [List.cons_append]
  simp only [ha, hq, List.tail_cons, h3, hsw, h2, h1]
  simp

theorem body_bar {env o n l c sw k} {x : LTok} {us} (hx : x.tok = .sym 124) :
    body env (n + 1) o l (some c) sw k (x :: us) =
      body env n o (some (joinAlt l c).1) none false (k + (joinAlt l c).2) us := by
  rw [body.eq_def]; simp [hx]

theorem body_kill {env o n l c sw k} {x : LTok} {us} (hx : x.tok = .kill) :
    body env (n + 1) o l (some c) sw k (x :: us) = body env n o l (some (.look 0 c)) false (k + 1) us := by
  rw [body.eq_def]; simp [hx]

theorem body_close {env o n l c sw k} {x : LTok} {us} (hx : x.tok = .sym 41) :
    body env (n + 1) o l (some c) sw k (x :: us) =
      .ok ((joinAlt l c).1, o, k + (joinAlt l c).2, x :: us) := by
  rw [body.eq_def]; simp [hx, startsClass, simpleAtom, character, finish]

/-- What a derivation outside classes means for the parser. -/
def Reads (env : Env) : NT → Opts → List LTok → Tree Node → Opts → Nat → Prop
  | .atom, o, p, t, o', k => ∀ n, 4 * p.length ≤ n → ∀ l c sw kk rest,
      body env (n + 1) o l c sw kk (p ++ rest) = afterAtom env n o' l c (kk + k) t rest
  | .rep b, o, p, t, o', k => ∀ n, 4 * p.length + 2 ≤ n → ∀ l c sw kk rest, Follow b rest →
      body env n o l c sw kk (p ++ rest) =
        body env (n - 2) o' l (some (joinCat c t).1) false (kk + (k + (joinCat c t).2)) rest
  | .concat b, o, p, t, o', k => ∃ m, m ≤ 2 * p.length ∧ ∀ n, 4 * p.length + 2 ≤ n →
      ∀ l sw kk rest, Follow b rest →
      body env n o l none sw kk (p ++ rest) = body env (n - m) o' l (some t) false (kk + k) rest
  | .alt b, o, p, t, o', k => ∃ m, m ≤ 2 * p.length ∧ ∃ l' c' k', t = (joinAlt l' c').1 ∧
      k = k' + (joinAlt l' c').2 ∧ ∀ n, 4 * p.length + 2 ≤ n → ∀ kk rest, Follow b rest →
      body env n o none none true kk (p ++ rest) =
        body env (n - m) o' l' (some c') false (kk + k') rest

theorem Reads.closed {env b o p t o' k} (h : Reads env (.alt b) o p t o' k) {n}
    (hn : 4 * p.length + 2 ≤ n) {c : LTok} {rest} (hc : c.tok = .sym 41) :
    body env n o none none true 0 (p ++ c :: rest) = .ok (t, o', k, c :: rest) := by
  obtain ⟨m, hm, l', c', k', rfl, rfl, h⟩ := h
  rw [h n hn 0 _ (follow_cons (by simp [hc]) (by simp [hc]) (by simp [hc]) (by simp [hc]))]
  obtain ⟨N, hN⟩ : ∃ N, n - m = N + 1 := ⟨n - m - 1, by omega⟩
  rw [hN, body_close hc]
  simp

theorem simpleAtom_not {env o} {t : Tok} {r} (h : simpleAtom env o t = some r) :
    t ≠ .sym 124 ∧ t ≠ .kill ∧ t ≠ .sym 40 ∧ startsClass t = false := by
  refine ⟨?_, ?_, ?_, ?_⟩
  · rintro rfl; simp [simpleAtom, character] at h
  · rintro rfl; simp [simpleAtom, character] at h
  · rintro rfl; simp [simpleAtom, character] at h
  · cases hs : startsClass t with
    | false => rfl
    | true =>
      unfold startsClass at hs
      split at hs
      · simp [simpleAtom, character] at h
      · simp [simpleAtom, character] at h
      · cases hs

theorem body_look {env o} {a x : LTok} (ha : a.tok = .sym 40) (hx : x.tok = .sym 63) {n l c sw kk ts kind vs}
    (hk : lookKind ts = some (kind, vs)) {t o' k} {w : LTok} {ws} (hw : w.tok = .sym 41)
    (hb : body env n o none none true 0 vs = .ok (t, o', k, w :: ws)) :
    body env (n + 1) o l c sw kk (a :: x :: ts) = afterAtom env n o' l c (kk + (k + 1)) (.look kind t) ws := by
  rw [body.eq_def]
  have hq : queryNext (x :: ts) = true := by simp [queryNext, hx]
  simp only [ha, hq, List.tail_cons, hk, hb, hw]
  simp

theorem re_complete {env nt o p t o' k} (h : Re env nt o p t o' k) : Reads env nt o p t o' k := by
  induction h with
  | @concat b o p t o' k h ih =>
    obtain ⟨m, hm, ih⟩ := ih
    exact ⟨m, hm, none, t, k, rfl, rfl, fun n hn kk rest hr => ih n hn none true kk rest hr⟩
  | @alt b b' o p l o' j x q r o'' k h hx h' ih ih' =>
    obtain ⟨m, hm, l', c', k', rfl, rfl, ih⟩ := ih
    obtain ⟨m', hm', ih'⟩ := ih'
    refine ⟨m + 1 + m', by simp; omega, some (joinAlt l' c').1, r, k' + (joinAlt l' c').2 + k, rfl, rfl,
      fun n hn kk rest hr => ?_⟩
    simp only [List.length_append, List.length_cons] at hn
    rw [List.append_assoc, List.cons_append, ih n (by omega) kk _
      (follow_cons (by simp [hx]) (by simp [hx]) (by simp [hx]) (by simp [hx]))]
    obtain ⟨N, hN⟩ : ∃ N, n - m = N + 1 := ⟨n - m - 1, by omega⟩
    rw [hN, body_bar hx, ih' N (by omega) _ _ _ _ hr]
    rw [show N - m' = n - (m + 1 + m') by omega]
    simp only [Nat.add_assoc]
  | @switchAlt b o p o' q t o'' k h h' ih =>
    obtain ⟨m, hm, l', c', k', e1, e2, ih⟩ := ih
    obtain ⟨u, us, hp, -⟩ := h.head
    have hl : 1 ≤ p.length := by rw [hp]; simp
    refine ⟨m + 1, by simp; omega, l', c', k', e1, e2, fun n hn kk rest hr => ?_⟩
    simp only [List.length_append] at hn
    obtain ⟨N, rfl⟩ : ∃ N, n = N + 1 := ⟨n - 1, by omega⟩
    rw [List.append_assoc, body_switch h _ _ _ _ _ _ (by simp), ih N (by omega) kk rest hr]
    rw [show N - m = N + 1 - (m + 1) by omega]
  | @rep b o p t o' k h ih =>
    have hl : 1 ≤ p.length := by
      obtain ⟨u, us, hp, -⟩ := h.head
      rw [hp]; simp
    refine ⟨2, by omega, fun n hn l sw kk rest hr => ?_⟩
    rw [ih n hn l none sw kk rest hr]
    simp [joinCat]
  | @cat b b' o p l o' j q r o'' k h h' hb ih ih' =>
    obtain ⟨m, hm, ih⟩ := ih
    obtain ⟨u, us, hq, hu⟩ := h'.head
    have hl : 1 ≤ q.length := by rw [hq]; simp
    refine ⟨m + 2, by simp; omega, fun n hn l0 sw kk rest hr => ?_⟩
    simp only [List.length_append] at hn
    rw [List.append_assoc, ih n (by omega) l0 sw kk (q ++ rest) (by
      rw [hq]
      exact follow_cons hu.2.2 hu.1 hu.2.1 (fun e => by
        have := hb e
        rwa [hq, startsWith_cons] at this)), ih' (n - m) (by omega) _ _ _ _ _ hr]
    rw [show n - m - 2 = n - (m + 2) by omega]
    simp only [joinCat, Nat.add_assoc]
  | @kill b o p t o' k x h hx ih =>
    obtain ⟨m, hm, ih⟩ := ih
    refine ⟨m + 1, by simp; omega, fun n hn l sw kk rest hr => ?_⟩
    simp only [List.length_append, List.length_cons, List.length_nil] at hn
    rw [List.append_assoc, List.singleton_append, ih n (by omega) l sw kk _
      (follow_cons (by simp [hx]) (by simp [hx]) (by simp [hx]) (by simp [hx]))]
    obtain ⟨N, hN⟩ : ∃ N, n - m = N + 1 := ⟨n - m - 1, by omega⟩
    rw [hN, body_kill hx, show N = n - (m + 1) by omega, Nat.add_assoc]
  | @catSwitch b o p t o' k q o'' h h' ih =>
    obtain ⟨m, hm, ih⟩ := ih
    obtain ⟨u, us, hq, hu⟩ := h'.head
    have hl : 1 ≤ q.length := by rw [hq]; simp
    refine ⟨m + 1, by simp; omega, fun n hn l sw kk rest hr => ?_⟩
    simp only [List.length_append] at hn
    rw [List.append_assoc, ih n (by omega) l sw kk (q ++ rest) (by
      rw [hq]
      exact follow_cons (by simp [hu]) (by simp [hu]) (by simp [hu]) (by simp [hu]))]
    obtain ⟨N, hN⟩ : ∃ N, n - m = N + 1 := ⟨n - m - 1, by omega⟩
    rw [hN, body_switch h' _ _ _ _ _ _ (by simp), show N = n - (m + 1) by omega]
  | @atom o p t o' k h ih =>
    intro n hn l c sw kk rest hr
    obtain ⟨N, rfl⟩ : ∃ N, n = N + 2 := ⟨n - 2, by omega⟩
    rw [ih (N + 1) (by omega), afterAtom, quantifier_none hr]
    simp [repeated, Nat.add_assoc]
  | @quant o p t o' k q ng lo hi j h h' ih =>
    intro n hn l c sw kk rest hr
    simp only [List.length_append] at hn
    obtain ⟨N, rfl⟩ : ∃ N, n = N + 2 := ⟨n - 2, by omega⟩
    rw [List.append_assoc, ih (N + 1) (by omega), afterAtom, quantifier_quant h' hr.1]
    simp [repeated, Nat.add_assoc]
  | @group b a c o p t o' k ha h hc ih =>
    intro n hn l c0 sw kk rest
    simp only [List.length_append, List.length_cons, List.length_nil] at hn
    obtain ⟨u, us, hp, hu⟩ := h.head
    have hb := ih.closed (n := n) (rest := rest) (by omega) hc
    have hq : queryNext (p ++ c :: rest) = false := queryNext_false (by
      rw [hp, List.cons_append, startsWith_cons]; exact hu.2.2)
    rw [List.cons_append, List.append_assoc, List.singleton_append, body.eq_def]
    simp only [ha, hq, hb, hc]
    simp
  | @behindPos b a x y z c o p t o' k ha hx hy hz h hc ih =>
    intro n hn l c0 sw kk rest
    simp only [List.length_append, List.length_cons, List.length_nil] at hn
    have hb := ih.closed (n := n) (rest := rest) (by omega) hc
    simp only [List.cons_append, List.append_assoc, List.nil_append]
    exact body_look ha hx (by simp [lookKind, hy, hz]) hc hb
  | @behindNeg b a x y z c o p t o' k ha hx hy hz h hc ih =>
    intro n hn l c0 sw kk rest
    simp only [List.length_append, List.length_cons, List.length_nil] at hn
    have hb := ih.closed (n := n) (rest := rest) (by omega) hc
    simp only [List.cons_append, List.append_assoc, List.nil_append]
    exact body_look ha hx (by simp [lookKind, hy, hz]) hc hb
  | @aheadPos b a x y c o p t o' k ha hx hy h hc ih =>
    intro n hn l c0 sw kk rest
    simp only [List.length_append, List.length_cons, List.length_nil] at hn
    obtain ⟨u, us, hp, hu⟩ := h.head
    have hb := ih.closed (n := n) (rest := rest) (by omega) hc
    simp only [List.cons_append, List.append_assoc, List.nil_append]
    rw [hp] at hb ⊢
    exact body_look ha hx (by simp [lookKind, hy]) hc hb
  | @aheadNeg b a x y c o p t o' k ha hx hy h hc ih =>
    intro n hn l c0 sw kk rest
    simp only [List.length_append, List.length_cons, List.length_nil] at hn
    obtain ⟨u, us, hp, hu⟩ := h.head
    have hb := ih.closed (n := n) (rest := rest) (by omega) hc
    simp only [List.cons_append, List.append_assoc, List.nil_append]
    rw [hp] at hb ⊢
    exact body_look ha hx (by simp [lookKind, hy]) hc hb
  | @simple x o t k h =>
    intro n hn l c0 sw kk rest
    obtain ⟨h1, h2, h3, h4⟩ := simpleAtom_not h
    rw [List.singleton_append, body.eq_def]
    simp only [h1, h2, h3, h4, h]
    simp
  | @cls o p c k h =>
    intro n hn l c0 sw kk rest
    obtain ⟨u, us, rfl, hu⟩ := h.head
    have hc : charclass env o n u (us ++ rest) = .ok (c, k, rest) :=
      cc_complete h n (by simp at hn ⊢; omega) u us rest rfl
    have h1 : u.tok ≠ .sym 124 := by intro e; rw [e] at hu; cases hu
    have h2 : u.tok ≠ .kill := by intro e; rw [e] at hu; cases hu
    have h3 : u.tok ≠ .sym 40 := by intro e; rw [e] at hu; cases hu
    rw [List.cons_append, body.eq_def]
    simp only [h1, h2, h3, hu, hc]
    simp

/-- **C58**: the parser accepts exactly the token sequences that the grammar derives, and
makes the tree, and adds the number of nodes, that the grammar's actions make and add. -/
theorem parse_iff_derives (env : Env) (o : Opts) (ts : List LTok) (t : Tree Node) (k : Nat) :
    parseTokens env o ts = .ok (t, k) ↔
      ∃ b o' j, Re env (.alt b) o ts t o' j ∧ k = j + 1 := by
  constructor
  · intro h
    unfold parseTokens at h
    split at h
    · rename_i t' o' j hb
      simp only [Except.ok.injEq, Prod.mk.injEq] at h
      obtain ⟨rfl, rfl⟩ := h
      obtain ⟨p, b, e, hp⟩ := (body_sound env _).1 _ _ _ _ _ _ _ _ _ _ hb o [] false (.init .nil)
        (fun _ _ => rfl) (fun h => by cases h)
      rw [List.append_nil] at e
      subst e
      exact ⟨b, o', j, hp, rfl⟩
    · cases h
    · split at h <;> cases h
    · cases h
  · rintro ⟨b, o', j, h, rfl⟩
    obtain ⟨m, hm, l', c', k', rfl, rfl, hr⟩ := re_complete h
    have := hr (fuelFor ts) (by simp [fuelFor]) 0 [] ⟨not_startsWith_nil, fun _ =>
      ⟨not_startsWith_nil, not_startsWith_nil, not_startsWith_nil⟩⟩
    rw [List.append_nil] at this
    obtain ⟨N, hN⟩ : ∃ N, fuelFor ts - m = N + 1 := ⟨fuelFor ts - m - 1, by simp only [fuelFor]; omega⟩
    rw [hN, body, finish] at this
    rw [parseTokens, this]
    simp

/-- `a(?i)b|[^c-e]{2,}?` is such a pattern: its tokens have a derivation. -/
example : ∃ t b o' j, Re plain (.alt b) ⟨true, true⟩
    (lex plain false 18 18 [97, 40, 63, 105, 41, 98, 124, 91, 94, 99, 45, 101, 93, 123, 50, 44, 125, 63]) t o' j := by
  have h : (match parseTokens plain ⟨true, true⟩
      (lex plain false 18 18 [97, 40, 63, 105, 41, 98, 124, 91, 94, 99, 45, 101, 93, 123, 50, 44, 125, 63]) with
      | .ok _ => true | .error _ => false) = true := by decide +kernel
  split at h
  · rename_i r hr
    obtain ⟨b, o', j, hd, -⟩ := (parse_iff_derives _ _ _ r.1 r.2).1 hr
    exact ⟨r.1, b, o', j, hd⟩
  · cases h

end Verif.Parser
