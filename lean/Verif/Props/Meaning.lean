import Verif.Props.Session
/-!
# C69, C70: what a pattern says

Specification.  `ClassSays` and `Says` read the tokens of a pattern as a user's manual would:
a class is a set of characters and a set of bytes, made with the operations of set theory; a
pattern is a set of byte strings, made with union, concatenation and powers.  Nothing in them
refers to the parser, to its trees or to range sets.  What is taken from outside is a
`Reading`: the named classes, and what a set of characters becomes when case is ignored.

`-` directly after a single character of a class belongs to a range, and `{` directly after an
atom to a repetition; the flags of `CNT` and `NT` say so, as in `Verif.Props.Grammar`.
-/
namespace Verif.Meaning
open Verif.Parser
open Verif.Regex (Tree UNB NoLook lang)
open Verif.Encoders (Node toBytes)
open Verif.RangeSet (WF has)
open Verif.Session (textSem)

/-! ## Specification: classes -/

/-- What a class says: the characters, the bytes, and whether the bytes are added to the
characters or taken away from them. -/
structure Meaning where
  chars : Set Nat
  bytes : Set UInt8
  adds : Prop

/-- The code points. -/
def Cps : Set Nat := {x | x < 0x110000}

/-- What is taken from outside: the named classes, and the set of characters that a set becomes
under options which may ask to ignore case. -/
structure Reading where
  named : Opts → Named → Option (Set Nat)
  close : Opts → Set Nat → Set Nat

/-- The set operators. -/
def combine {α : Type} : SetOp → Set α → Set α → Set α
  | .union, A, B => A ∪ B
  | .inter, A, B => A ∩ B
  | .minus, A, B => A \ B
  | .xor, A, B => (A \ B) ∪ (B \ A)

/-- The characters that stand for themselves in a class: letters, digits and escaped
characters, `\b` for the backspace, and `a i | ( ) ? + * . { } , < = ! $`.  At the start also `]`
and `-`, elsewhere also `^`. -/
inductive ClassChar (first : Bool) : Tok → Nat → Prop
  | char {c} : ClassChar first (.char c) c
  | digit {c} : ClassChar first (.digit c) c
  | word : ClassChar first .word 8
  | sym {c} (h : c ∈ [97, 105, 124, 40, 41, 63, 43, 42, 46, 123, 125, 44, 60, 61, 33, 36]) :
      ClassChar first (.sym c) c
  | bracket (h : first = true) : ClassChar first (.sym 93) 93
  | hyphen (h : first = true) : ClassChar first (.sym 45) 45
  | caret (h : first = false) : ClassChar first (.sym 94) 94

/-- `&&`, `--` and `~~`. -/
inductive Operator : Tok → SetOp → Prop
  | inter : Operator .amps .inter
  | minus : Operator .hyphens .minus
  | xor : Operator .tildes .xor

/-- What the tokens of a class, or of a part of it, say. -/
inductive ClassSays (R : Reading) (o : Opts) : CNT → List LTok → Meaning → Prop
  /-- A named class. -/
  | named {t s S} (h : t.tok = .set s) (hv : R.named o s = some S) :
      ClassSays R o .charclass [t] ⟨S, ∅, True⟩
  /-- `[…]`: the characters in both cases if case is ignored.  There must be something left. -/
  | pos {a b p op M} (ha : a.tok = .sym 91) (hb : b.tok = .sym 93)
      (h : ClassSays R o (.expr false op) p M)
      (hne : (R.close o M.chars).Nonempty ∨ M.bytes.Nonempty) :
      ClassSays R o .charclass (a :: (p ++ [b])) ⟨R.close o M.chars, M.bytes, M.adds⟩
  /-- `[^…]` with characters: all other characters, without the bytes.  There must be
  characters left. -/
  | neg {a x b p op M} (ha : a.tok = .sym 91) (hx : x.tok = .sym 94) (hb : b.tok = .sym 93)
      (h : ClassSays R o (.expr true op) p M) (hC : M.chars.Nonempty)
      (hne : (Cps \ R.close o M.chars).Nonempty) :
      ClassSays R o .charclass (a :: x :: (p ++ [b]))
        ⟨Cps \ R.close o M.chars, M.bytes, M.adds ∧ M.bytes = ∅⟩
  /-- `[^…]` with bytes only: all other bytes.  There must be some. -/
  | negBytes {a x b p op M} (ha : a.tok = .sym 91) (hx : x.tok = .sym 94) (hb : b.tok = .sym 93)
      (h : ClassSays R o (.expr true op) p M) (hC : M.chars = ∅) (hB : M.bytes.Nonempty)
      (hne : M.bytesᶜ.Nonempty) :
      ClassSays R o .charclass (a :: x :: (p ++ [b])) ⟨∅, M.bytesᶜ, M.adds⟩
  /-- `[^…]` with nothing in it: all characters. -/
  | negNothing {a x b p op M} (ha : a.tok = .sym 91) (hx : x.tok = .sym 94) (hb : b.tok = .sym 93)
      (h : ClassSays R o (.expr true op) p M) (hC : M.chars = ∅) (hB : M.bytes = ∅) :
      ClassSays R o .charclass (a :: x :: (p ++ [b])) ⟨Cps, ∅, M.adds⟩
  | start {neg op p M} (h : ClassSays R o (.atom (!neg) op) p M) : ClassSays R o (.expr neg op) p M
  /-- Juxtaposition is union, of what is to the left with the next item. -/
  | union {neg op op' p q M N} (h : ClassSays R o (.expr neg op) p M)
      (h' : ClassSays R o (.atom false op') q N) (hop : op = true → ¬ StartsWith (.sym 45) q) :
      ClassSays R o (.expr neg op') (p ++ q) ⟨M.chars ∪ N.chars, M.bytes ∪ N.bytes, M.adds⟩
  /-- The operators combine what is to the left with the next item. -/
  | binary {neg op op' p x s q M N} (h : ClassSays R o (.expr neg op) p M)
      (hx : Operator x.tok s) (h' : ClassSays R o (.atom false op') q N) :
      ClassSays R o (.expr neg op') (p ++ x :: q)
        ⟨combine s M.chars N.chars, combine s M.bytes N.bytes, M.adds⟩
  /-- `a-b`. -/
  | range {first x y z a b} (hx : ClassChar first x.tok a) (hy : y.tok = .sym 45)
      (hz : ClassChar false z.tok b) (hab : a < b) :
      ClassSays R o (.atom first false) [x, y, z] ⟨{c | a ≤ c ∧ c ≤ b}, ∅, True⟩
  /-- `a-` before a class: the class, `a` and `-`. -/
  | charThenClass {first x y p a M} (hx : ClassChar first x.tok a) (hy : y.tok = .sym 45)
      (h : ClassSays R o .charclass p M) :
      ClassSays R o (.atom first false) (x :: y :: p) ⟨M.chars ∪ {a, 45}, M.bytes, M.adds⟩
  /-- A range of bytes. -/
  | byteRange {first x y z a b} (hx : x.tok = .byte a) (hy : y.tok = .sym 45)
      (hz : z.tok = .byte b) (hab : a < b) :
      ClassSays R o (.atom first false) [x, y, z] ⟨∅, {c | a ≤ c.toNat ∧ c.toNat ≤ b}, True⟩
  /-- A byte and `-` before a class: the class, the byte and `-`. -/
  | byteThenClass {first x y p a M} (hx : x.tok = .byte a) (hy : y.tok = .sym 45)
      (h : ClassSays R o .charclass p M) :
      ClassSays R o (.atom first false) (x :: y :: p) ⟨M.chars ∪ {45}, M.bytes ∪ {c | c.toNat = a}, M.adds⟩
  | nested {first p M} (h : ClassSays R o .charclass p M) : ClassSays R o (.atom first false) p M
  | char {first x a} (hx : ClassChar first x.tok a) :
      ClassSays R o (.atom first true) [x] ⟨{a}, ∅, True⟩
  | hyphen {x} (hx : x.tok = .sym 45) : ClassSays R o (.atom false false) [x] ⟨{45}, ∅, True⟩
  | byte {first x a} (hx : x.tok = .byte a) :
      ClassSays R o (.atom first true) [x] ⟨∅, {c | c.toNat = a}, True⟩

/-! ## Specification: patterns -/

/-- The encodings of a set of characters, by `enc`; `[]` is no encoding. -/
def written (enc : Nat → List Nat) (S : Set Nat) : Language UInt8 :=
  {w | ∃ c ∈ S, enc c ≠ [] ∧ w = toBytes (enc c)}

/-- The bytes, each as a string. -/
def single (S : Set UInt8) : Language UInt8 := {w | ∃ b ∈ S, w = [b]}

/-- The byte strings of a class. -/
def classStrings (enc : Nat → List Nat) (M : Meaning) : Language UInt8 :=
  {w | (M.adds ∧ (w ∈ written enc M.chars ∨ w ∈ single M.bytes)) ∨
    (¬ M.adds ∧ w ∈ written enc M.chars ∧ w ∉ single M.bytes)}

/-- Between `lo` and `hi` strings of `L` in a row; `UNB` is no bound. -/
def repeats (lo hi : Nat) (L : Language UInt8) : Language UInt8 :=
  {w | ∃ k, lo ≤ k ∧ (hi = UNB ∨ k ≤ hi) ∧ w ∈ L ^ k}

/-- The characters that stand for themselves outside classes: letters, digits and escaped
characters, and `a i ] - { } , < = !`. -/
inductive PlainChar : Tok → Nat → Prop
  | char {c} : PlainChar (.char c) c
  | digit {c} : PlainChar (.digit c) c
  | sym {c} (h : c ∈ [97, 105, 93, 45, 123, 125, 44, 60, 61, 33]) : PlainChar (.sym c) c

/-- Tokens that stand for a character twice: `--`, `&&`, `~~`. -/
inductive TwiceChar : Tok → Nat → Prop
  | hyphens : TwiceChar .hyphens 45
  | amps : TwiceChar .amps 38
  | tildes : TwiceChar .tildes 126

/-- What the tokens of a pattern without lookarounds, or of a part of it, say: starting with the
options `o` they stand for the byte strings `L` and leave the options `o'`. -/
inductive Says (R : Reading) (enc : Nat → List Nat) : NT → Opts → List LTok → Language UInt8 → Opts → Prop
  | concat {b o p L o'} (h : Says R enc (.concat b) o p L o') : Says R enc (.alt b) o p L o'
  | alt {b b' o p L o' x q K o''} (h : Says R enc (.alt b) o p L o') (hx : x.tok = .sym 124)
      (h' : Says R enc (.concat b') o' q K o'') : Says R enc (.alt b') o (p ++ x :: q) (L + K) o''
  | switchAlt {b o p o' q L o''} (h : Switch o p o') (h' : Says R enc (.alt b) o' q L o'') :
      Says R enc (.alt b) o (p ++ q) L o''
  | rep {b o p L o'} (h : Says R enc (.rep b) o p L o') : Says R enc (.concat b) o p L o'
  | cat {b b' o p L o' q K o''} (h : Says R enc (.concat b) o p L o') (h' : Says R enc (.rep b') o' q K o'')
      (hb : b = true → ¬ StartsWith (.sym 123) q) : Says R enc (.concat b') o (p ++ q) (L * K) o''
  | catSwitch {b o p L o' q o''} (h : Says R enc (.concat b) o p L o') (h' : Switch o' q o'') :
      Says R enc (.concat false) o (p ++ q) L o''
  | atom {o p L o'} (h : Says R enc .atom o p L o') : Says R enc (.rep true) o p L o'
  | quant {o p L o' q ng lo hi j} (h : Says R enc .atom o p L o') (h' : Quant q ng lo hi j) :
      Says R enc (.rep false) o (p ++ q) (repeats lo hi L) o'
  /-- A group: its switches end with it. -/
  | group {b a c o p L o'} (ha : a.tok = .sym 40) (h : Says R enc (.alt b) o p L o') (hc : c.tok = .sym 41) :
      Says R enc .atom o (a :: (p ++ [c])) L o
  /-- A character: itself, in both cases if case is ignored. -/
  | char {o x c} (hx : PlainChar x.tok c) : Says R enc .atom o [x] (written enc (R.close o {c})) o
  | twice {o x c} (hx : TwiceChar x.tok c) :
      Says R enc .atom o [x] (written enc {c} * written enc {c}) o
  /-- `\zFF`: the byte. -/
  | byte {o x b} (hx : x.tok = .byte b) : Says R enc .atom o [x] (single {c | c.toNat = b}) o
  /-- `.`: any character. -/
  | dot {o x} (hx : x.tok = .sym 46) : Says R enc .atom o [x] (written enc Set.univ) o
  | cls {o p M} (h : ClassSays R o .charclass p M) : Says R enc .atom o p (classStrings enc M) o

/-- The environment gives what the reading says. -/
structure Reading.Of (R : Reading) (env : Env) : Prop where
  named : ∀ o n, (R.named o n = none ↔ env.named o.ascii (!o.cased) n = none) ∧
    ∀ S v, R.named o n = some S → env.named o.ascii (!o.cased) n = some v → ∀ x, has v x = true ↔ x ∈ S
  cased : ∀ o S, o.cased = true → R.close o S = S
  fold : ∀ o s, o.cased = false → WF 0x110000 s → ∃ v b, env.fold o.ascii s = some (v, b) ∧
    (∀ x, has v x = true ↔ x ∈ R.close o {x | has s x = true}) ∧
    (b = false → ∀ x, has v x = has s x)

/-! ## Classes -/

/-- The class the parser makes is the one meant. -/
structure Denotes (c : Cls) (M : Meaning) : Prop where
  wf : WF 0x110000 c.cps
  chars : ∀ x, has c.cps x = true ↔ x ∈ M.chars
  bytes : ∀ b, c.brk.has b = true ↔ b ∈ M.bytes
  adds : c.additive = true ↔ M.adds

theorem ccOf_iff {first : Bool} {t : Tok} {c : Nat} : ccOf first t = some c ↔ ClassChar first t c := by
  constructor
  · intro h
    have key : ∀ {t : Tok}, ccChar t = some c → ClassChar first t c := by
      intro t h
      cases t <;> simp only [ccChar, Option.some.injEq, reduceCtorEq] at h
      · subst h; exact .char
      · subst h; exact .digit
      · split at h
        · next hm => cases h; exact .sym (by simp only [List.mem_cons, List.not_mem_nil, or_false] at hm ⊢; omega)
        · cases h
      · subst h; exact .word
    unfold ccOf at h
    split at h
    · next hf =>
      unfold ccFirst at h
      split at h
      · cases h; exact .bracket hf
      · cases h; exact .hyphen hf
      · exact key h
    · next hf =>
      unfold ccNotFirst at h
      split at h
      · cases h; exact .caret (by simpa using hf)
      · exact key h
  · intro h
    cases h with
    | char => cases first <;> rfl
    | digit => cases first <;> rfl
    | word => cases first <;> rfl
    | sym h =>
      simp only [List.mem_cons, List.not_mem_nil, or_false] at h
      cases first <;> rcases h with h | h | h | h | h | h | h | h | h | h | h | h | h | h | h | h <;> subst h <;> rfl
    | bracket h => subst h; rfl
    | hyphen h => subst h; rfl
    | caret h => subst h; rfl

theorem setOp_iff {t : Tok} {s : SetOp} : setOp t = some s ↔ Operator t s := by
  constructor
  · intro h
    cases t <;> simp only [setOp, Option.some.injEq, reduceCtorEq] at h <;> subst h <;> constructor
  · intro h
    cases h <;> rfl

theorem any_iff {v : RangeSet.Vec} (h : WF 0x110000 v) : v.isEmpty = true ↔ ∀ x, has v x = false := by
  constructor
  · intro h x
    have : v = [] := by simpa using h
    subst this; rfl
  · intro hx
    have : v = [] := RangeSet.ext_has h nil_wf (fun x => by rw [hx x]; rfl)
    simp [this]

theorem brk_zero {s : Nfa.BSet} : s = 0 ↔ ∀ b, s.has b = false := by
  constructor
  · rintro rfl b; exact NfaBuilder.has_zero b
  · intro h
    apply BitVec.eq_of_getLsbD_eq
    intro i hi
    have := h (UInt8.ofNat i)
    unfold Nfa.BSet.has at this
    rw [Encoders.ofNat_toNat hi] at this
    simp [this]

theorem has_not {s : Nfa.BSet} (b : UInt8) : (~~~s).has b = !s.has b := by
  unfold Nfa.BSet.has
  have := b.toNat_lt
  simp [BitVec.getLsbD_not]
  omega

theorem combine_denotes {op : SetOp} {a b : Cls} {M N : Meaning} (ha : Denotes a M) (hb : Denotes b N) :
    ∃ c, Cls.combine op a b = some c ∧ Denotes c ⟨combine op M.chars N.chars, combine op M.bytes N.bytes, M.adds⟩ := by
  cases op with
  | union =>
    obtain ⟨v, e, w, hv⟩ := RangeSet.union_spec ha.wf hb.wf
    refine ⟨⟨v, _, _⟩, by simp only [Cls.combine, e, Option.bind_eq_bind, Option.bind_some]; rfl, w, fun x => ?_, fun x => ?_, ha.adds⟩
    · simp [hv, combine, ← ha.chars, ← hb.chars]
    · simp [combine, ← ha.bytes, ← hb.bytes, Nfa.BSet.has]
  | inter =>
    obtain ⟨v, e, w, hv⟩ := RangeSet.inter_spec (by omega) ha.wf hb.wf
    refine ⟨⟨v, _, _⟩, by simp only [Cls.combine, e, Option.bind_eq_bind, Option.bind_some]; rfl, w, fun x => ?_, fun x => ?_, ha.adds⟩
    · simp [hv, combine, ← ha.chars, ← hb.chars]
    · simp [combine, ← ha.bytes, ← hb.bytes, Nfa.BSet.has]
  | minus =>
    obtain ⟨v, e, w, hv⟩ := RangeSet.diff_spec (by omega) ha.wf hb.wf
    refine ⟨⟨v, _, _⟩, by simp only [Cls.combine, e, Option.bind_eq_bind, Option.bind_some]; rfl, w, fun x => ?_, fun x => ?_, ha.adds⟩
    · simp [hv, combine, ← ha.chars, ← hb.chars]
    · have hx := x.toNat_lt
      simp only [combine, Set.mem_diff, ← ha.bytes, ← hb.bytes, Nfa.BSet.has, BitVec.getLsbD_and, BitVec.getLsbD_not]
      simp; omega
  | xor =>
    obtain ⟨v, e, w, hv⟩ := RangeSet.symm_spec (by omega) ha.wf hb.wf
    refine ⟨⟨v, _, _⟩, by simp only [Cls.combine, e, Option.bind_eq_bind, Option.bind_some]; rfl, w, fun x => ?_, fun x => ?_, ha.adds⟩
    · simp only [hv, combine, Set.mem_union, Set.mem_diff, ← ha.chars, ← hb.chars]
      cases has a.cps x <;> cases has b.cps x <;> simp
    · simp only [combine, Set.mem_union, Set.mem_diff, ← ha.bytes, ← hb.bytes, Nfa.BSet.has, BitVec.getLsbD_xor]
      cases a.brk.getLsbD x.toNat <;> cases b.brk.getLsbD x.toNat <;> simp

theorem chars_denotes {a b : Nat} (h : a ≤ b) (hb : b < 0x110000) :
    Denotes (chars a (b + 1)) ⟨{c | a ≤ c ∧ c ≤ b}, ∅, True⟩ := by
  refine ⟨chars_wf (by omega) (by omega), fun x => ?_, fun x => ?_, by simp [chars]⟩
  · unfold chars; dsimp only
    rw [RangeSet.insert_has nil_wf (by omega)]
    simp [has, RangeSet.below]; omega
  · simp [chars, NfaBuilder.has_zero']

variable {R : Reading} {env : Env} {o : Opts}

theorem fold_denotes (hR : R.Of env) (he : env.Sound) {c : Cls} {M : Meaning} (h : Denotes c M) :
    ∃ v, foldCls env o c = .ok { c with cps := v } ∧ Denotes { c with cps := v } ⟨R.close o M.chars, M.bytes, M.adds⟩ := by
  have hs : {x | has c.cps x = true} = M.chars := by ext x; exact h.chars x
  unfold foldCls
  split
  · next hc => exact ⟨_, rfl, h.wf, by rw [hR.cased o _ hc]; exact h.chars, h.bytes, h.adds⟩
  · next hc =>
    obtain ⟨v, b, e, hv, -⟩ := hR.fold o c.cps (by simpa using hc) h.wf
    rw [e]
    refine ⟨v, rfl, he.fold _ _ _ _ h.wf e, ?_, h.bytes, h.adds⟩
    rw [← hs]; exact hv

theorem denotes_chars_empty {c : Cls} {M : Meaning} (h : Denotes c M) : c.cps.isEmpty = true ↔ M.chars = ∅ := by
  rw [any_iff h.wf, Set.eq_empty_iff_forall_notMem]
  exact forall_congr' fun x => by rw [← h.chars]; simp

theorem denotes_bytes_empty {c : Cls} {M : Meaning} (h : Denotes c M) : c.brk = 0 ↔ M.bytes = ∅ := by
  rw [brk_zero, Set.eq_empty_iff_forall_notMem]
  exact forall_congr' fun x => by rw [← h.bytes]; simp

/-- `[…]` is refused when nothing is left, and otherwise means what it should. -/
theorem pos_denotes (hR : R.Of env) (he : env.Sound) {c : Cls} {M : Meaning} (h : Denotes c M) :
    (((R.close o M.chars).Nonempty ∨ M.bytes.Nonempty) →
      ∃ c', closePos env o 0 0 c = .ok c' ∧ Denotes c' ⟨R.close o M.chars, M.bytes, M.adds⟩) ∧
    (∀ c', closePos env o 0 0 c = .ok c' → (R.close o M.chars).Nonempty ∨ M.bytes.Nonempty) := by
  obtain ⟨v, e, hv⟩ := fold_denotes (o := o) hR he h
  have h1 := denotes_chars_empty hv
  have h2 := denotes_bytes_empty hv
  dsimp only at h1 h2
  unfold closePos
  simp only [e, bind, Except.bind, RangeSet.none]
  constructor
  · intro hne
    refine ⟨_, if_neg ?_, hv⟩
    · rw [Bool.and_eq_true, beq_iff_eq, h1, h2]
      rintro ⟨a, b⟩
      rw [a, b] at hne
      simp at hne
  · intro c' hc'
    by_contra hcon
    rw [not_or, Set.not_nonempty_iff_eq_empty, Set.not_nonempty_iff_eq_empty, ← h1, ← h2] at hcon
    have : (List.isEmpty v && c.brk == 0) = true := by rw [Bool.and_eq_true, beq_iff_eq]; exact hcon
    have hc' := (if_pos this).symm.trans hc'
    cases hc'

theorem flip_denotes {c : Cls} {S : Set Nat} (hw : WF 0x110000 c.cps) (h : ∀ x, has c.cps x = true ↔ x ∈ S) :
    ∃ v, RangeSet.flip 0x110000 c.cps = some v ∧ WF 0x110000 v ∧ ∀ x, has v x = true ↔ x ∈ Cps \ S := by
  obtain ⟨v, e, w, hv⟩ := RangeSet.flip_spec (N := 0x110000) (by omega) hw
  refine ⟨v, e, w, fun x => ?_⟩
  by_cases hx : x < 0x110000
  · rw [hv x hx, Set.mem_diff, ← h x]
    simp [Cps, hx]
  · rw [RangeSet.has_ge w (by omega)]
    simp [Cps, hx]

/-- `[^…]` with characters. -/
theorem neg_denotes (hR : R.Of env) (he : env.Sound) {c : Cls} {M : Meaning} (h : Denotes c M)
    (hC : M.chars.Nonempty) :
    ((Cps \ R.close o M.chars).Nonempty →
      ∃ c', closeNeg env o 0 0 c = .ok c' ∧ Denotes c' ⟨Cps \ R.close o M.chars, M.bytes, M.adds ∧ M.bytes = ∅⟩) ∧
    (∀ c', closeNeg env o 0 0 c = .ok c' → (Cps \ R.close o M.chars).Nonempty) := by
  obtain ⟨v, e, hv⟩ := fold_denotes (o := o) hR he h
  obtain ⟨n, en, wn, hn⟩ := flip_denotes hv.wf hv.chars
  have hb := denotes_bytes_empty h
  have hany : RangeSet.any c.cps = true := by
    have := denotes_chars_empty h
    unfold RangeSet.any
    rw [Bool.not_eq_true']
    by_contra hcon
    rw [Bool.not_eq_false, this] at hcon
    rw [hcon] at hC
    exact Set.not_nonempty_empty hC
  have hemp : n.isEmpty = true ↔ Cps \ R.close o M.chars = ∅ := by
    rw [any_iff wn, Set.eq_empty_iff_forall_notMem]
    exact forall_congr' fun x => by rw [← hn]; simp
  dsimp only at en
  unfold closeNeg
  rw [if_pos hany]
  simp only [e, bind, Except.bind, en, orUb, RangeSet.none]
  constructor
  · intro hne
    refine ⟨_, if_neg ?_, wn, hn, h.bytes, ?_⟩
    · rw [hemp]; exact hne.ne_empty
    · by_cases h0 : c.brk = 0
      · simp only [h0, beq_self_eq_true, if_true, h.adds, hb.1 h0, and_true]
      · have : (c.brk == 0) = false := by simpa using h0
        simp only [this, Bool.false_eq_true, if_false, false_iff, not_and]
        exact fun _ h => h0 (hb.2 h)
  · intro c' hc'
    split at hc'
    · cases hc'
    · next hh =>
      rw [hemp] at hh
      exact Set.nonempty_iff_ne_empty.2 hh

/-- `[^…]` with bytes only, and with nothing. -/
theorem neg_denotes' {c : Cls} {M : Meaning} (h : Denotes c M) (hC : M.chars = ∅) :
    (M.bytes.Nonempty → (M.bytesᶜ.Nonempty →
      ∃ c', closeNeg env o 0 0 c = .ok c' ∧ Denotes c' ⟨∅, M.bytesᶜ, M.adds⟩) ∧
      (∀ c', closeNeg env o 0 0 c = .ok c' → M.bytesᶜ.Nonempty)) ∧
    (M.bytes = ∅ → ∃ c', closeNeg env o 0 0 c = .ok c' ∧ Denotes c' ⟨Cps, ∅, M.adds⟩) := by
  have hcps : c.cps.isEmpty = true := (denotes_chars_empty h).2 hC
  have hany : ¬ RangeSet.any c.cps = true := by simp [RangeSet.any, hcps]
  have hb := denotes_bytes_empty h
  unfold closeNeg
  rw [if_neg hany]
  constructor
  · intro hB
    have h0 : c.brk ≠ 0 := fun h => by rw [hb.1 h] at hB; exact Set.not_nonempty_empty hB
    have hn : ∀ b, (~~~c.brk).has b = true ↔ b ∈ M.bytesᶜ := by
      intro b; rw [has_not, Set.mem_compl_iff, ← h.bytes]; simp
    have hne : ~~~c.brk = 0 ↔ M.bytesᶜ = ∅ := by
      rw [brk_zero, Set.eq_empty_iff_forall_notMem]
      exact forall_congr' fun x => by rw [← hn]; simp
    rw [if_pos h0]
    constructor
    · intro hh
      refine ⟨_, if_neg ?_, h.wf, ?_, hn, h.adds⟩
      · rw [beq_iff_eq, hne]; exact hh.ne_empty
      · intro x
        rw [h.chars, hC]
    · intro c' hc'
      split at hc'
      · cases hc'
      · next hh =>
        rw [beq_iff_eq, hne] at hh
        exact Set.nonempty_iff_ne_empty.2 hh
  · intro hB
    have h0 : ¬ c.brk ≠ 0 := fun hh => hh (hb.2 hB)
    rw [if_neg h0]
    obtain ⟨n, en, wn, hn⟩ := flip_denotes h.wf h.chars
    simp only [en, orUb, bind, Except.bind]
    refine ⟨_, rfl, wn, ?_, ?_, h.adds⟩
    · intro x; rw [hn, hC, Set.diff_empty]
    · intro b; rw [h.bytes, hB]

theorem single_denotes {a : Nat} (ha : a < 256) : Denotes (byteSet (Encoders.setByte 0 a)) ⟨∅, {c | c.toNat = a}, True⟩ := by
  refine ⟨nil_wf, fun x => by simp [byteSet, has, RangeSet.below], fun x => ?_, by simp [byteSet]⟩
  simp only [byteSet]
  rw [Encoders.has_setByte ha, NfaBuilder.has_zero]
  simp

/-- What a class says and what the parser makes of it, in both directions. -/
theorem cc_says (hR : R.Of env) (he : env.Sound) {nt : CNT} {p : List LTok} {c : Cls} {k : Nat}
    (h : CC env o nt p c k) (hp : ∀ x ∈ p, x.tok.Ok) : ∃ M, ClassSays R o nt p M ∧ Denotes c M := by
  induction h with
  | @named t s v h hv =>
    obtain ⟨h1, h2⟩ := hR.named o s
    cases hS : R.named o s with
    | none => rw [h1.1 hS] at hv; cases hv
    | some S =>
      exact ⟨_, .named h hS, he.named _ _ _ _ hv, h2 S v hS hv, fun b => by simp [NfaBuilder.has_zero'], by simp⟩
  | pos ha hb h hc ih =>
    obtain ⟨M, h1, h2⟩ := ih fun x hx => hp x (by simp [hx])
    obtain ⟨p1, p2⟩ := pos_denotes (o := o) hR he h2
    obtain ⟨c', e, hd⟩ := p1 (p2 _ hc)
    rw [e] at hc; cases hc
    exact ⟨_, .pos ha hb h1 (p2 _ e), hd⟩
  | neg ha hx hb h hc ih =>
    obtain ⟨M, h1, h2⟩ := ih fun x hx => hp x (by simp [hx])
    by_cases hC : M.chars = ∅
    · obtain ⟨q1, q2⟩ := neg_denotes' (env := env) (o := o) h2 hC
      by_cases hB : M.bytes = ∅
      · obtain ⟨c', e, hd⟩ := q2 hB
        rw [e] at hc; cases hc
        exact ⟨_, .negNothing ha hx hb h1 hC hB, hd⟩
      · have hB' := Set.nonempty_iff_ne_empty.2 hB
        obtain ⟨r1, r2⟩ := q1 hB'
        obtain ⟨c', e, hd⟩ := r1 (r2 _ hc)
        rw [e] at hc; cases hc
        exact ⟨_, .negBytes ha hx hb h1 hC hB' (r2 _ e), hd⟩
    · have hC' := Set.nonempty_iff_ne_empty.2 hC
      obtain ⟨r1, r2⟩ := neg_denotes (o := o) hR he h2 hC'
      obtain ⟨c', e, hd⟩ := r1 (r2 _ hc)
      rw [e] at hc; cases hc
      exact ⟨_, .neg ha hx hb h1 hC' (r2 _ e), hd⟩
  | start h ih =>
    obtain ⟨M, h1, h2⟩ := ih hp
    exact ⟨M, .start h1, h2⟩
  | union h h' hop hc ih ih' =>
    obtain ⟨M, h1, h2⟩ := ih fun x hx => hp x (by simp [hx])
    obtain ⟨N, h3, h4⟩ := ih' fun x hx => hp x (by simp [hx])
    obtain ⟨c', e, hd⟩ := combine_denotes (op := .union) h2 h4
    rw [e] at hc; cases hc
    exact ⟨_, .union h1 h3 hop, hd⟩
  | @binary neg op op' p x s q a b c j k h hx h' hc ih ih' =>
    obtain ⟨M, h1, h2⟩ := ih fun x hx => hp x (by simp [hx])
    obtain ⟨N, h3, h4⟩ := ih' fun x hx => hp x (by simp [hx])
    obtain ⟨c', e, hd⟩ := combine_denotes (op := s) h2 h4
    rw [e] at hc; cases hc
    exact ⟨_, .binary h1 (setOp_iff.1 hx) h3, hd⟩
  | range hx hy hz hab =>
    have := ccOf_lt (first := false) (hp _ (by simp)) hz
    exact ⟨_, .range (ccOf_iff.1 hx) hy (ccOf_iff.1 hz) hab, chars_denotes (by omega) this⟩
  | @charThenClass first x y p a c k hx hy h ih =>
    obtain ⟨M, h1, h2⟩ := ih fun x hx => hp x (by simp [hx])
    have := ccOf_lt (hp _ (by simp)) hx
    have w := RangeSet.insert_wf h2.wf (show a ≤ a + 1 by omega) (by omega)
    refine ⟨_, .charThenClass (ccOf_iff.1 hx) hy h1, RangeSet.insert_wf w (show 45 ≤ 46 by omega) (by omega), fun x => ?_, h2.bytes, h2.adds⟩
    dsimp only
    rw [RangeSet.insert_has w (by omega), RangeSet.insert_has h2.wf (by omega), Set.mem_union, ← h2.chars]
    simp only [Bool.or_eq_true, Bool.and_eq_true, decide_eq_true_eq, Set.mem_insert_iff, Set.mem_singleton_iff]
    constructor
    · rintro ((h | h) | h)
      · exact .inl h
      · exact .inr (.inl (by omega))
      · exact .inr (.inr (by omega))
    · rintro (h | h | h)
      · exact .inl (.inl h)
      · exact .inl (.inr (by omega))
      · exact .inr (by omega)
  | @byteRange first x y z a b s hx hy hz hab hs =>
    have hb : b < 256 := by have := hp z (by simp); rw [hz] at this; exact this
    obtain ⟨t, e, ht⟩ := Encoders.setRange_has (s := 0) (show a ≤ b + 1 by omega) (show b + 1 ≤ 256 by omega)
    rw [e] at hs; cases hs
    refine ⟨_, .byteRange hx hy hz hab, nil_wf, fun x => by simp [byteSet, has, RangeSet.below], fun x => ?_, by simp [byteSet]⟩
    simp only [byteSet]
    rw [ht, NfaBuilder.has_zero]
    simp; omega
  | @byteThenClass first x y p a c k hx hy h ih =>
    obtain ⟨M, h1, h2⟩ := ih fun x hx => hp x (by simp [hx])
    have ha : a < 256 := by have := hp x (by simp); rw [hx] at this; exact this
    refine ⟨_, .byteThenClass hx hy h1, RangeSet.insert_wf h2.wf (show 45 ≤ 46 by omega) (by omega), fun x => ?_, fun x => ?_, h2.adds⟩
    · dsimp only
      rw [RangeSet.insert_has h2.wf (by omega), Set.mem_union, ← h2.chars]
      simp only [Bool.or_eq_true, Bool.and_eq_true, decide_eq_true_eq, Set.mem_singleton_iff]
      refine or_congr Iff.rfl ?_
      omega
    · dsimp only
      rw [Encoders.has_setByte ha, Set.mem_union, ← h2.bytes]
      simp
  | nested h ih =>
    obtain ⟨M, h1, h2⟩ := ih hp
    exact ⟨M, .nested h1, h2⟩
  | @char first x a hx =>
    have := ccOf_lt (hp _ (by simp)) hx
    refine ⟨_, .char (ccOf_iff.1 hx), ?_⟩
    have := chars_denotes (le_refl a) this
    rwa [show {c | a ≤ c ∧ c ≤ a} = ({a} : Set Nat) by ext c; simp; omega] at this
  | hyphen hx =>
    refine ⟨_, .hyphen hx, ?_⟩
    have := chars_denotes (le_refl 45) (by omega)
    rwa [show {c | 45 ≤ c ∧ c ≤ 45} = ({45} : Set Nat) by ext c; simp; omega] at this
  | @byte first x a hx =>
    have ha : a < 256 := by have := hp x (by simp); rw [hx] at this; exact this
    exact ⟨_, .byte hx, single_denotes ha⟩

theorem says_cc (hR : R.Of env) (he : env.Sound) {nt : CNT} {p : List LTok} {M : Meaning}
    (h : ClassSays R o nt p M) (hp : ∀ x ∈ p, x.tok.Ok) : ∃ c k, CC env o nt p c k ∧ Denotes c M := by
  induction h with
  | @named t s S h hv =>
    obtain ⟨h1, h2⟩ := hR.named o s
    cases hS : env.named o.ascii (!o.cased) s with
    | none => rw [h1.2 hS] at hv; cases hv
    | some v =>
      exact ⟨_, _, .named h hS, he.named _ _ _ _ hS, h2 S v hv hS, fun b => by simp [NfaBuilder.has_zero'], by simp⟩
  | pos ha hb h hne ih =>
    obtain ⟨c, k, h1, h2⟩ := ih fun x hx => hp x (by simp [hx])
    obtain ⟨c', e, hd⟩ := (pos_denotes (o := o) hR he h2).1 hne
    exact ⟨_, _, .pos ha hb h1 e, hd⟩
  | neg ha hx hb h hC hne ih =>
    obtain ⟨c, k, h1, h2⟩ := ih fun x hx => hp x (by simp [hx])
    obtain ⟨c', e, hd⟩ := (neg_denotes (o := o) hR he h2 hC).1 hne
    exact ⟨_, _, .neg ha hx hb h1 e, hd⟩
  | negBytes ha hx hb h hC hB hne ih =>
    obtain ⟨c, k, h1, h2⟩ := ih fun x hx => hp x (by simp [hx])
    obtain ⟨c', e, hd⟩ := ((neg_denotes' (env := env) (o := o) h2 hC).1 hB).1 hne
    exact ⟨_, _, .neg ha hx hb h1 e, hd⟩
  | negNothing ha hx hb h hC hB ih =>
    obtain ⟨c, k, h1, h2⟩ := ih fun x hx => hp x (by simp [hx])
    obtain ⟨c', e, hd⟩ := (neg_denotes' (env := env) (o := o) h2 hC).2 hB
    exact ⟨_, _, .neg ha hx hb h1 e, hd⟩
  | start h ih =>
    obtain ⟨c, k, h1, h2⟩ := ih hp
    exact ⟨_, _, .start h1, h2⟩
  | union h h' hop ih ih' =>
    obtain ⟨c, k, h1, h2⟩ := ih fun x hx => hp x (by simp [hx])
    obtain ⟨d, j, h3, h4⟩ := ih' fun x hx => hp x (by simp [hx])
    obtain ⟨c', e, hd⟩ := combine_denotes (op := .union) h2 h4
    exact ⟨_, _, .union h1 h3 hop e, hd⟩
  | @binary neg op op' p x s q M N h hx h' ih ih' =>
    obtain ⟨c, k, h1, h2⟩ := ih fun x hx => hp x (by simp [hx])
    obtain ⟨d, j, h3, h4⟩ := ih' fun x hx => hp x (by simp [hx])
    obtain ⟨c', e, hd⟩ := combine_denotes (op := s) h2 h4
    exact ⟨_, _, .binary h1 (setOp_iff.2 hx) h3 e, hd⟩
  | range hx hy hz hab =>
    have d : CC env o _ _ _ _ := .range (ccOf_iff.2 hx) hy (ccOf_iff.2 hz) hab
    obtain ⟨M, hM, hd⟩ := cc_says hR he d hp
    have := ccOf_lt (first := false) (hp _ (by simp)) (ccOf_iff.2 hz)
    exact ⟨_, _, d, chars_denotes (by omega) this⟩
  | @charThenClass first x y p a M hx hy h ih =>
    obtain ⟨c, k, h1, h2⟩ := ih fun x hx => hp x (by simp [hx])
    have := ccOf_lt (hp _ (by simp)) (ccOf_iff.2 hx)
    have w := RangeSet.insert_wf h2.wf (show a ≤ a + 1 by omega) (by omega)
    refine ⟨_, _, .charThenClass (ccOf_iff.2 hx) hy h1, RangeSet.insert_wf w (show 45 ≤ 46 by omega) (by omega), fun x => ?_, h2.bytes, h2.adds⟩
    dsimp only
    rw [RangeSet.insert_has w (by omega), RangeSet.insert_has h2.wf (by omega), Set.mem_union, ← h2.chars]
    simp only [Bool.or_eq_true, Bool.and_eq_true, decide_eq_true_eq, Set.mem_insert_iff, Set.mem_singleton_iff]
    constructor
    · rintro ((h | h) | h)
      · exact .inl h
      · exact .inr (.inl (by omega))
      · exact .inr (.inr (by omega))
    · rintro (h | h | h)
      · exact .inl (.inl h)
      · exact .inl (.inr (by omega))
      · exact .inr (by omega)
  | @byteRange first x y z a b hx hy hz hab =>
    have hb : b < 256 := by have := hp z (by simp); rw [hz] at this; exact this
    obtain ⟨t, e, ht⟩ := Encoders.setRange_has (s := 0) (show a ≤ b + 1 by omega) (show b + 1 ≤ 256 by omega)
    refine ⟨_, _, .byteRange hx hy hz hab e, nil_wf, fun x => by simp [byteSet, has, RangeSet.below], fun x => ?_, by simp [byteSet]⟩
    simp only [byteSet]
    rw [ht, NfaBuilder.has_zero]
    simp; omega
  | @byteThenClass first x y p a M hx hy h ih =>
    obtain ⟨c, k, h1, h2⟩ := ih fun x hx => hp x (by simp [hx])
    have ha : a < 256 := by have := hp x (by simp); rw [hx] at this; exact this
    refine ⟨_, _, .byteThenClass hx hy h1, RangeSet.insert_wf h2.wf (show 45 ≤ 46 by omega) (by omega), fun x => ?_, fun x => ?_, h2.adds⟩
    · dsimp only
      rw [RangeSet.insert_has h2.wf (by omega), Set.mem_union, ← h2.chars]
      simp only [Bool.or_eq_true, Bool.and_eq_true, decide_eq_true_eq, Set.mem_singleton_iff]
      refine or_congr Iff.rfl ?_
      omega
    · dsimp only
      rw [Encoders.has_setByte ha, Set.mem_union, ← h2.bytes]
      simp
  | nested h ih =>
    obtain ⟨c, k, h1, h2⟩ := ih hp
    exact ⟨_, _, .nested h1, h2⟩
  | @char first x a hx =>
    have := ccOf_lt (hp _ (by simp)) (ccOf_iff.2 hx)
    refine ⟨_, _, .char (ccOf_iff.2 hx), ?_⟩
    have := chars_denotes (le_refl a) this
    rwa [show {c | a ≤ c ∧ c ≤ a} = ({a} : Set Nat) by ext c; simp; omega] at this
  | hyphen hx =>
    refine ⟨_, _, .hyphen hx, ?_⟩
    have := chars_denotes (le_refl 45) (by omega)
    rwa [show {c | 45 ≤ c ∧ c ≤ 45} = ({45} : Set Nat) by ext c; simp; omega] at this
  | @byte first x a hx =>
    have ha : a < 256 := by have := hp x (by simp); rw [hx] at this; exact this
    exact ⟨_, _, .byte hx, single_denotes ha⟩

/-! ## Patterns -/

theorem cls_strings (enc : Nat → List Nat) {c : Cls} {M : Meaning} (h : Denotes c M) :
    textSem enc (.cls c.cps c.brk c.additive) = classStrings enc M := by
  have hw : ∀ w, (∃ x, has c.cps x = true ∧ enc x ≠ [] ∧ w = toBytes (enc x)) ↔ w ∈ written enc M.chars := by
    intro w
    exact exists_congr fun x => and_congr (h.chars x) Iff.rfl
  have hb : ∀ w, (∃ b, c.brk.has b = true ∧ w = [b]) ↔ w ∈ single M.bytes := by
    intro w
    exact exists_congr fun x => and_congr (h.bytes x) Iff.rfl
  ext w
  cases ha : c.additive with
  | true =>
    have : M.adds := h.adds.1 ha
    show (_ ∨ _) ↔ (_ ∨ _)
    rw [hw, hb]
    simp [this]
  | false =>
    have : ¬ M.adds := fun hh => by rw [h.adds.2 hh] at ha; cases ha
    show (_ ∧ ¬ _) ↔ (_ ∨ _)
    rw [hw, hb]
    simp [this]

theorem character_iff {t : Tok} {c : Nat} : character t = some c ↔ PlainChar t c := by
  constructor
  · intro h
    cases t <;> simp only [character, Option.some.injEq, reduceCtorEq] at h
    · subst h; exact .char
    · subst h; exact .digit
    · split at h
      · next hm => cases h; exact .sym (by simp only [List.mem_cons, List.not_mem_nil, or_false] at hm ⊢; omega)
      · cases h
  · intro h
    cases h with
    | char => rfl
    | digit => rfl
    | sym h =>
      simp only [List.mem_cons, List.not_mem_nil, or_false] at h
      rcases h with h | h | h | h | h | h | h | h | h | h <;> subst h <;> rfl

theorem literal_strings (hR : R.Of env) (enc : Nat → List Nat) {c : Nat} (hc : c < 0x110000) :
    ∃ a, literal env o c = .ok a ∧ textSem enc a = written enc (R.close o {c}) := by
  have hw : WF 0x110000 (RangeSet.insert [] c (c + 1)) := RangeSet.insert_wf nil_wf (by omega) (by omega)
  have hh : ∀ x, has (RangeSet.insert [] c (c + 1)) x = true ↔ x = c := by
    intro x
    rw [RangeSet.insert_has nil_wf (by omega)]
    simp [has, RangeSet.below]; omega
  have hs : {x | has (RangeSet.insert [] c (c + 1)) x = true} = {c} := by ext x; exact hh x
  unfold literal
  split
  · next hcs =>
    refine ⟨_, rfl, ?_⟩
    rw [hR.cased o _ hcs]
    ext w
    exact ⟨fun h => ⟨c, rfl, h⟩, by rintro ⟨x, rfl, h⟩; exact h⟩
  · next hcs =>
    obtain ⟨v, b, e, hv, hb⟩ := hR.fold o _ (by simpa using hcs) hw
    rw [hs] at hv
    rw [e]
    cases b with
    | true =>
      refine ⟨_, rfl, ?_⟩
      ext w
      constructor
      · rintro (⟨x, h1, h2⟩ | ⟨b, h1, -⟩)
        · exact ⟨x, (hv x).1 h1, h2⟩
        · rw [NfaBuilder.has_zero] at h1; cases h1
      · rintro ⟨x, h1, h2⟩
        exact .inl ⟨x, (hv x).2 h1, h2⟩
    | false =>
      refine ⟨_, rfl, ?_⟩
      have : R.close o {c} = {c} := by
        ext x
        rw [← hv, hb rfl, hh]; rfl
      rw [this]
      ext w
      exact ⟨fun h => ⟨c, rfl, h⟩, by rintro ⟨x, rfl, h⟩; exact h⟩

theorem twice_strings (enc : Nat → List Nat) (c : Nat) :
    lang (textSem enc) (twice c) = written enc {c} * written enc {c} := by
  have : textSem enc (.lit c) = written enc {c} := by
    ext w
    exact ⟨fun h => ⟨c, rfl, h⟩, by rintro ⟨x, rfl, h⟩; exact h⟩
  simp only [twice, lang, this]

theorem byte_strings (enc : Nat → List Nat) {b : Nat} (hlt : b < 256) :
    lang (textSem enc) (.leaf (.byte (UInt8.ofNat b))) = single {c | c.toNat = b} := by
  ext w
  constructor
  · rintro h
    have h : w = [UInt8.ofNat b] := h
    exact ⟨_, Encoders.ofNat_toNat hlt, h⟩
  · rintro ⟨c, h1, rfl⟩
    have h1 : c.toNat = b := h1
    show [c] = [UInt8.ofNat b]
    rw [← h1, UInt8.ofNat_toNat]

theorem dot_strings (enc : Nat → List Nat) : lang (textSem enc) (.leaf .dot) = written enc Set.univ := by
  ext w
  exact ⟨fun ⟨c, h⟩ => ⟨c, trivial, h⟩, fun ⟨c, _, h⟩ => ⟨c, h⟩⟩

theorem simple_says (hR : R.Of env) (enc : Nat → List Nat) {x : LTok} (hx : x.tok.Ok) {t : Tree Node} {k : Nat}
    (h : simpleAtom env o x.tok = some (.ok (t, k))) (hn : NoLook t) :
    Says R enc .atom o [x] (lang (textSem enc) t) o := by
  cases W : RangeSet.flip 0x110000 wordSet with
  | none =>
    obtain ⟨W', e, -⟩ := RangeSet.flip_spec (N := 0x110000) (by omega) wordSet_wf
    rw [e] at W; cases W
  | some W' =>
  unfold simpleAtom at h
  split at h
  · simp only [W, orUb, bind, Except.bind, Option.some.injEq, Except.ok.injEq, Prod.mk.injEq] at h
    obtain ⟨rfl, rfl⟩ := h
    exact hn.1.1.elim
  · simp only [W, orUb, bind, Except.bind, Option.some.injEq, Except.ok.injEq, Prod.mk.injEq] at h
    obtain ⟨rfl, rfl⟩ := h
    exact hn.1.1.elim
  · cases h; exact hn.elim
  · cases h; exact hn.elim
  · cases h; exact hn.elim
  · cases h; exact hn.elim
  · next b hb =>
    cases h
    have hlt : b < 256 := by rw [hb] at hx; exact hx
    rw [byte_strings enc hlt]
    exact .byte hb
  · next hd =>
    cases h
    rw [dot_strings enc]
    exact .dot hd
  · next hd => cases h; rw [twice_strings]; exact .twice (by rw [hd]; constructor)
  · next hd => cases h; rw [twice_strings]; exact .twice (by rw [hd]; constructor)
  · next hd => cases h; rw [twice_strings]; exact .twice (by rw [hd]; constructor)
  · split at h
    · next c hc =>
      obtain ⟨a, e, hs⟩ := literal_strings (o := o) hR enc (character_lt hx hc)
      rw [e] at h
      simp only [bind, Except.bind, Option.some.injEq, Except.ok.injEq, Prod.mk.injEq] at h
      obtain ⟨rfl, rfl⟩ := h
      show Says R enc .atom o [x] (textSem enc a) o
      rw [hs]
      exact .char (character_iff.1 hc)
    · cases h

theorem re_says (hR : R.Of env) (he : env.Sound) (enc : Nat → List Nat) {nt : NT} {o : Opts} {p : List LTok}
    {t : Tree Node} {o' : Opts} {k : Nat} (h : Re env nt o p t o' k) (hp : ∀ x ∈ p, x.tok.Ok) (hn : NoLook t) :
    Says R enc nt o p (lang (textSem enc) t) o' := by
  induction h with
  | concat h ih => exact .concat (ih hp hn)
  | alt h hx h' ih ih' =>
    exact .alt (ih (fun x hx => hp x (by simp [hx])) hn.1) hx (ih' (fun x hx => hp x (by simp [hx])) hn.2)
  | switchAlt h h' ih => exact .switchAlt h (ih (fun x hx => hp x (by simp [hx])) hn)
  | rep h ih => exact .rep (ih hp hn)
  | cat h h' hb ih ih' =>
    exact .cat (ih (fun x hx => hp x (by simp [hx])) hn.1) (ih' (fun x hx => hp x (by simp [hx])) hn.2) hb
  | kill h hx ih => exact hn.elim
  | catSwitch h h' ih => exact .catSwitch (ih (fun x hx => hp x (by simp [hx])) hn) h'
  | atom h ih => exact .atom (ih hp hn)
  | quant h h' ih => exact .quant (ih (fun x hx => hp x (by simp [hx])) hn) h'
  | group ha h hc ih => exact .group ha (ih (fun x hx => hp x (by simp [hx])) hn) hc
  | behindPos ha hx hy hz h hc ih => exact hn.elim
  | behindNeg ha hx hy hz h hc ih => exact hn.elim
  | aheadPos ha hx hy h hc ih => exact hn.elim
  | aheadNeg ha hx hy h hc ih => exact hn.elim
  | simple h => exact simple_says hR enc (hp _ (by simp)) h hn
  | cls h =>
    obtain ⟨M, h1, h2⟩ := cc_says hR he h hp
    show Says R enc .atom _ _ (textSem enc _) _
    rw [cls_strings enc h2]
    exact .cls h1

theorem says_re (hR : R.Of env) (he : env.Sound) (enc : Nat → List Nat) {nt : NT} {o : Opts} {p : List LTok}
    {L : Language UInt8} {o' : Opts} (h : Says R enc nt o p L o') (hp : ∀ x ∈ p, x.tok.Ok) :
    ∃ t k, Re env nt o p t o' k ∧ NoLook t ∧ lang (textSem enc) t = L := by
  induction h with
  | concat h ih =>
    obtain ⟨t, k, a, b, c⟩ := ih hp
    exact ⟨t, k, .concat a, b, c⟩
  | alt h hx h' ih ih' =>
    obtain ⟨t, k, a, b, c⟩ := ih fun x hx => hp x (by simp [hx])
    obtain ⟨t', k', a', b', c'⟩ := ih' fun x hx => hp x (by simp [hx])
    exact ⟨_, _, .alt a hx a', ⟨b, b'⟩, by simp only [lang, c, c']⟩
  | switchAlt h h' ih =>
    obtain ⟨t, k, a, b, c⟩ := ih fun x hx => hp x (by simp [hx])
    exact ⟨t, k, .switchAlt h a, b, c⟩
  | rep h ih =>
    obtain ⟨t, k, a, b, c⟩ := ih hp
    exact ⟨t, k, .rep a, b, c⟩
  | cat h h' hb ih ih' =>
    obtain ⟨t, k, a, b, c⟩ := ih fun x hx => hp x (by simp [hx])
    obtain ⟨t', k', a', b', c'⟩ := ih' fun x hx => hp x (by simp [hx])
    exact ⟨_, _, .cat a a' hb, ⟨b, b'⟩, by simp only [lang, c, c']⟩
  | catSwitch h h' ih =>
    obtain ⟨t, k, a, b, c⟩ := ih fun x hx => hp x (by simp [hx])
    exact ⟨t, k, .catSwitch a h', b, c⟩
  | atom h ih =>
    obtain ⟨t, k, a, b, c⟩ := ih hp
    exact ⟨t, k, .atom a, b, c⟩
  | quant h h' ih =>
    obtain ⟨t, k, a, b, c⟩ := ih fun x hx => hp x (by simp [hx])
    exact ⟨_, _, .quant a h', b, by simp only [lang, c]; rfl⟩
  | group ha h hc ih =>
    obtain ⟨t, k, a, b, c⟩ := ih fun x hx => hp x (by simp [hx])
    exact ⟨t, k, .group ha a hc, b, c⟩
  | @char o x c hx =>
    have hc := character_iff.2 hx
    have hlt : c < 0x110000 := character_lt (hp _ (by simp)) hc
    obtain ⟨a, e, hs⟩ := literal_strings (o := o) hR enc hlt
    have key : simpleAtom env o x.tok = some (.ok (.leaf a, 1)) := by
      have : ∀ t, character t = some c → simpleAtom env o t = some (do let a ← literal env o c; .ok (.leaf a, 1)) := by
        intro t ht
        cases character_iff.1 ht with
        | char => rfl
        | digit => rfl
        | sym h =>
          simp only [List.mem_cons, List.not_mem_nil, or_false] at h
          rcases h with h | h | h | h | h | h | h | h | h | h <;> subst h <;> rfl
      rw [this _ hc, e]; rfl
    exact ⟨_, _, .simple key, trivial, hs⟩
  | @twice o x c hx =>
    have key : simpleAtom env o x.tok = some (.ok (Parser.twice c, 3)) := by
      generalize x.tok = t at hx
      cases hx <;> rfl
    exact ⟨_, _, .simple key, ⟨trivial, trivial⟩, twice_strings enc c⟩
  | @byte o x b hx =>
    have hlt : b < 256 := by have := hp x (by simp); rw [hx] at this; exact this
    exact ⟨.leaf (.byte (UInt8.ofNat b)), 1, .simple (by rw [hx]; rfl), trivial, byte_strings enc hlt⟩
  | dot hx => exact ⟨.leaf .dot, 1, .simple (by rw [hx]; rfl), trivial, dot_strings enc⟩
  | cls h =>
    obtain ⟨c, k, h1, h2⟩ := says_cc hR he h hp
    exact ⟨_, _, .cls h1, trivial, cls_strings enc h2⟩

/-- **C69** Classes.  A list of tokens is a class for the parser if and only if it says
something, and then the class the parser makes has the characters and bytes it says. -/
theorem class_meaning (hR : R.Of env) (he : env.Sound) {p : List LTok} (hp : ∀ x ∈ p, x.tok.Ok) :
    (∀ c k, CC env o .charclass p c k → ∃ M, ClassSays R o .charclass p M ∧ Denotes c M) ∧
    (∀ M, ClassSays R o .charclass p M → ∃ c k, CC env o .charclass p c k ∧ Denotes c M) :=
  ⟨fun _ _ h => cc_says hR he h hp, fun _ h => says_cc hR he h hp⟩

/-- The options a pattern starts with. -/
def startOpts (p : PatternOpts) : Opts := ⟨!p.caseless, !p.unicode⟩

/-- The text says that the byte strings are `L`. -/
def TextSays (R : Reading) (env : Env) (enc : Nat → List Nat) (p : PatternOpts) (text : List Int)
    (L : Language UInt8) : Prop :=
  ∃ b o', Says R enc (.alt b) (startOpts p) (lex env p.fixed text.length text.length text) L o'

/-- **C70** Patterns.  The parser makes a tree without lookarounds of a text if and only if the
text says something, and then the tree's byte strings are the ones it says. -/
theorem text_meaning (hR : R.Of env) (he : env.Sound) (enc : Nat → List Nat) {p : PatternOpts} {text : List Int}
    (ht : ∀ c ∈ text, c < 0x110000) (L : Language UInt8) :
    TextSays R env enc p text L ↔
      ∃ t k, parse env p text = .ok (t, k) ∧ NoLook t ∧ lang (textSem enc) t = L := by
  have hok := (lex_lexed he p.fixed text.length text.length text (Nat.le_refl _) ht).ok
  constructor
  · rintro ⟨b, o', h⟩
    obtain ⟨t, k, h1, h2, h3⟩ := says_re hR he enc h hok
    exact ⟨t, k + 1, (parse_iff_derives _ _ _ _ _).2 ⟨b, o', k, h1, rfl⟩, h2, h3⟩
  · rintro ⟨t, k, h1, h2, rfl⟩
    obtain ⟨b, o', k', hr, -⟩ := (parse_iff_derives _ _ _ _ _).1 h1
    exact ⟨b, o', re_says hR he enc hr hok h2⟩

/-- A text does not say two different things. -/
theorem text_says_once (hR : R.Of env) (he : env.Sound) {enc : Nat → List Nat} {p : PatternOpts} {text : List Int}
    (ht : ∀ c ∈ text, c < 0x110000) {L K : Language UInt8} (h : TextSays R env enc p text L)
    (h' : TextSays R env enc p text K) : L = K := by
  obtain ⟨t, k, h1, -, rfl⟩ := (text_meaning hR he enc ht L).1 h
  obtain ⟨t', k', h1', -, rfl⟩ := (text_meaning hR he enc ht K).1 h'
  rw [h1] at h1'
  cases h1'
  rfl

/-! ## From what the texts say to the hits -/

open Verif.Session

/-- The byte string is one of those that a request asks for: its text, decoded from UTF-8, says
so for the encoding that its chain names. -/
def Asks [Chain.Build] (R : Reading) (env : Env) (r : Request) (w : List UInt8) : Prop :=
  ∃ text k ts L, Text.codePoints r.expr = some text ∧ Chain.Reads r.chain k ts ∧
    TextSays R env (charBytes k ts) r.opts text L ∧ w ∈ L

/-- The bytes of the stream `data`, which starts at offset `off`, from `s` to `f` are asked
for. -/
def AskedAt [Chain.Build] (R : Reading) (env : Env) (r : Request) (off : Nat) (data : List UInt8) (s f : Nat) : Prop :=
  off ≤ s ∧ s < f ∧ f ≤ off + data.length ∧ Asks R env r ((data.drop (s - off)).take (f - s))

theorem asks_iff [Chain.Build] (hR : R.Of env) (he : env.Sound) {r : Request} (hn : Parsed env r NoLook) (w : List UInt8) :
    Asks R env r w ↔ Matches env r w := by
  constructor
  · rintro ⟨text, k, ts, L, h1, h2, h3, h4⟩
    obtain ⟨t, j, p1, -, rfl⟩ := (text_meaning hR he _ (Text.codePoints_spans h1).lt L).1 h3
    exact ⟨t, j, k, ts, by rw [Text.parseText, h1]; exact p1, h2, h4⟩
  · rintro ⟨t, j, k, ts, h1, h2, h3⟩
    have hnl := hn t j h1
    unfold Text.parseText at h1
    split at h1
    · cases h1
    · next text ht =>
      exact ⟨text, k, ts, _, ht, h2, (text_meaning hR he _ (Text.codePoints_spans ht).lt _).2 ⟨t, j, h1, hnl, rfl⟩, h3⟩

theorem asked_iff [Chain.Build] (hR : R.Of env) (he : env.Sound) {r : Request} (hn : Parsed env r NoLook) {off : Nat} {data : List UInt8}
    (s f : Nat) : AskedAt R env r off data s f ↔ MatchAt env r off data s f := by
  unfold AskedAt MatchAt
  rw [asks_iff hR he hn]

theorem accepted_noLook [Chain.Build] (he : env.Sound) {rs : List Request} {os : List (Option Nat)} {g : Nfa.Graph} {P : Vm.Program}
    (h : Compiled env rs os g P) {i l : Nat} {r : Request} (hr : rs[i]? = some r) (ho : os[i]? = some (some l)) :
    Parsed env r NoLook := by
  obtain ⟨ps, -, -, h4, -⟩ := h.made' he
  obtain ⟨t', -, ha⟩ := h4 i r l hr ho
  exact ha.noLook

/-- **C70** Every hit carries the number of an accepted request, and its bytes are asked for by
that request. -/
theorem hits_are_asked_for [Chain.Build] (hR : R.Of env) (he : env.Sound) {rs : List Request} {os : List (Option Nat)} {g : Nfa.Graph}
    {P : Vm.Program} (h : Compiled env rs os g P)
    {fuel : Nat} {first : List Vm.Thread} {σ₀ : Vm.St} (hnew : Vm.create P fuel = .ok (first, σ₀))
    {data : Nat → UInt8} {p q : Nat} {cs : List Vm.Call} (hs : Vm.Stream data p cs q)
    {res : List (Option Nat)} {σ : Vm.St} (hrun : Vm.run P first fuel cs σ₀ = .ok (res, σ)) :
    ∀ x ∈ σ.log, ∃ (i : Nat) (r : Request), rs[i]? = some r ∧ os[i]? = some (some x.label) ∧
      Asks R env r (Vm.seg data x.start x.end) := by
  intro x hx
  obtain ⟨i, r, h1, h2, h3⟩ := (text_hits_match he h).2 hnew hs hrun x hx
  exact ⟨i, r, h1, h2, (asks_iff hR he (accepted_noLook he h h1 h2) _).2 h3⟩

/-- **C70** If no accepted pattern has an unbounded repetition: the hits with the number of an
accepted request without non-greedy repetitions inside other repetitions and without a branch that is only `{0}` before a bar are
the leftmost non-overlapping places it asks for. -/
theorem asked_for_is_hit [Chain.Build] (hR : R.Of env) (he : env.Sound) {rs : List Request} {os : List (Option Nat)} {g : Nfa.Graph}
    {P : Vm.Program} (h : Compiled env rs os g P) (hb : ∀ r ∈ rs, Parsed env r Fsm.NoUnb)
    {fuel : Nat} {first : List Vm.Thread} {σ₀ : Vm.St} (hnew : Vm.create P fuel = .ok (first, σ₀))
    {off : Nat} {bufs : List (List UInt8)} {res : List (Option Nat)} {σ : Vm.St}
    (hrun : Vm.run P first fuel (Vm.searches off bufs) σ₀ = .ok (res, σ)) {i l : Nat} {r : Request}
    (hr : rs[i]? = some r) (ho : os[i]? = some (some l)) (hng : Parsed env r Regex.NgFlat) (hnd : Parsed env r Regex.NoBlank) :
    Compiler.Leftmost (AskedAt R env r off bufs.flatten) 0 (Vm.hitsOf l σ.log) := by
  have e : AskedAt R env r off bufs.flatten = MatchAt env r off bufs.flatten := by
    funext s f
    exact propext (asked_iff hR he (accepted_noLook he h hr ho) s f)
  rw [e]
  exact bounded_text_hits he h hb hnew hrun hr ho hng hnd

/-! ## A build without ICU -/

/-- The horizontal white space. -/
def HSpace : Set Nat := {x | x ∈ [0x09, 0x20, 0xA0, 0x1680, 0x180E, 0x202F, 0x205F, 0x3000] ∨ (0x2000 ≤ x ∧ x ≤ 0x200A)}

/-- The vertical white space. -/
def VSpace : Set Nat := {x | x ∈ [0x0A, 0x0B, 0x0C, 0x0D, 0x85, 0x2028, 0x2029]}

/-- A class, or all other code points. -/
def signedSet (neg : Bool) (S : Set Nat) : Set Nat := if neg then Cps \ S else S

/-- The named classes, and both cases of the ASCII letters. -/
def plainReading : Reading where
  named o n :=
    match n with
    | .digit neg => some (signedSet neg {x | 48 ≤ x ∧ x ≤ 57})
    | .word neg => some (signedSet neg {x | (48 ≤ x ∧ x ≤ 57) ∨ (65 ≤ x ∧ x ≤ 90) ∨ (97 ≤ x ∧ x ≤ 122) ∨ x = 95})
    | .space neg => some (signedSet neg (if o.ascii then {x | (9 ≤ x ∧ x ≤ 13) ∨ x = 32} else HSpace ∪ VSpace))
    | .hspace neg => some (signedSet neg HSpace)
    | .vspace neg => some (signedSet neg VSpace)
    | .prop _ => none
  close o S := if o.cased then S else {y | ∃ x ∈ S, x = y ∨ ParseUtil.OtherCase x y}

theorem signed_means {neg : Bool} {c : RangeSet.Vec} (hc : WF 0x110000 c) {S : Set Nat} (h : ∀ x, has c x = true ↔ x ∈ S) :
    ∃ v, signed neg c = some v ∧ ∀ x, has v x = true ↔ x ∈ signedSet neg S := by
  cases neg with
  | false => exact ⟨c, rfl, h⟩
  | true =>
    obtain ⟨v, e, -, hv⟩ := flip_denotes (c := ⟨c, 0, true⟩) hc h
    exact ⟨v, e, hv⟩

theorem isClass_has {c : RangeSet.Vec} (hc : WF 0x110000 c) {P : Nat → Prop} (h : ParseUtil.IsClass c P) (x : Nat) :
    has c x = true ↔ P x := by
  rw [← RangeSet.test_eq_has hc]; exact h.1 x

theorem plain_reading : plainReading.Of plain := by
  obtain ⟨b1, b2, b3, H, V, hH, hV, b4, b5, b6⟩ := ParseUtil.builtin_classes
  have sp : ∀ {neg : Bool} {c : RangeSet.Vec} (hc : WF 0x110000 c) {P : Nat → Prop} (h : ParseUtil.IsClass c P) (S : Set Nat),
      (∀ x, P x ↔ x ∈ S) → (some (signedSet neg S) = none ↔ signed neg c = none) ∧
      ∀ T v, some (signedSet neg S) = some T → signed neg c = some v → ∀ x, has v x = true ↔ x ∈ T := by
    intro neg c hc P h S hS
    obtain ⟨v, e, hv⟩ := signed_means (neg := neg) hc (S := S) (fun x => (isClass_has hc h x).trans (hS x))
    rw [e]
    refine ⟨by simp, ?_⟩
    rintro T v' rfl' e'
    cases rfl'; cases e'
    exact hv
  refine ⟨fun o n => ?_, fun o S h => ?_, fun o s h hs => ?_⟩
  · cases n with
    | digit neg => exact sp (ParseUtil.build_spec _ (by simp [ParseUtil.cps])).1 b1 _ (fun x => Iff.rfl)
    | word neg => exact sp (ParseUtil.build_spec _ (by simp [ParseUtil.cps])).1 b2 _ (fun x => Iff.rfl)
    | hspace neg => exact sp (ParseUtil.build_spec _ (by simp [ParseUtil.cps, ParseUtil.hSpaceRanges])).1 b4 _ hH
    | vspace neg => exact sp (ParseUtil.build_spec _ (by simp [ParseUtil.cps, ParseUtil.vSpaceRanges])).1 b5 _ hV
    | space neg =>
      cases ho : o.ascii with
      | true =>
        have := sp (neg := neg) (c := ParseUtil.spaceClass true) (ParseUtil.build_spec _ (by simp [ParseUtil.cps])).1 b3
          {x | (9 ≤ x ∧ x ≤ 13) ∨ x = 32} (fun x => Iff.rfl)
        simpa [plainReading, plain, ho] using this
      | false =>
        have := sp (neg := neg) (c := ParseUtil.spaceClass false) (ParseUtil.build_spec _ (by simp [ParseUtil.cps, ParseUtil.hSpaceRanges, ParseUtil.vSpaceRanges])).1 b6
          (HSpace ∪ VSpace) (fun x => or_congr (hH x) (hV x))
        simpa [plainReading, plain, ho] using this
    | prop t => exact ⟨by simp [plainReading, plain], fun T v h => by cases h⟩
  · simp [plainReading, h]
  · obtain ⟨v, b, e, w, h1, h2, h3, h4⟩ := ParseUtil.case_folding s hs
    refine ⟨v, b, e, fun x => ?_, fun hb x => ?_⟩
    · simp only [plainReading, h, Bool.false_eq_true, if_false, Set.mem_ofPred_eq]
      rw [← RangeSet.test_eq_has w]
      constructor
      · intro hx
        refine h3 (fun y => ∃ x, has s x = true ∧ (x = y ∨ ParseUtil.OtherCase x y)) ?_ ?_ x hx
        · intro x hx
          rw [RangeSet.test_eq_has hs] at hx
          exact ⟨x, hx, .inl rfl⟩
        · rintro x y hxy ⟨z, hz, rfl | hzx⟩
          · exact ⟨z, hz, .inr hxy⟩
          · refine ⟨z, hz, .inl ?_⟩
            unfold ParseUtil.OtherCase at hxy hzx
            omega
      · rintro ⟨z, hz, rfl | hzx⟩
        · exact h1 _ (by rw [RangeSet.test_eq_has hs]; exact hz)
        · exact h2 _ _ hzx (h1 _ (by rw [RangeSet.test_eq_has hs]; exact hz))
    · have hno : ¬ ∃ x, RangeSet.test v x = true ∧ RangeSet.test s x = false := by
        rw [← h4, hb]; simp
      have := h1 x
      rw [RangeSet.test_eq_has hs, RangeSet.test_eq_has w] at this
      cases hsx : has s x with
      | true => exact this hsx
      | false =>
        by_contra hcon
        exact hno ⟨x, by rw [RangeSet.test_eq_has w]; simpa using hcon, by rw [RangeSet.test_eq_has hs]; exact hsx⟩

/-! ## Examples -/

/-- `[^b-d]` means all code points but those. -/
example : ClassSays plainReading ⟨true, true⟩ .charclass (lex plain false 6 6 [91, 94, 98, 45, 100, 93])
    ⟨Cps \ {c | 98 ≤ c ∧ c ≤ 100}, ∅, True ∧ (∅ : Set UInt8) = ∅⟩ := by
  have e : lex plain false 6 6 [91, 94, 98, 45, 100, 93] = ⟨.sym 91, 0, 1⟩ :: ⟨.sym 94, 1, 2⟩ ::
      ([⟨.char 98, 2, 3⟩, ⟨.sym 45, 3, 4⟩, ⟨.char 100, 4, 5⟩] ++ [⟨.sym 93, 5, 6⟩]) := by decide +kernel
  rw [e]
  refine .neg rfl rfl rfl (.start (.range .char rfl .char (by omega))) ⟨98, by simp⟩ ⟨0, ?_⟩
  simp [Cps, plainReading]

/-- `(?i)ab|[b-d&&[^c]]{2,}.` says something. -/
example (enc : Nat → List Nat) : ∃ L, TextSays plainReading plain enc ⟨false, false, false⟩
    [40, 63, 105, 41, 97, 98, 124, 91, 98, 45, 100, 38, 38, 91, 94, 99, 93, 93, 123, 50, 44, 125, 46] L := by
  have h : (match parse plain ⟨false, false, false⟩
      [40, 63, 105, 41, 97, 98, 124, 91, 98, 45, 100, 38, 38, 91, 94, 99, 93, 93, 123, 50, 44, 125, 46] with
      | .ok (t, _) => (Regex.combine t).isSome
      | .error _ => false) = true := by decide +kernel
  split at h
  · next t k hp =>
    cases hc : Regex.combine t with
    | none => rw [hc] at h; cases h
    | some q =>
      refine ⟨_, (text_meaning plain_reading plain_sound enc (by decide) _).2 ⟨t, k, hp, (Regex.combine_noLook t q hc).1, rfl⟩⟩
  · cases h

/-- The class `[^a\zFF]`, wherever it stands: every character but `a`, without the byte FF. -/
theorem negated_byte (i : Nat) : ClassSays plainReading ⟨true, true⟩ .charclass
    (⟨.sym 91, i, i + 1⟩ :: ⟨.sym 94, i + 1, i + 2⟩ ::
      (([⟨.sym 97, i + 2, i + 3⟩] ++ [⟨.byte 255, i + 3, i + 7⟩]) ++ [⟨.sym 93, i + 7, i + 8⟩]))
    ⟨Cps \ {97}, {c | c.toNat = 255}, False⟩ := by
  have h : ClassSays plainReading ⟨true, true⟩ (.expr true true)
      ([⟨.sym 97, i + 2, i + 3⟩] ++ [⟨.byte 255, i + 3, i + 7⟩]) ⟨{97} ∪ ∅, ∅ ∪ {c | c.toNat = 255}, True⟩ :=
    .union (.start (.char (.sym (by simp)))) (.byte rfl) (by rintro - ⟨u, us, h, h'⟩; cases h; cases h')
  have hb : (⟨Cps \ {97}, {c | c.toNat = 255}, False⟩ : Meaning) =
      ⟨Cps \ plainReading.close ⟨true, true⟩ ({97} ∪ ∅), ∅ ∪ {c | c.toNat = 255},
        True ∧ ∅ ∪ {c : UInt8 | c.toNat = 255} = ∅⟩ := by
    have : ¬ ({c : UInt8 | c.toNat = 255} = ∅) := fun h => by
      have : (255 : UInt8) ∈ (∅ : Set UInt8) := by rw [← h]; rfl
      exact this
    simp only [plainReading, if_true, Set.union_empty, Set.empty_union, this, and_false]
  rw [hb]
  exact .neg rfl rfl rfl h ⟨97, by simp⟩ ⟨0, by simp [Cps, plainReading]⟩

/-- **C69** Union does not commute.  `[b[^a\zFF]]` and `[[^a\zFF]b]` both join `b` to the class
of everything but `a` and the byte FF.  The first accepts the byte FF, the second does not. -/
theorem union_order_matters (enc : Nat → List Nat) (henc : ∀ c, toBytes (enc c) ≠ [255]) :
    ∃ L K, TextSays plainReading plain enc ⟨false, false, false⟩ [91, 98, 91, 94, 97, 92, 122, 70, 70, 93, 93] L ∧
      TextSays plainReading plain enc ⟨false, false, false⟩ [91, 91, 94, 97, 92, 122, 70, 70, 93, 98, 93] K ∧
      [255] ∈ L ∧ [255] ∉ K := by
  have e1 : lex plain false 11 11 [91, 98, 91, 94, 97, 92, 122, 70, 70, 93, 93] =
      ⟨.sym 91, 0, 1⟩ :: (([⟨.char 98, 1, 2⟩] ++ (⟨.sym 91, 2, 2 + 1⟩ :: ⟨.sym 94, 2 + 1, 2 + 2⟩ ::
      (([⟨.sym 97, 2 + 2, 2 + 3⟩] ++ [⟨.byte 255, 2 + 3, 2 + 7⟩]) ++ [⟨.sym 93, 2 + 7, 2 + 8⟩]))) ++ [⟨.sym 93, 10, 11⟩]) := by
    decide +kernel
  have e2 : lex plain false 11 11 [91, 91, 94, 97, 92, 122, 70, 70, 93, 98, 93] =
      ⟨.sym 91, 0, 1⟩ :: (((⟨.sym 91, 1, 1 + 1⟩ :: ⟨.sym 94, 1 + 1, 1 + 2⟩ ::
      (([⟨.sym 97, 1 + 2, 1 + 3⟩] ++ [⟨.byte 255, 1 + 3, 1 + 7⟩]) ++ [⟨.sym 93, 1 + 7, 1 + 8⟩])) ++ [⟨.char 98, 9, 10⟩]) ++ [⟨.sym 93, 10, 11⟩]) := by
    decide +kernel
  have c1 := ClassSays.pos (a := ⟨.sym 91, 0, 1⟩) (b := ⟨.sym 93, 10, 11⟩) rfl rfl
    (.union (.start (.char (R := plainReading) (o := ⟨true, true⟩) (x := ⟨.char 98, 1, 2⟩) .char)) (.nested (negated_byte 2))
      (by rintro - ⟨u, us, h, h'⟩; cases h; cases h')) (.inl ⟨98, by simp [plainReading]⟩)
  have c2 := ClassSays.pos (a := ⟨.sym 91, 0, 1⟩) (b := ⟨.sym 93, 10, 11⟩) rfl rfl
    (.union (.start (.nested (negated_byte 1))) (.char (R := plainReading) (o := ⟨true, true⟩) (x := ⟨.char 98, 9, 10⟩) .char)
      (by simp)) (.inl ⟨98, by simp [plainReading]⟩)
  have s1 := Says.concat (.rep (.atom (.cls (enc := enc) c1)))
  have s2 := Says.concat (.rep (.atom (.cls (enc := enc) c2)))
  rw [← e1] at s1
  rw [← e2] at s2
  refine ⟨_, _, ⟨true, _, s1⟩, ⟨true, _, s2⟩, ?_, ?_⟩
  · exact .inl ⟨trivial, .inr ⟨255, .inr rfl, rfl⟩⟩
  · rintro (⟨h, -⟩ | ⟨-, ⟨c, -, -, h⟩, -⟩)
    · exact h
    · exact henc c h.symm

/-- In UTF-8 no character is the byte FF. -/
example : ∀ c, toBytes (charBytes (.std .utf8) [] c) ≠ [255] := by
  intro c h
  have hl := congrArg List.length h
  simp only [toBytes, charBytes, List.length_map, List.length_singleton, Chain.Coding.spec, Decoders.Charset.spec] at hl
  by_cases hs : Utf.Scalar c
  · simp only [hs, if_true, Option.getD_some] at hl
    by_cases hc : c < 0x80
    · simp [toBytes, charBytes, Chain.Coding.spec, Decoders.Charset.spec, hs, Utf.spec8, hc, Transforms.applyAll] at h
      have := congrArg UInt8.toNat h
      simp at this
      omega
    · unfold Utf.spec8 at hl
      rw [if_neg hc] at hl
      split at hl
      · simp at hl
      · split at hl <;> simp at hl
  · simp [hs] at hl

end Verif.Meaning
