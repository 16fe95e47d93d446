import Verif.Props.Meaning
import Verif.Props.ParseErrors
/-!
# C71: the tokens that a pattern's text is made of

`Verif.Props.Meaning` says what a pattern asks for as a reading of its tokens.  This file says
which tokens a text has, as relations that do not mention the lexer, and proves that the lexer
finds exactly those.
-/
namespace Verif.Lexer
open Parser

/-! ## Specification -/

/-- What a backslash and one more character stand for, when that character is enough. -/
inductive OneEscape : Int → Tok → Prop where
  /-- a character with a meaning of its own stands for itself: ``| ( ) ? + * . [ ] ^ $ - { } & ~ < = ! \`` -/
  | itself {c : Int} (h : c ∈ ([124, 40, 41, 63, 43, 42, 46, 91, 93, 94, 36, 45, 123, 125, 38, 126, 60, 61, 33, 92] : List Int)) :
      OneEscape c (.char c.toNat)
  /-- `\a`, the bell -/
  | bell : OneEscape 97 (.char 0x07)
  /-- `\e`, escape -/
  | esc : OneEscape 101 (.char 0x1B)
  /-- `\f`, form feed -/
  | feed : OneEscape 102 (.char 0x0C)
  /-- `\n`, line feed -/
  | line : OneEscape 110 (.char 0x0A)
  /-- `\r`, carriage return -/
  | ret : OneEscape 114 (.char 0x0D)
  /-- `\t`, tabulator -/
  | tab : OneEscape 116 (.char 0x09)
  /-- `\d`, `\D` -/
  | digit : OneEscape 100 (.set (.digit false))
  | notDigit : OneEscape 68 (.set (.digit true))
  /-- `\s`, `\S` -/
  | space : OneEscape 115 (.set (.space false))
  | notSpace : OneEscape 83 (.set (.space true))
  /-- `\h`, `\H` -/
  | hspace : OneEscape 104 (.set (.hspace false))
  | notHspace : OneEscape 72 (.set (.hspace true))
  /-- `\v`, `\V` -/
  | vspace : OneEscape 118 (.set (.vspace false))
  | notVspace : OneEscape 86 (.set (.vspace true))
  /-- `\w`, `\W` -/
  | word : OneEscape 119 (.set (.word false))
  | notWord : OneEscape 87 (.set (.word true))
  /-- the assertions `\A`, `\B`, `\K`, `\Z`, `\b` -/
  | textStart : OneEscape 65 .textStart
  | noBoundary : OneEscape 66 .notWord
  | kill : OneEscape 75 .kill
  | textEnd : OneEscape 90 .textEnd
  | boundary : OneEscape 98 .word

/-- `Escapes text tok rest`: the text after a backslash begins with an escape that stands for
the token `tok`, and `rest` follows it. -/
inductive Escapes (env : Env) : List Int → Tok → List Int → Prop where
  | one {c t tok} : OneEscape c tok → Escapes env (c :: t) tok t
  /-- `\x41`, `\x{41}`, `\101`, `\N{U+41}` -/
  | number {t n r} : ParseUtil.Escape t (.char n) r → Escapes env t (.char n) r
  /-- `\z41`, a byte -/
  | byte {t n r} : ParseUtil.Escape t (.byte n) r → Escapes env t (.byte n) r
  /-- `\N{LATIN SMALL LETTER A}` -/
  | name {t n r} : (∀ q, t ≠ 85 :: 43 :: q) → env.byName t = (some n, r) → Escapes env (78 :: 123 :: t) (.char n) r
  /-- `\p{name}` and `\P{name}`, with a name of ASCII characters -/
  | prop {c name r} : c = 112 ∨ c = 80 → 125 ∉ name → (∀ x ∈ name, 0 ≤ x ∧ x < 128) →
      env.isProp (92 :: c :: 123 :: name) = true →
      Escapes env (c :: 123 :: (name ++ 125 :: r)) (.set (.prop (92 :: c :: 123 :: name))) r

/-- `Begins text tok rest`: the text of a regular expression begins with the token `tok`, and
`rest` follows it. -/
inductive Begins (env : Env) : List Int → Tok → List Int → Prop where
  /-- the characters that mean something, or may: `a i | ( ) ? + * . [ ] ^ $ { } , < = !` -/
  | symbol {c t} (h : c ∈ ([97, 105, 124, 40, 41, 63, 43, 42, 46, 91, 93, 94, 36, 123, 125, 44, 60, 61, 33] : List Int)) :
      Begins env (c :: t) (.sym c.toNat) t
  /-- two ampersands are an operator, one is a character -/
  | amps {t} : Begins env (38 :: 38 :: t) .amps t
  | amp {t} (h : ∀ r, t ≠ 38 :: r) : Begins env (38 :: t) (.char 38) t
  /-- two tildes are an operator, one is a character -/
  | tildes {t} : Begins env (126 :: 126 :: t) .tildes t
  | tilde {t} (h : ∀ r, t ≠ 126 :: r) : Begins env (126 :: t) (.char 126) t
  /-- two hyphens are an operator; one is a character at the end of the text and before `]`,
  and otherwise may be the middle of a range -/
  | hyphens {t} : Begins env (45 :: 45 :: t) .hyphens t
  | lastHyphen {t} (h : t = [] ∨ ∃ r, t = 93 :: r) : Begins env (45 :: t) (.char 45) t
  | hyphen {x t} (h : x ≠ 45 ∧ x ≠ 93) : Begins env (45 :: x :: t) (.sym 45) (x :: t)
  | digit {c t} (h : 48 ≤ c ∧ c ≤ 57) : Begins env (c :: t) (.digit c.toNat) t
  | escape {t tok r} : Escapes env t tok r → Begins env (92 :: t) tok r
  /-- every other character, as long as it is not the null character and was readable -/
  | char {c t} (h1 : 1 ≤ c) (h2 : ¬ (48 ≤ c ∧ c ≤ 57))
      (h : c ∉ ([97, 105, 124, 40, 41, 63, 43, 42, 46, 91, 93, 94, 36, 123, 125, 44, 60, 61, 33, 38, 126, 45, 92] : List Int)) :
      Begins env (c :: t) (.char c.toNat) t

/-- The text of a regular expression is made of these tokens. -/
inductive MadeOf (env : Env) : List Int → List Tok → Prop where
  | nil : MadeOf env [] []
  | cons {text tok rest toks} : Begins env text tok rest → MadeOf env rest toks → MadeOf env text (tok :: toks)

/-- The tokens of a fixed string: every character stands for itself; null characters and bytes
that are not UTF-8 are not allowed. -/
def Plainly (text : List Int) (toks : List Tok) : Prop :=
  (∀ c ∈ text, 1 ≤ c) ∧ toks = text.map fun c => .char c.toNat

/-- The text says that the byte strings are `L`: it is made of tokens that say so. -/
def TextMeans (R : Meaning.Reading) (env : Env) (enc : Nat → List Nat) (p : PatternOpts) (text : List Int)
    (L : Language UInt8) : Prop :=
  ∃ toks, (if p.fixed then Plainly text toks else MadeOf env text toks) ∧
    ∃ ts b o', ts.map LTok.tok = toks ∧ Meaning.Says R enc (.alt b) (Meaning.startOpts p) ts L o'

/-! ## Proofs -/

/-- A token that stands for a mistake in the text. -/
def Mistake (tok : Tok) : Prop := tok = .bad ∨ tok = .noProp

theorem numeric_iff {byName : List Int → Option Nat × List Int} {text : List Int} (h : ParseUtil.Numeric text)
    {k : ParseUtil.Tok} {r : List Int} (hk : k ≠ .bad) :
    ParseUtil.consumeNumeric byName text = some (k, r) ↔ ParseUtil.Escape text k r := by
  obtain ⟨tok, rest, h1, h2, h3⟩ := ParseUtil.numeric_escape byName text h
  rw [h1]
  constructor
  · intro e
    cases e
    exact (h3 hk).1
  · intro he
    by_cases hb : tok = .bad
    · exact absurd he (h2 hb _ _)
    · obtain ⟨rfl, rfl⟩ := (h3 hb).2 _ _ he
      rfl

theorem hexDigit_range {c : Int} {d : Nat} (h : ParseUtil.HexDigit c d) : (48 ≤ c ∧ c ≤ 57) ∨ (65 ≤ c ∧ c ≤ 70) ∨ (97 ≤ c ∧ c ≤ 102) := by
  unfold ParseUtil.HexDigit at h; omega

theorem escape_numeric {text k r} (h : ParseUtil.Escape text k r) : ParseUtil.Numeric text ∧ k ≠ .bad ∧
    ∃ c t, text = c :: t ∧ (c = 120 ∨ c = 122 ∨ (48 ≤ c ∧ c ≤ 55) ∨ c = 78) := by
  cases h with
  | hex => exact ⟨Or.inl rfl, by simp, _, _, rfl, Or.inl rfl⟩
  | hexBrace => exact ⟨Or.inl rfl, by simp, _, _, rfl, Or.inl rfl⟩
  | byte => exact ⟨Or.inr (Or.inl rfl), by simp, _, _, rfl, Or.inr (Or.inl rfl)⟩
  | oct h1 h2 =>
    cases h1 with
    | nil => simp at h2
    | cons hab _ =>
      unfold ParseUtil.OctDigit at hab
      exact ⟨Or.inr (Or.inr (Or.inl (by omega))), by simp, _, _, rfl, by omega⟩
  | named =>
    refine ⟨Or.inr (Or.inr (Or.inr ⟨rfl, ?_⟩)), by simp, _, _, rfl, by omega⟩
    intro r e
    cases e
    exact ⟨_, rfl⟩

theorem ascii_escapes {c : Int} {v : Nat} (h : asciiEscape c = some v) : OneEscape c (.char v) := by
  unfold asciiEscape at h
  repeat' split at h
  all_goals first | (cases h; done) | (subst_vars; cases h; constructor)

theorem class_escapes {c : Int} {n : Named} (h : classEscape c = some n) : OneEscape c (.set n) := by
  unfold classEscape at h
  repeat' split at h
  all_goals first | (cases h; done) | (subst_vars; cases h; constructor)

theorem assert_escapes {c : Int} {k : Tok} (h : assertEscape c = some k) : OneEscape c k := by
  unfold assertEscape at h
  repeat' split at h
  all_goals first | (cases h; done) | (subst_vars; cases h; constructor)

theorem mem_takeWhile {p : Int → Bool} : ∀ {l : List Int} {x : Int}, x ∈ l.takeWhile p → p x = true
  | y :: ys, x, h => by
    rw [List.takeWhile_cons] at h
    split at h
    · rename_i hy
      rcases List.mem_cons.1 h with rfl | h
      exacts [hy, mem_takeWhile h]
    · simp at h

theorem takeWhile_self {p : Int → Bool} : ∀ {l : List Int}, (∀ x ∈ l, p x = true) → l.takeWhile p = l
  | [], _ => rfl
  | y :: ys, h => by
    rw [List.takeWhile_cons, if_pos (h y (by simp)), takeWhile_self fun x hx => h x (by simp [hx])]

/-- The name of a property, up to the closing brace. -/
theorem takeWhile_until {name r : List Int} (h : 125 ∉ name) :
    (name ++ 125 :: r).takeWhile (· ≠ 125) = name := by
  induction name with
  | nil => simp
  | cons x xs ih =>
    have hx : x ≠ 125 := fun e => h (by simp [e])
    have ih := ih (fun hm => h (by simp [hm]))
    simp only [List.cons_append, List.takeWhile_cons]
    simp only [ne_eq, decide_not] at ih
    simp [hx, ih]

theorem until_split : ∀ {t : List Int}, 125 ∈ t →
    t = t.takeWhile (· ≠ 125) ++ 125 :: t.drop ((t.takeWhile (· ≠ 125)).length + 1) ∧ 125 ∉ t.takeWhile (· ≠ 125)
  | [], h => by simp at h
  | x :: xs, h => by
    by_cases hx : x = 125
    · subst hx; simp
    · have := until_split (t := xs) (by simpa [Ne.symm hx] using h)
      simp only [ne_eq, decide_not] at this
      simp only [ne_eq, decide_not, List.takeWhile_cons, hx, decide_false, Bool.not_false, if_true, List.length_cons,
        List.drop_succ_cons, List.cons_append, List.cons.injEq, true_and, List.mem_cons, not_or]
      exact ⟨this.1, fun e => hx e.symm, this.2⟩

theorem property_iff {env : Env} {c : Int} (hc : c = 112 ∨ c = 80) {t : List Int} {tok : Tok} {r : List Int} :
    (property env c t = (tok, r) ∧ ¬ Mistake tok) ↔
      ∃ name, t = 123 :: (name ++ 125 :: r) ∧ 125 ∉ name ∧ (∀ x ∈ name, 0 ≤ x ∧ x < 128) ∧
        env.isProp (92 :: c :: 123 :: name) = true ∧ tok = .set (.prop (92 :: c :: 123 :: name)) := by
  constructor
  · rintro ⟨h, hm⟩
    unfold property at h
    split at h
    · cases h; exact absurd (Or.inl rfl) hm
    · rename_i d s
      split at h
      · cases h; exact absurd (Or.inl rfl) hm
      · rename_i hd
        have hd : d = 123 := by simpa using hd
        subst hd
        split at h
        · rename_i hmem
          obtain ⟨h1, h2⟩ := until_split hmem
          have e : (123 :: s : List Int).takeWhile (· ≠ 125) = 123 :: s.takeWhile (· ≠ 125) := by simp
          rw [e] at h1 h2
          simp only [e] at h
          split at h
          · rename_i hg
            split at h
            · rename_i hp
              cases h
              refine ⟨s.takeWhile (· ≠ 125), ?_, fun hx => h2 (List.mem_cons_of_mem _ hx), ?_, hp, rfl⟩
              · simpa using h1
              · intro x hx
                have : x ∈ (123 :: s.takeWhile (· ≠ 125)).takeWhile (fun x => decide (0 ≤ x ∧ x < 128)) := by
                  rw [hg]; exact List.mem_cons_of_mem _ hx
                simpa using mem_takeWhile this
            · cases h; exact absurd (Or.inr rfl) hm
          · cases h; exact absurd (Or.inl rfl) hm
        · cases h; exact absurd (Or.inl rfl) hm
  · rintro ⟨name, rfl, h1, h2, h3, rfl⟩
    refine ⟨?_, by simp [Mistake]⟩
    have e : (123 :: (name ++ 125 :: r) : List Int).takeWhile (· ≠ 125) = 123 :: name := by
      have := takeWhile_until (r := r) h1
      simp only [ne_eq, decide_not] at this
      simp [this]
    have g : (123 :: name : List Int).takeWhile (fun x => decide (0 ≤ x ∧ x < 128)) = 123 :: name := by
      refine takeWhile_self ?_
      intro x hx
      rcases List.mem_cons.1 hx with rfl | hx
      · decide
      · simpa using h2 x hx
    unfold property
    simp only [ne_eq, not_true_eq_false, if_false]
    rw [if_pos (by simp)]
    simp only [ne_eq] at e
    simp only [e, g, if_true, h3]
    simp

theorem escape_escapes {env : Env} {t : List Int} {tok : Tok} {r : List Int} (h : escape env t = (tok, r))
    (hm : ¬ Mistake tok) : Escapes env t tok r := by
  cases t with
  | nil => cases h; exact absurd (Or.inl rfl) hm
  | cons c t =>
    rw [escape] at h
    split at h
    · rename_i hc
      cases h
      exact .one (.itself hc)
    · split at h
      · rename_i ha; cases h; exact .one (ascii_escapes ha)
      · split at h
        · rename_i ha; cases h; exact .one (class_escapes ha)
        · have num : ∀ k, ParseUtil.consumeNumeric env.byName (c :: t) = some (k, r) → k ≠ .bad →
              (ParseUtil.Escape (c :: t) k r) ∨ ∃ s n, c = 78 ∧ t = 123 :: s ∧ (∀ q, s ≠ 85 :: 43 :: q) ∧ k = .char n ∧
                env.byName s = (some n, r) := by
            intro k hk hb
            by_cases hn : ParseUtil.Numeric (c :: t)
            · exact Or.inl ((numeric_iff hn hb).1 hk)
            · refine Or.inr ?_
              simp only [ParseUtil.Numeric, not_or, not_and, not_forall] at hn
              obtain ⟨h1, h2, h3, h4⟩ := hn
              simp only [ParseUtil.consumeNumeric, h1, h2, if_false] at hk
              rw [if_neg (fun hx => h3 hx.1 hx.2)] at hk
              split at hk
              · rename_i h78
                obtain ⟨s, hs, hq⟩ := h4 h78
                subst hs
                have hq : ∀ q, s ≠ 85 :: 43 :: q := fun q e => hq ⟨q, e⟩
                have hk := Option.some.inj hk
                unfold ParseUtil.parseNamedCodePoint at hk
                simp only [ne_eq, not_true_eq_false, if_false] at hk
                unfold ParseUtil.consumeSingleton at hk
                split at hk
                · cases hk; exact absurd rfl hb
                · rename_i v hv
                  cases hk
                  exact ⟨s, v, h78, rfl, hq, rfl, by rw [← hv]⟩
              · cases hk
          split at h
          · rename_i hn
            cases h
            rcases num _ hn (by simp) with he | ⟨s, n, rfl, rfl, hq, e, hb⟩
            · exact .number he
            · cases e; exact .name hq hb
          · rename_i hn
            cases h
            rcases num _ hn (by simp) with he | ⟨s, n, rfl, rfl, hq, e, hb⟩
            · exact .byte he
            · cases e
          · cases h; exact absurd (Or.inl rfl) hm
          · split at h
            · rename_i hc
              obtain ⟨name, rfl, h1, h2, h3, rfl⟩ := (property_iff hc).1 ⟨h, hm⟩
              exact .prop hc h1 h2 h3
            · split at h
              · rename_i ha; cases h; exact .one (assert_escapes ha)
              · cases h; exact absurd (Or.inl rfl) hm

theorem not_metas {c : Int} (h : c = 120 ∨ c = 122 ∨ (48 ≤ c ∧ c ≤ 55) ∨ c = 78 ∨ c = 112 ∨ c = 80) :
    c ∉ metas ∧ asciiEscape c = none ∧ classEscape c = none := by
  refine ⟨?_, ?_, ?_⟩
  · simp only [metas, List.mem_cons, List.not_mem_nil, or_false]; omega
  · unfold asciiEscape
    repeat rw [if_neg (by omega)]
  · unfold classEscape
    repeat rw [if_neg (by omega)]

theorem escapes_escape {env : Env} {t : List Int} {tok : Tok} {r : List Int} (h : Escapes env t tok r) :
    escape env t = (tok, r) ∧ ¬ Mistake tok := by
  have num : ∀ {t k r}, ParseUtil.Escape t k r → ∃ c s, t = c :: s ∧ c ∉ metas ∧ asciiEscape c = none ∧
      classEscape c = none ∧ ParseUtil.consumeNumeric env.byName (c :: s) = some (k, r) := by
    intro t k r he
    obtain ⟨h1, h2, c, s, rfl, hc⟩ := escape_numeric he
    obtain ⟨m1, m2, m3⟩ := not_metas (c := c) (by omega)
    exact ⟨c, s, rfl, m1, m2, m3, (numeric_iff h1 h2).2 he⟩
  cases h with
  | @one c t tok h =>
    cases h with
    | itself h => exact ⟨by rw [escape, if_pos (show c ∈ metas from h)], by simp [Mistake]⟩
    | _ => exact ⟨by simp [escape, metas, asciiEscape, classEscape, assertEscape, ParseUtil.consumeNumeric], by simp [Mistake]⟩
  | number he =>
    obtain ⟨c, s, rfl, m1, m2, m3, hn⟩ := num he
    exact ⟨by simp only [escape, if_neg m1, m2, m3, hn], by simp [Mistake]⟩
  | byte he =>
    obtain ⟨c, s, rfl, m1, m2, m3, hn⟩ := num he
    exact ⟨by simp only [escape, if_neg m1, m2, m3, hn], by simp [Mistake]⟩
  | @name s n r hq hb =>
    refine ⟨?_, by simp [Mistake]⟩
    obtain ⟨m1, m2, m3⟩ := not_metas (c := 78) (by omega)
    have hp : ParseUtil.parseNamedCodePoint env.byName (123 :: s) = (some n, r) := by
      unfold ParseUtil.parseNamedCodePoint
      simp only [ne_eq, not_true_eq_false, if_false]
      exact hb
    have hn : ParseUtil.consumeNumeric env.byName (78 :: 123 :: s) = some (.char n, r) := by
      simp [ParseUtil.consumeNumeric, hp, ParseUtil.consumeSingleton]
    simp only [escape, if_neg m1, m2, m3, hn]
  | @prop c name r hc h1 h2 h3 =>
    obtain ⟨m1, m2, m3⟩ := not_metas (c := c) (by omega)
    obtain ⟨hp, hm⟩ := (property_iff (env := env) (r := r) hc).2 ⟨name, rfl, h1, h2, h3, rfl⟩
    refine ⟨?_, hm⟩
    have hn : ParseUtil.consumeNumeric env.byName (c :: 123 :: (name ++ 125 :: r)) = none := by
      unfold ParseUtil.consumeNumeric
      simp only
      rw [if_neg (by omega), if_neg (by omega), if_neg (by omega), if_neg (by omega)]
    simp only [escape, if_neg m1, m2, m3, hn, if_pos hc, hp]

theorem lexOne_begins {env : Env} {c : Int} {t : List Int} {tok : Tok} {r : List Int}
    (h : lexOne env false c t = (tok, r)) (hm : ¬ Mistake tok) : Begins env (c :: t) tok r := by
  unfold lexOne at h
  split at h
  · cases h; exact absurd (Or.inl rfl) hm
  rename_i h1
  rw [if_neg (by simp)] at h
  split at h
  · rename_i hc; cases h; exact .symbol hc
  rename_i hsy
  split at h
  · rename_i hc
    subst hc
    split at h
    · cases h; exact .amps
    · rename_i hx; cases h; exact .amp fun r e => hx r e
  split at h
  · rename_i hc
    subst hc
    split at h
    · cases h; exact .tildes
    · rename_i hx; cases h; exact .tilde fun r e => hx r e
  split at h
  · rename_i hc
    subst hc
    split at h
    · cases h; exact .lastHyphen (Or.inl rfl)
    · cases h; exact .lastHyphen (Or.inr ⟨_, rfl⟩)
    · cases h; exact .hyphens
    · rename_i x1 x2 x3
      cases h
      cases t with
      | nil => exact absurd rfl x1
      | cons x r => exact .hyphen ⟨fun e => x3 r (by rw [e]), fun e => x2 r (by rw [e])⟩
  split at h
  · rename_i hc; subst hc; exact .escape (escape_escapes h hm)
  split at h
  · rename_i hc; cases h; exact .digit hc
  · rename_i h38 h126 h45 h92 hd
    cases h
    refine .char (by omega) hd ?_
    simp only [symbols, List.mem_cons, List.not_mem_nil, or_false] at hsy ⊢
    omega

theorem begins_lexOne {env : Env} {text : List Int} {tok : Tok} {r : List Int} (h : Begins env text tok r) :
    ∃ c t, text = c :: t ∧ lexOne env false c t = (tok, r) ∧ ¬ Mistake tok := by
  cases h with
  | @symbol c t h =>
    refine ⟨c, r, rfl, ?_, by simp [Mistake]⟩
    have h1 : ¬ c < 1 := by simp only [List.mem_cons, List.not_mem_nil, or_false] at h; omega
    have hs : c ∈ symbols := h
    simp [lexOne, h1, hs]
  | amps => exact ⟨_, _, rfl, by simp [lexOne, symbols], by simp [Mistake]⟩
  | amp h =>
    refine ⟨_, _, rfl, ?_, by simp [Mistake]⟩
    simp only [lexOne, symbols]
    simp
    try (split <;> simp_all)
  | tildes => exact ⟨_, _, rfl, by simp [lexOne, symbols], by simp [Mistake]⟩
  | tilde h =>
    refine ⟨_, _, rfl, ?_, by simp [Mistake]⟩
    simp only [lexOne, symbols]
    simp
    try (split <;> simp_all)
  | hyphens => exact ⟨_, _, rfl, by simp [lexOne, symbols], by simp [Mistake]⟩
  | lastHyphen h =>
    refine ⟨_, _, rfl, ?_, by simp [Mistake]⟩
    rcases h with rfl | ⟨q, rfl⟩ <;> simp [lexOne, symbols]
  | hyphen h =>
    refine ⟨_, _, rfl, ?_, by simp [Mistake]⟩
    simp only [lexOne, symbols]
    simp
    try (split <;> simp_all)
  | @digit c t h =>
    refine ⟨c, r, rfl, ?_, by simp [Mistake]⟩
    have hs : c ∉ symbols := by simp only [symbols, List.mem_cons, List.not_mem_nil, or_false]; omega
    unfold lexOne
    rw [if_neg (by omega), if_neg (by simp), if_neg hs, if_neg (by omega), if_neg (by omega), if_neg (by omega),
      if_neg (by omega), if_pos h]
  | escape h =>
    obtain ⟨h1, h2⟩ := escapes_escape h
    exact ⟨_, _, rfl, by simpa [lexOne, symbols] using h1, h2⟩
  | @char c t h1 h2 h =>
    refine ⟨c, r, rfl, ?_, by simp [Mistake]⟩
    have hs : c ∉ symbols := by
      simp only [symbols, List.mem_cons, List.not_mem_nil, or_false] at h ⊢
      omega
    simp only [List.mem_cons, List.not_mem_nil, or_false] at h
    unfold lexOne
    rw [if_neg (by omega), if_neg (by simp), if_neg hs, if_neg (by omega), if_neg (by omega), if_neg (by omega),
      if_neg (by omega), if_neg h2]

/-- The tokens of a text, without their positions. -/
def tokens (env : Env) (p : PatternOpts) (text : List Int) : List Tok :=
  (lex env p.fixed text.length text.length text).map (·.tok)

theorem lex_made {env : Env} (he : env.Shortens) (N : Nat) : ∀ (n : Nat) (text : List Int) (toks : List Tok), text.length ≤ n →
    (MadeOf env text toks ↔ (lex env false N n text).map (·.tok) = toks ∧ ∀ k ∈ toks, ¬ Mistake k)
  | n, [], toks, _ => by
    have e : lex env false N n [] = [] := by cases n <;> rfl
    rw [e]
    constructor
    · intro h
      cases h with
      | nil => simp
      | cons h _ => obtain ⟨c, t, e, -⟩ := begins_lexOne h; cases e
    · rintro ⟨rfl, -⟩; exact .nil
  | 0, _ :: _, _, h => by simp at h
  | n + 1, c :: t, toks, h => by
    have hl : (lexOne env false c t).2.length ≤ n := Nat.le_trans (lexOne_length he false c t) (by simpa using h)
    rw [lex]
    simp only [List.map_cons]
    constructor
    · intro hM
      cases hM with
      | @cons _ tok rest toks hb hr =>
        obtain ⟨c', t', e, h1, h2⟩ := begins_lexOne hb
        cases e
        rw [h1] at hl ⊢
        obtain ⟨i1, i2⟩ := (lex_made he N n rest toks hl).1 hr
        refine ⟨by rw [i1], ?_⟩
        intro k hk
        rcases List.mem_cons.1 hk with rfl | hk
        exacts [h2, i2 k hk]
    · rintro ⟨rfl, hk⟩
      exact .cons (lexOne_begins rfl (hk _ (by simp))) ((lex_made he N n _ _ hl).2 ⟨rfl, fun k h => hk k (by simp [h])⟩)

/-- **C71** The lexer finds tokens without a mistake among them exactly in the texts that are
made of tokens, and they are the tokens the text is made of. -/
theorem tokens_iff {env : Env} (he : env.Shortens) {p : PatternOpts} (hp : p.fixed = false) {text : List Int}
    {toks : List Tok} : MadeOf env text toks ↔ tokens env p text = toks ∧ ∀ k ∈ toks, ¬ Mistake k := by
  unfold tokens
  rw [hp]
  exact lex_made he text.length text.length text toks (Nat.le_refl _)

/-- A text is made of tokens in one way only. -/
theorem made_of_once {env : Env} (he : env.Shortens) {text : List Int} {a b : List Tok} (ha : MadeOf env text a)
    (hb : MadeOf env text b) : a = b :=
  ((tokens_iff he (p := ⟨false, false, false⟩) rfl).1 ha).1.symm.trans
    ((tokens_iff he (p := ⟨false, false, false⟩) rfl).1 hb).1

/-! ## Only the tokens matter -/

open Meaning (ClassChar Operator ClassSays PlainChar TwiceChar Says startOpts TextSays Reading)

/-- The same tokens, perhaps at other places. -/
def Like (p q : List LTok) : Prop := p.map LTok.tok = q.map LTok.tok

theorem Like.nil {q} (h : Like [] q) : q = [] := by
  unfold Like at h
  simpa using h.symm

theorem Like.cons {x p q} (h : Like (x :: p) q) : ∃ y q', q = y :: q' ∧ y.tok = x.tok ∧ Like p q' := by
  cases q with
  | nil => simp [Like] at h
  | cons y q' =>
    simp only [Like, List.map_cons, List.cons.injEq] at h
    exact ⟨y, q', rfl, h.1.symm, h.2⟩

theorem Like.append {p p' q} (h : Like (p ++ p') q) : ∃ r r', q = r ++ r' ∧ Like p r ∧ Like p' r' := by
  unfold Like at h
  rw [List.map_append] at h
  obtain ⟨r, r', rfl, h1, h2⟩ := List.map_eq_append_iff.1 h.symm
  exact ⟨r, r', rfl, h1.symm, h2.symm⟩

theorem Like.starts {p q t} (h : Like p q) : StartsWith t q → StartsWith t p := by
  rintro ⟨u, us, rfl, hu⟩
  cases p with
  | nil => simp [Like] at h
  | cons x p =>
    simp only [Like, List.map_cons, List.cons.injEq] at h
    exact ⟨x, p, rfl, h.1.trans hu⟩

theorem Like.one {x q} (h : Like [x] q) : ∃ y, q = [y] ∧ y.tok = x.tok := by
  obtain ⟨y, q', rfl, h1, h2⟩ := h.cons
  rw [h2.nil]
  exact ⟨y, rfl, h1⟩

theorem Like.three {x y z q} (h : Like [x, y, z] q) : ∃ a b c, q = [a, b, c] ∧ a.tok = x.tok ∧ b.tok = y.tok ∧ c.tok = z.tok := by
  obtain ⟨a, q1, rfl, h1, h2⟩ := h.cons
  obtain ⟨b, q2, rfl, h3, h4⟩ := h2.cons
  obtain ⟨c, rfl, h5⟩ := h4.one
  exact ⟨a, b, c, rfl, h1, h3, h5⟩

theorem classSays_like {R : Reading} {o : Opts} {nt p M} (h : ClassSays R o nt p M) : ∀ q, Like p q → ClassSays R o nt q M := by
  induction h with
  | named h hv =>
    intro q hq
    obtain ⟨y, rfl, e⟩ := hq.one
    exact .named (e.trans h) hv
  | pos ha hb h hne ih =>
    intro q hq
    obtain ⟨a, q1, rfl, e1, l1⟩ := hq.cons
    obtain ⟨q2, q3, rfl, l2, l3⟩ := l1.append
    obtain ⟨b, rfl, e2⟩ := l3.one
    exact .pos (e1.trans ha) (e2.trans hb) (ih _ l2) hne
  | neg ha hx hb h hC hne ih =>
    intro q hq
    obtain ⟨a, q1, rfl, e1, l1⟩ := hq.cons
    obtain ⟨x, q0, rfl, e0, l0⟩ := l1.cons
    obtain ⟨q2, q3, rfl, l2, l3⟩ := l0.append
    obtain ⟨b, rfl, e2⟩ := l3.one
    exact .neg (e1.trans ha) (e0.trans hx) (e2.trans hb) (ih _ l2) hC hne
  | negBytes ha hx hb h hC hB hne ih =>
    intro q hq
    obtain ⟨a, q1, rfl, e1, l1⟩ := hq.cons
    obtain ⟨x, q0, rfl, e0, l0⟩ := l1.cons
    obtain ⟨q2, q3, rfl, l2, l3⟩ := l0.append
    obtain ⟨b, rfl, e2⟩ := l3.one
    exact .negBytes (e1.trans ha) (e0.trans hx) (e2.trans hb) (ih _ l2) hC hB hne
  | negNothing ha hx hb h hC hB ih =>
    intro q hq
    obtain ⟨a, q1, rfl, e1, l1⟩ := hq.cons
    obtain ⟨x, q0, rfl, e0, l0⟩ := l1.cons
    obtain ⟨q2, q3, rfl, l2, l3⟩ := l0.append
    obtain ⟨b, rfl, e2⟩ := l3.one
    exact .negNothing (e1.trans ha) (e0.trans hx) (e2.trans hb) (ih _ l2) hC hB
  | start h ih => exact fun q hq => .start (ih q hq)
  | union h h' hop ih ih' =>
    intro q hq
    obtain ⟨q1, q2, rfl, l1, l2⟩ := hq.append
    exact .union (ih _ l1) (ih' _ l2) fun ho hs => hop ho (l2.starts hs)
  | binary h hx h' ih ih' =>
    intro q hq
    obtain ⟨q1, q2, rfl, l1, l2⟩ := hq.append
    obtain ⟨x, q3, rfl, e, l3⟩ := l2.cons
    exact .binary (ih _ l1) (e.symm ▸ hx) (ih' _ l3)
  | range hx hy hz hab =>
    intro q hq
    obtain ⟨a, b, c, rfl, e1, e2, e3⟩ := hq.three
    exact .range (e1.symm ▸ hx) (e2.trans hy) (e3.symm ▸ hz) hab
  | charThenClass hx hy h ih =>
    intro q hq
    obtain ⟨a, q1, rfl, e1, l1⟩ := hq.cons
    obtain ⟨b, q2, rfl, e2, l2⟩ := l1.cons
    exact .charThenClass (e1.symm ▸ hx) (e2.trans hy) (ih _ l2)
  | byteRange hx hy hz hab =>
    intro q hq
    obtain ⟨a, b, c, rfl, e1, e2, e3⟩ := hq.three
    exact .byteRange (e1.trans hx) (e2.trans hy) (e3.trans hz) hab
  | byteThenClass hx hy h ih =>
    intro q hq
    obtain ⟨a, q1, rfl, e1, l1⟩ := hq.cons
    obtain ⟨b, q2, rfl, e2, l2⟩ := l1.cons
    exact .byteThenClass (e1.trans hx) (e2.trans hy) (ih _ l2)
  | nested h ih => exact fun q hq => .nested (ih q hq)
  | char hx =>
    intro q hq
    obtain ⟨y, rfl, e⟩ := hq.one
    exact .char (e.symm ▸ hx)
  | hyphen hx =>
    intro q hq
    obtain ⟨y, rfl, e⟩ := hq.one
    exact .hyphen (e.trans hx)
  | byte hx =>
    intro q hq
    obtain ⟨y, rfl, e⟩ := hq.one
    exact .byte (e.trans hx)

theorem number_like {p v} (h : Number p v) : ∀ q, Like p q → Number q v := by
  induction h with
  | one hx =>
    intro q hq
    obtain ⟨y, rfl, e⟩ := hq.one
    exact .one (by rw [e]; exact hx)
  | more h hx hv ih =>
    intro q hq
    obtain ⟨q1, q2, rfl, l1, l2⟩ := hq.append
    obtain ⟨y, rfl, e⟩ := l2.one
    exact .more (ih _ l1) (by rw [e]; exact hx) hv

theorem lazy_like {p b} (h : Lazy p b) : ∀ q, Like p q → Lazy q b := by
  intro q hq
  cases h with
  | no => rw [hq.nil]; exact .no
  | yes hx =>
    obtain ⟨y, rfl, e⟩ := hq.one
    exact .yes (e.trans hx)

theorem quant_like {p ng lo hi j} (h : Quant p ng lo hi j) : ∀ q, Like p q → Quant q ng lo hi j := by
  intro q hq
  cases h with
  | star hx h => obtain ⟨y, q', rfl, e, l⟩ := hq.cons; exact .star (e.trans hx) (lazy_like h _ l)
  | plus hx h => obtain ⟨y, q', rfl, e, l⟩ := hq.cons; exact .plus (e.trans hx) (lazy_like h _ l)
  | opt hx h => obtain ⟨y, q', rfl, e, l⟩ := hq.cons; exact .opt (e.trans hx) (lazy_like h _ l)
  | exact hx hp hy h =>
    obtain ⟨x, q1, rfl, e1, l1⟩ := hq.cons
    obtain ⟨q2, q3, rfl, l2, l3⟩ := l1.append
    obtain ⟨y, q4, rfl, e2, l4⟩ := l3.cons
    exact .exact (e1.trans hx) (number_like hp _ l2) (e2.trans hy) (lazy_like h _ l4)
  | atLeast hx hp hy hz h =>
    obtain ⟨x, q1, rfl, e1, l1⟩ := hq.cons
    obtain ⟨q2, q3, rfl, l2, l3⟩ := l1.append
    obtain ⟨y, q4, rfl, e2, l4⟩ := l3.cons
    obtain ⟨z, q5, rfl, e3, l5⟩ := l4.cons
    exact .atLeast (e1.trans hx) (number_like hp _ l2) (e2.trans hy) (e3.trans hz) (lazy_like h _ l5)
  | between hx hp hy hr hz hnm h =>
    obtain ⟨x, q1, rfl, e1, l1⟩ := hq.cons
    obtain ⟨q2, q3, rfl, l2, l3⟩ := l1.append
    obtain ⟨y, q4, rfl, e2, l4⟩ := l3.cons
    obtain ⟨q5, q6, rfl, l5, l6⟩ := l4.append
    obtain ⟨z, q7, rfl, e3, l7⟩ := l6.cons
    exact .between (e1.trans hx) (number_like hp _ l2) (e2.trans hy) (number_like hr _ l5) (e3.trans hz) hnm (lazy_like h _ l7)

theorem flags_like {on o p o'} (h : Flags on o p o') : ∀ q, Like p q → Flags on o q o' := by
  induction h with
  | ascii hx => intro q hq; obtain ⟨y, rfl, e⟩ := hq.one; exact .ascii (e.trans hx)
  | caseless hx => intro q hq; obtain ⟨y, rfl, e⟩ := hq.one; exact .caseless (e.trans hx)
  | more h h' ih ih' => intro q hq; obtain ⟨q1, q2, rfl, l1, l2⟩ := hq.append; exact .more (ih _ l1) (ih' _ l2)

theorem switch_like {o p o'} (h : Switch o p o') : ∀ q, Like p q → Switch o q o' := by
  intro q hq
  cases h with
  | on ha hb h hc =>
    obtain ⟨a, q1, rfl, e1, l1⟩ := hq.cons
    obtain ⟨b, q2, rfl, e2, l2⟩ := l1.cons
    obtain ⟨q3, q4, rfl, l3, l4⟩ := l2.append
    obtain ⟨c, rfl, e3⟩ := l4.one
    exact .on (e1.trans ha) (e2.trans hb) (flags_like h _ l3) (e3.trans hc)
  | off ha hb hd h hc =>
    obtain ⟨a, q1, rfl, e1, l1⟩ := hq.cons
    obtain ⟨b, q2, rfl, e2, l2⟩ := l1.cons
    obtain ⟨d, q5, rfl, e4, l5⟩ := l2.cons
    obtain ⟨q3, q4, rfl, l3, l4⟩ := l5.append
    obtain ⟨c, rfl, e3⟩ := l4.one
    exact .off (e1.trans ha) (e2.trans hb) (e4.trans hd) (flags_like h _ l3) (e3.trans hc)
  | both ha hb h hd h' hc =>
    obtain ⟨a, q1, rfl, e1, l1⟩ := hq.cons
    obtain ⟨b, q2, rfl, e2, l2⟩ := l1.cons
    obtain ⟨q3, q4, rfl, l3, l4⟩ := l2.append
    obtain ⟨d, q5, rfl, e4, l5⟩ := l4.cons
    obtain ⟨q6, q7, rfl, l6, l7⟩ := l5.append
    obtain ⟨c, rfl, e3⟩ := l7.one
    exact .both (e1.trans ha) (e2.trans hb) (flags_like h _ l3) (e4.trans hd) (flags_like h' _ l6) (e3.trans hc)

theorem says_like {R : Reading} {enc nt o p L o'} (h : Says R enc nt o p L o') : ∀ q, Like p q → Says R enc nt o q L o' := by
  induction h with
  | concat h ih => exact fun q hq => .concat (ih q hq)
  | alt h hx h' ih ih' =>
    intro q hq
    obtain ⟨q1, q2, rfl, l1, l2⟩ := hq.append
    obtain ⟨x, q3, rfl, e, l3⟩ := l2.cons
    exact .alt (ih _ l1) (e.trans hx) (ih' _ l3)
  | switchAlt h h' ih =>
    intro q hq
    obtain ⟨q1, q2, rfl, l1, l2⟩ := hq.append
    exact .switchAlt (switch_like h _ l1) (ih _ l2)
  | rep h ih => exact fun q hq => .rep (ih q hq)
  | cat h h' hb ih ih' =>
    intro q hq
    obtain ⟨q1, q2, rfl, l1, l2⟩ := hq.append
    exact .cat (ih _ l1) (ih' _ l2) fun ho hs => hb ho (l2.starts hs)
  | catSwitch h h' ih =>
    intro q hq
    obtain ⟨q1, q2, rfl, l1, l2⟩ := hq.append
    exact .catSwitch (ih _ l1) (switch_like h' _ l2)
  | atom h ih => exact fun q hq => .atom (ih q hq)
  | quant h h' ih =>
    intro q hq
    obtain ⟨q1, q2, rfl, l1, l2⟩ := hq.append
    exact .quant (ih _ l1) (quant_like h' _ l2)
  | group ha h hc ih =>
    intro q hq
    obtain ⟨a, q1, rfl, e1, l1⟩ := hq.cons
    obtain ⟨q3, q4, rfl, l3, l4⟩ := l1.append
    obtain ⟨c, rfl, e3⟩ := l4.one
    exact .group (e1.trans ha) (ih _ l3) (e3.trans hc)
  | char hx => intro q hq; obtain ⟨y, rfl, e⟩ := hq.one; exact .char (e.symm ▸ hx)
  | twice hx => intro q hq; obtain ⟨y, rfl, e⟩ := hq.one; exact .twice (e.symm ▸ hx)
  | byte hx => intro q hq; obtain ⟨y, rfl, e⟩ := hq.one; exact .byte (e.trans hx)
  | dot hx => intro q hq; obtain ⟨y, rfl, e⟩ := hq.one; exact .dot (e.trans hx)
  | cls h => exact fun q hq => .cls (classSays_like h q hq)

/-! ## What says something has no mistakes -/

/-- No token is a mistake. -/
def Fine (p : List LTok) : Prop := ∀ x ∈ p, ¬ Mistake x.tok

theorem fine_cons {x p} : Fine (x :: p) ↔ ¬ Mistake x.tok ∧ Fine p := by simp [Fine]

theorem fine_append {p q} : Fine (p ++ q) ↔ Fine p ∧ Fine q := by
  simp only [Fine, List.mem_append]
  exact ⟨fun h => ⟨fun x hx => h x (Or.inl hx), fun x hx => h x (Or.inr hx)⟩,
    fun h x hx => hx.elim (h.1 x) (h.2 x)⟩

theorem fine_nil : Fine [] := by simp [Fine]

theorem fine_tok {x : LTok} {t : Tok} (h : x.tok = t) (ht : ¬ Mistake t) : ¬ Mistake x.tok := by rw [h]; exact ht

theorem classChar_fine {first t c} (h : ClassChar first t c) : ¬ Mistake t := by
  cases h <;> simp [Mistake]

theorem classSays_fine {R : Reading} {o : Opts} {nt p M} (h : ClassSays R o nt p M) : Fine p := by
  induction h with
  | named h hv => simp [fine_cons, fine_nil, h, Mistake]
  | pos ha hb h hne ih => simp [fine_cons, fine_append, fine_nil, ha, hb, ih, Mistake]
  | neg ha hx hb h hC hne ih => simp [fine_cons, fine_append, fine_nil, ha, hx, hb, ih, Mistake]
  | negBytes ha hx hb h hC hB hne ih => simp [fine_cons, fine_append, fine_nil, ha, hx, hb, ih, Mistake]
  | negNothing ha hx hb h hC hB ih => simp [fine_cons, fine_append, fine_nil, ha, hx, hb, ih, Mistake]
  | start h ih => exact ih
  | union h h' hop ih ih' => exact fine_append.2 ⟨ih, ih'⟩
  | @binary neg op op' p x s q M N h hx h' ih ih' =>
    have : ¬ Mistake x.tok := by
      generalize x.tok = t at hx
      cases hx <;> simp [Mistake]
    exact fine_append.2 ⟨ih, fine_cons.2 ⟨this, ih'⟩⟩
  | range hx hy hz hab => simp [fine_cons, fine_nil, classChar_fine hx, classChar_fine hz, hy]; simp [Mistake]
  | charThenClass hx hy h ih => simp [fine_cons, classChar_fine hx, hy, ih]; simp [Mistake]
  | byteRange hx hy hz hab => simp [fine_cons, fine_nil, hx, hy, hz, Mistake]
  | byteThenClass hx hy h ih => simp [fine_cons, hx, hy, ih, Mistake]
  | nested h ih => exact ih
  | char hx => simp [fine_cons, fine_nil, classChar_fine hx]
  | hyphen hx => simp [fine_cons, fine_nil, hx, Mistake]
  | byte hx => simp [fine_cons, fine_nil, hx, Mistake]

theorem digit_fine {t d} (h : digitTok t = some d) : ¬ Mistake t := by
  rintro (rfl | rfl) <;> cases h

theorem number_fine {p v} (h : Number p v) : Fine p := by
  induction h with
  | one hx => simp [fine_cons, fine_nil, digit_fine hx]
  | more h hx hv ih => simp [fine_append, fine_cons, fine_nil, digit_fine hx, ih]

theorem lazy_fine {p b} (h : Lazy p b) : Fine p := by
  cases h with
  | no => exact fine_nil
  | yes hx => simp [fine_cons, fine_nil, hx, Mistake]

theorem quant_fine {p ng lo hi j} (h : Quant p ng lo hi j) : Fine p := by
  cases h with
  | star hx h => simp [fine_cons, hx, lazy_fine h, Mistake]
  | plus hx h => simp [fine_cons, hx, lazy_fine h, Mistake]
  | opt hx h => simp [fine_cons, hx, lazy_fine h, Mistake]
  | exact hx hp hy h => simp [fine_cons, fine_append, hx, hy, lazy_fine h, number_fine hp, Mistake]
  | atLeast hx hp hy hz h => simp [fine_cons, fine_append, hx, hy, hz, lazy_fine h, number_fine hp, Mistake]
  | between hx hp hy hr hz hnm h =>
    simp [fine_cons, fine_append, hx, hy, hz, lazy_fine h, number_fine hp, number_fine hr, Mistake]

theorem flags_fine {on o p o'} (h : Flags on o p o') : Fine p := by
  induction h with
  | ascii hx => simp [fine_cons, fine_nil, hx, Mistake]
  | caseless hx => simp [fine_cons, fine_nil, hx, Mistake]
  | more h h' ih ih' => exact fine_append.2 ⟨ih, ih'⟩

theorem switch_fine {o p o'} (h : Switch o p o') : Fine p := by
  cases h with
  | on ha hb h hc => simp [fine_cons, fine_append, fine_nil, ha, hb, hc, flags_fine h, Mistake]
  | off ha hb hd h hc => simp [fine_cons, fine_append, fine_nil, ha, hb, hc, hd, flags_fine h, Mistake]
  | both ha hb h hd h' hc => simp [fine_cons, fine_append, fine_nil, ha, hb, hc, hd, flags_fine h, flags_fine h', Mistake]

theorem says_fine {R : Reading} {enc nt o p L o'} (h : Says R enc nt o p L o') : Fine p := by
  induction h with
  | concat h ih => exact ih
  | alt h hx h' ih ih' => simp [fine_append, fine_cons, hx, ih, ih', Mistake]
  | switchAlt h h' ih => exact fine_append.2 ⟨switch_fine h, ih⟩
  | rep h ih => exact ih
  | cat h h' hb ih ih' => exact fine_append.2 ⟨ih, ih'⟩
  | catSwitch h h' ih => exact fine_append.2 ⟨ih, switch_fine h'⟩
  | atom h ih => exact ih
  | quant h h' ih => exact fine_append.2 ⟨ih, quant_fine h'⟩
  | group ha h hc ih => simp [fine_append, fine_cons, fine_nil, ha, hc, ih, Mistake]
  | @char o x c hx =>
    have : ¬ Mistake x.tok := by
      generalize x.tok = t at hx
      cases hx <;> simp [Mistake]
    simp [fine_cons, fine_nil, this]
  | @twice o x c hx =>
    have : ¬ Mistake x.tok := by
      generalize x.tok = t at hx
      cases hx <;> simp [Mistake]
    simp [fine_cons, fine_nil, this]
  | byte hx => simp [fine_cons, fine_nil, hx, Mistake]
  | dot hx => simp [fine_cons, fine_nil, hx, Mistake]
  | cls h => exact classSays_fine h

/-! ## Texts -/

theorem lex_plainly (env : Env) (N : Nat) : ∀ (n : Nat) (text : List Int), text.length ≤ n →
    (Fine (lex env true N n text) ↔ ∀ c ∈ text, 1 ≤ c) ∧
      ((∀ c ∈ text, 1 ≤ c) → (lex env true N n text).map LTok.tok = text.map fun c => .char c.toNat)
  | n, [], _ => by cases n <;> simp [lex, fine_nil]
  | 0, _ :: _, h => by simp at h
  | n + 1, c :: t, h => by
    obtain ⟨i1, i2⟩ := lex_plainly env N n t (by simpa using h)
    rw [lex]
    by_cases hc : c < 1
    · have e : lexOne env true c t = (.bad, t) := by simp [lexOne, hc]
      simp only [e, fine_cons]
      refine ⟨⟨fun hx => absurd (Or.inl rfl) hx.1, fun hx => ?_⟩, fun hx => ?_⟩ <;>
      · have := hx c (by simp); omega
    · have e : lexOne env true c t = (.char c.toNat, t) := by simp [lexOne, hc]
      simp only [e, fine_cons, i1, List.mem_cons, forall_eq_or_imp, List.map_cons]
      refine ⟨⟨fun hx => ⟨by omega, hx.2⟩, fun hx => ⟨by simp [Mistake], hx.2⟩⟩, fun hx => by rw [i2 hx.2]⟩

/-- **C71** The parser's view of a text, as the tokens that the lexer finds, says the same as
the text. -/
theorem text_says_iff {R : Reading} {env : Env} (he : env.Shortens) (enc : Nat → List Nat) {p : PatternOpts}
    {text : List Int} {L : Language UInt8} : TextSays R env enc p text L ↔ TextMeans R env enc p text L := by
  constructor
  · rintro ⟨b, o', h⟩
    have hf := says_fine h
    refine ⟨tokens env p text, ?_, _, b, o', rfl, h⟩
    cases hp : p.fixed with
    | false =>
      rw [if_neg (by simp)]
      refine (tokens_iff he hp).2 ⟨rfl, ?_⟩
      intro k hk
      obtain ⟨x, hx, rfl⟩ := List.mem_map.1 hk
      exact hf x hx
    | true =>
      rw [if_pos rfl]
      rw [hp] at hf
      obtain ⟨i1, i2⟩ := lex_plainly env text.length text.length text (Nat.le_refl _)
      refine ⟨i1.1 hf, ?_⟩
      rw [← i2 (i1.1 hf), tokens, hp]
  · rintro ⟨toks, ht, ts, b, o', rfl, h⟩
    refine ⟨b, o', says_like h _ ?_⟩
    cases hp : p.fixed with
    | false =>
      rw [hp, if_neg (by simp)] at ht
      have := ((tokens_iff he hp).1 ht).1
      rw [tokens, hp] at this
      exact this.symm
    | true =>
      rw [hp, if_pos rfl] at ht
      obtain ⟨i1, i2⟩ := lex_plainly env text.length text.length text (Nat.le_refl _)
      exact ht.2.trans (i2 ht.1).symm

/-- **C71** The parser makes a tree without lookarounds of a text if and only if the text says
something, and then the tree's byte strings are the ones it says. -/
theorem text_meaning {R : Reading} {env : Env} (hR : R.Of env) (he : env.Sound) (hs : env.Shortens) (enc : Nat → List Nat)
    {p : PatternOpts} {text : List Int} (ht : ∀ c ∈ text, c < 0x110000) (L : Language UInt8) :
    TextMeans R env enc p text L ↔
      ∃ t k, parse env p text = .ok (t, k) ∧ Regex.NoLook t ∧ Regex.lang (Session.textSem enc) t = L := by
  rw [← text_says_iff hs]
  exact Meaning.text_meaning hR he enc ht L

/-- **C71** What a request asks for, read off the text itself. -/
theorem asks_iff [Chain.Build] {R : Reading} {env : Env} (hs : env.Shortens) {r : Session.Request} {w : List UInt8} :
    Meaning.Asks R env r w ↔ ∃ text k ts L, Text.codePoints r.expr = some text ∧ Chain.Reads r.chain k ts ∧
      TextMeans R env (Session.charBytes k ts) r.opts text L ∧ w ∈ L := by
  unfold Meaning.Asks
  simp only [text_says_iff hs]

/-! ## Numbers -/

/-- The number that decimal digits denote. -/
def decimal : List Nat → Nat := List.foldl (fun v d => v * 10 + d) 0

/-- The digits of a number, one token each. -/
def digitToks (ds : List Nat) : List Tok := ds.map fun d => .digit (48 + d)

/-- **C71** The bounds of a repetition are written in decimal, in any number of digits, and are
less than 2³¹. -/
theorem number_iff {p : List LTok} {v : Nat} (hp : ∀ x ∈ p, ∀ c, x.tok = .digit c → 48 ≤ c ∧ c ≤ 57) :
    Number p v ↔ ∃ ds : List Nat, ds ≠ [] ∧ (∀ d ∈ ds, d < 10) ∧ p.map LTok.tok = digitToks ds ∧
      decimal ds < 2 ^ 31 ∧ v = decimal ds := by
  constructor
  · intro h
    induction h with
    | @one x d hx =>
      have : x.tok = .digit (48 + d) ∧ d < 10 := by
        cases ht : x.tok with
        | digit c =>
          have := hp x (by simp) c ht
          rw [ht] at hx
          simp only [digitTok, Option.some.injEq] at hx
          subst hx
          exact ⟨by congr 1; omega, by omega⟩
        | _ => rw [ht] at hx; cases hx
      exact ⟨[d], by simp, by simp [this.2], by simp [digitToks, this.1], by simp [decimal]; omega, by simp [decimal]⟩
    | @more p v x d h hx hv ih =>
      have : x.tok = .digit (48 + d) ∧ d < 10 := by
        cases ht : x.tok with
        | digit c =>
          have := hp x (by simp) c ht
          rw [ht] at hx
          simp only [digitTok, Option.some.injEq] at hx
          subst hx
          exact ⟨by congr 1; omega, by omega⟩
        | _ => rw [ht] at hx; cases hx
      obtain ⟨ds, h1, h2, h3, h4, rfl⟩ := ih fun y hy => hp y (by simp [hy])
      refine ⟨ds ++ [d], by simp, ?_, by simp [digitToks, h3, this.1], ?_, ?_⟩
      · intro y hy
        rcases List.mem_append.1 hy with hy | hy
        · exact h2 y hy
        · rw [List.mem_singleton.1 hy]; exact this.2
      · simpa [decimal] using hv
      · simp [decimal]
  · rintro ⟨ds, h1, h2, h3, h4, rfl⟩
    clear hp
    induction ds using List.reverseRecOn generalizing p with
    | nil => exact absurd rfl h1
    | append_singleton ds d ih =>
      have e : decimal (ds ++ [d]) = decimal ds * 10 + d := by simp [decimal]
      simp only [digitToks, List.map_append, List.map_cons, List.map_nil] at h3
      obtain ⟨p1, p2, rfl, e1, e2⟩ := List.map_eq_append_iff.1 h3
      obtain ⟨x, rfl, hx⟩ := List.map_eq_singleton_iff.1 e2
      have hd : digitTok x.tok = some d := by rw [hx]; simp [digitTok]
      by_cases hds : ds = []
      · subst hds
        have : p1 = [] := by simpa using e1
        subst this
        rw [e]
        simpa [decimal] using Number.one hd
      · rw [e] at h4 ⊢
        exact .more (ih hds (fun y hy => h2 y (by simp [hy])) e1 (by omega)) hd h4

/-- Digit tokens of a text are digits. -/
theorem made_digits {env : Env} {text toks} (h : MadeOf env text toks) : ∀ c, .digit c ∈ toks → 48 ≤ c ∧ c ≤ 57 := by
  induction h with
  | nil => simp
  | @cons text tok rest toks hb hr ih =>
    intro c hc
    rcases List.mem_cons.1 hc with e | hc
    · subst e
      cases hb with
      | digit h => omega
      | escape h =>
        cases h with
        | one h => cases h
    · exact ih c hc

/-! ## Examples -/

/-- `a\x{62}[c-]{2,}`: `a`, `b`, and two or more of `c` and `-`. -/
example : MadeOf plain [97, 92, 120, 123, 54, 50, 125, 91, 99, 45, 93, 123, 50, 44, 125]
    [.sym 97, .char 0x62, .sym 91, .char 99, .char 45, .sym 93, .sym 123, .digit 50, .sym 44, .sym 125] := by
  have he : ParseUtil.Escape [120, 123, 54, 50, 125, 91, 99, 45, 93, 123, 50, 44, 125] (.char 0x62)
      [91, 99, 45, 93, 123, 50, 44, 125] :=
    ParseUtil.Escape.hexBrace (cs := [54, 50]) (ds := [6, 2]) (.cons (Or.inl (by decide)) (.cons (Or.inl (by decide)) .nil))
      (by decide) (by decide) (by decide)
  exact .cons (.symbol (by decide)) (.cons (.escape (.number he)) (.cons (.symbol (by decide)) (.cons (.char (by decide) (by decide) (by decide))
    (.cons (.lastHyphen (Or.inr ⟨_, rfl⟩)) (.cons (.symbol (by decide)) (.cons (.symbol (by decide)) (.cons (.digit (by decide))
    (.cons (.symbol (by decide)) (.cons (.symbol (by decide)) .nil)))))))))

/-- `\y` is not an escape: no text that begins with it is made of tokens. -/
example (t : List Int) (toks : List Tok) : ¬ MadeOf plain (92 :: 121 :: t) toks := by
  intro h
  have h' := (tokens_iff plain_shortens (p := ⟨false, false, false⟩) rfl).1 h
  have : Tok.bad ∈ toks := by
    rw [← h'.1]
    simp [tokens, lex, lexOne, symbols, escape, metas, asciiEscape, classEscape, assertEscape, ParseUtil.consumeNumeric]
  exact h'.2 _ this (Or.inl rfl)

end Verif.Lexer
