import Verif.ParseUtil
import Mathlib.Data.List.Forall2
import Mathlib.Tactic.Ring
/-!
# C42, C43, C51: numeric escapes, ASCII case folding, built-in classes
-/
namespace Verif.ParseUtil

/-! ## C42 -/

/-- The character `c` is the hexadecimal digit of value `d`. -/
def HexDigit (c : Int) (d : Nat) : Prop :=
  (d < 10 ∧ c = 48 + d) ∨ (10 ≤ d ∧ d < 16 ∧ (c = 65 + (d - 10) ∨ c = 97 + (d - 10)))

/-- The character `c` is the octal digit of value `d`. -/
def OctDigit (c : Int) (d : Nat) : Prop := d < 8 ∧ c = 48 + d

/-- The number that the digits `ds` denote in base `b`, most significant first. -/
def value (b : Nat) : List Nat → Nat
  | [] => 0
  | d :: ds => d * b ^ ds.length + value b ds

/-- What each numeric escape means: `Escape text tok rest` says that the text after
the backslash starts with a well-formed numeric escape denoting `tok`, followed by
`rest`. -/
inductive Escape : List Int → Tok → List Int → Prop where
  /-- `\xHH` -/
  | hex {c d : Int} {v w : Nat} {rest : List Int} : HexDigit c v → HexDigit d w →
      Escape (120 :: c :: d :: rest) (.char (value 16 [v, w])) rest
  /-- `\x{H…}`, one to six digits, at most 10FFFF -/
  | hexBrace {cs : List Int} {ds : List Nat} {rest : List Int} : List.Forall₂ HexDigit cs ds →
      1 ≤ ds.length → ds.length ≤ 6 → value 16 ds ≤ 0x10FFFF →
      Escape (120 :: 123 :: (cs ++ 125 :: rest)) (.char (value 16 ds)) rest
  /-- `\zHH` -/
  | byte {c d : Int} {v w : Nat} {rest : List Int} : HexDigit c v → HexDigit d w →
      Escape (122 :: c :: d :: rest) (.byte (value 16 [v, w])) rest
  /-- `\O`, `\OO`, `\OOO`: as many octal digits as there are, up to three, at most 377 -/
  | oct {cs : List Int} {ds : List Nat} {rest : List Int} : List.Forall₂ OctDigit cs ds →
      1 ≤ ds.length → ds.length ≤ 3 →
      (ds.length < 3 → ∀ c r, rest = c :: r → ∀ d, ¬ OctDigit c d) → value 8 ds ≤ 0o377 →
      Escape (cs ++ rest) (.char (value 8 ds)) rest
  /-- `\N{U+H…}` -/
  | named {cs : List Int} {ds : List Nat} {rest : List Int} : List.Forall₂ HexDigit cs ds →
      1 ≤ ds.length → ds.length ≤ 6 → value 16 ds ≤ 0x10FFFF →
      Escape (78 :: 123 :: 85 :: 43 :: (cs ++ 125 :: rest)) (.char (value 16 ds)) rest

theorem hexChar_iff (c : Int) (d : Nat) : parseHexChar c = some d ↔ HexDigit c d := by
  unfold parseHexChar HexDigit
  split
  · simp only [Option.some.injEq]; omega
  · split
    · simp only [Option.some.injEq]; omega
    · split
      · simp only [Option.some.injEq]; omega
      · constructor
        · intro h; cases h
        · intro h; exfalso; omega

theorem hexChar_none (c : Int) (h : parseHexChar c = none) (d : Nat) : ¬ HexDigit c d := by
  rw [← hexChar_iff, h]; intro e; cases e

theorem octChar_iff (c : Int) (d : Nat) : parseOctChar c = some d ↔ OctDigit c d := by
  unfold parseOctChar OctDigit
  split
  · simp only [Option.some.injEq]; omega
  · constructor
    · intro h; cases h
    · intro h; exfalso; omega

theorem octChar_none (c : Int) (h : parseOctChar c = none) (d : Nat) : ¬ OctDigit c d := by
  rw [← octChar_iff, h]; intro e; cases e

theorem shift_or (a b i : Nat) (h : b < 2 ^ i) : (a <<< i) ||| b = a * 2 ^ i + b := by
  rw [← Nat.shiftLeft_add_eq_or_of_lt h, Nat.shiftLeft_eq]

theorem hexDigit_lt {c : Int} {d : Nat} (h : HexDigit c d) : d < 16 := by
  unfold HexDigit at h; omega

/-- What the hex loop computes. -/
theorem hexLoop_spec (n : Nat) : ∀ (val : Nat) (t : List Int) (v : Nat) (r : List Int),
    hexLoop n val t = (some v, r) ↔
      ∃ cs ds, List.Forall₂ HexDigit cs ds ∧ ds.length < n ∧ t = cs ++ 125 :: r ∧
        v = val * 16 ^ ds.length + value 16 ds ∧ v ≤ 0x10FFFF := by
  induction n with
  | zero => intro val t v r; simp [hexLoop]
  | succ n ih =>
    intro val t v r
    cases t with
    | nil => simp [hexLoop]
    | cons c t =>
      unfold hexLoop
      split
      · next d hd =>
        have hdd := (hexChar_iff c d).1 hd
        rw [ih, shift_or _ _ 4 (hexDigit_lt hdd)]
        constructor
        · rintro ⟨cs, ds, h1, h2, rfl, h4, h5⟩
          refine ⟨c :: cs, d :: ds, .cons hdd h1, by simpa using h2, rfl, ?_, h5⟩
          rw [h4, value, List.length_cons]; ring
        · rintro ⟨cs, ds, h1, h2, h3, h4, h5⟩
          cases h1 with
          | nil =>
            simp only [List.nil_append, List.cons.injEq] at h3
            rw [h3.1] at hd; simp [parseHexChar] at hd
          | @cons a b as bs hab has =>
            simp only [List.cons_append, List.cons.injEq] at h3
            obtain ⟨rfl, rfl⟩ := h3
            have : b = d := by
              have := (hexChar_iff c b).2 hab
              rw [hd] at this; cases this; rfl
            subst this
            refine ⟨as, bs, has, by simpa using h2, rfl, ?_, h5⟩
            rw [h4, value, List.length_cons]; ring
      · next hn =>
        have hno : ∀ (cs : List Int) (ds : List Nat), List.Forall₂ HexDigit cs ds →
            c :: t = cs ++ 125 :: r → ds = [] ∧ c = 125 ∧ t = r := by
          intro cs ds h1 h3
          cases h1 with
          | nil => simp only [List.nil_append, List.cons.injEq] at h3; exact ⟨rfl, h3⟩
          | cons hab has =>
            simp only [List.cons_append, List.cons.injEq] at h3
            rw [← h3.1] at hab
            exact absurd hab (hexChar_none c hn _)
        constructor
        · intro h
          split at h
          · next h125 =>
            split at h
            · cases h
            · next hle =>
              cases h
              exact ⟨[], [], .nil, by simp, by simp [h125], by simp [value], by omega⟩
          · cases h
        · rintro ⟨cs, ds, h1, h2, h3, h4, h5⟩
          obtain ⟨rfl, rfl, rfl⟩ := hno cs ds h1 h3
          have : v = val := by simpa [value] using h4
          subst this
          rw [if_pos rfl, if_neg (by omega)]

theorem hexCodePoint_spec (t : List Int) (v : Nat) (r : List Int) :
    parseHexCodePoint t = (some v, r) ↔
      ∃ cs ds, List.Forall₂ HexDigit cs ds ∧ 1 ≤ ds.length ∧ ds.length ≤ 6 ∧
        t = cs ++ 125 :: r ∧ v = value 16 ds ∧ v ≤ 0x10FFFF := by
  cases t with
  | nil => simp [parseHexCodePoint]
  | cons c t =>
    rw [show parseHexCodePoint (c :: t) = if c = 125 then (none, c :: t) else hexLoop 7 0 (c :: t) from rfl]
    split
    · next h =>
      constructor
      · intro h; cases h
      · rintro ⟨cs, ds, h1, h2, _, h3, _⟩
        exfalso
        cases h1 with
        | nil => simp at h2
        | cons hab has =>
          simp only [List.cons_append, List.cons.injEq] at h3
          rw [← h3.1, h] at hab; unfold HexDigit at hab; omega
    · next h =>
      rw [hexLoop_spec]
      constructor
      · rintro ⟨cs, ds, h1, h2, h3, h4, h5⟩
        refine ⟨cs, ds, h1, ?_, by omega, h3, by simpa using h4, h5⟩
        cases h1 with
        | nil => simp only [List.nil_append, List.cons.injEq] at h3; exact absurd h3.1 h
        | cons _ _ => simp
      · rintro ⟨cs, ds, h1, h2, h2', h3, h4, h5⟩
        exact ⟨cs, ds, h1, by omega, h3, by simpa using h4, h5⟩

theorem hexByte_spec (t : List Int) (n : Nat) (r : List Int) :
    parseHexByte t = (some n, r) ↔
      ∃ c d v w, HexDigit c v ∧ HexDigit d w ∧ t = c :: d :: r ∧ n = value 16 [v, w] := by
  rcases t with _ | ⟨c, _ | ⟨d, t⟩⟩
  · simp [parseHexByte]
  · constructor
    · intro h; unfold parseHexByte at h; cases hc : parseHexChar c <;> simp [hc] at h
    · rintro ⟨c', d', v, w, _, _, h, _⟩; simp at h
  · cases hc : parseHexChar c with
    | none =>
      rw [show parseHexByte (c :: d :: t) = (none, d :: t) by simp [parseHexByte, hc]]
      constructor
      · intro h; cases h
      · rintro ⟨c', d', v, w, h1, _, h, _⟩
        simp only [List.cons.injEq] at h
        rw [← h.1] at h1
        exact absurd h1 (hexChar_none c hc v)
    | some v =>
      cases hd : parseHexChar d with
      | none =>
        rw [show parseHexByte (c :: d :: t) = (none, t) by simp [parseHexByte, hc, hd]]
        constructor
        · intro h; cases h
        · rintro ⟨c', d', v', w, _, h1, h, _⟩
          simp only [List.cons.injEq] at h
          rw [← h.2.1] at h1
          exact absurd h1 (hexChar_none d hd w)
      | some w =>
        have h1 := (hexChar_iff c v).1 hc
        have h2 := (hexChar_iff d w).1 hd
        rw [show parseHexByte (c :: d :: t) = (some ((v <<< 4) ||| w), t) by
          simp [parseHexByte, hc, hd]]
        simp only [Prod.mk.injEq, Option.some.injEq]
        rw [shift_or _ _ 4 (hexDigit_lt h2)]
        constructor
        · rintro ⟨rfl, rfl⟩
          exact ⟨c, d, v, w, h1, h2, rfl, by simp [value]⟩
        · rintro ⟨c', d', v', w', h1', h2', h, hv⟩
          simp only [List.cons.injEq] at h
          obtain ⟨rfl, rfl, rfl⟩ := h
          have e1 := (hexChar_iff c v').2 h1'; rw [hc] at e1; cases e1
          have e2 := (hexChar_iff d w').2 h2'; rw [hd] at e2; cases e2
          exact ⟨by rw [hv]; simp [value], rfl⟩

theorem octLoop_spec (n : Nat) : ∀ (oct : Nat) (t : List Int),
    ∃ cs ds, List.Forall₂ OctDigit cs ds ∧ ds.length ≤ n ∧ t = cs ++ (octLoop n oct t).2 ∧
      (ds.length < n → ∀ c r, (octLoop n oct t).2 = c :: r → ∀ d, ¬ OctDigit c d) ∧
      (octLoop n oct t).1 = oct * 8 ^ ds.length + value 8 ds := by
  induction n with
  | zero => intro oct t; exact ⟨[], [], .nil, by simp, rfl, by simp, by simp [octLoop, value]⟩
  | succ n ih =>
    intro oct t
    cases t with
    | nil => exact ⟨[], [], .nil, by simp, rfl, by simp [octLoop], by simp [octLoop, value]⟩
    | cons c t =>
      unfold octLoop
      split
      · next hn =>
        refine ⟨[], [], .nil, by simp, rfl, ?_, by simp [value]⟩
        intro _ c' r h
        simp only [List.cons.injEq] at h
        rw [← h.1]
        exact octChar_none c hn
      · next d hd =>
        have hdd := (octChar_iff c d).1 hd
        obtain ⟨cs, ds, h1, h2, h3, h4, h5⟩ := ih ((oct <<< 3) ||| d) t
        refine ⟨c :: cs, d :: ds, .cons hdd h1, by simpa using h2, ?_, ?_, ?_⟩
        · rw [List.cons_append, ← h3]
        · intro hl; exact h4 (by simpa using hl)
        · rw [h5, shift_or _ _ 3 hdd.1, value, List.length_cons]; ring

/-- Splitting off octal digits greedily is deterministic. -/
theorem oct_unique (n : Nat) {cs cs' : List Int} {ds ds' : List Nat} {r r' : List Int}
    (h : List.Forall₂ OctDigit cs ds) (h' : List.Forall₂ OctDigit cs' ds') (e : cs ++ r = cs' ++ r')
    (hn : ds.length ≤ n) (hn' : ds'.length ≤ n)
    (hs : ds.length < n → ∀ c t, r = c :: t → ∀ d, ¬ OctDigit c d)
    (hs' : ds'.length < n → ∀ c t, r' = c :: t → ∀ d, ¬ OctDigit c d) : ds = ds' ∧ r = r' := by
  induction h generalizing cs' ds' n with
  | nil =>
    cases h' with
    | nil => exact ⟨rfl, by simpa using e⟩
    | cons ha _ =>
      exfalso
      simp only [List.length_cons] at hn'
      exact hs (by simp; omega) _ _ (by simpa using e) _ ha
  | cons ha hr ih =>
    cases h' with
    | nil =>
      exfalso
      simp only [List.length_cons] at hn
      exact hs' (by simp; omega) _ _ (by simpa using e.symm) _ ha
    | cons hb hr' =>
      simp only [List.cons_append, List.cons.injEq] at e
      simp only [List.length_cons] at hn hn' hs hs'
      obtain ⟨i1, i2⟩ := ih (n - 1) hr' e.2 (by omega) (by omega)
        (fun hl => hs (by omega)) (fun hl => hs' (by omega))
      refine ⟨?_, i2⟩
      rw [i1]
      congr 1
      have := ha.2; have := hb.2; omega

theorem octByte_spec (t : List Int) (n : Nat) (r : List Int) :
    parseOctByte t = (some n, r) ↔
      ∃ cs ds, List.Forall₂ OctDigit cs ds ∧ ds.length ≤ 3 ∧ t = cs ++ r ∧
        (ds.length < 3 → ∀ c t, r = c :: t → ∀ d, ¬ OctDigit c d) ∧ n = value 8 ds ∧ n ≤ 255 := by
  obtain ⟨cs, ds, h1, h2, h3, h4, h5⟩ := octLoop_spec 3 0 t
  have h5' : (octLoop 3 0 t).1 = value 8 ds := by simpa using h5
  unfold parseOctByte
  simp only [h5']
  constructor
  · intro h
    simp only [Prod.mk.injEq] at h
    obtain ⟨ha, rfl⟩ := h
    split at ha
    · cases ha
    · cases ha
      exact ⟨cs, ds, h1, h2, h3, h4, rfl, by omega⟩
  · rintro ⟨cs', ds', g1, g2, g3, g4, rfl, g6⟩
    obtain ⟨e1, e2⟩ := oct_unique 3 h1 g1 (h3.symm.trans g3) h2 g2 h4 g4
    rw [← e1] at g6 ⊢
    rw [if_neg (by omega), e2]

theorem singleton_char (r : Option Nat × List Int) (tok : Tok) (rest : List Int) (hb : tok ≠ .bad) :
    consumeSingleton r .char = (tok, rest) ↔ ∃ v, tok = .char v ∧ r = (some v, rest) := by
  obtain ⟨o, t⟩ := r
  cases o with
  | none =>
    simp only [consumeSingleton, Prod.mk.injEq]
    constructor
    · rintro ⟨rfl, _⟩; exact absurd rfl hb
    · rintro ⟨v, _, h, _⟩; cases h
  | some v =>
    simp only [consumeSingleton, Prod.mk.injEq, Option.some.injEq]
    constructor
    · rintro ⟨rfl, rfl⟩; exact ⟨v, rfl, rfl, rfl⟩
    · rintro ⟨v', rfl, rfl, rfl⟩; exact ⟨rfl, rfl⟩

theorem singleton_byte (r : Option Nat × List Int) (tok : Tok) (rest : List Int) (hb : tok ≠ .bad) :
    consumeSingleton r .byte = (tok, rest) ↔ ∃ v, tok = .byte v ∧ r = (some v, rest) := by
  obtain ⟨o, t⟩ := r
  cases o with
  | none =>
    simp only [consumeSingleton, Prod.mk.injEq]
    constructor
    · rintro ⟨rfl, _⟩; exact absurd rfl hb
    · rintro ⟨v, _, h, _⟩; cases h
  | some v =>
    simp only [consumeSingleton, Prod.mk.injEq, Option.some.injEq]
    constructor
    · rintro ⟨rfl, rfl⟩; exact ⟨v, rfl, rfl, rfl⟩
    · rintro ⟨v', rfl, rfl, rfl⟩; exact ⟨rfl, rfl⟩

/-- The text after the backslash is a numeric escape by its first characters: `x`,
`z`, an octal digit, or `N` that does not name a character. -/
def Numeric : List Int → Prop
  | [] => False
  | c :: t => c = 120 ∨ c = 122 ∨ (48 ≤ c ∧ c ≤ 55) ∨
      (c = 78 ∧ (∀ r, t = 123 :: r → ∃ q, r = 85 :: 43 :: q))

/-- **C42** A numeric escape is accepted exactly if it is well formed and in range,
it then gives exactly the number its digits denote and consumes exactly its own
text; every other numeric escape is refused. -/
theorem numeric_escape (byName : List Int → Option Nat × List Int) (text : List Int)
    (h : Numeric text) :
    ∃ tok rest, consumeNumeric byName text = some (tok, rest) ∧
      (tok = .bad → ∀ t r, ¬ Escape text t r) ∧
      (tok ≠ .bad → Escape text tok rest ∧ ∀ t r, Escape text t r → t = tok ∧ r = rest) := by
  -- enough: characterise the non-bad results
  have reduce : ∀ (o : Tok × List Int), consumeNumeric byName text = some o →
      (∀ t r, Escape text t r ↔ (t ≠ .bad ∧ o = (t, r))) →
      ∃ tok rest, consumeNumeric byName text = some (tok, rest) ∧
      (tok = .bad → ∀ t r, ¬ Escape text t r) ∧
      (tok ≠ .bad → Escape text tok rest ∧ ∀ t r, Escape text t r → t = tok ∧ r = rest) := by
    rintro ⟨tok, rest⟩ ho hiff
    refine ⟨tok, rest, ho, ?_, ?_⟩
    · rintro rfl t r he
      obtain ⟨h1, h2⟩ := (hiff t r).1 he
      cases h2; exact h1 rfl
    · intro hb
      refine ⟨(hiff tok rest).2 ⟨hb, rfl⟩, ?_⟩
      intro t r he
      obtain ⟨_, h2⟩ := (hiff t r).1 he
      cases h2; exact ⟨rfl, rfl⟩
  cases text with
  | nil => exact absurd h (by simp [Numeric])
  | cons c t =>
    have octNot : ∀ {cs : List Int} {ds : List Nat} {r : List Int}, List.Forall₂ OctDigit cs ds →
        1 ≤ ds.length → c :: t = cs ++ r → 48 ≤ c ∧ c ≤ 55 := by
      intro cs ds r h1 h2 h3
      cases h1 with
      | nil => simp at h2
      | cons ha _ =>
        simp only [List.cons_append, List.cons.injEq] at h3
        have h4 := ha.1; have h5 := ha.2; rw [← h3.1] at h5; omega
    by_cases hx : c = 120
    · subst hx
      cases t with
      | nil =>
        refine reduce (.bad, []) (by simp [consumeNumeric]) ?_
        intro t r
        constructor
        · intro he
          generalize hT : ([120] : List Int) = T at he
          cases he with
          | hex _ _ => simp at hT
          | hexBrace _ _ _ _ => simp at hT
          | byte _ _ => simp at hT
          | oct h1 h2 _ _ _ => have := octNot h1 h2 hT; omega
          | named _ _ _ _ => simp at hT
        · rintro ⟨h1, h2⟩; cases h2; exact absurd rfl h1
      | cons d q =>
        by_cases hd : d = 123
        · subst hd
          refine reduce (consumeSingleton (parseHexCodePoint q) .char) (by simp [consumeNumeric]) ?_
          intro t r
          constructor
          · intro he
            generalize hT : ((120 : Int) :: 123 :: q) = T at he
            cases he with
            | hex h1 _ =>
              simp only [List.cons.injEq] at hT
              rw [← hT.2.1] at h1; unfold HexDigit at h1; omega
            | hexBrace h1 h2 h3 h4 =>
              simp only [List.cons.injEq, true_and] at hT
              refine ⟨by simp, (singleton_char _ _ _ (by simp)).2 ⟨_, rfl, ?_⟩⟩
              exact (hexCodePoint_spec _ _ _).2 ⟨_, _, h1, h2, h3, hT, rfl, h4⟩
            | byte _ _ => simp at hT
            | oct h1 h2 _ _ _ => have := octNot h1 h2 hT; omega
            | named _ _ _ _ => simp at hT
          · rintro ⟨hb, h2⟩
            obtain ⟨v, rfl, h3⟩ := (singleton_char _ _ _ hb).1 h2
            obtain ⟨cs, ds, g1, g2, g3, rfl, rfl, g6⟩ := (hexCodePoint_spec _ _ _).1 h3
            exact .hexBrace g1 g2 g3 g6
        · refine reduce (consumeSingleton (parseHexByte (d :: q)) .char)
            (by simp [consumeNumeric, hd]) ?_
          intro t r
          constructor
          · intro he
            generalize hT : ((120 : Int) :: d :: q) = T at he
            cases he with
            | hex h1 h2 =>
              simp only [List.cons.injEq, true_and] at hT
              refine ⟨by simp, (singleton_char _ _ _ (by simp)).2 ⟨_, rfl, ?_⟩⟩
              exact (hexByte_spec _ _ _).2 ⟨_, _, _, _, h1, h2, by simp [hT], rfl⟩
            | hexBrace h1 h2 h3 h4 => simp only [List.cons.injEq] at hT; exact absurd hT.2.1 hd
            | byte _ _ => simp at hT
            | oct h1 h2 _ _ _ => have := octNot h1 h2 hT; omega
            | named _ _ _ _ => simp at hT
          · rintro ⟨hb, h2⟩
            obtain ⟨v, rfl, h3⟩ := (singleton_char _ _ _ hb).1 h2
            obtain ⟨c', d', v', w', g1, g2, g3, rfl⟩ := (hexByte_spec _ _ _).1 h3
            rw [g3]
            exact .hex g1 g2
    · by_cases hz : c = 122
      · subst hz
        refine reduce (consumeSingleton (parseHexByte t) .byte) (by simp [consumeNumeric]) ?_
        intro tk r
        constructor
        · intro he
          generalize hT : ((122 : Int) :: t) = T at he
          cases he with
          | hex _ _ => simp at hT
          | hexBrace _ _ _ _ => simp at hT
          | byte h1 h2 =>
            simp only [List.cons.injEq, true_and] at hT
            refine ⟨by simp, (singleton_byte _ _ _ (by simp)).2 ⟨_, rfl, ?_⟩⟩
            exact (hexByte_spec _ _ _).2 ⟨_, _, _, _, h1, h2, hT, rfl⟩
          | oct h1 h2 _ _ _ => have := octNot h1 h2 hT; omega
          | named _ _ _ _ => simp at hT
        · rintro ⟨hb, h2⟩
          obtain ⟨v, rfl, h3⟩ := (singleton_byte _ _ _ hb).1 h2
          obtain ⟨c', d', v', w', g1, g2, rfl, rfl⟩ := (hexByte_spec _ _ _).1 h3
          exact .byte g1 g2
      · by_cases ho : 48 ≤ c ∧ c ≤ 55
        · refine reduce (consumeSingleton (parseOctByte (c :: t)) .char)
            (by simp [consumeNumeric, hx, hz, ho]) ?_
          intro tk r
          constructor
          · intro he
            generalize hT : (c :: t) = T at he
            cases he with
            | hex _ _ => simp only [List.cons.injEq] at hT; exact absurd hT.1 hx
            | hexBrace _ _ _ _ => simp only [List.cons.injEq] at hT; exact absurd hT.1 hx
            | byte _ _ => simp only [List.cons.injEq] at hT; exact absurd hT.1 hz
            | oct h1 h2 h3 h4 h5 =>
              refine ⟨by simp, (singleton_char _ _ _ (by simp)).2 ⟨_, rfl, ?_⟩⟩
              exact (octByte_spec _ _ _).2 ⟨_, _, h1, h3, rfl, h4, rfl, h5⟩
            | named _ _ _ _ => simp only [List.cons.injEq] at hT; omega
          · rintro ⟨hb, h2⟩
            obtain ⟨v, rfl, h3⟩ := (singleton_char _ _ _ hb).1 h2
            obtain ⟨cs, ds, g1, g2, g3, g4, rfl, g6⟩ := (octByte_spec _ _ _).1 h3
            rw [g3]
            refine .oct g1 ?_ g2 g4 g6
            cases g1 with
            | nil =>
              exfalso
              simp only [List.nil_append] at g3
              exact g4 (by simp) c t g3.symm (c - 48).toNat ⟨by omega, by omega⟩
            | cons _ _ => simp
        · have hN : c = 78 ∧ (∀ r, t = 123 :: r → ∃ q, r = 85 :: 43 :: q) := by
            rcases h with h | h | h | h
            · exact absurd h hx
            · exact absurd h hz
            · exact absurd h ho
            · exact h
          obtain ⟨rfl, hN⟩ := hN
          refine reduce (consumeSingleton (parseNamedCodePoint byName t) .char)
            (by simp [consumeNumeric]) ?_
          have key : ∀ v r, parseNamedCodePoint byName t = (some v, r) ↔
              ∃ q, t = 123 :: 85 :: 43 :: q ∧ parseHexCodePoint q = (some v, r) := by
            intro v r
            cases t with
            | nil => simp [parseNamedCodePoint]
            | cons d s =>
              by_cases hd : d = 123
              · subst hd
                obtain ⟨q, rfl⟩ := hN s rfl
                simp [parseNamedCodePoint]
              · simp [parseNamedCodePoint, hd]
          intro tk r
          constructor
          · intro he
            generalize hT : ((78 : Int) :: t) = T at he
            cases he with
            | hex _ _ => simp at hT
            | hexBrace _ _ _ _ => simp at hT
            | byte _ _ => simp at hT
            | oct h1 h2 _ _ _ => have := octNot h1 h2 hT; omega
            | named h1 h2 h3 h4 =>
              simp only [List.cons.injEq, true_and] at hT
              refine ⟨by simp, (singleton_char _ _ _ (by simp)).2 ⟨_, rfl, ?_⟩⟩
              exact (key _ _).2 ⟨_, hT, (hexCodePoint_spec _ _ _).2 ⟨_, _, h1, h2, h3, rfl, rfl, h4⟩⟩
          · rintro ⟨hb, h2⟩
            obtain ⟨v, rfl, h3⟩ := (singleton_char _ _ _ hb).1 h2
            obtain ⟨q, rfl, h4⟩ := (key _ _).1 h3
            obtain ⟨cs, ds, g1, g2, g3, rfl, rfl, g6⟩ := (hexCodePoint_spec _ _ _).1 h4
            exact .named g1 g2 g3 g6

-- `\x{10fFff}z`, `\x{110000}`, `\8`-terminated `\178`, `\400`, `\zAg`
example : consumeNumeric (fun t => (none, t)) [120, 123, 49, 48, 102, 70, 102, 102, 125, 122]
    = some (.char 0x10FFFF, [122]) := by decide
example : consumeNumeric (fun t => (none, t)) [120, 123, 49, 49, 48, 48, 48, 48, 125]
    = some (.bad, []) := by decide
example : consumeNumeric (fun t => (none, t)) [49, 55, 56] = some (.char 15, [56]) := by decide
example : consumeNumeric (fun t => (none, t)) [52, 48, 48] = some (.bad, []) := by decide
example : consumeNumeric (fun t => (none, t)) [122, 65, 103] = some (.bad, []) := by decide
example : Numeric [78, 123, 85, 43, 52, 49, 125] := by simp [Numeric]

/-! ## C43 -/

open Verif.RangeSet (WF has)

/-- `x` and `y` are the two cases of one ASCII letter. -/
def OtherCase (x y : Nat) : Prop := (65 ≤ x ∧ x ≤ 90 ∧ y = x + 32) ∨ (65 ≤ y ∧ y ≤ 90 ∧ x = y + 32)

/-- The set `S` contains both cases of its ASCII letters. -/
def CaseClosed (S : Nat → Prop) : Prop := ∀ x y, OtherCase x y → S x → S y

theorem insertMoved_spec {f : Nat → Nat} (rs : List (Nat × Nat)) :
    ∀ us : List Nat, WF cps us → (∀ r ∈ rs, f r.1 ≤ f r.2 ∧ f r.2 ≤ cps) →
      WF cps (insertMoved f us rs) ∧
      ∀ x, has (insertMoved f us rs) x = true ↔
        has us x = true ∨ ∃ r ∈ rs, f r.1 ≤ x ∧ x < f r.2 := by
  induction rs with
  | nil => intro us h _; exact ⟨h, by simp [insertMoved]⟩
  | cons r rs ih =>
    intro us h hr
    obtain ⟨h1, h2⟩ := hr r (by simp)
    obtain ⟨i1, i2⟩ := ih (RangeSet.insert us (f r.1) (f r.2)) (RangeSet.insert_wf h h1 h2)
      (fun q hq => hr q (by simp [hq]))
    refine ⟨i1, fun x => ?_⟩
    show has (insertMoved f (RangeSet.insert us (f r.1) (f r.2)) rs) x = true ↔ _
    rw [i2 x, RangeSet.insert_has h h1]
    simp only [Bool.or_eq_true, Bool.and_eq_true, decide_eq_true_eq, List.mem_cons, exists_eq_or_imp]
    tauto

theorem has_two {a b : Nat} (h : a < b) (x : Nat) : has [a, b] x = true ↔ a ≤ x ∧ x < b := by
  rw [RangeSet.has_pair h (by simp)]; simp [RangeSet.has, RangeSet.below]

theorem wf_two {a b : Nat} (h : a < b) (hb : b ≤ cps) : WF cps [a, b] :=
  ⟨by simpa using h, by simp, by intro c hc; simp at hc; omega⟩

theorem filter_len_le {α : Type} (p q : α → Bool) (l : List α) (h : ∀ x ∈ l, p x = true → q x = true) :
    (l.filter p).length ≤ (l.filter q).length ∧
    ((l.filter p).length < (l.filter q).length ↔ ∃ x ∈ l, q x = true ∧ p x = false) := by
  induction l with
  | nil => simp
  | cons a l ih =>
    obtain ⟨i1, i2⟩ := ih (fun x hx => h x (by simp [hx]))
    have ha := h a (by simp)
    simp only [List.filter_cons, List.mem_cons, exists_eq_or_imp]
    cases hp : p a
    · cases hq : q a
      · simpa using ⟨i1, i2⟩
      · simp only [Bool.false_eq_true, ↓reduceIte, List.length_cons]
        exact ⟨by omega, by simp; omega⟩
    · have hq := ha hp
      simp only [hq, ↓reduceIte, List.length_cons]
      refine ⟨by omega, ?_⟩
      rw [Nat.add_lt_add_iff_right, i2]; simp

theorem count_lt_iff {u v : List Nat} (hu : WF cps u) (hv : WF cps v)
    (h : ∀ x, has u x = true → has v x = true) :
    RangeSet.count u < RangeSet.count v ↔ ∃ x, has v x = true ∧ has u x = false := by
  rw [RangeSet.count_eq hu, RangeSet.count_eq hv, (filter_len_le _ _ _ (fun x _ => h x)).2]
  constructor
  · rintro ⟨x, _, hx⟩; exact ⟨x, hx⟩
  · rintro ⟨x, hx, hx'⟩
    refine ⟨x, ?_, hx, hx'⟩
    rw [List.mem_range]
    by_contra hge
    rw [RangeSet.has_ge hv (by omega)] at hx; cases hx

/-- The ASCII part: both loops of `caseDesensitizeAscii`. -/
theorem asciiPart_spec (us : List Nat) (h : WF cps us) :
    ∃ up us1 lo us2, RangeSet.inter cps us [65, 91] = some up ∧
      us1 = insertMoved (· + 32) us (RangeSet.ranges up) ∧
      RangeSet.inter cps us1 [97, 123] = some lo ∧
      us2 = insertMoved (· - 32) us1 (RangeSet.ranges lo) ∧ WF cps us2 ∧
      ∀ x, has us2 x = true ↔ has us x = true ∨ ∃ y, OtherCase y x ∧ has us y = true := by
  have hN : 0 < cps := by simp [cps]
  obtain ⟨up, e1, w1, s1⟩ := RangeSet.inter_spec hN h (wf_two (a := 65) (b := 91) (by omega) (by simp [cps]))
  have m1 : ∀ x, has up x = true ↔ has us x = true ∧ 65 ≤ x ∧ x < 91 := by
    intro x; rw [s1, Bool.and_eq_true, has_two (by omega)]
  have r1 := RangeSet.ranges_sorted w1
  have in1 : ∀ r ∈ RangeSet.ranges up, 65 ≤ r.1 ∧ r.2 ≤ 91 := by
    intro r hr
    have hlt := (r1.2 r hr).1
    have mem : ∀ x, r.1 ≤ x → x < r.2 → has up x = true := by
      intro x h1 h2
      rw [RangeSet.mem_ranges w1, List.any_eq_true]
      exact ⟨r, hr, by simp; omega⟩
    have a1 := (m1 _).1 (mem r.1 (Nat.le_refl _) hlt)
    have a2 := (m1 _).1 (mem (r.2 - 1) (by omega) (by omega))
    omega
  obtain ⟨w2, s2⟩ := insertMoved_spec (f := (· + 32)) (RangeSet.ranges up) us h (by
    intro r hr; have := in1 r hr; have := (r1.2 r hr).1; simp only [cps]; omega)
  have m2 : ∀ x, has (insertMoved (· + 32) us (RangeSet.ranges up)) x = true ↔
      has us x = true ∨ (97 ≤ x ∧ x < 123 ∧ has us (x - 32) = true) := by
    intro x
    rw [s2 x]
    apply or_congr Iff.rfl
    constructor
    · rintro ⟨r, hr, h1, h2⟩
      have := in1 r hr
      have hh : has up (x - 32) = true := by
        rw [RangeSet.mem_ranges w1, List.any_eq_true]
        exact ⟨r, hr, by simp; omega⟩
      exact ⟨by omega, by omega, ((m1 _).1 hh).1⟩
    · rintro ⟨h1, h2, h3⟩
      have hh := (m1 (x - 32)).2 ⟨h3, by omega, by omega⟩
      rw [RangeSet.mem_ranges w1, List.any_eq_true] at hh
      obtain ⟨r, hr, hx⟩ := hh
      simp only [Bool.and_eq_true, decide_eq_true_eq] at hx
      exact ⟨r, hr, by omega, by omega⟩
  obtain ⟨lo, e3, w3, s3⟩ := RangeSet.inter_spec hN w2 (wf_two (a := 97) (b := 123) (by omega) (by simp [cps]))
  generalize hus1 : insertMoved (· + 32) us (RangeSet.ranges up) = us1 at *
  have m3 : ∀ x, has lo x = true ↔ has us1 x = true ∧ 97 ≤ x ∧ x < 123 := by
    intro x; rw [s3, Bool.and_eq_true, has_two (by omega)]
  have r3 := RangeSet.ranges_sorted w3
  have in3 : ∀ r ∈ RangeSet.ranges lo, 97 ≤ r.1 ∧ r.2 ≤ 123 := by
    intro r hr
    have hlt := (r3.2 r hr).1
    have mem : ∀ x, r.1 ≤ x → x < r.2 → has lo x = true := by
      intro x h1 h2
      rw [RangeSet.mem_ranges w3, List.any_eq_true]
      exact ⟨r, hr, by simp; omega⟩
    have a1 := (m3 _).1 (mem r.1 (Nat.le_refl _) hlt)
    have a2 := (m3 _).1 (mem (r.2 - 1) (by omega) (by omega))
    omega
  obtain ⟨w4, s4⟩ := insertMoved_spec (f := (· - 32)) (RangeSet.ranges lo) us1 w2 (by
    intro r hr; have := in3 r hr; have := (r3.2 r hr).1; simp only [cps]; omega)
  refine ⟨up, us1, lo, _, e1, hus1.symm, e3, rfl, w4, fun x => ?_⟩
  have m4 : has (insertMoved (· - 32) us1 (RangeSet.ranges lo)) x = true ↔
      has us1 x = true ∨ (65 ≤ x ∧ x < 91 ∧ has us1 (x + 32) = true) := by
    rw [s4 x]
    apply or_congr Iff.rfl
    constructor
    · rintro ⟨r, hr, h1, h2⟩
      have := in3 r hr
      have hh : has lo (x + 32) = true := by
        rw [RangeSet.mem_ranges w3, List.any_eq_true]
        exact ⟨r, hr, by simp; omega⟩
      exact ⟨by omega, by omega, ((m3 _).1 hh).1⟩
    · rintro ⟨h1, h2, h3⟩
      have hh := (m3 (x + 32)).2 ⟨h3, by omega, by omega⟩
      rw [RangeSet.mem_ranges w3, List.any_eq_true] at hh
      obtain ⟨r, hr, hx⟩ := hh
      simp only [Bool.and_eq_true, decide_eq_true_eq] at hx
      exact ⟨r, hr, by omega, by omega⟩
  rw [m4, m2, m2]
  constructor
  · rintro ((h1 | ⟨h1, h2, h3⟩) | ⟨h1, h2, h3 | ⟨_, _, h3⟩⟩)
    · exact Or.inl h1
    · exact Or.inr ⟨x - 32, Or.inl ⟨by omega, by omega, by omega⟩, h3⟩
    · exact Or.inr ⟨x + 32, Or.inr ⟨by omega, by omega, by omega⟩, h3⟩
    · exact Or.inl (by rw [Nat.add_sub_cancel] at h3; exact h3)
  · rintro (h1 | ⟨y, ⟨h1, h2, rfl⟩ | ⟨h1, h2, rfl⟩, h3⟩)
    · exact Or.inl (Or.inl h1)
    · refine Or.inl (Or.inr ⟨by omega, by omega, ?_⟩)
      rw [Nat.add_sub_cancel]; exact h3
    · exact Or.inr ⟨by omega, by omega, Or.inl h3⟩

/-- **C43** Without ICU, folding case gives the smallest superset of the set that has
both cases of every ASCII letter in it, and reports whether anything was added. -/
theorem case_folding (us : List Nat) (h : WF cps us) :
    ∃ us' added, caseDesensitizeAscii none us = some (us', added) ∧ WF cps us' ∧
      (∀ x, RangeSet.test us x = true → RangeSet.test us' x = true) ∧
      CaseClosed (fun x => RangeSet.test us' x = true) ∧
      (∀ S : Nat → Prop, (∀ x, RangeSet.test us x = true → S x) → CaseClosed S →
        ∀ x, RangeSet.test us' x = true → S x) ∧
      (added = true ↔ ∃ x, RangeSet.test us' x = true ∧ RangeSet.test us x = false) := by
  obtain ⟨up, us1, lo, us2, e1, e2, e3, e4, w, hh⟩ := asciiPart_spec us h
  refine ⟨us2, decide (RangeSet.count us < RangeSet.count us2), ?_, w, ?_, ?_, ?_, ?_⟩
  · simp only [caseDesensitizeAscii, e1, Option.bind_eq_bind, Option.bind_some, ← e2, e3, ← e4, icuPart]
  · intro x; rw [RangeSet.test_eq_has h, RangeSet.test_eq_has w, hh x]; exact Or.inl
  · intro x y hxy
    show RangeSet.test us2 x = true → RangeSet.test us2 y = true
    rw [RangeSet.test_eq_has w, RangeSet.test_eq_has w, hh x, hh y]
    rintro (h1 | ⟨z, hz, h1⟩)
    · exact Or.inr ⟨x, hxy, h1⟩
    · have : z = y := by unfold OtherCase at hxy hz; omega
      subst this; exact Or.inl h1
  · intro S hS hc x
    rw [RangeSet.test_eq_has w, hh x]
    rintro (h1 | ⟨z, hz, h1⟩)
    · exact hS x (by rw [RangeSet.test_eq_has h]; exact h1)
    · exact hc z x hz (hS z (by rw [RangeSet.test_eq_has h]; exact h1))
  · rw [decide_eq_true_eq, count_lt_iff h w (fun x hx => (hh x).2 (Or.inl hx))]
    simp only [RangeSet.test_eq_has h, RangeSet.test_eq_has w]

/-- What `caseDesensitizeUnicode` is trusted to do: close a set under an equivalence
`E` on code points, reporting whether that changed anything (ICU's
`USET_CASE_INSENSITIVE`).  `E` relates the two cases of each ASCII letter. -/
structure Closes (E : Nat → Nat → Prop) (close : List Nat → Option (List Nat)) : Prop where
  some : ∀ s s', WF cps s → close s = some s' →
    WF cps s' ∧ ∀ x, has s' x = true ↔ ∃ y, has s y = true ∧ E y x
  none : ∀ s, WF cps s → close s = none → ∀ x y, has s x = true → E x y → has s y = true

/-- **C43** (with ICU) In ASCII mode the result is the smallest superset that has
both cases of every ASCII letter in it and every case variant of its non-ASCII
members; the report is exact here too. -/
theorem case_folding_icu (E : Nat → Nat → Prop) (hE : Equivalence E)
    (hA : ∀ x y, OtherCase x y → E x y) (close : List Nat → Option (List Nat))
    (hcl : Closes E close) (us : List Nat) (h : WF cps us) :
    ∃ us' added, caseDesensitizeAscii (some close) us = some (us', added) ∧ WF cps us' ∧
      (∀ x, RangeSet.test us x = true → RangeSet.test us' x = true) ∧
      CaseClosed (fun x => RangeSet.test us' x = true) ∧
      (∀ x y, 128 ≤ x → RangeSet.test us x = true → E x y → RangeSet.test us' y = true) ∧
      (∀ S : Nat → Prop, (∀ x, RangeSet.test us x = true → S x) → CaseClosed S →
        (∀ x y, 128 ≤ x → RangeSet.test us x = true → E x y → S y) →
        ∀ x, RangeSet.test us' x = true → S x) ∧
      (added = true ↔ ∃ x, RangeSet.test us' x = true ∧ RangeSet.test us x = false) := by
  have hN : 0 < cps := by simp [cps]
  obtain ⟨up, us1, lo, us2, e1, e2, e3, e4, w, hh⟩ := asciiPart_spec us h
  obtain ⟨high, e5, w5, s5⟩ := RangeSet.inter_spec hN w
    (wf_two (a := 0x80) (b := 0x110000) (by omega) (by simp [cps]))
  have m5 : ∀ x, has high x = true ↔ has us x = true ∧ 128 ≤ x := by
    intro x
    rw [s5, Bool.and_eq_true, has_two (by omega), hh x]
    constructor
    · rintro ⟨h1 | ⟨y, h1, h2⟩, h3, h4⟩
      · exact ⟨h1, h3⟩
      · exfalso; unfold OtherCase at h1; omega
    · rintro ⟨h1, h2⟩
      refine ⟨Or.inl h1, h2, ?_⟩
      by_contra hx
      rw [RangeSet.has_ge h (show cps ≤ x by simp only [cps]; omega)] at h1; cases h1
  -- the final set, whatever branch is taken
  have fin : ∃ us3, icuPart (some close) us2 = some us3 ∧ WF cps us3 ∧
      ∀ x, has us3 x = true ↔ has us2 x = true ∨ ∃ y, has us y = true ∧ 128 ≤ y ∧ E y x := by
    simp only [icuPart, e5, Option.bind_eq_bind, Option.bind_some]
    by_cases ha : RangeSet.any high = true
    · rw [if_pos ha]
      cases hc : close high with
      | none =>
        refine ⟨us2, rfl, w, fun x => ⟨Or.inl, ?_⟩⟩
        rintro (h1 | ⟨y, h1, h2, h3⟩)
        · exact h1
        · have := hcl.none high w5 hc y x ((m5 y).2 ⟨h1, h2⟩) h3
          exact (hh x).2 (Or.inl ((m5 x).1 this).1)
      | some hi =>
        obtain ⟨w6, s6⟩ := hcl.some high hi w5 hc
        obtain ⟨us3, e7, w7, s7⟩ := RangeSet.union_spec w w6
        refine ⟨us3, e7, w7, fun x => ?_⟩
        rw [s7, Bool.or_eq_true, s6]
        apply or_congr Iff.rfl
        constructor
        · rintro ⟨y, h1, h2⟩; exact ⟨y, ((m5 y).1 h1).1, ((m5 y).1 h1).2, h2⟩
        · rintro ⟨y, h1, h2, h3⟩; exact ⟨y, (m5 y).2 ⟨h1, h2⟩, h3⟩
    · rw [if_neg ha]
      have hnil : high = [] := by
        unfold RangeSet.any at ha; simpa using ha
      refine ⟨us2, rfl, w, fun x => ⟨Or.inl, ?_⟩⟩
      rintro (h1 | ⟨y, h1, h2, h3⟩)
      · exact h1
      · have := (m5 y).2 ⟨h1, h2⟩
        rw [hnil] at this; simp [has, RangeSet.below] at this
  obtain ⟨us3, e8, w8, m8⟩ := fin
  refine ⟨us3, decide (RangeSet.count us < RangeSet.count us3), ?_, w8, ?_, ?_, ?_, ?_, ?_⟩
  · simp only [caseDesensitizeAscii, e1, Option.bind_eq_bind, Option.bind_some, ← e2, e3, ← e4, e8]
  · intro x; rw [RangeSet.test_eq_has h, RangeSet.test_eq_has w8, m8 x, hh x]; exact fun h => Or.inl (Or.inl h)
  · intro x y hxy
    show RangeSet.test us3 x = true → RangeSet.test us3 y = true
    rw [RangeSet.test_eq_has w8, RangeSet.test_eq_has w8, m8 x, m8 y, hh x, hh y]
    rintro ((h1 | ⟨z, hz, h1⟩) | ⟨z, h1, h2, h3⟩)
    · exact Or.inl (Or.inr ⟨x, hxy, h1⟩)
    · have : z = y := by unfold OtherCase at hxy hz; omega
      subst this; exact Or.inl (Or.inl h1)
    · exact Or.inr ⟨z, h1, h2, hE.trans h3 (hA x y hxy)⟩
  · intro x y hx h1 h2
    rw [RangeSet.test_eq_has h] at h1
    rw [RangeSet.test_eq_has w8, m8]
    exact Or.inr ⟨x, h1, hx, h2⟩
  · intro S hS hc hu x
    rw [RangeSet.test_eq_has w8, m8 x, hh x]
    rintro ((h1 | ⟨z, hz, h1⟩) | ⟨z, h1, h2, h3⟩)
    · exact hS x (by rw [RangeSet.test_eq_has h]; exact h1)
    · exact hc z x hz (hS z (by rw [RangeSet.test_eq_has h]; exact h1))
    · exact hu z x h2 (by rw [RangeSet.test_eq_has h]; exact h1) h3
  · rw [decide_eq_true_eq, count_lt_iff h w8 (fun x hx => (m8 x).2 (Or.inl ((hh x).2 (Or.inl hx))))]
    simp only [RangeSet.test_eq_has h, RangeSet.test_eq_has w8]

-- `[Y-b1]`, a range across the gap between the two cases, and a set already closed
example : caseDesensitizeAscii none [49, 50, 89, 99] = some ([49, 50, 65, 67, 89, 99, 121, 123], true) := by
  decide
example : caseDesensitizeAscii none [65, 66, 97, 98] = some ([65, 66, 97, 98], false) := by decide

/-- The hypotheses of `case_folding_icu` can be met: ASCII folding itself is such a
closure. -/
example : ∃ (E : Nat → Nat → Prop) (close : List Nat → Option (List Nat)), Equivalence E ∧
    (∀ x y, OtherCase x y → E x y) ∧ Closes E close := by
  refine ⟨fun x y => x = y ∨ OtherCase x y,
    fun s => (caseDesensitizeAscii none s).map Prod.fst,
    ⟨fun x => Or.inl rfl, ?_, ?_⟩, fun x y => Or.inr, ?_, ?_⟩
  · intro x y h; unfold OtherCase at *; omega
  · intro x y z h1 h2; unfold OtherCase at *; omega
  · intro s s' hs e
    obtain ⟨up, us1, lo, us2, e1, e2, e3, e4, w, hh⟩ := asciiPart_spec s hs
    have : caseDesensitizeAscii none s = some (us2, decide (RangeSet.count s < RangeSet.count us2)) := by
      simp only [caseDesensitizeAscii, e1, Option.bind_eq_bind, Option.bind_some, ← e2, e3, ← e4, icuPart]
    rw [this] at e
    cases e
    refine ⟨w, fun x => ?_⟩
    rw [hh x]
    constructor
    · rintro (h | ⟨y, h1, h2⟩)
      · exact ⟨x, h, Or.inl rfl⟩
      · exact ⟨y, h2, Or.inr h1⟩
    · rintro ⟨y, h1, rfl | h2⟩
      · exact Or.inl h1
      · exact Or.inr ⟨y, h2, h1⟩
  · intro s hs e
    obtain ⟨up, us1, lo, us2, e1, e2, e3, e4, w, hh⟩ := asciiPart_spec s hs
    simp [caseDesensitizeAscii, e1, ← e2, e3, ← e4, icuPart] at e

/-! ## C51: built-in classes -/

theorem build_spec (rs : List (Nat × Nat)) (h : ∀ r ∈ rs, r.1 ≤ r.2 ∧ r.2 ≤ cps) :
    WF cps (build rs) ∧ ∀ x, has (build rs) x = true ↔ ∃ r ∈ rs, r.1 ≤ x ∧ x < r.2 := by
  obtain ⟨h1, h2⟩ := insertMoved_spec (f := id) rs [] ⟨by simp, by simp, by simp⟩ (by simpa using h)
  refine ⟨h1, fun x => ?_⟩
  have := h2 x
  simpa [has, RangeSet.below, build, insertMoved] using this

/-- A class that tests as `P`, and whose negated escape tests as not `P` on code
points. -/
def IsClass (c : List Nat) (P : Nat → Prop) : Prop :=
  (∀ x, RangeSet.test c x = true ↔ P x) ∧
  ∃ n, negated c = some n ∧ ∀ x, x < 0x110000 → (RangeSet.test n x = true ↔ ¬ P x)

theorem isClass_build (rs : List (Nat × Nat)) (h : ∀ r ∈ rs, r.1 ≤ r.2 ∧ r.2 ≤ cps)
    (P : Nat → Prop) (hP : ∀ x, (∃ r ∈ rs, r.1 ≤ x ∧ x < r.2) ↔ P x) : IsClass (build rs) P := by
  obtain ⟨w, hh⟩ := build_spec rs h
  obtain ⟨n, e, wn, hn⟩ := RangeSet.flip_spec (N := cps) (by simp [cps]) w
  refine ⟨fun x => by rw [RangeSet.test_eq_has w, hh, hP], n, e, fun x hx => ?_⟩
  rw [RangeSet.test_eq_has wn, hn x hx, ← hP, ← hh]
  simp

/-- **C51** The escapes for digits, word characters and space denote, in ASCII mode,
exactly the documented sets; `\h` and `\v` denote the same sets in every mode and
`\s` outside ASCII mode is their union; the upper-case escapes denote exactly the
complements among the code points. -/
theorem builtin_classes :
    IsClass digitClass (fun x => 48 ≤ x ∧ x ≤ 57) ∧
    IsClass wordClass (fun x => (48 ≤ x ∧ x ≤ 57) ∨ (65 ≤ x ∧ x ≤ 90) ∨ (97 ≤ x ∧ x ≤ 122) ∨ x = 95) ∧
    IsClass (spaceClass true) (fun x => (9 ≤ x ∧ x ≤ 13) ∨ x = 32) ∧
    (∃ H V : Nat → Prop,
      (∀ x, H x ↔ x ∈ [0x09, 0x20, 0xA0, 0x1680, 0x180E, 0x202F, 0x205F, 0x3000] ∨
        (0x2000 ≤ x ∧ x ≤ 0x200A)) ∧
      (∀ x, V x ↔ x ∈ [0x0A, 0x0B, 0x0C, 0x0D, 0x85, 0x2028, 0x2029]) ∧
      IsClass hSpaceClass H ∧ IsClass vSpaceClass V ∧
      IsClass (spaceClass false) (fun x => H x ∨ V x)) := by
  refine ⟨?_, ?_, ?_, _, _, fun x => Iff.rfl, fun x => Iff.rfl, ?_, ?_, ?_⟩
  · exact isClass_build _ (by simp [cps]) _ (by intro x; simp; omega)
  · exact isClass_build _ (by simp [cps]) _ (by intro x; simp; omega)
  · exact isClass_build _ (by simp [cps]) _ (by intro x; simp; omega)
  · exact isClass_build _ (by simp [cps, hSpaceRanges]) _ (by intro x; simp [hSpaceRanges]; omega)
  · exact isClass_build _ (by simp [cps, vSpaceRanges]) _ (by intro x; simp [vSpaceRanges]; omega)
  · exact isClass_build _ (by simp [cps, hSpaceRanges, vSpaceRanges]) _
      (by intro x; simp [hSpaceRanges, vSpaceRanges]; omega)

end Verif.ParseUtil
