import Verif.Props.Grammar
import Verif.Props.Leaves
import Verif.Props.ParseUtil
/-!
# Patterns that mean their own text (C60–C62)
-/
namespace Verif.Parser

open Verif.Regex (Tree UNB lang)
open Verif.Encoders (Node Encoder nodeSem toBytes)

/-! ## Specification -/

/-- A text with a backslash before every character that has a meaning somewhere in a
pattern: `| ( ) ? + * . [ ] ^ $ - { } & ~ < = ! \`. -/
def quote (text : List Int) : List Int :=
  text.flatMap fun c =>
    if c ∈ [124, 40, 41, 63, 43, 42, 46, 91, 93, 94, 36, 45, 123, 125, 38, 126, 60, 61, 33, 92] then [92, c] else [c]

/-- The bytes of a text. -/
def bytesOf (e : Encoder) (text : List Nat) : List UInt8 := toBytes (text.flatMap e.spec)

/-! ## Sequences of characters -/

/-- The token stands for the character `c` wherever it is. -/
def Means (u : LTok) (c : Int) : Prop :=
  u.tok = .char c.toNat ∨ u.tok = .digit c.toNat ∨ u.tok = .sym c.toNat ∧ c ∈ [97, 105, 44]

/-- What the parser does with tokens that stand for characters. -/
def spelled (env : Env) (o : Opts) : Option (Tree Node) → Nat → List Int → Res (Tree Node × Opts × Nat × List LTok)
  | c, k, [] => finish none c [] o k
  | c, k, x :: xs =>
    match literal env o x.toNat with
    | .error e => .error e
    | .ok a => spelled env o (some (joinCat c (.leaf a)).1) (k + 1 + (0 + (joinCat c (.leaf a)).2)) xs

theorem Means.plain {u : LTok} {c : Int} (h : Means u c) :
    u.tok ≠ .sym 124 ∧ u.tok ≠ .kill ∧ u.tok ≠ .sym 40 ∧ startsClass u.tok = false ∧ u.tok ≠ .sym 42 ∧
      u.tok ≠ .sym 43 ∧ u.tok ≠ .sym 63 ∧ u.tok ≠ .sym 123 ∧
      ∀ env o, simpleAtom env o u.tok = some (do let a ← literal env o c.toNat; .ok (.leaf a, 1)) := by
  rcases h with h | h | ⟨h, hc⟩
  · rw [h]; exact ⟨by simp, by simp, by simp, rfl, by simp, by simp, by simp, by simp, fun _ _ => rfl⟩
  · rw [h]; exact ⟨by simp, by simp, by simp, rfl, by simp, by simp, by simp, by simp, fun _ _ => rfl⟩
  · rw [h]
    simp only [List.mem_cons, List.not_mem_nil, or_false] at hc
    rcases hc with rfl | rfl | rfl <;>
      exact ⟨by simp, by simp, by simp, rfl, by simp, by simp, by simp, by simp, fun _ _ => rfl⟩

theorem body_means (env : Env) (o : Opts) : ∀ (us : List LTok) (cs : List Int), List.Forall₂ Means us cs →
    ∀ n c sw k, 2 * us.length + 1 ≤ n → body env n o none c sw k us = spelled env o c k cs := by
  intro us cs h
  induction h with
  | nil =>
    intro n c sw k hn
    obtain ⟨n, rfl⟩ : ∃ m, n = m + 1 := ⟨n - 1, by simp at hn; omega⟩
    rw [body, spelled]
  | @cons u x us xs hu hus ih =>
    intro n c sw k hn
    simp only [List.length_cons] at hn
    obtain ⟨n, rfl⟩ : ∃ m, n = m + 2 := ⟨n - 2, by omega⟩
    obtain ⟨h1, h2, h3, h4, h5, h6, h7, h8, h9⟩ := hu.plain
    rw [body.eq_def]
    simp only [if_neg h1, if_neg h2, if_neg h3, h4, h9, spelled, Bool.false_eq_true, if_false]
    cases hl : literal env o x.toNat with
    | error e => rfl
    | ok a =>
      simp only [bind, Except.bind]
      have hq : quantifier us = .ok (none, 0, us) := by
        cases hus with
        | nil => rfl
        | @cons v y vs ys hv _ =>
          obtain ⟨-, -, -, -, g5, g6, g7, g8, -⟩ := hv.plain
          simp only [quantifier, if_neg g5, if_neg g6, if_neg g7, if_neg g8]
      rw [afterAtom, hq]
      exact ih n _ _ _ (by omega)

theorem parseTokens_means {env : Env} {o : Opts} {us : List LTok} {cs : List Int}
    (h : List.Forall₂ Means us cs) (hne : cs ≠ []) :
    parseTokens env o us = match spelled env o none 0 cs with
      | .ok (t, _, k, []) => .ok (t, k + 1)
      | .ok (_, _, _, us) => .error (unexpected us)
      | .error .eof => .error .unparsed
      | .error e => .error e := by
  unfold parseTokens
  rw [body_means env o us cs h _ _ _ _ (by simp [fuelFor]; omega)]
  have : us ≠ [] := by rintro rfl; cases h; exact hne rfl
  simp only [if_neg this]
  rfl

theorem lex_fixed (env : Env) (N : Nat) : ∀ (n : Nat) (text : List Int), text.length ≤ n → (∀ c ∈ text, 1 ≤ c) →
    List.Forall₂ Means (lex env true N n text) text
  | _, [], _, _ => by rename_i n _; cases n <;> exact .nil
  | 0, _ :: _, h, _ => by simp at h
  | n + 1, c :: t, h, hc => by
    have h1 : ¬ c < 1 := by have := hc c (by simp); omega
    have e : lexOne env true c t = (.char c.toNat, t) := by simp [lexOne, h1]
    rw [lex]
    simp only [e]
    exact .cons (Or.inl rfl) (lex_fixed env N n t (by simpa using h) (fun x hx => hc x (by simp [hx])))

theorem lex_quote (env : Env) (N : Nat) : ∀ (text : List Int) (n : Nat), (quote text).length ≤ n → (∀ c ∈ text, 1 ≤ c) →
    List.Forall₂ Means (lex env false N n (quote text)) text
  | [], n, _, _ => by cases n <;> exact .nil
  | c :: t, n, h, hc => by
    have h1 : ¬ c < 1 := by have := hc c (by simp); omega
    have hq : quote (c :: t) = (if c ∈ metas then [92, c] else [c]) ++ quote t := by simp [quote, metas]
    rw [hq] at h ⊢
    by_cases hm : c ∈ metas
    · rw [if_pos hm] at h ⊢
      simp only [List.length_append, List.length_cons, List.length_nil] at h
      obtain ⟨n, rfl⟩ : ∃ m, n = m + 1 := ⟨n - 1, by omega⟩
      have e : lexOne env false 92 (c :: quote t) = (.char c.toNat, quote t) := by
        simp [lexOne, symbols, escape, hm]
      show List.Forall₂ Means (lex env false N (n + 1) (92 :: (c :: quote t))) _
      rw [lex]
      simp only [e]
      exact .cons (Or.inl rfl) (lex_quote env N t n (by omega) (fun x hx => hc x (by simp [hx])))
    · rw [if_neg hm] at h ⊢
      simp only [List.length_append, List.length_cons, List.length_nil] at h
      obtain ⟨n, rfl⟩ : ∃ m, n = m + 1 := ⟨n - 1, by omega⟩
      have hm' := hm
      simp only [metas, List.mem_cons, List.not_mem_nil, or_false, not_or] at hm'
      show List.Forall₂ Means (lex env false N (n + 1) (c :: quote t)) _
      have e : (lexOne env false c (quote t)).2 = quote t ∧
          Means ⟨(lexOne env false c (quote t)).1, N - ((quote t).length + 1), N - (lexOne env false c (quote t)).2.length⟩ c := by
        by_cases hs : c ∈ symbols
        · have e : lexOne env false c (quote t) = (.sym c.toNat, quote t) := by simp [lexOne, h1, hs]
          rw [e]
          refine ⟨rfl, Or.inr (Or.inr ⟨rfl, ?_⟩)⟩
          simp only [symbols, List.mem_cons, List.not_mem_nil, or_false] at hs ⊢
          omega
        · by_cases hd : 48 ≤ c ∧ c ≤ 57
          · have e : lexOne env false c (quote t) = (.digit c.toNat, quote t) := by
              simp [lexOne, h1, hs, hm', hd]
            rw [e]
            exact ⟨rfl, Or.inr (Or.inl rfl)⟩
          · have e : lexOne env false c (quote t) = (.char c.toNat, quote t) := by
              simp [lexOne, h1, hs, hm', hd]
            rw [e]
            exact ⟨rfl, Or.inl rfl⟩
      rw [lex]
      refine .cons e.2 ?_
      rw [e.1]
      exact lex_quote env N t n (by omega) (fun x hx => hc x (by simp [hx]))

/-- **C61** A text with its special characters quoted is parsed like the text as a fixed
string: into the same tree with the same number of nodes, or both are refused in the same
way. -/
theorem quoted_is_fixed (env : Env) (i u : Bool) (text : List Int) (h : ∀ c ∈ text, 1 ≤ c) :
    parse env ⟨false, i, u⟩ (quote text) = parse env ⟨true, i, u⟩ text := by
  by_cases hne : text = []
  · subst hne; rfl
  · unfold parse
    rw [parseTokens_means (lex_quote env _ text _ (Nat.le_refl _) h) hne,
      parseTokens_means (lex_fixed env _ _ text (Nat.le_refl _) h) hne]

/-- `a|b` quoted is `a\|b`, which has three leaves. -/
example : quote [97, 124, 98] = [97, 92, 124, 98] ∧
    parse plain ⟨false, false, false⟩ (quote [97, 124, 98]) =
      .ok (.cat (.cat (.leaf (.lit 97)) (.leaf (.lit 124))) (.leaf (.lit 98)), 6) := ⟨rfl, rfl⟩

/-! ## The byte strings of a text -/

/-- The tokens are those of the text `cs`: each stands for a character, or for two equal
ones. -/
inductive Spells : List LTok → List Int → Prop
  | nil : Spells [] []
  | one {u us c cs} : character u.tok = some c.toNat → u.tok ≠ .sym 123 → Spells us cs → Spells (u :: us) (c :: cs)
  | two {u us c cs} : u.tok = .hyphens ∧ c = 45 ∨ u.tok = .amps ∧ c = 38 ∨ u.tok = .tildes ∧ c = 126 →
      Spells us cs → Spells (u :: us) (c :: c :: cs)

theorem Means.spells {us cs} (h : List.Forall₂ Means us cs) : Spells us cs := by
  induction h with
  | nil => exact .nil
  | @cons u c us cs hu _ ih =>
    obtain ⟨-, -, -, -, -, -, -, h8, -⟩ := hu.plain
    refine .one ?_ h8 ih
    rcases hu with h | h | ⟨h, hc⟩
    · rw [h]; rfl
    · rw [h]; rfl
    · rw [h]
      simp only [List.mem_cons, List.not_mem_nil, or_false] at hc
      rcases hc with rfl | rfl | rfl <;> rfl

theorem character_plain {t : Tok} {x : Nat} (h : character t = some x) :
    t ≠ .sym 124 ∧ t ≠ .kill ∧ t ≠ .sym 40 ∧ startsClass t = false ∧ t ≠ .sym 42 ∧ t ≠ .sym 43 ∧ t ≠ .sym 63 ∧
      ∀ env o, simpleAtom env o t = some (do let a ← literal env o x; .ok (.leaf a, 1)) := by
  cases t with
  | char c => cases h; exact ⟨by simp, by simp, by simp, rfl, by simp, by simp, by simp, fun _ _ => rfl⟩
  | digit c => cases h; exact ⟨by simp, by simp, by simp, rfl, by simp, by simp, by simp, fun _ _ => rfl⟩
  | sym c =>
    simp only [character] at h
    split at h
    · rename_i hc
      cases h
      simp only [List.mem_cons, List.not_mem_nil, or_false] at hc
      have : x = 97 ∨ x = 105 ∨ x = 93 ∨ x = 45 ∨ x = 123 ∨ x = 125 ∨ x = 44 ∨ x = 60 ∨ x = 61 ∨ x = 33 := by
        omega
      rcases this with rfl | rfl | rfl | rfl | rfl | rfl | rfl | rfl | rfl | rfl <;>
        exact ⟨by simp, by simp, by simp, rfl, by simp, by simp, by simp, fun _ _ => rfl⟩
    · cases h
  | _ => cases h

theorem Spells.quantifier {us cs} (h : Spells us cs) : quantifier us = .ok (none, 0, us) := by
  cases h with
  | nil => rfl
  | one hc h8 _ =>
    obtain ⟨-, -, -, -, g5, g6, g7, -⟩ := character_plain hc
    simp only [Parser.quantifier, if_neg g5, if_neg g6, if_neg g7, if_neg h8]
  | two h _ => rcases h with ⟨h, -⟩ | ⟨h, -⟩ | ⟨h, -⟩ <;> simp [Parser.quantifier, h]

/-- The strings of what has been read. -/
def soFar (e : Encoder) : Option (Tree Node) → Language UInt8
  | none => 1
  | some t => lang (nodeSem e) t

theorem soFar_join (e : Encoder) (c : Option (Tree Node)) (t : Tree Node) :
    soFar e (some (joinCat c t).1) = soFar e c * lang (nodeSem e) t := by
  cases c with
  | none => simp [soFar, joinCat]
  | some c => rfl

theorem body_spells {env : Env} {o : Opts} {e : Encoder} {S : Int → Language UInt8}
    (h2 : ∀ c ∈ ([45, 38, 126] : List Int), S c = nodeSem e (.lit c.toNat)) {us cs} (h : Spells us cs) :
    (∀ c ∈ cs, ∃ a, literal env o c.toNat = .ok a ∧ nodeSem e a = S c) →
    ∀ n c sw k, 2 * us.length + 1 ≤ n → c ≠ none ∨ cs ≠ [] →
    ∃ t k', body env n o none c sw k us = .ok (t, o, k', []) ∧
      lang (nodeSem e) t = soFar e c * (cs.map S).prod := by
  induction h with
  | nil =>
    intro _ n c sw k hn hc
    obtain ⟨n, rfl⟩ : ∃ m, n = m + 1 := ⟨n - 1, by simp at hn; omega⟩
    rw [body]
    cases c with
    | none => simp at hc
    | some c => exact ⟨c, k, by simp [finish, joinAlt], by simp [soFar]⟩
  | @one u us x cs hc h8 hus ih =>
    intro hS n c sw k hn _
    simp only [List.length_cons] at hn
    obtain ⟨n, rfl⟩ : ∃ m, n = m + 2 := ⟨n - 2, by omega⟩
    obtain ⟨h1, h2, h3, h4, -, -, -, h9⟩ := character_plain hc
    obtain ⟨a, ha, hSa⟩ := hS x (by simp)
    rw [body.eq_def]
    simp only [if_neg h1, if_neg h2, if_neg h3, h4, h9, Bool.false_eq_true, if_false, ha, bind, Except.bind]
    rw [afterAtom, hus.quantifier]
    obtain ⟨t, k', hb, hl⟩ := ih (fun y hy => hS y (by simp [hy])) n (some (joinCat c (.leaf a)).1) false
      (k + 1 + (0 + (joinCat c (.leaf a)).2)) (by omega) (by simp)
    refine ⟨t, k', hb, ?_⟩
    rw [hl, soFar_join, List.map_cons, List.prod_cons, mul_assoc]
    simp only [lang, hSa]
  | @two u us x cs hu hus ih =>
    intro hS n c sw k hn _
    simp only [List.length_cons] at hn
    obtain ⟨n, rfl⟩ : ∃ m, n = m + 2 := ⟨n - 2, by omega⟩
    have hx : x ∈ ([45, 38, 126] : List Int) := by rcases hu with ⟨-, h⟩ | ⟨-, h⟩ | ⟨-, h⟩ <;> simp [h]
    have hu' : u.tok ≠ .sym 124 ∧ u.tok ≠ .kill ∧ u.tok ≠ .sym 40 ∧ startsClass u.tok = false ∧
        simpleAtom env o u.tok = some (.ok (twice x.toNat, 3)) := by
      rcases hu with ⟨h, rfl⟩ | ⟨h, rfl⟩ | ⟨h, rfl⟩ <;> rw [h] <;> exact ⟨by simp, by simp, by simp, rfl, rfl⟩
    obtain ⟨h1, h2', h3, h4, h9⟩ := hu'
    rw [body.eq_def]
    simp only [if_neg h1, if_neg h2', if_neg h3, h4, h9, Bool.false_eq_true, if_false]
    rw [afterAtom, hus.quantifier]
    obtain ⟨t, k', hb, hl⟩ := ih (fun y hy => hS y (by simp [hy])) n (some (joinCat c (twice x.toNat)).1) false
      (k + 3 + (0 + (joinCat c (twice x.toNat)).2)) (by omega) (by simp)
    refine ⟨t, k', hb, ?_⟩
    rw [hl, soFar_join, List.map_cons, List.map_cons, List.prod_cons, List.prod_cons, h2 x hx]
    simp only [twice, lang, mul_assoc]

/-- The characters that a character of the text may be. -/
def Same (caseless : Bool) (x : Int) (y : Nat) : Prop :=
  y = x.toNat ∨ caseless = true ∧ ParseUtil.OtherCase x.toNat y

/-- The encodings of the characters that a character of the text may be. -/
def sameLang (e : Encoder) (i : Bool) (x : Int) : Language UInt8 := {w | ∃ y, Same i x y ∧ w = toBytes (e.spec y)}

theorem literal_sem {env : Env} {i a : Bool} (hi : i = true → env = plain) (e : Encoder) (hlt : i = true → e.Letters) {x : Int}
    (hx : x < 0x110000) :
    ∃ n, literal env ⟨!i, a⟩ x.toNat = .ok n ∧ nodeSem e n = sameLang e i x := by
  cases i with
  | false =>
    refine ⟨.lit x.toNat, rfl, ?_⟩
    ext w
    show w = toBytes (e.spec x.toNat) ↔ ∃ y, Same false x y ∧ w = toBytes (e.spec y)
    simp [Same]
  | true =>
    rw [hi rfl]
    have w0 : RangeSet.WF ParseUtil.cps [] := ⟨by simp, by simp, by simp⟩
    have w1 : RangeSet.WF ParseUtil.cps (RangeSet.insert [] x.toNat (x.toNat + 1)) :=
      RangeSet.insert_wf w0 (by omega) (by simp only [ParseUtil.cps]; omega)
    have m1 : ∀ y, RangeSet.test (RangeSet.insert [] x.toNat (x.toNat + 1)) y = true ↔ y = x.toNat := by
      intro y
      rw [RangeSet.test_eq_has w1, RangeSet.insert_has w0 (by omega)]
      simp [RangeSet.has, RangeSet.below]
      omega
    obtain ⟨s, added, hs, ws, k1, k2, k3, k4⟩ := ParseUtil.case_folding _ w1
    have ms : ∀ y, RangeSet.has s y = true ↔ Same true x y := by
      intro y
      rw [← RangeSet.test_eq_has ws]
      constructor
      · intro h
        refine k3 (fun y => Same true x y) (fun y hy => Or.inl ((m1 y).1 hy)) ?_ y h
        rintro y z hyz (rfl | ⟨-, h⟩)
        · exact Or.inr ⟨rfl, hyz⟩
        · left; unfold ParseUtil.OtherCase at hyz h; omega
      · rintro (rfl | ⟨-, h⟩)
        · exact k1 _ ((m1 _).2 rfl)
        · exact k2 _ _ h (k1 _ ((m1 _).2 rfl))
    have hl : literal plain ⟨!true, a⟩ x.toNat = .ok (if added then .cls s 0 true else .lit x.toNat) := by
      simp only [literal, plain, hs]
      cases added <;> rfl
    refine ⟨_, hl, ?_⟩
    cases added with
    | true =>
      obtain ⟨z, hz, hz'⟩ := k4.1 rfl
      have hlet : ∀ y, Same true x y → Encoders.Letter y := by
        have hz2 := (ms z).1 (by rw [← RangeSet.test_eq_has ws]; exact hz)
        rcases hz2 with rfl | ⟨-, h⟩
        · rw [(m1 _).2 rfl] at hz'; cases hz'
        · rintro y (rfl | ⟨-, h'⟩) <;> unfold ParseUtil.OtherCase at * <;> unfold Encoders.Letter <;> omega
      ext w
      show ((∃ c, RangeSet.has s c = true ∧ e.Has c ∧ w = toBytes (e.spec c)) ∨ ∃ b, Nfa.BSet.has 0 b = true ∧ w = [b]) ↔ _
      constructor
      · rintro (⟨c, h1, -, h3⟩ | ⟨b, hb, -⟩)
        · exact ⟨c, (ms c).1 h1, h3⟩
        · simp [Nfa.BSet.has] at hb
      · rintro ⟨y, h1, h2⟩
        exact Or.inl ⟨y, (ms y).2 h1, hlt rfl y (hlet y h1), h2⟩
    | false =>
      ext w
      show w = toBytes (e.spec x.toNat) ↔ _
      constructor
      · intro h; exact ⟨_, Or.inl rfl, h⟩
      · rintro ⟨y, h1, h2⟩
        have : y = x.toNat := by
          by_contra hne
          have : false = true := k4.2 ⟨y, by rw [RangeSet.test_eq_has ws]; exact (ms y).2 h1, by
            cases hc : RangeSet.test (RangeSet.insert [] x.toNat (x.toNat + 1)) y with
            | false => rfl
            | true => exact absurd ((m1 y).1 hc) hne⟩
          cases this
        rw [this] at h2; exact h2

theorem prod_same (e : Encoder) (i : Bool) : ∀ (cs : List Int) (w : List UInt8),
    w ∈ (cs.map (sameLang e i)).prod ↔
      ∃ ys, List.Forall₂ (Same i) cs ys ∧ w = bytesOf e ys
  | [], w => by simp [bytesOf, toBytes]
  | x :: cs, w => by
    rw [List.map_cons, List.prod_cons, Language.mem_mul]
    constructor
    · rintro ⟨a, ⟨y, hy, rfl⟩, b, hb, rfl⟩
      obtain ⟨ys, h1, rfl⟩ := (prod_same e i cs b).1 hb
      exact ⟨y :: ys, .cons hy h1, by simp [bytesOf, toBytes]⟩
    · rintro ⟨_, h, rfl⟩
      cases h with
      | @cons _ y _ ys h1 h2 =>
        exact ⟨_, ⟨y, h1, rfl⟩, _, (prod_same e i cs _).2 ⟨ys, h2, rfl⟩, by simp [bytesOf, toBytes]⟩

theorem spells_text {env : Env} {i a : Bool} (hi : i = true → env = plain) (e : Encoder) (hlt : i = true → e.Letters) {us : List LTok} {cs : List Int}
    (hne : cs ≠ []) (hc : ∀ c ∈ cs, c < 0x110000) (h : Spells us cs) :
    ∃ t k, parseTokens env ⟨!i, a⟩ us = .ok (t, k) ∧
      ∀ w, w ∈ lang (nodeSem e) t ↔ ∃ ys, List.Forall₂ (Same i) cs ys ∧ w = bytesOf e ys := by
  obtain ⟨t, k, hb, hl⟩ := body_spells (env := env) (o := ⟨!i, a⟩) (e := e)
    (S := sameLang e i) (by
      intro c hc
      ext w
      show (∃ y, Same i c y ∧ w = toBytes (e.spec y)) ↔ w = toBytes (e.spec c.toNat)
      constructor
      · rintro ⟨y, rfl | ⟨-, h⟩, h'⟩
        · exact h'
        · exfalso
          simp only [List.mem_cons, List.not_mem_nil, or_false] at hc
          unfold ParseUtil.OtherCase at h
          omega
      · exact fun h => ⟨_, Or.inl rfl, h⟩) h (fun c hx => literal_sem hi e hlt (hc c hx)) (fuelFor us) none true 0
      (by simp [fuelFor]; omega) (Or.inr hne)
  refine ⟨t, k + 1, by rw [parseTokens, hb], fun w => ?_⟩
  rw [hl, ← prod_same]
  simp [soFar]

/-- **C60** A fixed string that is not empty and has no null character is accepted, and it
stands for the encodings of its text, case-insensitively, in an encoding that has the Latin
letters, of the texts that differ from it only in the case of ASCII letters. -/
theorem fixed_text {env : Env} {i u : Bool} (hi : i = true → env = plain) (e : Encoder) (hlt : i = true → e.Letters) {text : List Int} (hne : text ≠ [])
    (hc : ∀ c ∈ text, 1 ≤ c ∧ c < 0x110000) :
    ∃ t k, parse env ⟨true, i, u⟩ text = .ok (t, k) ∧
      ∀ w, w ∈ lang (nodeSem e) t ↔ ∃ ys, List.Forall₂ (Same i) text ys ∧ w = bytesOf e ys :=
  spells_text hi e hlt hne (fun c h => (hc c h).2)
    (Means.spells (lex_fixed env _ _ text (Nat.le_refl _) (fun c h => (hc c h).1)))

/-- **C60**, case-sensitively: exactly the encoding of the text. -/
theorem fixed_text_cased (env : Env) (u : Bool) (e : Encoder) {text : List Int} (hne : text ≠ [])
    (hc : ∀ c ∈ text, 1 ≤ c ∧ c < 0x110000) :
    ∃ t k, parse env ⟨true, false, u⟩ text = .ok (t, k) ∧
      ∀ w, w ∈ lang (nodeSem e) t ↔ w = bytesOf e (text.map Int.toNat) := by
  obtain ⟨t, k, h1, h2⟩ := fixed_text (env := env) (i := false) (u := u) (fun h => by cases h) e (fun h => by cases h) hne hc
  refine ⟨t, k, h1, fun w => (h2 w).trans ?_⟩
  have key : ∀ (cs : List Int) (ys : List Nat), List.Forall₂ (Same false) cs ys ↔ ys = cs.map Int.toNat := by
    intro cs
    induction cs with
    | nil => intro ys; cases ys <;> simp
    | cons c cs ih =>
      intro ys
      cases ys with
      | nil => simp
      | cons y ys => simp [ih, Same]
  simp [key]

theorem body_bad (env : Env) : ∀ (us : List LTok), (∀ u ∈ us, (∃ c, u.tok = .char c) ∨ u.tok = .bad) →
    (∃ u ∈ us, u.tok = .bad) → ∀ n o c sw k t o' k', body env n o none c sw k us ≠ .ok (t, o', k', [])
  | [], _, h, _, _, _, _, _, _, _, _ => by simp at h
  | u :: us, hu, hb, 0, o, c, sw, k, t, o', k' => by rw [body]; simp
  | u :: us, hu, hb, n + 1, o, c, sw, k, t, o', k' => by
    intro h
    rcases hu u (by simp) with ⟨x, hx⟩ | hx
    · have hb' : ∃ v ∈ us, v.tok = .bad := by
        obtain ⟨v, hv, hv'⟩ := hb
        rcases List.mem_cons.1 hv with rfl | hv
        · rw [hx] at hv'; cases hv'
        · exact ⟨v, hv, hv'⟩
      have hq : quantifier us = .ok (none, 0, us) := by
        cases us with
        | nil => rfl
        | cons v vs => rcases hu v (by simp) with ⟨y, hy⟩ | hy <;> simp [quantifier, hy]
      have hs : simpleAtom env o u.tok = some (do let a ← literal env o x; .ok (.leaf a, 1)) := by rw [hx]; rfl
      rw [body.eq_def] at h
      simp only [hs] at h
      simp only [hx, startsClass, reduceCtorEq, if_false, Bool.false_eq_true] at h
      cases hl : literal env o x with
      | error e => simp [hl, bind, Except.bind] at h
      | ok a =>
        simp only [hl, bind, Except.bind] at h
        cases n with
        | zero => rw [afterAtom] at h; cases h
        | succ n =>
          rw [afterAtom, hq] at h
          exact body_bad env us (fun v hv => hu v (by simp [hv])) hb' _ _ _ _ _ _ _ _ h
    · rw [body.eq_def] at h
      simp only [hx, startsClass, simpleAtom, character, reduceCtorEq, if_false, Bool.false_eq_true, finish] at h
      cases c <;> simp at h

theorem lex_fixed_bad (env : Env) (N : Nat) : ∀ (n : Nat) (text : List Int), text.length ≤ n →
    (∀ u ∈ lex env true N n text, (∃ c, u.tok = .char c) ∨ u.tok = .bad) ∧
      ((∃ c ∈ text, c < 1) → ∃ u ∈ lex env true N n text, u.tok = .bad)
  | n, [], _ => by cases n <;> simp [lex]
  | 0, _ :: _, h => by simp at h
  | n + 1, c :: t, h => by
    obtain ⟨i1, i2⟩ := lex_fixed_bad env N n t (by simpa using h)
    by_cases hc : c < 1
    · have e : lexOne env true c t = (.bad, t) := by simp [lexOne, hc]
      rw [lex]
      simp only [e, List.mem_cons]
      exact ⟨fun u hu => by rcases hu with rfl | hu; exacts [Or.inr rfl, i1 u hu], fun _ => ⟨_, Or.inl rfl, rfl⟩⟩
    · have e : lexOne env true c t = (.char c.toNat, t) := by simp [lexOne, hc]
      rw [lex]
      simp only [e, List.mem_cons]
      refine ⟨fun u hu => by rcases hu with rfl | hu; exacts [Or.inl ⟨_, rfl⟩, i1 u hu], ?_⟩
      rintro ⟨x, rfl | hx, hx'⟩
      · exact absurd hx' hc
      · obtain ⟨u, h1, h2⟩ := i2 ⟨x, hx, hx'⟩
        exact ⟨u, Or.inr h1, h2⟩

/-- A fixed string with a null character, or with a byte that is not UTF-8 (a negative number
in the decoded text), is refused, and so is the empty one. -/
theorem fixed_refused (env : Env) (i u : Bool) {text : List Int} (hc : text = [] ∨ ∃ c ∈ text, c < 1) :
    ∀ r, parse env ⟨true, i, u⟩ text ≠ .ok r := by
  rintro ⟨t, k⟩ h
  rcases hc with rfl | hc
  · cases h
  · obtain ⟨h1, h2⟩ := lex_fixed_bad env text.length text.length text (Nat.le_refl _)
    unfold parse parseTokens at h
    split at h
    · rename_i hb
      exact body_bad env _ h1 (h2 hc) _ _ _ _ _ _ _ _ hb
    · cases h
    · split at h <;> cases h
    · cases h

theorem spells_cons {env : Env} {N n : Nat} {c : Int} {t r : List Int} {tok : Tok} (h : lexOne env false c t = (tok, r))
    {cs cs' : List Int} (hs : ∀ u : LTok, u.tok = tok → Spells (u :: lex env false N n r) cs') (e : cs = cs') :
    Spells (lex env false N (n + 1) (c :: t)) cs := by
  rw [lex, e]
  simp only [h]
  exact hs _ rfl

theorem lex_spells (env : Env) (N : Nat) : ∀ (n : Nat) (text : List Int), text.length ≤ n →
    (∀ c ∈ text, 1 ≤ c) → (∀ c ∈ ([92, 94, 36, 46, 124, 63, 42, 43, 40, 41, 91, 123] : List Int), c ∉ text) →
    Spells (lex env false N n text) text
  | n, [], _, _, _ => by cases n <;> exact .nil
  | 0, _ :: _, h, _, _ => by simp at h
  | n + 1, c :: t, h, hc, hs => by
    have h1 : ¬ c < 1 := by have := hc c (by simp); omega
    have hc' : ∀ x ∈ t, 1 ≤ x := fun x hx => hc x (by simp [hx])
    have hs' : ∀ x ∈ ([92, 94, 36, 46, 124, 63, 42, 43, 40, 41, 91, 123] : List Int), x ∉ t :=
      fun x hx hx' => hs x hx (by simp [hx'])
    have hl : t.length ≤ n := by simpa using h
    have it := lex_spells env N n t hl hc' hs'
    have ns : c ∉ ([92, 94, 36, 46, 124, 63, 42, 43, 40, 41, 91, 123] : List Int) := fun hx => hs c hx (by simp)
    have one : ∀ tok, lexOne env false c t = (tok, t) → character tok = some c.toNat → tok ≠ .sym 123 →
        Spells (lex env false N (n + 1) (c :: t)) (c :: t) := fun tok h1 h2 h3 =>
      spells_cons h1 (fun u hu => .one (by rw [hu]; exact h2) (by rw [hu]; exact h3) it) rfl
    have two : ∀ tok r, t = c :: r → lexOne env false c t = (tok, r) →
        (tok = .hyphens ∧ c = 45 ∨ tok = .amps ∧ c = 38 ∨ tok = .tildes ∧ c = 126) →
        Spells (lex env false N (n + 1) (c :: t)) (c :: t) := fun tok r e h1 h2 =>
      spells_cons h1 (fun u hu => .two (by rw [hu]; exact h2) (lex_spells env N n r
        (by rw [e] at hl; simp at hl; omega) (fun x hx => hc' x (by simp [e, hx]))
        (fun x hx hx' => hs' x hx (by simp [e, hx'])))) (by rw [e])
    by_cases hsy : c ∈ symbols
    · refine one (.sym c.toNat) (by simp [lexOne, h1, hsy]) ?_ ?_
      · have : (c.toNat : Int) ∈ ([97, 105, 93, 45, 123, 125, 44, 60, 61, 33] : List Int) := by
          simp only [symbols, List.mem_cons, List.not_mem_nil, or_false] at hsy ns ⊢
          omega
        simp only [character, if_pos this]
      · intro e
        simp only [Tok.sym.injEq] at e
        simp only [List.mem_cons, List.not_mem_nil, or_false, not_or] at ns
        omega
    · have hn92 : c ≠ 92 := by rintro rfl; simp at ns
      by_cases h38 : c = 38
      · subst h38
        by_cases ht : ∃ r, t = 38 :: r
        · obtain ⟨r, ht⟩ := ht
          exact two .amps r ht (by rw [ht]; rfl) (by simp)
        · refine one (.char 38) ?_ rfl (by simp)
          cases t with
          | nil => rfl
          | cons x r =>
            have : x ≠ 38 := fun e => ht ⟨r, by rw [e]⟩
            simp [lexOne, symbols]
            split
            · rename_i h; simp at h; exact absurd h.1 this
            · rfl
      · by_cases h126 : c = 126
        · subst h126
          by_cases ht : ∃ r, t = 126 :: r
          · obtain ⟨r, ht⟩ := ht
            exact two .tildes r ht (by rw [ht]; rfl) (by simp)
          · refine one (.char 126) ?_ rfl (by simp)
            cases t with
            | nil => rfl
            | cons x r =>
              have : x ≠ 126 := fun e => ht ⟨r, by rw [e]⟩
              simp [lexOne, symbols]
              split
              · rename_i h; simp at h; exact absurd h.1 this
              · rfl
        · by_cases h45 : c = 45
          · subst h45
            cases t with
            | nil => exact one (.char 45) rfl rfl (by simp)
            | cons x r =>
              by_cases hx : x = 93
              · subst hx; exact one (.char 45) rfl rfl (by simp)
              · by_cases hx' : x = 45
                · subst hx'; exact two .hyphens r rfl rfl (by simp)
                · refine one (.sym 45) ?_ rfl (by simp)
                  simp [lexOne, symbols]
                  split
                  · rename_i h; cases h
                  · rename_i h; simp at h; exact absurd h.1 hx
                  · rename_i h; simp at h; exact absurd h.1 hx'
                  · rfl
          · by_cases hd : 48 ≤ c ∧ c ≤ 57
            · exact one (.digit c.toNat) (by simp [lexOne, h1, hsy, h38, h126, h45, hn92, hd]) rfl (by simp)
            · exact one (.char c.toNat) (by simp [lexOne, h1, hsy, h38, h126, h45, hn92, hd]) rfl (by simp)

/-- **C62** A pattern without `\ ^ $ . | ? * + ( ) [ {` stands for the same byte strings as
the fixed string with the same text. -/
theorem plain_text {env : Env} {i u : Bool} (hi : i = true → env = plain) (e : Encoder) (hlt : i = true → e.Letters) {text : List Int} (hne : text ≠ [])
    (hc : ∀ c ∈ text, 1 ≤ c ∧ c < 0x110000)
    (hs : ∀ c ∈ ([92, 94, 36, 46, 124, 63, 42, 43, 40, 41, 91, 123] : List Int), c ∉ text) :
    ∃ t k, parse env ⟨false, i, u⟩ text = .ok (t, k) ∧
      ∀ w, w ∈ lang (nodeSem e) t ↔ ∃ ys, List.Forall₂ (Same i) text ys ∧ w = bytesOf e ys :=
  spells_text hi e hlt hne (fun c h => (hc c h).2)
    (lex_spells env _ _ text (Nat.le_refl _) (fun c h => (hc c h).1) hs)

/-- `a--9` case-insensitively: `a9` in either case of `a`, with two hyphens between. -/
example : ∃ t k, parse plain ⟨false, true, false⟩ [97, 45, 45, 57] = .ok (t, k) ∧
    [65, 45, 45, 57] ∈ lang (nodeSem .ascii) t := by
  obtain ⟨t, k, h1, h2⟩ := plain_text (env := plain) (i := true) (u := false) (fun _ => rfl) .ascii
    (fun _ c hc => by show c < 0x80; unfold Encoders.Letter at hc; omega)
    (text := [97, 45, 45, 57]) (by simp) (by simp) (by decide)
  refine ⟨t, k, h1, (h2 _).2 ⟨[65, 45, 45, 57], ?_, rfl⟩⟩
  exact .cons (Or.inr ⟨rfl, by unfold ParseUtil.OtherCase; omega⟩) (.cons (Or.inl rfl) (.cons (Or.inl rfl)
    (.cons (Or.inl rfl) .nil)))

end Verif.Parser
