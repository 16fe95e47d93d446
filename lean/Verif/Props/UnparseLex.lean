import Verif.Unparse
import Verif.Props.AnyOf
/-!
# The tokens of a pattern that was written from a tree (for C108)
-/
namespace Verif.Unparse

open Verif.Parser (Env LTok Tok Re CC Opts StartsWith ccChar ccFirst ccNotFirst ccOf chars)

/-- No `--`, `&&` or `~~`, which would be one token. -/
def NoPairs (w : List Nat) : Prop := ∀ c ∈ [45, 38, 126], ¬ [c, c] <:+: w

theorem NoPairs.right {a b : List Nat} (h : NoPairs (a ++ b)) : NoPairs b :=
  fun c hc hi => h c hc (hi.trans (List.suffix_append a b).isInfix)

theorem NoPairs.left {a b : List Nat} (h : NoPairs (a ++ b)) : NoPairs a :=
  fun c hc hi => h c hc (hi.trans (List.prefix_append a b).isInfix)

theorem NoPairs.next {c : Nat} {r : List Nat} (h : NoPairs (c :: r)) (hc : c ∈ [45, 38, 126]) : ∀ s, r ≠ c :: s := by
  rintro s rfl
  exact h c hc ⟨[], s, by simp⟩

abbrev ints (w : List Nat) : List Int := w.map fun c : Nat => (c : Int)

/-- Before the text `rest`, the text `w` makes tokens with the property. -/
def Lexes (env : Env) (N : Nat) (rest w : List Nat) (P : List LTok → Prop) : Prop :=
  ∀ n, w.length + rest.length ≤ n → ∃ us m, rest.length ≤ m ∧ P us ∧
    Parser.lex env false N n (ints (w ++ rest)) = us ++ Parser.lex env false N m (ints rest)

theorem Lexes.mono {env N rest w} {P Q : List LTok → Prop} (h : Lexes env N rest w P) (hq : ∀ us, P us → Q us) :
    Lexes env N rest w Q := fun n hn => by
  obtain ⟨us, m, a, b, c⟩ := h n hn
  exact ⟨us, m, a, hq us b, c⟩

theorem Lexes.nil {env N rest} {P : List LTok → Prop} (h : P []) : Lexes env N rest [] P :=
  fun n hn => ⟨[], n, by simpa using hn, h, by simp⟩

theorem Lexes.append {env N rest a b} {P Q : List LTok → Prop} (ha : Lexes env N (b ++ rest) a P)
    (hb : Lexes env N rest b Q) : Lexes env N rest (a ++ b) (fun us => ∃ p q, us = p ++ q ∧ P p ∧ Q q) := fun n hn => by
  obtain ⟨us, m, h1, h2, h3⟩ := ha n (by simp only [List.length_append] at hn ⊢; omega)
  obtain ⟨vs, k, g1, g2, g3⟩ := hb m (by simpa using h1)
  exact ⟨us ++ vs, k, g1, ⟨us, vs, rfl, h2, g2⟩, by rw [List.append_assoc, h3, g3, List.append_assoc]⟩

theorem Lexes.one {env : Env} {N : Nat} {rest : List Nat} {x : Nat} {xs : List Nat} {tok : Tok}
    (h : Parser.lexOne env false (x : Int) (ints (xs ++ rest)) = (tok, ints rest)) :
    Lexes env N rest (x :: xs) (fun us => ∃ u, us = [u] ∧ u.tok = tok) := fun n hn => by
  simp only [List.length_cons] at hn
  obtain ⟨n, rfl⟩ : ∃ m, n = m + 1 := ⟨n - 1, by omega⟩
  obtain ⟨a, b, hl⟩ := Session.lex_step (N := N) (n := n) h
  exact ⟨[⟨tok, a, b⟩], n, by omega, ⟨_, rfl, rfl⟩, hl⟩

theorem Lexes.sym {env : Env} {N : Nat} {rest : List Nat} {x : Nat} (hx : (x : Int) ∈ Parser.symbols) :
    Lexes env N rest [x] (fun us => ∃ u, us = [u] ∧ u.tok = .sym x) := by
  apply Lexes.one
  have h1 : ¬ (x : Int) < 1 := by
    simp only [Parser.symbols, List.mem_cons, List.not_mem_nil, or_false] at hx
    omega
  simp [Parser.lexOne, hx, h1]

/-- What a character that is written becomes. -/
def Stands (inClass : Bool) (rest : List Nat) (c : Nat) (t : Tok) : Prop :=
  t = .char c ∨ t = .digit c ∨ (t = .sym c ∧ ((c : Int) ∈ Parser.symbols ∨ c = 45)) ∨ inClass = true ∧ c = 8 ∧ t = .word

theorem hexDigit_parse : ∀ d < 16, ParseUtil.parseHexChar (hexDigit d : Int) = some d := by decide

theorem hexCode_small : ∀ c < 256, hexCode c = [hexDigit (c / 16), hexDigit (c % 16)] := by decide +kernel

theorem hex_value : ∀ c < 256, ((c / 16) <<< 4) ||| (c % 16) = c := by decide +kernel

theorem lexOne_escaped (env : Env) (k : Bool) {c : Nat} (hc : c < 256) (rest : List Nat)
    (hp : NoPairs (escaped k c ++ rest)) :
    ∃ x xs tok, escaped k c = x :: xs ∧ Parser.lexOne env false (x : Int) (ints (xs ++ rest)) = (tok, ints rest) ∧
      Stands k rest c tok ∧ (c = 45 → (∃ r, rest = 93 :: r) → tok = .char 45) := by
  unfold escaped at hp ⊢
  by_cases h1 : c = 92
  · subst h1
    rw [if_pos rfl]
    exact ⟨92, [92], .char 92, rfl, by simp [Parser.lexOne, Parser.symbols, Parser.escape, Parser.metas], .inl rfl, by omega⟩
  rw [if_neg h1] at hp ⊢
  by_cases h2 : 0x20 ≤ c ∧ c ≤ 0x7E
  · rw [if_pos h2] at hp ⊢
    refine ⟨c, [], ?_⟩
    have h0 : ¬ (c : Int) < 1 := by omega
    have h1' : ¬ (c : Int) = 92 := by omega
    by_cases hs : (c : Int) ∈ Parser.symbols
    · refine ⟨.sym c, rfl, by simp [Parser.lexOne, hs, h0], .inr (.inr (.inl ⟨rfl, .inl hs⟩)), ?_⟩
      rintro rfl
      simp [Parser.symbols] at hs
    by_cases ha : c = 38
    · subst ha
      have hn := NoPairs.next (c := 38) (r := rest) hp (by simp)
      refine ⟨.char 38, rfl, ?_, .inl rfl, by omega⟩
      simp only [Parser.lexOne, hs, if_neg h0]
      cases rest with
      | nil => simp
      | cons r rs =>
        have : (r : Int) ≠ 38 := fun e => hn rs (by rw [show r = 38 by omega])
        simp [this]
    by_cases hb : c = 126
    · subst hb
      have hn := NoPairs.next (c := 126) (r := rest) hp (by simp)
      refine ⟨.char 126, rfl, ?_, .inl rfl, by omega⟩
      simp only [Parser.lexOne, hs, if_neg h0]
      cases rest with
      | nil => simp
      | cons r rs =>
        have : (r : Int) ≠ 126 := fun e => hn rs (by rw [show r = 126 by omega])
        simp [this]
    by_cases hh : c = 45
    · subst hh
      have hn := NoPairs.next (c := 45) (r := rest) hp (by simp)
      simp only [Parser.lexOne, hs, if_neg h0]
      cases rest with
      | nil => exact ⟨.char 45, trivial, by simp, .inl rfl, fun _ _ => rfl⟩
      | cons r rs =>
        have h45 : (r : Int) ≠ 45 := fun e => hn rs (by rw [show r = 45 by omega])
        by_cases h93 : r = 93
        · subst h93
          exact ⟨.char 45, trivial, by simp, .inl rfl, fun _ _ => rfl⟩
        · have : (r : Int) ≠ 93 := by omega
          refine ⟨.sym 45, trivial, by simp [h45, this], .inr (.inr (.inl ⟨rfl, .inr rfl⟩)), ?_⟩
          rintro - ⟨q, e⟩
          simp only [List.cons.injEq] at e
          exact absurd e.1 h93
    by_cases hd : 48 ≤ c ∧ c ≤ 57
    · refine ⟨.digit c, rfl, ?_, .inr (.inl rfl), fun h => absurd h hh⟩
      have e1 : (c : Int) ≠ 38 := by omega
      have e2 : (c : Int) ≠ 126 := by omega
      have e3 : (c : Int) ≠ 45 := by omega
      have e4 : 48 ≤ (c : Int) ∧ (c : Int) ≤ 57 := by omega
      simp [Parser.lexOne, hs, h0, e1, e2, e3, h1', e4]
    · refine ⟨.char c, rfl, ?_, .inl rfl, fun h => absurd h hh⟩
      have e1 : (c : Int) ≠ 38 := by omega
      have e2 : (c : Int) ≠ 126 := by omega
      have e3 : (c : Int) ≠ 45 := by omega
      have e4 : ¬ (48 ≤ (c : Int) ∧ (c : Int) ≤ 57) := by omega
      simp only [Parser.lexOne, hs, if_neg h0, e1, e2, e3, h1', e4, if_false]
      simp
  rw [if_neg h2] at hp ⊢
  have h45 : c ≠ 45 := by omega
  by_cases h3 : c = 7
  · subst h3
    exact ⟨92, [97], .char 7, rfl, by simp [Parser.lexOne, Parser.symbols, Parser.escape, Parser.metas, Parser.asciiEscape],
      .inl rfl, by omega⟩
  rw [if_neg h3] at hp ⊢
  by_cases h4 : k = true ∧ c = 8
  · obtain ⟨rfl, rfl⟩ := h4
    exact ⟨92, [98], .word, rfl, by simp [Parser.lexOne, Parser.symbols, Parser.escape, Parser.metas, Parser.asciiEscape,
      Parser.classEscape, ParseUtil.consumeNumeric, Parser.assertEscape], .inr (.inr (.inr ⟨rfl, rfl, rfl⟩)), by omega⟩
  rw [if_neg h4] at hp ⊢
  by_cases h5 : c = 9
  · subst h5
    exact ⟨92, [116], .char 9, rfl, by simp [Parser.lexOne, Parser.symbols, Parser.escape, Parser.metas, Parser.asciiEscape],
      .inl rfl, by omega⟩
  rw [if_neg h5] at hp ⊢
  by_cases h6 : c = 10
  · subst h6
    exact ⟨92, [110], .char 10, rfl, by simp [Parser.lexOne, Parser.symbols, Parser.escape, Parser.metas, Parser.asciiEscape],
      .inl rfl, by omega⟩
  rw [if_neg h6] at hp ⊢
  by_cases h7 : c = 12
  · subst h7
    exact ⟨92, [102], .char 12, rfl, by simp [Parser.lexOne, Parser.symbols, Parser.escape, Parser.metas, Parser.asciiEscape],
      .inl rfl, by omega⟩
  rw [if_neg h7] at hp ⊢
  by_cases h8 : c = 13
  · subst h8
    exact ⟨92, [114], .char 13, rfl, by simp [Parser.lexOne, Parser.symbols, Parser.escape, Parser.metas, Parser.asciiEscape],
      .inl rfl, by omega⟩
  rw [if_neg h8] at hp ⊢
  by_cases h9 : c = 27
  · subst h9
    exact ⟨92, [101], .char 27, rfl, by simp [Parser.lexOne, Parser.symbols, Parser.escape, Parser.metas, Parser.asciiEscape],
      .inl rfl, by omega⟩
  rw [if_neg h9, hexCode_small c hc]
  refine ⟨92, _, .char c, rfl, ?_, .inl rfl, by omega⟩
  have g1 := hexDigit_parse (c / 16) (by omega)
  have g2 := hexDigit_parse (c % 16) (by omega)
  have g3 : (hexDigit (c / 16) : Int) ≠ 123 := by
    unfold hexDigit
    split <;> omega
  simp [Parser.lexOne, Parser.symbols, Parser.escape, Parser.metas, Parser.asciiEscape, Parser.classEscape,
    ParseUtil.consumeNumeric, ParseUtil.parseHexByte, ParseUtil.consumeSingleton, g1, g2, g3, hex_value c hc]

theorem lexes_escaped (env : Env) (N : Nat) (k : Bool) {c : Nat} (hc : c < 256) (rest : List Nat)
    (hp : NoPairs (escaped k c ++ rest)) :
    Lexes env N rest (escaped k c) (fun us => ∃ u, us = [u] ∧ Stands k rest c u.tok ∧
      (c = 45 → (∃ r, rest = 93 :: r) → u.tok = .char 45)) := by
  obtain ⟨x, xs, tok, e1, e2, e3, e4⟩ := lexOne_escaped env k hc rest hp
  rw [e1]
  refine (Lexes.one e2).mono fun us hu => ?_
  obtain ⟨u, rfl, rfl⟩ := hu
  exact ⟨u, rfl, e3, e4⟩

end Verif.Unparse
