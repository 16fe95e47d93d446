import Verif.Graphviz
import Verif.Props.Transition
import Verif.Props.SearchCmd
import Verif.Props.Status
/-!
# C112: the automaton can be read from what the command `graph` writes
-/
namespace Verif.Graphviz
open Verif.Nfa (Graph BSet)
open Verif.ByteSet (Bits)
open Verif.Transition (Trans getSmallest)
open Verif.Cmd (Str decimal number decimal_spec)

/-! ## Specification -/

/-- The hyphen, the slash and the backslash are not at an end of a range of bytes of the set. -/
def Readable (s : BSet) : Prop :=
  ∀ c ∈ [45, 47, 92], s.getLsbD c = true → s.getLsbD (c - 1) = true ∧ s.getLsbD (c + 1) = true

/-! ## Ranges -/

structure IsRange (s : Bits) (p : Nat × Nat) : Prop where
  le : p.1 ≤ p.2
  lt : p.2 < 256
  all : ∀ x, p.1 ≤ x → x ≤ p.2 → s x = true
  before : p.1 = 0 ∨ s (p.1 - 1) = false
  behind : p.2 = 255 ∨ s (p.2 + 1) = false

theorem ranges_spec (s : Bits) : ∀ (n i : Nat) (st : Option (Nat × Nat)), i + n = 256 →
    (match st with
      | none => i = 0 ∨ s (i - 1) = false
      | some p => p.1 ≤ p.2 ∧ p.2 + 1 = i ∧ (∀ x, p.1 ≤ x → x ≤ p.2 → s x = true) ∧ (p.1 = 0 ∨ s (p.1 - 1) = false)) →
    (∀ p ∈ ranges s n i st, IsRange s p) ∧
    ∀ x, x < 256 → (match st with | none => i ≤ x | some p => p.1 ≤ x) → s x = true → ∃ p ∈ ranges s n i st, p.1 ≤ x ∧ x ≤ p.2 := by
  intro n
  induction n with
  | zero =>
    intro i st hi hst
    cases st with
    | none =>
      refine ⟨by simp [ranges], fun x hx h => ?_⟩
      simp only at h
      omega
    | some p =>
      obtain ⟨h1, h2, h3, h4⟩ := hst
      refine ⟨fun q hq => ?_, fun x hx h _ => ⟨p, by simp [ranges], h, by omega⟩⟩
      simp only [ranges, List.mem_singleton] at hq
      subst hq
      exact ⟨h1, by omega, h3, h4, .inl (by omega)⟩
  | succ n ih =>
    intro i st hi hst
    cases st with
    | none =>
      simp only [ranges]
      by_cases hs : s i = true
      · rw [if_pos hs]
        obtain ⟨a, b⟩ := ih (i + 1) (some (i, i)) (by omega) ⟨Nat.le_refl _, rfl, fun x h1 h2 => by
          rw [show x = i by simp only at h1 h2; omega]; exact hs, hst⟩
        exact ⟨a, fun x hx h hsx => b x hx h hsx⟩
      · rw [if_neg hs]
        obtain ⟨a, b⟩ := ih (i + 1) none (by omega) (.inr (by simpa using hs))
        refine ⟨a, fun x hx h hsx => b x hx ?_ hsx⟩
        have : x ≠ i := by rintro rfl; exact hs hsx
        simp only at h ⊢
        omega
    | some p =>
      obtain ⟨h1, h2, h3, h4⟩ := hst
      simp only [ranges]
      by_cases hs : s i = true
      · rw [if_pos hs]
        obtain ⟨a, b⟩ := ih (i + 1) (some (p.1, i)) (by omega) ⟨by show p.1 ≤ i; omega, rfl, fun x g1 g2 => by
          simp only at g1 g2
          by_cases hx : x = i
          · rw [hx]; exact hs
          · exact h3 x g1 (by omega), h4⟩
        exact ⟨a, fun x hx h hsx => b x hx h hsx⟩
      · rw [if_neg hs]
        have hf : s i = false := by simpa using hs
        obtain ⟨a, b⟩ := ih (i + 1) none (by omega) (.inr hf)
        refine ⟨fun q hq => ?_, fun x hx h hsx => ?_⟩
        · rcases List.mem_cons.1 hq with rfl | hq
          · exact ⟨h1, by omega, h3, h4, .inr (by rw [h2]; exact hf)⟩
          · exact a q hq
        · have h : p.1 ≤ x := h
          by_cases hxp : x ≤ p.2
          · exact ⟨p, by simp, h, hxp⟩
          · have : x ≠ i := by rintro rfl; exact hs hsx
            obtain ⟨q, hq, hq'⟩ := b x hx (by show i + 1 ≤ x; omega) hsx
            exact ⟨q, by simp [hq], hq'⟩

/-- The ranges printed for a set are its maximal ranges. -/
theorem ranges_all (s : Bits) : (∀ p ∈ ranges s 256 0 none, IsRange s p) ∧
    ∀ x, x < 256 → (s x = true ↔ ∃ p ∈ ranges s 256 0 none, p.1 ≤ x ∧ x ≤ p.2) := by
  obtain ⟨h1, h2⟩ := ranges_spec s 256 0 none rfl (.inl rfl)
  refine ⟨h1, fun x hx => ⟨h2 x hx (Nat.zero_le _), ?_⟩⟩
  rintro ⟨p, hp, a, b⟩
  exact (h1 p hp).all x a b

/-! ### The four kinds of transitions print the same -/

theorem ranges_skip (s : Bits) : ∀ (k n i : Nat), (∀ x, i ≤ x → x < i + k → s x = false) → ranges s (k + n) i none = ranges s n (i + k) none
  | 0, n, i, _ => by rw [Nat.zero_add]; rfl
  | k + 1, n, i, h => by
    rw [show k + 1 + n = (k + n) + 1 by omega]
    simp only [ranges]
    rw [if_neg (by rw [h i (Nat.le_refl _) (by omega)]; simp), ranges_skip s k n (i + 1) fun x a b => h x (by omega) (by omega)]
    congr 1
    omega

theorem ranges_grow (s : Bits) : ∀ (k n i b e : Nat), e + 1 = i → (∀ x, i ≤ x → x < i + k → s x = true) →
    ranges s (k + n) i (some (b, e)) = ranges s n (i + k) (some (b, e + k))
  | 0, n, i, b, e, _, _ => by rw [Nat.zero_add]; rfl
  | k + 1, n, i, b, e, he, h => by
    rw [show k + 1 + n = (k + n) + 1 by omega]
    simp only [ranges]
    rw [if_pos (h i (Nat.le_refl _) (by omega)), ranges_grow s k n (i + 1) b i rfl fun x c d => h x (by omega) (by omega)]
    rw [show i + 1 + k = i + (k + 1) by omega, show i + k = e + (k + 1) by omega]

/-- A range from `a` to `b`, nothing before it and something else behind it. -/
theorem ranges_one (s : Bits) {i a b n : Nat} (hia : i ≤ a) (hab : a ≤ b) (h0 : ∀ x, i ≤ x → x < a → s x = false)
    (h1 : ∀ x, a ≤ x → x ≤ b → s x = true) (h2 : n = 0 ∨ s (b + 1) = false) :
    ranges s (b - i + 1 + n) i none = (a, b) :: ranges s (n - 1) (b + 2) none := by
  rw [show b - i + 1 + n = (a - i) + ((b - a + n) + 1) by omega, ranges_skip s _ _ _ fun x c d => h0 x c (by omega),
    show i + (a - i) = a by omega]
  simp only [ranges]
  rw [if_pos (h1 a (Nat.le_refl _) hab), ranges_grow s (b - a) n (a + 1) a a rfl fun x c d => h1 x (by omega) (by omega),
    show a + 1 + (b - a) = b + 1 by omega, show a + (b - a) = b by omega]
  cases n with
  | zero => rfl
  | succ n =>
    simp only [ranges]
    rw [if_neg (by
      rcases h2 with h | h
      · omega
      · rw [h]; simp)]
    rfl

theorem ranges_none (s : Bits) {i n : Nat} (h : ∀ x, i ≤ x → x < i + n → s x = false) : ranges s n i none = [] := by
  rw [show n = n + 0 by omega, ranges_skip s _ _ _ h]
  rfl

theorem scan_either (s : Bits) : ∀ (n i : Nat) (c : Transition.Cls), (∀ lo hi, c = .one lo hi → lo < i) → (∀ lo hi, c = .two lo hi → lo < hi) →
    ∀ a b, Transition.scan s n i c = .either a b → a < b := by
  intro n
  induction n with
  | zero =>
    intro i c h1 h2 a b h
    cases c <;> simp only [Transition.scan, Transition.choose] at h
    all_goals cases h
    exact h2 _ _ rfl
  | succ n ih =>
    intro i c h1 h2 a b h
    unfold Transition.scan at h
    split at h
    · cases c with
      | none => exact ih _ _ (by rintro lo hi ⟨⟩; omega) (by rintro lo hi ⟨⟩) a b h
      | one lo hi =>
        dsimp only at h
        have := h1 lo hi rfl
        split at h
        · exact ih _ _ (by rintro lo hi ⟨⟩) (by rintro lo hi ⟨⟩; exact this) a b h
        · exact ih _ _ (by rintro lo hi ⟨⟩) (by rintro lo hi ⟨⟩) a b h
      | range lo hi =>
        dsimp only at h
        split at h
        · exact ih _ _ (by rintro lo hi ⟨⟩) (by rintro lo hi ⟨⟩) a b h
        · cases h
      | two lo hi => cases h
    · exact ih _ _ (fun lo hi e => by have := h1 lo hi e; omega) h2 a b h

theorem scan_set (s : Bits) : ∀ (n i : Nat) (c : Transition.Cls) t, Transition.scan s n i c = .set t → t = s := by
  intro n
  induction n with
  | zero =>
    intro i c t h
    cases c <;> simp only [Transition.scan, Transition.choose] at h
    all_goals cases h
    rfl
  | succ n ih =>
    intro i c t h
    unfold Transition.scan at h
    split at h
    · cases c with
      | none => exact ih _ _ t h
      | one lo hi =>
        dsimp only at h
        split at h <;> exact ih _ _ t h
      | range lo hi =>
        dsimp only at h
        split at h
        · exact ih _ _ t h
        · cases h; rfl
      | two lo hi => cases h; rfl
    · exact ih _ _ t h

/-- **C112.** A transition is printed as the ranges of the bytes it takes, whichever form the factory chose for it. -/
theorem smallest_label (s : Bits) : transLabel (getSmallest s) = setLabel s := by
  have hok := Transition.getSmallest_ok s
  have hal := Transition.getSmallest_allowed s
  cases hg : getSmallest s with
  | set t =>
    rw [show t = s from scan_set s 256 0 .none t hg]
    rfl
  | byte b =>
    rw [hg] at hok hal
    have hb : b < 256 := hok
    have h0 : ∀ x < 256, x ≠ b → s x = false := fun x hx hne => by rw [← hal x hx]; simp [Trans.allowed, hne]
    have h1 : s b = true := by rw [← hal b hb]; simp [Trans.allowed]
    have := ranges_one s (i := 0) (a := b) (b := b) (n := 255 - b) (Nat.zero_le _) (Nat.le_refl _) (fun x _ h => h0 x (by omega) (by omega))
      (fun x c d => by rw [show x = b by omega]; exact h1)
      (by by_cases h : b = 255
          · exact .inl (by omega)
          · exact .inr (h0 _ (by omega) (by omega)))
    rw [show b - 0 + 1 + (255 - b) = 256 by omega, ranges_none s (i := b + 2) (n := 255 - b - 1) fun x c d => h0 x (by omega) (by omega)] at this
    unfold setLabel
    rw [this]
    simp [transLabel, printRange]
  | range a b =>
    rw [hg] at hok hal
    obtain ⟨hab, hb⟩ : a ≤ b ∧ b < 256 := hok
    have h0 : ∀ x < 256, (x < a ∨ b < x) → s x = false := fun x hx hne => by
      rw [← hal x hx]
      simp only [Trans.allowed, Bool.and_eq_false_iff, decide_eq_false_iff_not]
      omega
    have h1 : ∀ x, a ≤ x → x ≤ b → s x = true := fun x c d => by rw [← hal x (by omega)]; simp [Trans.allowed, c, d]
    have := ranges_one s (i := 0) (a := a) (b := b) (n := 255 - b) (Nat.zero_le _) hab (fun x _ h => h0 x (by omega) (by omega)) h1
      (by by_cases h : b = 255
          · exact .inl (by omega)
          · exact .inr (h0 _ (by omega) (by omega)))
    rw [show b - 0 + 1 + (255 - b) = 256 by omega, ranges_none s (i := b + 2) (n := 255 - b - 1) fun x c d => h0 x (by omega) (by omega)] at this
    unfold setLabel
    rw [this]
    simp [transLabel]
  | either a b =>
    rw [hg] at hok hal
    obtain ⟨ha, hb⟩ : a < 256 ∧ b < 256 := hok
    have hab : a < b := scan_either s 256 0 .none (by rintro _ _ ⟨⟩) (by rintro _ _ ⟨⟩) a b hg
    have h0 : ∀ x < 256, x ≠ a → x ≠ b → s x = false := fun x hx h1 h2 => by rw [← hal x hx]; simp [Trans.allowed, h1, h2]
    have ha1 : s a = true := by rw [← hal a ha]; simp [Trans.allowed]
    have hb1 : s b = true := by rw [← hal b hb]; simp [Trans.allowed]
    unfold setLabel
    by_cases hadj : b = a + 1
    · have := ranges_one s (i := 0) (a := a) (b := b) (n := 255 - b) (Nat.zero_le _) (by omega) (fun x _ h => h0 x (by omega) (by omega) (by omega))
        (fun x c d => by
          by_cases hx : x = a
          · rw [hx]; exact ha1
          · rw [show x = b by omega]; exact hb1)
        (by by_cases h : b = 255
            · exact .inl (by omega)
            · exact .inr (h0 _ (by omega) (by omega) (by omega)))
      rw [show b - 0 + 1 + (255 - b) = 256 by omega, ranges_none s (i := b + 2) (n := 255 - b - 1) fun x c d => h0 x (by omega) (by omega) (by omega)] at this
      rw [this]
      simp only [List.flatMap_cons, List.flatMap_nil, printRange, transLabel]
      rw [if_neg (by omega), if_pos (by omega)]
      simp
    · have r1 := ranges_one s (i := 0) (a := a) (b := a) (n := 255 - a) (Nat.zero_le _) (Nat.le_refl _)
        (fun x _ h => h0 x (by omega) (by omega) (by omega)) (fun x c d => by rw [show x = a by omega]; exact ha1)
        (.inr (h0 _ (by omega) (by omega) (by omega)))
      rw [show a - 0 + 1 + (255 - a) = 256 by omega] at r1
      have r2 := ranges_one s (i := a + 2) (a := b) (b := b) (n := 255 - b) (by omega) (Nat.le_refl _)
        (fun x _ h => h0 x (by omega) (by omega) (by omega)) (fun x c d => by rw [show x = b by omega]; exact hb1)
        (by by_cases h : b = 255
            · exact .inl (by omega)
            · exact .inr (h0 _ (by omega) (by omega) (by omega)))
      rw [show b - (a + 2) + 1 + (255 - b) = 255 - a - 1 by omega, ranges_none s (i := b + 2) (n := 255 - b - 1) fun x c d => h0 x (by omega) (by omega) (by omega)] at r2
      rw [r1, r2]
      simp [transLabel, printRange]

/-! ## Reading a label -/

theorem hexDigit_inj {a b : Nat} (ha : a < 16) (hb : b < 16) (h : hexDigit a = hexDigit b) : a = b := by
  unfold hexDigit at h
  split at h <;> split at h <;> omega

theorem printByte_inj {a b : Nat} {r s : Str} (ha : a < 256) (hb : b < 256) (ha' : a ≠ 92) (hb' : b ≠ 92)
    (h : printByte a ++ r = printByte b ++ s) : a = b ∧ r = s := by
  unfold printByte at h
  split at h <;> split at h
  · simpa using h
  · exact absurd (List.cons.inj h).1 ha'
  · exact absurd (List.cons.inj h).1.symm hb'
  · simp only [List.cons_append, List.nil_append, List.cons.injEq, true_and] at h
    have h1 := hexDigit_inj (by omega) (by omega) h.1
    have h2 := hexDigit_inj (by omega) (by omega) h.2.1
    exact ⟨by omega, h.2.2⟩

theorem printByte_ne_nil (b : Nat) : ∃ c r, printByte b = c :: r ∧ (c = b ∨ c = 92) := by
  unfold printByte
  split
  · exact ⟨_, _, rfl, .inl rfl⟩
  · exact ⟨_, _, rfl, .inr rfl⟩

/-- What a label is made of: `none` is the hyphen. -/
def tokens (p : Nat × Nat) : List (Option Nat) :=
  some p.1 :: ((if p.2 - p.1 > 1 then [none] else []) ++ (if p.2 ≠ p.1 then [some p.2] else []))

def tokenText : Option Nat → Str
  | none => [45]
  | some b => printByte b

theorem tokens_text (p : Nat × Nat) : (tokens p).flatMap tokenText = printRange p.1 p.2 := by
  unfold tokens printRange
  split <;> split <;> simp [tokenText]

theorem setLabel_tokens (s : Bits) : setLabel s = ((ranges s 256 0 none).flatMap tokens).flatMap tokenText := by
  unfold setLabel
  rw [List.flatMap_assoc]
  congr 1
  funext p
  exact (tokens_text p).symm

def Good (t : Option Nat) : Prop := ∀ b, t = some b → b < 256 ∧ b ≠ 45 ∧ b ≠ 47 ∧ b ≠ 92

theorem tokens_inj : ∀ (x y : List (Option Nat)) (r s : Str), (∀ t ∈ x, Good t) → (∀ t ∈ y, Good t) →
    (∀ c t, r = c :: t → c = 47) → (∀ c t, s = c :: t → c = 47) → x.flatMap tokenText ++ r = y.flatMap tokenText ++ s → x = y ∧ r = s
  | [], [], r, s, _, _, _, _, h => ⟨rfl, by simpa using h⟩
  | [], t :: y, r, s, _, hy, hr, _, h => by
    exfalso
    simp only [List.flatMap_nil, List.nil_append, List.flatMap_cons, List.append_assoc] at h
    cases t with
    | none => exact absurd (hr _ _ h) (by decide)
    | some b =>
      obtain ⟨c, q, e, hc⟩ := printByte_ne_nil b
      have := hy _ (List.mem_cons_self) b rfl
      simp only [tokenText, e, List.cons_append] at h
      have := hr _ _ h
      omega
  | t :: x, [], r, s, hx, _, _, hs, h => by
    exfalso
    simp only [List.flatMap_nil, List.nil_append, List.flatMap_cons, List.append_assoc] at h
    cases t with
    | none => exact absurd (hs _ _ h.symm) (by decide)
    | some b =>
      obtain ⟨c, q, e, hc⟩ := printByte_ne_nil b
      have := hx _ (List.mem_cons_self) b rfl
      simp only [tokenText, e, List.cons_append] at h
      have := hs _ _ h.symm
      omega
  | t :: x, u :: y, r, s, hx, hy, hr, hs, h => by
    simp only [List.flatMap_cons, List.append_assoc] at h
    cases t with
    | none =>
      cases u with
      | none =>
        obtain ⟨e, e'⟩ := tokens_inj x y r s (fun t m => hx t (by simp [m])) (fun t m => hy t (by simp [m])) hr hs (List.cons.inj h).2
        exact ⟨by rw [e], e'⟩
      | some b =>
        exfalso
        obtain ⟨c, q, e, hc⟩ := printByte_ne_nil b
        have := hy _ (List.mem_cons_self) b rfl
        simp only [tokenText, e, List.cons_append, List.cons.injEq] at h
        omega
    | some a =>
      have ha := hx _ (List.mem_cons_self) a rfl
      cases u with
      | none =>
        exfalso
        obtain ⟨c, q, e, hc⟩ := printByte_ne_nil a
        simp only [tokenText, e, List.cons_append, List.cons.injEq] at h
        omega
      | some b =>
        have hb := hy _ (List.mem_cons_self) b rfl
        obtain ⟨e, h⟩ := printByte_inj ha.1 hb.1 ha.2.2.2 hb.2.2.2 h
        obtain ⟨e1, e'⟩ := tokens_inj x y r s (fun t m => hx t (by simp [m])) (fun t m => hy t (by simp [m])) hr hs h
        exact ⟨by rw [e, e1], e'⟩

/-- The bytes that tokens stand for. -/
def has (x : Nat) : List (Option Nat) → Prop
  | some a :: none :: some b :: r => (a ≤ x ∧ x ≤ b) ∨ has x r
  | some a :: r => x = a ∨ has x r
  | _ => False

theorem has_some (x a : Nat) (r : List (Option Nat)) (h : ∀ t, r ≠ none :: t) : has x (some a :: r) ↔ x = a ∨ has x r := by
  match r with
  | [] => exact Iff.rfl
  | none :: t => exact absurd rfl (h t)
  | some b :: t => exact Iff.rfl

theorem has_tokens (x : Nat) : ∀ ps : List (Nat × Nat), (∀ p ∈ ps, p.1 ≤ p.2) → (has x (ps.flatMap tokens) ↔ ∃ p ∈ ps, p.1 ≤ x ∧ x ≤ p.2)
  | [], _ => by simp [has]
  | p :: ps, h => by
    have ih := has_tokens x ps fun q m => h q (by simp [m])
    have hp := h p (by simp)
    have hn : ∀ t, ps.flatMap tokens ≠ none :: t := by
      intro t
      cases ps with
      | nil => simp
      | cons q qs => simp [tokens]
    rw [List.exists_mem_cons_iff, ← ih, List.flatMap_cons]
    by_cases h1 : p.2 - p.1 > 1
    · have : tokens p = [some p.1, none, some p.2] := by
        unfold tokens
        rw [if_pos h1, if_pos (by omega)]
        rfl
      rw [this]
      exact Iff.rfl
    · by_cases h2 : p.2 ≠ p.1
      · have : tokens p = [some p.1, some p.2] := by
          unfold tokens
          rw [if_neg h1, if_pos h2]
          rfl
        rw [this]
        show has x (some p.1 :: some p.2 :: ps.flatMap tokens) ↔ _
        rw [has_some _ _ _ (by intro t e; cases e), has_some _ _ _ hn, ← or_assoc]
        have : (x = p.1 ∨ x = p.2) ↔ p.1 ≤ x ∧ x ≤ p.2 := by omega
        rw [this]
      · have : tokens p = [some p.1] := by
          unfold tokens
          rw [if_neg h1, if_neg h2]
          rfl
        rw [this]
        show has x (some p.1 :: ps.flatMap tokens) ↔ _
        rw [has_some _ _ _ hn]
        have : x = p.1 ↔ p.1 ≤ x ∧ x ≤ p.2 := by omega
        rw [this]

theorem tokens_good {s : BSet} (h : Readable s) : ∀ t ∈ (ranges (bitsOf s) 256 0 none).flatMap tokens, Good t := by
  intro t ht b hb
  obtain ⟨p, hp, ht⟩ := List.mem_flatMap.1 ht
  have hr := (ranges_all (bitsOf s)).1 p hp
  have hends : b = p.1 ∨ b = p.2 := by
    subst hb
    unfold tokens at ht
    split at ht <;> split at ht <;> simp at ht <;> omega
  have hlt : b < 256 := by have := hr.le; have := hr.lt; omega
  have key : ∀ c ∈ [45, 47, 92], b ≠ c := by
    rintro c hc rfl
    have hin : s.getLsbD b = true := by
      rcases hends with e | e
      · exact hr.all b (by omega) (by have := hr.le; omega)
      · exact hr.all b (by have := hr.le; omega) (by omega)
    obtain ⟨h1, h2⟩ := h b hc hin
    have hc' : b ≠ 0 ∧ b ≠ 255 := by
      simp only [List.mem_cons, List.not_mem_nil, or_false] at hc
      omega
    rcases hends with e | e
    · rcases hr.before with h' | h'
      · omega
      · rw [← e] at h'
        have h' : s.getLsbD (b - 1) = false := h'
        rw [h1] at h'
        cases h'
    · rcases hr.behind with h' | h'
      · omega
      · rw [← e] at h'
        have h' : s.getLsbD (b + 1) = false := h'
        rw [h2] at h'
        cases h'
  exact ⟨hlt, key 45 (by simp), key 47 (by simp), key 92 (by simp)⟩

theorem decimal_eq {a b : Nat} (h : decimal a = decimal b) : a = b := by
  rw [← (decimal_spec a).1, h, (decimal_spec b).1]

/-- A label says which bytes are taken and which keyword is recognised. -/
theorem label_read {s t : BSet} {l m : Option Nat} (hs : Readable s) (ht : Readable t)
    (h : setLabel (bitsOf s) ++ (match l with | none => [] | some l => 47 :: decimal l) =
      setLabel (bitsOf t) ++ (match m with | none => [] | some l => 47 :: decimal l)) : s = t ∧ l = m := by
  rw [setLabel_tokens, setLabel_tokens] at h
  obtain ⟨h1, h2⟩ := tokens_inj _ _ _ _ (tokens_good hs) (tokens_good ht)
    (by rintro c q e; cases l <;> simp at e; exact e.1.symm) (by rintro c q e; cases m <;> simp at e; exact e.1.symm) h
  constructor
  · apply BitVec.eq_of_getLsbD_eq
    intro x hx
    have a := (ranges_all (bitsOf s)).2 x hx
    have b := (ranges_all (bitsOf t)).2 x hx
    rw [← has_tokens x _ fun p m => ((ranges_all (bitsOf s)).1 p m).le, h1,
      has_tokens x _ fun p m => ((ranges_all (bitsOf t)).1 p m).le, ← b] at a
    exact Bool.eq_iff_iff.2 a
  · cases l <;> cases m <;> simp at h2
    · rfl
    · rw [decimal_eq h2]

/-! ## Reading the lines -/

theorem split_at {c : Nat} : ∀ {x y r s : Str}, c ∉ x → c ∉ y → x ++ c :: r = y ++ c :: s → x = y ∧ r = s
  | [], [], r, s, _, _, h => ⟨rfl, (List.cons.inj h).2⟩
  | [], b :: y, r, s, _, hy, h => absurd (List.cons.inj h).1 fun e => hy (by simp [e])
  | a :: x, [], r, s, hx, _, h => absurd (List.cons.inj h).1 fun e => hx (by simp [e])
  | a :: x, b :: y, r, s, hx, hy, h => by
    obtain ⟨e, h⟩ := List.cons.inj h
    obtain ⟨e1, e2⟩ := split_at (fun m => hx (by simp [m])) (fun m => hy (by simp [m])) h
    exact ⟨by rw [e, e1], e2⟩

theorem lines_inj : ∀ {x y : List Str}, (∀ l ∈ x, 10 ∉ l) → (∀ l ∈ y, 10 ∉ l) →
    x.flatMap (· ++ [10]) = y.flatMap (· ++ [10]) → x = y
  | [], [], _, _, _ => rfl
  | [], b :: y, _, _, h => by simp at h
  | a :: x, [], _, _, h => by simp at h
  | a :: x, b :: y, hx, hy, h => by
    simp only [List.flatMap_cons, List.append_assoc, List.singleton_append] at h
    obtain ⟨e, h⟩ := split_at (hx a (by simp)) (hy b (by simp)) h
    rw [e, lines_inj (fun l m => hx l (by simp [m])) (fun l m => hy l (by simp [m])) h]

theorem escaped_cons (x : Nat) (xs : Str) : escape 34 (escape 92 (x :: xs)) =
    (if x = 92 ∨ x = 34 then [92, x] else [x]) ++ escape 34 (escape 92 xs) := by
  by_cases h : x = 92
  · subst h; simp [escape]
  · by_cases h' : x = 34
    · subst h'; simp [escape]
    · simp [escape, h, h']

/-- The label of an edge ends at the first quote without a backslash. -/
theorem escaped_inj : ∀ {x y r s : Str}, escape 34 (escape 92 x) ++ 34 :: r = escape 34 (escape 92 y) ++ 34 :: s → x = y ∧ r = s
  | [], [], r, s, h => ⟨rfl, (List.cons.inj h).2⟩
  | [], b :: y, r, s, h => by
    exfalso
    rw [escaped_cons] at h
    split at h
    · exact absurd (List.cons.inj h).1 (by decide)
    · have := (List.cons.inj h).1; omega
  | a :: x, [], r, s, h => by
    exfalso
    rw [escaped_cons] at h
    split at h
    · exact absurd (List.cons.inj h).1 (by decide)
    · have := (List.cons.inj h).1; omega
  | a :: x, b :: y, r, s, h => by
    rw [escaped_cons, escaped_cons] at h
    split at h <;> split at h
    · simp only [List.cons_append, List.nil_append, List.cons.injEq, true_and] at h
      obtain ⟨e1, e2⟩ := escaped_inj h.2
      exact ⟨by rw [h.1, e1], e2⟩
    · have := (List.cons.inj h).1; omega
    · have := (List.cons.inj h).1; omega
    · simp only [List.cons_append, List.nil_append, List.cons.injEq] at h
      obtain ⟨e1, e2⟩ := escaped_inj h.2
      exact ⟨by rw [h.1, e1], e2⟩

theorem not_digit {c n : Nat} (h : c < 48 ∨ 57 < c) : c ∉ decimal n := fun m => by
  have := (decimal_spec n).2 c m
  omega

theorem edge_inj {v u p v' u' p' : Nat} {l l' : Str} (h : edgeLine v u l p = edgeLine v' u' l' p') :
    v = v' ∧ u = u' ∧ l = l' ∧ p = p' := by
  unfold edgeLine at h
  simp only [List.append_assoc] at h
  have h : decimal v ++ 32 :: ([45, 62, 32] ++ (decimal u ++ 32 :: (91 :: str "label=\"" ++ (escape 34 (escape 92 l) ++ 34 :: (str ", taillabel=\"" ++ (decimal p ++ 34 :: [93, 59])))))) =
      decimal v' ++ 32 :: ([45, 62, 32] ++ (decimal u' ++ 32 :: (91 :: str "label=\"" ++ (escape 34 (escape 92 l') ++ 34 :: (str ", taillabel=\"" ++ (decimal p' ++ 34 :: [93, 59])))))) :=
    (List.append_right_inj (str "  ")).1 h
  obtain ⟨e1, h⟩ := split_at (not_digit (by omega)) (not_digit (by omega)) h
  obtain ⟨e2, h⟩ := split_at (not_digit (by omega)) (not_digit (by omega)) ((List.append_right_inj _).1 h)
  obtain ⟨e3, h⟩ := escaped_inj ((List.append_right_inj _).1 h)
  obtain ⟨e4, _⟩ := split_at (not_digit (by omega)) (not_digit (by omega)) ((List.append_right_inj _).1 h)
  exact ⟨decimal_eq e1, decimal_eq e2, e3, decimal_eq e4⟩

theorem vertex_inj {v : Nat} {m m' : Bool} (h : vertexLine v m = vertexLine v m') : m = m' := by
  have := congrArg List.length h
  cases m <;> cases m' <;> simp [vertexLine, str] at this ⊢

theorem vertex_chars {v : Nat} {m : Bool} {c : Nat} (hc : c ∈ [10, 62]) : c ∉ vertexLine v m := by
  have hd : c ∉ decimal v := not_digit (by simp at hc; omega)
  unfold vertexLine
  simp only [List.mem_append, not_or]
  refine ⟨⟨⟨⟨⟨⟨?_, hd⟩, ?_⟩, hd⟩, ?_⟩, ?_⟩, ?_⟩
  all_goals
    simp only [List.mem_cons, List.not_mem_nil, or_false] at hc
    rcases hc with rfl | rfl <;> cases m <;> decide

theorem mem_escape {c d : Nat} {x : Str} (h : d ∈ escape c x) : d = 92 ∨ d ∈ x := by
  induction x with
  | nil => cases h
  | cons a x ih =>
    unfold escape at h
    split at h
    · simp only [List.mem_cons] at h ⊢
      rcases h with h | h | h
      · exact .inl h
      · exact .inr (.inl h)
      · rcases ih h with h | h
        · exact .inl h
        · exact .inr (.inr h)
    · simp only [List.mem_cons] at h ⊢
      rcases h with h | h
      · exact .inr (.inl h)
      · rcases ih h with h | h
        · exact .inl h
        · exact .inr (.inr h)

theorem byte_chars {b : Nat} : 10 ∉ printByte b := by
  unfold printByte hexDigit
  split
  · simp; omega
  · simp only [List.mem_cons, List.not_mem_nil, or_false, not_or]
    refine ⟨by decide, by decide, ?_, ?_⟩ <;> split <;> omega

theorem label_chars (g : Graph) (u : Nat) : 10 ∉ stateLabel g u := by
  unfold stateLabel
  split
  · simp
  · rw [smallest_label, List.mem_append, not_or]
    constructor
    · unfold setLabel
      rw [List.mem_flatMap]
      rintro ⟨p, _, h⟩
      unfold printRange at h
      simp only [List.mem_append] at h
      rcases h with (h | h) | h
      · exact byte_chars h
      · split at h <;> simp at h
      · split at h
        · exact byte_chars h
        · simp at h
    · split
      · simp
      · simp only [List.mem_cons, not_or]
        exact ⟨by decide, not_digit (by omega)⟩

theorem edge_chars {v u p : Nat} {l : Str} (h : 10 ∉ l) : 10 ∉ edgeLine v u l p := by
  unfold edgeLine
  simp only [List.mem_append, not_or]
  refine ⟨⟨⟨⟨⟨⟨⟨⟨⟨⟨?_, not_digit (by omega)⟩, ?_⟩, not_digit (by omega)⟩, ?_⟩, ?_⟩, ?_⟩, ?_⟩, ?_⟩, not_digit (by omega)⟩, ?_⟩
  all_goals try decide
  intro m
  rcases mem_escape m with m | m
  · cases m
  · rcases mem_escape m with m | m
    · cases m
    · exact h m

theorem edge_arrow (v u p : Nat) (l : Str) : 62 ∈ edgeLine v u l p := by
  unfold edgeLine
  simp only [List.mem_append]
  exact .inl (.inl (.inl (.inl (.inl (.inl (.inl (.inl (.inr (by decide)))))))))

/-! ## The whole text -/

def vertexLines (g : Graph) : List Str := (List.range g.n).map fun v => vertexLine v (g.v v).isMatch

/-- The edges as they are written: from where, to where, the label and the place among the edges. -/
def edges (g : Graph) : List (Nat × Nat × Str × Nat) :=
  (List.range g.n).flatMap fun v => (g.v v).out.zipIdx.map fun p => (v, p.1, stateLabel g p.1, p.2)

def edgeLines (g : Graph) : List Str := (edges g).map fun e => edgeLine e.1 e.2.1 e.2.2.1 e.2.2.2

theorem writeGraphviz_lines (g : Graph) : writeGraphviz g =
    str "digraph G {\n  rankdir=LR;\n  ranksep=equally;\n  node [shape=\"circle\"];\n" ++ (vertexLines g ++ edgeLines g ++ [[125]]).flatMap (· ++ [10]) := by
  unfold writeGraphviz vertexLines edgeLines edges
  simp only [List.flatMap_append, List.flatMap_map, List.map_flatMap, List.flatMap_assoc, List.map_map, Function.comp_def, List.append_assoc]
  rfl

theorem edges_out (g : Graph) {v : Nat} (hv : v < g.n) : ((edges g).filter fun e => e.1 == v).map (·.2.1) = (g.v v).out := by
  have key : ∀ n, v < n → (((List.range n).flatMap fun w => (g.v w).out.zipIdx.map fun p => (w, p.1, stateLabel g p.1, p.2)).filter fun e => e.1 == v).map (·.2.1) = (g.v v).out := by
    intro n
    have hother : ∀ w, w ≠ v → ((g.v w).out.zipIdx.map fun p => (w, p.1, stateLabel g p.1, p.2)).filter (fun e => e.1 == v) = [] := by
      intro w hw
      rw [List.filter_eq_nil_iff]
      intro e he
      obtain ⟨p, _, rfl⟩ := List.mem_map.1 he
      simpa using hw
    have hnone : ∀ n, n ≤ v → (((List.range n).flatMap fun w => (g.v w).out.zipIdx.map fun p => (w, p.1, stateLabel g p.1, p.2)).filter fun e => e.1 == v) = [] := by
      intro n hn
      rw [List.filter_flatMap, List.flatMap_eq_nil_iff]
      intro w hw
      exact hother w (by have := List.mem_range.1 hw; omega)
    induction n with
    | zero => intro h; omega
    | succ n ih =>
      intro h
      rw [List.range_succ, List.flatMap_append, List.filter_append, List.map_append]
      simp only [List.flatMap_cons, List.flatMap_nil, List.append_nil]
      by_cases hn : n = v
      · subst hn
        rw [hnone n (Nat.le_refl _), List.filter_eq_self.2 (by
          intro e he
          obtain ⟨p, _, rfl⟩ := List.mem_map.1 he
          simp)]
        simp only [List.map_nil, List.nil_append, List.map_map, Function.comp_def]
        exact List.zipIdx_map_fst _ _
      · rw [ih (by omega), hother n hn]
        simp
  exact key g.n hv

/-- **C112.** Two automata written alike have as many states, the same matching states, and the same edges in the
same order, with the same labels. -/
theorem graph_shape {g h : Graph} (e : writeGraphviz g = writeGraphviz h) : g.n = h.n ∧ ∀ v < g.n,
    (g.v v).isMatch = (h.v v).isMatch ∧ (g.v v).out = (h.v v).out ∧ ∀ u ∈ (g.v v).out, stateLabel g u = stateLabel h u := by
  rw [writeGraphviz_lines, writeGraphviz_lines] at e
  have nl : ∀ g : Graph, ∀ l ∈ vertexLines g ++ edgeLines g ++ [[125]], 10 ∉ l := by
    intro g l hl
    simp only [List.mem_append, List.mem_singleton] at hl
    rcases hl with (hl | hl) | rfl
    · obtain ⟨v, _, rfl⟩ := List.mem_map.1 hl
      exact vertex_chars (by simp)
    · obtain ⟨q, hq, rfl⟩ := List.mem_map.1 hl
      obtain ⟨v, _, hq⟩ := List.mem_flatMap.1 hq
      obtain ⟨p, _, rfl⟩ := List.mem_map.1 hq
      exact edge_chars (label_chars g _)
    · decide
  have e := List.append_cancel_right (lines_inj (nl g) (nl h) ((List.append_right_inj _).1 e))
  have fv : ∀ g, (vertexLines g ++ edgeLines g).filter (fun l => !decide (62 ∈ l)) = vertexLines g := by
    intro g
    rw [List.filter_append, List.filter_eq_self.2, List.filter_eq_nil_iff.2, List.append_nil]
    · intro l hl
      obtain ⟨q, _, rfl⟩ := List.mem_map.1 hl
      simp [edge_arrow]
    · intro l hl
      obtain ⟨q, _, rfl⟩ := List.mem_map.1 hl
      simpa using vertex_chars (c := 62) (by simp)
  have fe : ∀ g, (vertexLines g ++ edgeLines g).filter (fun l => decide (62 ∈ l)) = edgeLines g := by
    intro g
    rw [List.filter_append, List.filter_eq_nil_iff.2, List.filter_eq_self.2, List.nil_append]
    · intro l hl
      obtain ⟨q, _, rfl⟩ := List.mem_map.1 hl
      simp [edge_arrow]
    · intro l hl
      obtain ⟨q, _, rfl⟩ := List.mem_map.1 hl
      simpa using vertex_chars (c := 62) (by simp)
  have ev : vertexLines g = vertexLines h := by rw [← fv g, e, fv h]
  have ee : edgeLines g = edgeLines h := by rw [← fe g, e, fe h]
  have en : g.n = h.n := by simpa [vertexLines] using congrArg List.length ev
  have ee : edges g = edges h := by
    refine (List.map_inj_right ?_).1 ee
    rintro ⟨a, b, c, d⟩ ⟨a', b', c', d'⟩ q
    obtain ⟨rfl, rfl, rfl, rfl⟩ := edge_inj q
    rfl
  refine ⟨en, fun v hv => ⟨?_, ?_, fun u hu => ?_⟩⟩
  · unfold vertexLines at ev
    rw [en] at ev
    exact vertex_inj (List.map_inj_left.1 ev v (by rw [← en]; exact List.mem_range.2 hv))
  · rw [← edges_out g hv, ee, edges_out h (by omega)]
  · obtain ⟨i, hi, hu⟩ := List.getElem_of_mem hu
    have m : (v, u, stateLabel g u, i) ∈ edges g := by
      refine List.mem_flatMap.2 ⟨v, List.mem_range.2 hv, List.mem_map.2 ⟨(u, i), ?_, rfl⟩⟩
      rw [List.mem_zipIdx_iff_getElem?, List.getElem?_eq_getElem hi, hu]
    rw [ee] at m
    obtain ⟨w, _, m⟩ := List.mem_flatMap.1 m
    obtain ⟨p, _, m⟩ := List.mem_map.1 m
    simp only [Prod.mk.injEq] at m
    obtain ⟨_, m2, m3, _⟩ := m
    rw [← m3, m2]

/-- **C112.** Two automata written alike are alike: they have as many states, the same matching states, and the
same edges in the same order; and a state with an edge to it takes the same bytes and recognises the same keyword,
if the hyphen, the slash and the backslash are at no end of a range of its bytes. -/
theorem graph_read_partial {g h : Graph} (e : writeGraphviz g = writeGraphviz h) : g.n = h.n ∧ ∀ v < g.n,
    (g.v v).isMatch = (h.v v).isMatch ∧ (g.v v).out = (h.v v).out ∧
    ∀ u ∈ (g.v v).out, u ≠ 0 → Readable (g.v u).bytes → Readable (h.v u).bytes →
      (g.v u).bytes = (h.v u).bytes ∧ (g.v u).label = (h.v u).label := by
  obtain ⟨h1, h2⟩ := graph_shape e
  refine ⟨h1, fun v hv => ⟨(h2 v hv).1, (h2 v hv).2.1, fun u hu h0 hg hh => ?_⟩⟩
  have e := (h2 v hv).2.2 u hu
  unfold stateLabel at e
  rw [if_neg h0, if_neg h0, smallest_label, smallest_label] at e
  exact label_read hg hh e

/-- The initial state is the end of no edge, and the others are readable. -/
theorem run_read {g h : Graph} (hg : Compiler.WF g) (e : writeGraphviz g = writeGraphviz h)
    (rg : ∀ u < g.n, u ≠ 0 → Readable (g.v u).bytes) (rh : ∀ u < h.n, u ≠ 0 → Readable (h.v u).bytes)
    {w : List UInt8} {v : Nat} {lab : Option Nat} (r : Compiler.GRun g w v lab) : v < g.n ∧ Compiler.GRun h w v lab := by
  obtain ⟨en, ev⟩ := graph_read_partial e
  induction r with
  | init => exact ⟨hg.pos, .init⟩
  | step _ hu hb ih =>
    obtain ⟨hv, ih⟩ := ih
    obtain ⟨h0, hn⟩ := hg.edges _ hv _ hu
    obtain ⟨eb, el⟩ := (ev _ hv).2.2 _ hu (by omega) (rg _ hn (by omega)) (rh _ (by omega) (by omega))
    refine ⟨hn, ?_⟩
    rw [el]
    exact .step ih ((ev _ hv).2.1 ▸ hu) (eb ▸ hb)

/-- **C112.** Two automata written alike recognise the same keywords in the same bytes, if the hyphen, the slash and
the backslash are at no end of a range of bytes that a state takes. -/
theorem graph_accepts_partial {g h : Graph} (hg : Compiler.WF g) (hh : Compiler.WF h) (e : writeGraphviz g = writeGraphviz h)
    (rg : ∀ u < g.n, u ≠ 0 → Readable (g.v u).bytes) (rh : ∀ u < h.n, u ≠ 0 → Readable (h.v u).bytes)
    (l : Nat) (w : List UInt8) : Compiler.GAccepts g l w ↔ Compiler.GAccepts h l w := by
  have ev := (graph_read_partial e).2
  constructor
  · rintro ⟨v, r, m⟩
    obtain ⟨hv, r⟩ := run_read hg e rg rh r
    exact ⟨v, r, (ev v hv).1 ▸ m⟩
  · rintro ⟨v, r, m⟩
    obtain ⟨hv, r⟩ := run_read hh e.symm rh rg r
    exact ⟨v, r, ((graph_read_partial e.symm).2 v hv).1 ▸ m⟩

/-! ## The command -/

open Verif.Whole Verif.Chain in
/-- **C112.** What `graph` writes when it ends with status 0 is the automaton that the keywords were compiled from. -/
theorem graph_command [Build] {L : Library} {X : Outside} {g : Given} (hc : g.is "graph") {t : Str} (h : main L X g = .ok (0, t)) :
    ∃ G P infos, Handles.commandProgram L.fuel g.depth L.env L.castBool (g.keywordSource X) = some (G, P, infos) ∧ t = writeGraphviz G := by
  unfold main at h
  rcases parse_other (c := .graph) ((is_command hc).trans (by decide)) (by simp) L X with ⟨h1, h2, s, hp, e1, e2, e3, e4⟩ | ⟨h1, e, hp⟩
  · rw [hp] at h
    simp only [e1, e2, e4] at h
    split at h
    · cases h
    · split at h
      · cases h
      · next G P infos hm =>
        split at h
        · cases h
          exact ⟨G, P, infos, hm, rfl⟩
        · cases h
  · rw [hp] at h
    cases h

open Verif.Whole Verif.Chain in
/-- **C112**, proved part.  If `graph` writes the same for two lists of keywords, the same keywords are recognised in the same
bytes, if the hyphen, the slash and the backslash are at no end of a range of bytes that a state takes. -/
theorem graphs_alike_partial [Build] {L : Library} {X : Outside} {a b : Given} (ha : a.is "graph") (hb : b.is "graph") {t : Str}
    (h : main L X a = .ok (0, t)) (h' : main L X b = .ok (0, t)) :
    ∃ G P infos G' P' infos', Handles.commandProgram L.fuel a.depth L.env L.castBool (a.keywordSource X) = some (G, P, infos) ∧
      Handles.commandProgram L.fuel b.depth L.env L.castBool (b.keywordSource X) = some (G', P', infos') ∧
      (Compiler.WF G → Compiler.WF G' → (∀ u < G.n, u ≠ 0 → Readable (G.v u).bytes) → (∀ u < G'.n, u ≠ 0 → Readable (G'.v u).bytes) →
        ∀ l w, Compiler.GAccepts G l w ↔ Compiler.GAccepts G' l w) := by
  obtain ⟨G, P, infos, h1, e⟩ := graph_command ha h
  obtain ⟨G', P', infos', h2, e'⟩ := graph_command hb h'
  exact ⟨G, P, infos, G', P', infos', h1, h2, fun w w' r r' => graph_accepts_partial w w' (e ▸ e') r r'⟩

/-! ## Where a label does not say which bytes -/

section
open Verif.Whole Verif.Chain
attribute [local instance] Build.plain

/-- `graph -p KEYWORD -e ASCII` -/
def exGraph (k : String) : Given := { command := word "graph", patterns := [word k], encoding := [word "ASCII"] }

/-- The automaton has one state behind the initial one, which takes these bytes, and matches for keyword 0. -/
def oneState (g : Graph) (bytes : List Nat) : Bool :=
  decide (g.n = 2) && decide ((g.v 0).out = [1]) && decide ((g.v 1).out = []) && decide ((g.v 0).label = none) &&
  decide ((g.v 1).label = some 0) && (g.v 1).isMatch && !(g.v 0).isMatch && decide ((g.v 0).inn = []) &&
  (List.range 256).all fun c => (g.v 1).bytes.getLsbD c == decide (c ∈ bytes)

/-- What `graph` does with two keywords: both texts are the same, and the automata have one state each. -/
def alike (k : String) (bytes : List Nat) (k' : String) (bytes' : List Nat) : Bool :=
  (match main exLibrary exOutside (exGraph k), main exLibrary exOutside (exGraph k') with
    | .ok (0, t), .ok (0, t') => decide (t = t')
    | _, _ => false) &&
  (match Handles.commandProgram 40 (exGraph k).depth Parser.plain Handles.exCast ((exGraph k).keywordSource exOutside),
      Handles.commandProgram 40 (exGraph k').depth Parser.plain Handles.exCast ((exGraph k').keywordSource exOutside) with
    | some (G, _, _), some (G', _, _) => oneState G bytes && oneState G' bytes'
    | _, _ => false)

theorem alike_spec {k k' : String} {bytes bytes' : List Nat} (h : alike k bytes k' bytes' = true) :
    ∃ t G P infos G' P' infos', main exLibrary exOutside (exGraph k) = .ok (0, t) ∧ main exLibrary exOutside (exGraph k') = .ok (0, t) ∧
      Handles.commandProgram 40 (exGraph k).depth Parser.plain Handles.exCast ((exGraph k).keywordSource exOutside) = some (G, P, infos) ∧
      Handles.commandProgram 40 (exGraph k').depth Parser.plain Handles.exCast ((exGraph k').keywordSource exOutside) = some (G', P', infos') ∧
      oneState G bytes = true ∧ oneState G' bytes' = true := by
  unfold alike at h
  rw [Bool.and_eq_true] at h
  obtain ⟨h1, h2⟩ := h
  split at h1
  · next t t' m1 m2 =>
    simp only [decide_eq_true_eq] at h1
    subst h1
    split at h2
    · next G P infos G' P' infos' c1 c2 =>
      rw [Bool.and_eq_true] at h2
      exact ⟨t, G, P, infos, G', P', infos', m1, m2, c1, c2, h2.1, h2.2⟩
    · cases h2
  · cases h1

theorem oneState_spec {g : Graph} {bytes : List Nat} (h : oneState g bytes = true) (hb : bytes ≠ []) (hl : ∀ b ∈ bytes, b < 256) :
    Compiler.WF g ∧ ∀ b : UInt8, Compiler.GAccepts g 0 [b] ↔ b.toNat ∈ bytes := by
  unfold oneState at h
  simp only [Bool.and_eq_true, decide_eq_true_eq, Bool.not_eq_true', List.all_eq_true, List.mem_range, beq_iff_eq] at h
  obtain ⟨⟨⟨⟨⟨⟨⟨⟨h1, h2⟩, h3⟩, h4⟩, h5⟩, h6⟩, h7⟩, h8⟩, h9⟩ := h
  have cs : ∀ v < g.n, v = 0 ∨ v = 1 := by omega
  refine ⟨⟨by omega, ?_, ?_, ?_, ?_, h4, h7, h8⟩, fun b => ⟨?_, fun hm => ?_⟩⟩
  · intro v hv u hu
    rcases cs v hv with rfl | rfl
    · rw [h2] at hu; simp at hu; omega
    · rw [h3] at hu; simp at hu
  · intro v hv
    rcases cs v hv with rfl | rfl
    · rw [h2]; simp
    · rw [h3]; simp
  · intro v hv h0
    rcases cs v hv with rfl | rfl
    · exact absurd rfl h0
    · obtain ⟨b, r, rfl⟩ := List.exists_cons_of_ne_nil hb
      exact ⟨b, hl b (by simp), by rw [h9 b (hl b (by simp))]; simp⟩
  · intro v hv
    rcases cs v hv with rfl | rfl
    · exact ⟨0, .zero⟩
    · exact ⟨1, .step .zero (by rw [h2]; simp)⟩
  · rintro ⟨v, r, -⟩
    generalize hw : [b] = w at r
    generalize some 0 = l at r
    cases r with
    | init => cases hw
    | step r hu hbit =>
      obtain ⟨rfl, e⟩ := List.append_inj' (show [] ++ [b] = _ from hw) rfl
      cases e
      generalize hw : ([] : List UInt8) = w at r
      cases r with
      | init =>
        rw [h2] at hu
        simp only [List.mem_singleton] at hu
        subst hu
        have := h9 b.toNat b.toNat_lt
        have hbit : (g.v 1).bytes.getLsbD b.toNat = true := hbit
        rw [hbit] at this
        simpa using this.symm
      | step => simp at hw
  · refine ⟨1, ?_, h6⟩
    have := Compiler.GRun.step (g := g) (b := b) (u := 1) .init (by rw [h2]; simp) (by
      show (g.v 1).bytes.getLsbD b.toNat = true
      rw [h9 _ b.toNat_lt]
      simpa using hm)
    rw [h5] at this
    exact this

set_option maxRecDepth 20000 in
/-- **C112** does not hold without its hypothesis: `graph` writes the same for the keyword `[+\-a]`, which matches three bytes, and for the
keyword `[+-a]`, which matches all bytes from `+` to `a`. -/
theorem graphs_ambiguous : ∃ t G P infos G' P' infos',
    main exLibrary exOutside (exGraph "[+\\-a]") = .ok (0, t) ∧ main exLibrary exOutside (exGraph "[+-a]") = .ok (0, t) ∧
      Handles.commandProgram 40 (exGraph "[+\\-a]").depth Parser.plain Handles.exCast ((exGraph "[+\\-a]").keywordSource exOutside) = some (G, P, infos) ∧
      Handles.commandProgram 40 (exGraph "[+-a]").depth Parser.plain Handles.exCast ((exGraph "[+-a]").keywordSource exOutside) = some (G', P', infos') ∧
      ¬ Compiler.GAccepts G 0 [64] ∧ Compiler.GAccepts G' 0 [64] := by
  obtain ⟨t, G, P, infos, G', P', infos', m1, m2, c1, c2, o1, o2⟩ :=
    alike_spec (k := "[+\\-a]") (bytes := [43, 45, 97]) (k' := "[+-a]") (bytes' := List.range' 43 55) (by decide +kernel)
  refine ⟨t, G, P, infos, G', P', infos', m1, m2, c1, c2, ?_, ?_⟩
  · rw [(oneState_spec o1 (by simp) (by decide)).2]
    decide
  · rw [(oneState_spec o2 (by simp) (by decide)).2]
    decide

set_option maxRecDepth 20000 in
-- The hypotheses of `graphs_alike_partial` are met: the keywords `[a\x20-0]` and `[ -0a]` are written alike.
example : ∃ t G P infos G' P' infos',
    main exLibrary exOutside (exGraph "[a\\x20-0]") = .ok (0, t) ∧ main exLibrary exOutside (exGraph "[ -0a]") = .ok (0, t) ∧
      Handles.commandProgram 40 (exGraph "[a\\x20-0]").depth Parser.plain Handles.exCast ((exGraph "[a\\x20-0]").keywordSource exOutside) = some (G, P, infos) ∧
      Handles.commandProgram 40 (exGraph "[ -0a]").depth Parser.plain Handles.exCast ((exGraph "[ -0a]").keywordSource exOutside) = some (G', P', infos') ∧
      Compiler.WF G ∧ Compiler.WF G' ∧ (∀ u < G.n, u ≠ 0 → Readable (G.v u).bytes) ∧ ∀ u < G'.n, u ≠ 0 → Readable (G'.v u).bytes := by
  obtain ⟨t, G, P, infos, G', P', infos', m1, m2, c1, c2, o1, o2⟩ :=
    alike_spec (k := "[a\\x20-0]") (bytes := 97 :: List.range' 32 17) (k' := "[ -0a]") (bytes' := 97 :: List.range' 32 17) (by decide +kernel)
  have key : ∀ g : Graph, oneState g (97 :: List.range' 32 17) = true → ∀ u < g.n, u ≠ 0 → Readable (g.v u).bytes := by
    intro g h u hu h0
    unfold oneState at h
    simp only [Bool.and_eq_true, decide_eq_true_eq, List.all_eq_true, List.mem_range, beq_iff_eq] at h
    obtain ⟨⟨⟨⟨⟨⟨⟨⟨h1, -⟩, -⟩, -⟩, -⟩, -⟩, -⟩, -⟩, h9⟩ := h
    rw [show u = 1 by omega]
    intro c hc hin
    simp only [List.mem_cons, List.not_mem_nil, or_false] at hc
    rcases hc with rfl | rfl | rfl
    · rw [h9 _ (by decide), h9 _ (by decide)]; decide
    · rw [h9 _ (by decide), h9 _ (by decide)]; decide
    · rw [h9 _ (by decide)] at hin; exact absurd hin (by decide)
  exact ⟨t, G, P, infos, G', P', infos', m1, m2, c1, c2, (oneState_spec o1 (by simp) (by decide)).1, (oneState_spec o2 (by simp) (by decide)).1,
    key G o1, key G' o2⟩

end

end Verif.Graphviz
