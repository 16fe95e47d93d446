import Verif.Utf
/-!
# C30, C31, C49: UTF codecs and decoding of pattern text

## Specification

Unicode scalar values, the bit distribution of UTF-8 (Unicode, table 3-6), the
well-formed byte sequences (table 3-7), and UTF-16/32 code units, written
arithmetically.
-/
namespace Verif.Utf

/-- Unicode scalar values. -/
def Scalar (c : Nat) : Prop := c < 0xD800 ∨ (0xE000 ≤ c ∧ c < 0x110000)

instance (c : Nat) : Decidable (Scalar c) := by unfold Scalar; infer_instance

/-- All elements are bytes. -/
def Bytes (l : List Nat) : Prop := ∀ b ∈ l, b < 256

/-- UTF-8 bit distribution (Unicode table 3-6). -/
def spec8 (c : Nat) : List Nat :=
  if c < 0x80 then [c]
  else if c < 0x800 then [0xC0 + c / 64, 0x80 + c % 64]
  else if c < 0x10000 then [0xE0 + c / 4096, 0x80 + c / 64 % 64, 0x80 + c % 64]
  else [0xF0 + c / 262144, 0x80 + c / 4096 % 64, 0x80 + c / 64 % 64, 0x80 + c % 64]

/-- Well-formed UTF-8 byte sequences (Unicode table 3-7). -/
inductive WellFormed8 : List Nat → Prop
  | one {a} : a ≤ 0x7F → WellFormed8 [a]
  | two {a b} : 0xC2 ≤ a → a ≤ 0xDF → 0x80 ≤ b → b ≤ 0xBF → WellFormed8 [a, b]
  | e0 {b c} : 0xA0 ≤ b → b ≤ 0xBF → 0x80 ≤ c → c ≤ 0xBF → WellFormed8 [0xE0, b, c]
  | e1ec {a b c} : 0xE1 ≤ a → a ≤ 0xEC → 0x80 ≤ b → b ≤ 0xBF → 0x80 ≤ c → c ≤ 0xBF →
      WellFormed8 [a, b, c]
  | ed {b c} : 0x80 ≤ b → b ≤ 0x9F → 0x80 ≤ c → c ≤ 0xBF → WellFormed8 [0xED, b, c]
  | eeef {a b c} : 0xEE ≤ a → a ≤ 0xEF → 0x80 ≤ b → b ≤ 0xBF → 0x80 ≤ c → c ≤ 0xBF →
      WellFormed8 [a, b, c]
  | f0 {b c d} : 0x90 ≤ b → b ≤ 0xBF → 0x80 ≤ c → c ≤ 0xBF → 0x80 ≤ d → d ≤ 0xBF →
      WellFormed8 [0xF0, b, c, d]
  | f1f3 {a b c d} : 0xF1 ≤ a → a ≤ 0xF3 → 0x80 ≤ b → b ≤ 0xBF → 0x80 ≤ c → c ≤ 0xBF →
      0x80 ≤ d → d ≤ 0xBF → WellFormed8 [a, b, c, d]
  | f4 {b c d} : 0x80 ≤ b → b ≤ 0x8F → 0x80 ≤ c → c ≤ 0xBF → 0x80 ≤ d → d ≤ 0xBF →
      WellFormed8 [0xF4, b, c, d]

/-- The bytes of a 16-bit code unit. -/
def unit16 (le : Bool) (u : Nat) : List Nat := if le then [u % 256, u / 256] else [u / 256, u % 256]

/-- UTF-16 (Unicode D91). -/
def spec16 (le : Bool) (c : Nat) : List Nat :=
  if c < 0x10000 then unit16 le c
  else unit16 le (0xD800 + (c - 0x10000) / 1024) ++ unit16 le (0xDC00 + (c - 0x10000) % 1024)

/-- UTF-32. -/
def spec32 (le : Bool) (c : Nat) : List Nat :=
  let b := [c % 256, c / 256 % 256, c / 65536 % 256, c / 16777216]
  if le then b else b.reverse

/-! ## Bit operations as arithmetic -/

theorem and3F (x : Nat) : x &&& 0x3F = x % 64 := Nat.and_two_pow_sub_one_eq_mod x 6
theorem and1F (x : Nat) : x &&& 0x1F = x % 32 := Nat.and_two_pow_sub_one_eq_mod x 5
theorem and0F (x : Nat) : x &&& 0x0F = x % 16 := Nat.and_two_pow_sub_one_eq_mod x 4
theorem and07 (x : Nat) : x &&& 0x07 = x % 8 := Nat.and_two_pow_sub_one_eq_mod x 3
theorem andFF (x : Nat) : x &&& 0xFF = x % 256 := Nat.and_two_pow_sub_one_eq_mod x 8
theorem and3FF (x : Nat) : x &&& 0x3FF = x % 1024 := Nat.and_two_pow_sub_one_eq_mod x 10

theorem or_lt {a b : Nat} (i : Nat) (h : b < 2 ^ i) : (a <<< i) ||| b = a * 2 ^ i + b := by
  rw [← Nat.shiftLeft_add_eq_or_of_lt h, Nat.shiftLeft_eq]

theorem or80 (x : Nat) : 0x80 ||| (x % 64) = 0x80 + x % 64 := by
  have := or_lt (a := 2) (b := x % 64) 6 (by omega); simpa using this
theorem orC0 (x : Nat) : 0xC0 ||| (x % 32) = 0xC0 + x % 32 := by
  have := or_lt (a := 6) (b := x % 32) 5 (by omega); simpa using this
theorem orE0 (x : Nat) : 0xE0 ||| (x % 16) = 0xE0 + x % 16 := by
  have := or_lt (a := 14) (b := x % 16) 4 (by omega); simpa using this
theorem orF0 (x : Nat) : 0xF0 ||| (x % 8) = 0xF0 + x % 8 := by
  have := or_lt (a := 30) (b := x % 8) 3 (by omega); simpa using this
theorem orShift6 (a x : Nat) : (a <<< 6) ||| (x % 64) = a * 64 + x % 64 := or_lt 6 (by omega)
theorem shr6 (x : Nat) : x >>> 6 = x / 64 := Nat.shiftRight_eq_div_pow x 6
theorem shr8 (x : Nat) : x >>> 8 = x / 256 := Nat.shiftRight_eq_div_pow x 8
theorem shr10 (x : Nat) : x >>> 10 = x / 1024 := Nat.shiftRight_eq_div_pow x 10
theorem shr12 (x : Nat) : x >>> 12 = x / 4096 := Nat.shiftRight_eq_div_pow x 12
theorem shr16 (x : Nat) : x >>> 16 = x / 65536 := Nat.shiftRight_eq_div_pow x 16
theorem shr18 (x : Nat) : x >>> 18 = x / 262144 := Nat.shiftRight_eq_div_pow x 18
theorem shr24 (x : Nat) : x >>> 24 = x / 16777216 := Nat.shiftRight_eq_div_pow x 24

theorem orByte {lo : Nat} (hi : Nat) (h : lo < 256) : lo ||| (hi <<< 8) = lo + hi * 256 := by
  rw [Nat.or_comm, or_lt 8 (by omega)]; omega

theorem or4 {b0 b1 b2 : Nat} (b3 : Nat) (h0 : b0 < 256) (h1 : b1 < 256) (h2 : b2 < 256) :
    b0 ||| (b1 <<< 8) ||| (b2 <<< 16) ||| (b3 <<< 24) =
      b0 + b1 * 256 + b2 * 65536 + b3 * 16777216 := by
  rw [orByte b1 h0]
  have e1 : (b0 + b1 * 256) ||| (b2 <<< 16) = b0 + b1 * 256 + b2 * 65536 := by
    rw [Nat.or_comm, or_lt 16 (by omega)]; omega
  rw [e1, Nat.or_comm, or_lt 24 (by omega)]; omega

/-! ## UTF-8 -/

/-- The encoder computes table 3-6 on scalar values and writes nothing
otherwise. -/
theorem cpToUtf8_spec (c : Int) :
    cpToUtf8 c = if 0 ≤ c ∧ Scalar c.toNat then spec8 c.toNat else [] := by
  unfold cpToUtf8 spec8
  by_cases h0 : c < 0
  · rw [if_pos h0, if_neg (by omega)]
  · rw [if_neg h0]
    generalize hc : c.toNat = n
    have hc0 : 0 ≤ c := by omega
    simp only [and3F, and1F, and0F, and07, shr6, shr12, shr18, or80, orC0, orE0, orF0, Scalar, hc0,
      true_and]
    repeat' split
    all_goals (try omega)
    all_goals (try (simp only [List.cons.injEq, and_true]; omega))
    all_goals rfl

theorem scalar_iff_wf {l : List Nat} (h : WellFormed8 l) :
    ∃ c, Scalar c ∧ l = spec8 c := by
  cases h with
  | @one a h => exact ⟨a, by unfold Scalar; omega, by unfold spec8; rw [if_pos (by omega)]⟩
  | @two a b h1 h2 h3 h4 =>
    refine ⟨(a - 0xC0) * 64 + (b - 0x80), by unfold Scalar; omega, ?_⟩
    unfold spec8
    rw [if_neg (by omega), if_pos (by omega)]
    simp only [List.cons.injEq, and_true]; omega
  | @e0 b c h1 h2 h3 h4 =>
    refine ⟨(b - 0x80) * 64 + (c - 0x80), by unfold Scalar; omega, ?_⟩
    unfold spec8
    rw [if_neg (by omega), if_neg (by omega), if_pos (by omega)]
    simp only [List.cons.injEq, and_true]; omega
  | @e1ec a b c h1 h2 h3 h4 h5 h6 =>
    refine ⟨(a - 0xE0) * 4096 + (b - 0x80) * 64 + (c - 0x80), by unfold Scalar; omega, ?_⟩
    unfold spec8
    rw [if_neg (by omega), if_neg (by omega), if_pos (by omega)]
    simp only [List.cons.injEq, and_true]; omega
  | @ed b c h3 h4 h5 h6 =>
    refine ⟨(0xED - 0xE0) * 4096 + (b - 0x80) * 64 + (c - 0x80), by unfold Scalar; omega, ?_⟩
    unfold spec8
    rw [if_neg (by omega), if_neg (by omega), if_pos (by omega)]
    simp only [List.cons.injEq, and_true]; omega
  | @eeef a b c h1 h2 h3 h4 h5 h6 =>
    refine ⟨(a - 0xE0) * 4096 + (b - 0x80) * 64 + (c - 0x80), by unfold Scalar; omega, ?_⟩
    unfold spec8
    rw [if_neg (by omega), if_neg (by omega), if_pos (by omega)]
    simp only [List.cons.injEq, and_true]; omega
  | @f0 b c d h1 h2 h3 h4 h5 h6 =>
    refine ⟨(b - 0x80) * 4096 + (c - 0x80) * 64 + (d - 0x80), by unfold Scalar; omega, ?_⟩
    unfold spec8
    rw [if_neg (by omega), if_neg (by omega), if_neg (by omega)]
    simp only [List.cons.injEq, and_true]; omega
  | @f1f3 a b c d g1 g2 h1 h2 h3 h4 h5 h6 =>
    refine ⟨(a - 0xF0) * 262144 + (b - 0x80) * 4096 + (c - 0x80) * 64 + (d - 0x80),
      by unfold Scalar; omega, ?_⟩
    unfold spec8
    rw [if_neg (by omega), if_neg (by omega), if_neg (by omega)]
    simp only [List.cons.injEq, and_true]; omega
  | @f4 b c d h1 h2 h3 h4 h5 h6 =>
    refine ⟨4 * 262144 + (b - 0x80) * 4096 + (c - 0x80) * 64 + (d - 0x80),
      by unfold Scalar; omega, ?_⟩
    unfold spec8
    rw [if_neg (by omega), if_neg (by omega), if_neg (by omega)]
    simp only [List.cons.injEq, and_true]; omega

theorem spec8_wf {c : Nat} (h : Scalar c) : WellFormed8 (spec8 c) := by
  unfold Scalar at h
  unfold spec8
  split
  · exact .one (by omega)
  · split
    · exact .two (by omega) (by omega) (by omega) (by omega)
    · split
      · by_cases h1 : c / 4096 = 0
        · rw [h1]; exact .e0 (by omega) (by omega) (by omega) (by omega)
        · by_cases h2 : c / 4096 = 13
          · rw [h2]; exact .ed (by omega) (by omega) (by omega) (by omega)
          · by_cases h3 : c / 4096 < 13
            · exact .e1ec (by omega) (by omega) (by omega) (by omega) (by omega) (by omega)
            · exact .eeef (by omega) (by omega) (by omega) (by omega) (by omega) (by omega)
      · by_cases h1 : c / 262144 = 0
        · rw [h1]; exact .f0 (by omega) (by omega) (by omega) (by omega) (by omega) (by omega)
        · by_cases h2 : c / 262144 = 4
          · rw [h2]; exact .f4 (by omega) (by omega) (by omega) (by omega) (by omega) (by omega)
          · exact .f1f3 (by omega) (by omega) (by omega) (by omega) (by omega) (by omega) (by omega)
              (by omega)

/-- The decoder on the encoding of a scalar value followed by anything. -/
theorem utf8ToCp_spec8 {c : Nat} (h : Scalar c) (rest : List Nat) :
    utf8ToCp (spec8 c ++ rest) = .ok c (spec8 c).length := by
  unfold Scalar at h
  unfold spec8
  split
  · rename_i h1
    have e : c % 256 = c := by omega
    simp [utf8ToCp, rd, andFF, e, h1]
  · split
    · rename_i h1 h2
      simp only [utf8ToCp, cont, rd, List.cons_append, List.nil_append, List.length_cons,
        List.getElem?_cons_zero, List.getElem?_cons_succ, andFF, and1F, and3F, orShift6]
      rw [if_neg (by omega), if_neg (by omega), if_pos (by omega), if_neg (by omega),
        if_neg (by omega), if_neg (by omega)]
      simp only [Dec.ok.injEq, List.length_nil, and_true]; omega
    · split
      · rename_i h1 h2 h3
        simp only [utf8ToCp, cont, rd, List.cons_append, List.nil_append, List.length_cons,
          List.getElem?_cons_zero, List.getElem?_cons_succ, andFF, and0F, and3F, orShift6]
        rw [if_neg (by omega), if_neg (by omega), if_neg (by omega), if_pos (by omega),
          if_neg (by omega), if_neg (by omega), if_neg (by omega), if_neg (by omega),
          if_neg (by omega)]
        simp only [Dec.ok.injEq, List.length_nil, and_true]; omega
      · rename_i h1 h2 h3
        simp only [utf8ToCp, cont, rd, List.cons_append, List.nil_append, List.length_cons,
          List.getElem?_cons_zero, List.getElem?_cons_succ, andFF, and07, and3F, orShift6]
        rw [if_neg (by omega), if_neg (by omega), if_neg (by omega), if_neg (by omega),
          if_pos (by omega), if_neg (by omega), if_neg (by omega), if_neg (by omega),
          if_neg (by omega), if_neg (by omega), if_neg (by omega), if_neg (by omega)]
        simp only [Dec.ok.injEq, List.length_nil, and_true]; omega

/-- What the continuation macro does, by cases. -/
theorem cont_cases {buf : List Nat} {i cp : Nat} {k : Nat → Dec} (hb : Bytes buf)
    (hi : i ≤ buf.length) :
    cont buf i cp k = .fail ∨ ∃ b, buf[i]? = some b ∧ 0x80 ≤ b ∧ b ≤ 0xBF ∧
      cont buf i cp k = k (cp * 64 + b % 64) := by
  unfold cont
  by_cases h : i = buf.length
  · left; rw [if_pos h]
  · have hlt : i < buf.length := by omega
    have hg : buf[i]? = some buf[i] := List.getElem?_eq_getElem hlt
    have hb' : buf[i] < 256 := hb _ (List.getElem_mem hlt)
    rw [if_neg h]
    simp only [rd, hg, andFF, and3F, orShift6]
    have : buf[i] % 256 = buf[i] := by omega
    rw [this]
    by_cases h2 : buf[i] < 0x80 ∨ 0xBF < buf[i]
    · left; rw [if_pos h2]
    · right; exact ⟨buf[i], rfl, by omega, by omega, by rw [if_neg h2]⟩

theorem take_of_get {l xs : List Nat} {n : Nat} (hn : xs.length = n)
    (h : ∀ (k x : Nat), xs[k]? = some x → l[k]? = some x) : l.take n = xs := by
  subst hn
  apply List.ext_getElem?
  intro k
  by_cases hk : k < xs.length
  · rw [List.getElem?_take, if_pos hk, List.getElem?_eq_getElem hk, h k _ (List.getElem?_eq_getElem hk)]
  · rw [List.getElem?_eq_none (by simp; omega), List.getElem?_eq_none (by omega)]

/-- Every buffer is decoded without reading outside it; a decoded value is a
scalar value and the bytes consumed are its encoding. -/
theorem utf8ToCp_sound (buf : List Nat) (hb : Bytes buf) :
    utf8ToCp buf = .fail ∨ ∃ c n, utf8ToCp buf = .ok c n ∧ Scalar c ∧ n ≤ buf.length ∧
      buf.take n = spec8 c := by
  cases buf with
  | nil => left; rfl
  | cons a tl =>
    have ha : a < 256 := hb a (by simp)
    have ea : a % 256 = a := by omega
    have step1 : ∀ cp k, _ := fun cp k => cont_cases (buf := a :: tl) (i := 1) (cp := cp) (k := k) hb
      (by simp)
    have hlen : ∀ {i b : Nat}, (a :: tl)[i]? = some b → i < (a :: tl).length := fun h =>
      (List.getElem?_eq_some_iff.mp h).1
    unfold utf8ToCp
    simp only [rd, List.getElem?_cons_zero, andFF, ea]
    rw [if_neg (by simp)]
    by_cases h1 : a < 0x80
    · right
      rw [if_pos h1]
      exact ⟨a, 1, rfl, by unfold Scalar; omega, by simp, by unfold spec8; rw [if_pos h1]; simp⟩
    rw [if_neg h1]
    by_cases h2 : a < 0xE0
    · rw [if_pos h2]
      by_cases h3 : a < 0xC2
      · left; rw [if_pos h3]
      rw [if_neg h3, and1F]
      rcases step1 (a % 32) (fun cp => .ok cp 2) with h | ⟨b, hb1, hb2, hb3, hb4⟩
      · left; exact h
      · right
        refine ⟨_, 2, hb4, by unfold Scalar; omega, hlen hb1, ?_⟩
        unfold spec8
        rw [if_neg (by omega), if_pos (by omega)]
        refine take_of_get (by first | rfl | (cases le <;> rfl)) fun k x hk => ?_
        match k with
        | 0 => simp at hk ⊢; omega
        | 1 =>
          rw [hb1]; simp at hk ⊢; omega
        | k + 2 => simp at hk
    rw [if_neg h2]
    by_cases h3 : a < 0xF0
    · rw [if_pos h3, and0F]
      rcases step1 (a % 16) _ with h | ⟨b, hb1, hb2, hb3, hb4⟩
      · left; exact h
      · rw [hb4]
        have l1 := hlen hb1
        rcases cont_cases (buf := a :: tl) (i := 2) (cp := a % 16 * 64 + b % 64)
          (k := fun cp => if cp < 0x800 ∨ (0xD7FF < cp ∧ cp < 0xE000) then .fail else .ok cp 3) hb
          (by omega) with h | ⟨c, hc1, hc2, hc3, hc4⟩
        · left; exact h
        · have l2 := hlen hc1
          rw [hc4]
          by_cases h4 : ((a % 16 * 64 + b % 64) * 64 + c % 64 < 0x800 ∨
              (0xD7FF < (a % 16 * 64 + b % 64) * 64 + c % 64 ∧ (a % 16 * 64 + b % 64) * 64 + c % 64 < 0xE000))
          · left; exact if_pos h4
          · right
            refine ⟨_, 3, if_neg h4, by unfold Scalar; omega, l2, ?_⟩
            unfold spec8
            rw [if_neg (by omega), if_neg (by omega), if_pos (by omega)]
            refine take_of_get (by first | rfl | (cases le <;> rfl)) fun k x hk => ?_
            match k with
            | 0 => simp at hk ⊢; omega
            | 1 => rw [hb1]; simp at hk ⊢; omega
            | 2 => rw [hc1]; simp at hk ⊢; omega
            | k + 3 => simp at hk
    rw [if_neg h3]
    by_cases h4 : a < 0xF5
    · rw [if_pos h4, and07]
      rcases step1 (a % 8) _ with h | ⟨b, hb1, hb2, hb3, hb4⟩
      · left; exact h
      · rw [hb4]
        have l1 := hlen hb1
        rcases cont_cases (buf := a :: tl) (i := 2) (cp := a % 8 * 64 + b % 64)
          (k := fun cp => cont (a :: tl) 3 cp fun cp =>
            if cp < 0x10000 ∨ cp > 0x10FFFF then .fail else .ok cp 4) hb
          (by omega) with h | ⟨c, hc1, hc2, hc3, hc4⟩
        · left; exact h
        · have l2 := hlen hc1
          rw [hc4]
          rcases cont_cases (buf := a :: tl) (i := 3) (cp := (a % 8 * 64 + b % 64) * 64 + c % 64)
            (k := fun cp => if cp < 0x10000 ∨ cp > 0x10FFFF then .fail else .ok cp 4) hb
            (by omega) with h | ⟨d, hd1, hd2, hd3, hd4⟩
          · left; exact h
          · have l3 := hlen hd1
            rw [hd4]
            by_cases h5 : (((a % 8 * 64 + b % 64) * 64 + c % 64) * 64 + d % 64 < 0x10000 ∨
                ((a % 8 * 64 + b % 64) * 64 + c % 64) * 64 + d % 64 > 0x10FFFF)
            · left; exact if_pos h5
            · right
              refine ⟨_, 4, if_neg h5, by unfold Scalar; omega, l3, ?_⟩
              unfold spec8
              rw [if_neg (by omega), if_neg (by omega), if_neg (by omega)]
              refine take_of_get (by first | rfl | (cases le <;> rfl)) fun k x hk => ?_
              match k with
              | 0 => simp at hk ⊢; omega
              | 1 => rw [hb1]; simp at hk ⊢; omega
              | 2 => rw [hc1]; simp at hk ⊢; omega
              | 3 => rw [hd1]; simp at hk ⊢; omega
              | k + 4 => simp at hk
    · left; rw [if_neg h4]

theorem spec8_ne_nil (c : Nat) : spec8 c ≠ [] := by
  unfold spec8; repeat' split
  all_goals simp

/-- **C30** UTF-8 encoding and decoding are inverse.
(1) The encoder writes table 3-6 for scalar values and nothing otherwise.
(2) Encoding any scalar value and decoding, whatever follows it, returns the
value and consumes exactly the bytes written.
(3) On any buffer of bytes the decoder never reads outside it, and it succeeds
iff some prefix is a well-formed sequence of table 3-7, which is what it
consumes and the encoding of what it returns. -/
theorem utf8_inverse :
    (∀ c : Int, cpToUtf8 c = if 0 ≤ c ∧ Scalar c.toNat then spec8 c.toNat else []) ∧
    (∀ c : Nat, Scalar c → ∀ rest, utf8ToCp (cpToUtf8 c ++ rest) = .ok c (cpToUtf8 c).length) ∧
    (∀ buf, Bytes buf → utf8ToCp buf ≠ .ub ∧
      ∀ c n, utf8ToCp buf = .ok c n ↔
        n ≤ buf.length ∧ WellFormed8 (buf.take n) ∧ Scalar c ∧ buf.take n = cpToUtf8 c) := by
  have enc : ∀ c : Nat, Scalar c → cpToUtf8 c = spec8 c := by
    intro c hc
    rw [cpToUtf8_spec, if_pos ⟨by omega, by simpa using hc⟩]; simp
  refine ⟨cpToUtf8_spec, fun c hc rest => ?_, fun buf hb => ⟨?_, fun c n => ⟨fun h => ?_, fun h => ?_⟩⟩⟩
  · rw [enc c hc]; exact utf8ToCp_spec8 hc rest
  · rcases utf8ToCp_sound buf hb with h | ⟨c, n, h, _⟩ <;> rw [h] <;> simp
  · rcases utf8ToCp_sound buf hb with h' | ⟨c', n', h', hs, hn, ht⟩
    · rw [h] at h'; simp at h'
    · rw [h] at h'
      simp only [Dec.ok.injEq] at h'
      obtain ⟨rfl, rfl⟩ := h'
      exact ⟨hn, ht ▸ spec8_wf hs, hs, by rw [ht, enc c hs]⟩
  · obtain ⟨hn, _, hs, ht⟩ := h
    rw [enc c hs] at ht
    have := utf8ToCp_spec8 hs (buf.drop n)
    rw [← ht, List.take_append_drop] at this
    rw [this, List.length_take]
    congr 1; omega

/-- U+20AC. -/
example : cpToUtf8 0x20AC = [0xE2, 0x82, 0xAC] ∧ utf8ToCp [0xE2, 0x82, 0xAC, 0x41] = .ok 0x20AC 3 := by
  decide
/-- Truncated, overlong and surrogate sequences are refused. -/
example : utf8ToCp [0xE2, 0x82] = .fail ∧ utf8ToCp [0xC0, 0x80] = .fail ∧
    utf8ToCp [0xED, 0xA0, 0x80] = .fail := by decide

/-! ## UTF-16 and UTF-32 -/

theorem put16_unit (le : Bool) (u : Nat) : put16 le (u % 256) (u / 256) = unit16 le u := by
  cases le <;> rfl

theorem cpToUtf16_spec (le : Bool) (c : Int) :
    cpToUtf16 le c = if 0 ≤ c ∧ Scalar c.toNat then spec16 le c.toNat else [] := by
  unfold cpToUtf16 spec16
  by_cases h0 : c < 0
  · rw [if_pos h0, if_neg (by omega)]
  · rw [if_neg h0]
    generalize hc : c.toNat = n
    have hc0 : 0 ≤ c := by omega
    simp only [andFF, and3FF, shr8, shr10, Scalar, hc0, true_and, put16_unit]
    have e : 0xD800 - 0x10000 / 1024 = 0xD7C0 := by decide
    rw [e]
    repeat' split
    all_goals (try omega)
    all_goals (try rfl)
    have e1 : 0xD7C0 + n / 1024 = 0xD800 + (n - 0x10000) / 1024 := by omega
    have e2 : 0xDC00 + n % 1024 = 0xDC00 + (n - 0x10000) % 1024 := by omega
    rw [e1, e2]

theorem get16_of {le : Bool} {buf : List Nat} {i x y : Nat} (hx : buf[i]? = some x)
    (hy : buf[i + 1]? = some y) (hx' : x < 256) (hy' : y < 256) (k : Nat → Dec) :
    get16 le buf i k = k (if le then x + y * 256 else y + x * 256) := by
  cases le
  · simp only [get16, rd, Bool.false_eq_true, if_false, hx, hy]; rw [orByte _ hy']
  · simp only [get16, rd, if_true, hx, hy]; rw [orByte _ hx']

theorem utf16ToCp_spec16 (le : Bool) {c : Nat} (h : Scalar c) (rest : List Nat) :
    utf16ToCp le (spec16 le c ++ rest) = .ok c (spec16 le c).length := by
  unfold Scalar at h
  unfold spec16
  split
  · rename_i h1
    have hl : (unit16 le c ++ rest).length = rest.length + 2 := by
      cases le <;> simp [unit16]
    have hl' : (unit16 le c).length = 2 := by cases le <;> simp [unit16]
    have h0 : (unit16 le c ++ rest)[0]? = some (if le then c % 256 else c / 256) := by
      cases le <;> simp [unit16]
    have h1' : (unit16 le c ++ rest)[0 + 1]? = some (if le then c / 256 else c % 256) := by
      cases le <;> simp [unit16]
    unfold utf16ToCp
    rw [hl, hl', if_neg (by omega), get16_of h0 h1' (by split <;> omega) (by split <;> omega)]
    have e : (if le then (if le then c % 256 else c / 256) + (if le then c / 256 else c % 256) * 256
        else (if le then c / 256 else c % 256) + (if le then c % 256 else c / 256) * 256) = c := by
      cases le <;> simp <;> omega
    rw [e]
    by_cases h2 : c < 0xD800
    · rw [if_pos h2]
    · rw [if_neg h2, if_neg (by omega), if_neg (by omega)]
  · rename_i h1
    obtain ⟨L, hL⟩ : ∃ L, L = 0xD800 + (c - 0x10000) / 1024 := ⟨_, rfl⟩
    obtain ⟨T, hT⟩ : ∃ T, T = 0xDC00 + (c - 0x10000) % 1024 := ⟨_, rfl⟩
    rw [← hL, ← hT]
    have hval : (L - (0xD800 - 0x10000 / 1024)) * 2 ^ 10 + (T - 0xDC00) = c := by omega
    have hl : (unit16 le L ++ unit16 le T ++ rest).length = rest.length + 4 := by
      cases le <;> simp [unit16]
    have hl' : (unit16 le L ++ unit16 le T).length = 4 := by cases le <;> simp [unit16]
    have g0 : (unit16 le L ++ unit16 le T ++ rest)[0]? = some (if le then L % 256 else L / 256) := by
      cases le <;> simp [unit16]
    have g1 : (unit16 le L ++ unit16 le T ++ rest)[0 + 1]? = some (if le then L / 256 else L % 256) := by
      cases le <;> simp [unit16]
    have g2 : (unit16 le L ++ unit16 le T ++ rest)[2]? = some (if le then T % 256 else T / 256) := by
      cases le <;> simp [unit16]
    have g3 : (unit16 le L ++ unit16 le T ++ rest)[2 + 1]? = some (if le then T / 256 else T % 256) := by
      cases le <;> simp [unit16]
    unfold utf16ToCp
    rw [hl, hl', if_neg (by omega), get16_of g0 g1 (by split <;> omega) (by split <;> omega)]
    have eL : (if le then (if le then L % 256 else L / 256) + (if le then L / 256 else L % 256) * 256
        else (if le then L / 256 else L % 256) + (if le then L % 256 else L / 256) * 256) = L := by
      cases le <;> simp <;> omega
    have eT : (if le then (if le then T % 256 else T / 256) + (if le then T / 256 else T % 256) * 256
        else (if le then T / 256 else T % 256) + (if le then T % 256 else T / 256) * 256) = T := by
      cases le <;> simp <;> omega
    rw [eL, if_neg (by omega), if_pos (by omega), if_neg (by omega),
      get16_of g2 g3 (by split <;> omega) (by split <;> omega), eT, if_neg (by omega),
      if_pos (by omega), shr10, or_lt 10 (by omega), hval]

theorem utf16ToCp_sound (le : Bool) (buf : List Nat) (hb : Bytes buf) :
    utf16ToCp le buf = .fail ∨ ∃ c n, utf16ToCp le buf = .ok c n ∧ Scalar c ∧ n ≤ buf.length ∧
      buf.take n = spec16 le c := by
  unfold utf16ToCp
  by_cases h0 : buf.length < 2
  · left; rw [if_pos h0]
  rw [if_neg h0]
  have g0 : buf[0]? = some buf[0] := List.getElem?_eq_getElem (by omega)
  have g1 : buf[0 + 1]? = some buf[1] := List.getElem?_eq_getElem (by omega)
  have b0 : buf[0] < 256 := hb _ (List.getElem_mem _)
  have b1 : buf[1] < 256 := hb _ (List.getElem_mem _)
  rw [get16_of g0 g1 b0 b1]
  generalize buf[0] = x at *
  generalize buf[1] = y at *
  generalize hu : (if le then x + y * 256 else y + x * 256) = u
  have hu' : u < 65536 := by subst hu; split <;> omega
  have direct : ∀ n, n = 2 → buf.take n = unit16 le u := by
    rintro n rfl
    refine take_of_get (by first | rfl | (cases le <;> rfl)) fun k z hk => ?_
    match k with
    | 0 => rw [g0]; subst hu; cases le <;> simp [unit16] at hk ⊢ <;> omega
    | 1 => rw [g1]; subst hu; cases le <;> simp [unit16] at hk ⊢ <;> omega
    | k + 2 => cases le <;> simp [unit16] at hk
  by_cases h1 : u < 0xD800
  · right
    rw [if_pos h1]
    exact ⟨u, 2, rfl, by unfold Scalar; omega, by omega, by
      unfold spec16; rw [if_pos (by omega)]; exact direct 2 rfl⟩
  rw [if_neg h1]
  by_cases h2 : u < 0xDC00
  · rw [if_pos h2]
    by_cases h3 : buf.length < 4
    · left; rw [if_pos h3]
    rw [if_neg h3]
    have g2 : buf[2]? = some buf[2] := List.getElem?_eq_getElem (by omega)
    have g3 : buf[2 + 1]? = some buf[3] := List.getElem?_eq_getElem (by omega)
    have b2 : buf[2] < 256 := hb _ (List.getElem_mem _)
    have b3 : buf[3] < 256 := hb _ (List.getElem_mem _)
    rw [get16_of g2 g3 b2 b3]
    generalize buf[2] = z at *
    generalize buf[3] = w at *
    generalize hv : (if le then z + w * 256 else w + z * 256) = v
    by_cases h4 : v < 0xDC00
    · left; rw [if_pos h4]
    rw [if_neg h4]
    by_cases h5 : v < 0xE000
    · right
      rw [if_pos h5, shr10, or_lt 10 (by omega)]
      refine ⟨_, 4, rfl, by unfold Scalar; omega, by omega, ?_⟩
      unfold spec16
      rw [if_neg (by omega)]
      have eL : 0xD800 + ((u - (0xD800 - 0x10000 / 1024)) * 2 ^ 10 + (v - 0xDC00) - 0x10000) / 1024 = u := by
        omega
      have eT : 0xDC00 + ((u - (0xD800 - 0x10000 / 1024)) * 2 ^ 10 + (v - 0xDC00) - 0x10000) % 1024 = v := by
        omega
      rw [eL, eT]
      refine take_of_get (by first | rfl | (cases le <;> rfl)) fun k q hk => ?_
      match k with
      | 0 => rw [g0]; subst hu; cases le <;> simp [unit16] at hk ⊢ <;> omega
      | 1 => rw [g1]; subst hu; cases le <;> simp [unit16] at hk ⊢ <;> omega
      | 2 => rw [g2]; subst hv; cases le <;> simp [unit16] at hk ⊢ <;> omega
      | 3 => rw [g3]; subst hv; cases le <;> simp [unit16] at hk ⊢ <;> omega
      | k + 4 => cases le <;> simp [unit16] at hk
    · left; rw [if_neg h5]
  rw [if_neg h2]
  by_cases h3 : u < 0xE000
  · left; rw [if_pos h3]
  · right
    rw [if_neg h3]
    exact ⟨u, 2, rfl, by unfold Scalar; omega, by omega, by
      unfold spec16; rw [if_pos (by omega)]; exact direct 2 rfl⟩

theorem put32_spec (le : Bool) {c : Nat} (h : c < 0x110000) :
    put32 le (c % 256) (c / 256 % 256) (c / 65536 % 256) (c / 16777216 % 256) = spec32 le c := by
  have : c / 16777216 % 256 = c / 16777216 := by omega
  rw [this]; cases le <;> rfl

theorem cpToUtf32_spec (le : Bool) (c : Int) :
    cpToUtf32 le c = if 0 ≤ c ∧ Scalar c.toNat then spec32 le c.toNat else [] := by
  unfold cpToUtf32
  by_cases h0 : c < 0
  · rw [if_pos h0, if_neg (by omega)]
  · rw [if_neg h0]
    generalize hc : c.toNat = n
    have hc0 : 0 ≤ c := by omega
    simp only [andFF, shr8, shr16, shr24, Scalar, hc0, true_and]
    by_cases h1 : n < 0xD800
    · rw [if_pos h1, if_pos (by omega), put32_spec le (by omega)]
    · rw [if_neg h1]
      by_cases h2 : n < 0xE000
      · rw [if_pos h2, if_neg (by omega)]
      · rw [if_neg h2]
        by_cases h3 : n < 0x110000
        · rw [if_pos h3, if_pos (by omega), put32_spec le h3]
        · rw [if_neg h3, if_neg (by omega)]

theorem utf32ToCp_of (le : Bool) {buf : List Nat} {b0 b1 b2 b3 : Nat}
    (h : buf.take 4 = put32 le b0 b1 b2 b3) (h0 : b0 < 256) (h1 : b1 < 256) (h2 : b2 < 256) :
    utf32ToCp le buf =
      let cp := b0 + b1 * 256 + b2 * 65536 + b3 * 16777216
      if 0x80000000 ≤ cp ∨ (0xD800 ≤ cp ∧ cp < 0xE000) ∨ 0x110000 ≤ cp then .fail
      else .ok cp 4 := by
  have hl : ¬ buf.length < 4 := by
    have := congrArg List.length h
    rw [List.length_take] at this
    have e : (put32 le b0 b1 b2 b3).length = 4 := by cases le <;> rfl
    omega
  have get : ∀ i < 4, buf[i]? = (put32 le b0 b1 b2 b3)[i]? := by
    intro i hi
    rw [← h, List.getElem?_take, if_pos hi]
  unfold utf32ToCp
  rw [if_neg hl]
  cases le
  · simp only [rd, Bool.false_eq_true, if_false, get 0 (by omega), get 1 (by omega), get 2 (by omega),
      get 3 (by omega), put32, List.getElem?_cons_zero, List.getElem?_cons_succ]
    rw [or4 b3 h0 h1 h2]
  · simp only [rd, if_true, get 0 (by omega), get 1 (by omega), get 2 (by omega),
      get 3 (by omega), put32, List.getElem?_cons_zero, List.getElem?_cons_succ]
    rw [or4 b3 h0 h1 h2]

theorem spec32_length (le : Bool) (c : Nat) : (spec32 le c).length = 4 := by cases le <;> rfl

theorem utf32ToCp_spec32 (le : Bool) {c : Nat} (h : Scalar c) (rest : List Nat) :
    utf32ToCp le (spec32 le c ++ rest) = .ok c (spec32 le c).length := by
  unfold Scalar at h
  have ht : (spec32 le c ++ rest).take 4 =
      put32 le (c % 256) (c / 256 % 256) (c / 65536 % 256) (c / 16777216 % 256) := by
    rw [put32_spec le (by omega), List.take_append_of_le_length (by rw [spec32_length]; omega),
      ← spec32_length le c, List.take_length]
  rw [utf32ToCp_of le ht (by omega) (by omega) (by omega), spec32_length]
  have e : c % 256 + c / 256 % 256 * 256 + c / 65536 % 256 * 65536 + c / 16777216 % 256 * 16777216 = c := by
    omega
  simp only [e]
  rw [if_neg (by omega)]

theorem utf32ToCp_sound (le : Bool) (buf : List Nat) (hb : Bytes buf) :
    utf32ToCp le buf = .fail ∨ ∃ c n, utf32ToCp le buf = .ok c n ∧ Scalar c ∧ n ≤ buf.length ∧
      buf.take n = spec32 le c := by
  match buf, hb with
  | [], _ => left; rfl
  | [a], _ => left; rfl
  | [a, b], _ => left; rfl
  | [a, b, c], _ => left; rfl
  | a :: b :: c :: d :: tl, hb =>
    have ha : a < 256 := hb a (by simp)
    have hb' : b < 256 := hb b (by simp)
    have hc : c < 256 := hb c (by simp)
    have hd : d < 256 := hb d (by simp)
    cases le
    · have ht : (a :: b :: c :: d :: tl).take 4 = put32 false d c b a := rfl
      rw [utf32ToCp_of false ht hd hc hb']
      dsimp only
      split
      · left; rfl
      · right
        refine ⟨_, 4, rfl, by unfold Scalar; omega, by simp, ?_⟩
        simp only [spec32, Bool.false_eq_true, if_false, List.take, List.reverse_cons, List.reverse_nil,
          List.nil_append, List.cons_append, List.cons.injEq, and_true]
        omega
    · have ht : (a :: b :: c :: d :: tl).take 4 = put32 true a b c d := rfl
      rw [utf32ToCp_of true ht ha hb' hc]
      dsimp only
      split
      · left; rfl
      · right
        refine ⟨_, 4, rfl, by unfold Scalar; omega, by simp, ?_⟩
        simp only [spec32, if_true, List.take, List.cons.injEq, and_true]
        omega

/-- The statement of C31 for an encoder/decoder pair and its specification. -/
def Inverse (enc : Int → List Nat) (dec : List Nat → Dec) (spec : Nat → List Nat) : Prop :=
  (∀ c : Int, enc c = if 0 ≤ c ∧ Scalar c.toNat then spec c.toNat else []) ∧
  (∀ c : Nat, Scalar c → ∀ rest, dec (enc c ++ rest) = .ok c (enc c).length) ∧
  (∀ buf, Bytes buf → dec buf ≠ .ub ∧
    ∀ c n, dec buf = .ok c n ↔ n ≤ buf.length ∧ Scalar c ∧ buf.take n = enc c)

theorem inverse_of {enc : Int → List Nat} {dec : List Nat → Dec} {spec : Nat → List Nat}
    (h1 : ∀ c : Int, enc c = if 0 ≤ c ∧ Scalar c.toNat then spec c.toNat else [])
    (h2 : ∀ c : Nat, Scalar c → ∀ rest, dec (spec c ++ rest) = .ok c (spec c).length)
    (h3 : ∀ buf, Bytes buf → dec buf = .fail ∨ ∃ c n, dec buf = .ok c n ∧ Scalar c ∧
      n ≤ buf.length ∧ buf.take n = spec c) : Inverse enc dec spec := by
  have henc : ∀ c : Nat, Scalar c → enc c = spec c := by
    intro c hc
    rw [h1, if_pos ⟨by omega, by simpa using hc⟩]; simp
  refine ⟨h1, fun c hc rest => ?_, fun buf hb => ⟨?_, fun c n => ⟨fun h => ?_, fun h => ?_⟩⟩⟩
  · rw [henc c hc]; exact h2 c hc rest
  · rcases h3 buf hb with h | ⟨c, n, h, _⟩ <;> rw [h] <;> simp
  · rcases h3 buf hb with h' | ⟨c', n', h', hs, hn, ht⟩
    · rw [h] at h'; simp at h'
    · rw [h] at h'
      simp only [Dec.ok.injEq] at h'
      obtain ⟨rfl, rfl⟩ := h'
      exact ⟨hn, hs, by rw [ht, henc c hs]⟩
  · obtain ⟨hn, hs, ht⟩ := h
    rw [henc c hs] at ht
    have := h2 c hs (buf.drop n)
    rw [← ht, List.take_append_drop] at this
    rw [this, List.length_take]
    congr 1; omega

/-- **C31** UTF-16 (both byte orders) is inverse to itself: see `Inverse`. -/
theorem utf16_inverse (le : Bool) : Inverse (cpToUtf16 le) (utf16ToCp le) (spec16 le) :=
  inverse_of (cpToUtf16_spec le) (fun _ h r => utf16ToCp_spec16 le h r) (utf16ToCp_sound le)

/-- **C31** UTF-32 (both byte orders). -/
theorem utf32_inverse (le : Bool) : Inverse (cpToUtf32 le) (utf32ToCp le) (spec32 le) :=
  inverse_of (cpToUtf32_spec le) (fun _ h r => utf32ToCp_spec32 le h r) (utf32ToCp_sound le)

/-- U+1D11E as a surrogate pair. -/
example : cpToUtf16 true 0x1D11E = [0x34, 0xD8, 0x1E, 0xDD] ∧
    utf16ToCp false [0xD8, 0x34, 0xDD, 0x1E, 0] = .ok 0x1D11E 4 := by decide +kernel

/-! ## Pattern text -/

theorem contU_cases {buf : List Nat} {i cp used : Nat} {k : Nat → DecU} (hi : i ≤ buf.length) :
    (contU buf i cp used k = .ret none used ∧ (i = buf.length ∨ ∃ b, buf[i]? = some b)) ∨
    ∃ b, buf[i]? = some b ∧ 0x80 ≤ b % 256 ∧ b % 256 ≤ 0xBF ∧
      contU buf i cp used k = k (cp * 64 + b % 64) := by
  unfold contU
  by_cases h : i = buf.length
  · left; exact ⟨by rw [if_pos h], .inl h⟩
  · have hlt : i < buf.length := by omega
    have hg : buf[i]? = some buf[i] := List.getElem?_eq_getElem hlt
    rw [if_neg h]
    simp only [hg, andFF, and3F, orShift6]
    by_cases h2 : buf[i] % 256 < 0x80 ∨ 0xBF < buf[i] % 256
    · left; exact ⟨by rw [if_pos h2], .inr ⟨_, rfl⟩⟩
    · right; exact ⟨buf[i], rfl, by omega, by omega, by rw [if_neg h2]; congr 2; omega⟩

/-- On the encoding of a scalar value. -/
theorem utf8ToUnicode_spec8 {c : Nat} (h : Scalar c) (rest : List Nat) :
    utf8ToUnicode (spec8 c ++ rest) = .ret (some c) (spec8 c).length := by
  unfold Scalar at h
  unfold spec8
  split
  · rename_i h1
    have e : c % 256 = c := by omega
    simp [utf8ToUnicode, andFF, e, h1]
  · split
    · rename_i h1 h2
      simp only [utf8ToUnicode, contU, List.cons_append, List.nil_append, List.length_cons,
        List.getElem?_cons_zero, List.getElem?_cons_succ, andFF, and1F, and3F, orShift6]
      rw [if_neg (by omega), if_neg (by omega), if_pos (by omega), if_neg (by omega),
        if_neg (by omega), if_neg (by omega)]
      simp only [DecU.ret.injEq, Option.some.injEq, List.length_nil, and_true]; omega
    · split
      · rename_i h1 h2 h3
        simp only [utf8ToUnicode, contU, List.cons_append, List.nil_append, List.length_cons,
          List.getElem?_cons_zero, List.getElem?_cons_succ, andFF, and0F, and3F, orShift6]
        rw [if_neg (by omega), if_neg (by omega), if_neg (by omega), if_pos (by omega),
          if_neg (by omega), if_neg (by omega), if_neg (by omega), if_neg (by omega),
          if_neg (by omega)]
        simp only [DecU.ret.injEq, Option.some.injEq, List.length_nil, and_true]; omega
      · rename_i h1 h2 h3
        simp only [utf8ToUnicode, contU, List.cons_append, List.nil_append, List.length_cons,
          List.getElem?_cons_zero, List.getElem?_cons_succ, andFF, and07, and3F, orShift6]
        rw [if_neg (by omega), if_neg (by omega), if_neg (by omega), if_neg (by omega),
          if_pos (by omega), if_neg (by omega), if_neg (by omega), if_neg (by omega),
          if_neg (by omega), if_neg (by omega), if_neg (by omega), if_neg (by omega)]
        simp only [DecU.ret.injEq, Option.some.injEq, List.length_nil, and_true]; omega

/-- **C49** (meaning).  The text of a pattern that is valid UTF-8 is decoded to
exactly its code points. -/
theorem patternText_decodes (cs : List Nat) (h : ∀ c ∈ cs, Scalar c) :
    patternText (cs.flatMap (fun c : Nat => cpToUtf8 c)) = some (cs.map some) := by
  have enc : ∀ c : Nat, Scalar c → cpToUtf8 c = spec8 c := by
    intro c hc
    rw [cpToUtf8_spec, if_pos ⟨by omega, by simpa using hc⟩]; simp
  have key : ∀ (cs : List Nat) (n : Nat), (∀ c ∈ cs, Scalar c) →
      (cs.flatMap (fun c : Nat => cpToUtf8 c)).length < n →
      transformUtf8 n (cs.flatMap (fun c : Nat => cpToUtf8 c)) = some (cs.map some) := by
    intro cs
    induction cs with
    | nil =>
      intro n _ hn
      cases n with
      | zero => omega
      | succ n => simp [transformUtf8]
    | cons c cs ih =>
      intro n hs hn
      cases n with
      | zero => omega
      | succ n =>
        have hc := hs c (by simp)
        rw [List.flatMap_cons] at hn ⊢
        rw [enc c hc] at hn ⊢
        have hpos : 0 < (spec8 c).length := List.length_pos_iff.mpr (spec8_ne_nil c)
        unfold transformUtf8
        rw [List.length_append, if_neg (by omega), utf8ToUnicode_spec8 hc]
        dsimp only
        rw [if_neg (by omega), List.drop_left, ih n (fun x hx => hs x (by simp [hx]))
          (by rw [List.length_append] at hn; omega)]
        rfl
  exact key cs _ h (by omega)

/-- **C49** is false in general: a pattern whose text ends in the middle of a
UTF-8 sequence is read past its end. -/
theorem patternText_overruns : patternText [0x61, 0xC3] = none := by decide

/-- `utf8_to_unicode` stays inside a buffer that ends with an ASCII byte. -/
theorem utf8ToUnicode_ascii_end (buf : List Nat) (hne : buf ≠ []) (hb : Bytes buf)
    (hl : ∀ b, buf[buf.length - 1]? = some b → b < 0x80) :
    ∃ cp used, utf8ToUnicode buf = .ret cp used ∧ 0 < used ∧ used ≤ buf.length := by
  cases buf with
  | nil => exact absurd rfl hne
  | cons a tl =>
    have ha : a < 256 := hb a (by simp)
    have ea : a % 256 = a := by omega
    -- a byte that is a continuation byte is not the last one
    have notlast : ∀ i b, (a :: tl)[i]? = some b → 0x80 ≤ b → i + 1 < (a :: tl).length := by
      intro i b hi hb'
      have h1 : i < (a :: tl).length := (List.getElem?_eq_some_iff.mp hi).1
      rcases Nat.lt_or_ge (i + 1) (a :: tl).length with h | h
      · exact h
      · have : i = (a :: tl).length - 1 := by omega
        rw [this] at hi
        have := hl b hi
        omega
    have byte : ∀ i b, (a :: tl)[i]? = some b → b < 256 := fun i b h =>
      hb b (List.mem_of_getElem? h)
    -- the continuation either fails within the buffer or goes on
    have stepc : ∀ i cp k, i < (a :: tl).length → 
        (contU (a :: tl) i cp (i + 1) k = .ret none (i + 1)) ∨
        (i + 1 < (a :: tl).length ∧ ∃ v, contU (a :: tl) i cp (i + 1) k = k v) := by
      intro i cp k hi
      rcases contU_cases (buf := a :: tl) (i := i) (cp := cp) (used := i + 1) (k := k) (by omega) with
        ⟨h, _⟩ | ⟨b, h1, h2, _, h4⟩
      · exact .inl h
      · have := byte i b h1
        exact .inr ⟨notlast i b h1 (by omega), _, h4⟩
    unfold utf8ToUnicode
    rw [if_neg (by simp)]
    simp only [List.getElem?_cons_zero, andFF, ea]
    by_cases h1 : a < 0x80
    · exact ⟨some a, 1, by rw [if_pos h1], by omega, by simp⟩
    rw [if_neg h1]
    have l0 : 0 + 1 < (a :: tl).length := notlast 0 a rfl (by omega)
    by_cases h2 : a < 0xE0
    · rw [if_pos h2]
      by_cases h3 : a < 0xC2
      · exact ⟨none, 1, by rw [if_pos h3], by omega, by omega⟩
      rw [if_neg h3]
      rcases stepc 1 (a &&& 0x1F) (fun cp => .ret (some cp) 2) (by omega) with h | ⟨hl, v, h⟩
      · exact ⟨_, _, h, by omega, by omega⟩
      · exact ⟨_, _, h, by omega, by omega⟩
    rw [if_neg h2]
    by_cases h3 : a < 0xF0
    · rw [if_pos h3]
      rcases stepc 1 (a &&& 0x0F) _ (by omega) with h | ⟨hl, v, h⟩
      · exact ⟨_, _, h, by omega, by omega⟩
      · rw [h]
        rcases stepc 2 v (fun cp => if cp < 0x800 ∨ (0xD7FF < cp ∧ cp < 0xE000) then .ret none 3
            else .ret (some cp) 3) (by omega) with h | ⟨hl, v, h⟩
        · exact ⟨_, _, h, by omega, by omega⟩
        · rw [h]; split <;> exact ⟨_, _, rfl, by omega, by omega⟩
    rw [if_neg h3]
    by_cases h4 : a < 0xF5
    · rw [if_pos h4]
      rcases stepc 1 (a &&& 0x07) _ (by omega) with h | ⟨hl, v, h⟩
      · exact ⟨_, _, h, by omega, by omega⟩
      · rw [h]
        rcases stepc 2 v _ (by omega) with h | ⟨hl, v, h⟩
        · exact ⟨_, _, h, by omega, by omega⟩
        · rw [h]
          rcases stepc 3 v (fun cp => if cp < 0x10000 ∨ cp > 0x10FFFF then .ret none 4
            else .ret (some cp) 4) (by omega) with h | ⟨hl, v, h⟩
          · exact ⟨_, _, h, by omega, by omega⟩
          · rw [h]; split <;> exact ⟨_, _, rfl, by omega, by omega⟩
    · rw [if_neg h4]; exact ⟨_, _, rfl, by omega, by omega⟩

/-- **C49** (partial).  Decoding pattern text stays inside the text whenever the
text ends with an ASCII byte, however malformed the rest is.  Missing: texts
ending in the middle of a sequence, where the code overruns
(`patternText_overruns`). -/
theorem patternText_inside_partial (text : List Nat) (hb : Bytes text)
    (hl : ∀ b, text[text.length - 1]? = some b → b < 0x80) :
    ∃ cps, patternText text = some cps := by
  have key : ∀ n (t : List Nat), t.length < n → Bytes t →
      (∀ b, t[t.length - 1]? = some b → b < 0x80) → ∃ cps, transformUtf8 n t = some cps := by
    intro n
    induction n with
    | zero => intro t h; omega
    | succ n ih =>
      intro t hn hb hl
      unfold transformUtf8
      by_cases h0 : t.length = 0
      · exact ⟨[], if_pos h0⟩
      rw [if_neg h0]
      obtain ⟨cp, used, h1, h2, h3⟩ := utf8ToUnicode_ascii_end t
        (fun h => h0 (by rw [h]; rfl)) hb hl
      rw [h1]
      dsimp only
      rw [if_neg (by omega)]
      obtain ⟨cps, hc⟩ := ih (t.drop used) (by rw [List.length_drop]; omega)
        (fun b hb' => hb b (List.mem_of_mem_drop hb')) (by
          intro b hb'
          rw [List.getElem?_drop, List.length_drop] at hb'
          by_cases h4 : used = t.length
          · rw [List.getElem?_eq_none (by omega)] at hb'; simp at hb'
          · have : used + (t.length - used - 1) = t.length - 1 := by omega
            rw [this] at hb'
            exact hl b hb')
      exact ⟨cp :: cps, by rw [hc]; rfl⟩
  exact key _ text (by omega) hb hl

example : patternText [0xC3, 0x61, 0xFF, 0x62] = some [none, none, some 0x62] := by decide

end Verif.Utf
