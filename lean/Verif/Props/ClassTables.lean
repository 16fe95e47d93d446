import Verif.Props.Classes
/-! # C32, C56: the prepared tables, the cache and ASCII -/
namespace Verif.Encoders
open Verif.Nfa Verif.NfaBuilder Verif.Utf

/-! ## The prepared sequences for any code point, and the cache -/

theorem ofPairs_one {a b : Nat} (h : a ≤ b) (hb : b ≤ 256) (x : UInt8) :
    (ofPairs [(a, b)]).has x = true ↔ a ≤ x.toNat ∧ x.toNat < b := by
  obtain ⟨t, ht, hx⟩ := setRange_has (s := 0) h hb
  simp only [ofPairs, List.foldl_cons, List.foldl_nil, ht, Option.getD_some]
  rw [hx, has_zero]; simp

theorem ofPairs_two {a b c d : Nat} (h : a ≤ b) (hb : b ≤ 256) (h' : c ≤ d) (hd : d ≤ 256) (x : UInt8) :
    (ofPairs [(a, b), (c, d)]).has x = true ↔ (a ≤ x.toNat ∧ x.toNat < b) ∨ c ≤ x.toNat ∧ x.toNat < d := by
  obtain ⟨t, ht, hx⟩ := setRange_has (s := 0) h hb
  obtain ⟨t', ht', hx'⟩ := setRange_has (s := t) h' hd
  simp only [ofPairs, List.foldl_cons, List.foldl_nil, ht, ht', Option.getD_some]
  rw [hx', hx, has_zero]; simp

theorem single_iff {b : Nat} (hb : b < 256) (x : UInt8) : (setByte 0 b).has x = true ↔ x.toNat = b := by
  rw [has_setByte hb, has_zero]; simp

theorem fits1 {a : BSet} {w : List UInt8} : Fits [a] w ↔ ∃ x, a.has x = true ∧ w = [x] := by
  rw [fits_cons]; simp only [fits_nil]
  constructor
  · rintro ⟨b, v, h, rfl, rfl⟩; exact ⟨b, h, rfl⟩
  · rintro ⟨b, h, rfl⟩; exact ⟨b, [], h, rfl, rfl⟩

theorem fits_step {a : BSet} {e : Enc} {n : List UInt8 → Prop} (h : ∀ w, Fits e w ↔ n w) {w : List UInt8} :
    Fits (a :: e) w ↔ ∃ x v, a.has x = true ∧ n v ∧ w = x :: v := by
  rw [fits_cons]; simp only [h]

theorem fits2 {a b : BSet} {w : List UInt8} : Fits [a, b] w ↔ ∃ x y, a.has x = true ∧ b.has y = true ∧ w = [x, y] := by
  rw [fits_cons]; simp only [fits1]
  constructor
  · rintro ⟨x, _, h, ⟨y, h', rfl⟩, rfl⟩; exact ⟨x, y, h, h', rfl⟩
  · rintro ⟨x, y, h, h', rfl⟩; exact ⟨x, _, h, ⟨y, h', rfl⟩, rfl⟩

theorem fits3 {a b c : BSet} {w : List UInt8} :
    Fits [a, b, c] w ↔ ∃ x y z, a.has x = true ∧ b.has y = true ∧ c.has z = true ∧ w = [x, y, z] := by
  rw [fits_cons]; simp only [fits2]
  constructor
  · rintro ⟨x, _, h, ⟨y, z, h', h'', rfl⟩, rfl⟩; exact ⟨x, y, z, h, h', h'', rfl⟩
  · rintro ⟨x, y, z, h, h', h'', rfl⟩; exact ⟨x, _, h, ⟨y, z, h', h'', rfl⟩, rfl⟩

theorem fits4 {a b c d : BSet} {w : List UInt8} :
    Fits [a, b, c, d] w ↔ ∃ x y z u, a.has x = true ∧ b.has y = true ∧ c.has z = true ∧ d.has u = true ∧ w = [x, y, z, u] := by
  rw [fits_cons]; simp only [fits3]
  constructor
  · rintro ⟨x, _, h, ⟨y, z, u, h', h'', h3, rfl⟩, rfl⟩; exact ⟨x, y, z, u, h, h', h'', h3, rfl⟩
  · rintro ⟨x, y, z, u, h, h', h'', h3, rfl⟩; exact ⟨x, _, h, ⟨y, z, u, h', h'', h3, rfl⟩, rfl⟩

theorem denotes_cons {e : Enc} {es : List Enc} {w : List UInt8} : Denotes (e :: es) w ↔ Fits e w ∨ Denotes es w := by
  simp [Denotes]

theorem denotes_nil {w : List UInt8} : Denotes [] w ↔ False := by simp [Denotes]

theorem toBytes_toNat (w : List UInt8) : toBytes (w.map UInt8.toNat) = w := by
  induction w with
  | nil => rfl
  | cons b w ih => simp only [toBytes, List.map_cons, UInt8.ofNat_toNat] at ih ⊢; rw [ih]

/-- Byte lists are read back from their numbers. -/
theorem toBytes_inj {l : List Nat} (h : Bytes l) : (toBytes l).map UInt8.toNat = l := by
  induction l with
  | nil => rfl
  | cons b l ih =>
    rw [bytes_cons] at h
    simp only [toBytes, List.map_cons] at ih ⊢
    rw [ih h.2, ofNat_toNat h.1]

theorem eq_toBytes {l : List Nat} (h : Bytes l) {w : List UInt8} : w = toBytes l ↔ w.map UInt8.toNat = l := by
  constructor
  · rintro rfl; exact toBytes_inj h
  · rintro rfl; exact (toBytes_toNat w).symm

/-- A byte from a number. -/
theorem byte_of {n : Nat} (h : n < 256) : ∃ x : UInt8, x.toNat = n := ⟨UInt8.ofNat n, ofNat_toNat h⟩

theorem wf8_bytes {l : List Nat} (h : WellFormed8 l) : Bytes l := by
  cases h <;> simp only [bytes_cons, bytes_nil, and_true] <;> omega

theorem any8 (w : List UInt8) : Denotes (Utf.anyEntry .utf8) w ↔ WellFormed8 (w.map UInt8.toNat) := by
  simp only [Utf.anyEntry, denotes_cons, denotes_nil, or_false, fits1, fits2, fits3, fits4]
  have p := fun {a b : Nat} (h : a ≤ b) (hb : b ≤ 256) (x : UInt8) => ofPairs_one h hb x
  rw [show (∃ x, (ofPairs [(0x00, 0x80)]).has x = true ∧ w = [x]) ↔ ∃ x : UInt8, x.toNat ≤ 0x7F ∧ w = [x] by
    simp only [ofPairs_one (show 0 ≤ 0x80 by omega) (show 0x80 ≤ 256 by omega)]
    constructor <;> rintro ⟨x, h, rfl⟩ <;> exact ⟨x, by omega, rfl⟩]
  simp only [p (show 0xC2 ≤ 0xE0 by omega) (by omega), p (show 0x80 ≤ 0xC0 by omega) (by omega),
    p (show 0xA0 ≤ 0xC0 by omega) (by omega), p (show 0x80 ≤ 0xA0 by omega) (by omega),
    p (show 0x90 ≤ 0xC0 by omega) (by omega), p (show 0x80 ≤ 0x90 by omega) (by omega),
    p (show 0xF1 ≤ 0xF4 by omega) (by omega),
    ofPairs_two (show 0xE1 ≤ 0xED by omega) (by omega) (show 0xEE ≤ 0xF0 by omega) (by omega),
    single_iff (show 0xE0 < 256 by omega), single_iff (show 0xED < 256 by omega),
    single_iff (show 0xF0 < 256 by omega), single_iff (show 0xF4 < 256 by omega)]
  constructor
  · rintro (⟨x, h, rfl⟩ | ⟨x, y, h, h', rfl⟩ | ⟨x, y, z, h, h', h'', rfl⟩ | ⟨x, y, z, h, h', h'', rfl⟩ |
      ⟨x, y, z, h, h', h'', rfl⟩ | ⟨x, y, z, u, h, h1, h2, h3, rfl⟩ | ⟨x, y, z, u, h, h1, h2, h3, rfl⟩ |
      ⟨x, y, z, u, h, h1, h2, h3, rfl⟩)
    · exact .one h
    · exact .two (by omega) (by omega) (by omega) (by omega)
    · simp only [List.map_cons, List.map_nil, h]; exact .e0 (by omega) (by omega) (by omega) (by omega)
    · simp only [List.map_cons, List.map_nil, h]; exact .ed (by omega) (by omega) (by omega) (by omega)
    · rcases h with h | h
      · exact .e1ec (by omega) (by omega) (by omega) (by omega) (by omega) (by omega)
      · exact .eeef (by omega) (by omega) (by omega) (by omega) (by omega) (by omega)
    · simp only [List.map_cons, List.map_nil, h]; exact .f0 (by omega) (by omega) (by omega) (by omega) (by omega) (by omega)
    · simp only [List.map_cons, List.map_nil, h]; exact .f4 (by omega) (by omega) (by omega) (by omega) (by omega) (by omega)
    · exact .f1f3 (by omega) (by omega) (by omega) (by omega) (by omega) (by omega) (by omega) (by omega)
  · intro h
    have hw := (toBytes_toNat w).symm
    generalize hl : w.map UInt8.toNat = l at h hw
    subst hw
    clear hl
    have e := fun {n : Nat} (h : n < 256) => ofNat_toNat h
    cases h with
    | one h => exact .inl ⟨_, by rw [e (by omega)]; exact h, rfl⟩
    | two h1 h2 h3 h4 =>
      exact .inr (.inl ⟨_, _, by rw [e (by omega)]; omega, by rw [e (by omega)]; omega, rfl⟩)
    | e0 h1 h2 h3 h4 =>
      exact .inr (.inr (.inl ⟨_, _, _, by rw [e (by omega)], by rw [e (by omega)]; omega, by rw [e (by omega)]; omega, rfl⟩))
    | ed h1 h2 h3 h4 =>
      exact .inr (.inr (.inr (.inl ⟨_, _, _, by rw [e (by omega)], by rw [e (by omega)]; omega, by rw [e (by omega)]; omega, rfl⟩)))
    | e1ec h1 h2 h3 h4 h5 h6 =>
      exact .inr (.inr (.inr (.inr (.inl ⟨_, _, _, by rw [e (by omega)]; omega, by rw [e (by omega)]; omega, by rw [e (by omega)]; omega, rfl⟩))))
    | eeef h1 h2 h3 h4 h5 h6 =>
      exact .inr (.inr (.inr (.inr (.inl ⟨_, _, _, by rw [e (by omega)]; omega, by rw [e (by omega)]; omega, by rw [e (by omega)]; omega, rfl⟩))))
    | f0 h1 h2 h3 h4 h5 h6 =>
      exact .inr (.inr (.inr (.inr (.inr (.inl ⟨_, _, _, _, by rw [e (by omega)], by rw [e (by omega)]; omega,
        by rw [e (by omega)]; omega, by rw [e (by omega)]; omega, rfl⟩)))))
    | f4 h1 h2 h3 h4 h5 h6 =>
      exact .inr (.inr (.inr (.inr (.inr (.inr (.inl ⟨_, _, _, _, by rw [e (by omega)], by rw [e (by omega)]; omega,
        by rw [e (by omega)]; omega, by rw [e (by omega)]; omega, rfl⟩))))))
    | f1f3 h1 h2 h3 h4 h5 h6 h7 h8 =>
      exact .inr (.inr (.inr (.inr (.inr (.inr (.inr ⟨_, _, _, _, by rw [e (by omega)]; omega, by rw [e (by omega)]; omega,
        by rw [e (by omega)]; omega, by rw [e (by omega)]; omega, rfl⟩))))))

theorem spec32_eq (le : Bool) (c : Nat) : spec32 le c =
    if le then [c % 256, c / 256 % 256, c / 65536 % 256, c / 16777216]
    else [c / 16777216, c / 65536 % 256, c / 256 % 256, c % 256] := by cases le <;> rfl

theorem spec_bytes (u : Utf) {c : Nat} (h : Scalar c) : Bytes (u.spec c) := by
  have h' := h
  unfold Scalar at h'
  cases u with
  | utf8 => exact wf8_bytes (spec8_wf h)
  | utf16 le =>
    show Bytes (spec16 le c)
    unfold spec16
    split <;> simp only [unit16_eq] <;> cases le <;>
      simp only [if_true, if_false, Bool.false_eq_true, List.cons_append, List.nil_append, bytes_cons, bytes_nil, and_true] <;> omega
  | utf32 le =>
    show Bytes (spec32 le c)
    rw [spec32_eq]
    cases le <;> simp only [if_true, if_false, Bool.false_eq_true, bytes_cons, bytes_nil, and_true] <;> omega

theorem any16 (le : Bool) (w : List UInt8) :
    Denotes (Utf.anyEntry (.utf16 le)) w ↔ ∃ c, Scalar c ∧ w.map UInt8.toNat = spec16 le c := by
  have lt := fun x : UInt8 => x.toNat_lt
  have e := fun {n : Nat} (h : n < 256) => ofNat_toNat h
  cases le with
  | true =>
    simp only [Utf.anyEntry, denotes_cons, denotes_nil, or_false, fits2, fits4,
      ofPairs_one (show 0 ≤ 0x100 by omega) (show 0x100 ≤ 256 by omega), ofPairs_one (show 0xD8 ≤ 0xDC by omega) (show 0xDC ≤ 256 by omega),
      ofPairs_one (show 0xDC ≤ 0xE0 by omega) (show 0xE0 ≤ 256 by omega),
      ofPairs_two (show 0 ≤ 0xD8 by omega) (show 0xD8 ≤ 256 by omega) (show 0xE0 ≤ 0x100 by omega) (show 0x100 ≤ 256 by omega)]
    constructor
    · rintro (⟨x, y, h, h', rfl⟩ | ⟨x, y, z, u, h, h1, h2, h3, rfl⟩)
      · have := lt x; have := lt y
        refine ⟨x.toNat + 256 * y.toNat, by unfold Scalar; omega, ?_⟩
        unfold spec16
        rw [if_pos (by omega), unit16_eq, if_pos rfl]
        simp only [List.map_cons, List.map_nil]
        congr 1
        · omega
        · congr 1; omega
      · have := lt x; have := lt y; have := lt z; have := lt u
        refine ⟨0x10000 + (x.toNat + 256 * (y.toNat - 0xD8)) * 1024 + (z.toNat + 256 * (u.toNat - 0xDC)), by unfold Scalar; omega, ?_⟩
        unfold spec16
        rw [if_neg (by omega), unit16_eq, unit16_eq, if_pos rfl, if_pos rfl]
        simp only [List.map_cons, List.map_nil, List.cons_append, List.nil_append, List.cons.injEq, and_true]
        refine ⟨?_, ?_, ?_, ?_⟩ <;> omega
    · rintro ⟨c, hc, h⟩
      have hw := (eq_toBytes (spec_bytes (.utf16 true) hc)).2 h
      change w = toBytes (spec16 true c) at hw
      unfold Scalar at hc
      unfold spec16 at hw
      by_cases h1 : c < 0x10000
      · rw [if_pos h1, unit16_eq, if_pos rfl] at hw
        exact .inl ⟨_, _, by rw [e (by omega)]; omega, by rw [e (by omega)]; omega, hw⟩
      · rw [if_neg h1, unit16_eq, unit16_eq, if_pos rfl, if_pos rfl] at hw
        exact .inr ⟨_, _, _, _, by rw [e (by omega)]; omega, by rw [e (by omega)]; omega, by rw [e (by omega)]; omega,
          by rw [e (by omega)]; omega, hw⟩
  | false =>
    simp only [Utf.anyEntry, denotes_cons, denotes_nil, or_false, fits2, fits4,
      ofPairs_one (show 0 ≤ 0x100 by omega) (show 0x100 ≤ 256 by omega), ofPairs_one (show 0xD8 ≤ 0xDC by omega) (show 0xDC ≤ 256 by omega),
      ofPairs_one (show 0xDC ≤ 0xE0 by omega) (show 0xE0 ≤ 256 by omega),
      ofPairs_two (show 0 ≤ 0xD8 by omega) (show 0xD8 ≤ 256 by omega) (show 0xE0 ≤ 0x100 by omega) (show 0x100 ≤ 256 by omega)]
    constructor
    · rintro (⟨y, x, h, h', rfl⟩ | ⟨y, x, u, z, h, h1, h2, h3, rfl⟩)
      · have := lt x; have := lt y
        refine ⟨x.toNat + 256 * y.toNat, by unfold Scalar; omega, ?_⟩
        unfold spec16
        rw [if_pos (by omega), unit16_eq, if_neg (by simp)]
        simp only [List.map_cons, List.map_nil]
        congr 1
        · omega
        · congr 1; omega
      · have := lt x; have := lt y; have := lt z; have := lt u
        refine ⟨0x10000 + (x.toNat + 256 * (y.toNat - 0xD8)) * 1024 + (z.toNat + 256 * (u.toNat - 0xDC)), by unfold Scalar; omega, ?_⟩
        unfold spec16
        rw [if_neg (by omega), unit16_eq, unit16_eq, if_neg (by simp), if_neg (by simp)]
        simp only [List.map_cons, List.map_nil, List.cons_append, List.nil_append, List.cons.injEq, and_true]
        refine ⟨?_, ?_, ?_, ?_⟩ <;> omega
    · rintro ⟨c, hc, h⟩
      have hw := (eq_toBytes (spec_bytes (.utf16 false) hc)).2 h
      change w = toBytes (spec16 false c) at hw
      unfold Scalar at hc
      unfold spec16 at hw
      by_cases h1 : c < 0x10000
      · rw [if_pos h1, unit16_eq, if_neg (by simp)] at hw
        exact .inl ⟨_, _, by rw [e (by omega)]; omega, by rw [e (by omega)]; omega, hw⟩
      · rw [if_neg h1, unit16_eq, unit16_eq, if_neg (by simp), if_neg (by simp)] at hw
        exact .inr ⟨_, _, _, _, by rw [e (by omega)]; omega, by rw [e (by omega)]; omega, by rw [e (by omega)]; omega,
          by rw [e (by omega)]; omega, hw⟩

theorem any32 (le : Bool) (w : List UInt8) :
    Denotes (Utf.anyEntry (.utf32 le)) w ↔ ∃ c, Scalar c ∧ w.map UInt8.toNat = spec32 le c := by
  have lt := fun x : UInt8 => x.toNat_lt
  have e := fun {n : Nat} (h : n < 256) => ofNat_toNat h
  cases le with
  | true =>
    simp only [Utf.anyEntry, denotes_cons, denotes_nil, or_false, fits4, single_iff (show 0 < 256 by omega),
      ofPairs_one (show 0 ≤ 0x100 by omega) (show 0x100 ≤ 256 by omega), ofPairs_one (show 0xD8 ≤ 0xE0 by omega) (show 0xE0 ≤ 256 by omega),
      ofPairs_one (show 1 ≤ 0x11 by omega) (show 0x11 ≤ 256 by omega), ofPairs_one (show 0 ≤ 0x11 by omega) (show 0x11 ≤ 256 by omega),
      ofPairs_two (show 0 ≤ 0xD8 by omega) (show 0xD8 ≤ 256 by omega) (show 0xE0 ≤ 0x100 by omega) (show 0x100 ≤ 256 by omega)]
    constructor
    · rintro (⟨x, y, z, u, h, h1, h2, h3, rfl⟩ | ⟨x, y, z, u, h, h1, h2, h3, rfl⟩) <;>
      · have := lt x; have := lt y; have := lt z; have := lt u
        refine ⟨x.toNat + 256 * y.toNat + 65536 * z.toNat, by unfold Scalar; omega, ?_⟩
        rw [spec32_eq]
        rw [if_pos rfl]
        simp only [List.map_cons, List.map_nil, List.cons.injEq, and_true]
        refine ⟨?_, ?_, ?_, ?_⟩ <;> omega
    · rintro ⟨c, hc, h⟩
      have hw := (eq_toBytes (spec_bytes (.utf32 true) hc)).2 h
      change w = toBytes (spec32 true c) at hw
      unfold Scalar at hc
      rw [spec32_eq] at hw
      rw [if_pos rfl] at hw
      by_cases h1 : 0xD8 ≤ c / 256 % 256 ∧ c / 256 % 256 < 0xE0
      · exact .inl ⟨_, _, _, _, by rw [e (by omega)]; omega, by rw [e (by omega)]; omega, by rw [e (by omega)]; omega,
          by rw [e (by omega)]; omega, hw⟩
      · exact .inr ⟨_, _, _, _, by rw [e (by omega)]; omega, by rw [e (by omega)]; omega, by rw [e (by omega)]; omega,
          by rw [e (by omega)]; omega, hw⟩
  | false =>
    simp only [Utf.anyEntry, denotes_cons, denotes_nil, or_false, fits4, single_iff (show 0 < 256 by omega),
      ofPairs_one (show 0 ≤ 0x100 by omega) (show 0x100 ≤ 256 by omega),
      ofPairs_one (show 1 ≤ 0x11 by omega) (show 0x11 ≤ 256 by omega),
      ofPairs_two (show 0 ≤ 0xD8 by omega) (show 0xD8 ≤ 256 by omega) (show 0xE0 ≤ 0x100 by omega) (show 0x100 ≤ 256 by omega)]
    constructor
    · rintro (⟨u, z, y, x, h, h1, h2, h3, rfl⟩ | ⟨u, z, y, x, h, h1, h2, h3, rfl⟩) <;>
      · have := lt x; have := lt y; have := lt z; have := lt u
        refine ⟨x.toNat + 256 * y.toNat + 65536 * z.toNat, by unfold Scalar; omega, ?_⟩
        rw [spec32_eq]
        rw [if_neg (by simp)]
        simp only [List.map_cons, List.map_nil, List.cons.injEq, and_true]
        refine ⟨?_, ?_, ?_, ?_⟩ <;> omega
    · rintro ⟨c, hc, h⟩
      have hw := (eq_toBytes (spec_bytes (.utf32 false) hc)).2 h
      change w = toBytes (spec32 false c) at hw
      unfold Scalar at hc
      rw [spec32_eq] at hw
      rw [if_neg (by simp)] at hw
      by_cases h1 : c < 0x10000
      · exact .inl ⟨_, _, _, _, by rw [e (by omega)]; omega, by rw [e (by omega)]; omega, by rw [e (by omega)]; omega,
          by rw [e (by omega)]; omega, hw⟩
      · exact .inr ⟨_, _, _, _, by rw [e (by omega)]; omega, by rw [e (by omega)]; omega, by rw [e (by omega)]; omega,
          by rw [e (by omega)]; omega, hw⟩

end Verif.Encoders
