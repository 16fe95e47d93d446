import Verif.Props.Encoders
/-! # C32: character classes in the Unicode encodings -/
namespace Verif.Encoders
open Verif.Nfa Verif.NfaBuilder Verif.Utf

/-- The encoding forms of the Unicode standard. -/
def Utf.spec : Utf → Nat → List Nat
  | .utf8, c => spec8 c
  | .utf16 le, c => spec16 le c
  | .utf32 le, c => spec32 le c

theorem Utf.write_spec (u : Utf) {c : Nat} (h : Scalar c) : u.write c = u.spec c := by
  cases u with
  | utf8 => show cpToUtf8 (c : Int) = spec8 c; rw [cpToUtf8_spec, if_pos ⟨by omega, by simpa using h⟩]; simp
  | utf16 le => show cpToUtf16 le (c : Int) = spec16 le c; rw [cpToUtf16_spec, if_pos ⟨by omega, by simpa using h⟩]; simp
  | utf32 le => show cpToUtf32 le (c : Int) = spec32 le c; rw [cpToUtf32_spec, if_pos ⟨by omega, by simpa using h⟩]; simp

/-- One byte of the encoding counts through a block of code points, the others stay. -/
theorem block_fits {W : Nat → List Nat} {p q : List Nat} {f : Nat → Nat} {l m : Nat} {T : BSet}
    (hp : Bytes p) (hq : Bytes q) (hW : ∀ c, l ≤ c → c < m → W c = p ++ f c :: q) (hf : ∀ c, l ≤ c → c < m → f c < 256)
    (hT : ∀ x : UInt8, T.has x = true ↔ ∃ c, l ≤ c ∧ c < m ∧ x.toNat = f c) (w : List UInt8) :
    Fits (exactly p ++ T :: exactly q) w ↔ ∃ c, l ≤ c ∧ c < m ∧ w = toBytes (W c) := by
  rw [fits_mid]
  constructor
  · rintro ⟨u, b, v, hu, hb, hv, rfl⟩
    obtain ⟨c, h1, h2, h3⟩ := (hT b).1 hb
    refine ⟨c, h1, h2, ?_⟩
    rw [hW c h1 h2, (fits_exactly hp).1 hu, (fits_exactly hq).1 hv]
    have : UInt8.ofNat (f c) = b := by rw [← h3]; simp
    simp [toBytes, this]
  · rintro ⟨c, h1, h2, rfl⟩
    rw [hW c h1 h2]
    refine ⟨toBytes p, UInt8.ofNat (f c), toBytes q, (fits_exactly hp).2 rfl, ?_, (fits_exactly hq).2 rfl, by simp [toBytes]⟩
    exact (hT _).2 ⟨c, h1, h2, ofNat_toNat (hf c h1 h2)⟩

/-- Setting the rest of a block at one position. -/
theorem update_block {p q : List Nat} {base k m l a b : Nat} {i : Nat} (hi : i = p.length)
    (ha : a = base + (l + 1) - k) (hb : b = base + m - k) (hkl : k ≤ l) (hlm : l < m) (hm : base + m - k ≤ 256) :
    ∃ T, updateAt (exactly (p ++ (base + l - k) :: q)) i (fun s => setRange s a b) = some (exactly p ++ T :: exactly q) ∧
      ∀ x : UInt8, T.has x = true ↔ ∃ c, l ≤ c ∧ c < m ∧ x.toNat = base + c - k := by
  have hlen : (exactly p).length = p.length := by simp [exactly]
  have hg : (exactly (p ++ (base + l - k) :: q))[i]? = some (setByte 0 (base + l - k)) := by
    rw [hi, exactly_append, List.getElem?_append_right (by omega), hlen, Nat.sub_self]
    rfl
  obtain ⟨T, hT, hx⟩ := setRange_has (s := setByte 0 (base + l - k)) (a := a) (b := b) (by omega) (by omega)
  refine ⟨T, ?_, fun x => ?_⟩
  · unfold updateAt
    rw [hg]
    simp only [hT, Option.map_some]
    rw [exactly_append, hi, List.set_append_right _ _ (by omega), hlen, Nat.sub_self]
    rfl
  · rw [hx x, Bool.or_eq_true, has_setByte (by omega), has_zero, Bool.false_or, decide_eq_true_eq, decide_eq_true_eq]
    constructor
    · rintro (h | h)
      · exact ⟨l, by omega, hlm, h⟩
      · exact ⟨x.toNat - base + k, by omega, by omega, by omega⟩
    · rintro ⟨c, h1, h2, h3⟩
      by_cases hc : c = l
      · left; omega
      · right; omega

/-- What is needed of a block: its sequence accepts the encodings of the code points from
the old to the new `l`. -/
def BlockOk (u : Utf) (len lo blimit : Nat) : Prop :=
  ∀ l h, lo ≤ l → l < min h blimit → (u.write l).length = len ∧
    ∃ v l', u.block (exactly (u.write l)) (l + 1) h len blimit = some (v, l') ∧ l < l' ∧ l' ≤ min h blimit ∧
      v.length = len ∧ (∀ s ∈ v, s ≠ 0) ∧ ∀ w, Fits v w ↔ ∃ c, l ≤ c ∧ c < l' ∧ w = toBytes (u.spec c)

theorem seq_ne_zero {p q : List Nat} {T : BSet} (hp : Bytes p) (hq : Bytes q) (hT : ∃ x, T.has x = true) :
    ∀ s ∈ exactly p ++ T :: exactly q, s ≠ 0 := by
  intro s hs
  rcases List.mem_append.1 hs with hs | hs
  · exact exactly_ne_zero hp s hs
  · rcases List.mem_cons.1 hs with rfl | hs
    · obtain ⟨x, hx⟩ := hT; exact ne_zero_of_has hx
    · exact exactly_ne_zero hq s hs

theorem has_T_nonempty {T : BSet} {f : Nat → Nat} {l m : Nat} (hlm : l < m) (hf : ∀ c, l ≤ c → c < m → f c < 256)
    (hT : ∀ x : UInt8, T.has x = true ↔ ∃ c, l ≤ c ∧ c < m ∧ x.toNat = f c) : ∃ x, T.has x = true :=
  ⟨UInt8.ofNat (f l), (hT _).2 ⟨l, Nat.le_refl _, hlm, ofNat_toNat (hf l (Nat.le_refl _) hlm)⟩⟩

/-- A single code point. -/
theorem one_fits {u : Utf} {l : Nat} (hb : Bytes (u.spec l)) (w : List UInt8) :
    Fits (exactly (u.spec l)) w ↔ ∃ c, l ≤ c ∧ c < l + 1 ∧ w = toBytes (u.spec c) := by
  rw [fits_exactly hb]
  constructor
  · rintro rfl; exact ⟨l, by omega, by omega, rfl⟩
  · rintro ⟨c, h1, h2, rfl⟩
    have : c = l := by omega
    rw [this]

/-- Blocks of `B` code points, at position `i`, with byte `base + c % B`. -/
theorem blockOk_of {u : Utf} {len lo blimit B base i : Nat} (hB : 0 < B) (hbase : base + B ≤ 256)
    (hsc : ∀ c, lo ≤ c → c < blimit → Scalar c)
    (hblock : ∀ v l h, u.block v l h len blimit =
      if l < min h blimit ∧ l % B > 0 then
        (updateAt v i fun s => setRange s (base + l % B)
          (base + (min (min h blimit) ((l / B + 1) * B) - 1) % B + 1)).map (·, min (min h blimit) ((l / B + 1) * B))
      else some (v, l))
    (hshape : ∀ l, lo ≤ l → l < blimit → ∃ p q, Bytes p ∧ Bytes q ∧ p.length = i ∧ p.length + q.length + 1 = len ∧
      ∀ c, lo ≤ c → c < blimit → c / B = l / B → u.spec c = p ++ (base + c % B) :: q) :
    BlockOk u len lo blimit := by
  intro l h hlo hl
  have hlb : l < blimit := by omega
  obtain ⟨p, q, hp, hq, hpi, hlen, hsp⟩ := hshape l hlo hlb
  have hsl := hsp l hlo hlb rfl
  have hmod : l % B < B := Nat.mod_lt _ hB
  have hby : Bytes (u.spec l) := by
    rw [hsl]
    intro b hb
    rcases List.mem_append.1 hb with hb | hb
    · exact hp b hb
    · rcases List.mem_cons.1 hb with rfl | hb
      · omega
      · exact hq b hb
  have hll : (u.spec l).length = len := by rw [hsl]; simp; omega
  rw [u.write_spec (hsc l hlo hlb)]
  refine ⟨hll, ?_⟩
  rw [hblock]
  have hdm := Nat.div_add_mod l B
  by_cases hc : l + 1 < min h blimit ∧ (l + 1) % B > 0
  · rw [if_pos hc]
    have hq1 : (l + 1) / B = l / B := by
      have h1 := Nat.div_add_mod (l + 1) B
      have h2 : l / B ≤ (l + 1) / B := Nat.div_le_div_right (by omega)
      rcases Nat.lt_or_ge (l / B) ((l + 1) / B) with h3 | h3
      · exfalso
        have h4 : B * (l / B + 1) ≤ B * ((l + 1) / B) := Nat.mul_le_mul_left _ h3
        rw [Nat.mul_add] at h4
        omega
      · omega
    have hmod1 : (l + 1) % B = l % B + 1 := by
      have h1 := Nat.div_add_mod (l + 1) B
      rw [hq1] at h1
      omega
    have hend : (l / B + 1) * B = B * (l / B) + B := by rw [Nat.mul_comm, Nat.mul_add]; omega
    rw [hq1, hend]
    generalize hm : min (min h blimit) (B * (l / B) + B) = m
    have hlm : l < m := by
      have : l < B * (l / B) + B := by omega
      omega
    have hk : B * (l / B) ≤ l := by omega
    have hdiv : ∀ c, l ≤ c → c < m → c / B = l / B ∧ c % B = c - B * (l / B) := by
      intro c h1 h2
      have e : c / B = l / B := by
        apply Nat.div_eq_of_lt_le
        · rw [Nat.mul_comm]; omega
        · rw [Nat.add_mul, Nat.mul_comm]; omega
      refine ⟨e, ?_⟩
      have := Nat.div_add_mod c B
      rw [e] at this
      omega
    have hm1 := hdiv (m - 1) (by omega) (by omega)
    obtain ⟨T, hT, hx⟩ := update_block (p := p) (q := q) (base := base) (k := B * (l / B)) (m := m) (l := l)
      (a := base + (l + 1) % B) (b := base + (m - 1) % B + 1) (i := i) hpi.symm (by omega)
      (by rw [hm1.2]; omega) hk hlm (by omega)
    have hsl' : u.spec l = p ++ (base + l - B * (l / B)) :: q := by
      rw [hsl]; congr 2; omega
    rw [hsl', hT]
    have hf : ∀ c, l ≤ c → c < m → base + c - B * (l / B) < 256 := by intro c h1 h2; omega
    refine ⟨_, m, rfl, hlm, by omega, by simp [exactly]; omega,
      seq_ne_zero hp hq (has_T_nonempty hlm hf hx), block_fits hp hq (fun c h1 h2 => ?_) hf hx⟩
    obtain ⟨e1, e2⟩ := hdiv c h1 h2
    rw [hsp c (by omega) (by omega) e1]
    congr 2; omega
  · rw [if_neg hc]
    exact ⟨_, l + 1, rfl, by omega, by omega, by simpa [exactly] using hll, exactly_ne_zero hby, one_fits hby⟩

theorem or80' (x : Nat) : x % 64 ||| 0x80 = 0x80 + x % 64 := by rw [Nat.or_comm]; exact or80 x

theorem bytes_cons {a : Nat} {l : List Nat} : Bytes (a :: l) ↔ a < 256 ∧ Bytes l := by simp [Bytes]

theorem bytes_nil : Bytes [] := by simp [Bytes]

/-- UTF-8, one byte. -/
theorem utf8_block1 : BlockOk .utf8 1 0 0x80 := by
  intro l h _ hl
  have hs : ∀ c, c < 0x80 → Utf.spec .utf8 c = [c] := by intro c hc; show spec8 c = _; unfold spec8; rw [if_pos hc]
  rw [Utf.write_spec _ (show Scalar l by unfold Scalar; omega), hs l (by omega)]
  refine ⟨rfl, ?_⟩
  obtain ⟨T, hT, hx⟩ := update_block (p := []) (q := []) (base := 0) (k := 0) (m := min h 0x80) (l := l)
    (a := l + 1) (b := min h 0x80) (i := 0) rfl (by omega) (by omega) (by omega) (by omega) (by omega)
  have hT : updateAt (exactly [l]) 0 (fun s => setRange s (l + 1) (min h 0x80)) = some [T] := by
    have e : ([] : List Nat) ++ (0 + l - 0) :: [] = [l] := by simp
    rw [e] at hT; exact hT
  have hx : ∀ x : UInt8, T.has x = true ↔ ∃ c, l ≤ c ∧ c < min h 0x80 ∧ x.toNat = c := by
    intro x; rw [hx x]; simp only [Nat.zero_add, Nat.sub_zero]
  have hf : ∀ c, l ≤ c → c < min h 0x80 → c < 256 := by intro c h1 h2; omega
  refine ⟨[T], min h 0x80, ?_, by omega, by omega, rfl, ?_, ?_⟩
  · simp only [Utf.block, if_true]
    rw [hT]; rfl
  · exact seq_ne_zero (p := []) (q := []) bytes_nil bytes_nil (has_T_nonempty (f := fun c => c) (by omega) hf hx)
  · exact block_fits (p := []) (q := []) (f := fun c => c) bytes_nil bytes_nil
      (fun c h1 h2 => hs c (by omega)) hf hx

theorem utf8_block {len : Nat} (hlen : len ≠ 1) (blimit : Nat) (v : Enc) (l h : Nat) :
    Utf.block .utf8 v l h len blimit =
      if l < min h blimit ∧ l % 64 > 0 then
        (updateAt v (len - 1) fun s => setRange s (0x80 + l % 64)
          (0x80 + (min (min h blimit) ((l / 64 + 1) * 64) - 1) % 64 + 1)).map (·, min (min h blimit) ((l / 64 + 1) * 64))
      else some (v, l) := by
  simp only [Utf.block, if_neg hlen, and3F, or80']

theorem utf8_block2 : BlockOk .utf8 2 0x80 0x800 :=
  blockOk_of (B := 64) (base := 0x80) (i := 1) (by omega) (by omega) (fun c _ _ => by unfold Scalar; omega)
    (utf8_block (by omega) _) fun l h1 h2 =>
    ⟨[0xC0 + l / 64], [], by rw [bytes_cons]; exact ⟨by omega, bytes_nil⟩, bytes_nil, rfl, rfl, fun c h3 h4 h5 => by
      show spec8 c = _
      unfold spec8
      rw [if_neg (by omega), if_pos (by omega), ← h5]; rfl⟩

theorem utf8_block3 {lo blimit : Nat} (hlo : 0x800 ≤ lo) (hb : blimit ≤ 0x10000) (hsc : ∀ c, lo ≤ c → c < blimit → Scalar c) :
    BlockOk .utf8 3 lo blimit :=
  blockOk_of (B := 64) (base := 0x80) (i := 2) (by omega) (by omega) hsc
    (utf8_block (by omega) _) fun l h1 h2 =>
    ⟨[0xE0 + l / 4096, 0x80 + l / 64 % 64], [], by rw [bytes_cons, bytes_cons]; exact ⟨by omega, by omega, bytes_nil⟩,
      bytes_nil, rfl, rfl, fun c h3 h4 h5 => by
      show spec8 c = _
      unfold spec8
      rw [if_neg (by omega), if_neg (by omega), if_pos (by omega), ← h5, show l / 4096 = c / 4096 by omega]; rfl⟩

theorem utf8_block4 : BlockOk .utf8 4 0x10000 0x110000 :=
  blockOk_of (B := 64) (base := 0x80) (i := 3) (by omega) (by omega) (fun c _ _ => by unfold Scalar; omega)
    (utf8_block (by omega) _) fun l h1 h2 =>
    ⟨[0xF0 + l / 262144, 0x80 + l / 4096 % 64, 0x80 + l / 64 % 64], [],
      by rw [bytes_cons, bytes_cons, bytes_cons]; exact ⟨by omega, by omega, by omega, bytes_nil⟩,
      bytes_nil, rfl, rfl, fun c h3 h4 h5 => by
      show spec8 c = _
      unfold spec8
      rw [if_neg (by omega), if_neg (by omega), if_neg (by omega), ← h5, show l / 4096 = c / 4096 by omega,
        show l / 262144 = c / 262144 by omega]; rfl⟩

theorem utf16_block (le : Bool) (len blimit : Nat) (v : Enc) (l h : Nat) :
    Utf.block (.utf16 le) v l h len blimit =
      if l < min h blimit ∧ l % 256 > 0 then
        (updateAt v (len - if le then 2 else 1) fun s => setRange s (0 + l % 256)
          (0 + (min (min h blimit) ((l / 256 + 1) * 256) - 1) % 256 + 1)).map (·, min (min h blimit) ((l / 256 + 1) * 256))
      else some (v, l) := by
  simp only [Utf.block, andFF, Nat.zero_add]

theorem utf16_block2 (le : Bool) {lo blimit : Nat} (hb : blimit ≤ 0x10000) (hsc : ∀ c, lo ≤ c → c < blimit → Scalar c) :
    BlockOk (.utf16 le) 2 lo blimit :=
  blockOk_of (B := 256) (base := 0) (i := 2 - if le then 2 else 1) (by omega) (by omega) hsc
    (utf16_block le 2 _) fun l h1 h2 => by
    have hu : ∀ c, c < 0x10000 → Utf.spec (.utf16 le) c = unit16 le c := by
      intro c hc; show spec16 le c = _; unfold spec16; rw [if_pos hc]
    cases le with
    | true =>
      exact ⟨[], [l / 256], bytes_nil, by rw [bytes_cons]; exact ⟨by omega, bytes_nil⟩, rfl, rfl, fun c h3 h4 h5 => by
        rw [hu c (by omega), ← h5, Nat.zero_add]; rfl⟩
    | false =>
      exact ⟨[l / 256], [], by rw [bytes_cons]; exact ⟨by omega, bytes_nil⟩, bytes_nil, rfl, rfl, fun c h3 h4 h5 => by
        rw [hu c (by omega), ← h5, Nat.zero_add]; rfl⟩

theorem unit16_eq (le : Bool) (x : Nat) : unit16 le x = if le then [x % 256, x / 256] else [x / 256, x % 256] := rfl

theorem utf16_block4 (le : Bool) : BlockOk (.utf16 le) 4 0x10000 0x110000 :=
  blockOk_of (B := 256) (base := 0) (i := 4 - if le then 2 else 1) (by omega) (by omega) (fun c _ _ => by unfold Scalar; omega)
    (utf16_block le 4 _) fun l h1 h2 => by
    have hu : ∀ c, 0x10000 ≤ c → Utf.spec (.utf16 le) c = unit16 le (0xD800 + (c - 0x10000) / 1024) ++ unit16 le (0xDC00 + (c - 0x10000) % 1024) := by
      intro c hc; show spec16 le c = _; unfold spec16; rw [if_neg (by omega)]
    have ht : ∀ c, 0x10000 ≤ c → (0xDC00 + (c - 0x10000) % 1024) % 256 = 0 + c % 256 := by intro c hc; omega
    have hv : ∀ c, 0x10000 ≤ c → c / 256 = l / 256 → (0xDC00 + (c - 0x10000) % 1024) / 256 = (0xDC00 + (l - 0x10000) % 1024) / 256 := by
      intro c hc h; omega
    have hl : ∀ c, 0x10000 ≤ c → c / 256 = l / 256 → (c - 0x10000) / 1024 = (l - 0x10000) / 1024 := by
      intro c hc h; omega
    cases le with
    | true =>
      refine ⟨[(0xD800 + (l - 0x10000) / 1024) % 256, (0xD800 + (l - 0x10000) / 1024) / 256], [(0xDC00 + (l - 0x10000) % 1024) / 256],
        by rw [bytes_cons, bytes_cons]; exact ⟨by omega, by omega, bytes_nil⟩, by rw [bytes_cons]; exact ⟨by omega, bytes_nil⟩,
        rfl, rfl, fun c h3 h4 h5 => ?_⟩
      rw [hu c (by omega), hl c (by omega) h5, ← hv c (by omega) h5, ← ht c (by omega), unit16_eq, unit16_eq]
      simp only [if_true, if_false, Bool.false_eq_true, List.cons_append, List.nil_append]
    | false =>
      refine ⟨[(0xD800 + (l - 0x10000) / 1024) / 256, (0xD800 + (l - 0x10000) / 1024) % 256, (0xDC00 + (l - 0x10000) % 1024) / 256], [],
        by rw [bytes_cons, bytes_cons, bytes_cons]; exact ⟨by omega, by omega, by omega, bytes_nil⟩, bytes_nil,
        rfl, rfl, fun c h3 h4 h5 => ?_⟩
      rw [hu c (by omega), hl c (by omega) h5, ← hv c (by omega) h5, ← ht c (by omega), unit16_eq, unit16_eq]
      simp only [if_true, if_false, Bool.false_eq_true, List.cons_append, List.nil_append]

theorem utf32_block (le : Bool) (len blimit : Nat) (v : Enc) (l h : Nat) :
    Utf.block (.utf32 le) v l h len blimit =
      if l < min h blimit ∧ l % 256 > 0 then
        (updateAt v (if le then 0 else 3) fun s => setRange s (0 + l % 256)
          (0 + (min (min h blimit) ((l / 256 + 1) * 256) - 1) % 256 + 1)).map (·, min (min h blimit) ((l / 256 + 1) * 256))
      else some (v, l) := by
  simp only [Utf.block, andFF, Nat.zero_add]

theorem utf32_block4 (le : Bool) {lo blimit : Nat} (hb : blimit ≤ 0x110000) (hsc : ∀ c, lo ≤ c → c < blimit → Scalar c) :
    BlockOk (.utf32 le) 4 lo blimit :=
  blockOk_of (B := 256) (base := 0) (i := if le then 0 else 3) (by omega) (by omega) hsc
    (utf32_block le 4 _) fun l h1 h2 => by
    cases le with
    | true =>
      refine ⟨[], [l / 256 % 256, l / 65536 % 256, l / 16777216], bytes_nil,
        by rw [bytes_cons, bytes_cons, bytes_cons]; exact ⟨by omega, by omega, by omega, bytes_nil⟩, rfl, rfl, fun c h3 h4 h5 => ?_⟩
      rw [← h5, show l / 65536 = c / 65536 by omega, show l / 16777216 = c / 16777216 by omega, Nat.zero_add]; rfl
    | false =>
      refine ⟨[l / 16777216, l / 65536 % 256, l / 256 % 256], [],
        by rw [bytes_cons, bytes_cons, bytes_cons]; exact ⟨by omega, by omega, by omega, bytes_nil⟩, bytes_nil, rfl, rfl, fun c h3 h4 h5 => ?_⟩
      rw [← h5, show l / 65536 = c / 65536 by omega, show l / 16777216 = c / 16777216 by omega, Nat.zero_add]; rfl

/-! ## Walking through the ranges -/

/-- The ranges still to be written. -/
def Walk.pending (s : Walk) : List (Nat × Nat) :=
  match s.rest with
  | [] => []
  | _ :: rest => (s.l, s.h) :: rest

/-- The iterator is at the end and nothing is left, or `[l, h)` is what is left of the
range it is at. -/
def Walk.Good (s : Walk) : Prop :=
  (s.rest = [] → s.h ≤ s.l) ∧ s.pending.Pairwise (fun r q => r.2 < q.1) ∧ ∀ r ∈ s.pending, r.1 < r.2

def size (rs : List (Nat × Nat)) : Nat := (rs.map fun r => r.2 - r.1).sum

/-- A phase writes what is below its limit and leaves the rest. -/
theorem writeRange_spec {u : Utf} {len lo blimit : Nat} (hB : BlockOk u len lo blimit) : ∀ (fuel : Nat) (s : Walk),
    s.Good → (∀ c, InRanges s.pending c → lo ≤ c) → size s.pending < fuel →
    ∃ s' new, writeRange u len blimit fuel s = some s' ∧ s'.Good ∧ s'.va = s.va ++ new ∧
      (∀ e ∈ new, e.length = len ∧ ∀ t ∈ e, t ≠ 0) ∧
      (∀ w, Denotes new w ↔ ∃ c, InRanges s.pending c ∧ c < blimit ∧ w = toBytes (u.spec c)) ∧
      (∀ c, InRanges s'.pending c ↔ InRanges s.pending c ∧ blimit ≤ c) ∧ size s'.pending ≤ size s.pending := by
  intro fuel
  induction fuel with
  | zero => intro s _ _ h; omega
  | succ n ih =>
    intro s hg hlo hf
    rw [writeRange]
    by_cases hl : s.l < min s.h blimit
    · rw [if_pos hl]
      cases hr : s.rest with
      | nil => exact absurd (hg.1 hr) (by omega)
      | cons r0 rest =>
        have hpend : s.pending = (s.l, s.h) :: rest := by unfold Walk.pending; rw [hr]
        obtain ⟨-, hg2, hg3⟩ := hg
        rw [hpend] at hg2 hg3 hlo hf
        rw [List.pairwise_cons] at hg2
        obtain ⟨hlen, v, l', hb, h1, h2, h3, h4, h5⟩ := hB s.l s.h (hlo _ ⟨_, List.mem_cons_self, Nat.le_refl _, by simp only; omega⟩) hl
        simp only [hlen, lt_irrefl, if_false]
        rw [List.take_of_length_le (by omega), hb]
        simp only
        have hone : ∀ w, Denotes [v] w ↔ ∃ c, s.l ≤ c ∧ c < l' ∧ w = toBytes (u.spec c) := fun w => by
          rw [denotes_singleton]; exact h5 w
        have hsz : ∀ a b : Nat, ∀ t, size ((a, b) :: t) = (b - a) + size t := fun a b t => by simp [size]
        rw [hpend]
        by_cases hlh : l' < s.h
        · rw [if_pos hlh]
          have hdrop : ∀ c, InRanges ((l', s.h) :: rest) c ↔ InRanges ((s.l, s.h) :: rest) c ∧ l' ≤ c := by
            intro c
            simp only [InRanges, List.mem_cons, exists_eq_or_imp]
            constructor
            · rintro (h | ⟨r, hr, h⟩)
              · exact ⟨Or.inl (by omega), by omega⟩
              · have := hg2.1 r hr
                exact ⟨Or.inr ⟨r, hr, h⟩, by simp only at this; omega⟩
            · rintro ⟨h | h, h'⟩
              · exact Or.inl (by omega)
              · exact Or.inr h
          by_cases hbl : blimit ≤ l'
          · rw [if_pos hbl]
            have hbe : l' = blimit := by omega
            refine ⟨_, [v], rfl, ⟨fun h => by simp at h, ?_, ?_⟩, rfl, ?_, ?_, ?_, ?_⟩
            · show List.Pairwise _ ((l', s.h) :: rest)
              rw [List.pairwise_cons]
              exact ⟨hg2.1, hg2.2⟩
            · show ∀ r ∈ (l', s.h) :: rest, r.1 < r.2
              intro r hr'
              rcases List.mem_cons.1 hr' with rfl | hr'
              · exact hlh
              · exact hg3 r (by simp [hr'])
            · intro e he; rw [List.mem_singleton] at he; subst he; exact ⟨h3, h4⟩
            · intro w
              rw [hone w]
              constructor
              · rintro ⟨c, c1, c2, c3⟩
                exact ⟨c, ⟨_, List.mem_cons_self, c1, by simp only; omega⟩, by omega, c3⟩
              · rintro ⟨c, hc, c2, c3⟩
                refine ⟨c, ?_, by omega, c3⟩
                obtain ⟨r, hr', hc⟩ := hc
                rcases List.mem_cons.1 hr' with rfl | hr'
                · exact hc.1
                · have := hg2.1 r hr'
                  simp only at this
                  omega
            · intro c
              show InRanges ((l', s.h) :: rest) c ↔ _
              rw [hdrop, hbe]
            · show size ((l', s.h) :: rest) ≤ _
              rw [hsz, hsz]; omega
          · rw [if_neg hbl]
            have hp' : Walk.pending { s with va := s.va ++ [v], l := l' } = (l', s.h) :: rest := by
              unfold Walk.pending; simp only [hr]
            obtain ⟨s', new, e1, e2, e3, e4, e5, e6, e7⟩ := ih { s with va := s.va ++ [v], l := l' } (by
              refine ⟨fun h => by simp [hr] at h, ?_, ?_⟩
              · rw [hp', List.pairwise_cons]; exact ⟨hg2.1, hg2.2⟩
              · rw [hp']
                intro r hr'
                rcases List.mem_cons.1 hr' with rfl | hr'
                · exact hlh
                · exact hg3 r (by simp [hr'])) (by
              rw [hp']; intro c hc; exact hlo c ((hdrop c).1 hc).1) (by
              rw [hp', hsz]; rw [hsz] at hf; omega)
            rw [hp'] at e5 e6 e7
            rw [hr] at e1
            refine ⟨s', v :: new, e1, e2, by rw [e3]; simp, ?_, ?_, ?_, ?_⟩
            · intro e he
              rcases List.mem_cons.1 he with rfl | he
              · exact ⟨h3, h4⟩
              · exact e4 e he
            · intro w
              rw [show v :: new = [v] ++ new from rfl, denotes_append, hone w, e5 w]
              constructor
              · rintro (⟨c, c1, c2, c3⟩ | ⟨c, c1, c2, c3⟩)
                · exact ⟨c, ⟨_, List.mem_cons_self, c1, by simp only; omega⟩, by omega, c3⟩
                · exact ⟨c, ((hdrop c).1 c1).1, c2, c3⟩
              · rintro ⟨c, hc, c2, c3⟩
                by_cases hcl : l' ≤ c
                · exact Or.inr ⟨c, (hdrop c).2 ⟨hc, hcl⟩, c2, c3⟩
                · refine Or.inl ⟨c, ?_, by omega, c3⟩
                  obtain ⟨r, hr', hc⟩ := hc
                  rcases List.mem_cons.1 hr' with rfl | hr'
                  · exact hc.1
                  · have := hg2.1 r hr'
                    simp only at this
                    omega
            · intro c
              rw [e6 c, hdrop c]
              constructor
              · rintro ⟨⟨a, b⟩, c⟩; exact ⟨a, c⟩
              · rintro ⟨a, b⟩; exact ⟨⟨a, by omega⟩, b⟩
            · rw [hsz] at e7 ⊢; omega
        · rw [if_neg hlh]
          have hle : l' = s.h := by omega
          subst hle
          have hfirst : ∀ c, InRanges ((s.l, s.h) :: rest) c ↔ (s.l ≤ c ∧ c < s.h) ∨ InRanges rest c := by
            intro c; simp only [InRanges, List.mem_cons, exists_eq_or_imp]
          have hafter : ∀ c, InRanges rest c → s.h < c := by
            rintro c ⟨r, hr', hc⟩
            have := hg2.1 r hr'
            simp only at this
            omega
          cases rest with
          | nil =>
            refine ⟨_, [v], rfl, ⟨fun _ => Nat.le_refl _, by simp [Walk.pending], by simp [Walk.pending]⟩, rfl, ?_, ?_, ?_, ?_⟩
            · intro e he; rw [List.mem_singleton] at he; subst he; exact ⟨h3, h4⟩
            · intro w
              rw [hone w]
              simp only [hfirst]
              constructor
              · rintro ⟨c, c1, c2, c3⟩; exact ⟨c, Or.inl ⟨c1, c2⟩, by omega, c3⟩
              · rintro ⟨c, c1 | c1, c2, c3⟩
                · exact ⟨c, c1.1, c1.2, c3⟩
                · obtain ⟨r, hr', -⟩ := c1; simp at hr'
            · intro c
              simp only [Walk.pending]
              constructor
              · rintro ⟨r, hr', -⟩; simp at hr'
              · rintro ⟨hc, hb'⟩
                rcases (hfirst c).1 hc with hc | ⟨r, hr', -⟩
                · omega
                · simp at hr'
            · simp [Walk.pending, size]
          | cons r rest =>
            have hp' : Walk.pending { va := s.va ++ [v], rest := r :: rest, l := r.1, h := r.2 } = r :: rest := rfl
            obtain ⟨s', new, e1, e2, e3, e4, e5, e6, e7⟩ := ih { va := s.va ++ [v], rest := r :: rest, l := r.1, h := r.2 } (by
              refine ⟨fun h => by simp at h, ?_, ?_⟩
              · rw [hp']; exact hg2.2
              · rw [hp']; exact fun q hq => hg3 q (by simp [List.mem_cons.1 hq])) (by
              rw [hp']; intro c hc; exact hlo c ((hfirst c).2 (Or.inr hc))) (by
              rw [hp']; rw [hsz] at hf; omega)
            rw [hp'] at e5 e6 e7
            refine ⟨s', v :: new, e1, e2, by rw [e3]; simp, ?_, ?_, ?_, ?_⟩
            · intro e he
              rcases List.mem_cons.1 he with rfl | he
              · exact ⟨h3, h4⟩
              · exact e4 e he
            · intro w
              rw [show v :: new = [v] ++ new from rfl, denotes_append, hone w, e5 w]
              simp only [hfirst]
              constructor
              · rintro (⟨c, c1, c2, c3⟩ | ⟨c, c1, c2, c3⟩)
                · exact ⟨c, Or.inl ⟨c1, c2⟩, by omega, c3⟩
                · exact ⟨c, Or.inr c1, c2, c3⟩
              · rintro ⟨c, hc | hc, c2, c3⟩
                · exact Or.inl ⟨c, hc.1, hc.2, c3⟩
                · exact Or.inr ⟨c, hc, c2, c3⟩
            · intro c
              rw [e6 c, hfirst c]
              constructor
              · rintro ⟨a, b⟩; exact ⟨Or.inr a, b⟩
              · rintro ⟨a | a, b⟩
                · omega
                · exact ⟨a, b⟩
            · rw [hsz]; omega
    · rw [if_neg hl]
      refine ⟨s, [], rfl, hg, by simp, by simp, ?_, ?_, Nat.le_refl _⟩
      · intro w
        constructor
        · rintro ⟨e, he, -⟩; simp at he
        · rintro ⟨c, ⟨r, hr, hc⟩, c2, -⟩
          exfalso
          unfold Walk.pending at hr
          cases hrest : s.rest with
          | nil => rw [hrest] at hr; simp at hr
          | cons r0 rest =>
            obtain ⟨-, hg2, hg3⟩ := hg
            unfold Walk.pending at hg2 hg3
            rw [hrest] at hr hg2 hg3
            rw [List.pairwise_cons] at hg2
            have h0 := hg3 _ List.mem_cons_self
            simp only at h0
            rcases List.mem_cons.1 hr with rfl | hr
            · simp only at hc; omega
            · have := hg2.1 r hr
              simp only at this
              omega
      · intro c
        constructor
        · intro h
          refine ⟨h, ?_⟩
          obtain ⟨r, hr, hc⟩ := h
          unfold Walk.pending at hr
          cases hrest : s.rest with
          | nil => rw [hrest] at hr; simp at hr
          | cons r0 rest =>
            obtain ⟨-, hg2, hg3⟩ := hg
            unfold Walk.pending at hg2 hg3
            rw [hrest] at hr hg2 hg3
            rw [List.pairwise_cons] at hg2
            have h0 := hg3 _ List.mem_cons_self
            simp only at h0
            rcases List.mem_cons.1 hr with rfl | hr
            · simp only at hc; omega
            · have := hg2.1 r hr
              simp only at this
              omega
        · exact fun h => h.1

/-- With no code point below the bound left, nothing is skipped. -/
theorem skipRange_noop {s : Walk} (hg : s.Good) {ubound : Nat} (h : ∀ c, InRanges s.pending c → ubound ≤ c) :
    skipRange ubound s = s := by
  unfold skipRange
  split
  · next hl =>
    cases hr : s.rest with
    | nil => rfl
    | cons r rest =>
      exfalso
      have hp : s.pending = (s.l, s.h) :: rest := by unfold Walk.pending; rw [hr]
      have := hg.2.2 (s.l, s.h) (by rw [hp]; simp)
      simp only at this
      have := h s.l ⟨_, by rw [hp]; exact List.mem_cons_self, Nat.le_refl _, this⟩
      omega
  · rfl

/-- What holds between two phases: everything below `b` has been written. -/
structure Phase (u : Utf) (rs : List (Nat × Nat)) (b len : Nat) (s : Walk) : Prop where
  good : s.Good
  left : ∀ c, InRanges s.pending c ↔ InRanges rs c ∧ b ≤ c
  small : size s.pending ≤ size rs
  wrote : ∀ w, Denotes s.va w ↔ ∃ c, InRanges rs c ∧ c < b ∧ w = toBytes (u.spec c)
  lens : ∀ e ∈ s.va, 0 < e.length ∧ e.length ≤ len
  order : s.va.Pairwise fun a b => a.length ≤ b.length
  full : ∀ e ∈ s.va, ∀ t ∈ e, t ≠ 0

theorem Phase.step {u : Utf} {rs : List (Nat × Nat)} {b len blimit len' : Nat} {s : Walk} (h : Phase u rs b len s)
    (hB : BlockOk u len' b blimit) (hb : b ≤ blimit) (hl : len ≤ len') (h0 : 0 < len') :
    ∃ s', writeRange u len' blimit (size rs + 1) s = some s' ∧ Phase u rs blimit len' s' := by
  have hsm := h.small
  obtain ⟨s', new, e1, e2, e3, e4, e5, e6, e7⟩ := writeRange_spec hB (size rs + 1) s h.good
    (fun c hc => ((h.left c).1 hc).2) (by omega)
  refine ⟨s', e1, e2, fun c => ?_, by omega, fun w => ?_, fun e he => ?_, ?_, fun e he => ?_⟩
  · rw [e6, h.left]
    constructor
    · rintro ⟨⟨a, _⟩, c⟩; exact ⟨a, c⟩
    · rintro ⟨a, c⟩; exact ⟨⟨a, by omega⟩, c⟩
  · rw [e3, denotes_append, h.wrote, e5]
    constructor
    · rintro (⟨c, c1, c2, c3⟩ | ⟨c, c1, c2, c3⟩)
      · exact ⟨c, c1, by omega, c3⟩
      · exact ⟨c, ((h.left c).1 c1).1, c2, c3⟩
    · rintro ⟨c, c1, c2, c3⟩
      by_cases hc : c < b
      · exact Or.inl ⟨c, c1, hc, c3⟩
      · exact Or.inr ⟨c, (h.left c).2 ⟨c1, by omega⟩, c2, c3⟩
  · rw [e3] at he
    rcases List.mem_append.1 he with he | he
    · have := h.lens e he; omega
    · have := (e4 e he).1; omega
  · rw [e3, List.pairwise_append]
    refine ⟨h.order, List.pairwise_of_forall_mem_list fun x hx y hy => by rw [(e4 x hx).1, (e4 y hy).1], fun x hx y hy => ?_⟩
    have := h.lens x hx
    rw [(e4 y hy).1]; omega
  · rw [e3] at he
    rcases List.mem_append.1 he with he | he
    · exact h.full e he
    · exact (e4 e he).2

theorem Phase.skip {u : Utf} {rs : List (Nat × Nat)} {len : Nat} {s : Walk} (h : Phase u rs 0xD800 len s)
    (hsc : ∀ c, InRanges rs c → Scalar c) : skipRange 0xE000 s = s ∧ Phase u rs 0xE000 len s := by
  have hgap : ∀ c, InRanges rs c → (0xD800 ≤ c ↔ 0xE000 ≤ c) := by
    intro c hc; have := hsc c hc; unfold Scalar at this; omega
  have hleft : ∀ c, InRanges s.pending c ↔ InRanges rs c ∧ 0xE000 ≤ c := by
    intro c
    rw [h.left]
    constructor
    · rintro ⟨a, b⟩; exact ⟨a, (hgap c a).1 b⟩
    · rintro ⟨a, b⟩; exact ⟨a, (hgap c a).2 b⟩
  refine ⟨skipRange_noop h.good fun c hc => ((hleft c).1 hc).2, h.good, hleft, h.small, fun w => ?_, h.lens, h.order, h.full⟩
  rw [h.wrote]
  constructor
  · rintro ⟨c, a, b, d⟩; exact ⟨c, a, by omega, d⟩
  · rintro ⟨c, a, b, d⟩; exact ⟨c, a, by have := hgap c a; omega, d⟩

/-- The ranges of a set: in order, apart, and not empty. -/
def Apart (rs : List (Nat × Nat)) : Prop := rs.Pairwise (fun r q => r.2 < q.1) ∧ ∀ r ∈ rs, r.1 < r.2

theorem collect_spec (u : Utf) {rs : List (Nat × Nat)} (ha : Apart rs) (hsc : ∀ c, InRanges rs c → Scalar c) :
    ∃ va, u.collect rs = some va ∧ (∀ e ∈ va, 0 < e.length ∧ e.length ≤ 4) ∧
      (va.Pairwise fun a b => a.length ≤ b.length) ∧ (∀ e ∈ va, ∀ t ∈ e, t ≠ 0) ∧
      ∀ w, Denotes va w ↔ ∃ c, InRanges rs c ∧ w = toBytes (u.spec c) := by
  cases rs with
  | nil => exact ⟨[], rfl, by simp, by simp, by simp, fun w => by simp [Denotes, InRanges]⟩
  | cons r rest =>
    have h0 : Phase u (r :: rest) 0 0 { va := [], rest := r :: rest, l := r.1, h := r.2 } := by
      refine ⟨⟨fun h => by simp at h, ha.1, ha.2⟩, fun c => ?_, Nat.le_refl _, fun w => ?_, by simp, by simp, by simp⟩
      · show InRanges (r :: rest) c ↔ _
        simp
      · simp [Denotes]
    have hmax : ∀ c, InRanges (r :: rest) c → c < 0x110000 := by
      intro c hc; have := hsc c hc; unfold Scalar at this; omega
    have hfin : ∀ {s : Walk}, Phase u (r :: rest) 0x110000 4 s → (∀ e ∈ s.va, 0 < e.length ∧ e.length ≤ 4) ∧
        (s.va.Pairwise fun a b => a.length ≤ b.length) ∧ (∀ e ∈ s.va, ∀ t ∈ e, t ≠ 0) ∧
        ∀ w, Denotes s.va w ↔ ∃ c, InRanges (r :: rest) c ∧ w = toBytes (u.spec c) := by
      intro s h
      refine ⟨h.lens, h.order, h.full, fun w => ?_⟩
      rw [h.wrote]
      constructor
      · rintro ⟨c, a, -, b⟩; exact ⟨c, a, b⟩
      · rintro ⟨c, a, b⟩; exact ⟨c, a, hmax c a, b⟩
    have hs1 : ∀ lo, ∀ c, lo ≤ c → c < 0xD800 → Scalar c := by intro lo c _ h; unfold Scalar; omega
    have hs2 : ∀ m, m ≤ 0x110000 → ∀ c, 0xE000 ≤ c → c < m → Scalar c := by intro m hm c _ h; unfold Scalar; omega
    cases u with
    | utf8 =>
      obtain ⟨s1, e1, p1⟩ := h0.step utf8_block1 (by omega) (by omega) (by omega)
      obtain ⟨s2, e2, p2⟩ := p1.step utf8_block2 (by omega) (by omega) (by omega)
      obtain ⟨s3, e3, p3⟩ := p2.step (utf8_block3 (by omega) (by omega) (hs1 _)) (by omega) (by omega) (by omega)
      obtain ⟨e4, p4⟩ := p3.skip hsc
      obtain ⟨s5, e5, p5⟩ := p4.step (utf8_block3 (blimit := 0x10000) (by omega) (by omega) (hs2 _ (by omega))) (by omega) (by omega) (by omega)
      obtain ⟨s6, e6, p6⟩ := p5.step utf8_block4 (by omega) (by omega) (by omega)
      refine ⟨s6.va, ?_, hfin p6⟩
      unfold size at e1 e2 e3 e5 e6
      simp only [Utf.collect, e1, e2, e3, e4, e5, e6, Option.bind_eq_bind, Option.bind_some]
    | utf16 le =>
      obtain ⟨s3, e3, p3⟩ := h0.step (utf16_block2 le (by omega) (hs1 _)) (by omega) (by omega) (by omega)
      obtain ⟨e4, p4⟩ := p3.skip hsc
      obtain ⟨s5, e5, p5⟩ := p4.step (utf16_block2 le (blimit := 0x10000) (by omega) (hs2 _ (by omega))) (by omega) (by omega) (by omega)
      obtain ⟨s6, e6, p6⟩ := p5.step (utf16_block4 le) (by omega) (by omega) (by omega)
      refine ⟨s6.va, ?_, hfin p6⟩
      unfold size at e3 e5 e6
      simp only [Utf.collect, e3, e4, e5, e6, Option.bind_eq_bind, Option.bind_some]
    | utf32 le =>
      obtain ⟨s3, e3, p3⟩ := h0.step (utf32_block4 le (by omega) (hs1 _)) (by omega) (by omega) (by omega)
      obtain ⟨e4, p4⟩ := p3.skip hsc
      obtain ⟨s6, e6, p6⟩ := p4.step (utf32_block4 le (blimit := 0x110000) (by omega) (hs2 _ (by omega))) (by omega) (by omega) (by omega)
      refine ⟨s6.va, ?_, hfin p6⟩
      unfold size at e3 e6
      simp only [Utf.collect, e3, e4, e6, Option.bind_eq_bind, Option.bind_some]

/-- **C32.** In UTF-8, UTF-16 and UTF-32 a class of scalar values becomes byte sequences
accepting exactly the standard's encodings of its members. -/
theorem utf_class_exact (u : Utf) {rs : List (Nat × Nat)} (ha : Apart rs) (hsc : ∀ c, InRanges rs c → Scalar c) :
    ∃ encs, u.writeSet rs = some encs ∧ (∀ w, Denotes encs w ↔ ∃ c, InRanges rs c ∧ w = toBytes (u.spec c)) ∧
      ∀ brk additive, LeafOk (.cls encs brk additive) := by
  obtain ⟨va, h1, h2, h3, h4, h5⟩ := collect_spec u ha hsc
  refine ⟨rounds 4 0 va, by unfold Utf.writeSet; rw [h1]; rfl, fun w => ?_, fun brk additive => rounds_leafOk h2 h3 h4 brk additive⟩
  rw [collapsing_keeps_strings 4 va fun e he => ⟨List.ne_nil_of_length_pos (h2 e he).1, (h2 e he).2⟩, h5]

-- A class that crosses the one-, two- and three-byte boundaries and the surrogates.
example : Apart [(0x70, 0x90), (0x7F0, 0x810), (0xD7F0, 0xD800), (0xE000, 0xE010), (0xFFF0, 0x10010)] ∧
    ∀ c, InRanges [(0x70, 0x90), (0x7F0, 0x810), (0xD7F0, 0xD800), (0xE000, 0xE010), (0xFFF0, 0x10010)] c → Scalar c := by
  refine ⟨⟨by decide, by decide⟩, fun c h => ?_⟩
  obtain ⟨r, hr, h⟩ := h
  simp only [List.mem_cons, List.not_mem_nil, or_false] at hr
  unfold Scalar
  rcases hr with rfl | rfl | rfl | rfl | rfl <;> simp only at h <;> omega

/-- The restriction to scalar values matters: for a range across the surrogates `skipRange`
stays at the surrogates (it only looks at later ranges), and `writeRange` then uses bytes
of the buffer which were not written for them.  The builder never asks for such a range
(`classLeaf_ok`). -/
theorem straddling_uses_stale_bytes : Utf.collect .utf8 [(0xD7FF, 0xE001)] = none := by
  decide +kernel

end Verif.Encoders
