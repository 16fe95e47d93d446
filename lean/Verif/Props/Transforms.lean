import Verif.Transforms
import Verif.Props.Utf
/-!
# C34: byte and character transforms undo each other

Specification: a transform is undone if applying it and then the inverse gives
back the value, and it never leaves its domain.
-/
namespace Verif.Transforms

open Verif.Utf (Dec)

/-- `g` undoes `f` on bytes and both stay inside the bytes. -/
def Undoes (f g : Nat → Nat) : Prop :=
  ∀ b, b < 256 → f b < 256 ∧ g b < 256 ∧ g (f b) = b ∧ f (g b) = b

/-- A transform an encoder can be configured with: the XOR key is a byte. -/
def ByteT.Valid : ByteT → Prop
  | .xor k => k < 256
  | _ => True

theorem oce_table : ∀ b : Fin 256, oceTable.getD b 0 < 256 ∧ unOceTable.getD b 0 < 256 ∧
    unOceTable.getD (oceTable.getD b 0) 0 = b ∧ oceTable.getD (unOceTable.getD b 0) 0 = b := by
  decide +kernel

/-- **C34** Every byte transform is a permutation of the 256 byte values and its
inverse undoes it. -/
theorem byteTransform_undone (t : ByteT) (h : t.Valid) : Undoes t.fwd t.bwd := by
  intro b hb
  cases t with
  | identity => exact ⟨hb, hb, rfl, rfl⟩
  | oce => exact oce_table ⟨b, hb⟩
  | xor k =>
    have hk : k < 2 ^ 8 := h
    have := Nat.xor_lt_two_pow (show b < 2 ^ 8 from hb) hk
    simp only [ByteT.fwd, ByteT.bwd, Nat.xor_assoc, Nat.xor_self, Nat.xor_zero]
    exact ⟨this, this, trivial, trivial⟩

/-- Undoing the transforms of a list of byte transforms, innermost last. -/
def undoAll (ts : List ByteT) (b : Nat) : Nat := ts.foldr (fun t b => t.bwd b) b

/-- Applying them, outermost last. -/
def applyAll (ts : List ByteT) (b : Nat) : Nat := ts.foldl (fun b t => t.fwd b) b

/-- **C34** A whole chain of byte transforms is undone byte by byte, so a
transformed byte string decodes to the original. -/
theorem byteChain_undone (ts : List ByteT) (h : ∀ t ∈ ts, t.Valid) (l : List Nat)
    (hl : ∀ b ∈ l, b < 256) : (l.map (applyAll ts)).map (undoAll ts) = l := by
  have key : ∀ (ts : List ByteT), (∀ t ∈ ts, t.Valid) → ∀ b, b < 256 →
      undoAll ts (applyAll ts b) = b := by
    intro ts
    induction ts with
    | nil => intro _ b _; rfl
    | cons t ts ih =>
      intro h b hb
      have ht := byteTransform_undone t (h t (by simp)) b hb
      have := ih (fun t ht => h t (by simp [ht])) (t.fwd b) ht.1
      simp only [undoAll, applyAll, List.foldr_cons, List.foldl_cons] at this ⊢
      rw [this, ht.2.2.1]
  rw [List.map_map]
  conv => rhs; rw [← List.map_id l]
  exact List.map_congr_left fun b hb => key ts h b (hl b hb)

example : (ByteT.xor 0x5A).Valid ∧ ByteT.oce.Valid ∧
    ([0, 0x41, 255].map (applyAll [.xor 0x5A, .oce])) = [21, 158, 118] := by
  refine ⟨by simp [ByteT.Valid], trivial, by decide⟩

theorem onLetters_letter {f g : Nat → Nat} (h : ∀ d, d < 26 → f d < 26 ∧ g (f d) = d) (cp : Int) :
    onLetters g (onLetters f cp) = cp := by
  unfold onLetters
  by_cases h1 : 0x41 ≤ cp ∧ cp ≤ 0x5A
  · rw [if_pos h1]
    obtain ⟨d, hd⟩ : ∃ d : Nat, cp = 0x41 + d := ⟨(cp - 0x41).toNat, by omega⟩
    have e : (cp - 0x41).toNat = d := by omega
    have hh := h d (by omega)
    rw [e, if_pos (by omega)]
    have e2 : (0x41 + (f d : Int) - 0x41).toNat = f d := by omega
    rw [e2, hh.2, hd]
  · rw [if_neg h1]
    by_cases h2 : 0x61 ≤ cp ∧ cp ≤ 0x7A
    · rw [if_pos h2]
      obtain ⟨d, hd⟩ : ∃ d : Nat, cp = 0x61 + d := ⟨(cp - 0x61).toNat, by omega⟩
      have e : (cp - 0x61).toNat = d := by omega
      have hh := h d (by omega)
      rw [e, if_neg (by omega), if_pos (by omega)]
      have e2 : (0x61 + (f d : Int) - 0x61).toNat = f d := by omega
      rw [e2, hh.2, hd]
    · rw [if_neg h2, if_neg h1, if_neg h2]

/-- Rotation by at most 26 places is undone on every code point.  (`_partial`: the
property says every rotation; `rot_large_not_undone` shows it fails for larger
ones.) -/
theorem rot_undone_partial (rot : Nat) (h : rot ≤ 26) (cp : Int) :
    rotBwd rot (rotFwd rot cp) = cp := by
  refine onLetters_letter (fun d hd => ?_) cp
  unfold rotFwdIdx rotBwdIdx
  omega

/-- **C34, negation.** Rotation by 53 or more places: `(d + 26 - rot) % 26` wraps
modulo 2^32, which is not a multiple of 26, so rotating the letter A and back gives
the letter W. -/
theorem rot_large_not_undone (rot : Nat) (h1 : 53 ≤ rot) (h2 : rot < 0x100000000) :
    rotBwd rot (rotFwd rot 0x41) = 0x57 := by
  obtain ⟨d, hd⟩ : ∃ d, d = rotFwdIdx rot 0 := ⟨_, rfl⟩
  have e : rotFwd rot 0x41 = 0x41 + (d : Int) := by
    unfold rotFwd onLetters
    rw [if_pos (by decide), hd]
    have : ((0x41 : Int) - 0x41).toNat = 0 := by decide
    rw [this]
  unfold rotFwdIdx at hd
  have hd26 : d < 26 := by omega
  rw [e]
  unfold rotBwd onLetters
  rw [if_pos (by omega)]
  have e2 : (0x41 + (d : Int) - 0x41).toNat = d := by omega
  rw [e2]
  have e3 : rotBwdIdx rot d = 22 := by
    have e4 : rot % 0x100000000 = rot := by omega
    have e5 : (0 + rot) % 0x100000000 = rot := by omega
    rw [e5] at hd
    have e6 : (d + 26 + 0x100000000 - rot) % 0x100000000 = d + 26 + 0x100000000 - rot := by omega
    unfold rotBwdIdx
    rw [e4, e6]
    omega
  rw [e3]; rfl

/-- Decoding inverts encoding on the code points in `S`, whatever follows. -/
def RoundTrip (e : Enc) (S : Int → Prop) : Prop :=
  ∀ cp, S cp → ∀ rest, e.read (e.write cp ++ rest) = .ok cp.toNat (e.write cp).length

/-- UTF-8 as an encoder (src/lib/utf8.cpp:21-71). -/
def utf8Enc : Enc := ⟨Utf.cpToUtf8, Utf.utf8ToCp, 4⟩

theorem utf8Enc_roundTrip : RoundTrip utf8Enc (fun cp => 0 ≤ cp ∧ Utf.Scalar cp.toNat) := by
  intro cp h rest
  obtain ⟨c, rfl⟩ : ∃ c : Nat, cp = c := ⟨cp.toNat, by omega⟩
  exact Utf.utf8_inverse.2.1 c (by simpa using h.2) rest

theorem onLetters_nonneg {f : Nat → Nat} {cp : Int} (h : 0 ≤ cp) : 0 ≤ onLetters f cp := by
  unfold onLetters; split
  · omega
  · split <;> omega

/-- **C34** An encoder with a rotation of at most 26 places in front of it still
round-trips, on the code points whose rotation the base encoder round-trips. -/
theorem rotEncoder_roundTrip_partial (rot : Nat) (h : rot ≤ 26) (e : Enc) (S : Int → Prop)
    (hS : ∀ cp, S cp → 0 ≤ cp ∧ S (rotFwd rot cp)) (he : RoundTrip e S) :
    RoundTrip (rotEncoder rot e) S := by
  intro cp hcp rest
  have := he _ (hS cp hcp).2 rest
  simp only [rotEncoder, this]
  have h0 : 0 ≤ rotFwd rot cp := onLetters_nonneg (hS cp hcp).1
  have e1 : ((rotFwd rot cp).toNat : Int) = rotFwd rot cp := by omega
  rw [e1, rot_undone_partial rot h]

/-- UTF-8 with rot13 round-trips on every scalar value. -/
example : RoundTrip (rotEncoder 13 utf8Enc) (fun cp => 0 ≤ cp ∧ Utf.Scalar cp.toNat) := by
  refine rotEncoder_roundTrip_partial 13 (by omega) _ _ (fun cp h => ⟨h.1, ?_⟩) utf8Enc_roundTrip
  refine ⟨onLetters_nonneg h.1, ?_⟩
  have := h.2
  unfold rotFwd onLetters rotFwdIdx Utf.Scalar at *
  split
  · omega
  · split <;> omega

/-- **C34, negation.** Reading through a byte-transforming encoder ignores the
bytes it is given: two different inputs always read the same, so no encoder with
a byte transform can round-trip two different code points. -/
theorem byteEncoder_read_ignores (t : ByteT) (heap : List Nat) (e : Enc) (S : Int → Prop)
    (h : ∃ a b : Int, S a ∧ S b ∧ 0 ≤ a ∧ 0 ≤ b ∧ a ≠ b) :
    ¬ RoundTrip (byteEncoder t heap e) S := by
  intro hr
  obtain ⟨a, b, ha, hb, h1, h2, hne⟩ := h
  have ea := hr a ha []
  have eb := hr b hb []
  simp only [byteEncoder] at ea eb
  rw [ea] at eb
  simp only [Dec.ok.injEq] at eb
  omega

/-- Writing through a byte-transforming encoder, on the other hand, is exactly the
byte-wise transform of the base encoding; undoing it byte-wise (what the search
decoders do) and reading with the base encoder round-trips. -/
theorem byteEncoder_write_undone (t : ByteT) (ht : t.Valid) (heap : List Nat) (e : Enc)
    (S : Int → Prop) (he : RoundTrip e S) (hb : ∀ cp, ∀ b ∈ e.write cp, b < 256) (cp : Int)
    (h : S cp) (rest : List Nat) :
    e.read (((byteEncoder t heap e).write cp).map t.bwd ++ rest) =
      .ok cp.toNat ((byteEncoder t heap e).write cp).length := by
  simp only [byteEncoder, List.map_map, List.length_map]
  have : (e.write cp).map (t.bwd ∘ t.fwd) = e.write cp := by
    conv => rhs; rw [← List.map_id (e.write cp)]
    exact List.map_congr_left fun b hb' =>
      (byteTransform_undone t ht b (hb cp b hb')).2.2.1
  rw [this]
  exact he cp h rest

example : ((byteEncoder .oce [] utf8Enc).write 0xE9) = [29, 97] := by decide

end Verif.Transforms
