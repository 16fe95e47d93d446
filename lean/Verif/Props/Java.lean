import Verif.Java
/-!
# The Java binding: C83, C85, C86

* C83: a search, or a request for the text around a hit, is given exactly the bytes that
  the caller named and none besides, or the call throws and nothing is read.
* C85: a program is written into the caller's array where it fits, or the call throws.
* C86: numbers cross between Java and the library unchanged.
-/
namespace Verif.Java

/-! ## Specification -/

/-- A Java array: fewer than 2^31 elements. -/
def IsArray (a : List UInt8) : Prop := a.length < 2 ^ 31

/-- What `java.nio.ByteBuffer` promises of its fields. -/
structure Buffer.Valid (b : Buffer) : Prop where
  position : b.position ≤ b.limit
  limit : b.limit ≤ b.capacity
  small : b.capacity < 2 ^ 31
  direct : ∀ mem, b.store = .direct mem → mem.length = b.capacity
  array : ∀ arr k, b.store = .array arr k → k + b.capacity ≤ arr.length ∧ arr.length < 2 ^ 31
  readOnly : ∀ arr k, b.store = .readOnly arr k → k + b.capacity ≤ arr.length ∧ arr.length < 2 ^ 31

/-- The bytes of a buffer between its position and its limit. -/
def Buffer.rest (b : Buffer) : List UInt8 :=
  match b.store with
  | .direct mem => (mem.drop b.position).take (b.limit - b.position)
  | .array arr k => (arr.drop (k + b.position)).take (b.limit - b.position)
  | .readOnly arr k => (arr.drop (k + b.position)).take (b.limit - b.position)

/-- The `size` bytes of an array from `offset` on, if they are all there. -/
def part (a : List UInt8) (offset size : Int) : Option (List UInt8) :=
  if 0 ≤ offset ∧ 0 ≤ size ∧ offset + size ≤ a.length then
    some ((a.drop offset.toNat).take size.toNat)
  else none

/-! ## Small facts -/

@[simp] theorem bind_ok {α β : Type} (a : α) (f : α → Out β) : (Out.ok a >>= f) = f a := rfl
@[simp] theorem bind_threw {α β : Type} (e : Exn) (f : α → Out β) : (Out.threw e >>= f) = .threw e := rfl
@[simp] theorem bind_wild {α β : Type} (f : α → Out β) : (Out.wild >>= f) = .wild := rfl

theorem length_toInt {a : List UInt8} (h : IsArray a) : (length a).toInt = a.length :=
  Int32.toInt_ofNat_of_lt h

/-- A check that only ever throws or returns. -/
def Checks (o : Out Unit) (p : Prop) : Prop := (o = .ok () ∧ p) ∨ ((∃ e, o = .threw e) ∧ ¬ p)

theorem checks_negative (x : Int32) : Checks (throwIfNegative x) (0 ≤ x.toInt) := by
  unfold throwIfNegative Checks
  split
  · next h => exact .inr ⟨⟨_, rfl⟩, by have := Int32.lt_iff_toInt_lt.1 h; simp at this; omega⟩
  · next h => exact .inl ⟨rfl, by have := mt Int32.lt_iff_toInt_lt.2 h; simp at this; omega⟩

theorem checks_negativeLong (x : Int64) : Checks (throwIfNegativeLong x) (0 ≤ x.toInt) := by
  unfold throwIfNegativeLong Checks
  split
  · next h => exact .inr ⟨⟨_, rfl⟩, by have := Int64.lt_iff_toInt_lt.1 h; simp at this; omega⟩
  · next h => exact .inl ⟨rfl, by have := mt Int64.lt_iff_toInt_lt.2 h; simp at this; omega⟩

theorem checks_greater (x m : Int32) : Checks (throwIfGreaterThan x m) (x.toInt ≤ m.toInt) := by
  unfold throwIfGreaterThan Checks
  split
  · next h => exact .inr ⟨⟨_, rfl⟩, by have := Int32.lt_iff_toInt_lt.1 h; omega⟩
  · next h => exact .inl ⟨rfl, by have := mt Int32.lt_iff_toInt_lt.2 h; omega⟩

theorem checks_greaterLong (x m : Int64) : Checks (throwIfGreaterThanLong x m) (x.toInt ≤ m.toInt) := by
  unfold throwIfGreaterThanLong Checks
  split
  · next h => exact .inr ⟨⟨_, rfl⟩, by have := Int64.lt_iff_toInt_lt.1 h; omega⟩
  · next h => exact .inl ⟨rfl, by have := mt Int64.lt_iff_toInt_lt.2 h; omega⟩

theorem checks_destroyed (p : Nat) : Checks (throwIfDestroyed p) (p ≠ 0) := by
  unfold throwIfDestroyed Checks
  split <;> simp [*]

theorem bmod32 {x : Int} (h1 : -2 ^ 31 ≤ x) (h2 : x < 2 ^ 31) : x.bmod (2 ^ 32) = x := by
  rw [Int.bmod_eq_of_le] <;> omega

/-- With a non-negative offset the subtraction of `throwIfByteArrayTooSmall` does not wrap. -/
theorem checks_array {a : List UInt8} (ha : IsArray a) {off : Int32} (h0 : 0 ≤ off.toInt) (size : Int32) :
    Checks (throwIfByteArrayTooSmall (length a) off size) (off.toInt + size.toInt ≤ a.length) := by
  have hl := length_toInt ha
  have hb : (length a - off).toInt = a.length - off.toInt := by
    rw [Int32.toInt_sub, hl, bmod32]
    · have := Int32.toInt_lt off; omega
    · have : (a.length : Int) < 2 ^ 31 := by exact_mod_cast ha
      omega
  unfold throwIfByteArrayTooSmall Checks
  split
  · next h => exact .inr ⟨⟨_, rfl⟩, by have := Int32.lt_iff_toInt_lt.1 h; omega⟩
  · next h => exact .inl ⟨rfl, by have := mt Int32.lt_iff_toInt_lt.2 h; omega⟩

theorem remaining_toInt {b : Buffer} (hb : b.Valid) : b.remaining.toInt = (b.limit : Int) - b.position := by
  have h1 := hb.position
  have h2 := hb.limit
  have h3 := hb.small
  unfold Buffer.remaining
  rw [Int32.toInt_ofNat_of_lt (by omega)]
  omega

theorem checks_buffer {b : Buffer} (hb : b.Valid) (size : Int32) :
    Checks (throwIfByteBufferTooSmall b.remaining size) (b.position + size.toInt ≤ b.limit) := by
  have := remaining_toInt hb
  unfold throwIfByteBufferTooSmall Checks
  split
  · next h => exact .inr ⟨⟨_, rfl⟩, by have := Int32.lt_iff_toInt_lt.1 h; omega⟩
  · next h => exact .inl ⟨rfl, by have := mt Int32.lt_iff_toInt_lt.2 h; omega⟩

theorem start_toNat {x : Int64} (h : 0 ≤ x.toInt) : (x.toUInt64.toNat : Int) = x.toInt := by
  have h0 : (0 : Int64) ≤ x := by rw [Int64.le_iff_toInt_le]; simpa using h
  rw [Int64.toNat_toUInt64_of_le h0, Int64.toNatClampNeg]
  omega

theorem start32_toNat {x : Int32} (h : 0 ≤ x.toInt) : (x.toUInt32.toNat : Int) = x.toInt := by
  have h0 : (0 : Int32) ≤ x := by rw [Int32.le_iff_toInt_le]; simpa using h
  rw [Int32.toNat_toUInt32_of_le h0, Int32.toNatClampNeg]
  omega

/-! ## C83: the bytes of a search -/

/-- **C83**: searching an array (or looking whether something starts there): the library is
given exactly the bytes named, with their offset, if there is an array, a callback, a live
context and that many bytes; and otherwise the call throws.  In no case is anything else
read. -/
theorem search_array (ctx : Nat) (buffer : Option (List UInt8)) (hb : ∀ a ∈ buffer, IsArray a)
    (offset size : Int32) (startOffset : Int64) (callback : Option Unit) :
    (∃ a bytes g, buffer = some a ∧ callback ≠ none ∧ ctx ≠ 0 ∧ part a offset.toInt size.toInt = some bytes ∧
        0 ≤ startOffset.toInt ∧ searchArray ctx buffer offset size startOffset callback = .ok g ∧
        g.bytes = bytes ∧ (g.start.toNat : Int) = startOffset.toInt) ∨
    ((buffer = none ∨ callback = none ∨ ctx = 0 ∨ startOffset.toInt < 0 ∨
        ∃ a, buffer = some a ∧ part a offset.toInt size.toInt = none) ∧
      ∃ e, searchArray ctx buffer offset size startOffset callback = .threw e) := by
  cases buffer with
  | none => exact .inr ⟨.inl rfl, _, rfl⟩
  | some a =>
    have ha := hb a rfl
    simp only [searchArray, throwIfNull, bind_ok]
    rcases checks_negative offset with ⟨e, h1⟩ | ⟨⟨e, he⟩, h1⟩
    rotate_left
    · exact .inr ⟨.inr (.inr (.inr (.inr ⟨a, rfl, by simp [part, h1]⟩))), e, by rw [he]; rfl⟩
    rw [e, bind_ok]; clear e
    rcases checks_negative size with ⟨e, h2⟩ | ⟨⟨e, he⟩, h2⟩
    rotate_left
    · exact .inr ⟨.inr (.inr (.inr (.inr ⟨a, rfl, by simp [part, h2]⟩))), e, by rw [he]; rfl⟩
    rw [e, bind_ok]; clear e
    rcases checks_array ha h1 size with ⟨e, h3⟩ | ⟨⟨e, he⟩, h3⟩
    rotate_left
    · exact .inr ⟨.inr (.inr (.inr (.inr ⟨a, rfl, by simp [part, h3]⟩))), e, by rw [he]; rfl⟩
    rw [e, bind_ok]; clear e
    rcases checks_negativeLong startOffset with ⟨e, h4⟩ | ⟨⟨e, he⟩, h4⟩
    rotate_left
    · exact .inr ⟨.inr (.inr (.inr (.inl (by omega)))), e, by rw [he]; rfl⟩
    rw [e, bind_ok]; clear e
    cases callback with
    | none => exact .inr ⟨.inr (.inl rfl), _, rfl⟩
    | some u =>
      simp only [bind_ok]
      rcases checks_destroyed ctx with ⟨e, h5⟩ | ⟨⟨e, he⟩, h5⟩
      rotate_left
      · exact .inr ⟨.inr (.inr (.inl (by omega))), e, by rw [he]; rfl⟩
      rw [e, bind_ok]; clear e
      refine .inl ⟨a, (a.drop offset.toInt.toNat).take size.toInt.toNat, ⟨_, startOffset.toUInt64⟩, rfl, by simp, h5, ?_, h4, ?_, rfl,
        start_toNat h4⟩
      · simp [part, h1, h2, h3]
      · simp [span, h1, h2, h3]

theorem handOver_exact {b : Buffer} (hb : b.Valid) {size : Int32} (h0 : 0 ≤ size.toInt)
    (h1 : b.position + size.toInt ≤ b.limit) :
    handOver b size = .ok (b.rest.take size.toInt.toNat,
      match b.store with
      | .readOnly _ _ => { b with position := b.position + size.toInt.toNat }
      | _ => b) := by
  have p1 := hb.position
  have p2 := hb.limit
  have p3 := hb.small
  have q : (Int32.ofNat b.position).toInt = b.position := Int32.toInt_ofNat_of_lt (by omega)
  obtain ⟨st, pos, lim, cap⟩ := b
  cases st with
  | direct mem =>
    have hm := hb.direct mem rfl
    simp only [handOver, Buffer.rest] at *
    have hs : span mem (Int32.ofNat pos) size = .ok ((mem.drop pos).take size.toInt.toNat) := by
      unfold span
      rw [q, if_pos ⟨by omega, h0, by omega⟩]
      simp
    rw [hs, bind_ok, List.take_take, Nat.min_eq_left (by omega)]
  | array arr k =>
    obtain ⟨m1, m2⟩ := hb.array arr k rfl
    simp only [handOver, Buffer.rest] at *
    have qk : (Int32.ofNat k).toInt = k := Int32.toInt_ofNat_of_lt (by omega)
    have qs : (Int32.ofNat k + Int32.ofNat pos).toInt = k + pos := by
      rw [Int32.toInt_add, qk, q, bmod32] <;> omega
    have hs : span arr (Int32.ofNat k + Int32.ofNat pos) size = .ok ((arr.drop (k + pos)).take size.toInt.toNat) := by
      unfold span
      rw [qs, if_pos ⟨by omega, h0, by omega⟩]
      rw [show ((k : Int) + (pos : Int)).toNat = k + pos by omega]
    rw [hs, bind_ok, List.take_take, Nat.min_eq_left (by omega)]
  | readOnly arr k =>
    obtain ⟨m1, m2⟩ := hb.readOnly arr k rfl
    simp only [handOver, Buffer.rest, Buffer.get] at *
    have hs : span ((arr.drop (k + pos)).take size.toInt.toNat) 0 size = .ok ((arr.drop (k + pos)).take size.toInt.toNat) := by
      unfold span
      have hl : ((arr.drop (k + pos)).take size.toInt.toNat).length = size.toInt.toNat := by
        rw [List.length_take, List.length_drop]; omega
      rw [if_pos ⟨by decide, h0, by rw [hl]; simp only [Int32.toInt_zero]; omega⟩, List.take_of_length_le]
      · rfl
      · rw [List.length_drop, hl]; omega
    rw [hs, bind_ok, List.take_take, Nat.min_eq_left (by omega)]

/-- **C83**: searching a buffer: the library is given exactly the first `size` of the bytes
that remain in the buffer, whatever backs it, or the call throws. -/
theorem search_buffer (ctx : Nat) (buffer : Option Buffer) (hb : ∀ b ∈ buffer, b.Valid)
    (size : Int32) (startOffset : Int64) (callback : Option Unit) :
    (∃ b g b', buffer = some b ∧ callback ≠ none ∧ ctx ≠ 0 ∧ 0 ≤ size.toInt ∧ b.position + size.toInt ≤ b.limit ∧
        0 ≤ startOffset.toInt ∧ searchBuffer ctx buffer size startOffset callback = .ok (g, b') ∧
        g.bytes = b.rest.take size.toInt.toNat ∧ (g.start.toNat : Int) = startOffset.toInt) ∨
    ((buffer = none ∨ callback = none ∨ ctx = 0 ∨ startOffset.toInt < 0 ∨ size.toInt < 0 ∨
        ∃ b, buffer = some b ∧ (b.limit : Int) < b.position + size.toInt) ∧
      ∃ e, searchBuffer ctx buffer size startOffset callback = .threw e) := by
  cases buffer with
  | none => exact .inr ⟨.inl rfl, _, rfl⟩
  | some b =>
    have hv := hb b rfl
    simp only [searchBuffer, throwIfNull, bind_ok]
    rcases checks_negative size with ⟨e, h2⟩ | ⟨⟨e, he⟩, h2⟩
    rotate_left
    · exact .inr ⟨.inr (.inr (.inr (.inr (.inl (by omega))))), e, by rw [he]; rfl⟩
    rw [e, bind_ok]; clear e
    rcases checks_buffer hv size with ⟨e, h3⟩ | ⟨⟨e, he⟩, h3⟩
    rotate_left
    · exact .inr ⟨.inr (.inr (.inr (.inr (.inr ⟨b, rfl, by omega⟩)))), e, by rw [he]; rfl⟩
    rw [e, bind_ok]; clear e
    rcases checks_negativeLong startOffset with ⟨e, h4⟩ | ⟨⟨e, he⟩, h4⟩
    rotate_left
    · exact .inr ⟨.inr (.inr (.inr (.inl (by omega)))), e, by rw [he]; rfl⟩
    rw [e, bind_ok]; clear e
    cases callback with
    | none => exact .inr ⟨.inr (.inl rfl), _, rfl⟩
    | some u =>
      simp only [bind_ok]
      rcases checks_destroyed ctx with ⟨e, h5⟩ | ⟨⟨e, he⟩, h5⟩
      rotate_left
      · exact .inr ⟨.inr (.inr (.inl (by omega))), e, by rw [he]; rfl⟩
      rw [e, bind_ok, handOver_exact hv h2 h3, bind_ok]
      exact .inl ⟨b, _, _, rfl, by simp, h5, h2, h3, h4, rfl, rfl, start_toNat h4⟩

/-- The buffer is left as it was, unless it hides a read-only array: then its position is
behind the bytes searched. -/
theorem search_buffer_position {ctx : Nat} {b b' : Buffer} (hv : b.Valid) {size : Int32} {startOffset : Int64}
    {callback : Option Unit} {g : Given} (h : searchBuffer ctx (some b) size startOffset callback = .ok (g, b')) :
    b' = match b.store with
      | .readOnly _ _ => { b with position := b.position + size.toInt.toNat }
      | _ => b := by
  simp only [searchBuffer, throwIfNull, bind_ok] at h
  rcases checks_negative size with ⟨e, h2⟩ | ⟨⟨e, he⟩, h2⟩
  rotate_left
  · rw [he] at h; cases h
  rw [e, bind_ok] at h; clear e
  rcases checks_buffer hv size with ⟨e, h3⟩ | ⟨⟨e, he⟩, h3⟩
  rotate_left
  · rw [he] at h; cases h
  rw [e, bind_ok] at h; clear e
  rcases checks_negativeLong startOffset with ⟨e, h4⟩ | ⟨⟨e, he⟩, h4⟩
  rotate_left
  · rw [he] at h; cases h
  rw [e, bind_ok] at h; clear e
  cases callback with
  | none => cases h
  | some u =>
    simp only [bind_ok] at h
    rcases checks_destroyed ctx with ⟨e, h5⟩ | ⟨⟨e, he⟩, h5⟩
    rotate_left
    · rw [he] at h; cases h
    rw [e, bind_ok, handOver_exact hv h2 h3, bind_ok] at h
    injection h with h
    injection h with _ h
    exact h.symm

/-- The read-only case does happen: the caller's buffer is empty after a search that leaves
a writable buffer with the same bytes as it was. -/
theorem read_only_buffer_moves :
    ∃ b b' : Buffer, b.Valid ∧ b'.Valid ∧ b.rest = b'.rest ∧ b.position = b'.position ∧
      (∃ g, searchBuffer 1 (some b) 2 0 (some ()) = .ok (g, { b with position := 2 })) ∧
      (∃ g, searchBuffer 1 (some b') 2 0 (some ()) = .ok (g, b')) := by
  refine ⟨⟨.readOnly [97, 98] 0, 0, 2, 2⟩, ⟨.array [97, 98] 0, 0, 2, 2⟩,
    ⟨by decide, by decide, by decide, by simp, by simp, by simp⟩,
    ⟨by decide, by decide, by decide, by simp, by simp, by simp⟩, rfl, rfl, ⟨⟨[97, 98], 0⟩, rfl⟩, ⟨⟨[97, 98], 0⟩, rfl⟩⟩

/-- A slice of an array, read in the middle. -/
example : searchBuffer 7 (some ⟨.array [1, 2, 3, 4, 5, 6] 1, 1, 4, 5⟩) 2 100 (some ()) =
    .ok (⟨[3, 4], 100⟩, ⟨.array [1, 2, 3, 4, 5, 6] 1, 1, 4, 5⟩) := by rfl

example : searchArray 7 (some [1, 2, 3, 4, 5, 6]) 2 3 100 (some ()) = .ok ⟨[3, 4, 5], 100⟩ := by rfl

/-- Sizes and offsets whose sum is above `Integer.MAX_VALUE` are refused, too. -/
example : searchArray 7 (some [1, 2, 3]) 2147483647 2147483647 0 (some ()) = .threw .outOfBounds := by rfl

/-! ## C83: the text around a hit -/

/-- The windows that may be asked for: a hit within the bytes. -/
def HitWithin (size : Int32) (startOffset ibegin iend : Int64) : Prop :=
  0 ≤ startOffset.toInt ∧ startOffset.toInt ≤ ibegin.toInt ∧ ibegin.toInt ≤ iend.toInt ∧
  iend.toInt ≤ startOffset.toInt + size.toInt

/-- If the check passes, the hit lies within the bytes. -/
theorem contextChecks_sound {size : Int32} {startOffset ibegin iend : Int64} {encoding : Option Unit}
    {windowSize replacement : Int32} (hs : 0 ≤ size.toInt) :
    (contextChecks size startOffset ibegin iend encoding windowSize replacement = .ok () ∧
      HitWithin size startOffset ibegin iend ∧ 0 ≤ windowSize.toInt ∧ 0 ≤ replacement.toInt ∧ replacement.toInt ≤ 0x10FFFF) ∨
    ∃ e, contextChecks size startOffset ibegin iend encoding windowSize replacement = .threw e := by
  unfold contextChecks
  rcases checks_negativeLong startOffset with ⟨e, h1⟩ | ⟨⟨e, he⟩, h1⟩
  rotate_left
  · exact .inr ⟨e, by rw [he]; rfl⟩
  rw [e, bind_ok]; clear e
  rcases checks_negativeLong ibegin with ⟨e, h2⟩ | ⟨⟨e, he⟩, h2⟩
  rotate_left
  · exact .inr ⟨e, by rw [he]; rfl⟩
  rw [e, bind_ok]; clear e
  rcases checks_negativeLong iend with ⟨e, h3⟩ | ⟨⟨e, he⟩, h3⟩
  rotate_left
  · exact .inr ⟨e, by rw [he]; rfl⟩
  rw [e, bind_ok]; clear e
  rcases checks_greaterLong startOffset ibegin with ⟨e, h4⟩ | ⟨⟨e, he⟩, h4⟩
  rotate_left
  · exact .inr ⟨e, by rw [he]; rfl⟩
  rw [e, bind_ok]; clear e
  rcases checks_greaterLong ibegin iend with ⟨e, h5⟩ | ⟨⟨e, he⟩, h5⟩
  rotate_left
  · exact .inr ⟨e, by rw [he]; rfl⟩
  rw [e, bind_ok]; clear e
  rcases checks_greaterLong iend (startOffset + size.toInt64) with ⟨e, h6⟩ | ⟨⟨e, he⟩, h6⟩
  rotate_left
  · exact .inr ⟨e, by rw [he]; rfl⟩
  rw [e, bind_ok]; clear e
  cases encoding with
  | none => exact .inr ⟨_, rfl⟩
  | some u =>
    simp only [throwIfNull, bind_ok]
    rcases checks_negative windowSize with ⟨e, h7⟩ | ⟨⟨e, he⟩, h7⟩
    rotate_left
    · exact .inr ⟨e, by rw [he]; rfl⟩
    rw [e, bind_ok]; clear e
    rcases checks_negative replacement with ⟨e, h8⟩ | ⟨⟨e, he⟩, h8⟩
    rotate_left
    · exact .inr ⟨e, by rw [he]; rfl⟩
    rw [e, bind_ok]; clear e
    rcases checks_greater replacement 0x10FFFF with ⟨e, h9⟩ | ⟨⟨e, he⟩, h9⟩
    rotate_left
    · exact .inr ⟨e, he⟩
    refine .inl ⟨e, ⟨h1, h4, h5, ?_⟩, h7, h8, h9⟩
    rw [Int64.toInt_add, Int32.toInt_toInt64] at h6
    have b1 := Int64.toInt_lt startOffset
    have b2 := Int32.toInt_lt size
    have hmod : (startOffset.toInt + size.toInt).bmod (2 ^ 64) ≤ startOffset.toInt + size.toInt := by
      rw [Int.bmod_def]; split <;> omega
    omega

/-- A hit within bytes whose last offset is still a `long` passes. -/
theorem contextChecks_complete {size : Int32} {startOffset ibegin iend : Int64} {windowSize replacement : Int32}
    (hs : 0 ≤ size.toInt) (hh : HitWithin size startOffset ibegin iend)
    (hw : 0 ≤ windowSize.toInt) (hr : 0 ≤ replacement.toInt) (hr' : replacement.toInt ≤ 0x10FFFF)
    (hlong : startOffset.toInt + size.toInt < 2 ^ 63) :
    contextChecks size startOffset ibegin iend (some ()) windowSize replacement = .ok () := by
  obtain ⟨h1, h2, h3, h4⟩ := hh
  have pass : ∀ {o : Out Unit} {p : Prop}, Checks o p → p → o = .ok () := by
    intro o p h hp
    rcases h with ⟨h, -⟩ | ⟨-, h⟩
    · exact h
    · exact absurd hp h
  have hsum : (startOffset + size.toInt64).toInt = startOffset.toInt + size.toInt := by
    rw [Int64.toInt_add, Int32.toInt_toInt64, Int.bmod_eq_of_le] <;> omega
  unfold contextChecks
  rw [pass (checks_negativeLong _) h1, bind_ok, pass (checks_negativeLong _) (by omega), bind_ok,
    pass (checks_negativeLong _) (by omega), bind_ok, pass (checks_greaterLong _ _) h2, bind_ok,
    pass (checks_greaterLong _ _) h3, bind_ok, pass (checks_greaterLong _ _) (by omega), bind_ok]
  simp only [throwIfNull, bind_ok]
  rw [pass (checks_negative _) hw, bind_ok, pass (checks_negative _) hr, bind_ok]
  exact pass (checks_greater _ _) hr'

/-- **C83**: the text around a hit, with a decoder that was not destroyed: the library is
asked about a hit within exactly the bytes named, or the call throws. -/
theorem hit_context_array_partial {dec : Option Nat} (hdec : dec ≠ some 0) (buffer : Option (List UInt8))
    (hb : ∀ a ∈ buffer, IsArray a) (offset size : Int32) (startOffset ibegin iend : Int64)
    (encoding : Option Unit) (windowSize replacement : Int32) :
    (∃ a bytes g, buffer = some a ∧ part a offset.toInt size.toInt = some bytes ∧ HitWithin size startOffset ibegin iend ∧
        hitContextArray dec buffer offset size startOffset ibegin iend encoding windowSize replacement = .ok g ∧
        g.bytes = bytes ∧ (g.start.toNat : Int) = startOffset.toInt ∧ (g.hitBegin.toNat : Int) = ibegin.toInt ∧
        (g.hitEnd.toNat : Int) = iend.toInt ∧ (g.windowSize.toNat : Int) = windowSize.toInt ∧
        (g.replacement.toNat : Int) = replacement.toInt ∧ g.replacement.toNat ≤ 0x10FFFF) ∨
    ∃ e, hitContextArray dec buffer offset size startOffset ibegin iend encoding windowSize replacement = .threw e := by
  cases dec with
  | none => exact .inr ⟨_, rfl⟩
  | some p =>
  have hp : p ≠ 0 := fun h => hdec (by rw [h])
  cases buffer with
  | none => exact .inr ⟨_, rfl⟩
  | some a =>
    have ha := hb a rfl
    simp only [hitContextArray, throwIfNull, bind_ok]
    rcases checks_negative offset with ⟨e, h1⟩ | ⟨⟨e, he⟩, h1⟩
    rotate_left
    · exact .inr ⟨e, by rw [he]; rfl⟩
    rw [e, bind_ok]; clear e
    rcases checks_negative size with ⟨e, h2⟩ | ⟨⟨e, he⟩, h2⟩
    rotate_left
    · exact .inr ⟨e, by rw [he]; rfl⟩
    rw [e, bind_ok]; clear e
    rcases checks_array ha h1 size with ⟨e, h3⟩ | ⟨⟨e, he⟩, h3⟩
    rotate_left
    · exact .inr ⟨e, by rw [he]; rfl⟩
    rw [e, bind_ok]; clear e
    rcases contextChecks_sound (startOffset := startOffset) (ibegin := ibegin) (iend := iend) (encoding := encoding)
      (windowSize := windowSize) (replacement := replacement) h2 with ⟨e, hw, w1, w2, w3⟩ | ⟨e, he⟩
    rotate_left
    · exact .inr ⟨e, by rw [he]; rfl⟩
    rw [e, bind_ok]
    have hs : span a offset size = .ok ((a.drop offset.toInt.toNat).take size.toInt.toNat) := by
      unfold span; rw [if_pos ⟨h1, h2, h3⟩]
    obtain ⟨g1, g2, g3, g4⟩ := hw
    refine .inl ⟨a, (a.drop offset.toInt.toNat).take size.toInt.toNat,
      ⟨_, startOffset.toUInt64, ibegin.toUInt64, iend.toUInt64, windowSize.toInt64.toUInt64, replacement.toUInt32⟩,
      rfl, ?_, ⟨g1, g2, g3, g4⟩, ?_, rfl, start_toNat g1, start_toNat (Int.le_trans g1 g2),
      start_toNat (Int.le_trans g1 (Int.le_trans g2 g3)), ?_, start32_toNat w2, ?_⟩
    · simp [part, h1, h2, h3]
    · rw [hs, bind_ok, useDecoder, if_neg hp, bind_ok]
    · have : (0 : Int) ≤ windowSize.toInt64.toInt := by rw [Int32.toInt_toInt64]; exact w1
      show (windowSize.toInt64.toUInt64.toNat : Int) = _
      rw [start_toNat this, Int32.toInt_toInt64]
    · have := start32_toNat w2
      show replacement.toUInt32.toNat ≤ _
      omega

/-- **C83**: the same for buffers. -/
theorem hit_context_buffer_partial {dec : Option Nat} (hdec : dec ≠ some 0) (buffer : Option Buffer)
    (hb : ∀ b ∈ buffer, b.Valid) (size : Int32) (startOffset ibegin iend : Int64)
    (encoding : Option Unit) (windowSize replacement : Int32) :
    (∃ b g b', buffer = some b ∧ 0 ≤ size.toInt ∧ b.position + size.toInt ≤ b.limit ∧ HitWithin size startOffset ibegin iend ∧
        hitContextBuffer dec buffer size startOffset ibegin iend encoding windowSize replacement = .ok (g, b') ∧
        g.bytes = b.rest.take size.toInt.toNat ∧ (g.start.toNat : Int) = startOffset.toInt ∧
        (g.hitBegin.toNat : Int) = ibegin.toInt ∧ (g.hitEnd.toNat : Int) = iend.toInt) ∨
    ∃ e, hitContextBuffer dec buffer size startOffset ibegin iend encoding windowSize replacement = .threw e := by
  cases dec with
  | none => exact .inr ⟨_, rfl⟩
  | some p =>
  have hp : p ≠ 0 := fun h => hdec (by rw [h])
  cases buffer with
  | none => exact .inr ⟨_, rfl⟩
  | some b =>
    have hv := hb b rfl
    simp only [hitContextBuffer, throwIfNull, bind_ok]
    rcases checks_negative size with ⟨e, h2⟩ | ⟨⟨e, he⟩, h2⟩
    rotate_left
    · exact .inr ⟨e, by rw [he]; rfl⟩
    rw [e, bind_ok]; clear e
    rcases checks_buffer hv size with ⟨e, h3⟩ | ⟨⟨e, he⟩, h3⟩
    rotate_left
    · exact .inr ⟨e, by rw [he]; rfl⟩
    rw [e, bind_ok]; clear e
    rcases contextChecks_sound (startOffset := startOffset) (ibegin := ibegin) (iend := iend) (encoding := encoding)
      (windowSize := windowSize) (replacement := replacement) h2 with ⟨e, hw, w1, w2, w3⟩ | ⟨e, he⟩
    rotate_left
    · exact .inr ⟨e, by rw [he]; rfl⟩
    rw [e, bind_ok, handOver_exact hv h2 h3, bind_ok]
    obtain ⟨g1, g2, g3, g4⟩ := hw
    simp only [useDecoder, if_neg hp, bind_ok]
    exact .inl ⟨b, _, _, rfl, h2, h3, ⟨g1, g2, g3, g4⟩, rfl, rfl, start_toNat g1, start_toNat (Int.le_trans g1 g2),
      start_toNat (Int.le_trans g1 (Int.le_trans g2 g3))⟩

/-- Why the decoder must not be destroyed: nothing stops a call with one that is. -/
theorem hit_context_destroyed_decoder :
    hitContextArray (some 0) (some [97, 98, 99]) 0 3 0 1 2 (some ()) 1 0xFFFD = .wild := by rfl

/-- At the end of the range of `long` a hit within the bytes is refused, because the sum in the
check overflows. -/
theorem hit_context_overflow :
    HitWithin 3 9223372036854775806 9223372036854775806 9223372036854775807 ∧
    hitContextArray (some 1) (some [97, 98, 99]) 0 3 9223372036854775806 9223372036854775806 9223372036854775807
      (some ()) 1 0xFFFD = .threw .outOfBounds := by
  refine ⟨by unfold HitWithin; decide, by rfl⟩

example : hitContextArray (some 5) (some [97, 98, 99, 100]) 1 3 10 11 12 (some ()) 1 0xFFFD =
    .ok ⟨[98, 99, 100], 10, 11, 12, 1, 0xFFFD⟩ := by rfl

/-! ## C85: programs in arrays -/

theorem programSize_toInt {prog : List UInt8} (h : prog.length < 2 ^ 31) : (programSize prog).toInt = prog.length := by
  unfold programSize
  have h1 : (UInt32.ofNat prog.length).toInt32 = Int32.ofNat prog.length := by
    apply Int32.toBitVec_inj.1
    rfl
  rw [h1, Int32.toInt_ofNat_of_lt h]

/-- **C85**: a program of less than 2^31 bytes is written where the caller said, nothing
else in the array is changed, or the call throws. -/
theorem write_program_partial (ptr : Nat) {prog : List UInt8} (hp : prog.length < 2 ^ 31)
    (buffer : Option (List UInt8)) (hb : ∀ a ∈ buffer, IsArray a) (offset : Int32) :
    (∃ a a', buffer = some a ∧ ptr ≠ 0 ∧ 0 ≤ offset.toInt ∧ offset.toInt + prog.length ≤ a.length ∧
        writeProgram ptr prog buffer offset = .ok a' ∧ a'.length = a.length ∧
        part a' offset.toInt prog.length = some prog ∧
        ∀ i : Nat, ((i : Int) < offset.toInt ∨ offset.toInt + prog.length ≤ i) → a'[i]? = a[i]?) ∨
    ((buffer = none ∨ ptr = 0 ∨ offset.toInt < 0 ∨ ∃ a, buffer = some a ∧ (a.length : Int) < offset.toInt + prog.length) ∧
      ∃ e, writeProgram ptr prog buffer offset = .threw e) := by
  cases buffer with
  | none => exact .inr ⟨.inl rfl, _, rfl⟩
  | some a =>
    have ha := hb a rfl
    simp only [writeProgram, throwIfNull, bind_ok]
    rcases checks_negative offset with ⟨e, h1⟩ | ⟨⟨e, he⟩, h1⟩
    rotate_left
    · exact .inr ⟨.inr (.inr (.inl (by omega))), e, by rw [he]; rfl⟩
    rw [e, bind_ok]; clear e
    rcases checks_destroyed ptr with ⟨e, h2⟩ | ⟨⟨e, he⟩, h2⟩
    rotate_left
    · exact .inr ⟨.inr (.inl (by omega)), e, by rw [he]; rfl⟩
    rw [e, bind_ok]; clear e
    rcases checks_array ha h1 (programSize prog) with ⟨e, h3⟩ | ⟨⟨e, he⟩, h3⟩
    rotate_left
    · exact .inr ⟨.inr (.inr (.inr ⟨a, rfl, by rw [programSize_toInt hp] at h3; omega⟩)), e, by rw [he]; rfl⟩
    rw [e, bind_ok]; clear e
    rw [programSize_toInt hp] at h3
    rw [bind_ok]
    have ho := start32_toNat h1
    generalize hk : offset.toUInt32.toNat = k at ho
    have hkl : k + prog.length ≤ a.length := by omega
    refine .inl ⟨a, a.take k ++ prog ++ a.drop (k + prog.length), rfl, h2, h1, h3, ?_, ?_, ?_, ?_⟩
    · rw [writeAt, hk, if_pos hkl]
    · simp; omega
    · unfold part
      rw [if_pos ⟨h1, by omega, by simp; omega⟩, show offset.toInt.toNat = k by omega,
        show (prog.length : Int).toNat = prog.length by omega]
      rw [List.append_assoc, List.drop_append]
      have hlen : (a.take k).length = k := by simp; omega
      rw [hlen, Nat.sub_self, List.drop_zero, List.drop_of_length_le (by omega), List.nil_append,
        List.take_append_of_le_length (Nat.le_refl _), List.take_length]
    · intro i hi
      have hlen : (a.take k).length = k := by simp; omega
      rcases hi with hi | hi
      · rw [List.append_assoc, List.getElem?_append_left (by omega), List.getElem?_take_of_lt (by omega)]
      · rw [List.getElem?_append_right (by simp; omega), List.getElem?_drop]
        congr 1
        simp; omega

/-- Why the size matters: the size of a program of 2^31 bytes is a negative `int`, every
array is large enough for that, and the program is written behind its end. -/
theorem write_program_large {prog : List UInt8} (hp : prog.length = 2 ^ 31) {ptr : Nat} (hptr : ptr ≠ 0)
    {a : List UInt8} (ha : IsArray a) : writeProgram ptr prog (some a) 0 = .wild := by
  have hs : (programSize prog).toInt = -2 ^ 31 := by
    unfold programSize; rw [hp]; decide
  have pass : ∀ {o : Out Unit} {p : Prop}, Checks o p → p → o = .ok () := by
    intro o p h hp
    rcases h with ⟨h, -⟩ | ⟨-, h⟩
    · exact h
    · exact absurd hp h
  simp only [writeProgram, throwIfNull, bind_ok]
  rw [pass (checks_negative 0) (by decide), bind_ok, pass (checks_destroyed ptr) hptr, bind_ok,
    pass (checks_array ha (by decide) (programSize prog)) (by rw [hs]; simp), bind_ok, bind_ok]
  unfold writeAt
  rw [if_neg (by rw [hp]; unfold IsArray at ha; simp; omega)]

/-- Reading a program back: no call returns a program.  Bytes that are no program are refused
with an exception; for a program the native code uses a constructor ID that nothing has
set. -/
theorem read_program_fails (readable : List UInt8 → Bool) (buffer : Option (List UInt8))
    (offset size : Int32) : ∀ b, readProgram readable buffer offset size ≠ .ok b := by
  intro b h
  unfold readProgram at h
  cases buffer with
  | none => cases h
  | some a =>
    simp only [throwIfNull, bind_ok] at h
    rcases checks_negative offset with ⟨e, -⟩ | ⟨⟨e, he⟩, -⟩
    rotate_left
    · rw [he] at h; cases h
    rw [e, bind_ok] at h; clear e
    rcases checks_negative size with ⟨e, -⟩ | ⟨⟨e, he⟩, -⟩
    rotate_left
    · rw [he] at h; cases h
    rw [e, bind_ok] at h; clear e
    cases hc : throwIfByteArrayTooSmall (length a) offset size with
    | threw e => rw [hc] at h; cases h
    | wild => rw [hc] at h; cases h
    | ok u =>
      rw [hc, bind_ok] at h
      cases hs : span a offset size with
      | threw e => rw [hs] at h; cases h
      | wild => rw [hs] at h; cases h
      | ok bytes =>
        rw [hs, bind_ok] at h
        split at h
        · simp [newObject, ids] at h
        · cases h

/-- What the caller is promised, and what happens instead. -/
theorem read_program_wild {readable : List UInt8 → Bool} {prog : List UInt8} (hp : IsArray prog)
    (hr : readable prog = true) : readProgram readable (some prog) 0 (length prog) = .wild := by
  have hl := length_toInt hp
  have pass : ∀ {o : Out Unit} {p : Prop}, Checks o p → p → o = .ok () := by
    intro o p h hp
    rcases h with ⟨h, -⟩ | ⟨-, h⟩
    · exact h
    · exact absurd hp h
  have hs : span prog 0 (length prog) = .ok prog := by
    unfold span
    rw [if_pos ⟨by decide, by omega, by rw [hl]; simp⟩, hl]
    simp
  simp only [readProgram, throwIfNull, bind_ok]
  rw [pass (checks_negative 0) (by decide), bind_ok, pass (checks_negative _) (by omega), bind_ok,
    pass (checks_array hp (by decide) (length prog)) (by rw [hl]; simp), bind_ok, hs, bind_ok, if_pos hr]
  rfl

example : writeProgram 1 [7, 8] (some [0, 0, 0, 0]) 1 = .ok [0, 7, 8, 0] := by rfl
example : writeProgram 1 [7, 8] (some [0, 0, 0, 0]) 3 = .threw .outOfBounds := by rfl

/-! ## C86: numbers -/

theorem toUInt32_of_userIndex (u : Int32) : u.toInt64.toUInt64.toUInt32.toInt32 = u := by
  apply Int32.toBitVec_inj.1
  show BitVec.setWidth 32 (BitVec.signExtend 64 u.toBitVec) = u.toBitVec
  ext i hi
  simp only [BitVec.getElem_setWidth, BitVec.getLsbD_signExtend]
  have : i < 64 := by omega
  simp [this, hi, BitVec.getLsbD_eq_getElem]

/-- **C86**: a user index given to `addPattern` or `setUserIndex` is the one that
`getUserIndex` gives back, for every `int`; other indices are not changed; and a pattern
index that there is not is refused. -/
theorem user_index_roundtrip {ptr : Nat} (hptr : ptr ≠ 0) {m : List UInt64} (hm : m.length < 2 ^ 31 - 1) (u : Int32) :
    getUserIndex ptr (addUserIndex m u) (Int32.ofNat m.length) = .ok u ∧
    (∀ i : Int32, i.toInt < m.length → getUserIndex ptr (addUserIndex m u) i = getUserIndex ptr m i) ∧
    (∀ i : Int32, 0 ≤ i.toInt → i.toInt < m.length → ∃ m', setUserIndex ptr m i u = .ok m' ∧ m'.length = m.length ∧
      getUserIndex ptr m' i = .ok u ∧ ∀ j : Int32, j ≠ i → getUserIndex ptr m' j = getUserIndex ptr m j) ∧
    (∀ i : Int32, (i.toInt < 0 ∨ (m.length : Int) ≤ i.toInt) → getUserIndex ptr m i = .threw .outOfBounds ∧
      setUserIndex ptr m i u = .threw .outOfBounds) := by
  have pass : ∀ {o : Out Unit} {p : Prop}, Checks o p → p → o = .ok () := by
    intro o p h hp
    rcases h with ⟨h, -⟩ | ⟨-, h⟩
    · exact h
    · exact absurd hp h
  have count : ∀ k : Nat, k < 2 ^ 31 → (UInt32.ofNat k).toInt32.toInt = k := by
    intro k hk
    have : (UInt32.ofNat k).toInt32 = Int32.ofNat k := Int32.toBitVec_inj.1 rfl
    rw [this, Int32.toInt_ofNat_of_lt hk]
  have oob : ∀ (k : Nat), k < 2 ^ 31 → ∀ i : Int32, i.toInt < k → throwIfPatternIndexOOB (UInt32.ofNat k) i = .ok () := by
    intro k hk i hi
    unfold throwIfPatternIndexOOB
    rw [if_neg]
    rw [Int32.le_iff_toInt_le, count k hk]
    omega
  have get : ∀ (l : List UInt64), l.length < 2 ^ 31 → ∀ i : Int32, 0 ≤ i.toInt → i.toInt < l.length →
      getUserIndex ptr l i = .ok (l.getD i.toInt.toNat 0).toUInt32.toInt32 := by
    intro l hl i h0 h1
    unfold getUserIndex
    rw [pass (checks_destroyed ptr) hptr, bind_ok, pass (checks_negative i) h0, bind_ok, oob _ hl i h1, bind_ok]
    have hn : i.toUInt32.toNat = i.toInt.toNat := by have := start32_toNat h0; omega
    have hlt : i.toInt.toNat < l.length := by omega
    simp only [entryAt, hn, List.getElem?_eq_getElem hlt, bind_ok, List.getD_eq_getElem?_getD, Option.getD_some]
  have neg : ∀ (l : List UInt64) (i : Int32), i.toInt < 0 → getUserIndex ptr l i = .threw .outOfBounds ∧
      setUserIndex ptr l i u = .threw .outOfBounds := by
    intro l i hi
    have : throwIfNegative i = .threw .outOfBounds := by
      unfold throwIfNegative
      rw [if_pos (Int32.lt_iff_toInt_lt.2 (by simpa using hi))]
    unfold getUserIndex setUserIndex
    rw [pass (checks_destroyed ptr) hptr, this]
    exact ⟨rfl, rfl⟩
  refine ⟨?_, ?_, ?_, ?_⟩
  · have hi : (Int32.ofNat m.length).toInt = m.length := Int32.toInt_ofNat_of_lt (by omega)
    rw [get _ (by simp [addUserIndex]; omega) _ (by omega) (by rw [hi]; simp [addUserIndex]; omega), hi]
    simp [addUserIndex, toUInt32_of_userIndex]
  · intro i hi
    by_cases h0 : 0 ≤ i.toInt
    · rw [get _ (by simp [addUserIndex]; omega) i h0 (by simp [addUserIndex]; omega), get m (by omega) i h0 hi]
      have hlt : i.toInt.toNat < m.length := by omega
      rw [List.getD_eq_getElem?_getD, List.getD_eq_getElem?_getD, addUserIndex, List.getElem?_append_left hlt]
    · rw [(neg _ i (by omega)).1, (neg _ i (by omega)).1]
  · intro i h0 h1
    have hn : i.toUInt32.toNat = i.toInt.toNat := by have := start32_toNat h0; omega
    have hlt : i.toInt.toNat < m.length := by omega
    refine ⟨m.set i.toInt.toNat u.toInt64.toUInt64, ?_, by simp, ?_, ?_⟩
    · unfold setUserIndex
      rw [pass (checks_destroyed ptr) hptr, bind_ok, pass (checks_negative i) h0, bind_ok, oob _ (by omega) i h1, bind_ok]
      simp only [entryAt, hn, List.getElem?_eq_getElem hlt, bind_ok]
    · rw [get _ (by simp; omega) i h0 (by simpa using h1)]
      rw [List.getD_eq_getElem?_getD, List.getElem?_set_self hlt, Option.getD_some, toUInt32_of_userIndex]
    · intro j hj
      by_cases j0 : 0 ≤ j.toInt
      · by_cases j1 : j.toInt < m.length
        · rw [get _ (by simp; omega) j j0 (by simpa using j1), get m (by omega) j j0 j1]
          have hne : i.toInt.toNat ≠ j.toInt.toNat := by
            intro h
            exact hj (Int32.toInt_inj.1 (by omega))
          rw [List.getD_eq_getElem?_getD, List.getD_eq_getElem?_getD, List.getElem?_set_ne hne]
        · have out : ∀ l : List UInt64, l.length = m.length → getUserIndex ptr l j = .threw .outOfBounds := by
            intro l hl
            unfold getUserIndex
            rw [pass (checks_destroyed ptr) hptr, bind_ok, pass (checks_negative j) j0, bind_ok]
            unfold throwIfPatternIndexOOB
            rw [if_pos (by rw [Int32.le_iff_toInt_le, count _ (by omega)]; omega), bind_threw]
          rw [out _ (by simp), out _ rfl]
      · rw [(neg _ j (by omega)).1, (neg _ j (by omega)).1]
  · intro i hi
    by_cases h0 : 0 ≤ i.toInt
    · have hle : (m.length : Int) ≤ i.toInt := by omega
      have : throwIfPatternIndexOOB (UInt32.ofNat m.length) i = .threw .outOfBounds := by
        unfold throwIfPatternIndexOOB
        rw [if_pos (by rw [Int32.le_iff_toInt_le, count _ (by omega)]; omega)]
      unfold getUserIndex setUserIndex
      rw [pass (checks_destroyed ptr) hptr, bind_ok, bind_ok, pass (checks_negative i) h0, bind_ok, bind_ok, this]
      exact ⟨rfl, rfl⟩
    · exact neg m i (by omega)

/-- **C86**: the numbers of a hit below 2^63 (offsets) and 2^31 (keywords) are what Java sees. -/
theorem hit_numbers {start stop : UInt64} {label : UInt32} (h1 : start.toNat < 2 ^ 63) (h2 : stop.toNat < 2 ^ 63)
    (h3 : label.toNat < 2 ^ 31) :
    (searchHit start stop label).start.toInt = start.toNat ∧ (searchHit start stop label).stop.toInt = stop.toNat ∧
    (searchHit start stop label).keywordIndex.toInt = label.toNat := by
  have key : ∀ x : UInt64, x.toNat < 2 ^ 63 → x.toInt64.toInt = x.toNat := by
    intro x hx
    have : x.toInt64 = Int64.ofNat x.toNat := by
      apply Int64.toBitVec_inj.1
      show x.toBitVec = BitVec.ofNat 64 x.toNat
      simp
    rw [this, Int64.toInt_ofNat_of_lt hx]
  refine ⟨key _ h1, key _ h2, ?_⟩
  have : label.toInt32 = Int32.ofNat label.toNat := by
    apply Int32.toBitVec_inj.1
    show label.toBitVec = BitVec.ofNat 32 label.toNat
    simp
  show label.toInt32.toInt = _
  rw [this, Int32.toInt_ofNat_of_lt h3]

/-- The result of a search is the library's only while it is below 2^31. -/
theorem search_result_partial {r : UInt64} (h : r.toNat < 2 ^ 31) : (searchResult r).toInt = r.toNat := by
  have : searchResult r = Int32.ofNat r.toNat := by
    apply Int32.toBitVec_inj.1
    show BitVec.setWidth 32 r.toBitVec = BitVec.ofNat 32 r.toNat
    apply BitVec.eq_of_toNat_eq
    simp
  rw [this, Int32.toInt_ofNat_of_lt h]

/-- From 4 GiB on the offset that `search` returns is wrong. -/
theorem search_result_truncated : searchResult 4294967301 = 5 := by decide

example : getUserIndex 1 (addUserIndex [5] (-3)) 1 = .ok (-3) := by rfl

end Verif.Java
