import Verif.Encoders
import Verif.Props.NfaBuilder
import Verif.Props.Utf
import Mathlib.Data.List.SplitBy
/-!
# C32, C33: character classes and their encodings

## Specification

A list of byte-set sequences denotes the byte strings which fit one of them
(`NfaBuilder.Fits`).  What a class should accept is given by the code-unit sequences of
the Unicode standard, `Utf.spec8`, `Utf.spec16`, `Utf.spec32`.
-/
namespace Verif.Encoders
open Verif.Nfa Verif.NfaBuilder

/-- The byte strings a list of sequences stands for. -/
def Denotes (encs : List Enc) (w : List UInt8) : Prop := ∃ e ∈ encs, Fits e w

/-- Numbers below 256 as bytes. -/
def toBytes (bs : List Nat) : List UInt8 := bs.map UInt8.ofNat

/-! ## Byte sets -/

theorem ofNat_toNat {b : Nat} (h : b < 256) : (UInt8.ofNat b).toNat = b := by
  rw [UInt8.toNat_ofNat']; omega

theorem has_setByte {b : Nat} (_hb : b < 256) (s : BSet) (x : UInt8) :
    (setByte s b).has x = (s.has x || decide (x.toNat = b)) := by
  have hx : x.toNat < 256 := x.toNat_lt
  unfold setByte BSet.has
  rw [BitVec.getLsbD_or, BitVec.getLsbD_ofNat]
  simp only [hx, decide_true, Bool.true_and, Nat.testBit_two_pow]
  congr 1
  exact decide_eq_decide.2 ⟨fun h => h.symm, fun h => h.symm⟩

theorem has_setByte_zero {b : Nat} (hb : b < 256) (x : UInt8) :
    (setByte 0 b).has x = true ↔ x = UInt8.ofNat b := by
  rw [has_setByte hb, has_zero]
  simp only [Bool.false_or, decide_eq_true_eq]
  constructor
  · intro h; apply UInt8.toNat_inj.1; rw [ofNat_toNat hb, h]
  · rintro rfl; exact ofNat_toNat hb

theorem ne_zero_of_has {s : BSet} {x : UInt8} (h : s.has x = true) : s ≠ 0 := by
  rintro rfl; rw [has_zero] at h; simp at h

theorem has_foldl (n : Nat) : ∀ (a : Nat) (s : BSet) (x : UInt8), a + n ≤ 256 →
    ((List.range' a n).foldl setByte s).has x = (s.has x || decide (a ≤ x.toNat ∧ x.toNat < a + n)) := by
  induction n with
  | zero => intro a s x _; simp
  | succ n ih =>
    intro a s x h
    rw [List.range'_succ, List.foldl_cons, ih (a + 1) _ x (by omega), has_setByte (by omega), Bool.or_assoc]
    congr 1
    rw [← Bool.decide_or]
    apply decide_eq_decide.2
    omega

theorem setRange_has {s : BSet} {a b : Nat} (h : a ≤ b) (hb : b ≤ 256) :
    ∃ t, setRange s a b = some t ∧ ∀ x, t.has x = (s.has x || decide (a ≤ x.toNat ∧ x.toNat < b)) := by
  refine ⟨_, if_pos ⟨h, hb⟩, fun x => ?_⟩
  rw [has_foldl _ _ _ _ (by omega), show a + (b - a) = b by omega]

/-! ## Fitting -/

theorem fits_nil {w : List UInt8} : Fits [] w ↔ w = [] := List.forall₂_nil_left_iff

theorem fits_cons {s : BSet} {e : Enc} {w : List UInt8} :
    Fits (s :: e) w ↔ ∃ b v, s.has b = true ∧ Fits e v ∧ w = b :: v := List.forall₂_cons_left_iff

theorem fits_append {p q : Enc} {w : List UInt8} :
    Fits (p ++ q) w ↔ ∃ u v, Fits p u ∧ Fits q v ∧ w = u ++ v := by
  induction p generalizing w with
  | nil =>
    constructor
    · intro h; exact ⟨[], w, fits_nil.2 rfl, h, rfl⟩
    · rintro ⟨u, v, hu, hv, rfl⟩; rw [fits_nil.1 hu]; exact hv
  | cons s p ih =>
    rw [List.cons_append, fits_cons]
    constructor
    · rintro ⟨b, v, hb, hv, rfl⟩
      obtain ⟨u, v', hu, hv', rfl⟩ := ih.1 hv
      exact ⟨b :: u, v', fits_cons.2 ⟨b, u, hb, hu, rfl⟩, hv', rfl⟩
    · rintro ⟨u, v, hu, hv, rfl⟩
      obtain ⟨b, u', hb, hu', rfl⟩ := fits_cons.1 hu
      exact ⟨b, u' ++ v, hb, ih.2 ⟨u', v, hu', hv, rfl⟩, rfl⟩

theorem fits_mid {p q : Enc} {s : BSet} {w : List UInt8} :
    Fits (p ++ s :: q) w ↔ ∃ u b v, Fits p u ∧ s.has b = true ∧ Fits q v ∧ w = u ++ b :: v := by
  rw [fits_append]
  constructor
  · rintro ⟨u, v, hu, hv, rfl⟩
    obtain ⟨b, v', hb, hv', rfl⟩ := fits_cons.1 hv
    exact ⟨u, b, v', hu, hb, hv', rfl⟩
  · rintro ⟨u, b, v, hu, hb, hv, rfl⟩
    exact ⟨u, b :: v, hu, fits_cons.2 ⟨b, v, hb, hv, rfl⟩, rfl⟩

theorem fits_exactly {bs : List Nat} (h : Verif.Utf.Bytes bs) {w : List UInt8} :
    Fits (exactly bs) w ↔ w = toBytes bs := by
  induction bs generalizing w with
  | nil => exact fits_nil
  | cons b bs ih =>
    have hb : b < 256 := h b (by simp)
    have ih := @ih (fun x hx => h x (by simp [hx]))
    show Fits (setByte 0 b :: exactly bs) w ↔ w = UInt8.ofNat b :: toBytes bs
    rw [fits_cons]
    constructor
    · rintro ⟨c, v, hc, hv, rfl⟩
      rw [(has_setByte_zero hb c).1 hc, ih.1 hv]
    · rintro rfl
      exact ⟨_, _, (has_setByte_zero hb _).2 rfl, ih.2 rfl, rfl⟩

theorem exactly_ne_zero {bs : List Nat} (h : Verif.Utf.Bytes bs) : ∀ s ∈ exactly bs, s ≠ 0 := by
  intro s hs
  obtain ⟨b, hb, rfl⟩ := List.mem_map.1 hs
  exact ne_zero_of_has ((has_setByte_zero (h b hb) _).2 rfl)

/-! ## Collapsing -/

theorem split_at {L skip n : Nat} {e x : Enc} (he : e.length = L) (hx : x.length = L) (hL : L = skip + 1 + n)
    (h : equalExceptAt n e x = true) :
    ∃ p a b q, e = p ++ a :: q ∧ x = p ++ b :: q ∧ p.length = skip := by
  unfold equalExceptAt at h
  rw [he, hx, Bool.and_eq_true, Bool.or_eq_true, Bool.or_eq_true, decide_eq_true_eq, decide_eq_true_eq,
    beq_iff_eq, beq_iff_eq] at h
  obtain ⟨h1, h2⟩ := h
  have hs : L - (n + 1) = skip := by omega
  have ht : L - n = skip + 1 := by omega
  rw [hs] at h1
  rw [ht] at h2
  have h1 : e.take skip = x.take skip := by
    rcases h1 with h1 | h1
    · have : skip = 0 := by omega
      rw [this]; rfl
    · exact h1
  have h2 : e.drop (skip + 1) = x.drop (skip + 1) := by
    rcases h2 with h2 | h2
    · rw [List.drop_eq_nil_of_le (by omega), List.drop_eq_nil_of_le (by omega)]
    · exact h2
  have hse : skip < e.length := by omega
  have hsx : skip < x.length := by omega
  refine ⟨e.take skip, e[skip], x[skip], e.drop (skip + 1), ?_, ?_, ?_⟩
  · rw [← List.drop_eq_getElem_cons hse, List.take_append_drop]
  · rw [h1, h2, ← List.drop_eq_getElem_cons hsx, List.take_append_drop]
  · rw [List.length_take]; omega

theorem modify_mid (p q : Enc) (a b : BSet) :
    (p ++ a :: q).modify p.length (· ||| (p ++ b :: q).getD p.length 0) = p ++ (a ||| b) :: q := by
  have : (p ++ b :: q).getD p.length 0 = b := by simp [List.getD_eq_getElem?_getD]
  rw [this, List.modify_append_right' _ _ _ ]
  · rfl
where
  List.modify_append_right' (p : Enc) (q : Enc) (f : BSet → BSet) :
      (p ++ q).modify p.length f = p ++ q.modify 0 f := by
    induction p with
    | nil => rfl
    | cons x p ih => simp [List.modify_succ_cons, ih]

theorem or_ne_zero {a b : BSet} (h : a ≠ 0) : a ||| b ≠ 0 := by
  intro hc
  apply h
  have : a = a &&& (a ||| b) := by
    ext i hi; simp; intro h; simp [h]
  rw [this, hc]
  simp

/-- What one group's loop does. -/
theorem collapse_spec {L n skip : Nat} (hL : L = skip + 1 + n) : ∀ (xs : List Enc) (e : Enc),
    (∀ x ∈ e :: xs, x.length = L) →
    (∀ w, Denotes (collapse n skip e xs) w ↔ Denotes (e :: xs) w) ∧
    (∀ x ∈ collapse n skip e xs, x.length = L) ∧
    ((∀ x ∈ e :: xs, ∀ s ∈ x, s ≠ 0) → ∀ x ∈ collapse n skip e xs, ∀ s ∈ x, s ≠ 0) ∧
    (L = 1 → ∃ x, collapse n skip e xs = [x]) := by
  intro xs
  induction xs with
  | nil => intro e h; exact ⟨fun w => Iff.rfl, h, fun h => h, fun _ => ⟨e, rfl⟩⟩
  | cons x xs ih =>
    intro e h
    have he : e.length = L := h e (by simp)
    have hx : x.length = L := h x (by simp)
    rw [collapse]
    by_cases hq : equalExceptAt n e x = true
    · rw [if_pos hq]
      obtain ⟨p, a, b, q, rfl, rfl, rfl⟩ := split_at he hx hL hq
      rw [modify_mid]
      obtain ⟨i1, i2, i3, i4⟩ := ih (p ++ (a ||| b) :: q) (by
        intro y hy
        rcases List.mem_cons.1 hy with rfl | hy
        · simp at he ⊢; omega
        · exact h y (by simp [hy]))
      refine ⟨fun w => ?_, i2, fun hz => i3 ?_, i4⟩
      · rw [i1 w]
        have key : Fits (p ++ (a ||| b) :: q) w ↔ Fits (p ++ a :: q) w ∨ Fits (p ++ b :: q) w := by
          simp only [fits_mid, has_or, Bool.or_eq_true]
          constructor
          · rintro ⟨u, c, v, hu, hc | hc, hv, hw⟩
            · exact Or.inl ⟨u, c, v, hu, hc, hv, hw⟩
            · exact Or.inr ⟨u, c, v, hu, hc, hv, hw⟩
          · rintro (⟨u, c, v, hu, hc, hv, hw⟩ | ⟨u, c, v, hu, hc, hv, hw⟩)
            · exact ⟨u, c, v, hu, Or.inl hc, hv, hw⟩
            · exact ⟨u, c, v, hu, Or.inr hc, hv, hw⟩
        simp only [Denotes, List.mem_cons, exists_eq_or_imp, key]
        tauto
      · intro y hy s hs
        rcases List.mem_cons.1 hy with rfl | hy
        · rcases List.mem_append.1 hs with hs | hs
          · exact hz _ (List.mem_cons_self) s (by simp [hs])
          · rcases List.mem_cons.1 hs with rfl | hs
            · exact or_ne_zero (hz _ (List.mem_cons_self) a (by simp))
            · exact hz _ (List.mem_cons_self) s (by simp [hs])
        · exact hz y (by simp [hy]) s hs
    · rw [if_neg hq]
      obtain ⟨i1, i2, i3, i4⟩ := ih x (fun y hy => h y (by simp at hy; simp [hy]))
      refine ⟨fun w => ?_, ?_, ?_, ?_⟩
      · have := i1 w
        simp only [Denotes, List.mem_cons, exists_eq_or_imp] at this ⊢
        rw [this]
      · intro y hy
        rcases List.mem_cons.1 hy with rfl | hy
        · exact he
        · exact i2 y hy
      · intro hz y hy
        rcases List.mem_cons.1 hy with rfl | hy
        · exact hz y (by simp)
        · exact i3 (fun z hz' => hz z (by simp at hz'; simp [hz'])) y hy
      · intro h1
        exfalso
        apply hq
        unfold equalExceptAt
        have : n = 0 := by omega
        simp [he, h1, this]

theorem denotes_perm {a b : List Enc} (h : a.Perm b) (w : List UInt8) : Denotes a w ↔ Denotes b w := by
  unfold Denotes; simp only [h.mem_iff]

/-- What is done with one size group. -/
theorem collapseGroup_spec {L n : Nat} (hn : n < L) (grp : List Enc) (h : ∀ x ∈ grp, x.length = L) :
    (∀ w, Denotes (collapseGroup n grp) w ↔ Denotes grp w) ∧
    (∀ x ∈ collapseGroup n grp, x.length = L) ∧
    ((∀ x ∈ grp, ∀ s ∈ x, s ≠ 0) → ∀ x ∈ collapseGroup n grp, ∀ s ∈ x, s ≠ 0) ∧
    (L = 1 → (collapseGroup n grp).length ≤ 1) := by
  cases grp with
  | nil => exact ⟨fun w => Iff.rfl, h, fun h => h, fun _ => by simp [collapseGroup]⟩
  | cons e es =>
    have he : e.length = L := h e (by simp)
    unfold collapseGroup
    simp only [he]
    generalize hg : (if L > 1 then (e :: es).insertionSort fun a b => notAfter (L - n - 1) a b = true else e :: es) = g'
    have hp : g'.Perm (e :: es) := by
      rw [← hg]; split
      · exact List.perm_insertionSort _ _
      · exact List.Perm.refl _
    have hm : ∀ x, x ∈ g' ↔ x ∈ e :: es := fun x => hp.mem_iff
    cases g' with
    | nil => exact absurd hp.length_eq (by simp)
    | cons x xs =>
      obtain ⟨i1, i2, i3, i4⟩ := collapse_spec (skip := L - n - 1) (n := n) (L := L) (by omega) xs x
        (fun y hy => h y ((hm y).1 hy))
      refine ⟨fun w => (i1 w).trans (denotes_perm hp w), i2, fun hz => i3 fun y hy => hz y ((hm y).1 hy), fun h1 => ?_⟩
      obtain ⟨y, hy⟩ := i4 h1
      simp only [hy]
      simp

theorem denotes_append {a b : List Enc} (w : List UInt8) : Denotes (a ++ b) w ↔ Denotes a w ∨ Denotes b w := by
  simp only [Denotes, List.mem_append]
  constructor
  · rintro ⟨e, h | h, hf⟩
    · exact Or.inl ⟨e, h, hf⟩
    · exact Or.inr ⟨e, h, hf⟩
  · rintro (⟨e, h, hf⟩ | ⟨e, h, hf⟩)
    · exact ⟨e, Or.inl h, hf⟩
    · exact ⟨e, Or.inr h, hf⟩

/-- The members of one size group have the same length. -/
theorem group_lengths {va grp : List Enc} (h : grp ∈ va.splitBy fun a b => a.length == b.length) :
    ∃ L, ∀ x ∈ grp, x.length = L := by
  have hc := List.isChain_of_mem_splitBy h
  clear h
  induction grp with
  | nil => exact ⟨0, by simp⟩
  | cons a t ih =>
    cases t with
    | nil => exact ⟨a.length, by simp⟩
    | cons b t =>
      have h1 := List.isChain_cons_cons.1 hc
      obtain ⟨L, hL⟩ := ih h1.2
      refine ⟨L, fun x hx => ?_⟩
      rcases List.mem_cons.1 hx with rfl | hx
      · rw [← hL b (by simp)]; simpa using h1.1
      · exact hL x hx

theorem mem_splitBy {va : List Enc} {r : Enc → Enc → Bool} (x : Enc) :
    (∃ grp ∈ va.splitBy r, x ∈ grp) ↔ x ∈ va := by
  conv => rhs; rw [← List.flatten_splitBy r va]
  rw [List.mem_flatten]

/-- What a round does. -/
theorem round_spec {n : Nat} {va : List Enc} (h : ∀ x ∈ va, n < x.length) :
    (∀ w, Denotes (round n va).1 w ∨ Denotes (round n va).2 w ↔ Denotes va w) ∧
    (∀ x ∈ (round n va).1, x.length = n + 1) ∧
    (∀ x ∈ (round n va).2, n + 1 < x.length ∧ ∃ y ∈ va, y.length = x.length) ∧
    ((∀ x ∈ va, ∀ s ∈ x, s ≠ 0) → ∀ x, x ∈ (round n va).1 ∨ x ∈ (round n va).2 → ∀ s ∈ x, s ≠ 0) := by
  have hgrp : ∀ grp ∈ va.splitBy (fun a b => a.length == b.length), ∀ x ∈ grp, x ∈ va :=
    fun grp hg x hx => (mem_splitBy x).1 ⟨grp, hg, hx⟩
  have spec : ∀ grp ∈ va.splitBy (fun a b => a.length == b.length), ∃ L, (∀ x ∈ grp, x.length = L) ∧
      (∀ w, Denotes (collapseGroup n grp) w ↔ Denotes grp w) ∧
      (∀ x ∈ collapseGroup n grp, x.length = L) ∧
      ((∀ x ∈ grp, ∀ s ∈ x, s ≠ 0) → ∀ x ∈ collapseGroup n grp, ∀ s ∈ x, s ≠ 0) ∧ ∃ y ∈ grp, y.length = L := by
    intro grp hg
    obtain ⟨L, hL⟩ := group_lengths hg
    have hne := List.ne_nil_of_mem_splitBy hg
    obtain ⟨y, hy⟩ := List.exists_mem_of_ne_nil _ hne
    have hn : n < L := by rw [← hL y hy]; exact h y (hgrp grp hg y hy)
    obtain ⟨a, b, c, -⟩ := collapseGroup_spec hn grp hL
    exact ⟨L, hL, a, b, c, y, hy, hL y hy⟩
  have all : ∀ x, x ∈ (round n va).1 ∨ x ∈ (round n va).2 ↔
      ∃ grp ∈ va.splitBy (fun a b => a.length == b.length), x ∈ collapseGroup n grp := by
    intro x
    unfold round
    rw [List.partition_eq_filter_filter]
    simp only [List.mem_filter, List.mem_flatMap]
    constructor
    · rintro (h | h) <;> exact h.1
    · intro hx
      by_cases hl : n + 1 = x.length
      · exact Or.inl ⟨hx, by simp [hl]⟩
      · exact Or.inr ⟨hx, by simp [hl]⟩
  refine ⟨fun w => ?_, fun x hx => ?_, fun x hx => ?_, fun hz x hx => ?_⟩
  · rw [← denotes_append]
    constructor
    · rintro ⟨e, he, hf⟩
      obtain ⟨grp, hg, hx⟩ := (all e).1 (List.mem_append.1 he)
      obtain ⟨L, -, h2, -⟩ := spec grp hg
      obtain ⟨y, hy, hfy⟩ := (h2 w).1 ⟨e, hx, hf⟩
      exact ⟨y, hgrp grp hg y hy, hfy⟩
    · rintro ⟨e, he, hf⟩
      obtain ⟨grp, hg, hx⟩ := (mem_splitBy (r := fun a b => a.length == b.length) e).2 he
      obtain ⟨L, -, h2, -⟩ := spec grp hg
      obtain ⟨y, hy, hfy⟩ := (h2 w).2 ⟨e, hx, hf⟩
      exact ⟨y, List.mem_append.2 ((all y).2 ⟨grp, hg, hy⟩), hfy⟩
  · unfold round at hx
    rw [List.partition_eq_filter_filter] at hx
    have := (List.mem_filter.1 hx).2
    simp at this; omega
  · obtain ⟨grp, hg, hxg⟩ := (all x).1 (Or.inr hx)
    obtain ⟨L, h1, -, h3, -, y, hy, hyL⟩ := spec grp hg
    unfold round at hx
    rw [List.partition_eq_filter_filter] at hx
    have h4 := (List.mem_filter.1 hx).2
    simp at h4
    have h5 := h y (hgrp grp hg y hy)
    have h6 := h3 x hxg
    exact ⟨by omega, y, hgrp grp hg y hy, by omega⟩
  · obtain ⟨grp, hg, hxg⟩ := (all x).1 hx
    obtain ⟨L, h1, -, -, h4, -⟩ := spec grp hg
    exact h4 (fun y hy => hz y (hgrp grp hg y hy)) x hxg

theorem rounds_spec : ∀ (k n : Nat) (va : List Enc), (∀ x ∈ va, n < x.length ∧ x.length ≤ n + k) →
    (∀ w, Denotes (rounds k n va) w ↔ Denotes va w) ∧ (∀ x ∈ rounds k n va, n < x.length ∧ x.length ≤ n + k) ∧
    ((∀ x ∈ va, ∀ s ∈ x, s ≠ 0) → ∀ x ∈ rounds k n va, ∀ s ∈ x, s ≠ 0) := by
  intro k
  induction k with
  | zero =>
    intro n va h
    have : va = [] := by
      cases va with
      | nil => rfl
      | cons e t => have := h e (by simp); omega
    subst this
    exact ⟨fun w => Iff.rfl, h, fun h => h⟩
  | succ k ih =>
    intro n va h
    obtain ⟨r1, r2, r3, r4⟩ := round_spec (n := n) fun x hx => (h x hx).1
    obtain ⟨i1, i2, i3⟩ := ih (n + 1) (round n va).2 (fun x hx => by
      obtain ⟨a, y, hy, hyl⟩ := r3 x hx
      have := h y hy
      omega)
    refine ⟨fun w => ?_, fun x hx => ?_, fun hz x hx => ?_⟩
    · show Denotes ((round n va).1 ++ rounds k (n + 1) (round n va).2) w ↔ _
      rw [denotes_append, i1 w, r1 w]
    · rcases List.mem_append.1 hx with hx | hx
      · have := r2 x hx; omega
      · have := i2 x hx; omega
    · rcases List.mem_append.1 hx with hx | hx
      · exact r4 hz x (Or.inl hx)
      · exact i3 (fun y hy => r4 hz y (Or.inr hy)) x hx

/-- **C33.** Collapsing neither loses nor adds a byte string, whatever the sequences (of
at least one and at most `mlen` byte sets). -/
theorem collapsing_keeps_strings (mlen : Nat) (va : List Enc) (h : ∀ e ∈ va, e ≠ [] ∧ e.length ≤ mlen)
    (w : List UInt8) : Denotes (rounds mlen 0 va) w ↔ Denotes va w :=
  (rounds_spec mlen 0 va fun x hx => ⟨List.length_pos_of_ne_nil (h x hx).1, by have := (h x hx).2; omega⟩).1 w

-- Three two-byte sequences become one, and nothing is lost.
example : rounds 2 0 [exactly [1, 7], exactly [1, 8], exactly [2, 8], exactly [2, 7]] =
    [[setByte (setByte 0 1) 2, setByte (setByte 0 7) 8]] := by decide +kernel

/-- One-byte sequences: if the sequences are in order of length, at most one is left. -/
theorem round_zero_ones {va : List Enc} (hs : va.Pairwise fun a b => a.length ≤ b.length) (h : ∀ x ∈ va, 0 < x.length) :
    (round 0 va).1.length ≤ 1 := by
  obtain ⟨ones, rest, rfl, h1, h2⟩ : ∃ ones rest, va = ones ++ rest ∧ (∀ x ∈ ones, x.length = 1) ∧
      ∀ x ∈ rest, 1 < x.length := by
    refine ⟨va.takeWhile (fun x => x.length == 1), va.dropWhile (fun x => x.length == 1),
      (List.takeWhile_append_dropWhile).symm, fun x hx => by simpa using (List.all_takeWhile (l := va) (p := fun x : Enc => x.length == 1)) |> List.all_eq_true.1 |> fun f => f x hx, ?_⟩
    induction va with
    | nil => simp
    | cons a t ih =>
      rw [List.pairwise_cons] at hs
      rw [List.dropWhile_cons]
      split
      · exact ih hs.2 fun x hx => h x (by simp [hx])
      · next ha =>
        have h0 := h a (by simp)
        have h1 : 1 < a.length := by
          have : ¬ a.length = 1 := by simpa using ha
          omega
        intro x hx
        rcases List.mem_cons.1 hx with rfl | hx
        · exact h1
        · exact Nat.lt_of_lt_of_le h1 (hs.1 x hx)
  have hfilter : ∀ l : List (List Enc), (∀ grp ∈ l, ∀ x ∈ grp, 1 < x.length) →
      (∀ grp ∈ l, ∃ L, ∀ x ∈ grp, x.length = L) →
      (l.flatMap (collapseGroup 0)).filter (fun e => 0 + 1 == e.length) = [] := by
    intro l hl hL
    rw [List.filter_eq_nil_iff]
    intro e he
    obtain ⟨grp, hg, he⟩ := List.mem_flatMap.1 he
    obtain ⟨L, hL⟩ := hL grp hg
    cases grp with
    | nil => simp [collapseGroup] at he
    | cons y ys =>
      have hy : L = y.length := (hL y (by simp)).symm
      have hy1 := hl _ hg y (by simp)
      have := (collapseGroup_spec (n := 0) (L := L) (by omega) _ hL).2.1 e he
      simp; omega
  have hgr : ∀ grp ∈ rest.splitBy (fun a b => a.length == b.length), ∀ x ∈ grp, 1 < x.length :=
    fun grp hg x hx => h2 x ((mem_splitBy x).1 ⟨grp, hg, hx⟩)
  unfold round
  rw [List.partition_eq_filter_filter]
  show (List.filter _ _).length ≤ 1
  by_cases hone : ones = []
  · subst hone
    rw [List.nil_append, hfilter _ hgr (fun grp hg => group_lengths hg)]
    simp
  · have hsplit : (ones ++ rest).splitBy (fun a b => a.length == b.length) =
        ones :: rest.splitBy (fun a b => a.length == b.length) := by
      rw [List.splitBy_append, List.splitBy_of_isChain hone]
      · rfl
      · apply List.Pairwise.isChain
        apply List.pairwise_of_forall_mem_list
        intro a ha b hb
        simp [h1 a ha, h1 b hb]
      · intro x hx y hy
        have a1 := h1 x (List.mem_of_getLast? hx)
        have a2 := h2 y (List.mem_of_head? hy)
        simp; omega
    rw [hsplit, List.flatMap_cons, List.filter_append, hfilter _ hgr (fun grp hg => group_lengths hg), List.append_nil]
    exact Nat.le_trans (List.length_filter_le _ _) ((collapseGroup_spec (by omega) ones h1).2.2.2 rfl)

/-- What the builder expects of a class's sequences. -/
theorem rounds_leafOk {mlen : Nat} {va : List Enc} (h : ∀ e ∈ va, 0 < e.length ∧ e.length ≤ mlen)
    (hs : va.Pairwise fun a b => a.length ≤ b.length) (hz : ∀ x ∈ va, ∀ s ∈ x, s ≠ 0) (brk : BSet) (additive : Bool) :
    LeafOk (.cls (rounds mlen 0 va) brk additive) := by
  obtain ⟨-, i2, i3⟩ := rounds_spec mlen 0 va (fun x hx => by have := h x hx; omega)
  refine ⟨fun e he => List.ne_nil_of_length_pos (i2 e he).1, ?_, i3 hz⟩
  cases mlen with
  | zero => intro e he; simp [rounds] at he
  | succ k =>
    have r := round_spec (n := 0) fun x hx => (h x hx).1
    have hk := rounds_spec k 1 (round 0 va).2 (fun x hx => by
      obtain ⟨a, y, hy, hyl⟩ := r.2.2.1 x hx
      have := h y hy
      omega)
    have h1 := round_zero_ones hs fun x hx => (h x hx).1
    intro e he
    have he : e ∈ ((round 0 va).1 ++ rounds k 1 (round 0 va).2).tail := he
    have : e ∈ rounds k 1 (round 0 va).2 := by
      cases hr : (round 0 va).1 with
      | nil => rw [hr] at he; exact List.mem_of_mem_tail he
      | cons a t =>
        rw [hr] at he h1
        have : t = [] := by cases t with
          | nil => rfl
          | cons _ _ => simp at h1
        subst this
        exact he
    have := (hk.2.1 e this).1
    omega

/-! ## Collecting, encoding by encoding -/

theorem denotes_singleton {e : Enc} {w : List UInt8} : Denotes [e] w ↔ Fits e w := by simp [Denotes]

theorem exactly_append (p q : List Nat) : exactly (p ++ q) = exactly p ++ exactly q := List.map_append

/-- What the loop of `collectRanges` has: everything before, and a last sequence for the
encodings which begin like `prev`. -/
theorem collectLoop_spec {write : Nat → List Nat} (hb : ∀ c, Verif.Utf.Bytes (write c)) :
    ∀ (cps : List Nat) (prev : List Nat) (va : List Enc),
    (prev = [] ∨ ∃ va' s, va = va' ++ [exactly prev.dropLast ++ [s]]) →
    (∀ w, Denotes (collectLoop write cps prev va) w ↔
      Denotes va w ∨ ∃ c ∈ cps, write c ≠ [] ∧ w = toBytes (write c)) ∧
    ((∀ x ∈ va, 0 < x.length ∧ ∀ s ∈ x, s ≠ 0) → ∀ x ∈ collectLoop write cps prev va, 0 < x.length ∧ ∀ s ∈ x, s ≠ 0) ∧
    (∀ m, (∀ x ∈ va, x.length ≤ m) → (∀ c, (write c).length ≤ m) → ∀ x ∈ collectLoop write cps prev va, x.length ≤ m) := by
  intro cps
  induction cps with
  | nil => intro prev va _; exact ⟨fun w => by simp [collectLoop], fun h => h, fun m h _ => h⟩
  | cons cp cps ih =>
    intro prev va hinv
    rw [collectLoop]
    by_cases h0 : write cp = []
    · simp only [h0, if_true]
      obtain ⟨i1, i2, i3⟩ := ih prev va hinv
      exact ⟨fun w => by rw [i1 w]; simp [h0], i2, i3⟩
    · simp only [h0, if_false]
      have hlen : 0 < (write cp).length := List.length_pos_of_ne_nil h0
      split
      · next hj =>
        have hp : prev ≠ [] := by rintro rfl; rw [hj.1] at hlen; simp at hlen
        obtain ⟨va', s, rfl⟩ := hinv.resolve_left hp
        have hdl : (write cp).dropLast = prev.dropLast := by
          rw [hj.2, List.dropLast_eq_take, hj.1]
        have hdll : (exactly prev.dropLast).length = (write cp).length - 1 := by
          simp [exactly, hj.1]
        obtain ⟨z, hz, hcur⟩ : ∃ z, (write cp).getLastD 0 = z ∧ write cp = prev.dropLast ++ [z] := by
          refine ⟨(write cp).getLast h0, ?_, ?_⟩
          · rw [List.getLastD_eq_getLast?, List.getLast?_eq_some_getLast h0]; rfl
          · rw [← hdl]; exact (List.dropLast_append_getLast h0).symm
        have hlast : z < 256 := hb cp z (by rw [hcur]; simp)
        have hmod : (va' ++ [exactly prev.dropLast ++ [s]]).dropLast ++
            [((va' ++ [exactly prev.dropLast ++ [s]]).getLastD []).modify ((write cp).length - 1) (setByte · z)] =
            va' ++ [exactly prev.dropLast ++ [setByte s z]] := by
          have e1 : (va' ++ [exactly prev.dropLast ++ [s]]).getLastD [] = exactly prev.dropLast ++ [s] := by
            simp [List.getLastD_eq_getLast?]
          rw [e1, List.dropLast_concat, ← hdll]
          congr 2
          exact modify_mid.List.modify_append_right' _ _ _
        rw [hz, hmod]
        obtain ⟨i1, i2, i3⟩ := ih prev (va' ++ [exactly prev.dropLast ++ [setByte s z]])
          (Or.inr ⟨va', _, rfl⟩)
        refine ⟨fun w => ?_, fun h => i2 ?_, fun m h hm => i3 m ?_ hm⟩
        · rw [i1 w, denotes_append, denotes_append, denotes_singleton, denotes_singleton]
          have key : Fits (exactly prev.dropLast ++ [setByte s z]) w ↔
              Fits (exactly prev.dropLast ++ [s]) w ∨ w = toBytes (write cp) := by
            have hd : Verif.Utf.Bytes prev.dropLast := by
              rw [← hdl]; exact fun b hb' => hb cp b (List.mem_of_mem_dropLast hb')
            rw [fits_mid, fits_mid]
            constructor
            · rintro ⟨u, b, v, hu, hs, hv, rfl⟩
              rw [has_setByte hlast, Bool.or_eq_true, decide_eq_true_eq] at hs
              rcases hs with hs | hs
              · exact Or.inl ⟨u, b, v, hu, hs, hv, rfl⟩
              · right
                rw [(fits_exactly hd).1 hu, fits_nil.1 hv]
                conv => rhs; rw [hcur]
                simp only [toBytes, List.map_append, List.map_cons, List.map_nil]
                rw [← hs]; simp
            · rintro (⟨u, b, v, hu, hs, hv, rfl⟩ | rfl)
              · exact ⟨u, b, v, hu, by rw [has_setByte hlast, hs]; rfl, hv, rfl⟩
              · refine ⟨toBytes prev.dropLast, UInt8.ofNat z, [], (fits_exactly hd).2 rfl, ?_, fits_nil.2 rfl, ?_⟩
                · rw [has_setByte hlast, ofNat_toNat hlast]; simp
                · conv => lhs; rw [hcur]
                  simp [toBytes]
          rw [key]
          simp only [List.mem_cons, exists_eq_or_imp, ne_eq, h0, not_false_eq_true, true_and]
          tauto
        · intro x hx
          rcases List.mem_append.1 hx with hx | hx
          · exact h x (by simp [hx])
          · rw [List.mem_singleton] at hx
            subst hx
            refine ⟨by simp, fun t ht => ?_⟩
            rcases List.mem_append.1 ht with ht | ht
            · exact (h _ (List.mem_append_right _ (List.mem_singleton.2 rfl))).2 t (List.mem_append_left _ ht)
            · rw [List.mem_singleton] at ht
              subst ht
              exact ne_zero_of_has (x := UInt8.ofNat z) (by rw [has_setByte hlast, ofNat_toNat hlast]; simp)
        · intro x hx
          rcases List.mem_append.1 hx with hx | hx
          · exact h x (by simp [hx])
          · rw [List.mem_singleton] at hx
            subst hx
            have := h _ (List.mem_append_right _ (List.mem_singleton.2 rfl))
            simpa using this
      · obtain ⟨i1, i2, i3⟩ := ih (write cp) (va ++ [exactly (write cp)]) (Or.inr ⟨va, setByte 0 ((write cp).getLast h0), by
          congr 2
          conv => lhs; rw [← List.dropLast_append_getLast h0]
          exact exactly_append _ _⟩)
        refine ⟨fun w => ?_, fun h => i2 ?_, fun m h hm => i3 m ?_ hm⟩
        · rw [i1 w, denotes_append, denotes_singleton, fits_exactly (hb cp)]
          simp only [List.mem_cons, exists_eq_or_imp, ne_eq, h0, not_false_eq_true, true_and]
          tauto
        · intro x hx
          rcases List.mem_append.1 hx with hx | hx
          · exact h x hx
          · rw [List.mem_singleton] at hx
            subst hx
            exact ⟨by simpa [exactly] using hlen, exactly_ne_zero (hb cp)⟩
        · intro x hx
          rcases List.mem_append.1 hx with hx | hx
          · exact h x hx
          · rw [List.mem_singleton] at hx
            subst hx
            simpa [exactly] using hm cp

/-- The code point is in one of the ranges. -/
def InRanges (rs : List (Nat × Nat)) (c : Nat) : Prop := ∃ r ∈ rs, r.1 ≤ c ∧ c < r.2

theorem mem_codePoints {rs : List (Nat × Nat)} {c : Nat} : c ∈ codePoints rs ↔ InRanges rs c := by
  unfold codePoints InRanges
  rw [List.mem_flatMap]
  constructor
  · rintro ⟨r, hr, hc⟩
    rw [List.mem_range'_1] at hc
    exact ⟨r, hr, by omega⟩
  · rintro ⟨r, hr, hc⟩
    exact ⟨r, hr, by rw [List.mem_range'_1]; omega⟩

/-- **C32, chains of transformations.** The sequences made for a class by an encoder built
around another accept exactly the encodings of the class's code points, for every way of
writing a code point in at most `mlen` bytes. -/
theorem base_class_exact {mlen : Nat} {write : Nat → List Nat}
    (hw : ∀ c, Verif.Utf.Bytes (write c) ∧ (write c).length ≤ mlen) (rs : List (Nat × Nat)) (w : List UInt8) :
    Denotes (writeBase mlen write rs) w ↔ ∃ c, InRanges rs c ∧ write c ≠ [] ∧ w = toBytes (write c) := by
  obtain ⟨i1, i2, i3⟩ := collectLoop_spec (fun c => (hw c).1) (codePoints rs) [] [] (Or.inl rfl)
  have hp := List.perm_insertionSort (fun a b : Enc => a.length ≤ b.length) (collectLoop write (codePoints rs) [] [])
  unfold writeBase
  rw [collapsing_keeps_strings mlen _ (fun e he => by
    have he := hp.mem_iff.1 he
    exact ⟨List.ne_nil_of_length_pos (i2 (by simp) e he).1, i3 mlen (by simp) (fun c => (hw c).2) e he⟩)]
  rw [show Denotes (collectBase write rs) w ↔ _ from denotes_perm hp w, i1 w]
  simp only [mem_codePoints]
  simp [Denotes]

theorem base_leafOk {mlen : Nat} {write : Nat → List Nat}
    (hw : ∀ c, Verif.Utf.Bytes (write c) ∧ (write c).length ≤ mlen) (rs : List (Nat × Nat)) (brk : BSet) (additive : Bool) :
    LeafOk (.cls (writeBase mlen write rs) brk additive) := by
  obtain ⟨-, i2, i3⟩ := collectLoop_spec (fun c => (hw c).1) (codePoints rs) [] [] (Or.inl rfl)
  have hp := List.perm_insertionSort (fun a b : Enc => a.length ≤ b.length) (collectLoop write (codePoints rs) [] [])
  refine rounds_leafOk (fun e he => ?_) (List.pairwise_insertionSort _ _) (fun e he => ?_) brk additive
  · have he := hp.mem_iff.1 he
    exact ⟨(i2 (by simp) e he).1, i3 mlen (by simp) (fun c => (hw c).2) e he⟩
  · exact (i2 (by simp) e (hp.mem_iff.1 he)).2

end Verif.Encoders
