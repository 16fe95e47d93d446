/-!
# Byte sets (include/byteset.h)

A `ByteSet` is a `std::bitset<256>`, modelled as the function from bit numbers
to bits.  The code relies on the layout of `std::bitset` (bit `i` is bit `i % 8`
of byte `i / 8` and bit `i % 64` of the 64-bit word `i / 64`); that layout is
the simplification made here.
-/
namespace Verif.ByteSet

/-- The 256 bits. -/
abbrev Bits := Nat → Bool

/-- `std::bitset::set(i, v)`. -/
def setBit (s : Bits) (i : Nat) (v : Bool) : Bits := fun j => if j = i then v else s j

/-- `std::fill` of the bytes `[a, b)` with 0xFF or 0, include/byteset.h:65. -/
def fillBytes (s : Bits) (a b : Nat) (v : Bool) : Bits :=
  fun j => if a ≤ j / 8 ∧ j / 8 < b then v else s j

/-- First loop of include/byteset.h:59-61; returns the advanced `beg`. -/
def headLoop (e : Nat) (v : Bool) : Nat → Nat → Bits → Nat × Bits
  | 0, beg, s => (beg, s)
  | n + 1, beg, s =>
    if beg < e ∧ beg % 8 > 0 then headLoop e v n (beg + 1) (setBit s beg v) else (beg, s)

/-- Last loop of include/byteset.h:69-71. -/
def tailLoop (v : Bool) : Nat → Nat → Bits → Bits
  | 0, _, s => s
  | n + 1, beg, s => tailLoop v n (beg + 1) (setBit s beg v)

/-- `size_t` subtraction. -/
def sub64 (a b : Nat) : Nat := (a + 2 ^ 64 - b) % 2 ^ 64

/-- include/byteset.h:55-74 `set(beg, end, value)`; `none` is the undefined
behaviour of a fill over a reversed range. -/
def setRange (s : Bits) (beg e : Nat) (v : Bool) : Option Bits :=
  let (beg, s) := headLoop e v 8 beg s
  if sub64 e beg / 8 > 0 then
    if beg / 8 ≤ e / 8 then
      let s := fillBytes s (beg / 8) (e / 8) v
      let beg := e / 8 * 8
      some (tailLoop v (e - beg) beg s)
    else none
  else some (tailLoop v (e - beg) beg s)

/-- The 64-bit word number `i`, include/byteset.h:78-80. -/
def word (s : Bits) (i : Nat) : Nat :=
  (List.range 64).foldl (fun w j => if s (64 * i + j) then w + 2 ^ j else w) 0

/-- `__builtin_ctzll`: number of trailing zeros (`n` bounds the search). -/
def ctz : Nat → Nat → Nat
  | 0, _ => 0
  | n + 1, w => if w % 2 = 1 then 0 else ctz n (w / 2) + 1

/-- include/byteset.h:81-89: the loop over the set bits of one word, with fuel
for the at most 64 iterations. -/
def wordLoop (i : Nat) : Nat → Nat → List Nat
  | 0, _ => []
  | n + 1, w =>
    if w ≠ 0 then
      let lsb := w &&& ((2 ^ 64 - w) % 2 ^ 64)
      (64 * i + ctz 64 w) :: wordLoop i n (w ^^^ lsb)
    else []

/-- include/byteset.h:76-91 `for_each_set_bit`: the callback arguments. -/
def forEachSetBit (s : Bits) : List Nat :=
  (List.range 4).flatMap (fun i => wordLoop i 65 (word s i))

/-! ### Lemmas -/

theorem headLoop_spec (e : Nat) (v : Bool) (n : Nat) : ∀ (beg : Nat) (s : Bits), beg ≤ e →
    n + beg % 8 ≥ 8 ∨ beg % 8 = 0 →
    ∃ b', headLoop e v n beg s = (b', fun j => if beg ≤ j ∧ j < b' then v else s j) ∧
      beg ≤ b' ∧ b' ≤ e ∧ (b' = e ∨ b' % 8 = 0) := by
  induction n with
  | zero =>
    intro beg s hb hn
    refine ⟨beg, ?_, by omega, hb, Or.inr (by omega)⟩
    simp only [headLoop, Prod.mk.injEq, true_and]
    funext j
    rw [if_neg (by omega)]
  | succ n ih =>
    intro beg s hb hn
    simp only [headLoop]
    split
    · rename_i hc
      obtain ⟨b', h1, h2, h3, h4⟩ := ih (beg + 1) (setBit s beg v) (by omega) (by omega)
      refine ⟨b', ?_, by omega, h3, h4⟩
      rw [h1]
      simp only [Prod.mk.injEq, true_and]
      funext j
      by_cases hj : j = beg
      · subst hj; simp [setBit]; omega
      · simp only [setBit, if_neg hj]
        by_cases h : beg ≤ j ∧ j < b'
        · rw [if_pos (by omega), if_pos h]
        · rw [if_neg (by omega), if_neg h]
    · rename_i hc
      refine ⟨beg, ?_, by omega, hb, by omega⟩
      simp only [Prod.mk.injEq, true_and]
      funext j
      rw [if_neg (by omega)]

theorem tailLoop_spec (v : Bool) (n : Nat) : ∀ (beg : Nat) (s : Bits),
    tailLoop v n beg s = fun j => if beg ≤ j ∧ j < beg + n then v else s j := by
  induction n with
  | zero => intro beg s; funext j; simp only [tailLoop]; rw [if_neg (by omega)]
  | succ n ih =>
    intro beg s
    simp only [tailLoop, ih]
    funext j
    by_cases hj : j = beg
    · subst hj
      simp [setBit]
    · simp only [setBit, if_neg hj]
      by_cases h : beg ≤ j ∧ j < beg + (n + 1)
      · rw [if_pos (by omega), if_pos h]
      · rw [if_neg (by omega), if_neg h]

theorem setRange_spec (s : Bits) (beg e : Nat) (v : Bool) (hbe : beg ≤ e) (he : e ≤ 256) :
    setRange s beg e v = some (fun j => if beg ≤ j ∧ j < e then v else s j) := by
  obtain ⟨b', h1, h2, h3, h4⟩ := headLoop_spec e v 8 beg s hbe (by omega)
  unfold setRange
  rw [h1]
  simp only
  have hsub : sub64 e b' = e - b' := by
    unfold sub64
    rw [show e + 2 ^ 64 - b' = (e - b') + 2 ^ 64 by omega, Nat.add_mod_right, Nat.mod_eq_of_lt (by omega)]
  rw [hsub]
  split
  · rename_i hc
    rw [if_pos (by omega), tailLoop_spec]
    congr 1
    funext j
    simp only [fillBytes]
    by_cases hj : beg ≤ j ∧ j < e
    · rw [if_pos hj]
      by_cases ht : e / 8 * 8 ≤ j ∧ j < e / 8 * 8 + (e - e / 8 * 8)
      · rw [if_pos ht]
      · rw [if_neg ht]
        by_cases hm : b' / 8 ≤ j / 8 ∧ j / 8 < e / 8
        · rw [if_pos hm]
        · rw [if_neg hm, if_pos (by omega)]
    · rw [if_neg hj, if_neg (by omega), if_neg (by omega), if_neg (by omega)]
  · rename_i hc
    rw [tailLoop_spec]
    congr 1
    funext j
    by_cases hj : beg ≤ j ∧ j < e
    · rw [if_pos hj]
      by_cases ht : b' ≤ j ∧ j < b' + (e - b')
      · rw [if_pos ht]
      · rw [if_neg ht, if_pos (by omega)]
    · rw [if_neg hj, if_neg (by omega), if_neg (by omega)]

theorem word_aux (s : Bits) (i n : Nat) :
    (List.range n).foldl (fun w j => if s (64 * i + j) then w + 2 ^ j else w) 0 < 2 ^ n ∧
    ∀ j, ((List.range n).foldl (fun w j => if s (64 * i + j) then w + 2 ^ j else w) 0).testBit j =
      (decide (j < n) && s (64 * i + j)) := by
  induction n with
  | zero => simp
  | succ n ih =>
    rw [List.range_succ, List.foldl_append]
    simp only [List.foldl_cons, List.foldl_nil]
    obtain ⟨h1, h2⟩ := ih
    have hp : 2 ^ (n + 1) = 2 ^ n + 2 ^ n := by rw [Nat.pow_succ]; omega
    split
    · rename_i hs
      refine ⟨by omega, fun j => ?_⟩
      rw [Nat.add_comm, Nat.testBit_two_pow_add_gt' h1 j, h2]
      by_cases hj : j = n
      · subst hj; simp [hs]
      · by_cases hjn : j < n
        · simp [hjn, hj, show j < n + 1 by omega]
        · simp [hjn, hj, show ¬ j < n + 1 by omega]
    · rename_i hs
      refine ⟨by omega, fun j => ?_⟩
      rw [h2]
      by_cases hj : j = n
      · subst hj; simp [hs]
      · by_cases hjn : j < n
        · simp [hjn, show j < n + 1 by omega]
        · simp [hjn, show ¬ j < n + 1 by omega]
where
  Nat.testBit_two_pow_add_gt' {x n : Nat} (h : x < 2 ^ n) (j : Nat) :
      (2 ^ n + x).testBit j = (decide (j = n) || x.testBit j) := by
    have : 2 ^ n + x = 2 ^ n * 1 + x := by omega
    rw [this, Nat.testBit_two_pow_mul_add 1 h]
    by_cases hj : j < n
    · rw [if_pos hj]; simp [show j ≠ n by omega]
    · rw [if_neg hj]
      by_cases hjn : j = n
      · subst hjn; simp
      · rw [Nat.testBit_lt_two_pow (Nat.lt_of_lt_of_le h (Nat.pow_le_pow_right (by omega) (by omega : n ≤ j)))]
        simp only [hjn, decide_false, Bool.or_self]
        rw [show j - n = (j - n - 1) + 1 by omega, Nat.testBit_succ]
        simp

theorem ctz_spec (n : Nat) : ∀ w, 0 < w → w < 2 ^ n →
    ctz n w < n ∧ w.testBit (ctz n w) = true ∧ ∀ j, j < ctz n w → w.testBit j = false := by
  induction n with
  | zero => intro w h1 h2; omega
  | succ n ih =>
    intro w h1 h2
    simp only [ctz]
    split
    · rename_i hw
      refine ⟨by omega, ?_, by intro j hj; omega⟩
      rw [Nat.testBit_zero]; simp [hw]
    · rename_i hw
      have hp : 2 ^ (n + 1) = 2 ^ n * 2 := by rw [Nat.pow_succ]
      obtain ⟨a, b, c⟩ := ih (w / 2) (by omega) (by omega)
      refine ⟨by omega, ?_, ?_⟩
      · rw [Nat.testBit_succ]; exact b
      · intro j hj
        cases j with
        | zero => rw [Nat.testBit_zero]; simp; omega
        | succ j => rw [Nat.testBit_succ]; exact c j (by omega)

/-- `word & -word` is the least significant set bit. -/
theorem lsb_spec {w k : Nat} (hw : w < 2 ^ 64) (hk : k < 64) (h1 : w.testBit k = true)
    (h0 : ∀ j, j < k → w.testBit j = false) (j : Nat) :
    (w &&& ((2 ^ 64 - w) % 2 ^ 64)).testBit j = decide (j = k) := by
  have hpos : 0 < w := by
    rcases Nat.eq_zero_or_pos w with h | h
    · subst h; simp at h1
    · exact h
  have hmod : w % 2 ^ k = 0 := by
    apply Nat.eq_of_testBit_eq
    intro i
    rw [Nat.testBit_mod_two_pow, Nat.zero_testBit]
    by_cases hi : i < k
    · simp [h0 i hi]
    · simp [hi]
  obtain ⟨q, hq⟩ := Nat.dvd_of_mod_eq_zero hmod
  have hqodd : q % 2 = 1 := by
    have : w.testBit k = (w / 2 ^ k).testBit 0 := by rw [Nat.testBit_div_two_pow]; simp
    rw [this, hq, Nat.mul_div_cancel_left _ (Nat.two_pow_pos k), Nat.testBit_zero] at h1
    simpa using h1
  rw [Nat.mod_eq_of_lt (by omega)]
  have h64 : 2 ^ 64 = 2 ^ k * 2 ^ (64 - k) := by rw [← Nat.pow_add]; congr 1; omega
  have hqlt : q < 2 ^ (64 - k) := by
    rw [hq, h64] at hw
    exact Nat.lt_of_mul_lt_mul_left hw
  have hneg : 2 ^ 64 - w = 2 ^ k * (2 ^ (64 - k) - q) := by
    rw [h64, hq, Nat.mul_sub]
  rw [Nat.testBit_and, hneg]
  conv => lhs; arg 1; rw [hq]
  rw [Nat.testBit_two_pow_mul, Nat.testBit_two_pow_mul]
  by_cases hjk : j = k
  · subst hjk
    have hpow : 2 ^ (64 - j) = 2 * 2 ^ (64 - j - 1) := by
      rw [← Nat.pow_succ']; congr 1; omega
    have e1 : q.testBit (j - j) = true := by simp [hqodd]
    have e2 : (2 ^ (64 - j) - q).testBit (j - j) = true := by
      simp only [Nat.sub_self, Nat.testBit_zero, decide_eq_true_eq]; omega
    rw [e1, e2]; simp
  · by_cases hlt : j < k
    · simp [hjk, show ¬ j ≥ k by omega]
    · obtain ⟨m, hm⟩ : ∃ m, j - k = m + 1 := ⟨j - k - 1, by omega⟩
      rw [hm]
      have hpow : 2 ^ (64 - k) = 2 * 2 ^ (64 - k - 1) := by
        rw [← Nat.pow_succ']; congr 1; omega
      have hdiv : (2 ^ (64 - k) - q) / 2 = 2 ^ (64 - k - 1) - (q / 2 + 1) := by omega
      rw [Nat.testBit_succ, Nat.testBit_succ, hdiv]
      have hq2 : q / 2 < 2 ^ (64 - k - 1) := by omega
      rw [Nat.testBit_two_pow_sub_succ hq2]
      simp only [hjk, decide_false]
      cases (q / 2).testBit m <;> simp

/-- The loop over one word lists its set bits in increasing order. -/
theorem wordLoop_spec (i n : Nat) : ∀ w lo, w < 2 ^ 64 → (∀ j, j < lo → w.testBit j = false) →
    64 < n + lo →
    wordLoop i n w = ((List.range 64).filter (fun j => w.testBit j)).map (fun j => 64 * i + j) := by
  induction n with
  | zero =>
    intro w lo hw hlo hn
    simp only [wordLoop]
    have : (List.range 64).filter (fun j => w.testBit j) = [] := by
      rw [List.filter_eq_nil_iff]
      intro j hj
      simp at hj
      simp [hlo j (by omega)]
    rw [this]; rfl
  | succ n ih =>
    intro w lo hw hlo hn
    simp only [wordLoop]
    split
    · rename_i hne
      obtain ⟨hk, h1, h0⟩ := ctz_spec 64 w (by omega) hw
      have hl := lsb_spec hw hk h1 h0
      have hbit : ∀ j, (w ^^^ (w &&& ((2 ^ 64 - w) % 2 ^ 64))).testBit j =
          (w.testBit j && decide (j ≠ ctz 64 w)) := by
        intro j
        rw [Nat.testBit_xor, hl]
        by_cases hj : j = ctz 64 w
        · subst hj; simp [h1]
        · simp [hj]
      have hklo : lo ≤ ctz 64 w := by
        apply Nat.le_of_not_lt; intro hc
        rw [hlo _ hc] at h1; simp at h1
      rw [ih (w ^^^ (w &&& ((2 ^ 64 - w) % 2 ^ 64))) (ctz 64 w + 1)
        (Nat.xor_lt_two_pow hw (Nat.lt_of_le_of_lt Nat.and_le_left hw))
        (fun j hj => by
          rw [hbit]
          by_cases hjk : j = ctz 64 w
          · simp [hjk]
          · rw [h0 j (by omega)]; simp) (by omega)]
      have split : List.range 64 = List.range (ctz 64 w) ++ ctz 64 w :: List.range' (ctz 64 w + 1) (63 - ctz 64 w) := by
        rw [List.range_eq_range', List.range_eq_range',
          show ctz 64 w :: List.range' (ctz 64 w + 1) (63 - ctz 64 w) = List.range' (ctz 64 w) (64 - ctz 64 w) by
            rw [show 64 - ctz 64 w = (63 - ctz 64 w) + 1 by omega, List.range'_succ]]
        have := @List.range'_append_1 0 (ctz 64 w) (64 - ctz 64 w)
        rw [Nat.zero_add] at this
        rw [this]; congr 1; omega
      rw [split, List.filter_append, List.filter_append, List.filter_cons, List.filter_cons]
      have f1 : (List.range (ctz 64 w)).filter (fun j => w.testBit j) = [] := by
        rw [List.filter_eq_nil_iff]; intro j hj; simp at hj; simp [h0 j hj]
      have f2 : (List.range (ctz 64 w)).filter
          (fun j => (w ^^^ (w &&& ((2 ^ 64 - w) % 2 ^ 64))).testBit j) = [] := by
        rw [List.filter_eq_nil_iff]; intro j hj; simp at hj; rw [hbit, h0 j hj]; simp
      have f3 : (List.range' (ctz 64 w + 1) (63 - ctz 64 w)).filter
          (fun j => (w ^^^ (w &&& ((2 ^ 64 - w) % 2 ^ 64))).testBit j) =
          (List.range' (ctz 64 w + 1) (63 - ctz 64 w)).filter (fun j => w.testBit j) := by
        apply List.filter_congr
        intro j hj
        rw [List.mem_range'_1] at hj
        rw [hbit]; simp [show j ≠ ctz 64 w by omega]
      rw [f1, f2, f3, hbit, h1]
      simp
    · rename_i hz
      have hz : w = 0 := by omega
      subst hz
      simp

end Verif.ByteSet
