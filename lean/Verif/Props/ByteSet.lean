import Verif.ByteSet
/-! # C27: byte-set range assignment and iteration -/
namespace Verif.ByteSet

/-- `set(beg, end, v)` changes exactly the bits in `[beg, end)`. -/
theorem byteSet_setRange (s : Bits) (beg e : Nat) (v : Bool) (hbe : beg ≤ e) (he : e ≤ 256) :
    ∃ s', setRange s beg e v = some s' ∧ (∀ j, beg ≤ j → j < e → s' j = v) ∧
      (∀ j, j < beg ∨ e ≤ j → s' j = s j) := by
  refine ⟨_, setRange_spec s beg e v hbe he, ?_, ?_⟩
  · intro j h1 h2; exact if_pos ⟨h1, h2⟩
  · intro j h; exact if_neg (by omega)

example : ∃ s', setRange (fun _ => false) 5 77 true = some s' ∧
    s' 4 = false ∧ s' 5 = true ∧ s' 40 = true ∧ s' 76 = true ∧ s' 77 = false :=
  ⟨_, rfl, by decide⟩

/-- The precondition `beg ≤ end` is needed: for a reversed range inside one
byte the unsigned subtraction wraps and bits outside any reading of the range
are set. -/
theorem byteSet_reversed_wrong : ∃ s', setRange (fun _ => false) 8 3 true = none ∧
    setRange (fun _ => false) 7 3 true = some s' ∧ s' 0 = true ∧ s' 2 = true ∧ s' 5 = false := by
  refine ⟨_, by decide, rfl, by decide, by decide, by decide⟩

/-- `for_each_set_bit` calls back exactly the set bits, in increasing order. -/
theorem byteSet_forEach (s : Bits) : forEachSetBit s = (List.range 256).filter s := by
  have key : ∀ i, wordLoop i 65 (word s i) =
      ((List.range 64).map (fun j => 64 * i + j)).filter s := by
    intro i
    obtain ⟨h1, h2⟩ := word_aux s i 64
    have : word s i = (List.range 64).foldl (fun w j => if s (64 * i + j) then w + 2 ^ j else w) 0 := rfl
    rw [← this] at h1 h2
    rw [wordLoop_spec i 65 (word s i) 0 h1 (by intro j hj; omega) (by omega), List.filter_map]
    congr 1
    apply List.filter_congr
    intro j hj
    simp only [List.mem_range] at hj
    rw [h2]; simp [hj]
  have hr : List.range 256 = (List.range 4).flatMap (fun i => (List.range 64).map (fun j => 64 * i + j)) := by
    decide +kernel
  unfold forEachSetBit
  rw [hr]
  simp only [key]
  rw [List.filter_flatMap]

example : forEachSetBit (fun j => j == 3 || j == 64 || j == 255) = [3, 64, 255] := by
  rw [byteSet_forEach]; decide +kernel

end Verif.ByteSet
