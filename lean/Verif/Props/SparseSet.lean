import Verif.SparseSet
/-! # C26: the sparse set is a set -/
namespace Verif.SparseSet

/-- Specification: the elements inserted since the last clear, as a predicate
over the operation history (newest operation last). -/
def present : List Op → Nat → Bool
  | hist, e => hist.foldl (fun b o => match o with
      | .insert x => b || x == e
      | .clear => false) false

/-- An operation the object's documentation allows: elements are below the
maximum given at construction. -/
def Legal (m : Nat) : Op → Prop
  | .insert e => e < m
  | .clear => True

theorem run_inv {s : SS} {l : List Nat} (h : Inv s l) (ops : List Op)
    (hl : ∀ o ∈ ops, Legal s.max o) (p : Nat → Bool) (hp : ∀ e, p e = decide (e ∈ l)) :
    ∃ s' l', run s ops = some s' ∧ Inv s' l' ∧ s'.max = s.max ∧
      ∀ e, ops.foldl (fun b o => match o with
        | .insert x => b || x == e
        | .clear => false) (p e) = decide (e ∈ l') := by
  induction ops generalizing s l p with
  | nil => exact ⟨s, l, rfl, h, rfl, by simpa using hp⟩
  | cons o os ih =>
    cases o with
    | clear =>
      obtain ⟨s', l', h1, h2, h3, h4⟩ := ih (clear_spec h)
        (fun o ho => hl o (by simp [ho])) (fun _ => false) (by simp)
      exact ⟨s', l', by simpa [run, step] using h1, h2, h3, by simpa using h4⟩
    | insert x =>
      have hx : x < s.max := hl (.insert x) (by simp)
      have hf := find_spec h hx
      by_cases hm : x ∈ l
      · obtain ⟨s', l', h1, h2, h3, h4⟩ := ih h (fun o ho => hl o (by simp [ho]))
          (fun e => p e || x == e) (by
            intro e; rw [hp e]
            by_cases hxe : x = e
            · subst hxe; simp [hm]
            · simp [hxe])
        exact ⟨s', l', by simpa [run, step, hf, hm] using h1, h2, h3, by simpa using h4⟩
      · obtain ⟨s1, hs1, hi1, hm1⟩ := insert_spec h hx hm
        obtain ⟨s', l', h1, h2, h3, h4⟩ := ih hi1
          (fun o ho => by rw [hm1]; exact hl o (by simp [ho]))
          (fun e => p e || x == e) (by
            intro e; rw [hp e]
            by_cases hxe : x = e
            · subst hxe; simp
            · simp [hxe, Ne.symm hxe])
        refine ⟨s', l', ?_, h2, by omega, by simpa using h4⟩
        simp [run, step, hf, hm, hs1, h1]

/-- **C26.** Build a sparse set of any size up to 2^31 over any uninitialised
memory, apply any sequence of legal operations: no access is out of bounds, and
`find e` answers exactly whether `e` was inserted since the last clear. -/
theorem sparseSet_refines_set (m : Nat) (garbage : List Nat) (hg : garbage.length = m)
    (hm : m ≤ 2147483648) (ops : List Op) (hl : ∀ o ∈ ops, Legal m o) :
    ∃ s, run (resize m garbage) ops = some s ∧
      ∀ e, e < m → find s e = some (present ops e) := by
  obtain ⟨s, l, h1, h2, h3, h4⟩ := run_inv (s := resize m garbage)
    (inv_resize hg (by simpa [u32] using hm)) ops (by simpa [resize] using hl)
    (fun _ => false) (by simp)
  refine ⟨s, h1, fun e he => ?_⟩
  have h5 := find_spec h2 (e := e) (by rw [h3]; exact he)
  simpa [present, h4 e] using h5

/-- The size reported is the number of distinct elements present. -/
theorem sparseSet_size (m : Nat) (garbage : List Nat) (hg : garbage.length = m)
    (hm : m ≤ 2147483648) (ops : List Op) (hl : ∀ o ∈ ops, Legal m o) :
    ∃ s, run (resize m garbage) ops = some s ∧
      size s = ((List.range m).filter (fun e => present ops e)).length := by
  obtain ⟨s, l, h1, h2, h3, h4⟩ := run_inv (s := resize m garbage)
    (inv_resize hg (by simpa [u32] using hm)) ops (by simpa [resize] using hl)
    (fun _ => false) (by simp)
  refine ⟨s, h1, ?_⟩
  have hsz : size s = l.length := by simp [size, h2.endEq]
  rw [hsz]
  have hm' : s.max = m := by simpa [resize] using h3
  have hperm : l.Perm ((List.range m).filter (fun e => present ops e)) := by
    rw [List.perm_ext_iff_of_nodup h2.nodup (List.nodup_range.sublist List.filter_sublist)]
    intro e
    have he : present ops e = decide (e ∈ l) := h4 e
    simp only [List.mem_filter, List.mem_range, he, decide_eq_true_eq]
    constructor
    · intro hh; exact ⟨hm' ▸ h2.mem e hh, hh⟩
    · exact fun hh => hh.2
  exact hperm.length_eq

/-- The zero-fill in `resize` is needed, despite the source comment
(include/sparseset.h:53 "we don't have to do this"): with arbitrary initial
contents the 32-bit addition can wrap and an empty set reports a member. -/
theorem sparseSet_unfilled_unsound :
    find { data := [1, 4294967296 - 2, 0, 0], «end» := 2, max := 2 } 1 = some true := by
  decide

-- Non-vacuity: a legal history on a set of size 4 over dirty memory.
example : ∃ s, run (resize 4 [9, 9, 9, 9]) [.insert 2, .insert 0, .clear, .insert 3] = some s ∧
    find s 3 = some true ∧ find s 2 = some false ∧ size s = 1 := by
  refine ⟨_, rfl, ?_⟩; decide
example : ∀ o ∈ [Op.insert 2, .insert 0, .clear, .insert 3], Legal 4 o := by
  simp [Legal]

end Verif.SparseSet
