/-!
# SparseSet (include/sparseset.h)

Memory is an explicit list of 32-bit words; an access outside the array is the
outcome `none` (undefined behaviour in C++).
-/
namespace Verif.SparseSet

/-- Size of the `uint32_t` value range. -/
def u32 : Nat := 4294967296

/-- The object of include/sparseset.h:27-63: `Data` (a `uint32_t[2*Max]`
array), `End` and `Max`. -/
structure SS where
  data : List Nat
  «end» : Nat
  max : Nat
deriving Repr, DecidableEq

/-- `new uint32_t[2*maxSize]` is uninitialised: `garbage` stands for whatever
is there.  include/sparseset.h:50-55 `resize`: the low half is zero-filled. -/
def resize (maxSize : Nat) (garbage : List Nat) : SS :=
  { data := List.replicate maxSize 0 ++ garbage, «end» := maxSize, max := maxSize }

/-- include/sparseset.h:31 `size`. -/
def size (s : SS) : Nat := s.end - s.max

/-- include/sparseset.h:34-37 `find`; the addition is 32-bit. -/
def find (s : SS) (e : Nat) : Option Bool := do
  let d ← s.data[e]?
  let i := (d + s.max) % u32
  if i < s.end then
    let x ← s.data[i]?
    some (x == e)
  else some false

/-- include/sparseset.h:40-44 `insert`. -/
def insert (s : SS) (e : Nat) : Option SS :=
  if s.end < s.data.length ∧ e < s.data.length then
    let d1 := s.data.set s.end e
    let d2 := d1.set e (s.end - s.max)
    some { s with data := d2, «end» := s.end + 1 }
  else none

/-- include/sparseset.h:46-48 `clear`. -/
def clear (s : SS) : SS := { s with «end» := s.max }

/-- Operations a client performs. -/
inductive Op where
  | insert (e : Nat)
  | clear
deriving Repr, DecidableEq

/-- One client operation; inserting is only done after a failed `find`, as all
callers in src/lib/vm.cpp do (lines 181-188 and 300-310). -/
def step (s : SS) : Op → Option SS
  | .insert e => do
      let b ← find s e
      if b then some s else insert s e
  | .clear => some (clear s)

/-- A sequence of client operations. -/
def run (s : SS) : List Op → Option SS
  | [] => some s
  | o :: os => do run (← step s o) os

/-! ## Representation invariant -/

/-- The dense part lists `l`, and every member's sparse slot points to it. -/
structure Inv (s : SS) (l : List Nat) : Prop where
  len : s.data.length = 2 * s.max
  bound : s.max ≤ u32 / 2
  endEq : s.end = s.max + l.length
  cap : l.length ≤ s.max
  dense : ∀ i (h : i < l.length), s.data[s.max + i]? = some l[i]
  sparse : ∀ i (h : i < l.length), s.data[l[i]]? = some i
  mem : ∀ e ∈ l, e < s.max
  small : ∀ e, e < s.max → ∃ d, s.data[e]? = some d ∧ d < s.max
  nodup : l.Nodup

theorem inv_resize {m : Nat} {g : List Nat} (hg : g.length = m) (hm : m ≤ u32 / 2) :
    Inv (resize m g) [] where
  len := by simp [resize, hg]; omega
  bound := hm
  endEq := by simp [resize]
  cap := by simp
  dense := by simp
  sparse := by simp
  mem := by simp
  small := by
    intro e he
    simp only [resize] at he ⊢
    refine ⟨0, ?_, by omega⟩
    rw [List.getElem?_append_left (by simpa using he)]
    simp [he]
  nodup := List.nodup_nil

theorem find_spec {s : SS} {l : List Nat} (h : Inv s l) {e : Nat} (he : e < s.max) :
    find s e = some (decide (e ∈ l)) := by
  obtain ⟨d, hd, hdm⟩ := h.small e he
  have hmod : (d + s.max) % u32 = d + s.max := by
    apply Nat.mod_eq_of_lt
    have := h.bound
    simp only [u32] at *
    omega
  simp only [find, hd, hmod, Option.bind_eq_bind, Option.bind_some]
  split
  · rename_i hlt
    have hdl : d < l.length := by have := h.endEq; omega
    have := h.dense d hdl
    rw [Nat.add_comm d s.max, this]
    simp only [Option.bind_some, Option.some.injEq]
    by_cases hmem : e ∈ l
    · obtain ⟨i, hi, rfl⟩ := List.mem_iff_getElem.1 hmem
      have h2 := h.sparse i hi
      rw [hd] at h2
      have hdi : d = i := by simpa using h2
      subst hdi
      simp
    · have hne : l[d] ≠ e := by
        intro heq; exact hmem (heq ▸ List.getElem_mem hdl)
      simp [hmem, hne]
  · rename_i hlt
    by_cases hmem : e ∈ l
    · obtain ⟨i, hi, rfl⟩ := List.mem_iff_getElem.1 hmem
      have h2 := h.sparse i hi
      rw [hd] at h2
      have hdi : d = i := by simpa using h2
      have := h.endEq
      omega
    · simp [hmem]

/-- Pigeonhole: a duplicate-free list of numbers below `m` has at most `m`
elements. -/
theorem nodup_length_le {l : List Nat} : ∀ {m : Nat}, l.Nodup → (∀ e ∈ l, e < m) → l.length ≤ m := by
  intro m
  induction m generalizing l with
  | zero =>
    intro _ h
    cases l with
    | nil => simp
    | cons a t => exact absurd (h a (by simp)) (by omega)
  | succ m ih =>
    intro hn h
    have h1 : (l.erase m).length ≤ m := by
      apply ih (hn.erase m)
      intro e he
      have he' := (hn.mem_erase_iff).1 he
      have := h e he'.2
      omega
    by_cases hm : m ∈ l
    · have := List.length_erase_of_mem hm; omega
    · rw [List.erase_of_not_mem hm] at h1; omega

theorem insert_spec {s : SS} {l : List Nat} (h : Inv s l) {e : Nat} (he : e < s.max)
    (hn : e ∉ l) : ∃ s', insert s e = some s' ∧ Inv s' (l ++ [e]) ∧ s'.max = s.max := by
  have hnd : (l ++ [e]).Nodup := by
    rw [List.nodup_append]
    refine ⟨h.nodup, by simp, ?_⟩
    intro a ha b hb
    simp at hb
    subst hb
    intro hab; subst hab; exact hn ha
  have hcap : (l ++ [e]).length ≤ s.max := by
    apply nodup_length_le hnd
    intro a ha
    rcases List.mem_append.1 ha with ha | ha
    · exact h.mem a ha
    · simp at ha; omega
  simp only [List.length_append, List.length_singleton] at hcap
  have hlen := h.len
  have hend := h.endEq
  have c1 : s.end < s.data.length := by omega
  have c2 : e < s.data.length := by omega
  refine ⟨{ data := (s.data.set s.end e).set e (s.end - s.max), «end» := s.end + 1, max := s.max },
    by simp only [insert]; rw [if_pos ⟨c1, c2⟩], ?_, rfl⟩
  constructor
  · simpa using hlen
  · exact h.bound
  · simp; omega
  · simpa using hcap
  · intro i hi
    simp only [List.length_append, List.length_singleton] at hi
    simp only
    rw [List.getElem?_set_ne (by omega)]
    by_cases hil : i < l.length
    · rw [List.getElem?_set_ne (by omega), h.dense i hil, List.getElem_append_left hil]
    · have : i = l.length := by omega
      subst this
      rw [hend, List.getElem?_set_self (by omega)]
      simp
  · intro i hi
    simp only [List.length_append, List.length_singleton] at hi
    simp only
    by_cases hil : i < l.length
    · rw [List.getElem_append_left hil]
      have hm : l[i] < s.max := h.mem _ (List.getElem_mem hil)
      have hne : l[i] ≠ e := fun heq => hn (heq ▸ List.getElem_mem hil)
      rw [List.getElem?_set_ne (fun x => hne x.symm), List.getElem?_set_ne (by omega), h.sparse i hil]
    · have : i = l.length := by omega
      subst this
      simp only [List.getElem_concat_length]
      rw [List.getElem?_set_self (by simpa using c2)]
      congr 1
      omega
  · intro a ha
    rcases List.mem_append.1 ha with ha | ha
    · exact h.mem a ha
    · simp at ha; subst ha; exact he
  · intro a ha
    simp only
    by_cases hae : a = e
    · subst hae
      exact ⟨s.end - s.max, by rw [List.getElem?_set_self (by simpa using c2)], by omega⟩
    · obtain ⟨d, hd, hdm⟩ := h.small a ha
      exact ⟨d, by rw [List.getElem?_set_ne (fun x => hae x.symm),
        List.getElem?_set_ne (by have : a < s.max := ha; omega), hd], hdm⟩
  · exact hnd

theorem clear_spec {s : SS} {l : List Nat} (h : Inv s l) : Inv (clear s) [] where
  len := h.len
  bound := h.bound
  endEq := by simp [clear]
  cap := by simp
  dense := by simp
  sparse := by simp
  mem := by simp
  small := h.small
  nodup := List.nodup_nil

end Verif.SparseSet
