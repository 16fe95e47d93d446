/-!
# Compact adjacency lists (include/vectorfamily.h)

A list is a small handle (`Which`, `What`): empty, one element stored inline, or
an index into the shared store.  The stored element type is unbounded here (the
C++ type is 32-bit and the index is stored in it: more than 2^32 stored vectors
are not modelled).
-/
namespace Verif.VectorFamily

/-- `VectorFamily::List`, include/vectorfamily.h:41-50. -/
inductive Handle (α : Type) where
  | zero
  | one (what : α)
  | many (idx : Nat)

/-- The store and the handles that the clients hold. -/
structure Fam (α : Type) where
  store : List (List α)
  handles : List (Handle α)

variable {α : Type} [DecidableEq α]

/-- include/vectorfamily.h:53-62 `size`. -/
def size (f : Fam α) : Handle α → Nat
  | .zero => 0
  | .one _ => 1
  | .many i => (f.store[i]?.getD []).length

/-- Iteration `begin(l) .. end(l)`, include/vectorfamily.h:185-223. -/
def contents (f : Fam α) : Handle α → List α
  | .zero => []
  | .one x => [x]
  | .many i => f.store[i]?.getD []

/-- include/vectorfamily.h:153-164 `at`; `none` is an exception or an access
out of bounds.  Note that `at` of a one-element list ignores the index. -/
def «at» (f : Fam α) (h : Handle α) (i : Nat) : Option α :=
  match h with
  | .zero => none
  | .one x => some x
  | .many s => (f.store[s]?.getD [])[i]?

/-- include/vectorfamily.h:64-80 `add`, on the handle number `k`. -/
def add (f : Fam α) (k : Nat) (e : α) : Option (Fam α) :=
  match f.handles[k]? with
  | none => none
  | some .zero => some { f with handles := f.handles.set k (.one e) }
  | some (.one x) => some { store := f.store ++ [[x, e]], handles := f.handles.set k (.many f.store.length) }
  | some (.many i) =>
    match f.store[i]? with
    | none => none
    | some l => some { f with store := f.store.set i (l ++ [e]) }

/-- include/vectorfamily.h:82-105 `insert`. -/
def insert (f : Fam α) (k i : Nat) (e : α) : Option (Fam α) :=
  match f.handles[k]? with
  | none => none
  | some .zero => some { f with handles := f.handles.set k (.one e) }
  | some (.one x) =>
    some { store := f.store ++ [if i = 0 then [e, x] else [x, e]],
           handles := f.handles.set k (.many f.store.length) }
  | some (.many s) =>
    match f.store[s]? with
    | none => none
    | some l => some { f with store := f.store.set s (if i < l.length then l.insertIdx i e else l ++ [e]) }

/-- include/vectorfamily.h:107-138 `remove`; `none` is the exception "not in
list". -/
def remove (f : Fam α) (k : Nat) (e : α) : Option (Fam α) :=
  match f.handles[k]? with
  | none => none
  | some .zero => none
  | some (.one x) => if x ≠ e then none else some { f with handles := f.handles.set k .zero }
  | some (.many s) =>
    match f.store[s]? with
    | none => none
    | some l =>
      if e ∈ l then
        match l.erase e with
        | [y] => some { store := f.store.set s [], handles := f.handles.set k (.one y) }
        | l' => some { f with store := f.store.set s l' }
      else none

/-- include/vectorfamily.h:140-147 `clear`. -/
def clear (f : Fam α) (k : Nat) : Option (Fam α) :=
  match f.handles[k]? with
  | none => none
  | some .zero => some f
  | some (.one _) => some { f with handles := f.handles.set k .zero }
  | some (.many s) => some { store := f.store.set s [], handles := f.handles.set k .zero }

/-- A client creates a new empty list, include/vectorfamily.h:49. -/
def newList (f : Fam α) : Fam α := { f with handles := f.handles ++ [.zero] }

/-- Operations. -/
inductive Op (α : Type) where
  | new
  | add (k : Nat) (e : α)
  | insert (k i : Nat) (e : α)
  | remove (k : Nat) (e : α)
  | clear (k : Nat)

/-- One operation. -/
def step (f : Fam α) : Op α → Option (Fam α)
  | .new => some (newList f)
  | .add k e => add f k e
  | .insert k i e => insert f k i e
  | .remove k e => remove f k e
  | .clear k => clear f k

/-- A history. -/
def run (f : Fam α) : List (Op α) → Option (Fam α)
  | [] => some f
  | o :: os => (step f o).bind (fun f' => run f' os)

omit [DecidableEq α]

/-! ### Refinement -/

/-- The handle `h` stands for the list `l`. -/
def Rep (f : Fam α) (h : Handle α) (l : List α) : Prop :=
  match h with
  | .zero => l = []
  | .one x => l = [x]
  | .many i => f.store[i]? = some l ∧ 2 ≤ l.length

/-- The family stands for the lists `ls`; no two handles share a stored
vector. -/
structure Inv (f : Fam α) (ls : List (List α)) : Prop where
  len : f.handles.length = ls.length
  rep : ∀ (k : Nat) h l, f.handles[k]? = some h → ls[k]? = some l → Rep f h l
  apart : ∀ (k k' i : Nat), f.handles[k]? = some (.many i) → f.handles[k']? = some (.many i) → k = k'
  bound : ∀ (k i : Nat), f.handles[k]? = some (.many i) → i < f.store.length

theorem getElem?_some_of_len {β γ : Type} {a : List β} {b : List γ} (h : a.length = b.length) {k : Nat} {x : β}
    (hx : a[k]? = some x) : ∃ y, b[k]? = some y := by
  have := (List.getElem?_eq_some_iff.1 hx).1
  exact ⟨b[k]'(by omega), List.getElem?_eq_getElem (by omega)⟩

/-- Replace handle `k` by one that does not refer to the old store, keeping or
emptying stored vectors that only `k` used. -/
theorem inv_set_small {f : Fam α} {ls : List (List α)} (h : Inv f ls) {k : Nat} {hd : Handle α} {l' : List α}
    {st : List (List α)} (hsmall : (hd = .zero ∧ l' = []) ∨ ∃ x, hd = .one x ∧ l' = [x])
    (hlen : st.length = f.store.length)
    (hst : ∀ (j i : Nat), j ≠ k → f.handles[j]? = some (.many i) → st[i]? = f.store[i]?) :
    Inv { store := st, handles := f.handles.set k hd } (ls.set k l') := by
  have hnm : ∀ i, hd ≠ .many i := by
    rcases hsmall with ⟨rfl, _⟩ | ⟨x, rfl, _⟩ <;> simp
  constructor
  · simp [h.len]
  · intro j hh l hj hl
    by_cases hkj : k = j
    · subst hkj
      have hlt : k < f.handles.length := by
        have := (List.getElem?_eq_some_iff.1 hj).1; simpa using this
      simp only at hj
      rw [List.getElem?_set_self hlt] at hj
      rw [List.getElem?_set_self (by rw [← h.len]; exact hlt)] at hl
      simp only [Option.some.injEq] at hj hl
      subst hj; subst hl
      rcases hsmall with ⟨rfl, rfl⟩ | ⟨x, rfl, rfl⟩ <;> simp [Rep]
    · simp only at hj
      rw [List.getElem?_set_ne hkj] at hj hl
      have := h.rep j hh l hj hl
      cases hh with
      | zero => exact this
      | one x => exact this
      | many i =>
        simp only [Rep] at this ⊢
        rw [hst j i (fun hc => hkj hc.symm) hj]; exact this
  · intro j j' i h1 h2
    simp only at h1 h2
    by_cases hj : k = j
    · subst hj
      rw [List.getElem?_set] at h1
      split at h1
      · split at h1
        · simp only [Option.some.injEq] at h1; exact absurd h1 (hnm i)
        · simp at h1
      · contradiction
    · by_cases hj' : k = j'
      · subst hj'
        rw [List.getElem?_set] at h2
        split at h2
        · split at h2
          · simp only [Option.some.injEq] at h2; exact absurd h2 (hnm i)
          · simp at h2
        · contradiction
      · rw [List.getElem?_set_ne hj] at h1
        rw [List.getElem?_set_ne hj'] at h2
        exact h.apart j j' i h1 h2
  · intro j i h1
    simp only at h1 ⊢
    by_cases hj : k = j
    · subst hj
      rw [List.getElem?_set] at h1
      split at h1
      · split at h1
        · simp only [Option.some.injEq] at h1; exact absurd h1 (hnm i)
        · simp at h1
      · contradiction
    · rw [List.getElem?_set_ne hj] at h1
      rw [hlen]; exact h.bound j i h1

/-- Promote handle `k` to a fresh stored vector. -/
theorem inv_promote {f : Fam α} {ls : List (List α)} (h : Inv f ls) {k : Nat} {l' : List α}
    (hl' : 2 ≤ l'.length) :
    Inv { store := f.store ++ [l'], handles := f.handles.set k (.many f.store.length) } (ls.set k l') := by
  constructor
  · simp [h.len]
  · intro j hh l hj hl
    by_cases hkj : k = j
    · subst hkj
      have hlt : k < f.handles.length := by
        have := (List.getElem?_eq_some_iff.1 hj).1; simpa using this
      simp only at hj
      rw [List.getElem?_set_self hlt] at hj
      rw [List.getElem?_set_self (by rw [← h.len]; exact hlt)] at hl
      simp only [Option.some.injEq] at hj hl
      subst hj; subst hl
      simp [Rep, hl']
    · simp only at hj
      rw [List.getElem?_set_ne hkj] at hj hl
      have := h.rep j hh l hj hl
      cases hh with
      | zero => exact this
      | one x => exact this
      | many i =>
        simp only [Rep] at this ⊢
        rw [List.getElem?_append_left (h.bound j i hj)]; exact this
  · intro j j' i h1 h2
    simp only at h1 h2
    by_cases hj : k = j
    · by_cases hj' : k = j'
      · omega
      · subst hj
        rw [List.getElem?_set_ne hj'] at h2
        have := h.bound j' i h2
        have hlt : k < f.handles.length := by
          have := (List.getElem?_eq_some_iff.1 h1).1; simpa using this
        rw [List.getElem?_set_self hlt] at h1
        simp only [Option.some.injEq, Handle.many.injEq] at h1
        omega
    · rw [List.getElem?_set_ne hj] at h1
      by_cases hj' : k = j'
      · subst hj'
        have := h.bound j i h1
        have hlt : k < f.handles.length := by
          have := (List.getElem?_eq_some_iff.1 h2).1; simpa using this
        rw [List.getElem?_set_self hlt] at h2
        simp only [Option.some.injEq, Handle.many.injEq] at h2
        omega
      · rw [List.getElem?_set_ne hj'] at h2
        exact h.apart j j' i h1 h2
  · intro j i h1
    simp only at h1 ⊢
    rw [List.length_append]
    by_cases hj : k = j
    · subst hj
      have hlt : k < f.handles.length := by
        have := (List.getElem?_eq_some_iff.1 h1).1; simpa using this
      rw [List.getElem?_set_self hlt] at h1
      simp only [Option.some.injEq, Handle.many.injEq] at h1
      simp; omega
    · rw [List.getElem?_set_ne hj] at h1
      have := h.bound j i h1
      omega

/-- Rewrite the stored vector of handle `k`. -/
theorem inv_rewrite {f : Fam α} {ls : List (List α)} (h : Inv f ls) {k s : Nat} {l' : List α}
    (hk : f.handles[k]? = some (.many s)) (hl' : 2 ≤ l'.length) :
    Inv { f with store := f.store.set s l' } (ls.set k l') := by
  constructor
  · simp [h.len]
  · intro j hh l hj hl
    simp only at hj
    by_cases hkj : k = j
    · subst hkj
      have hlt : k < f.handles.length := (List.getElem?_eq_some_iff.1 hj).1
      rw [List.getElem?_set_self (by rw [← h.len]; exact hlt)] at hl
      rw [hk] at hj
      simp only [Option.some.injEq] at hj hl
      subst hj; subst hl
      simp only [Rep]
      rw [List.getElem?_set_self (h.bound k s hk)]
      exact ⟨rfl, hl'⟩
    · rw [List.getElem?_set_ne hkj] at hl
      have := h.rep j hh l hj hl
      cases hh with
      | zero => exact this
      | one x => exact this
      | many i =>
        simp only [Rep] at this ⊢
        rw [List.getElem?_set_ne (by intro hc; subst hc; exact hkj (h.apart k j s hk hj))]; exact this
  · exact h.apart
  · intro j i h1
    simp only [List.length_set]
    exact h.bound j i h1

end Verif.VectorFamily
