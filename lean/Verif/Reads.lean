import Verif.Graph
/-!
# Reading bytes from the start

The words with which an automaton enters a state.  Used to relate what automata accept.
-/
namespace Verif.Nfa

/-- Reading the bytes from the initial state, the automaton can be in the given state. -/
inductive Reads (g : Graph) : List UInt8 → Nat → Prop
  | init : Reads g [] 0
  | step {w v u b} : Reads g w v → u ∈ (g.v v).out → (g.v u).bytes.has b = true → Reads g (w ++ [b]) u

theorem Reads.path {g : Graph} {u t : Nat} {w : List UInt8} (h : Path g u w t) :
    ∀ {w0 v}, Reads g w0 v → u ∈ (g.v v).out → Reads g (w0 ++ w) t := by
  induction h with
  | one hb => intro w0 v hr hu; exact hr.step hu hb
  | @cons v u t b w hb hu _ ih =>
    intro w0 v0 hr hv
    have := ih (hr.step hv hb) hu
    simpa using this

theorem Reads.of_path {g : Graph} {w : List UInt8} {v : Nat} (h : Reads g w v) :
    (w = [] ∧ v = 0) ∨ ∃ u ∈ (g.v 0).out, Path g u w v := by
  have snoc : ∀ {v w t u b}, Path g v w t → u ∈ (g.v t).out → (g.v u).bytes.has b = true → Path g v (w ++ [b]) u := by
    intro v w t u b h hu hb
    induction h with
    | one h1 => exact .cons h1 hu (.one hb)
    | cons h1 h2 _ ih => exact .cons h1 h2 (ih hu)
  induction h with
  | init => exact Or.inl ⟨rfl, rfl⟩
  | step _ hu hb ih =>
    right
    rcases ih with ⟨rfl, rfl⟩ | ⟨u', h1, h2⟩
    · exact ⟨_, hu, .one hb⟩
    · exact ⟨u', h1, snoc h2 hu hb⟩

/-- Acceptance, in terms of the states entered. -/
theorem accepts_iff_reads {g : Graph} (hr : (g.v 0).isMatch = false) (l : Nat) (w : List UInt8) :
    Accepts g l w ↔ ∃ v, Reads g w v ∧ (g.v v).isMatch = true ∧ (g.v v).label = some l := by
  constructor
  · rintro ⟨u, hu, t, hp, hm, hl⟩
    exact ⟨t, by simpa using Reads.path hp .init hu, hm, hl⟩
  · rintro ⟨v, h, hm, hl⟩
    rcases h.of_path with ⟨rfl, rfl⟩ | ⟨u, hu, hp⟩
    · rw [hr] at hm; cases hm
    · exact ⟨u, hu, v, hp, hm, hl⟩

theorem matches_iff_reads {g : Graph} (hr : (g.v 0).isMatch = false) (w : List UInt8) :
    Matches g w ↔ ∃ v, Reads g w v ∧ (g.v v).isMatch = true := by
  constructor
  · rintro ⟨u, hu, t, hp, hm⟩
    exact ⟨t, by simpa using Reads.path hp .init hu, hm⟩
  · rintro ⟨v, h, hm⟩
    rcases h.of_path with ⟨rfl, rfl⟩ | ⟨u, hu, hp⟩
    · rw [hr] at hm; cases hm
    · exact ⟨u, hu, v, hp, hm⟩

/-- No word is accepted which is empty. -/
theorem Accepts.ne_nil {g : Graph} {l : Nat} {w : List UInt8} (h : Accepts g l w) : w ≠ [] := by
  obtain ⟨u, -, t, hp, -⟩ := h
  cases hp <;> simp

/-- A state is entered with a word ending in one of its bytes, from a state leading to it. -/
theorem reads_step_iff {g : Graph} {w : List UInt8} {b : UInt8} {u : Nat} :
    Reads g (w ++ [b]) u ↔ ∃ v, Reads g w v ∧ u ∈ (g.v v).out ∧ (g.v u).bytes.has b = true := by
  constructor
  · intro h
    generalize hx : w ++ [b] = x at h
    cases h with
    | init => simp at hx
    | step h1 h2 h3 =>
      obtain ⟨rfl, hb⟩ := List.append_inj' hx rfl
      cases hb
      exact ⟨_, h1, h2, h3⟩
  · rintro ⟨v, h1, h2, h3⟩
    exact h1.step h2 h3

theorem reads_nil_iff {g : Graph} {u : Nat} : Reads g [] u ↔ u = 0 := by
  constructor
  · intro h
    generalize hx : ([] : List UInt8) = x at h
    cases h with
    | init => rfl
    | step h1 h2 h3 => simp at hx
  · rintro rfl; exact .init

end Verif.Nfa
