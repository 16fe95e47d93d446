import Verif.Props.Fsm
/-!
# C24: creating a second program from the same FSM

`labelGuardStates` changes the labels of the FSM's automaton in place: only the guard
states keep one.  A second `lg_create_program` (without determinization, or with the
automaton marked deterministic) labels the result again.
-/
namespace Verif.Label
open Verif.Nfa Verif.Regex Verif.NfaBuilder Verif.Fsm

/-! ## The property is false -/

/-- The pattern `ab+`. -/
def plus : List (Nat × Tree Leaf) := [(0, .cat (.leaf (.lit [97])) (.rep false 1 UNB (.leaf (.lit [98]))))]

/-- The pattern `ab`. -/
def pair : List (Nat × Tree Leaf) := [(0, .leaf (.lit [97, 98]))]

theorem plus_patterns : Patterns plus := by
  refine ⟨by decide, ?_⟩
  intro p hp
  simp only [plus, List.mem_singleton] at hp
  subst hp
  exact ⟨by simp [Ok, UNB], by simp [NoLook], by simp [NoDead], by simp [LeavesOk, AllLeaves, LeafOk]⟩

theorem pair_patterns : Patterns pair := by
  refine ⟨by decide, ?_⟩
  intro p hp
  simp only [pair, List.mem_singleton] at hp
  subst hp
  exact ⟨by simp [Ok], by simp [NoLook], by simp [NoDead], by simp [LeavesOk, AllLeaves, LeafOk]⟩

theorem walk_hangs {g : Graph} (hin : (g.v 2).inn = [1, 2]) : ∀ fuel L, L 1 = .un → L 2 = .none →
    walk g .none fuel [2] L = none := by
  intro fuel
  induction fuel with
  | zero => intro L _ _; rfl
  | succ n ih =>
    intro L h1 h2
    rw [walk, hin]
    have : parents g n .none [1, 2] [] L = some ([2], set L 2 .none) := by
      simp [parents, h1, h2]
    rw [this]
    exact ih _ (by rw [set_other _ (by decide)]; exact h1) (set_same _ _ _)

/-- The walk from state 2 over its own edge never ends once the label is on state 1. -/
theorem label_hangs {g : Graph} (hn : g.n = 3) (h0 : (g.v 0).isMatch = false)
    (h1 : (g.v 1).isMatch = false ∧ (g.v 1).label = some 0 ∧ (g.v 1).inn = [0])
    (h2 : (g.v 2).isMatch = true ∧ (g.v 2).label = none ∧ (g.v 2).inn = [1, 2]) :
    ∀ fuel, labelGuardStates fuel g = none := by
  intro fuel
  have key : walk g .none fuel [2] (fun v => Mark.ofLabel (g.v v).label) = none := by
    have k1 : (fun v => Mark.ofLabel (g.v v).label) 1 = .lab 0 := by show Mark.ofLabel _ = _; rw [h1.2.1]; rfl
    have k2 : (fun v => Mark.ofLabel (g.v v).label) 2 = .none := by show Mark.ofLabel _ = _; rw [h2.2.1]; rfl
    generalize (fun v => Mark.ofLabel (g.v v).label) = L0 at k1 k2
    cases fuel with
    | zero => rfl
    | succ n =>
      rw [walk, h2.2.2]
      simp only [parents, k1]
      rw [if_neg (by decide), if_neg (by decide), if_neg (by decide), if_neg (by decide)]
      cases e : walkUn g n [1] L0 with
      | none => rfl
      | some L =>
        dsimp only
        have hL : L 1 = .un ∧ L 2 = .none := by
          cases n with
          | zero => cases e
          | succ n =>
            rw [walkUn, h1.2.2] at e
            cases n with
            | zero => cases e
            | succ n =>
              simp only [List.filter_cons, ne_eq, not_true_eq_false, false_and, decide_false, Bool.false_eq_true,
                if_false, List.filter_nil, List.reverse_nil, List.nil_append, walkUn, Option.some.injEq] at e
              subst e
              refine ⟨set_same _ _ _, ?_⟩
              rw [set_other _ (by decide)]
              exact k2
        rw [if_neg (by decide), if_pos hL.2]
        exact walk_hangs h2.2.2 n _ (by rw [set_other _ (by decide)]; exact hL.1) (set_same _ _ _)
  unfold labelGuardStates
  rw [hn, show List.range 3 = [0, 1, 2] from rfl]
  simp only [propagate, h0, h1.1, h2.1, Bool.false_eq_true, if_false, if_true]
  rw [show Mark.ofLabel (g.v 2).label = .none by rw [h2.2.1]; rfl, key]

/-- C24 is false: with the pattern `ab+`, the first compilation labels the automaton, and
the second one never returns. -/
theorem recompile_hangs : ∃ g g', addAll 20 Graph.init (calls plus) = some g ∧ labelGuardStates 20 g = some g' ∧
    ∀ fuel, labelGuardStates fuel g' = none := by
  have h : (match (addAll 20 Graph.init (calls plus)).bind (labelGuardStates 20) with
      | some g => g.n == 3 && !(g.v 0).isMatch && !(g.v 1).isMatch && (g.v 1).label == some 0 && (g.v 1).inn == [0] &&
          (g.v 2).isMatch && (g.v 2).label == none && (g.v 2).inn == [1, 2]
      | none => false) = true := by decide +kernel
  cases h1 : addAll 20 Graph.init (calls plus) with
  | none => rw [h1] at h; cases h
  | some g =>
    rw [h1, Option.bind_some] at h
    cases h2 : labelGuardStates 20 g with
    | none => rw [h2] at h; cases h
    | some g' =>
      rw [h2] at h
      simp only [Bool.and_eq_true, Bool.not_eq_true', beq_iff_eq] at h
      obtain ⟨⟨⟨⟨⟨⟨⟨a1, a2⟩, a3⟩, a4⟩, a5⟩, a6⟩, a7⟩, a8⟩ := h
      exact ⟨g, g', rfl, h2, label_hangs a1 a2 ⟨a3, a4, a5⟩ ⟨a6, a7, a8⟩⟩

/-- C24 is false in another way: with the pattern `ab` the second compilation returns,
but no state has a label any more, so that nothing is accepted for the keyword. -/
theorem recompile_loses_keyword : ∃ g g' g'', addAll 20 Graph.init (calls pair) = some g ∧
    labelGuardStates 20 g = some g' ∧ labelGuardStates 20 g' = some g'' ∧
    Compiler.GAccepts g' 0 [97, 98] ∧ ∀ l w, ¬ Compiler.GAccepts g'' l w := by
  have h : (match (addAll 20 Graph.init (calls pair)).bind (fun g => (labelGuardStates 20 g).bind
        (fun g' => (labelGuardStates 20 g').map (fun g'' => (g', g'')))) with
      | some (g', g'') => g'.n == 3 && decide (1 ∈ (g'.v 0).out) && decide (2 ∈ (g'.v 1).out) &&
          (g'.v 1).bytes.has 97 && (g'.v 2).bytes.has 98 && (g'.v 2).isMatch && (g'.v 1).label == some 0 &&
          (g'.v 2).label == none && (g''.v 0).label == none && (g''.v 1).label == none && (g''.v 2).label == none
      | none => false) = true := by decide +kernel
  cases h1 : addAll 20 Graph.init (calls pair) with
  | none => rw [h1] at h; cases h
  | some g =>
    rw [h1, Option.bind_some] at h
    cases h2 : labelGuardStates 20 g with
    | none => rw [h2] at h; cases h
    | some g' =>
      rw [h2, Option.bind_some] at h
      cases h3 : labelGuardStates 20 g' with
      | none => rw [h3] at h; cases h
      | some g'' =>
        rw [h3, Option.map_some] at h
        simp only [Bool.and_eq_true, decide_eq_true_eq, beq_iff_eq] at h
        obtain ⟨⟨⟨⟨⟨⟨⟨⟨⟨⟨a1, a2⟩, a3⟩, a4⟩, a5⟩, a6⟩, a7⟩, a8⟩, b0⟩, b1⟩, b2⟩ := h
        refine ⟨g, g', g'', rfl, h2, h3, ⟨2, ?_, a6⟩, ?_⟩
        · have r := (Compiler.GRun.init (g := g')).step a2 a4 |>.step a3 a5
          rw [a7, a8] at r
          exact r
        · obtain ⟨c1, -⟩ := add_all Optimizer.combined_init pair_patterns (fun p _ v => by simp [Graph.init]) h1
          have e1 := label_shape h2
          have e2 := label_shape h3
          have none_label : ∀ {w v lab}, Compiler.GRun g'' w v lab → v < 3 ∧ lab = none := by
            intro w v lab hr
            induction hr with
            | init => exact ⟨by decide, rfl⟩
            | @step w v lab u b _ hu _ ih =>
              rw [(e2.2 v).1, (e1.2 v).1] at hu
              have hlt := (c1.range v u hu).2.2
              have hn : g.n = 3 := by rw [← e1.1, a1]
              rw [hn] at hlt
              refine ⟨hlt, ?_⟩
              rw [ih.2, Option.or_none]
              have : u = 0 ∨ u = 1 ∨ u = 2 := by omega
              rcases this with e | e | e <;> subst e <;> assumption
          rintro l w ⟨v, hr, -⟩
          have := (none_label hr).2
          cases this

/-! ## What holds -/

/-- The part of C24 which holds: if the guard states are exactly the match states, a
second labelling returns, and what is accepted is as after the first. -/
theorem recompile_partial {g g' : Graph} (hg : Tidy g) {fuel : Nat} (h : labelGuardStates fuel g = some g')
    (hm : ∀ v, (g'.v v).label = (g.v v).label) :
    ∃ g'' F, (∀ fuel ≥ F, labelGuardStates fuel g' = some g'') ∧
      ∀ l w, Compiler.GAccepts g'' l w ↔ Compiler.GAccepts g' l w := by
  obtain ⟨s1, s2⟩ := label_shape h
  have e : g' = g := by
    obtain ⟨n, v⟩ := g
    obtain ⟨n', v'⟩ := g'
    simp only at s1 s2 hm
    subst s1
    congr
    funext x
    obtain ⟨a, b, c, d⟩ := s2 x
    have := hm x
    cases hx : v x
    cases hx' : v' x
    simp_all
  subst e
  obtain ⟨g'', F, h2⟩ := label_ends hg
  refine ⟨g'', F, h2, fun l w => ?_⟩
  rw [label_language hg (h2 F (Nat.le_refl _)), label_language hg h]

end Verif.Label
