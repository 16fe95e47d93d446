import Verif.Props.Finalize
/-!
# Patterns to searches: C04, C08 and C10 for programs made from patterns

The hypotheses of the theorems about compiled automata (`Live`, `Guards`, `Labelled`) are
what adding patterns and `finalizeGraph` establish; here they are discharged.
-/
namespace Verif.Fsm
open Verif.Nfa Verif.Regex Verif.NfaBuilder Verif.Optimizer Verif.Label Verif.Subset

/-- A program made from patterns: they are added one by one to a new FSM, the automaton is
determinized to some depth, labelled and compiled.  `nodup` excludes the parallel edges
that a limited depth can make (`limited_overruns`); see `finalized_parallel`. -/
structure Made (ps : List (Nat × Tree Leaf)) (g' : Graph) (P : Vm.Program) : Prop where
  patterns : Patterns ps
  made : ∃ f1 f2 f3 g det depth, addAll f1 Graph.init (calls ps) = some g ∧
    finalizeGraph f2 det depth g = some (.ok g') ∧ Compiler.createProgram f3 g' = some (.ok P)
  nodup : ∀ v, (g'.v v).out.Nodup

theorem Made.facts {ps : List (Nat × Tree Leaf)} {g' : Graph} {P : Vm.Program} (h : Made ps g' P) :
    Compiler.Live g' ∧ Compiler.Guards g' ∧ (∃ f, Compiler.createProgram f g' = some (.ok P)) ∧
    ∀ l w, Compiler.GAccepts g' l w → ∃ t, (l, t) ∈ ps ∧ w ∈ lang leafSem t := by
  obtain ⟨f1, f2, f3, g, det, depth, h1, h2, h3⟩ := h.made
  obtain ⟨c1, c2, c3, c4⟩ := add_all combined_init h.patterns (fun p _ v => by simp [Graph.init]) h1
  obtain ⟨-, d, hlab, hT, hn, hacc, hC, -⟩ := finalized c1 h2
  refine ⟨labelled_live (hC h.nodup) hn hlab, label_guards hT hlab, ⟨f3, h3⟩, fun l w hw => ?_⟩
  have ha := (hacc l w).1 ((label_language hT hlab l w).1 hw)
  by_cases hl : l ∈ ps.map (·.1)
  · obtain ⟨⟨l', t⟩, hp, rfl⟩ := List.mem_map.1 hl
    exact ⟨t, hp, (c4 _ hp).1 w ha⟩
  · obtain ⟨u, hu, -⟩ := (c3 l hl w).1 ha
    simp [Graph.init] at hu

/-- **C04** for programs made from patterns: however a stream is cut into consecutive
buffers, the searches end and report for every keyword the same hits in the same order,
and altogether the same hits. -/
theorem pipeline_cuts_agree {ps : List (Nat × Tree Leaf)} {g' : Graph} {P : Vm.Program} (h : Made ps g' P)
    {fuel : Nat} (hf : 2 * g'.n + 9 ≤ fuel) (off : Nat) {bufs bufs' : List (List UInt8)}
    (he : bufs.flatten = bufs'.flatten) :
    ∃ first σ₀ rs σ rs' σ', Vm.create P fuel = .ok (first, σ₀) ∧
      Vm.run P first fuel (Vm.searches off bufs) σ₀ = .ok (rs, σ) ∧
      Vm.run P first fuel (Vm.searches off bufs') σ₀ = .ok (rs', σ') ∧
      (∀ l, Vm.hitsOf l σ.log = Vm.hitsOf l σ'.log) ∧ σ.log.Perm σ'.log := by
  obtain ⟨a, b, ⟨f, c⟩, -⟩ := h.facts
  exact Compiler.cuts_agree a b c hf off he

/-- **C08** for programs made from patterns: in any history of calls in which the buffers
of a stream are handed over consecutively, the bytes of every hit match the pattern added
under the hit's keyword index. -/
theorem pipeline_hits_match {ps : List (Nat × Tree Leaf)} {g' : Graph} {P : Vm.Program} (h : Made ps g' P)
    {fuel : Nat} {first : List Vm.Thread} {σ₀ : Vm.St} (hnew : Vm.create P fuel = .ok (first, σ₀))
    {data : Nat → UInt8} {p q : Nat} {cs : List Vm.Call} (hs : Vm.Stream data p cs q)
    {rs : List (Option Nat)} {σ : Vm.St} (hrun : Vm.run P first fuel cs σ₀ = .ok (rs, σ)) :
    ∀ x ∈ σ.log, ∃ t, (x.label, t) ∈ ps ∧ Vm.seg data x.start x.end ∈ lang leafSem t := by
  obtain ⟨a, -, ⟨f, c⟩, d⟩ := h.facts
  exact fun x hx => d _ _ (Compiler.compiled_hits_are_matches a c hnew hs hrun x hx)

/-- **C10** for programs made from patterns: any history of calls ends without an access
out of bounds, and the work per byte is bounded by the size of the automaton. -/
theorem pipeline_never_out_of_bounds {ps : List (Nat × Tree Leaf)} {g' : Graph} {P : Vm.Program} (h : Made ps g' P)
    {fuel : Nat} (hf : 2 * g'.n + 9 ≤ fuel) (cs : List Vm.Call) :
    ∃ first σ₀ rs σ, Vm.create P fuel = .ok (first, σ₀) ∧ Vm.run P first fuel cs σ₀ = .ok (rs, σ) := by
  obtain ⟨a, b, ⟨f, c⟩, -⟩ := h.facts
  exact Compiler.compiled_never_out_of_bounds a b.labelled c hf cs

/-! ## Example -/

/-- `(?:a(?:b|c|d|e))*af` with the default determinization is covered, although it has a
jump-table landing at address 0. -/
theorem looping_made : ∃ g' P, Made [(0, looping)] g' P ∧ ¬ Compiler.NoZero g' := by
  obtain ⟨-, g, g', P, first, σ₀, rs, σ, h1, h2, ⟨F, hP⟩, r1, r2, hpos, hn⟩ := determinized_loses_match
  obtain ⟨g1, g1', k1, k2, hs, -⟩ := looping_facts
  rw [h1] at k1
  cases k1
  rw [h2] at k2
  cases k2
  have hd := finalized_parallel looping_patterns h1 h2 (Or.inr (by omega))
  refine ⟨g', P, ⟨looping_patterns, ⟨_, _, F, g, _, _, h1, h2, hP⟩, hd⟩, fun hz => hn ?_⟩
  have := finalized_hits_partial looping_patterns h1 h2 hd hP hz r1 r2 (l := 0) (t := looping) (by simp) ?_
  · simpa using this
  · refine ⟨fun h => ?_, fun h => ?_⟩
    · have : (match build 0 (some looping) with | .threw => false | _ => true) = true := by decide +kernel
      rw [h] at this
      cases this
    · obtain ⟨p, hp⟩ := looping_last h
      simp at hp

end Verif.Fsm
