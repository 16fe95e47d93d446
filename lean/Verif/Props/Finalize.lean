import Verif.Props.Subset
/-!
# C54 with determinization: from patterns to hits through `finalizeGraph`
-/
namespace Verif.Fsm
open Verif.Nfa Verif.Regex Verif.NfaBuilder Verif.Optimizer Verif.Label Verif.Subset

/-- What finalizing makes, whatever the depth. -/
theorem finalized {g g' : Graph} (hg : Combined g) {fuel : Nat} {det : Bool} {depth : Nat}
    (h : finalizeGraph fuel det depth g = some (.ok g')) :
    2 ≤ g.n ∧ ∃ d, labelGuardStates fuel d = some g' ∧ Tidy d ∧ 2 ≤ d.n ∧ (∀ l w, Accepts d l w ↔ Accepts g l w) ∧
      ((∀ v, (g'.v v).out.Nodup) → Combined d) ∧ (depth = 0 ∨ det = true ∨ g'.n ≤ depth → ∀ v, (g'.v v).out.Nodup) := by
  unfold finalizeGraph at h
  split at h
  · cases h
  · next hn =>
    have hn : 2 ≤ g.n := by omega
    refine ⟨hn, ?_⟩
    split at h
    · next hd =>
      split at h
      · cases h
      · next d e =>
        obtain ⟨g1, h1, h2⟩ := Option.map_eq_some_iff.1 h
        cases h2
        obtain ⟨s1, s2⟩ := label_shape h1
        obtain ⟨a, -, -, -, b, c⟩ := subset_shape hg e
        refine ⟨d, h1, a, b hn, fun l w => subset_language hg.toTidy e l w, fun hnd => ?_, ?_⟩
        · exact subset_combined hg e (fun v => by rw [← (s2 v).1]; exact hnd v)
        · rintro (h0 | h0 | h0) v
          · exact (hd.1 h0).elim
          · rw [hd.2] at h0; cases h0
          · rw [(s2 v).1]; exact c (by rw [← s1]; exact h0) v
    · obtain ⟨g1, h1, h2⟩ := Option.map_eq_some_iff.1 h
      cases h2
      obtain ⟨-, s2⟩ := label_shape h1
      exact ⟨g, h1, hg.toTidy, hn, fun _ _ => Iff.rfl, fun _ => hg, fun _ v => by rw [(s2 v).1]; exact hg.nodup v⟩

/-- Creating a program throws just if the automaton accepts nothing at all. -/
theorem finalize_throws {g : Graph} (hg : Combined g) (fuel : Nat) (det : Bool) (depth : Nat) :
    finalizeGraph fuel det depth g = some (.error ()) ↔ ∀ l w, ¬ Accepts g l w := by
  have h1 : finalizeGraph fuel det depth g = some (.error ()) ↔ g.n < 2 := by
    constructor
    · intro h
      by_contra hc
      unfold finalizeGraph at h
      rw [if_neg hc] at h
      split at h
      · split at h
        · cases h
        · obtain ⟨_, -, e⟩ := Option.map_eq_some_iff.1 h; cases e
      · obtain ⟨_, -, e⟩ := Option.map_eq_some_iff.1 h; cases e
    · intro h; unfold finalizeGraph; rw [if_pos h]
  rw [h1]
  constructor
  · rintro hn l w ⟨u, hu, -⟩
    have := hg.range 0 u hu
    omega
  · intro h
    by_contra hn
    obtain ⟨m, h2, h3⟩ := hg.live 1 (by omega) (by omega)
    have hl := (hg.reach 1 (by omega)).trans h2
    obtain ⟨l, hl'⟩ := Option.ne_none_iff_exists'.1 ((hg.labels m).1 h3)
    have key : ∀ {a b}, Leads g a b → ∀ w : List UInt8, Nfa.Reads g w a → ∃ w' : List UInt8, Nfa.Reads g w' b := by
      intro a b hl
      induction hl with
      | refl => intro w hr; exact ⟨w, hr⟩
      | step hu _ ih =>
        intro w hr
        have hrg := hg.range _ _ hu
        obtain ⟨b, hb⟩ := exists_byte (hg.bytes _ hrg.2.2 (by omega))
        exact ih _ (hr.step hu hb)
    obtain ⟨w, hw⟩ := key hl [] .init
    exact h l w ((accepts_iff_reads hg.root l w).2 ⟨m, hw, h3, hl'⟩)

/-- Finalizing ends. -/
theorem finalize_ends {g : Graph} (hg : Combined g) (det : Bool) (depth : Nat) :
    ∃ r F, ∀ fuel ≥ F, finalizeGraph fuel det depth g = some r := by
  unfold finalizeGraph
  split
  · exact ⟨_, 0, fun _ _ => rfl⟩
  · split
    · obtain ⟨d, F1, h1⟩ := subset_ends hg.toTidy depth
      obtain ⟨g', F2, h2⟩ := label_ends (subset_shape hg (h1 F1 (Nat.le_refl _))).1
      refine ⟨.ok g', max F1 F2, fun fuel hf => ?_⟩
      rw [h1 fuel (by omega)]
      dsimp only
      rw [h2 fuel (by omega)]; rfl
    · obtain ⟨g', F2, h2⟩ := label_ends hg.toTidy
      refine ⟨.ok g', F2, fun fuel hf => ?_⟩
      rw [h2 fuel hf]; rfl

/-- **C54** The end-to-end statement: patterns with distinct labels are added to a new
FSM, it is finalized, determinizing to any depth, and compiled, and a stream, given in
any consecutive buffers to a fresh context, is searched and closed out.  Then for every
pattern that was not refused, the hits with its label are the leftmost non-overlapping
matches of the pattern. -/
theorem finalized_hits_partial {ps : List (Nat × Tree Leaf)} (hps : Patterns ps) {f1 f2 f3 : Nat} {g g' : Graph} {det : Bool} {depth : Nat}
    (hadd : addAll f1 Graph.init (calls ps) = some g) (hfin : finalizeGraph f2 det depth g = some (.ok g'))
    (hd : ∀ v, (g'.v v).out.Nodup)
    {P : Vm.Program} (hc : Compiler.createProgram f3 g' = some (.ok P)) (hz : Compiler.NoZero g')
    {fuel : Nat} {first : List Vm.Thread} {σ₀ : Vm.St} (hnew : Vm.create P fuel = .ok (first, σ₀))
    {off : Nat} {bufs : List (List UInt8)} {rs : List (Option Nat)} {σ : Vm.St}
    (hrun : Vm.run P first fuel (Vm.searches off bufs) σ₀ = .ok (rs, σ)) {l : Nat} {t : Tree Leaf}
    (hp : (l, t) ∈ ps) (ht : Takes l t) :
    Compiler.Leftmost (PatternAt t off bufs.flatten) 0 (Vm.hitsOf l σ.log) := by
  obtain ⟨c1, -, -, c4⟩ := add_all combined_init hps (fun p _ v => by simp [Graph.init]) hadd
  obtain ⟨c5, c6⟩ := c4 (l, t) hp
  obtain ⟨-, d, hlab, hT, hn, hacc, hC, -⟩ := finalized c1 hfin
  have hlive := labelled_live (hC hd) hn hlab
  have hG := label_guards hT hlab
  have hlm := Compiler.hits_leftmost_partial hlive hG hz hc hnew hrun l
  refine leftmost_mono ?_ ?_ _ _ hlm
  · rintro s e ⟨a, b, c, d⟩
    exact ⟨a, b, c, c5 _ ((hacc l _).1 ((label_language hT hlab l _).1 d))⟩
  · rintro s e ⟨a, b, c, d⟩
    obtain ⟨w', h1, h2⟩ := c6 ht _ d
    have hne := h2.ne_nil
    have hpos : 0 < w'.length := List.length_pos_iff.2 hne
    have hle := h1.length_le
    have hw : w' = ((bufs.flatten).drop (s - off)).take w'.length := by
      have := List.prefix_iff_eq_take.1 h1
      rw [List.take_take] at this
      rw [List.length_take] at hle
      rwa [Nat.min_eq_left (by omega)] at this
    rw [List.length_take, List.length_drop] at hle
    refine ⟨s + w'.length, a, by omega, by omega, ?_⟩
    rw [show s + w'.length - s = w'.length by omega, ← hw]
    exact (label_language hT hlab l w').2 ((hacc l w').2 h2)

/-- With the default depth, or none, there are no parallel edges. -/
theorem finalized_parallel {ps : List (Nat × Tree Leaf)} (hps : Patterns ps) {f1 f2 : Nat} {g g' : Graph} {det : Bool} {depth : Nat}
    (hadd : addAll f1 Graph.init (calls ps) = some g) (hfin : finalizeGraph f2 det depth g = some (.ok g'))
    (hd : depth = 0 ∨ g'.n ≤ depth) : ∀ v, (g'.v v).out.Nodup := by
  obtain ⟨c1, -⟩ := add_all combined_init hps (fun p _ v => by simp [Graph.init]) hadd
  obtain ⟨-, d, -, -, -, -, -, h⟩ := finalized c1 hfin
  exact h (hd.imp id Or.inr)

/-- The program is made, and searches of any stream end, if there are fewer than 2^24
states and the labels are below 2^24. -/
theorem finalized_search_ends {ps : List (Nat × Tree Leaf)} (hps : Patterns ps) {f1 f2 : Nat} {g g' : Graph} {det : Bool} {depth : Nat}
    (hadd : addAll f1 Graph.init (calls ps) = some g) (hfin : finalizeGraph f2 det depth g = some (.ok g'))
    (hd : ∀ v, (g'.v v).out.Nodup) (hsmall : g'.n < 16777216) (hlabels : ∀ p ∈ ps, p.1 < 16777216) :
    ∃ F, ∀ fuel ≥ F, ∃ P, Compiler.createProgram fuel g' = some (.ok P) ∧ ∀ fuel ≥ 2 * g'.n + 9, ∀ off bufs, ∃ first σ₀ rs σ,
        Vm.create P fuel = .ok (first, σ₀) ∧ Vm.run P first fuel (Vm.searches off bufs) σ₀ = .ok (rs, σ) := by
  have hu0 : ∀ p ∈ ps, Unused Graph.init p.1 := fun p _ v => by simp [Graph.init]
  obtain ⟨c1, c2, -, c4⟩ := add_all combined_init hps hu0 hadd
  obtain ⟨hn0, d, hlab, hT, hn, hacc, hC, -⟩ := finalized c1 hfin
  have hlive := labelled_live (hC hd) hn hlab
  obtain ⟨s1, s2⟩ := label_shape hlab
  have hsrc : ∀ m k, (d.v m).label = some k → ∃ m', (g.v m').label = some k := by
    intro m k hm
    have hmm := (hT.labels m).2 (by rw [hm]; exact fun e => by cases e)
    have key : ∀ {a b}, Leads d a b → ∀ w : List UInt8, Nfa.Reads d w a → ∃ w' : List UInt8, Nfa.Reads d w' b := by
      intro a b hl
      induction hl with
      | refl => intro w hr; exact ⟨w, hr⟩
      | step hu _ ih =>
        intro w hr
        have hrg := hT.range _ _ hu
        obtain ⟨b, hb⟩ := exists_byte ((hC hd).bytes _ hrg.2.2 (by omega))
        exact ih _ (hr.step hu hb)
    obtain ⟨w, hw⟩ := key (hT.reach m (hT.inside m hmm)) [] .init
    obtain ⟨u, -, t, -, -, ht⟩ := (hacc k w).1 ((accepts_iff_reads hT.root k w).2 ⟨m, hw, hmm, hm⟩)
    exact ⟨t, ht⟩
  obtain ⟨code, hcode, -⟩ := Compiler.layout_consistent_partial hlive.toWF (Compiler.encodes_of_small hlive.toWF hsmall (by
      intro v hv k hk
      rw [s1] at hv
      obtain ⟨m, hm⟩ := label_source hT hlab hv hk
      obtain ⟨m', hm'⟩ := hsrc m k hm
      by_contra hbig
      refine c2 k (fun v => by simp [Graph.init]) ?_ m' hm'
      intro hmem
      obtain ⟨p, hp1, hp2⟩ := List.mem_map.1 hmem
      have := hlabels p hp1
      omega))
  obtain ⟨w', hw'⟩ : ∃ w', Matches g' w' := by
    have : ¬ ∀ l w, ¬ Accepts g l w := by
      rw [← finalize_throws c1 f2 det depth, hfin]; intro e; cases e
    push Not at this
    obtain ⟨l, w, hw⟩ := this
    obtain ⟨u, hu, m, hpath, hm, -⟩ := (hacc l w).2 hw
    refine ⟨w, u, by rw [(s2 0).1]; exact hu, m, ?_, by rw [(s2 m).2.2.2]; exact hm⟩
    clear hu hm hw
    induction hpath with
    | one hb => exact .one (by rw [(s2 _).2.2.1]; exact hb)
    | cons hb hx _ ih => exact .cons (by rw [(s2 _).2.2.1]; exact hb) (by rw [(s2 _).1]; exact hx) ih
  obtain ⟨F3, h3⟩ := BestPair.filter_found g' hlive.pos (fun v hv u hu => (hlive.edges v hv u hu).2) hlive.rootMatch w' hw'
  refine ⟨F3, fun fuel hf => ?_⟩
  obtain ⟨r, hr⟩ := h3 fuel hf
  have hP : ∃ P, Compiler.createProgram fuel g' = some (.ok P) := by
    unfold Compiler.createProgram
    rw [hr, hcode]
    exact ⟨_, rfl⟩
  obtain ⟨P, hP⟩ := hP
  exact ⟨P, hP, fun fuel hf off bufs => Compiler.searches_end hlive (label_guards hT hlab) hP hf off bufs⟩

/-! ## Example -/

/-- `[bd]c+e` -/
def second : Tree Leaf :=
  .cat (.leaf (.cls [[BSet.single 98 ||| BSet.single 100]] 0 true)) (.cat (.rep false 1 UNB (.leaf (.lit [99]))) (.leaf (.lit [101])))

/-- The patterns `[ab]c` and `[bd]c+e`. -/
def shared : List (Nat × Tree Leaf) :=
  [(0, .cat (.leaf (.cls [[BSet.single 97 ||| BSet.single 98]] 0 true)) (.leaf (.lit [99]))), (1, second)]

theorem shared_patterns : Patterns shared := by
  refine ⟨by decide, ?_⟩
  intro p hp
  simp only [shared, List.mem_cons, List.not_mem_nil, or_false] at hp
  rcases hp with e | e <;> subst e <;>
    exact ⟨by simp [Ok, UNB, second], by simp [NoLook, second], by simp [NoDead, second],
      by simp [LeavesOk, AllLeaves, LeafOk, BSet.single, second]⟩

theorem second_takes : Takes 1 second := by
  refine ⟨?_, ?_⟩
  · intro h
    have : (match build 1 (some second) with | .threw => false | _ => true) = true := by decide +kernel
    rw [h] at this
    cases this
  · rintro ⟨x, -, y, ⟨p, -, q, hq, rfl⟩, hxy⟩
    have hq : q = [101] := hq
    subst hq
    simp at hxy

/-- Determinizing it, with the default depth, shares the state after `b`. -/
theorem shared_runs : ∃ g g', addAll 40 Graph.init (calls shared) = some g ∧
    finalizeGraph 40 false 4294967295 g = some (.ok g') ∧ g.n = 6 ∧ g'.n = 7 ∧ Compiler.NoZero g' := by
  have h : (match (addAll 40 Graph.init (calls shared)).bind (fun g => (finalizeGraph 40 false 4294967295 g).map (fun g' => (g, g'))) with
      | some (g, .ok g') => g.n == 6 && g'.n == 7 && (List.range 7).all fun v => decide ((g'.v v).out.length ≤ 3)
      | _ => false) = true := by decide +kernel
  cases h1 : addAll 40 Graph.init (calls shared) with
  | none => rw [h1] at h; cases h
  | some g =>
    cases h2 : finalizeGraph 40 false 4294967295 g with
    | none => rw [h1, Option.bind_some, h2] at h; cases h
    | some r =>
      cases r with
      | error e => rw [h1, Option.bind_some, h2] at h; cases h
      | ok g' =>
        rw [h1, Option.bind_some, h2, Option.map_some] at h
        simp only [Bool.and_eq_true, beq_iff_eq, List.all_eq_true, List.mem_range, decide_eq_true_eq] at h
        obtain ⟨⟨h3, h4⟩, h5⟩ := h
        refine ⟨g, g', rfl, h2, h3, h4, ?_⟩
        intro u _ v hv ht
        have := h5 v (by omega)
        simp only [Compiler.isTable, Bool.and_eq_true, decide_eq_true_eq] at ht
        omega

/-- In "bcebcce", searched in two pieces, the hits of the second keyword are the leftmost
matches of `[bd]c+e`. -/
example : ∃ g g' P first σ₀ rs σ, addAll 40 Graph.init (calls shared) = some g ∧
    finalizeGraph 40 false 4294967295 g = some (.ok g') ∧
    (∃ F, Compiler.createProgram F g' = some (.ok P)) ∧ Vm.create P 25 = .ok (first, σ₀) ∧
    Vm.run P first 25 (Vm.searches 0 [[98, 99], [101, 98, 99, 99, 101]]) σ₀ = .ok (rs, σ) ∧
    Compiler.Leftmost (PatternAt second 0 [98, 99, 101, 98, 99, 99, 101]) 0 (Vm.hitsOf 1 σ.log) := by
  obtain ⟨g, g', h1, h2, -, h3, h4⟩ := shared_runs
  have hd := finalized_parallel shared_patterns h1 h2 (Or.inr (by omega))
  obtain ⟨F, hF⟩ := finalized_search_ends shared_patterns h1 h2 hd (by omega) (by simp [shared])
  obtain ⟨P, hP, hrun⟩ := hF F (Nat.le_refl _)
  obtain ⟨first, σ₀, rs, σ, r1, r2⟩ := hrun 25 (by omega) 0 [[98, 99], [101, 98, 99, 99, 101]]
  exact ⟨g, g', P, first, σ₀, rs, σ, h1, h2, ⟨F, hP⟩, r1, r2,
    finalized_hits_partial shared_patterns h1 h2 hd hP h4 r1 r2 (by simp [shared]) second_takes⟩

/-! ## A limited depth and parallel edges -/

/-- `(?:[ab]|[cb]|[db]|[eb])x` -/
def overlapping : Tree Leaf :=
  let c (x : UInt8) : Tree Leaf := .leaf (.cls [[BSet.single x ||| BSet.single 98]] 0 true)
  .cat (.alt (c 97) (.alt (c 99) (.alt (c 100) (c 101)))) (.leaf (.lit [120]))

theorem overlapping_patterns : Patterns [(0, overlapping)] := by
  refine ⟨by decide, ?_⟩
  intro p hp
  simp only [List.mem_cons, List.not_mem_nil, or_false] at hp
  subst hp
  exact ⟨by simp [overlapping, Ok], by simp [overlapping, NoLook], by simp [overlapping, NoDead],
    by simp [overlapping, LeavesOk, AllLeaves, LeafOk, BSet.single]⟩

/-- Determinizing to depth 1, as the Java binding asks for, makes parallel edges from
one state to another, and writing its jump table goes past the end of the program; with
no limit the program is fine. -/
theorem limited_overruns : ∃ g g', addAll 40 Graph.init (calls [(0, overlapping)]) = some g ∧
    finalizeGraph 40 false 1 g = some (.ok g') ∧ (∃ v < g'.n, (g'.v v).out = [6, 6, 6, 6]) ∧
    Compiler.codegen g' = .ub := by
  have h : (match (addAll 40 Graph.init (calls [(0, overlapping)])).bind (fun g => (finalizeGraph 40 false 1 g).map (fun g' => (g, g'))) with
      | some (g, .ok g') => (List.range g'.n).any (fun v => decide ((g'.v v).out = [6, 6, 6, 6])) && (Compiler.codegen g' matches .ub)
      | _ => false) = true := by decide +kernel
  cases h1 : addAll 40 Graph.init (calls [(0, overlapping)]) with
  | none => rw [h1] at h; cases h
  | some g =>
    cases h2 : finalizeGraph 40 false 1 g with
    | none => rw [h1, Option.bind_some, h2] at h; cases h
    | some r =>
      cases r with
      | error e => rw [h1, Option.bind_some, h2] at h; cases h
      | ok g' =>
        rw [h1, Option.bind_some, h2, Option.map_some] at h
        simp only [Bool.and_eq_true, List.any_eq_true, List.mem_range, decide_eq_true_eq] at h
        obtain ⟨⟨v, h3, h4⟩, h5⟩ := h
        refine ⟨g, g', rfl, h2, ⟨v, h3, h4⟩, ?_⟩
        cases e : Compiler.codegen g' with
        | ok x => rw [e] at h5; cases h5
        | ub => rfl
        | _ => rw [e] at h5; cases h5

/-! ## Why `NoZero` is needed -/

/-- `(?:a(?:b|c|d|e))*af` -/
def looping : Tree Leaf :=
  let l (x : UInt8) : Tree Leaf := .leaf (.lit [x])
  .cat (.rep false 0 UNB (.cat (l 97) (.alt (l 98) (.alt (l 99) (.alt (l 100) (l 101)))))) (.cat (l 97) (l 102))

theorem looping_patterns : Patterns [(0, looping)] := by
  refine ⟨by decide, ?_⟩
  intro p hp
  simp only [List.mem_cons, List.not_mem_nil, or_false] at hp
  subst hp
  exact ⟨by simp [looping, Ok, UNB], by simp [looping, NoLook], by simp [looping, NoDead, UNB],
    by simp [looping, LeavesOk, AllLeaves, LeafOk]⟩

/-- The determinized automaton: the program starts with the transition of state 1, at
address 0; the jump table of state 1 leads there for `b`, `c`, `d` and `e`. -/
theorem looping_facts : ∃ g g', addAll 40 Graph.init (calls [(0, looping)]) = some g ∧
    finalizeGraph 40 false 4294967295 g = some (.ok g') ∧ g'.n = 7 ∧
    Compiler.entryLab g' 0 = .start 1 ∧ Compiler.entryLab g' 1 = .lab 1 ∧ Compiler.entryChk g' 1 = .chk 1 ∧
    Compiler.entryMat g' 1 = .tab 1 ∧ Compiler.addr g' (.start 1) = 0 ∧ (g'.v 6).out = [] ∧
    ∀ b < 256, Compiler.after g' 1 b = none ∨ Compiler.after g' 1 b = some (.start 1) ∨ Compiler.after g' 1 b = some (.mat 6) := by
  have h : (match (addAll 40 Graph.init (calls [(0, looping)])).bind (fun g => (finalizeGraph 40 false 4294967295 g).map (fun g' => (g, g'))) with
      | some (_, .ok g') => g'.n == 7 && decide (Compiler.entryLab g' 0 = .start 1) && decide (Compiler.entryLab g' 1 = .lab 1) &&
          decide (Compiler.entryChk g' 1 = .chk 1) && decide (Compiler.entryMat g' 1 = .tab 1) &&
          decide (Compiler.addr g' (.start 1) = 0) && decide ((g'.v 6).out = []) &&
          (List.range 256).all fun b => decide (Compiler.after g' 1 b = none ∨ Compiler.after g' 1 b = some (.start 1) ∨
            Compiler.after g' 1 b = some (.mat 6))
      | _ => false) = true := by decide +kernel
  cases h1 : addAll 40 Graph.init (calls [(0, looping)]) with
  | none => rw [h1] at h; cases h
  | some g =>
    cases h2 : finalizeGraph 40 false 4294967295 g with
    | none => rw [h1, Option.bind_some, h2] at h; cases h
    | some r =>
      cases r with
      | error e => rw [h1, Option.bind_some, h2] at h; cases h
      | ok g' =>
        rw [h1, Option.bind_some, h2, Option.map_some] at h
        simp only [Bool.and_eq_true, beq_iff_eq, List.all_eq_true, List.mem_range, decide_eq_true_eq] at h
        obtain ⟨⟨⟨⟨⟨⟨⟨a, b⟩, c⟩, d⟩, e⟩, f⟩, i⟩, j⟩ := h
        exact ⟨g, g', rfl, h2, a, b, c, d, e, f, i, j⟩

/-- No run of the program reads more than two bytes. -/
theorem looping_runs {g : Graph} (e0 : Compiler.entryLab g 0 = .start 1) (e1 : Compiler.entryLab g 1 = .lab 1)
    (e2 : Compiler.entryChk g 1 = .chk 1) (e3 : Compiler.entryMat g 1 = .tab 1) (ea : Compiler.addr g (.start 1) = 0)
    (e6 : (g.v 6).out = []) (et : ∀ b < 256, Compiler.after g 1 b = none ∨ Compiler.after g 1 b = some (.start 1) ∨
      Compiler.after g 1 b = some (.mat 6)) {w k l lab} (h : Compiler.LRun g w k l lab) :
    (l = .start 1 ∧ w.length = 0) ∨ (l = .lab 1 ∧ w.length = 1) ∨ (l = .chk 1 ∧ w.length = 1) ∨ (l = .tab 1 ∧ w.length = 1) ∨
    (l = .mat 6 ∧ w.length = 2) ∨ (l = .mat1 6 ∧ w.length = 2) := by
  have o1 : Compiler.lop g (.start 1) = .read 1 := rfl
  have o2 : Compiler.lop g (.lab 1) = .label (((g.v 1).label).getD 0) (.chk 1) := by simp only [Compiler.lop, e2]
  have o3 : Compiler.lop g (.chk 1) = .check ((Compiler.check g 1).getD 0) (.tab 1) := by simp only [Compiler.lop, e3]
  have o4 : Compiler.lop g (.tab 1) = .table 1 := rfl
  have o5 : Compiler.lop g (.mat 6) = .mtch (.mat1 6) := rfl
  have o6 : Compiler.lop g (.mat1 6) = .finish := by simp only [Compiler.lop]; rw [if_pos e6]
  induction h with
  | init => rw [e0]; simp
  | fork1 _ hop ih => rcases ih with ⟨rfl, _⟩ | ⟨rfl, _⟩ | ⟨rfl, _⟩ | ⟨rfl, _⟩ | ⟨rfl, _⟩ | ⟨rfl, _⟩ <;> simp_all
  | fork2 _ hop ih => rcases ih with ⟨rfl, _⟩ | ⟨rfl, _⟩ | ⟨rfl, _⟩ | ⟨rfl, _⟩ | ⟨rfl, _⟩ | ⟨rfl, _⟩ <;> simp_all
  | jump _ hop ih => rcases ih with ⟨rfl, _⟩ | ⟨rfl, _⟩ | ⟨rfl, _⟩ | ⟨rfl, _⟩ | ⟨rfl, _⟩ | ⟨rfl, _⟩ <;> simp_all
  | check _ hop ih => rcases ih with ⟨rfl, _⟩ | ⟨rfl, _⟩ | ⟨rfl, _⟩ | ⟨rfl, _⟩ | ⟨rfl, _⟩ | ⟨rfl, _⟩ <;> simp_all
  | label _ hop ih => rcases ih with ⟨rfl, _⟩ | ⟨rfl, _⟩ | ⟨rfl, _⟩ | ⟨rfl, _⟩ | ⟨rfl, _⟩ | ⟨rfl, _⟩ <;> simp_all
  | mtch _ hop ih => rcases ih with ⟨rfl, _⟩ | ⟨rfl, _⟩ | ⟨rfl, _⟩ | ⟨rfl, _⟩ | ⟨rfl, _⟩ | ⟨rfl, _⟩ <;> simp_all
  | byte _ hc hz ih =>
    rename_i b l' _
    rcases ih with ⟨rfl, hl⟩ | ⟨rfl, _⟩ | ⟨rfl, _⟩ | ⟨rfl, hl⟩ | ⟨rfl, _⟩ | ⟨rfl, _⟩
    · simp only [Compiler.consume] at hc
      split at hc
      · rw [e1] at hc
        simp only [Option.some.injEq] at hc
        subst hc
        right; left
        exact ⟨rfl, by simp [hl]⟩
      · cases hc
    · simp [Compiler.consume] at hc
    · simp [Compiler.consume] at hc
    · simp only [Compiler.consume] at hc
      rcases et b.toNat b.toNat_lt with e | e | e
      · rw [e] at hc; cases hc
      · rw [e] at hc
        simp only [Option.some.injEq] at hc
        subst hc
        exact absurd ea hz
      · rw [e] at hc
        simp only [Option.some.injEq] at hc
        subst hc
        right; right; right; right; left
        exact ⟨rfl, by simp [hl]⟩
    · simp [Compiler.consume] at hc
    · simp [Compiler.consume] at hc

theorem looping_matches : PatternAt looping 0 [97, 98, 97, 102] 0 4 := by
  refine ⟨by decide, by decide, by decide, ?_⟩
  refine ⟨[97, 98], ⟨1, by decide, .inl rfl, ?_⟩, [97, 102], ⟨[97], rfl, [102], rfl, rfl⟩, rfl⟩
  exact ⟨[], rfl, [97, 98], ⟨[97], rfl, [98], Or.inl rfl, rfl⟩, rfl⟩

theorem looping_last {w : List UInt8} (h : w ∈ lang leafSem looping) : ∃ p, w = p ++ [97, 102] := by
  obtain ⟨p, -, q, ⟨x, hx, y, hy, rfl⟩, rfl⟩ := h
  have hx : x = [97] := hx
  have hy : y = [102] := hy
  subst hx hy
  exact ⟨p, rfl⟩

theorem leftmost_acc {acc : Nat → Nat → Prop} {hs : List (Nat × Nat)} : ∀ {m}, Compiler.Leftmost acc m hs → ∀ h ∈ hs, acc h.1 h.2 := by
  induction hs with
  | nil => intro m _ h hh; cases hh
  | cons x hs ih =>
    obtain ⟨s, e⟩ := x
    rintro m ⟨a, -, -, d⟩ h hh
    rcases List.mem_cons.1 hh with rfl | hh
    · exact a
    · exact ih d h hh

/-- **C54** is false with determinization, and `NoZero` cannot be left out: the pattern
`(?:a(?:b|c|d|e))*af` matches all of "abaf"; with the default depth the program is made,
the search ends, and the hits are not the leftmost matches: the match at 0 is lost. -/
theorem determinized_loses_match : PatternAt looping 0 [97, 98, 97, 102] 0 4 ∧
    ∃ g g' P first σ₀ rs σ, addAll 40 Graph.init (calls [(0, looping)]) = some g ∧
      finalizeGraph 40 false 4294967295 g = some (.ok g') ∧ (∃ F, Compiler.createProgram F g' = some (.ok P)) ∧
      Vm.create P 23 = .ok (first, σ₀) ∧ Vm.run P first 23 (Vm.searches 0 [[97, 98, 97, 102]]) σ₀ = .ok (rs, σ) ∧
      (∀ h ∈ Vm.hitsOf 0 σ.log, 0 < h.1) ∧ ¬ Compiler.Leftmost (PatternAt looping 0 [97, 98, 97, 102]) 0 (Vm.hitsOf 0 σ.log) := by
  refine ⟨looping_matches, ?_⟩
  obtain ⟨g, g', h1, h2, hn, e0, e1, e2, e3, ea, e6, et⟩ := looping_facts
  have hd := finalized_parallel looping_patterns h1 h2 (Or.inr (by omega))
  obtain ⟨F, hF⟩ := finalized_search_ends looping_patterns h1 h2 hd (by omega) (by simp)
  obtain ⟨P, hP, hrun⟩ := hF F (Nat.le_refl _)
  obtain ⟨first, σ₀, rs, σ, r1, r2⟩ := hrun 23 (by omega) 0 [[97, 98, 97, 102]]
  obtain ⟨c1, -, -, c4⟩ := add_all combined_init looping_patterns (fun p _ v => by simp [Graph.init]) h1
  obtain ⟨-, d, hlab, hT, hn', hacc, hC, -⟩ := finalized c1 h2
  obtain ⟨c5, -⟩ := c4 (0, looping) (by simp)
  have hlive := labelled_live (hC hd) hn' hlab
  obtain ⟨q, hq⟩ := Compiler.stream_searches [[97, 98, 97, 102]] 0 (Compiler.holds_streamOf 0 [97, 98, 97, 102])
  have hCo := (Compiler.compiled_of_createProgram hlive hP).1
  have hits := Vm.hits_are_matches (Compiler.compiled_guarded hCo) (Compiler.compiled_finishing hCo) r1 hq r2
  have hpos : ∀ h ∈ Vm.hitsOf 0 σ.log, 0 < h.1 := by
    intro h hh
    unfold Vm.hitsOf at hh
    obtain ⟨x, hx, rfl⟩ := List.mem_map.1 hh
    obtain ⟨hx, hlab0⟩ := List.mem_filter.1 hx
    have hlab0 : x.label = 0 := by simpa using hlab0
    have hA := hits x hx
    rw [hlab0] at hA
    obtain ⟨k, pc, hr, -⟩ := id hA
    obtain ⟨l, -, -, lr⟩ := Compiler.lrun_of_run hCo hr
    have hlen : (Vm.seg (Compiler.streamOf 0 [97, 98, 97, 102]) x.start x.end).length ≤ 2 := by
      have := looping_runs e0 e1 e2 e3 ea e6 et lr
      omega
    obtain ⟨p, hp⟩ := looping_last (c5 _ ((hacc 0 _).1 ((label_language hT hlab 0 _).1
      (Compiler.gaccepts_of_accepts hCo hA))))
    by_contra hc
    have hs : x.start = 0 := by simpa using hc
    rw [hp, List.length_append, List.length_cons, List.length_cons, List.length_nil] at hlen
    have hp0 : p = [] := List.length_eq_zero_iff.1 (by omega)
    rw [hp0, List.nil_append] at hp
    have hl2 := congrArg List.length hp
    rw [Vm.seg_length, hs] at hl2
    simp only [List.length_cons, List.length_nil] at hl2
    rw [hs, show x.end = 2 by omega] at hp
    exact absurd hp (by decide)
  refine ⟨g, g', P, first, σ₀, rs, σ, h1, h2, ⟨F, hP⟩, r1, r2, hpos, fun hl => ?_⟩
  obtain ⟨x, hx, a, -⟩ := Compiler.leftmost_covers hl looping_matches (Nat.le_refl _)
  have := hpos x hx
  omega

end Verif.Fsm
