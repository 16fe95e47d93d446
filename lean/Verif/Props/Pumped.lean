import Verif.Props.Bounded
import Verif.Props.Starts
import Verif.Props.Reported
import Verif.Props.Resolve
/-!
# Which patterns are affected by the defect of jump tables

A program loses matches (`zero_landing_loses_match`) only where a jump table leads back to where
the search begins.  Then there is something that can be repeated any number of times before a match
of every pattern.  So if, for instance, one of the patterns has bounded matches only, or no byte
begins matches of all patterns, then no match of any pattern is lost.
-/
namespace Verif.Fsm
open Verif.Nfa Verif.Regex Verif.NfaBuilder Verif.Optimizer Verif.Label Verif.Subset

/-! ## Specification -/

/-- `p` repeated `k` times. -/
def times (p : List UInt8) : Nat → List UInt8
  | 0 => []
  | k + 1 => p ++ times p k

/-- There is a string that can be repeated any number of times before the matches of every
accepted pattern, or before the beginnings of these matches that match too. -/
def Pumped (ps : List (Nat × Tree Leaf)) : Prop :=
  ∃ p, p ≠ [] ∧ ∀ q ∈ ps, Takes q.1 q.2 → ∀ w ∈ lang leafSem q.2, ∃ w', w' <+: w ∧ ∀ k, times p k ++ w' ∈ lang leafSem q.2

/-! ## Proof -/

theorem times_length {p : List UInt8} (h : p ≠ []) : ∀ k, k ≤ (times p k).length
  | 0 => Nat.zero_le _
  | k + 1 => by
    have := times_length h k
    have := List.length_pos_iff.2 h
    simp only [times, List.length_append]
    omega

theorem reads_nil {d : Graph} {w : List UInt8} {v : Nat} (h : Nfa.Reads d w v) (hw : w = []) : v = 0 := by
  cases h with
  | init => rfl
  | step => simp at hw

/-- What is read from the initial state on can be read from any state with the same
successors. -/
theorem reads_from {d : Graph} {p : List UInt8} {t : Nat} (hp : Nfa.Reads d p t) (ht : (d.v t).out = (d.v 0).out) :
    ∀ {w v}, Nfa.Reads d w v → w ≠ [] → Nfa.Reads d (p ++ w) v := by
  intro w v hr
  induction hr with
  | init => intro h; exact absurd rfl h
  | @step w v u b hw hu hb ih =>
    intro _
    rw [← List.append_assoc]
    by_cases h0 : w = []
    · subst h0
      rw [reads_nil hw rfl, ← ht] at hu
      rw [List.append_nil]
      exact hp.step hu hb
    · exact (ih h0).step hu hb

/-- **C12, C52** A program made from patterns has the defect of `zero_landing_loses_match` only if
they are `Pumped`. -/
theorem unpumped_noZero {ps : List (Nat × Tree Leaf)} {g' : Graph} {P : Vm.Program} (h : Made ps g' P) (hu : ¬ Pumped ps) :
    Compiler.NoZero g' := by
  obtain ⟨f1, f2, f3, g, det, depth, h1, h2, h3⟩ := h.made
  obtain ⟨c1, c2, c3, c4⟩ := add_all combined_init h.patterns (fun p _ v => by simp [Graph.init]) h1
  obtain ⟨-, d, hlab, hT, hn, hacc, hC, -⟩ := finalized c1 h2
  have hd := hC h.nodup
  obtain ⟨s1, s2⟩ := label_shape hlab
  intro u hu0 v hv ht t htv htu
  refine absurd ?_ hu
  rw [(s2 _).1] at hu0 htv htu
  have hrg := hd.range _ _ htv
  obtain ⟨p, hp, hpne⟩ : ∃ p, Nfa.Reads d p t ∧ p ≠ [] := by
    obtain ⟨p, -, hp⟩ := reads_on hd.toTidy hd.bytes (hd.reach t hrg.2.2) [] .init
    refine ⟨p, hp, fun e => ?_⟩
    have := reads_nil hp e
    omega
  refine ⟨p, hpne, ?_⟩
  intro q hq htk w hw
  obtain ⟨w', hpre, ha⟩ := (c4 q hq).2 htk w hw
  refine ⟨w', hpre, fun k => (c4 q hq).1 _ ?_⟩
  have hne : w' ≠ [] := by
    rintro rfl
    exact htk.2 ((c4 q hq).1 _ ha)
  rw [← hacc]
  obtain ⟨m, r1, r2, r3⟩ := (accepts_iff_reads hd.root q.1 w').1 ((hacc q.1 w').2 ha)
  refine (accepts_iff_reads hd.root q.1 _).2 ⟨m, ?_, r2, r3⟩
  induction k with
  | zero => exact r1
  | succ k ih =>
    simp only [times, List.append_assoc]
    refine reads_from hp (by rw [htu, hu0]) ih ?_
    simp [hne]

/-! ## Patterns that are not affected -/

/-- One pattern with bounded matches is enough. -/
theorem unpumped_of_bounded {ps : List (Nat × Tree Leaf)} {q : Nat × Tree Leaf} (hq : q ∈ ps) (ht : Takes q.1 q.2)
    {w : List UInt8} (hw : w ∈ lang leafSem q.2) {B : Nat} (hB : ∀ w ∈ lang leafSem q.2, w.length ≤ B) : ¬ Pumped ps := by
  rintro ⟨p, hp, h⟩
  obtain ⟨w', -, hk⟩ := h q hq ht w hw
  have h1 := hB _ (hk (B + 1))
  have h2 := times_length hp (B + 1)
  rw [List.length_append] at h1
  omega

/-- If no byte begins matches of all patterns, none is affected. -/
theorem unpumped_of_heads {ps : List (Nat × Tree Leaf)}
    (h : ∀ b : UInt8, ∃ q ∈ ps, Takes q.1 q.2 ∧ (∃ w, w ∈ lang leafSem q.2) ∧ ∀ w, b :: w ∉ lang leafSem q.2) : ¬ Pumped ps := by
  rintro ⟨p, hp, hP⟩
  obtain ⟨b, p', rfl⟩ := List.exists_cons_of_ne_nil hp
  obtain ⟨q, hq, ht, ⟨w, hw⟩, hno⟩ := h b
  obtain ⟨w', -, hk⟩ := hP q hq ht w hw
  exact hno _ (by simpa [times] using hk 1)

/-- If no byte beginning matches of a pattern is in its matches elsewhere, none of the patterns is
affected. -/
theorem unpumped_of_once {ps : List (Nat × Tree Leaf)} {q : Nat × Tree Leaf} (hq : q ∈ ps) (ht : Takes q.1 q.2)
    {w : List UInt8} (hw : w ∈ lang leafSem q.2)
    (h : ∀ (b : UInt8) (x y : List UInt8), b :: x ∈ lang leafSem q.2 → y ∈ lang leafSem q.2 → b ∉ y.tail) : ¬ Pumped ps := by
  rintro ⟨p, hp, hP⟩
  obtain ⟨w', -, hk⟩ := hP q hq ht w hw
  have h0 : w' ∈ lang leafSem q.2 := by simpa [times] using hk 0
  have h1 : p ++ w' ∈ lang leafSem q.2 := by simpa [times] using hk 1
  cases w' with
  | nil => exact ht.2 h0
  | cons b x =>
    obtain ⟨c, p', rfl⟩ := List.exists_cons_of_ne_nil hp
    exact h b x _ h0 h1 (by simp)

/-! ## C09, C12, C14, C52, C53, C54, C74 for patterns that are not pumped -/

theorem unpumped_language {ps : List (Nat × Tree Leaf)} {g' : Graph} {P : Vm.Program} (h : Made ps g' P) (hu : ¬ Pumped ps)
    (l : Nat) (w : List UInt8) : Vm.Accepts P l w ↔ Compiler.GAccepts g' l w := by
  obtain ⟨h1, h2, ⟨f, h3⟩, h4⟩ := h.facts
  exact Compiler.compiled_language_partial h1 (unpumped_noZero h hu) h3 l w

/-- **C54** Patterns with distinct labels are added to a new FSM, it is finalized and compiled, and
a stream, given in any consecutive buffers to a fresh context, is searched and closed out.  Then for
every pattern that was not refused, the hits with its label are the leftmost non-overlapping matches
of the pattern. -/
theorem unpumped_hits {ps : List (Nat × Tree Leaf)} {g' : Graph} {P : Vm.Program} (h : Made ps g' P) (hu : ¬ Pumped ps)
    {fuel : Nat} {first : List Vm.Thread} {σ₀ : Vm.St} (hnew : Vm.create P fuel = .ok (first, σ₀))
    {off : Nat} {bufs : List (List UInt8)} {rs : List (Option Nat)} {σ : Vm.St}
    (hrun : Vm.run P first fuel (Vm.searches off bufs) σ₀ = .ok (rs, σ)) {l : Nat} {t : Tree Leaf}
    (hp : (l, t) ∈ ps) (ht : Takes l t) :
    Compiler.Leftmost (PatternAt t off bufs.flatten) 0 (Vm.hitsOf l σ.log) := by
  have hz := unpumped_noZero h hu
  obtain ⟨f1, f2, f3, g, det, depth, h1, h2, h3⟩ := h.made
  exact finalized_hits_partial h.patterns h1 h2 h.nodup h3 hz hnew hrun hp ht

/-- **C53** -/
theorem unpumped_preferred {ps : List (Nat × Tree Leaf)} {g' : Graph} {P : Vm.Program} (h : Made ps g' P) (hu : ¬ Pumped ps)
    {fuel : Nat} {first : List Vm.Thread} {σ₀ : Vm.St} (hnew : Vm.create P fuel = .ok (first, σ₀))
    {off : Nat} {bufs : List (List UInt8)} {rs : List (Option Nat)} {σ : Vm.St}
    (hrun : Vm.run P first fuel (Vm.searches off bufs) σ₀ = .ok (rs, σ)) (l : Nat) :
    Compiler.Preferred g' off bufs.flatten l 0 (Vm.hitsOf l σ.log) := by
  obtain ⟨h1, h2, ⟨f, h3⟩, h4⟩ := h.facts
  exact Compiler.hits_preferred_partial h1 h2 (unpumped_noZero h hu) h3 hnew hrun l

/-- **C09** Where a pattern that was not refused matches, a hit with its label containing the first
byte of the match is reported. -/
theorem unpumped_covered {ps : List (Nat × Tree Leaf)} {g' : Graph} {P : Vm.Program} (h : Made ps g' P) (hu : ¬ Pumped ps)
    {fuel : Nat} {first : List Vm.Thread} {σ₀ : Vm.St} (hnew : Vm.create P fuel = .ok (first, σ₀))
    {off : Nat} {bufs : List (List UInt8)} {rs : List (Option Nat)} {σ : Vm.St}
    (hrun : Vm.run P first fuel (Vm.searches off bufs) σ₀ = .ok (rs, σ)) {l : Nat} {t : Tree Leaf}
    (hp : (l, t) ∈ ps) (ht : Takes l t) {s e : Nat} (hm : PatternAt t off bufs.flatten s e) :
    ∃ h ∈ σ.log, h.label = l ∧ h.start ≤ s ∧ s < h.end := by
  obtain ⟨x, hx, h1, h2⟩ := Compiler.leftmost_covers (unpumped_hits h hu hnew hrun hp ht) hm (Nat.zero_le _)
  unfold Vm.hitsOf at hx
  rw [List.mem_map] at hx
  obtain ⟨k, hk, rfl⟩ := hx
  rw [List.mem_filter] at hk
  exact ⟨k, hk.1, by simpa using hk.2, h1, h2⟩

/-- **C14** -/
theorem unpumped_starts_with {ps : List (Nat × Tree Leaf)} {g' : Graph} {P : Vm.Program} (h : Made ps g' P)
    (hu : ¬ Pumped ps) {fuel : Nat} {first : List Vm.Thread} {σ₀ : Vm.St} (hnew : Vm.create P fuel = .ok (first, σ₀))
    {off : Nat} {buf : List UInt8} {r : Option Nat} {σ : Vm.St}
    (hs : Vm.step P first fuel (.startsWith buf off true) σ₀ = .ok (r, σ)) (hsh : Shorter ps buf)
    {l : Nat} {t : Tree Leaf} (hp : (l, t) ∈ ps) (ht : Takes l t) {w : List UInt8} (hw : w ∈ lang leafSem t) (hpre : w <+: buf) :
    ∃ e, Vm.hitsOf l σ.log = [(off, e)] ∧ PatternAt t off buf off e :=
  starts_with_partial h (unpumped_noZero h hu) hnew hs hsh hp ht hw hpre

/-- **C74** Whatever the other patterns are, the hits of a pattern for which the choice of a
backtracking matcher is kept are those a backtracking matcher finds. -/
theorem unpumped_backtrack_partial {ps : List (Nat × Tree Leaf)} {g' : Graph} {P : Vm.Program} (h : Made ps g' P) (hu : ¬ Pumped ps)
    {fuel : Nat} {first : List Vm.Thread} {σ₀ : Vm.St} (hnew : Vm.create P fuel = .ok (first, σ₀))
    {off : Nat} {bufs : List (List UInt8)} {rs : List (Option Nat)} {σ : Vm.St}
    (hrun : Vm.run P first fuel (Vm.searches off bufs) σ₀ = .ok (rs, σ)) {l : Nat} {t : Tree Leaf}
    (hp : (l, t) ∈ ps) (ht : Takes l t) (hb : Backtracks t) (hs : ∀ f, Stays f l t) :
    Reports (preferred leafRests t) off bufs.flatten 0 (Vm.hitsOf l σ.log) := by
  have hz := unpumped_noZero h hu
  obtain ⟨f1, f2, f3, g, det, depth, h1, h2, h3⟩ := h.made
  exact hits_backtrack_partial h.patterns h1 h2 h.nodup h3 hz hnew hrun hp ht hb (hs f1)

/-- **C77** When what follows is only resolved, every match of an accepted pattern that starts in
the part searched lies, with its first byte, in a hit of its keyword. -/
theorem unpumped_resolve {ps : List (Nat × Tree Leaf)} {g' : Graph} {P : Vm.Program} (h : Made ps g' P) (hu : ¬ Pumped ps)
    {fuel : Nat} (hf : 2 * g'.n + 9 ≤ fuel) {off : Nat} {bufs more : List (List UInt8)} {first : List Vm.Thread} {σ₀ : Vm.St}
    (hnew : Vm.create P fuel = .ok (first, σ₀)) {rs : List (Option Nat)} {σ : Vm.St}
    (hrun : Vm.run P first fuel (Vm.resolves off bufs more) σ₀ = .ok (rs, σ)) {l : Nat} {t : Tree Leaf}
    (hp : (l, t) ∈ ps) (ht : Takes l t) {s e : Nat} (hm : PatternAt t off (bufs.flatten ++ more.flatten) s e)
    (hs : s < off + bufs.flatten.length) : ∃ h ∈ σ.log, h.label = l ∧ h.start ≤ s ∧ s < h.end := by
  obtain ⟨h1, h2, ⟨f, h3⟩, h4⟩ := h.facts
  obtain ⟨m1, m2, m3, m4⟩ := hm
  obtain ⟨w', hpre, hne, ha⟩ := h.accepts hp ht m4
  have hle := hpre.length_le
  have hpos := List.length_pos_iff.2 hne
  have hw : w' = ((bufs.flatten ++ more.flatten).drop (s - off)).take w'.length := by
    have := List.prefix_iff_eq_take.1 hpre
    rw [List.take_take] at this
    rw [List.length_take] at hle
    rwa [Nat.min_eq_left (by omega)] at this
  rw [List.length_take, List.length_drop] at hle
  refine (Compiler.resolve_covers_partial h1 h2 (unpumped_noZero h hu) h3 hf hnew hrun).2 l s (s + w'.length)
    ⟨m1, by omega, by omega, ?_⟩ hs
  rw [show s + w'.length - s = w'.length by omega, ← hw]
  exact ha

/-! ## Example -/

/-- `looping` of `determinized_loses_match`, which loses matches alone, beside `xy`. -/
def beside : List (Nat × Tree Leaf) := [(0, looping), (1, .leaf (.lit [120, 121]))]

theorem beside_patterns : Patterns beside := by
  refine ⟨by decide, ?_⟩
  intro p hp
  simp only [beside, List.mem_cons, List.not_mem_nil, or_false] at hp
  rcases hp with rfl | rfl
  · exact looping_patterns.sane _ (by simp)
  · exact ⟨by simp [Ok], by simp [NoLook], by simp [NoDead], by simp [LeavesOk, AllLeaves, LeafOk]⟩

theorem beside_unpumped : ¬ Pumped beside := by
  refine unpumped_of_bounded (q := (1, .leaf (.lit [120, 121]))) (B := 2) (by simp [beside]) ⟨fun h => ?_, fun h => ?_⟩
    (w := [120, 121]) rfl (by rintro w rfl; decide)
  · have : (match build 1 (some (.leaf (.lit [120, 121]))) with | .threw => false | _ => true) = true := by decide +kernel
    rw [h] at this
    cases this
  · have h : ([] : List UInt8) = [120, 121] := h
    cases h

/-- All its matches are found. -/
theorem beside_made : ∃ g' P, Made beside g' P ∧ ¬ Pumped beside ∧ ∃ v < g'.n, Compiler.isTable g' v = true := by
  have h : (match (addAll 60 Graph.init (calls beside)).bind (fun g => finalizeGraph 60 false 4294967295 g) with
      | some (.ok g') => decide (g'.n < 16777216) && (List.range g'.n).any fun v => Compiler.isTable g' v
      | _ => false) = true := by decide +kernel
  cases h1 : addAll 60 Graph.init (calls beside) with
  | none => rw [h1] at h; cases h
  | some g =>
    cases h2 : finalizeGraph 60 false 4294967295 g with
    | none => rw [h1, Option.bind_some, h2] at h; cases h
    | some r =>
      cases r with
      | error e => rw [h1, Option.bind_some, h2] at h; cases h
      | ok g' =>
        rw [h1, Option.bind_some, h2] at h
        simp only [Bool.and_eq_true, List.any_eq_true, List.mem_range, decide_eq_true_eq] at h
        obtain ⟨h3, h4⟩ := h
        have hd := finalized_parallel beside_patterns h1 h2 (Or.inr (by omega))
        obtain ⟨F, hF⟩ := finalized_search_ends beside_patterns h1 h2 hd h3 (by simp [beside])
        obtain ⟨P, hP, -⟩ := hF F (Nat.le_refl _)
        exact ⟨g', P, ⟨beside_patterns, ⟨_, _, F, g, _, _, h1, h2, hP⟩, hd⟩, beside_unpumped, h4⟩

end Verif.Fsm
