import Verif.Props.Pipeline
/-!
# Patterns without unbounded repetition

The defect of `zero_landing_loses_match` needs a way back to the first state.  Where all
patterns match strings of bounded length only, there is none, and the statements about
programs made from patterns (C54, C09, C52) hold without `NoZero`.
-/
namespace Verif.Fsm
open Verif.Nfa Verif.Regex Verif.NfaBuilder Verif.Optimizer Verif.Label Verif.Subset

/-- No `*`, `+` or `{n,}`. -/
def NoUnb {α : Type} : Tree α → Prop
  | .leaf _ => True
  | .alt l r => NoUnb l ∧ NoUnb r
  | .cat l r => NoUnb l ∧ NoUnb r
  | .rep _ _ M t => M ≠ UNB ∧ NoUnb t
  | .look _ t => NoUnb t

theorem pow_bounded {L : Language UInt8} {B : Nat} (h : ∀ w ∈ L, w.length ≤ B) :
    ∀ (k : Nat), ∀ w ∈ L ^ k, w.length ≤ k * B
  | 0, w, hw => by
    rw [pow_zero, Language.mem_one] at hw
    subst hw; simp
  | k + 1, w, hw => by
    rw [pow_succ, Language.mem_mul] at hw
    obtain ⟨a, ha, b, hb, rfl⟩ := hw
    have := pow_bounded h k a ha
    have := h b hb
    rw [List.length_append, Nat.succ_mul]
    omega

/-- A pattern without unbounded repetition has a longest match, if its leaves have. -/
theorem bounded {α : Type} {sem : α → Language UInt8} (hs : ∀ a, ∃ B, ∀ w ∈ sem a, w.length ≤ B) :
    ∀ (t : Tree α), NoUnb t → ∃ B, ∀ w ∈ lang sem t, w.length ≤ B
  | .leaf a, _ => hs a
  | .alt l r, h => by
    obtain ⟨a, ha⟩ := bounded hs l h.1
    obtain ⟨b, hb⟩ := bounded hs r h.2
    refine ⟨max a b, fun w hw => ?_⟩
    rcases (Language.mem_add _ _ _).1 hw with hw | hw
    · have := ha w hw; omega
    · have := hb w hw; omega
  | .cat l r, h => by
    obtain ⟨a, ha⟩ := bounded hs l h.1
    obtain ⟨b, hb⟩ := bounded hs r h.2
    refine ⟨a + b, fun w hw => ?_⟩
    obtain ⟨x, hx, y, hy, rfl⟩ := Language.mem_mul.1 hw
    have := ha x hx
    have := hb y hy
    rw [List.length_append]; omega
  | .rep ng m M t, h => by
    obtain ⟨b, hb⟩ := bounded hs t h.2
    refine ⟨M * b, fun w hw => ?_⟩
    obtain ⟨k, -, hk, hw⟩ := (mem_rep sem).1 hw
    have := pow_bounded hb k w hw
    have hk : k ≤ M := hk.resolve_left h.1
    exact Nat.le_trans this (Nat.mul_le_mul_right b hk)
  | .look k t, _ => ⟨0, fun w hw => absurd hw (Language.notMem_zero w)⟩

theorem leaf_bounded (l : Leaf) : ∃ B, ∀ w ∈ leafSem l, w.length ≤ B := by
  have key : ∀ (encs : List (List BSet)) (w : List UInt8), (∃ e ∈ encs, NfaBuilder.Fits e w) →
      w.length ≤ (encs.map List.length).sum + 1 := by
    rintro encs w ⟨e, he, hf⟩
    have h1 : e.length ≤ (encs.map List.length).sum := by
      clear hf
      induction encs with
      | nil => cases he
      | cons x encs ih =>
        rw [List.map_cons, List.sum_cons]
        rcases List.mem_cons.1 he with rfl | he
        · omega
        · have := ih he; omega
    have h2 : e.length = w.length := hf.length_eq
    omega
  cases l with
  | lit bs => exact ⟨bs.length, fun w hw => by cases hw; exact Nat.le_refl _⟩
  | cls encs brk add =>
    refine ⟨(encs.map List.length).sum + 1, fun w hw => ?_⟩
    cases add with
    | true =>
      rcases hw with hw | ⟨b, -, rfl⟩
      · exact key encs w hw
      · simp
    | false => exact key encs w hw.1

theorem reads_on {d : Graph} (hd : Tidy d) (hbytes : ∀ v < d.n, v ≠ 0 → (d.v v).bytes ≠ 0) {a b : Nat} (hl : Leads d a b) :
    ∀ w : List UInt8, Nfa.Reads d w a → ∃ w' : List UInt8, w.length ≤ w'.length ∧ Nfa.Reads d w' b := by
  induction hl with
  | refl => intro w hr; exact ⟨w, Nat.le_refl _, hr⟩
  | step hu _ ih =>
    intro w hr
    have hrg := hd.range _ _ hu
    obtain ⟨b, hb⟩ := exists_byte (hbytes _ hrg.2.2 (by omega))
    obtain ⟨w', h1, h2⟩ := ih _ (hr.step hu hb)
    exact ⟨w', by simp at h1; omega, h2⟩

/-- A way back to a state makes arbitrarily long matches. -/
theorem loop_unbounded {d : Graph} (hd : Tidy d) (hbytes : ∀ v < d.n, v ≠ 0 → (d.v v).bytes ≠ 0) {u t : Nat} (hu : u ∈ (d.v t).out) (hl : Leads d u t) (n : Nat) :
    ∃ l w, n ≤ w.length ∧ Accepts d l w := by
  have hrg := hd.range _ _ hu
  have key : ∀ n, ∃ w : List UInt8, n ≤ w.length ∧ Nfa.Reads d w u := by
    intro n
    induction n with
    | zero =>
      obtain ⟨w, -, h⟩ := reads_on hd hbytes (hd.reach u hrg.2.2) [] .init
      exact ⟨w, Nat.zero_le _, h⟩
    | succ n ih =>
      obtain ⟨w, h1, h2⟩ := ih
      obtain ⟨w', h3, h4⟩ := reads_on hd hbytes hl w h2
      obtain ⟨b, hb⟩ := exists_byte (hbytes u hrg.2.2 (by omega))
      exact ⟨w' ++ [b], by simp; omega, h4.step hu hb⟩
  obtain ⟨w, h1, h2⟩ := key n
  obtain ⟨m, h3, h4⟩ := hd.live u hrg.2.2 (by omega)
  obtain ⟨w', h5, h6⟩ := reads_on hd hbytes h3 w h2
  obtain ⟨l, hl'⟩ := Option.ne_none_iff_exists'.1 ((hd.labels m).1 h4)
  exact ⟨l, w', by omega, (accepts_iff_reads hd.root l w').2 ⟨m, h6, h4, hl'⟩⟩

/-- All patterns have bounded matches. -/
def AllBounded (ps : List (Nat × Tree Leaf)) : Prop := ∀ p ∈ ps, ∃ B, ∀ w ∈ lang leafSem p.2, w.length ≤ B

theorem AllBounded.max : ∀ {ps : List (Nat × Tree Leaf)}, AllBounded ps → ∃ B, ∀ p ∈ ps, ∀ w ∈ lang leafSem p.2, w.length ≤ B
  | [], _ => ⟨0, by simp⟩
  | p :: ps, h => by
    obtain ⟨a, ha⟩ := h p (by simp)
    obtain ⟨b, hb⟩ := AllBounded.max (ps := ps) (fun q hq => h q (by simp [hq]))
    refine ⟨Max.max a b, fun q hq w hw => ?_⟩
    rcases List.mem_cons.1 hq with rfl | hq
    · have := ha w hw; omega
    · have := hb q hq w hw; omega

theorem AllBounded.noUnb {ps : List (Nat × Tree Leaf)} (h : ∀ p ∈ ps, NoUnb p.2) : AllBounded ps :=
  fun p hp => bounded leaf_bounded p.2 (h p hp)

/-- Programs for patterns with bounded matches are not affected by the defect. -/
theorem bounded_noZero {ps : List (Nat × Tree Leaf)} {g' : Graph} {P : Vm.Program} (h : Made ps g' P) (hb : AllBounded ps) :
    Compiler.NoZero g' := by
  obtain ⟨f1, f2, f3, g, det, depth, h1, h2, h3⟩ := h.made
  obtain ⟨c1, c2, c3, c4⟩ := add_all combined_init h.patterns (fun p _ v => by simp [Graph.init]) h1
  obtain ⟨-, d, hlab, hT, hn, hacc, hC, -⟩ := finalized c1 h2
  have hd := hC h.nodup
  obtain ⟨s1, s2⟩ := label_shape hlab
  intro u hu v hv ht t htv htu
  exfalso
  rw [(s2 _).1] at hu htv htu
  have hrg := hd.range _ _ htv
  have hl : Leads d u t := by
    have := hd.reach t hrg.2.2
    generalize h0 : (0 : Nat) = z at this
    cases this with
    | refl => omega
    | step hx hl =>
      subst h0
      rw [hu, List.mem_singleton] at hx
      subst hx; exact hl
  obtain ⟨B, hB⟩ := hb.max
  obtain ⟨l, w, hw, ha⟩ := loop_unbounded hd.toTidy hd.bytes (by rw [htu]; simp) hl (B + 1)
  have ha := (hacc l w).1 ha
  by_cases hl : l ∈ ps.map (·.1)
  · obtain ⟨⟨l', t⟩, hp, rfl⟩ := List.mem_map.1 hl
    have := hB _ hp w ((c4 _ hp).1 w ha)
    omega
  · obtain ⟨u, hu, -⟩ := (c3 l hl w).1 ha
    simp [Graph.init] at hu

/-- **C54** for patterns with bounded matches, without restriction: patterns with distinct
labels are added to a new FSM, it is finalized and compiled, and a stream, given in any
consecutive buffers to a fresh context, is searched and closed out.  Then for every pattern
that was not refused, the hits with its label are the leftmost non-overlapping matches of the
pattern. -/
theorem bounded_hits {ps : List (Nat × Tree Leaf)} {g' : Graph} {P : Vm.Program} (h : Made ps g' P) (hb : AllBounded ps)
    {fuel : Nat} {first : List Vm.Thread} {σ₀ : Vm.St} (hnew : Vm.create P fuel = .ok (first, σ₀))
    {off : Nat} {bufs : List (List UInt8)} {rs : List (Option Nat)} {σ : Vm.St}
    (hrun : Vm.run P first fuel (Vm.searches off bufs) σ₀ = .ok (rs, σ)) {l : Nat} {t : Tree Leaf}
    (hp : (l, t) ∈ ps) (ht : Takes l t) :
    Compiler.Leftmost (PatternAt t off bufs.flatten) 0 (Vm.hitsOf l σ.log) := by
  have hz := bounded_noZero h hb
  obtain ⟨f1, f2, f3, g, det, depth, h1, h2, h3⟩ := h.made
  exact finalized_hits_partial h.patterns h1 h2 h.nodup h3 hz hnew hrun hp ht

/-- **C12** for patterns with bounded matches, without restriction: the compiled program reads
a string to a match with a label iff the automaton accepts the string with that label. -/
theorem bounded_language {ps : List (Nat × Tree Leaf)} {g' : Graph} {P : Vm.Program} (h : Made ps g' P) (hb : AllBounded ps)
    (l : Nat) (w : List UInt8) : Vm.Accepts P l w ↔ Compiler.GAccepts g' l w := by
  obtain ⟨h1, h2, ⟨f, h3⟩, h4⟩ := h.facts
  exact Compiler.compiled_language_partial h1 (bounded_noZero h hb) h3 l w

/-- **C53** for patterns with bounded matches, without restriction. -/
theorem bounded_preferred {ps : List (Nat × Tree Leaf)} {g' : Graph} {P : Vm.Program} (h : Made ps g' P) (hb : AllBounded ps)
    {fuel : Nat} {first : List Vm.Thread} {σ₀ : Vm.St} (hnew : Vm.create P fuel = .ok (first, σ₀))
    {off : Nat} {bufs : List (List UInt8)} {rs : List (Option Nat)} {σ : Vm.St}
    (hrun : Vm.run P first fuel (Vm.searches off bufs) σ₀ = .ok (rs, σ)) (l : Nat) :
    Compiler.Preferred g' off bufs.flatten l 0 (Vm.hitsOf l σ.log) := by
  obtain ⟨h1, h2, ⟨f, h3⟩, h4⟩ := h.facts
  exact Compiler.hits_preferred_partial h1 h2 (bounded_noZero h hb) h3 hnew hrun l

/-- **C09** for patterns with bounded matches, without restriction: where a pattern that was
not refused matches, a hit with its label containing the first byte of the match is reported. -/
theorem bounded_covered {ps : List (Nat × Tree Leaf)} {g' : Graph} {P : Vm.Program} (h : Made ps g' P) (hb : AllBounded ps)
    {fuel : Nat} {first : List Vm.Thread} {σ₀ : Vm.St} (hnew : Vm.create P fuel = .ok (first, σ₀))
    {off : Nat} {bufs : List (List UInt8)} {rs : List (Option Nat)} {σ : Vm.St}
    (hrun : Vm.run P first fuel (Vm.searches off bufs) σ₀ = .ok (rs, σ)) {l : Nat} {t : Tree Leaf}
    (hp : (l, t) ∈ ps) (ht : Takes l t) {s e : Nat} (hm : PatternAt t off bufs.flatten s e) :
    ∃ h ∈ σ.log, h.label = l ∧ h.start ≤ s ∧ s < h.end := by
  obtain ⟨x, hx, h1, h2⟩ := Compiler.leftmost_covers (bounded_hits h hb hnew hrun hp ht) hm (Nat.zero_le _)
  unfold Vm.hitsOf at hx
  rw [List.mem_map] at hx
  obtain ⟨k, hk, rfl⟩ := hx
  rw [List.mem_filter] at hk
  exact ⟨k, hk.1, by simpa using hk.2, h1, h2⟩

/-! ## Example -/

/-- `a(?:b|c|d|e)f`, for which there is a jump table. -/
def tabled : Tree Leaf :=
  .cat (.leaf (.lit [97])) (.cat (.alt (.leaf (.lit [98])) (.alt (.leaf (.lit [99])) (.alt (.leaf (.lit [100])) (.leaf (.lit [101])))))
    (.leaf (.lit [102])))

theorem tabled_patterns : Patterns [(0, tabled)] := by
  refine ⟨by decide, ?_⟩
  intro p hp
  simp only [List.mem_cons, List.not_mem_nil, or_false] at hp
  subst hp
  exact ⟨by simp [tabled, Ok], by simp [tabled, NoLook], by simp [tabled, NoDead], by simp [tabled, LeavesOk, AllLeaves, LeafOk]⟩

theorem tabled_made : ∃ g' P, Made [(0, tabled)] g' P ∧ AllBounded [(0, tabled)] ∧ ∃ v < g'.n, Compiler.isTable g' v = true := by
  have h : (match (addAll 40 Graph.init (calls [(0, tabled)])).bind (fun g => finalizeGraph 40 false 4294967295 g) with
      | some (.ok g') => decide (g'.n < 16777216) && (List.range g'.n).any fun v => Compiler.isTable g' v
      | _ => false) = true := by decide +kernel
  cases h1 : addAll 40 Graph.init (calls [(0, tabled)]) with
  | none => rw [h1] at h; cases h
  | some g =>
    cases h2 : finalizeGraph 40 false 4294967295 g with
    | none => rw [h1, Option.bind_some, h2] at h; cases h
    | some r =>
      cases r with
      | error e => rw [h1, Option.bind_some, h2] at h; cases h
      | ok g' =>
        rw [h1, Option.bind_some, h2] at h
        simp only [Bool.and_eq_true, List.any_eq_true, List.mem_range, decide_eq_true_eq] at h
        obtain ⟨h3, h4⟩ := h
        have hd := finalized_parallel tabled_patterns h1 h2 (Or.inr (by omega))
        obtain ⟨F, hF⟩ := finalized_search_ends tabled_patterns h1 h2 hd h3 (by simp)
        obtain ⟨P, hP, -⟩ := hF F (Nat.le_refl _)
        exact ⟨g', P, ⟨tabled_patterns, ⟨_, _, F, g, _, _, h1, h2, hP⟩, hd⟩,
          AllBounded.noUnb (by simp [tabled, NoUnb]), h4⟩

end Verif.Fsm
