import Verif.Props.Twins
import Verif.Props.Determinize
import Verif.Props.Finalize
/-!
# C74: the hits are those a backtracking matcher finds, whatever the other patterns

From a pattern's tree to the hits of its keyword: the pattern's automaton prefers what a
backtracking matcher finds first (C73), and merging the automata of all the patterns,
determinizing, labelling, compiling and searching keep that.
-/
namespace Verif.Fsm
open Verif.Nfa Verif.Regex Verif.NfaBuilder Verif.Optimizer Verif.Label Verif.Subset

/-! ## Specification -/

/-- What `addPattern` merges for a pattern stays in order when it is merged. -/
def Stays (fuel l : Nat) (t : Tree Leaf) : Prop :=
  ∀ p p', build l (some t) = .good p → pruneBranches fuel p = some p' → Orderly p'

/-- The patterns for which a backtracking matcher's choice is defined by C73: single ways to
read each leaf, what is repeated matches something, or nothing only at the last, and no
match can end where something is tried later. -/
structure Backtracks (t : Tree Leaf) : Prop where
  oneWay : AllLeaves OneWay t
  calm : Calm leafSem t
  tail : Tail leafSem t

/-! ## Adding patterns keeps the preferences of all of them -/

theorem add_preferred {g : Graph} (hg : Combined g) {label : Nat} (hu : Unused g label) {t : Tree Leaf} (ht : Sane t)
    {fuel : Nat} {g' : Graph} {o : Outcome} (h : addPattern fuel g label (some t) = some (g', o)) :
    (∀ l, l ≠ label → ∀ off buf m hits, Compiler.Preferred g' off buf l m hits ↔ Compiler.Preferred g off buf l m hits) ∧
    (o = .added → ∃ p p', build label (some t) = .good p ∧ pruneBranches fuel p = some p' ∧
      (Orderly p' → ∀ off buf m hits, Compiler.Preferred g' off buf label m hits ↔ Compiler.Preferred p' off buf label m hits)) := by
  unfold addPattern at h
  cases hbt : build label (some t) with
  | empty =>
    rw [hbt] at h
    cases h
    exact ⟨fun _ _ _ _ _ _ => Iff.rfl, fun h => by cases h⟩
  | threw =>
    rw [hbt] at h
    cases h
    exact ⟨fun _ _ _ _ _ _ => Iff.rfl, fun h => by cases h⟩
  | good p =>
    have hp := build_pattern label t ht.noLook ht.leaves p hbt
    rw [hbt] at h
    simp only [Option.bind_eq_bind, Option.bind_eq_some_iff, Option.some.injEq, Prod.mk.injEq] at h
    obtain ⟨p', h1, g'', h2, rfl, rfl⟩ := h
    have hp' := pruned_pattern hp (pruned_of_prune hp.bal h1)
    obtain ⟨c1, -⟩ := merge_combined hg hp' hu h2
    have hone : ∀ {l} v, (p'.v v).label = some l → l = label := by
      intro l v hv
      cases hm : (p'.v v).isMatch with
      | true => rw [hp'.matches_ v hm] at hv; exact (Option.some.inj hv).symm
      | false => rw [hp'.others v hm] at hv; cases hv
    refine ⟨fun l hne off buf m hits => ?_, fun _ => ⟨p, p', rfl, h1, fun ho off buf m hits => ?_⟩⟩
    · exact (merge_keeps hg.base hg.labelsMatch hp'.toFresh hp'.labelsMatch h2
        (fun v hv => hne (hone v hv)) c1.labelsMatch).symm
    · exact (merge_orderly hg.base hg.labelsMatch hp'.toFresh hp'.labelsMatch ho h2 hu c1.labelsMatch).symm

/-- The preferences for each pattern added are those of the automaton built for it alone. -/
theorem add_all_preferred {ps : List (Nat × Tree Leaf)} {fuel : Nat} : ∀ {g g' : Graph}, Combined g → Patterns ps →
    (∀ p ∈ ps, Unused g p.1) → addAll fuel g (calls ps) = some g' →
    (∀ l, l ∉ ps.map (·.1) → ∀ off buf m hits, Compiler.Preferred g' off buf l m hits ↔ Compiler.Preferred g off buf l m hits) ∧
    ∀ q ∈ ps, Takes q.1 q.2 → ∃ p p', build q.1 (some q.2) = .good p ∧ pruneBranches fuel p = some p' ∧
      (Orderly p' → ∀ off buf m hits, Compiler.Preferred g' off buf q.1 m hits ↔ Compiler.Preferred p' off buf q.1 m hits) := by
  induction ps with
  | nil =>
    intro g g' hg _ _ h
    simp only [calls, List.map_nil, addAll, Option.some.injEq] at h
    subst h
    exact ⟨fun _ _ _ _ _ _ => Iff.rfl, by simp⟩
  | cons p ps ih =>
    intro g g' hg hp hu h
    obtain ⟨l, t⟩ := p
    simp only [calls, List.map_cons, addAll, Option.bind_eq_bind, Option.bind_eq_some_iff] at h
    obtain ⟨⟨g1, o⟩, h1, h2⟩ := h
    have hd := hp.distinct
    rw [List.map_cons, List.nodup_cons] at hd
    have hps : Patterns ps := ⟨hd.2, fun q hq => hp.sane q (by simp [hq])⟩
    have hlne : ∀ q ∈ ps, q.1 ≠ l := fun q hq e => hd.1 (List.mem_map.2 ⟨q, hq, e⟩)
    obtain ⟨a1, a2, a3⟩ := add_pattern hg (hu (l, t) (by simp)) (hp.sane (l, t) (by simp)) h1
    obtain ⟨b1, b2⟩ := add_preferred hg (hu (l, t) (by simp)) (hp.sane (l, t) (by simp)) h1
    have hg1 : Combined g1 ∧ ∀ q ∈ ps, Unused g1 q.1 := by
      by_cases ho : o = .added
      · exact ⟨(a3 ho).1, fun q hq => (a3 ho).2.1 q.1 (hu q (by simp [hq])) (hlne q hq)⟩
      · rw [a2 ho]; exact ⟨hg, fun q hq => hu q (by simp [hq])⟩
    obtain ⟨c1, c2⟩ := ih hg1.1 hps hg1.2 h2
    refine ⟨fun k hn off buf m hits => ?_, fun q hq hT => ?_⟩
    · rw [List.map_cons, List.mem_cons, not_or] at hn
      rw [c1 k hn.2, b1 k hn.1]
    · rcases List.mem_cons.1 hq with rfl | hq
      · have ho : o = .added := by
          obtain ⟨t1, t2⟩ := hT
          cases o with
          | added => rfl
          | refused => exact (t2 ((a1 (by simp)).1 rfl)).elim
          | threw =>
            unfold addPattern at h1
            cases hbt : build l (some t) with
            | threw => exact (t1 hbt).elim
            | empty => rw [hbt] at h1; cases h1
            | good p =>
              rw [hbt] at h1
              simp only [Option.bind_eq_bind, Option.bind_eq_some_iff, Option.some.injEq, Prod.mk.injEq] at h1
              obtain ⟨_, _, _, _, _, h3⟩ := h1
              cases h3
        obtain ⟨p, p', e1, e2, e3⟩ := b2 ho
        exact ⟨p, p', e1, e2, fun ho off buf m hits => by rw [c1 l hd.1, e3 ho]⟩
      · exact c2 q hq hT

/-- Finalizing, determinizing to any depth, keeps the preferences. -/
theorem finalize_preferred {g g' : Graph} (hg : Combined g) {fuel : Nat} {det : Bool} {depth : Nat}
    (h : finalizeGraph fuel det depth g = some (.ok g')) {off : Nat} {buf : List UInt8} {l m : Nat} {hits : List (Nat × Nat)} :
    Compiler.Preferred g' off buf l m hits ↔ Compiler.Preferred g off buf l m hits := by
  unfold finalizeGraph at h
  split at h
  · cases h
  · split at h
    · split at h
      · cases h
      · next d e =>
        obtain ⟨g1, h1, h2⟩ := Option.map_eq_some_iff.1 h
        cases h2
        obtain ⟨a, -⟩ := subset_shape hg e
        rw [label_preferred a h1, subset_preferred hg.toTidy e ⟨a.root, a.labels⟩]
    · obtain ⟨g1, h1, h2⟩ := Option.map_eq_some_iff.1 h
      cases h2
      exact label_preferred hg.toTidy h1

/-- **C74.** Patterns with distinct labels are added to a new FSM, it is finalized,
determinizing to any depth, and compiled, and a stream, given in any consecutive buffers to a
fresh context, is searched and closed out.  Then for every pattern that was not refused and
for which the choice of a backtracking matcher is kept, whatever the others are, the hits with
its label are those a backtracking matcher for the pattern finds: at each place, left to
right, the first match in the order of its choices, going on after its end. -/
theorem hits_backtrack_partial {ps : List (Nat × Tree Leaf)} (hps : Patterns ps) {f1 f2 f3 : Nat} {g g' : Graph} {det : Bool} {depth : Nat}
    (hadd : addAll f1 Graph.init (calls ps) = some g) (hfin : finalizeGraph f2 det depth g = some (.ok g'))
    (hd : ∀ v, (g'.v v).out.Nodup)
    {P : Vm.Program} (hc : Compiler.createProgram f3 g' = some (.ok P)) (hz : Compiler.NoZero g')
    {fuel : Nat} {first : List Vm.Thread} {σ₀ : Vm.St} (hnew : Vm.create P fuel = .ok (first, σ₀))
    {off : Nat} {bufs : List (List UInt8)} {rs : List (Option Nat)} {σ : Vm.St}
    (hrun : Vm.run P first fuel (Vm.searches off bufs) σ₀ = .ok (rs, σ)) {l : Nat} {t : Tree Leaf}
    (hp : (l, t) ∈ ps) (ht : Takes l t) (hb : Backtracks t) (hs : Stays f1 l t) :
    Reports (preferred leafRests t) off bufs.flatten 0 (Vm.hitsOf l σ.log) := by
  obtain ⟨c1, -⟩ := add_all combined_init hps (fun p _ v => by simp [Graph.init]) hadd
  obtain ⟨-, d, hlab, hT, hn, -, hC, -⟩ := finalized c1 hfin
  have hlive := labelled_live (hC hd) hn hlab
  have hG := label_guards hT hlab
  have hpr := Compiler.hits_preferred_partial hlive hG hz hc hnew hrun l
  obtain ⟨p, p', e1, e2, e3⟩ := (add_all_preferred combined_init hps (fun p _ v => by simp [Graph.init]) hadd).2 (l, t) hp ht
  have hsane := hps.sane (l, t) hp
  rw [finalize_preferred c1 hfin, e3 (hs p p' e1 e2)] at hpr
  exact (pruned_prefers leafRests leafRests_splits l t hsane.ok hsane.noLook hsane.noDead hsane.leaves hb.oneWay hb.calm hb.tail e1 e2 _ _ _ _).1 hpr

/-- And they are given by the pattern and the stream alone: searching the same stream, in
other buffers, with other patterns beside it, or determinized to another depth, reports the
same hits. -/
theorem hits_same_partial {ps ps' : List (Nat × Tree Leaf)} (hps : Patterns ps) (hps' : Patterns ps')
    {f1 f2 f3 f1' f2' f3' : Nat} {g g' h h' : Graph} {det det' : Bool} {depth depth' : Nat}
    (hadd : addAll f1 Graph.init (calls ps) = some g) (hadd' : addAll f1' Graph.init (calls ps') = some h)
    (hfin : finalizeGraph f2 det depth g = some (.ok g')) (hfin' : finalizeGraph f2' det' depth' h = some (.ok h'))
    (hd : ∀ v, (g'.v v).out.Nodup) (hd' : ∀ v, (h'.v v).out.Nodup)
    {P P' : Vm.Program} (hc : Compiler.createProgram f3 g' = some (.ok P)) (hc' : Compiler.createProgram f3' h' = some (.ok P'))
    (hz : Compiler.NoZero g') (hz' : Compiler.NoZero h')
    {fuel fuel' : Nat} {first first' : List Vm.Thread} {σ₀ σ₀' : Vm.St}
    (hnew : Vm.create P fuel = .ok (first, σ₀)) (hnew' : Vm.create P' fuel' = .ok (first', σ₀'))
    {off : Nat} {bufs bufs' : List (List UInt8)} (hbufs : bufs'.flatten = bufs.flatten) {rs rs' : List (Option Nat)} {σ σ' : Vm.St}
    (hrun : Vm.run P first fuel (Vm.searches off bufs) σ₀ = .ok (rs, σ))
    (hrun' : Vm.run P' first' fuel' (Vm.searches off bufs') σ₀' = .ok (rs', σ'))
    {l l' : Nat} {t : Tree Leaf} (hp : (l, t) ∈ ps) (hp' : (l', t) ∈ ps') (ht : Takes l t) (ht' : Takes l' t)
    (hb : Backtracks t) (hs : Stays f1 l t) (hs' : Stays f1' l' t) :
    Vm.hitsOf l σ.log = Vm.hitsOf l' σ'.log := by
  have h1 := hits_backtrack_partial hps hadd hfin hd hc hz hnew hrun hp ht hb hs
  have h2 := hits_backtrack_partial hps' hadd' hfin' hd' hc' hz' hnew' hrun' hp' ht' hb hs'
  rw [hbufs] at h2
  exact reports_unique h1 h2

/-! ## Example -/

/-- A check that an automaton stays in order, given the pairs of states that may be taken for
the same. -/
def orderlyB (g : Graph) (T : List (Nat × Nat)) : Bool :=
  ((List.range g.n).all fun v => decide (g.v v).out.Nodup && (g.v v).out.all (fun u => T.isEmpty || decide (v < u)) &&
    (List.range g.n).all fun h => !(v == h || decide ((v, h) ∈ T)) || (g.v v).out.all fun t => (g.v h).out.all fun t' =>
      t == t' || decide ((t, t') ∈ T) || !(decide ((g.v t).inn.length = 1) && decide ((g.v t').inn.length = 1) &&
        decide ((g.v t).bytes = (g.v t').bytes))) &&
  T.all fun q => (g.v q.1).out.all fun t => !(decide (t ∈ (g.v q.2).out))

theorem orderly_of_B {g : Graph} (hg : Fresh g) {T : List (Nat × Nat)} (h : orderlyB g T = true) : Orderly g := by
  unfold orderlyB at h
  simp only [Bool.and_eq_true, List.all_eq_true, List.mem_range, decide_eq_true_eq, Bool.or_eq_true, Bool.not_eq_true',
    beq_iff_eq, Bool.and_eq_false_iff, decide_eq_false_iff_not, List.isEmpty_iff] at h
  obtain ⟨h1, h2⟩ := h
  have hin : ∀ {v u}, u ∈ (g.v v).out → v < g.n := fun hu => (hg.range _ _ hu).1
  have ht : ∀ {t t'}, Twin g t t' → t = t' ∨ (t, t') ∈ T := by
    intro t t' h
    induction h with
    | refl v => exact .inl rfl
    | @step a a' t t' _ e1 e2 e3 e4 e5 _ _ ih =>
      rcases (h1 a (hin e1)).2 a' (hin e2) with hc | hc
      · rw [Bool.or_eq_false_iff] at hc
        rcases ih with ih | ih
        · simp [ih] at hc
        · simp [ih] at hc
      · rcases hc t e1 t' e2 with hc | hc
        · exact hc
        · rcases hc with (hc | hc) | hc
          · exact (hc e3).elim
          · exact (hc e4).elim
          · exact (hc e5).elim
  refine ⟨fun v => ?_, ?_, ?_⟩
  · by_cases hv : v < g.n
    · exact (h1 v hv).1.1
    · have : (g.v v).out = [] := List.eq_nil_iff_forall_not_mem.2 fun u hu => hv (hin hu)
      rw [this]; exact List.nodup_nil
  · intro a a' t e1 hne e2 e3
    exact h2 _ ((ht e1).resolve_left hne) t e2 e3
  · intro a a' e1 hne t _ b e2 e3
    have hT := (ht e1).resolve_left hne
    have hup : ∀ {v u}, u ∈ (g.v v).out → v < u := by
      intro v u hu
      rcases (h1 v (hin hu)).1.2 u hu with h | h
      · rw [h] at hT; cases hT
      · exact h
    have hle : ∀ {v u}, Leads g v u → v ≤ u := by
      intro v u h
      induction h with
      | refl => exact Nat.le_refl _
      | step hu _ ih => exact Nat.le_trans (Nat.le_of_lt (hup hu)) ih
    have := hup e3
    have := hle e2
    omega

private def lit1 (b : UInt8) : Tree Leaf := .leaf (.lit [b])

/-- `fox|fa` -/
def animals : Tree Leaf :=
  .alt (.cat (lit1 0x66) (.cat (lit1 0x6f) (lit1 0x78))) (.cat (lit1 0x66) (lit1 0x61))

/-- `fox|fa` and `x(?:a|ab)*?c+`. -/
def two : List (Nat × Tree Leaf) := [(0, animals), (1, lazyMiddle)]

theorem animals_ok : Ok animals ∧ NoLook animals ∧ NoDead animals ∧ LeavesOk animals ∧ Backtracks animals ∧
    [] ∉ lang leafSem animals := by
  have ok : ∀ b : UInt8, LeafOk (.lit [b]) := fun b h => (by cases h)
  have n1 : ∀ b : UInt8, [] ∉ lang leafSem (lit1 b) := fun b => leafSem_nonempty (ok b)
  have n2 : ∀ (b : UInt8) (t : Tree Leaf), [] ∉ lang leafSem (.cat (lit1 b) t) := fun b t h => n1 b (nil_mem_mul.1 h).1
  refine ⟨by simp [animals, lit1, Ok], by simp [animals, lit1, NoLook], by simp [animals, lit1, NoDead],
    by simp [animals, lit1, LeavesOk, AllLeaves, ok], ⟨by simp [animals, lit1, AllLeaves, oneWay_lit], ?_, ?_⟩, ?_⟩
  · simp [animals, lit1, Calm]
  · have e1 := n1 0x78
    have e2 := n1 0x61
    have e3 := n2 0x6f (lit1 0x78)
    have e4 := n2 0x66 (.cat (lit1 0x6f) (lit1 0x78))
    have e5 := n2 0x66 (lit1 0x61)
    simp only [animals, Tail]
    tauto
  · rintro (h | h)
    · exact n2 _ _ h
    · exact n2 _ _ h

theorem two_patterns : Patterns two := by
  refine ⟨by decide, ?_⟩
  intro p hp
  simp only [two, List.mem_cons, List.not_mem_nil, or_false] at hp
  rcases hp with e | e <;> subst e
  · obtain ⟨a, b, c, d, -⟩ := animals_ok
    exact ⟨a, b, c, d⟩
  · obtain ⟨a, b, c, d, -⟩ := lazyMiddle_ok
    exact ⟨a, b, c, d⟩

/-- Two states of `fox|fa` may be taken for the same, and are; no two of the other pattern. -/
theorem two_stay : Takes 0 animals ∧ Takes 1 lazyMiddle ∧ Stays 60 0 animals ∧ Stays 60 1 lazyMiddle := by
  obtain ⟨a1, a2, a3, a4, -, a5⟩ := animals_ok
  obtain ⟨b1, b2, b3, b4, -, -, -, b5⟩ := lazyMiddle_ok
  have key : ∀ (l : Nat) (t : Tree Leaf) (T : List (Nat × Nat)), NoLook t → LeavesOk t → [] ∉ lang leafSem t →
      (match build l (some t) with
        | .good p => match pruneBranches 60 p with
          | some p' => orderlyB p' T
          | none => false
        | _ => false) = true → Takes l t ∧ Stays 60 l t := by
    intro l t T h1 h2 h3 h4
    cases hb : build l (some t) with
    | threw => rw [hb] at h4; cases h4
    | empty => rw [hb] at h4; cases h4
    | good p =>
      rw [hb] at h4
      refine ⟨⟨by rw [hb]; simp, h3⟩, ?_⟩
      intro q p' e1 e2
      rw [hb] at e1
      cases e1
      dsimp only at h4
      rw [e2] at h4
      have hp := build_pattern l t h1 h2 p hb
      exact orderly_of_B (pruned_pattern hp (pruned_of_prune hp.bal e2)).toFresh h4
  obtain ⟨h1, h2⟩ := key 0 animals [(1, 4), (4, 1)] a2 a4 a5 (by decide +kernel)
  obtain ⟨h3, h4⟩ := key 1 lazyMiddle [] b2 b4 b5 (by decide +kernel)
  exact ⟨h1, h3, h2, h4⟩

theorem two_runs : ∃ g g', addAll 60 Graph.init (calls two) = some g ∧
    finalizeGraph 60 false 4294967295 g = some (.ok g') ∧ g'.n ≤ 20 ∧ Compiler.NoZero g' := by
  have h : (match (addAll 60 Graph.init (calls two)).bind (fun g => finalizeGraph 60 false 4294967295 g) with
      | some (.ok g') => decide (g'.n ≤ 20) && (List.range g'.n).all fun v => decide ((g'.v v).out.length ≤ 3)
      | _ => false) = true := by decide +kernel
  cases h1 : addAll 60 Graph.init (calls two) with
  | none => rw [h1] at h; cases h
  | some g =>
    cases h2 : finalizeGraph 60 false 4294967295 g with
    | none => rw [h1, Option.bind_some, h2] at h; cases h
    | some r =>
      cases r with
      | error e => rw [h1, Option.bind_some, h2] at h; cases h
      | ok g' =>
        rw [h1, Option.bind_some, h2] at h
        simp only [Bool.and_eq_true, List.all_eq_true, List.mem_range, decide_eq_true_eq] at h
        refine ⟨g, g', rfl, h2, h.1, ?_⟩
        intro u _ v hv ht
        have := h.2 v (by omega)
        simp only [Compiler.isTable, Bool.and_eq_true, decide_eq_true_eq] at ht
        omega

/-- In "fofoxabaccfa", searched in two pieces, the hits of the first keyword are "fox" and
"fa", that of the second is "xabacc". -/
example : ∃ g g' P first σ₀ rs σ, addAll 60 Graph.init (calls two) = some g ∧
    finalizeGraph 60 false 4294967295 g = some (.ok g') ∧
    (∃ F, Compiler.createProgram F g' = some (.ok P)) ∧ Vm.create P 60 = .ok (first, σ₀) ∧
    Vm.run P first 60 (Vm.searches 0 [[0x66, 0x6f, 0x66, 0x6f], [0x78, 0x61, 0x62, 0x61, 0x63, 0x63, 0x66, 0x61]]) σ₀ = .ok (rs, σ) ∧
    Vm.hitsOf 0 σ.log = [(2, 5), (10, 12)] ∧ Vm.hitsOf 1 σ.log = [(4, 10)] := by
  obtain ⟨g, g', h1, h2, h3, h4⟩ := two_runs
  have hd := finalized_parallel two_patterns h1 h2 (Or.inr (by omega))
  obtain ⟨F, hF⟩ := finalized_search_ends two_patterns h1 h2 hd (by omega) (by simp [two])
  obtain ⟨P, hP, hrun⟩ := hF F (Nat.le_refl _)
  obtain ⟨first, σ₀, rs, σ, r1, r2⟩ := hrun 60 (by omega) 0 [[0x66, 0x6f, 0x66, 0x6f], [0x78, 0x61, 0x62, 0x61, 0x63, 0x63, 0x66, 0x61]]
  obtain ⟨s1, s2, s3, s4⟩ := two_stay
  obtain ⟨-, -, -, -, b1, b2, b3, -⟩ := lazyMiddle_ok
  have e1 := hits_backtrack_partial two_patterns h1 h2 hd hP h4 r1 r2 (l := 0) (t := animals) (by simp [two]) s1 animals_ok.2.2.2.2.1 s3
  have e2 := hits_backtrack_partial two_patterns h1 h2 hd hP h4 r1 r2 (l := 1) (t := lazyMiddle) (by simp [two]) s2 ⟨b1, b2, b3⟩ s4
  exact ⟨g, g', P, first, σ₀, rs, σ, h1, h2, ⟨F, hP⟩, r1, r2,
    reports_unique e1 (reports_of_B (by decide +kernel)), reports_unique e2 (reports_of_B (by decide +kernel))⟩

end Verif.Fsm
