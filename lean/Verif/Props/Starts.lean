import Verif.VmStarts
import Verif.Props.Bounded
/-!
# lg_starts_with agrees with a search, as far as it looks

C14 says that lg_starts_with reports every keyword that matches a prefix of the buffer.  The
code does not do that: before anything is run, the two bytes at the distance chosen for the
filter must be in the buffer, and they may lie beyond the end of the match.

* `starts_with_agrees`: whenever some keyword has a match shorter than the buffer, or the
  buffer has at most one byte, the hits are those of an ordinary search of the buffer which
  start at its first byte.
* `starts_with_partial`, `bounded_starts_with`: then every pattern that matches a prefix gets
  its hit.
* `starts_with_misses`: the statement without that condition is false.
-/
namespace Verif.BestPair
open Verif.Nfa

/-- The pairs are looked for inside the shortest match: the first of the two bytes lies within
every match. -/
theorem off_lt {g : Graph} {fuel off : Nat} {filter : Pairs} (hr : bestPair fuel g = some (off, filter))
    {w : List UInt8} (hacc : Matches g w) : off < w.length := by
  unfold bestPair at hr
  split at hr
  · cases hr
  · next b lmin hl =>
    have hd := loop_done g fuel _ _ _ _ _ (linv_init g) hl
    split at hr
    · cases hr
    · next p ps hbt =>
      simp only [Option.map_eq_some_iff, Prod.mk.injEq] at hr
      obtain ⟨q, hq, rfl, rfl⟩ := hr
      generalize argmin 0 (count p) 1 ps = off at *
      rw [← hbt] at hq
      have ho : off < lmin := by
        rw [List.getElem?_take] at hq
        split at hq
        · assumption
        · cases hq
      obtain ⟨u, hu, t, hp, hm⟩ := hacc
      obtain ⟨w1, -⟩ := path_walk hp 0 0 .zero hu
      have := hd.least _ _ w1 hm
      omega

theorem loop_mono (g : Graph) : ∀ {f f' : Nat} {next b lmin r}, loop g f next b lmin = some r → f ≤ f' →
    loop g f' next b lmin = some r
  | 0, f', [], b, lmin, r, h, _ => by
    cases f' <;> simpa [loop] using h
  | 0, f', _ :: _, b, lmin, r, h, _ => by simp [loop] at h
  | f + 1, 0, _, b, lmin, r, _, hf => by omega
  | f + 1, f' + 1, [], b, lmin, r, h, _ => by simpa [loop] using h
  | f + 1, f' + 1, (d, v) :: next, b, lmin, r, h, hf => by
    simp only [loop] at h ⊢
    split at h
    · next hh => rw [if_pos hh]; exact h
    · next hh => rw [if_neg hh]; exact loop_mono g h (by omega)

end Verif.BestPair

namespace Verif.Compiler
open Verif.Nfa Verif.Vm

theorem filterOff_lt {g : Graph} {fuel' : Nat} {P : Program} (hc : createProgram fuel' g = some (.ok P))
    {l : Nat} {w : List UInt8} (h : GAccepts g l w) (hw : w ≠ []) : P.filterOff < w.length := by
  have hM := matches_of_gaccepts h hw
  unfold createProgram at hc
  split at hc
  · cases hc
  · next off f hb =>
    split at hc
    · next code hcode =>
      simp only [Option.some.injEq, Out.ok.injEq] at hc
      subst hc
      exact BestPair.off_lt hb hM
    · cases hc
    · cases hc

theorem greedy_ge {P : Program} {data : Nat → UInt8} {lo N l m : Nat} {hs : List (Nat × Nat)}
    (h : Greedy P data lo N l m hs) : ∀ x ∈ hs, m ≤ x.1 := by
  induction h with
  | done _ => simp
  | hit hb _ ih =>
    intro x hx
    rcases List.mem_cons.1 hx with rfl | hx
    · exact hb.2.1
    · have := ih x hx
      have := hb.2.1
      have := hb.1.2.1
      omega

/-- What a search reports at the first byte. -/
theorem greedy_first {P : Program} {data : Nat → UInt8} {lo N l : Nat} {hs : List (Nat × Nat)}
    (h : Greedy P data lo N l 0 hs) :
    (∀ κ e, IsBest P data lo N l 0 lo κ e → hs.filter (fun x => x.1 == lo) = [(lo, e)]) ∧
    ((∀ κ e, ¬ AccR P data lo N l lo κ e) → hs.filter (fun x => x.1 == lo) = []) := by
  cases h with
  | done hd => exact ⟨fun κ e hb => (hd _ _ _ hb.1 hb.2.1).elim, fun _ => rfl⟩
  | @hit _ s κ e hs hb hr =>
    have hlo : ∀ x ∈ hs, ¬ x.1 = lo := by
      intro x hx
      have := greedy_ge hr x hx
      have := hb.1.1
      have := hb.1.2.1
      omega
    have hnil : hs.filter (fun x => x.1 == lo) = [] := by
      rw [List.filter_eq_nil_iff]
      intro x hx
      simpa using hlo x hx
    constructor
    · intro κ' e' hb'
      obtain ⟨rfl, rfl, rfl⟩ := best_unique hb hb'
      simp [hnil]
    · intro hno
      rw [List.filter_cons]
      have : ¬ s = lo := by
        rintro rfl
        exact hno _ _ hb.1
      simp [this, hnil]

/-- **C14**, what lg_starts_with does.  On a new context, if the buffer has at most one byte
or some keyword has a match shorter than the buffer, then for every keyword the hits of
lg_starts_with are exactly the hits of lg_search and lg_closeout_search on that buffer that
start at its first byte. -/
theorem starts_with_agrees {g : Graph} (hg : Live g) (hG : Guards g) {fuel' : Nat} {P : Program}
    (hc : createProgram fuel' g = some (.ok P)) {fuel : Nat} {first : List Thread} {σ₀ : St}
    (hnew : create P fuel = .ok (first, σ₀)) {off : Nat} {buf : List UInt8} {r : Option Nat} {σ : St}
    (hs : step P first fuel (.startsWith buf off true) σ₀ = .ok (r, σ)) {rs : List (Option Nat)} {σ' : St}
    (hrun : run P first fuel (searches off [buf]) σ₀ = .ok (rs, σ'))
    (hlen : buf.length ≤ 1 ∨ ∃ l w, GAccepts g l w ∧ w ≠ [] ∧ w.length < buf.length) (l : Nat) :
    hitsOf l σ.log = (hitsOf l σ'.log).filter (fun h => h.1 == off) := by
  obtain ⟨hC, h1, h2⟩ := compiled_of_createProgram hg hc
  simp only [step] at hs
  obtain ⟨σ1, hx, hs⟩ := bind_eq_ok.1 hs
  simp only [Res.ok.injEq, Prod.mk.injEq] at hs
  obtain ⟨-, rfl⟩ := hs
  by_cases hl : l ≤ P.maxLabel
  · have hgr := compiled_greedy hg hG hc hnew hrun hl
    simp only [List.flatten_cons, List.flatten_nil, List.append_nil] at hgr
    obtain ⟨g1, g2⟩ := greedy_first hgr
    cases hgate : startsGate P buf with
    | true =>
      rcases starts_best (compiled_ordered hC hG h1 h2) (compiled_starts hC) hnew (holds_streamOf off buf) hgate hx hl with
        ⟨κ, e, hb, he⟩ | ⟨hn, hb⟩
      · rw [he, g1 κ e hb]
      · rw [hn, g2 hb]
    | false =>
      have hno : ∀ κ e, ¬ AccR P (streamOf off buf) off (off + buf.length) l off κ e := by
        rintro κ e ⟨a1, a2, a3, a4⟩
        have hne : seg (streamOf off buf) off e ≠ [] := by
          intro h
          have := congrArg List.length h
          rw [seg_length] at this
          simp at this; omega
        have hbuf : buf ≠ [] := by rintro rfl; simp at a3; omega
        have hpre : seg (streamOf off buf) off e <+: buf := by
          rw [seg_streamOf a1 a3, Nat.sub_self, List.drop_zero]
          exact List.take_prefix _ _
        have hsp := compiled_filters hg hc _ _ _ _ a4 hne hbuf (Or.inl hpre)
        have hoff : P.filterOff + 1 < buf.length ∨ buf.length = 1 := by
          rcases hlen with hlen | ⟨l', w, hw, hwn, hlt⟩
          · right
            have := List.length_pos_iff.2 hbuf
            omega
          · left
            have := filterOff_lt hc hw hwn
            omega
        unfold startsGate at hgate
        simp only [Bool.or_eq_false_iff, Bool.and_eq_false_iff, beq_eq_false_iff_ne, ne_eq] at hgate
        obtain ⟨e1, e2⟩ := hgate
        have hoff := hoff.resolve_right e1
        rcases e2 with e2 | e2
        · simp at e2; omega
        · unfold spawnHere at hsp
          rw [if_pos hoff] at hsp
          rw [List.getElem?_eq_getElem (show P.filterOff < buf.length by omega), List.getElem?_eq_getElem hoff] at e2 hsp
          simp only at e2 hsp
          rw [e2] at hsp
          cases hsp
      rw [g2 hno]
      unfold startsWith at hx
      rw [hgate] at hx
      obtain ⟨rfl, -⟩ := create_spec (compiled_guarded hC) hnew
      cases hx
      rfl
  · rw [hits_above hg hc hnew hrun hl, List.filter_nil]
    have hsound := starts_sound (compiled_guarded hC) (compiled_finishing hC) hnew (holds_streamOf off buf) hx
    unfold hitsOf
    rw [List.map_eq_nil_iff, List.filter_eq_nil_iff]
    intro h hh e
    obtain ⟨v, hr, -⟩ := gaccepts_of_accepts hC (hsound h hh)
    have := (label_of_grun hg hr).2 _ rfl
    simp only [beq_iff_eq] at e
    omega

end Verif.Compiler

namespace Verif.Fsm
open Verif.Nfa Verif.Regex Verif.NfaBuilder Verif.Optimizer Verif.Label Verif.Subset

/-- The shortest matches of the patterns are in the automaton. -/
theorem Made.accepts {ps : List (Nat × Tree Leaf)} {g' : Graph} {P : Vm.Program} (h : Made ps g' P) {l : Nat} {t : Tree Leaf}
    (hp : (l, t) ∈ ps) (ht : Takes l t) {w : List UInt8} (hw : w ∈ lang leafSem t) :
    ∃ w', w' <+: w ∧ w' ≠ [] ∧ Compiler.GAccepts g' l w' := by
  obtain ⟨f1, f2, f3, g, det, depth, h1, h2, h3⟩ := h.made
  obtain ⟨c1, -, -, c4⟩ := add_all combined_init h.patterns (fun p _ v => by simp [Graph.init]) h1
  obtain ⟨-, d, hlab, hT, hn, hacc, hC, -⟩ := finalized c1 h2
  obtain ⟨w', hw', ha⟩ := (c4 (l, t) hp).2 ht w hw
  exact ⟨w', hw', ha.ne_nil, (label_language hT hlab l w').2 ((hacc l w').2 ha)⟩

theorem Made.sound {ps : List (Nat × Tree Leaf)} {g' : Graph} {P : Vm.Program} (h : Made ps g' P) {l : Nat} {t : Tree Leaf}
    (hp : (l, t) ∈ ps) {w : List UInt8} (hw : Compiler.GAccepts g' l w) : w ∈ lang leafSem t := by
  obtain ⟨f1, f2, f3, g, det, depth, h1, h2, h3⟩ := h.made
  obtain ⟨c1, -, -, c4⟩ := add_all combined_init h.patterns (fun p _ v => by simp [Graph.init]) h1
  obtain ⟨-, d, hlab, hT, hn, hacc, hC, -⟩ := finalized c1 h2
  exact (c4 _ hp).1 w ((hacc l w).1 ((label_language hT hlab l w).1 hw))

/-- There is something for the filter to look at: the buffer has one byte, or some pattern
that was not refused has a match shorter than the buffer. -/
def Shorter (ps : List (Nat × Tree Leaf)) (buf : List UInt8) : Prop :=
  buf.length = 1 ∨ ∃ p ∈ ps, Takes p.1 p.2 ∧ ∃ w ∈ lang leafSem p.2, w.length < buf.length

/-- **C14**, partial.  Patterns with distinct labels are added to a new FSM, it is finalized
and compiled, and lg_starts_with is called on a new context.  If a pattern that was not
refused matches a prefix of the buffer, then one hit with its label is reported; it starts at
the first byte of the buffer and the part of the buffer it covers is a match of the pattern.

What is missing: programs with the landing-address defect (`NoZero`, see
`zero_landing_loses_match`), and buffers no longer than the shortest match of all patterns
(`Shorter`), for which it is false (`starts_with_misses`). -/
theorem starts_with_partial {ps : List (Nat × Tree Leaf)} {g' : Graph} {P : Vm.Program} (h : Made ps g' P)
    (hz : Compiler.NoZero g') {fuel : Nat} {first : List Vm.Thread} {σ₀ : Vm.St} (hnew : Vm.create P fuel = .ok (first, σ₀))
    {off : Nat} {buf : List UInt8} {r : Option Nat} {σ : Vm.St}
    (hs : Vm.step P first fuel (.startsWith buf off true) σ₀ = .ok (r, σ)) (hsh : Shorter ps buf)
    {l : Nat} {t : Tree Leaf} (hp : (l, t) ∈ ps) (ht : Takes l t) {w : List UInt8} (hw : w ∈ lang leafSem t) (hpre : w <+: buf) :
    ∃ e, Vm.hitsOf l σ.log = [(off, e)] ∧ PatternAt t off buf off e := by
  obtain ⟨hg, hG, ⟨f, hc⟩, -⟩ := h.facts
  obtain ⟨hC, h1, h2⟩ := Compiler.compiled_of_createProgram hg hc
  obtain ⟨w', p1, p2, p3⟩ := h.accepts hp ht hw
  have hpre' := p1.trans hpre
  have hle := hpre'.length_le
  have hpos := List.length_pos_iff.2 p2
  have hl : l ≤ P.maxLabel := by
    obtain ⟨v, hr, -⟩ := p3
    have := (Compiler.label_of_grun hg hr).2 _ rfl
    omega
  -- the run that accepts
  obtain ⟨κ, hκ⟩ := Compiler.acc_of_gaccepts hC hz p3
  have hA : Vm.AccR P (Compiler.streamOf off buf) off (off + buf.length) l off κ (off + w'.length) := by
    refine ⟨Nat.le_refl _, by omega, by omega, ?_⟩
    rw [Compiler.seg_streamOf (Nat.le_refl _) (by omega), Nat.sub_self, List.drop_zero, Nat.add_sub_cancel_left,
      ← List.prefix_iff_eq_take.1 hpre']
    exact hκ
  have hgate : Vm.startsGate P buf = true := by
    have hoff : P.filterOff + 1 < buf.length ∨ buf.length = 1 := by
      rcases hsh with hsh | ⟨p, q1, q2, u, q3, q4⟩
      · exact Or.inr hsh
      · left
        obtain ⟨u', r1, r2, r3⟩ := h.accepts q1 q2 q3
        have := Compiler.filterOff_lt hc r3 r2
        have := r1.length_le
        omega
    unfold Vm.startsGate
    rcases hoff with hoff | hoff
    · have hb : buf ≠ [] := by rintro rfl; simp at hoff
      have hsp := Compiler.compiled_filters hg hc _ _ _ buf hκ p2 hb (Or.inl hpre')
      unfold Vm.spawnHere at hsp
      rw [if_pos hoff] at hsp
      rw [List.getElem?_eq_getElem (show P.filterOff < buf.length by omega), List.getElem?_eq_getElem hoff] at hsp ⊢
      simp only at hsp ⊢
      rw [hsp]
      simp [hoff]
    · simp [hoff]
  simp only [Vm.step] at hs
  obtain ⟨σ1, hx, hs⟩ := Vm.bind_eq_ok.1 hs
  simp only [Vm.Res.ok.injEq, Prod.mk.injEq] at hs
  obtain ⟨-, rfl⟩ := hs
  rcases Vm.starts_best (Compiler.compiled_ordered hC hG h1 h2) (Compiler.compiled_starts hC) hnew
      (Compiler.holds_streamOf off buf) hgate hx hl with ⟨κ', e, hb, he⟩ | ⟨-, hn⟩
  · refine ⟨e, he, hb.1.1, hb.1.2.1, hb.1.2.2.1, ?_⟩
    have ha := Compiler.gaccepts_of_acc hC hb.1.2.2.2
    rw [Compiler.seg_streamOf (Nat.le_refl _) hb.1.2.2.1] at ha
    exact h.sound hp ha
  · exact (hn _ _ hA).elim

/-- **C14** for patterns with bounded matches, without the restriction on programs. -/
theorem bounded_starts_with {ps : List (Nat × Tree Leaf)} {g' : Graph} {P : Vm.Program} (h : Made ps g' P)
    (hb : AllBounded ps) {fuel : Nat} {first : List Vm.Thread} {σ₀ : Vm.St} (hnew : Vm.create P fuel = .ok (first, σ₀))
    {off : Nat} {buf : List UInt8} {r : Option Nat} {σ : Vm.St}
    (hs : Vm.step P first fuel (.startsWith buf off true) σ₀ = .ok (r, σ)) (hsh : Shorter ps buf)
    {l : Nat} {t : Tree Leaf} (hp : (l, t) ∈ ps) (ht : Takes l t) {w : List UInt8} (hw : w ∈ lang leafSem t) (hpre : w <+: buf) :
    ∃ e, Vm.hitsOf l σ.log = [(off, e)] ∧ PatternAt t off buf off e :=
  starts_with_partial h (bounded_noZero h hb) hnew hs hsh hp ht hw hpre

/-! ## A match that is missed -/

/-- Any byte. -/
def anyByte : Leaf := .cls [[BitVec.allOnes 256]] 0 false

/-- `ab`. -/
def missed : Tree Leaf := .cat (.leaf (.lit [97])) (.leaf (.lit [98]))

/-- `..cd` for raw bytes. -/
def broad : Tree Leaf :=
  .cat (.cat (.cat (.leaf anyByte) (.leaf anyByte)) (.leaf (.lit [99]))) (.leaf (.lit [100]))

/-- Two keywords: `ab`, and `..cd` for raw bytes. -/
def missing : List (Nat × Tree Leaf) := [(0, missed), (1, broad)]

theorem missing_patterns : Patterns missing := by
  refine ⟨by decide, ?_⟩
  intro p hp
  simp only [missing, List.mem_cons, List.not_mem_nil, or_false] at hp
  rcases hp with rfl | rfl
  · exact ⟨by simp [missed, Ok], by simp [missed, NoLook], by simp [missed, NoDead], by simp [missed, LeavesOk, AllLeaves, LeafOk]⟩
  · exact ⟨by simp [broad, Ok], by simp [broad, NoLook], by simp [broad, NoDead], by
      simp [broad, LeavesOk, AllLeaves, LeafOk, anyByte]⟩

theorem missed_takes : Takes 0 missed := by
  refine ⟨fun h => ?_, ?_⟩
  · have : (match build 0 (some missed) with | .threw => false | _ => true) = true := by decide +kernel
    rw [h] at this
    cases this
  rintro ⟨a, ha, b, hb, hab⟩
  cases ha; cases hb
  cases hab

/-- All bytes lead on from a state. -/
def total (g : Graph) (v : Nat) : Bool := ((g.v v).out.foldr (fun t s => (g.v t).bytes ||| s) 0) == BitVec.allOnes 256

theorem total_spec {g : Graph} {v : Nat} (h : total g v = true) (b : UInt8) : ∃ t ∈ (g.v v).out, (g.v t).bytes.has b = true := by
  have key : ∀ (ts : List Nat), BSet.has (ts.foldr (fun t s => (g.v t).bytes ||| s) 0) b = true →
      ∃ t ∈ ts, (g.v t).bytes.has b = true := by
    intro ts
    induction ts with
    | nil => intro h; simp [BSet.has] at h
    | cons t ts ih =>
      intro h
      simp only [List.foldr_cons, BSet.has, BitVec.getLsbD_or, Bool.or_eq_true] at h
      rcases h with h | h
      · exact ⟨t, by simp, h⟩
      · obtain ⟨u, hu, h⟩ := ih h
        exact ⟨u, by simp [hu], h⟩
  apply key
  unfold total at h
  rw [beq_iff_eq.1 h]
  have hb := b.toNat_lt
  unfold BSet.has
  rw [BitVec.getLsbD_allOnes]
  simpa using hb

/-- What has to be seen of the automaton: all pairs of bytes begin a match, one does not
follow at the next position, and the shortest match has two bytes. -/
def missCheck (g' : Graph) : Bool :=
  decide (g'.n < 100) && (total g' 0 && (g'.v 0).out.all fun t => total g' t) &&
  match BestPair.loop g' 20 [(0, 0)] [] 4294967294 with
  | some (_ :: p :: _, lmin) => decide (lmin = 2) && !p 0 0
  | _ => false

theorem missing_check : (match (addAll 40 Graph.init (calls missing)).bind (fun g => finalizeGraph 40 false 4294967295 g) with
      | some (.ok g') => missCheck g'
      | _ => false) = true := by decide +kernel

theorem miss_filter {g' : Graph} (h : missCheck g' = true) {F : Nat} (hF : 20 ≤ F) {off f}
    (hb : BestPair.bestPair F g' = some (off, f)) : off = 1 := by
  unfold missCheck at h
  simp only [Bool.and_eq_true, decide_eq_true_eq] at h
  obtain ⟨⟨-, h1, h2⟩, h3⟩ := h
  split at h3
  · next p0 p1 ps lmin hl =>
    simp only [Bool.and_eq_true, decide_eq_true_eq, Bool.not_eq_true'] at h3
    obtain ⟨rfl, h3⟩ := h3
    have hd := BestPair.loop_done g' 20 _ _ _ _ _ (BestPair.linv_init g') hl
    unfold BestPair.bestPair at hb
    rw [BestPair.loop_mono g' hl hF] at hb
    simp only [List.take_succ_cons, List.take_zero, BestPair.argmin] at hb
    have hall : ∀ x y, p0 x y = true := by
      intro x y
      obtain ⟨q, hq, hqq⟩ := hd.recd 0 0 .zero (Nat.zero_le _) x y (by
        obtain ⟨t, ht, hx⟩ := total_spec h1 x
        obtain ⟨u, hu, hy⟩ := total_spec (List.all_eq_true.1 h2 t ht) y
        unfold BestPair.contributions
        rw [List.any_eq_true]
        refine ⟨t, ht, ?_⟩
        unfold BestPair.contribute
        rw [hx, Bool.true_and, Bool.or_eq_true, List.any_eq_true]
        exact Or.inr ⟨u, hu, hy⟩)
      simp only [List.getElem?_cons_zero, Option.some.injEq] at hq
      rw [hq]; exact hqq
    have hc : BestPair.count p1 < BestPair.count p0 := by
      have e0 : BestPair.count p0 = 65536 := by
        unfold BestPair.count
        rw [List.filter_eq_self.2 (fun i _ => hall _ _), List.length_range]
      rw [e0]
      unfold BestPair.count
      refine Nat.lt_of_lt_of_eq (List.length_filter_lt_length_iff_exists.2 ⟨0, by simp, ?_⟩) (List.length_range)
      simpa using h3
    rw [if_pos hc] at hb
    simp only [List.getElem?_cons_succ, List.getElem?_cons_zero, Option.map_some, Option.some.injEq, Prod.mk.injEq] at hb
    exact hb.1.symm
  · cases h3

/-- **C14** is false.  For the keywords `ab` and `..cd`, the pair of bytes at distance 1 is
rarer than the pair at distance 0, so it is chosen for the filter; the buffer `ab` has no pair
at distance 1, and lg_starts_with reports nothing although the keyword `ab` matches. -/
theorem starts_with_misses : ∃ g' P first σ₀ r σ rs σ',
    Made missing g' P ∧ AllBounded missing ∧ Vm.create P 209 = .ok (first, σ₀) ∧
    ([97, 98] : List UInt8) ∈ lang leafSem missed ∧ Takes 0 missed ∧
    Vm.step P first 209 (.startsWith [97, 98] 0 true) σ₀ = .ok (r, σ) ∧ σ.log = [] ∧
    Vm.run P first 209 (Vm.searches 0 [[97, 98]]) σ₀ = .ok (rs, σ') ∧ Vm.hitsOf 0 σ'.log = [(0, 2)] := by
  have h := missing_check
  cases h1 : addAll 40 Graph.init (calls missing) with
  | none => rw [h1] at h; cases h
  | some g =>
    cases h2 : finalizeGraph 40 false 4294967295 g with
    | none => rw [h1, Option.bind_some, h2] at h; cases h
    | some r =>
      cases r with
      | error e => rw [h1, Option.bind_some, h2] at h; cases h
      | ok g' =>
        rw [h1, Option.bind_some, h2] at h
        have hk : missCheck g' = true := h
        have hn : g'.n < 100 := by
          unfold missCheck at h
          simp only [Bool.and_eq_true, decide_eq_true_eq] at h
          exact h.1.1
        have hd := finalized_parallel missing_patterns h1 h2 (Or.inr (by omega))
        obtain ⟨F, hF⟩ := finalized_search_ends missing_patterns h1 h2 hd (by omega) (by simp [missing])
        obtain ⟨P, hP, hrun⟩ := hF (F + 20) (by omega)
        have hM : Made missing g' P := ⟨missing_patterns, ⟨_, _, _, g, _, _, h1, h2, hP⟩, hd⟩
        have hB : AllBounded missing := AllBounded.noUnb (by simp [missing, missed, broad, NoUnb])
        obtain ⟨first, σ₀, rs, σ', r1, r2⟩ := hrun 209 (by omega) 0 [[97, 98]]
        have hoff : P.filterOff = 1 := by
          unfold Compiler.createProgram at hP
          split at hP
          · cases hP
          · next off f hb =>
            have := miss_filter hk (by omega) hb
            split at hP
            · simp only [Option.some.injEq, Compiler.Out.ok.injEq] at hP
              subst hP
              exact this
            · cases hP
            · cases hP
        have hin : ([97, 98] : List UInt8) ∈ lang leafSem missed := ⟨[97], rfl, [98], rfl, rfl⟩
        have htk := missed_takes
        have hst : Vm.step P first 209 (.startsWith [97, 98] 0 true) σ₀ = .ok (none, σ₀) := by
          simp [Vm.step, Vm.startsWith, Vm.startsGate, hoff]
        have hlog := Vm.create_log r1
        have hhits := bounded_hits hM hB r1 r2 (l := 0) (t := missed) (by simp [missing]) htk
        refine ⟨g', P, first, σ₀, none, σ₀, rs, σ', hM, hB, r1, hin, htk, hst, hlog, r2, ?_⟩
        have hmatch : PatternAt missed 0 [97, 98] 0 2 := ⟨by decide, by decide, by decide, hin⟩
        have hiff : ∀ s e, PatternAt missed 0 [97, 98] s e → s = 0 ∧ e = 2 := by
          rintro s e ⟨-, a2, a3, a4⟩
          obtain ⟨a, ha, b, hb, hab⟩ := a4
          cases ha; cases hb
          have := congrArg List.length hab
          simp at this
          simp at a3
          omega
        cases hh : Vm.hitsOf 0 σ'.log with
        | nil => rw [hh] at hhits; have := hhits _ _ hmatch; omega
        | cons x xs =>
          rw [hh] at hhits
          obtain ⟨b1, -, -, b4⟩ := hhits
          obtain ⟨c1, c2⟩ := hiff _ _ b1
          rw [Prod.ext_iff.2 (show x.1 = (0, 2).1 ∧ x.2 = (0, 2).2 from ⟨c1, c2⟩)]
          cases xs with
          | nil => rfl
          | cons y ys =>
            obtain ⟨d1, d2, -⟩ := b4
            have := hiff _ _ d1
            omega

/-- Given one byte more, the same keywords meet the conditions of `starts_with_partial` and
`starts_with_agrees`, and the keyword is reported. -/
example : Shorter missing [97, 98, 99] ∧ ([97, 98] : List UInt8) <+: [97, 98, 99] ∧ ∀ {g' P first σ₀ fuel r σ}, Made missing g' P →
    Vm.create P fuel = .ok (first, σ₀) → Vm.step P first fuel (.startsWith [97, 98, 99] 5 true) σ₀ = .ok (r, σ) →
    ∃ e, Vm.hitsOf 0 σ.log = [(5, e)] := by
  have hin : ([97, 98] : List UInt8) ∈ lang leafSem missed := ⟨[97], rfl, [98], rfl, rfl⟩
  have hsh : Shorter missing [97, 98, 99] := Or.inr ⟨(0, missed), by simp [missing], missed_takes, _, hin, by decide⟩
  have hpre : ([97, 98] : List UInt8) <+: [97, 98, 99] := ⟨[99], rfl⟩
  refine ⟨hsh, hpre, ?_⟩
  intro g' P first σ₀ fuel r σ hM hnew hst
  obtain ⟨e, he, -⟩ := bounded_starts_with hM (AllBounded.noUnb (by simp [missing, missed, broad, NoUnb])) hnew hst hsh
    (l := 0) (t := missed) (by simp [missing]) missed_takes hin hpre
  exact ⟨e, he⟩

end Verif.Fsm
