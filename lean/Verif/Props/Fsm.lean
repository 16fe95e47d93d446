import Verif.Fsm
import Verif.Props.Shape
/-!
# From patterns to hits

C17, C20 and the end-to-end statement: the hits of a search are the leftmost matches of
the patterns that were added.
-/
namespace Verif.Fsm
open Verif.Nfa Verif.Regex Verif.NfaBuilder Verif.Optimizer Verif.Label

/-! ## Pruning a pattern's automaton -/

theorem exists_byte {s : BSet} (h : s ≠ 0) : ∃ b, s.has b = true := by
  by_contra hc
  apply h
  ext i hi
  show s[i] = (0#256)[i]
  rw [BitVec.getElem_zero]
  cases e : s[i] with
  | false => rfl
  | true =>
    refine (hc ⟨UInt8.ofNat i, ?_⟩).elim
    have : (UInt8.ofNat i).toNat = i := by simp; omega
    unfold BSet.has
    rw [this, BitVec.getLsbD_eq_getElem hi]
    exact e

theorem pruned_sub {g g' : Graph} (h : Pruned g g') {v u : Nat} (hu : u ∈ (g'.v v).out) : u ∈ (g.v v).out := by
  rcases h.each v with e | e
  · rw [e] at hu; exact (keep_sub g _ _).subset hu
  · rwa [e] at hu

theorem pruned_pattern {g g' : Graph} {l : Nat} (hg : Pattern g l) (h : Pruned g g') : Pattern g' l := by
  have hsub : ∀ {a b}, Leads g' a b → Leads g a b := fun hl => leads_mono (fun v u hu => pruned_sub h hu) hl
  have hlive : ∀ v m, Leads g v m → (g.v m).isMatch = true → Leads g 0 v → ∃ m', Leads g' v m' ∧ (g.v m').isMatch = true := by
    intro v m hl
    induction hl with
    | refl => intro hm _; exact ⟨_, .refl _, hm⟩
    | @step v u t hu _ ih =>
      intro hm h0
      have hu0 : Leads g 0 u := h0.snoc hu
      obtain ⟨b, hb⟩ := exists_byte (hg.bytes u hu0 (by have := (hg.range v u hu).2.1; omega))
      rcases keep_or g (g.v v).out 0 (has_zero'' b) u hu hb with hk | ⟨m', hk, hm', -, -⟩
      · rw [← h.reached v h0] at hk
        obtain ⟨m', h1, h2⟩ := ih hm hu0
        exact ⟨m', .step hk h1, h2⟩
      · rw [← h.reached v h0] at hk
        exact ⟨m', .step hk (.refl _), hm'⟩
  refine ⟨⟨by rw [h.same.n]; exact hg.pos, ?_, h.bal⟩, ⟨?_, ?_, ?_⟩, ?_, ?_⟩
  · intro v u hu; rw [h.same.n]; exact hg.range v u (pruned_sub h hu)
  · rw [h.same.isMatch]; exact hg.root
  · intro v hv; rw [h.same.label]; rw [h.same.isMatch] at hv; exact hg.matches_ v hv
  · intro v hv; rw [h.same.label]; rw [h.same.isMatch] at hv; exact hg.others v hv
  · intro v hv h0; rw [h.same.bytes]; exact hg.bytes v (hsub hv) h0
  · intro v hv h0
    obtain ⟨m, h1, h2⟩ := hg.live v (hsub hv) h0
    obtain ⟨m', h3, h4⟩ := hlive v m h1 h2 (hsub hv)
    exact ⟨m', h3, by rw [h.same.isMatch]; exact h4⟩

theorem reads_leads {g : Graph} {w : List UInt8} {v : Nat} (h : Nfa.Reads g w v) : Leads g 0 v := by
  induction h with
  | init => exact .refl 0
  | step _ hu _ ih => exact ih.snoc hu

theorem pruned_reads {g g' : Graph} (h : Pruned g g') {w : List UInt8} {v : Nat} (hr : Nfa.Reads g' w v) : Nfa.Reads g w v := by
  induction hr with
  | init => exact .init
  | step _ hu hb ih => exact ih.step (pruned_sub h hu) (by rw [← h.same.bytes]; exact hb)

theorem pruned_reads_or {g g' : Graph} (h : Pruned g g') {w : List UInt8} {v : Nat} (hr : Nfa.Reads g w v) :
    Nfa.Reads g' w v ∨ ∃ w' m, w' <+: w ∧ Nfa.Reads g' w' m ∧ (g.v m).isMatch = true := by
  induction hr with
  | init => exact .inl .init
  | @step w v u b hp hu hb ih =>
    rcases ih with ih | ⟨w', m, h1, h2, h3⟩
    · rcases keep_or g (g.v v).out 0 (has_zero'' b) u hu hb with hk | ⟨m, hk, hm, hmb, -⟩
      · rw [← h.reached v (reads_leads hp)] at hk
        exact .inl (ih.step hk (by rw [h.same.bytes]; exact hb))
      · rw [← h.reached v (reads_leads hp)] at hk
        exact .inr ⟨_, m, List.prefix_rfl, ih.step hk (by rw [h.same.bytes]; exact hmb), hm⟩
    · exact .inr ⟨w', m, h1.trans (List.prefix_append _ _), h2, h3⟩

/-- Pruning adds nothing to what is accepted, and keeps of every accepted word a prefix. -/
theorem pruned_language {g g' : Graph} {l : Nat} (hg : Pattern g l) (h : Pruned g g') :
    (∀ k w, Accepts g' k w → Accepts g k w) ∧ ∀ w, Accepts g l w → ∃ w', w' <+: w ∧ Accepts g' l w' := by
  have hr' : (g'.v 0).isMatch = false := by rw [h.same.isMatch]; exact hg.root
  constructor
  · intro k w
    rw [accepts_iff_reads hr', accepts_iff_reads hg.root]
    rintro ⟨v, h1, h2, h3⟩
    exact ⟨v, pruned_reads h h1, by rw [← h.same.isMatch]; exact h2, by rw [← h.same.label]; exact h3⟩
  · intro w
    rw [accepts_iff_reads hg.root]
    rintro ⟨v, h1, h2, h3⟩
    rcases pruned_reads_or h h1 with h4 | ⟨w', m, h4, h5, h6⟩
    · exact ⟨w, List.prefix_rfl, (accepts_iff_reads hr' l w).2 ⟨v, h4, by rw [h.same.isMatch]; exact h2, by rw [h.same.label]; exact h3⟩⟩
    · exact ⟨w', h4, (accepts_iff_reads hr' l w').2 ⟨m, h5, by rw [h.same.isMatch]; exact h6, by rw [h.same.label]; exact hg.matches_ m h6⟩⟩

/-! ## Specification -/

/-- A rewritten tree, as the rewriter and the encoders make them. -/
structure Sane (t : Tree Leaf) : Prop where
  ok : Ok t
  noLook : NoLook t
  noDead : NoDead t
  leaves : LeavesOk t

/-- The label is not in use. -/
def Unused (g : Graph) (l : Nat) : Prop := ∀ v, (g.v v).label ≠ some l

/-! ## Adding one pattern -/

/-- C17, C20: adding a pattern with a new label to an FSM.

It fails with "Empty matches" iff the pattern accepts the empty string, and if it fails
the FSM is as before.  Otherwise what is accepted for the other keywords is as before;
what is accepted for the new one is the pattern's, and of each string of the pattern a
prefix is accepted. -/
theorem add_pattern {g : Graph} (hg : Combined g) {label : Nat} (hu : Unused g label) {t : Tree Leaf} (ht : Sane t)
    {fuel : Nat} {g' : Graph} {o : Outcome} (h : addPattern fuel g label (some t) = some (g', o)) :
    (o ≠ .threw → (o = .refused ↔ [] ∈ lang leafSem t)) ∧
    (o ≠ .added → g' = g) ∧
    (o = .added → Combined g' ∧ (∀ k, Unused g k → k ≠ label → Unused g' k) ∧
      (∀ l, l ≠ label → ∀ w, Accepts g' l w ↔ Accepts g l w) ∧
      (∀ w, Accepts g' label w → w ∈ lang leafSem t) ∧
      ∀ w ∈ lang leafSem t, ∃ w', w' <+: w ∧ Accepts g' label w') := by
  have hb := build_spec label t ht.ok ht.noLook ht.noDead ht.leaves
  unfold addPattern at h
  cases hbt : build label (some t) with
  | empty =>
    rw [hbt] at h hb
    dsimp only at h
    cases h
    refine ⟨fun _ => ⟨fun _ => ?_, fun _ => rfl⟩, fun _ => rfl, fun h => by cases h⟩
    rcases hb with h1 | ⟨-, h1⟩ | ⟨_, h1, -⟩
    · cases h1
    · exact h1
    · cases h1
  | threw =>
    rw [hbt] at h
    dsimp only at h
    cases h
    exact ⟨fun h => (h rfl).elim, fun _ => rfl, fun h => by cases h⟩
  | good p =>
    have hp := build_pattern label t ht.noLook ht.leaves p hbt
    rw [hbt] at h hb
    simp only [Option.bind_eq_bind, Option.bind_eq_some_iff, Option.some.injEq, Prod.mk.injEq] at h
    obtain ⟨p', h1, g'', h2, rfl, rfl⟩ := h
    obtain ⟨-, hbad⟩ | ⟨q, hq, hnil, hlang, -⟩ : (False ∧ False) ∨ ∃ q, Built.good p = .good q ∧ [] ∉ lang leafSem t ∧
        (∀ l w, Accepts q l w ↔ l = label ∧ w ∈ lang leafSem t) ∧ True := by
      rcases hb with h3 | ⟨h3, -⟩ | ⟨q, h3, h4, h5, -⟩
      · cases h3
      · cases h3
      · exact .inr ⟨q, h3, h4, h5, trivial⟩
    · exact hbad.elim
    cases hq
    have hpr := pruned_of_prune hp.bal h1
    have hp' := pruned_pattern hp hpr
    obtain ⟨l1, l2⟩ := pruned_language hp hpr
    have hm := merge_language hg.base hg.labelsMatch hp'.toFresh hp'.labelsMatch h2
    obtain ⟨c1, c2⟩ := merge_combined hg hp' hu h2
    have hno : ∀ w, ¬ Accepts g label w := by
      intro w hw
      rw [accepts_iff_reads hg.root] at hw
      obtain ⟨v, -, -, h3⟩ := hw
      exact hu v h3
    refine ⟨fun _ => ⟨(fun h => by cases h), fun h => (hnil h).elim⟩, fun h => (h rfl).elim, fun _ => ⟨c1, ?_, ?_, ?_, ?_⟩⟩
    · intro k hk hne v hv
      rcases c2 v k hv with e | ⟨v', hv'⟩
      · exact hne e
      · exact hk v' hv'
    · intro l hne w
      rw [hm]
      constructor
      · rintro (h3 | h3)
        · exact h3
        · exact (hne ((hlang l w).1 (l1 l w h3)).1).elim
      · exact .inl
    · intro w hw
      rcases (hm label w).1 hw with h3 | h3
      · exact (hno w h3).elim
      · exact ((hlang label w).1 (l1 label w h3)).2
    · intro w hw
      obtain ⟨w', h3, h4⟩ := l2 w ((hlang label w).2 ⟨rfl, hw⟩)
      exact ⟨w', h3, (hm label w').2 (.inr h4)⟩

/-- Adding a pattern comes to an end. -/
theorem add_pattern_ends {g : Graph} (hg : Combined g) (label : Nat) {t : Tree Leaf} (ht : Sane t) :
    ∃ r F, ∀ fuel ≥ F, addPattern fuel g label (some t) = some r := by
  unfold addPattern
  cases hbt : build label (some t) with
  | empty => exact ⟨_, 0, fun _ _ => rfl⟩
  | threw => exact ⟨_, 0, fun _ _ => rfl⟩
  | good p =>
    have hp := build_pattern label t ht.noLook ht.leaves p hbt
    obtain ⟨p', F1, h1⟩ := prune_ends hp.bal (fun v u hu => (hp.range v u hu).2.2) hp.pos
    have hp' := pruned_pattern hp (pruned_of_prune hp.bal (h1 F1 (Nat.le_refl _)))
    obtain ⟨g', F2, h2⟩ := merge_ends hg.base hp'.toFresh hp'.labelsMatch (fun v _ => hg.labels v)
    refine ⟨(g', .added), max F1 F2, fun fuel hf => ?_⟩
    simp only [Option.bind_eq_bind]
    rw [h1 fuel (by omega), Option.bind_some, h2 fuel (by omega)]
    rfl

/-! ## Adding a list of patterns -/

/-- The patterns to add: distinct labels, and each tree is one the rewriter makes. -/
structure Patterns (ps : List (Nat × Tree Leaf)) : Prop where
  distinct : (ps.map (·.1)).Nodup
  sane : ∀ p ∈ ps, Sane p.2

/-- The pattern is accepted: its characters exist in its encoding and it does not match
the empty string. -/
def Takes (l : Nat) (t : Tree Leaf) : Prop := build l (some t) ≠ .threw ∧ [] ∉ lang leafSem t

/-- The arguments of the calls. -/
def calls (ps : List (Nat × Tree Leaf)) : List (Nat × Option (Tree Leaf)) := ps.map fun p => (p.1, some p.2)

theorem add_all {ps : List (Nat × Tree Leaf)} {fuel : Nat} : ∀ {g g' : Graph}, Combined g → Patterns ps →
    (∀ p ∈ ps, Unused g p.1) → addAll fuel g (calls ps) = some g' →
    Combined g' ∧ (∀ k, Unused g k → k ∉ ps.map (·.1) → Unused g' k) ∧
    (∀ l, l ∉ ps.map (·.1) → ∀ w, Accepts g' l w ↔ Accepts g l w) ∧
    ∀ p ∈ ps, (∀ w, Accepts g' p.1 w → w ∈ lang leafSem p.2) ∧
      (Takes p.1 p.2 → ∀ w ∈ lang leafSem p.2, ∃ w', w' <+: w ∧ Accepts g' p.1 w') := by
  induction ps with
  | nil =>
    intro g g' hg _ _ h
    simp only [calls, List.map_nil, addAll, Option.some.injEq] at h
    subst h
    exact ⟨hg, fun k hk _ => hk, fun l _ w => Iff.rfl, by simp⟩
  | cons p ps ih =>
    intro g g' hg hp hu h
    obtain ⟨l, t⟩ := p
    simp only [calls, List.map_cons, addAll, Option.bind_eq_bind, Option.bind_eq_some_iff] at h
    obtain ⟨⟨g1, o⟩, h1, h2⟩ := h
    obtain ⟨a1, a2, a3⟩ := add_pattern hg (hu (l, t) (by simp)) (hp.sane (l, t) (by simp)) h1
    have hd := hp.distinct
    rw [List.map_cons, List.nodup_cons] at hd
    have hps : Patterns ps := ⟨hd.2, fun q hq => hp.sane q (by simp [hq])⟩
    have hlne : ∀ q ∈ ps, q.1 ≠ l := fun q hq e => hd.1 (List.mem_map.2 ⟨q, hq, e⟩)
    have hno : ∀ {G : Graph}, Combined G → Unused G l → ∀ w, ¬ Accepts G l w := by
      intro G hG hU w hw
      rw [accepts_iff_reads hG.root] at hw
      obtain ⟨v, -, -, h3⟩ := hw
      exact hU v h3
    by_cases ho : o = .added
    · obtain ⟨b1, b2, b3, b4, b5⟩ := a3 ho
      obtain ⟨c1, c2, c3, c4⟩ := ih b1 hps (fun q hq => b2 q.1 (hu q (by simp [hq])) (hlne q hq)) h2
      refine ⟨c1, ?_, ?_, ?_⟩
      · intro k hk hn
        rw [List.map_cons, List.mem_cons, not_or] at hn
        exact c2 k (b2 k hk hn.1) hn.2
      · intro k hn w
        rw [List.map_cons, List.mem_cons, not_or] at hn
        rw [c3 k hn.2, b3 k hn.1]
      · intro q hq
        rcases List.mem_cons.1 hq with rfl | hq
        · refine ⟨fun w hw => b4 w ((c3 l hd.1 w).1 hw), fun _ w hw => ?_⟩
          obtain ⟨w', h3, h4⟩ := b5 w hw
          exact ⟨w', h3, (c3 l hd.1 w').2 h4⟩
        · exact c4 q hq
    · have e := a2 ho
      subst e
      obtain ⟨c1, c2, c3, c4⟩ := ih hg hps (fun q hq => hu q (by simp [hq])) h2
      refine ⟨c1, ?_, ?_, ?_⟩
      · intro k hk hn
        rw [List.map_cons, List.mem_cons, not_or] at hn
        exact c2 k hk hn.2
      · intro k hn w
        rw [List.map_cons, List.mem_cons, not_or] at hn
        exact c3 k hn.2 w
      · intro q hq
        rcases List.mem_cons.1 hq with rfl | hq
        · have hu' := c2 l (hu (l, t) (by simp)) hd.1
          refine ⟨fun w hw => (hno c1 hu' w hw).elim, fun hT => ?_⟩
          exfalso
          obtain ⟨t1, t2⟩ := hT
          by_cases hth : o = .threw
          · subst hth
            unfold addPattern at h1
            cases hbt : build l (some t) with
            | threw => exact t1 hbt
            | empty => rw [hbt] at h1; cases h1
            | good p =>
              rw [hbt] at h1
              simp only [Option.bind_eq_bind, Option.bind_eq_some_iff, Option.some.injEq, Prod.mk.injEq] at h1
              obtain ⟨_, _, _, _, _, h3⟩ := h1
              cases h3
          · cases o with
            | added => exact ho rfl
            | threw => exact hth rfl
            | refused => exact t2 ((a1 (by simp)).1 rfl)
        · exact c4 q hq

theorem addAll_ends {ps : List (Nat × Tree Leaf)} : ∀ {g : Graph}, Combined g → Patterns ps →
    (∀ p ∈ ps, Unused g p.1) → ∃ g' F, ∀ fuel ≥ F, addAll fuel g (calls ps) = some g' := by
  induction ps with
  | nil => intro g _ _ _; exact ⟨g, 0, fun _ _ => rfl⟩
  | cons p ps ih =>
    intro g hg hp hu
    obtain ⟨l, t⟩ := p
    obtain ⟨⟨g1, o⟩, F1, h1⟩ := add_pattern_ends hg l (hp.sane (l, t) (by simp))
    obtain ⟨-, a2, a3⟩ := add_pattern hg (hu (l, t) (by simp)) (hp.sane (l, t) (by simp)) (h1 F1 (Nat.le_refl _))
    have hd := hp.distinct
    rw [List.map_cons, List.nodup_cons] at hd
    have hlne : ∀ q ∈ ps, q.1 ≠ l := fun q hq e => hd.1 (List.mem_map.2 ⟨q, hq, e⟩)
    have hg1 : Combined g1 ∧ ∀ q ∈ ps, Unused g1 q.1 := by
      by_cases ho : o = .added
      · obtain ⟨b1, b2, -⟩ := a3 ho
        exact ⟨b1, fun q hq => b2 q.1 (hu q (by simp [hq])) (hlne q hq)⟩
      · rw [a2 ho]
        exact ⟨hg, fun q hq => hu q (by simp [hq])⟩
    obtain ⟨g', F2, h2⟩ := ih hg1.1 ⟨hd.2, fun q hq => hp.sane q (by simp [hq])⟩ hg1.2
    refine ⟨g', max F1 F2, fun fuel hf => ?_⟩
    simp only [calls, List.map_cons, addAll, Option.bind_eq_bind]
    rw [h1 fuel (by omega), Option.bind_some]
    exact h2 fuel (by omega)

/-! ## Compiling the labelled automaton -/

theorem walk_of_leads {g : Graph} {a b : Nat} (h : Leads g a b) : ∀ {d}, BestPair.Walk g d a → ∃ d', BestPair.Walk g d' b := by
  induction h with
  | refl => intro d hd; exact ⟨d, hd⟩
  | step hu _ ih => intro d hd; exact ih (hd.step hu)

/-- The labelled automaton is fit for the compiler. -/
theorem labelled_live {g g' : Graph} (hg : Combined g) (hn : 2 ≤ g.n) {fuel : Nat} (h : labelGuardStates fuel g = some g') :
    Compiler.Live g' := by
  obtain ⟨s1, s2⟩ := label_shape h
  have hleads : ∀ {a b}, Leads g a b → Leads g' a b := fun hl => leads_mono (fun v u hu => by rw [(s2 v).1]; exact hu) hl
  refine ⟨⟨?_, ?_, ?_, ?_, ?_, label_zero hg.toTidy h, ?_, ?_⟩, ?_⟩
  · rw [s1]; exact hg.pos
  · intro v _ u hu
    rw [(s2 v).1] at hu
    rw [s1]; exact (hg.range v u hu).2
  · intro v _; rw [(s2 v).1]; exact hg.nodup v
  · intro v hv h0
    rw [s1] at hv
    rw [(s2 v).2.2.1]
    obtain ⟨b, hb⟩ := exists_byte (hg.bytes v hv h0)
    exact ⟨b.toNat, b.toNat_lt, hb⟩
  · intro v hv
    rw [s1] at hv
    exact walk_of_leads (hleads (hg.reach v hv)) .zero
  · rw [(s2 0).2.2.2]; exact hg.root
  · rw [(s2 0).2.1, List.eq_nil_iff_forall_not_mem]
    intro x hx
    have := (hg.range x 0 ((hg.both x 0).2 hx)).2.1
    omega
  · intro v hv hm
    rw [s1] at hv
    rw [(s2 v).2.2.2] at hm
    rw [(s2 v).1]
    by_cases h0 : v = 0
    · subst h0
      -- some other state is reached
      have hr := hg.reach 1 (by omega)
      intro he
      generalize h1 : (1 : Nat) = x at hr
      cases hr with
      | refl => omega
      | step hu _ => rw [he] at hu; cases hu
    · obtain ⟨m, h1, h2⟩ := hg.live v hv h0
      cases h1 with
      | refl => rw [hm] at h2; cases h2
      | step hu _ => exact List.ne_nil_of_mem hu

/-! ## End to end -/

/-- The pattern matches the bytes of the stream `buf`, which starts at offset `off`, from
`s` to `e`. -/
def PatternAt (t : Tree Leaf) (off : Nat) (buf : List UInt8) (s e : Nat) : Prop :=
  off ≤ s ∧ s < e ∧ e ≤ off + buf.length ∧ (buf.drop (s - off)).take (e - s) ∈ lang leafSem t

theorem leftmost_mono {A B : Nat → Nat → Prop} (h1 : ∀ s e, A s e → B s e) (h2 : ∀ s e, B s e → ∃ e', A s e') :
    ∀ hs m, Compiler.Leftmost A m hs → Compiler.Leftmost B m hs := by
  intro hs
  induction hs with
  | nil =>
    intro m h s e hB
    obtain ⟨e', hA⟩ := h2 s e hB
    exact h s e' hA
  | cons x hs ih =>
    intro m h
    obtain ⟨s, e⟩ := x
    obtain ⟨a, b, c, d⟩ := h
    refine ⟨h1 s e a, b, ?_, ih e d⟩
    intro s' e' hB hm
    obtain ⟨e'', hA⟩ := h2 s' e' hB
    exact c s' e'' hA hm

/-- The end-to-end statement: patterns with distinct labels are added to a new FSM, its
automaton is labelled (with no determinization) and compiled, and a stream, given in
any consecutive buffers to a fresh context, is searched and closed out.  Then for every
pattern that was not refused, the hits with its label are the leftmost non-overlapping
matches of the pattern. -/
theorem pattern_hits_partial {ps : List (Nat × Tree Leaf)} (hps : Patterns ps) {f1 f2 f3 : Nat} {g g' : Graph}
    (hadd : addAll f1 Graph.init (calls ps) = some g) (hn : 2 ≤ g.n) (hlab : labelGuardStates f2 g = some g')
    {P : Vm.Program} (hc : Compiler.createProgram f3 g' = some (.ok P)) (hz : Compiler.NoZero g')
    {fuel : Nat} {first : List Vm.Thread} {σ₀ : Vm.St} (hnew : Vm.create P fuel = .ok (first, σ₀))
    {off : Nat} {bufs : List (List UInt8)} {rs : List (Option Nat)} {σ : Vm.St}
    (hrun : Vm.run P first fuel (Vm.searches off bufs) σ₀ = .ok (rs, σ)) {l : Nat} {t : Tree Leaf}
    (hp : (l, t) ∈ ps) (ht : Takes l t) :
    Compiler.Leftmost (PatternAt t off bufs.flatten) 0 (Vm.hitsOf l σ.log) := by
  obtain ⟨c1, -, -, c4⟩ := add_all combined_init hps (fun p _ v => by simp [Graph.init]) hadd
  obtain ⟨c5, c6⟩ := c4 (l, t) hp
  have hlive := labelled_live c1 hn hlab
  have hG := label_guards c1.toTidy hlab
  have hlm := Compiler.hits_leftmost_partial hlive hG hz hc hnew hrun l
  refine leftmost_mono ?_ ?_ _ _ hlm
  · rintro s e ⟨a, b, c, d⟩
    exact ⟨a, b, c, c5 _ ((label_language c1.toTidy hlab l _).1 d)⟩
  · rintro s e ⟨a, b, c, d⟩
    obtain ⟨w', h1, h2⟩ := c6 ht _ d
    have hne := h2.ne_nil
    have hpos : 0 < w'.length := List.length_pos_iff.2 hne
    have hle := h1.length_le
    have hw : w' = ((bufs.flatten).drop (s - off)).take w'.length := by
      have := List.prefix_iff_eq_take.1 h1
      rw [List.take_take] at this
      rw [List.length_take] at hle
      rwa [Nat.min_eq_left (by omega)] at this
    rw [List.length_take, List.length_drop] at hle
    refine ⟨s + w'.length, a, by omega, by omega, ?_⟩
    rw [show s + w'.length - s = w'.length by omega, ← hw]
    exact (label_language c1.toTidy hlab l w').2 h2

/-- Adding and labelling end. -/
theorem adding_ends {ps : List (Nat × Tree Leaf)} (hps : Patterns ps) :
    ∃ g g' F, ∀ fuel ≥ F, addAll fuel Graph.init (calls ps) = some g ∧ labelGuardStates fuel g = some g' := by
  have hu0 : ∀ p ∈ ps, Unused Graph.init p.1 := fun p _ v => by simp [Graph.init]
  obtain ⟨g, F1, h1⟩ := addAll_ends combined_init hps hu0
  obtain ⟨c1, -⟩ := add_all combined_init hps hu0 (h1 F1 (Nat.le_refl _))
  obtain ⟨g', F2, h2⟩ := label_ends c1.toTidy
  exact ⟨g, g', max F1 F2, fun fuel hf => ⟨h1 fuel (by omega), h2 fuel (by omega)⟩⟩

/-- Whenever a pattern is accepted and matches something, there are states beside the
initial one; with fewer than 2^24 states and labels below 2^24 the program is made, and
searches of any stream end. -/
theorem search_ends {ps : List (Nat × Tree Leaf)} (hps : Patterns ps) {l : Nat} {t : Tree Leaf} (hp : (l, t) ∈ ps)
    (ht : Takes l t) {w : List UInt8} (hw : w ∈ lang leafSem t) {f1 f2 : Nat} {g g' : Graph}
    (hadd : addAll f1 Graph.init (calls ps) = some g) (hlab : labelGuardStates f2 g = some g') :
    2 ≤ g.n ∧ (g.n < 16777216 → (∀ p ∈ ps, p.1 < 16777216) → ∃ F, ∀ fuel ≥ F, ∃ P,
      Compiler.createProgram fuel g' = some (.ok P) ∧ ∀ fuel ≥ 2 * g.n + 9, ∀ off bufs, ∃ first σ₀ rs σ,
        Vm.create P fuel = .ok (first, σ₀) ∧ Vm.run P first fuel (Vm.searches off bufs) σ₀ = .ok (rs, σ)) := by
  have hu0 : ∀ p ∈ ps, Unused Graph.init p.1 := fun p _ v => by simp [Graph.init]
  obtain ⟨c1, c2, -, c4⟩ := add_all combined_init hps hu0 hadd
  obtain ⟨w', -, hacc⟩ := (c4 (l, t) hp).2 ht w hw
  obtain ⟨u, hu, m, hpath, hmatch, -⟩ := hacc
  have hn : 2 ≤ g.n := by have := c1.range 0 u hu; omega
  have hlive := labelled_live c1 hn hlab
  obtain ⟨s1, s2⟩ := label_shape hlab
  refine ⟨hn, fun hsmall hlabels => ?_⟩
  obtain ⟨code, hcode, -⟩ := Compiler.layout_consistent_partial hlive.toWF (Compiler.encodes_of_small hlive.toWF
    (by rw [s1]; exact hsmall) (by
      intro v hv k hk
      rw [s1] at hv
      obtain ⟨m, hm⟩ := label_source c1.toTidy hlab hv hk
      by_contra hbig
      refine c2 k (fun v => by simp [Graph.init]) ?_ m hm
      intro hmem
      obtain ⟨p, hp1, hp2⟩ := List.mem_map.1 hmem
      have := hlabels p hp1
      omega))
  have hpath' : Path g' u w' m := by
    clear hmatch hu
    induction hpath with
    | one hb => exact .one (by rw [(s2 _).2.2.1]; exact hb)
    | cons hb hx _ ih => exact .cons (by rw [(s2 _).2.2.1]; exact hb) (by rw [(s2 _).1]; exact hx) ih
  obtain ⟨F3, h3⟩ := BestPair.filter_found g' hlive.pos (fun v hv u hu => (hlive.edges v hv u hu).2) hlive.rootMatch w'
    ⟨u, by rw [(s2 0).1]; exact hu, m, hpath', by rw [(s2 m).2.2.2]; exact hmatch⟩
  refine ⟨F3, fun fuel hf => ?_⟩
  obtain ⟨r, hr⟩ := h3 fuel hf
  have hP : ∃ P, Compiler.createProgram fuel g' = some (.ok P) := by
    unfold Compiler.createProgram
    rw [hr, hcode]
    exact ⟨_, rfl⟩
  obtain ⟨P, hP⟩ := hP
  exact ⟨P, hP, fun fuel hf off bufs => Compiler.searches_end hlive (label_guards c1.toTidy hlab) hP (by rw [s1]; exact hf) off bufs⟩

/-! ## Examples -/

/-- The patterns `ab+` and `a[cd]?e`, and `x?`, which is refused. -/
def sample : List (Nat × Tree Leaf) :=
  [(0, .cat (.leaf (.lit [97])) (.rep false 1 UNB (.leaf (.lit [98])))),
   (1, .cat (.leaf (.lit [97])) (.cat (.rep false 0 1 (.leaf (.cls [[BSet.single 99 ||| BSet.single 100]] 0 true)))
      (.leaf (.lit [101])))),
   (2, .rep false 0 1 (.leaf (.lit [120])))]

theorem sample_patterns : Patterns sample := by
  refine ⟨by decide, ?_⟩
  intro p hp
  simp only [sample, List.mem_cons, List.not_mem_nil, or_false] at hp
  rcases hp with e | e | e <;> subst e <;>
    exact ⟨by simp [Ok, UNB], by simp [NoLook], by simp [NoDead], by simp [LeavesOk, AllLeaves, LeafOk, BSet.single]⟩

theorem sample_takes : Takes 1 (.cat (.leaf (.lit [97])) (.cat
    (.rep false 0 1 (.leaf (.cls [[BSet.single 99 ||| BSet.single 100]] 0 true))) (.leaf (.lit [101])))) := by
  refine ⟨?_, ?_⟩
  · intro h
    have : (match build 1 (some (.cat (.leaf (.lit [97])) (.cat (.rep false 0 1
      (.leaf (.cls [[BSet.single 99 ||| BSet.single 100]] 0 true))) (.leaf (.lit [101]))))) with
        | .threw => false | _ => true) = true := by decide +kernel
    rw [h] at this
    cases this
  · rintro ⟨x, hx, y, -, hxy⟩
    have hx : x = [97] := hx
    subst hx
    cases hxy

/-- The steps on the sample are within a few rounds, and no jump table is made. -/
theorem sample_runs : ∃ g g', addAll 40 Graph.init (calls sample) = some g ∧ labelGuardStates 40 g = some g' ∧
    g.n = 5 ∧ Compiler.NoZero g' := by
  have h : (match (addAll 40 Graph.init (calls sample)).bind (fun g => (labelGuardStates 40 g).map (fun g' => (g, g'))) with
      | some (g, g') => g.n == 5 && g'.n == 5 && (List.range 5).all fun v => decide ((g'.v v).out.length ≤ 3)
      | none => false) = true := by decide +kernel
  cases h1 : addAll 40 Graph.init (calls sample) with
  | none => rw [h1] at h; cases h
  | some g =>
    cases h2 : labelGuardStates 40 g with
    | none => rw [h1, Option.bind_some, h2] at h; cases h
    | some g' =>
      rw [h1, Option.bind_some, h2, Option.map_some] at h
      simp only [Bool.and_eq_true, beq_iff_eq, List.all_eq_true, List.mem_range, decide_eq_true_eq] at h
      obtain ⟨⟨h3, h4⟩, h5⟩ := h
      refine ⟨g, g', rfl, h2, h3, ?_⟩
      intro u _ v hv ht
      have := h5 v (by omega)
      simp only [Compiler.isTable, Bool.and_eq_true, decide_eq_true_eq] at ht
      omega

/-- In "xacexabbae", searched in three pieces, the hits of the second keyword are the
leftmost matches of `a[cd]?e`. -/
example : ∃ g g' P first σ₀ rs σ, addAll 40 Graph.init (calls sample) = some g ∧ labelGuardStates 40 g = some g' ∧
    (∃ F, Compiler.createProgram F g' = some (.ok P)) ∧ Vm.create P 19 = .ok (first, σ₀) ∧
    Vm.run P first 19 (Vm.searches 0 [[120, 97], [99, 101, 120], [97, 98, 98, 97, 101]]) σ₀ = .ok (rs, σ) ∧
    Compiler.Leftmost (PatternAt (.cat (.leaf (.lit [97])) (.cat
      (.rep false 0 1 (.leaf (.cls [[BSet.single 99 ||| BSet.single 100]] 0 true))) (.leaf (.lit [101]))))
      0 [120, 97, 99, 101, 120, 97, 98, 98, 97, 101]) 0 (Vm.hitsOf 1 σ.log) := by
  obtain ⟨g, g', h1, h2, h3, h4⟩ := sample_runs
  obtain ⟨hn, hs⟩ := search_ends sample_patterns (l := 1) (by simp [sample]) sample_takes
    (w := [97, 101]) ⟨[97], rfl, [101], ⟨[], ⟨0, Nat.le_refl _, .inr (by decide), rfl⟩, [101], rfl, rfl⟩, rfl⟩ h1 h2
  obtain ⟨F, hF⟩ := hs (by omega) (by simp [sample])
  obtain ⟨P, hP, hrun⟩ := hF F (Nat.le_refl _)
  obtain ⟨first, σ₀, rs, σ, r1, r2⟩ := hrun 19 (by omega) 0 [[120, 97], [99, 101, 120], [97, 98, 98, 97, 101]]
  exact ⟨g, g', P, first, σ₀, rs, σ, h1, h2, ⟨F, hP⟩, r1, r2,
    pattern_hits_partial sample_patterns h1 hn h2 hP h4 r1 r2 (by simp [sample]) sample_takes⟩

end Verif.Fsm
