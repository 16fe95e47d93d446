import Verif.Props.Clear
/-!
# Alternations of words stay in order

A second condition on patterns for `Stays`: nothing follows a choice, so that the automaton is a tree.
-/
namespace Verif.NfaBuilder
open Verif.Nfa Verif.Regex Verif.Optimizer

/-! ## Specification -/

/-- A leaf whose automaton is one line. -/
def OneLine : Leaf → Prop
  | .lit _ => True
  | .cls encs brk additive => ∃ s, breakout encs brk additive = some [[s]]

/-- A sequence without choices of what to read next: a word. -/
def Word : Tree Leaf → Prop
  | .leaf a => OneLine a
  | .cat l r => Word l ∧ Word r
  | .rep _ m M t => m = M ∧ Word t
  | _ => False

/-- Words, alternatives, and alternatives after words. -/
def Words : Tree Leaf → Prop
  | .leaf a => OneLine a
  | .cat l r => Word l ∧ Words r
  | .alt l r => Words l ∧ Words r
  | .rep _ m M t => m = M ∧ Word t
  | .look _ _ => False

/-! ## Proofs -/

theorem Word.words : ∀ {t : Tree Leaf}, Word t → Words t
  | .leaf _, h => h
  | .cat _ _, h => ⟨h.1, h.2.words⟩
  | .rep _ _ _ _, h => h
  | .alt _ _, h => h.elim
  | .look _ _, h => h.elim

theorem copies_word {t s : Tree Leaf} (ht : Word t) (hs : Word s) : ∀ k, Word (copies t s k)
  | 0 => hs
  | k + 1 => ⟨ht, copies_word ht hs k⟩

theorem expandRep_word {ng : Bool} {m M : Nat} {t : Tree Leaf} (e : m = M) (ht : Word t) : Word (expandRep ng m M t) := by
  subst e
  have hU : UNB = 4294967295 := rfl
  unfold expandRep
  rw [if_neg (by omega), if_pos rfl]
  exact copies_word ht ht _

theorem expand_word : ∀ t : Tree Leaf, Word t → Word (expand t)
  | .leaf _, h => h
  | .cat l r, h => ⟨expand_word l h.1, expand_word r h.2⟩
  | .rep _ _ _ t, h => expandRep_word h.1 (expand_word t h.2)
  | .alt _ _, h => h.elim
  | .look _ _, h => h.elim

theorem expand_words : ∀ t : Tree Leaf, Words t → Words (expand t)
  | .leaf _, h => h
  | .cat l r, h => ⟨expand_word l h.1, expand_words r h.2⟩
  | .alt l r, h => ⟨expand_words l h.1, expand_words r h.2⟩
  | .rep _ _ _ t, h => (expandRep_word h.1 (expand_word t h.2)).words
  | .look _ _, h => h.elim

/-- A fragment that is a tree. -/
structure Branches (g0 g : Graph) (f : Frag) : Prop where
  skip : f.skip = none
  ins : f.ins.Nodup
  free : ∀ i ∈ f.ins, ∀ a, g0.n ≤ a → a < g.n → i ∉ (g.v a).out
  nodup : ∀ a, g0.n ≤ a → a < g.n → (g.v a).out.Nodup
  one : ∀ a b u, g0.n ≤ a → a < g.n → g0.n ≤ b → b < g.n → u ∈ (g.v a).out → u ∈ (g.v b).out → a = b
  up : ∀ a, g0.n ≤ a → a < g.n → ∀ u ∈ (g.v a).out, a < u

theorem litLoop_next (bs : List UInt8) : ∀ (g : Graph) (prev : Nat), prev < g.n → (g.v prev).out = [] →
    ∀ a, a = prev ∨ g.n ≤ a ∧ a < (litLoop g prev bs).1.n →
      ((litLoop g prev bs).1.v a).out = [] ∨ ((litLoop g prev bs).1.v a).out = [if a = prev then g.n else a + 1] := by
  induction bs with
  | nil =>
    rintro g prev hp ho a (rfl | ⟨h1, h2⟩)
    · exact .inl ho
    · simp only [litLoop] at h2; omega
  | cons c cs ih =>
    intro g prev hp ho a ha
    have e : litLoop g prev (c :: cs) = litLoop ((g.addVertex (.single c)).addEdge prev g.n) g.n cs := rfl
    rw [e] at ha ⊢
    obtain ⟨g1, hg1⟩ : ∃ g1, g1 = (g.addVertex (.single c)).addEdge prev g.n := ⟨_, rfl⟩
    rw [← hg1] at ha ⊢
    have hn1 : g1.n = g.n + 1 := by rw [hg1]; rfl
    have hnp : ¬ prev = g.n := by omega
    have hout0 : (g1.v g.n).out = [] := by
      rw [hg1]; simp [Graph.addEdge, Graph.modify, Graph.addVertex, Ne.symm hnp]
    have houtp : (g1.v prev).out = [g.n] := by
      rw [hg1]; simp [Graph.addEdge, Graph.modify, Graph.addVertex, hnp, ho]
    obtain ⟨-, i2, -⟩ := litLoop_spec cs g1 g.n (by omega) hout0
    by_cases hap : a = prev
    · subst hap
      right
      rw [i2 a (by omega) (by omega), houtp, if_pos rfl]
    · rw [if_neg hap]
      have := ih g1 g.n (by omega) hout0 a (by omega)
      by_cases han : a = g.n
      · rw [if_pos han, hn1] at this
        rw [han] at this ⊢
        exact this
      · rwa [if_neg han] at this

theorem literal_branches {g0 : Graph} {bs : List UInt8} {r : Graph × Frag} (h : literal g0 bs = some r) :
    Branches g0 r.1 r.2 ∧ r.2.outs.length = 1 := by
  cases bs with
  | nil => simp [literal] at h
  | cons b bs =>
    simp only [literal, Option.some.injEq] at h
    subst h
    have key := litLoop_next bs (g0.addVertex (.single b)) g0.n (by simp [Graph.addVertex]) (by simp [Graph.addVertex])
    have hn : (g0.addVertex (.single b)).n = g0.n + 1 := rfl
    have key : ∀ a, g0.n ≤ a → a < (litLoop (g0.addVertex (.single b)) g0.n bs).1.n →
        ((litLoop (g0.addVertex (.single b)) g0.n bs).1.v a).out = [] ∨
        ((litLoop (g0.addVertex (.single b)) g0.n bs).1.v a).out = [a + 1] := by
      intro a h1 h2
      have := key a (by omega)
      rw [hn] at this
      by_cases e : a = g0.n
      · rw [if_pos e] at this; rw [e] at this ⊢; exact this
      · rwa [if_neg e] at this
    refine ⟨⟨rfl, by simp, ?_, ?_, ?_, ?_⟩, rfl⟩
    · intro i hi a h1 h2 hm
      simp only [List.mem_singleton] at hi
      rcases key a h1 h2 with e | e <;> rw [e] at hm
      · cases hm
      · simp only [List.mem_singleton] at hm; omega
    · intro a h1 h2
      rcases key a h1 h2 with e | e <;> dsimp only <;> rw [e] <;> simp
    · intro a c u h1 h2 h3 h4 hu hu'
      rcases key a h1 h2 with e | e <;> rw [e] at hu
      · cases hu
      · rcases key c h3 h4 with e' | e' <;> rw [e'] at hu'
        · cases hu'
        · simp only [List.mem_singleton] at hu hu'; omega
    · intro a h1 h2 u hu
      rcases key a h1 h2 with e | e <;> rw [e] at hu
      · cases hu
      · simp only [List.mem_singleton] at hu; omega

theorem charClass_branches {g0 : Graph} {encs : List (List BSet)} {brk : BSet} {additive : Bool} {s : BSet}
    (hs : breakout encs brk additive = some [[s]]) {r : Graph × Frag} (h : charClass g0 encs brk additive = some r) :
    Branches g0 r.1 r.2 ∧ r.2.outs.length = 1 := by
  simp only [charClass, hs, Option.bind_eq_bind, Option.bind_some, Option.some.injEq] at h
  subst h
  have e : List.foldl encStep (g0, { ins := [], outs := [], skip := none }) [[s]] =
      (g0.addVertex s, { ins := [g0.n], outs := [(g0.n, 0)], skip := none }) := rfl
  rw [e]
  have key : ∀ a, g0.n ≤ a → a < (g0.addVertex s).n → ((g0.addVertex s).v a).out = [] := by
    intro a h1 h2
    have hn : (g0.addVertex s).n = g0.n + 1 := rfl
    have : a = g0.n := by omega
    subst this
    simp [Graph.addVertex]
  refine ⟨⟨rfl, by simp, ?_, ?_, ?_, ?_⟩, rfl⟩
  · intro i _ a h1 h2; dsimp only; rw [key a h1 h2]; simp
  · intro a h1 h2; dsimp only; rw [key a h1 h2]; simp
  · intro a c u h1 h2 _ _ hu; dsimp only at hu; rw [key a h1 h2] at hu; cases hu
  · intro a h1 h2 u hu; dsimp only at hu; rw [key a h1 h2] at hu; cases hu

theorem concatenate_branches {g0 g1 g2 : Graph} {f s : Frag} {A B : Language UInt8} (k1 : Good g0 g1 f A) (k2 : Good g1 g2 s B)
    (h1 : Branches g0 g1 f) (hl : f.outs.length = 1) (h2 : Branches g1 g2 s) :
    Branches g0 (concatenate g2 f s).1 (concatenate g2 f s).2 ∧ (concatenate g2 f s).2.outs = s.outs := by
  obtain ⟨⟨o, q⟩, ho⟩ : ∃ p, f.outs = [p] := List.length_eq_one_iff.1 hl
  obtain ⟨p1, -⟩ := patchMid_added s.ins s.skip f.outs g2
  have p3 := fun a => patchMid_adds s.ins s.skip f.outs g2 a (by rw [ho]; simp)
  have old := k2.old
  have le := k2.le
  have le1 := k1.le
  have hoN := k1.outs o (by rw [ho]; simp)
  simp only [ho, List.map_cons, List.map_nil, List.mem_singleton] at p3
  -- edges within the parts
  have e1 : ∀ a, g0.n ≤ a → a < g1.n → ∀ u ∈ (g2.v a).out, u ∈ (g1.v a).out ∧ g0.n ≤ u ∧ u < g1.n := by
    intro a ha ha' u hu
    rw [old a ha'] at hu
    exact ⟨hu, k1.edges a ha ha' u hu⟩
  have e2 : ∀ a, g1.n ≤ a → a < g2.n → ∀ u ∈ (g2.v a).out, g1.n ≤ u ∧ u < g2.n := fun a h h' u hu => k2.edges a h h' u hu
  -- all edges
  have hout : ∀ a u, u ∈ ((patchMid g2 s.ins s.skip f.outs).1.v a).out ↔ u ∈ (g2.v a).out ∨ a = o ∧ u ∈ s.ins := by
    intro a u
    rw [p1.out, ho]
    simp
  have hn : (concatenate g2 f s).1.n = g2.n := p1.n
  have hg : (concatenate g2 f s).1 = (patchMid g2 s.ins s.skip f.outs).1 := rfl
  have hf : (concatenate g2 f s).2 = { ins := f.ins, outs := s.outs, skip := none } := by
    unfold concatenate; rw [h1.skip, h2.skip]
  rw [hf]
  refine ⟨⟨rfl, h1.ins, ?_, ?_, ?_, ?_⟩, rfl⟩
  · intro i hi a ha ha' hm
    rw [hg, hout] at hm
    rw [hn] at ha'
    have hiN := k1.ins i hi
    rcases hm with hm | ⟨-, hm⟩
    · by_cases h : a < g1.n
      · exact h1.free i hi a ha h (e1 a ha h i hm).1
      · have := e2 a (by omega) ha' i hm
        omega
    · have := k2.ins i hm
      omega
  · intro a ha ha'
    rw [hn] at ha'
    rw [hg]
    refine ((ho ▸ p3 a).nodup_iff).2 ?_
    have base : (g2.v a).out.Nodup := by
      by_cases h : a < g1.n
      · rw [old a h]; exact h1.nodup a ha h
      · exact h2.nodup a (by omega) ha'
    split
    · next hao =>
      subst hao
      refine List.nodup_append.2 ⟨base, h2.ins, ?_⟩
      intro x hx y hy hxy
      have := e1 a ha hoN.2 x hx
      have := k2.ins y hy
      omega
    · rwa [List.append_nil]
  · intro a b u ha ha' hb hb' hu hu'
    rw [hn] at ha' hb'
    rw [hg, hout] at hu hu'
    have cross : ∀ {a b : Nat}, g0.n ≤ a → a < g2.n → g0.n ≤ b → b < g2.n → u ∈ (g2.v a).out → b = o ∧ u ∈ s.ins → a = b := by
      intro a b ha ha' hb hb' hu hu'
      have hi := k2.ins u hu'.2
      by_cases h : a < g1.n
      · have := e1 a ha h u hu
        omega
      · exact absurd hu (h2.free u hu'.2 a (by omega) ha')
    rcases hu with hu | hu <;> rcases hu' with hu' | hu'
    · by_cases h : a < g1.n
      · by_cases h' : b < g1.n
        · exact h1.one a b u ha h hb h' (e1 a ha h u hu).1 (e1 b hb h' u hu').1
        · have := e1 a ha h u hu
          have := e2 b (by omega) hb' u hu'
          omega
      · by_cases h' : b < g1.n
        · have := e1 b hb h' u hu'
          have := e2 a (by omega) ha' u hu
          omega
        · exact h2.one a b u (by omega) ha' (by omega) hb' hu hu'
    · exact cross ha ha' hb hb' hu hu'
    · exact (cross hb hb' ha ha' hu' hu).symm
    · rw [hu.1, hu'.1]
  · intro a ha ha' u hu
    rw [hn] at ha'
    rw [hg, hout] at hu
    rcases hu with hu | ⟨rfl, hu⟩
    · by_cases h : a < g1.n
      · exact h1.up a ha h u (e1 a ha h u hu).1
      · exact h2.up a (by omega) ha' u hu
    · have := k2.ins u hu
      omega

theorem alternate_branches {g0 g1 g2 : Graph} {f s : Frag} {A B : Language UInt8} (k1 : Good g0 g1 f A) (k2 : Good g1 g2 s B)
    (h1 : Branches g0 g1 f) (h2 : Branches g1 g2 s) : Branches g0 g2 (alternate f s) := by
  have old := k2.old
  have le := k2.le
  have le1 := k1.le
  have e1 : ∀ a, g0.n ≤ a → a < g1.n → ∀ u ∈ (g2.v a).out, u ∈ (g1.v a).out ∧ g0.n ≤ u ∧ u < g1.n := by
    intro a ha ha' u hu
    rw [old a ha'] at hu
    exact ⟨hu, k1.edges a ha ha' u hu⟩
  have e2 : ∀ a, g1.n ≤ a → a < g2.n → ∀ u ∈ (g2.v a).out, g1.n ≤ u ∧ u < g2.n := fun a h h' u hu => k2.edges a h h' u hu
  refine ⟨?_, ?_, ?_, ?_, ?_, ?_⟩
  · unfold alternate; rw [h1.skip, h2.skip]
  · refine List.nodup_append.2 ⟨h1.ins, h2.ins, ?_⟩
    intro a ha b hb hab
    have := k1.ins a ha
    have := k2.ins b hb
    omega
  · intro i hi a ha ha' hm
    rcases List.mem_append.1 hi with hi | hi
    · have hiN := k1.ins i hi
      by_cases h : a < g1.n
      · exact h1.free i hi a ha h (e1 a ha h i hm).1
      · have := e2 a (by omega) ha' i hm
        omega
    · have hiN := k2.ins i hi
      by_cases h : a < g1.n
      · have := e1 a ha h i hm
        omega
      · exact h2.free i hi a (by omega) ha' hm
  · intro a ha ha'
    by_cases h : a < g1.n
    · rw [old a h]; exact h1.nodup a ha h
    · exact h2.nodup a (by omega) ha'
  · intro a b u ha ha' hb hb' hu hu'
    by_cases h : a < g1.n
    · by_cases h' : b < g1.n
      · exact h1.one a b u ha h hb h' (e1 a ha h u hu).1 (e1 b hb h' u hu').1
      · have := e1 a ha h u hu
        have := e2 b (by omega) hb' u hu'
        omega
    · by_cases h' : b < g1.n
      · have := e1 b hb h' u hu'
        have := e2 a (by omega) ha' u hu
        omega
      · exact h2.one a b u (by omega) ha' (by omega) hb' hu hu'
  · intro a ha ha' u hu
    by_cases h : a < g1.n
    · exact h1.up a ha h u (e1 a ha h u hu).1
    · exact h2.up a (by omega) ha' u hu

theorem leaf_branches {a : Leaf} {g0 : Graph} {r : Graph × Frag} (hw : OneLine a) (h : fragment g0 (.leaf a) = some r) :
    Branches g0 r.1 r.2 ∧ r.2.outs.length = 1 := by
  cases a with
  | lit bs => exact literal_branches h
  | cls encs brk additive =>
    obtain ⟨s, hs⟩ := hw
    exact charClass_branches hs h

theorem fragment_word (t : Tree Leaf) : ∀ (g0 : Graph) (r : Graph × Frag), Named t → LeavesOk t → Word t →
    fragment g0 t = some r → Branches g0 r.1 r.2 ∧ r.2.outs.length = 1 := by
  induction t with
  | leaf a => exact fun g0 r _ _ hw h => leaf_branches hw h
  | look k t => exact fun g0 r hn => hn.elim
  | alt l r => exact fun g0 q _ _ hw => hw.elim
  | rep ng m M t =>
    intro g0 q hn _ hw
    have hU : UNB = 4294967295 := rfl
    obtain ⟨rfl, -⟩ := hw
    have := hn.1
    omega
  | cat l r ihl ihr =>
    intro g0 q hn hl hw h
    simp only [fragment, Option.bind_eq_bind, Option.bind_eq_some_iff, Option.some.injEq] at h
    obtain ⟨a, ha, b, hb, rfl⟩ := h
    obtain ⟨a1, a2⟩ := ihl g0 a hn.1 hl.1 hw.1 ha
    obtain ⟨b1, b2⟩ := ihr a.1 b hn.2 hl.2 hw.2 hb
    obtain ⟨c1, c2⟩ := concatenate_branches (fragment_good l g0 a hn.1 hl.1 ha) (fragment_good r a.1 b hn.2 hl.2 hb) a1 a2 b1
    exact ⟨c1, by rw [c2]; exact b2⟩

theorem fragment_words (t : Tree Leaf) : ∀ (g0 : Graph) (r : Graph × Frag), Named t → LeavesOk t → Words t →
    fragment g0 t = some r → Branches g0 r.1 r.2 := by
  induction t with
  | leaf a => exact fun g0 r _ _ hw h => (leaf_branches hw h).1
  | look k t => exact fun g0 r hn => hn.elim
  | alt l r ihl ihr =>
    intro g0 q hn hl hw h
    simp only [fragment, Option.bind_eq_bind, Option.bind_eq_some_iff, Option.some.injEq] at h
    obtain ⟨a, ha, b, hb, rfl⟩ := h
    exact alternate_branches (fragment_good l g0 a hn.1 hl.1 ha) (fragment_good r a.1 b hn.2 hl.2 hb)
      (ihl g0 a hn.1 hl.1 hw.1 ha) (ihr a.1 b hn.2 hl.2 hw.2 hb)
  | rep ng m M t => exact fun g0 q hn hl hw h => (fragment_word _ g0 q hn hl hw h).1
  | cat l r ihl ihr =>
    intro g0 q hn hl hw h
    simp only [fragment, Option.bind_eq_bind, Option.bind_eq_some_iff, Option.some.injEq] at h
    obtain ⟨a, ha, b, hb, rfl⟩ := h
    obtain ⟨a1, a2⟩ := fragment_word l g0 a hn.1 hl.1 hw.1 ha
    exact (concatenate_branches (fragment_good l g0 a hn.1 hl.1 ha) (fragment_good r a.1 b hn.2 hl.2 hb) a1 a2
      (ihr a.1 b hn.2 hl.2 hw.2 hb)).1

/-- The automaton of words is a tree. -/
theorem build_words {label : Nat} {t : Tree Leaf} (hn : NoLook t) (hl : LeavesOk t) (hw : Words t)
    {p : Graph} (h : build label (some t) = .good p) : (∀ a < p.n, (p.v a).out.Nodup) ∧
    (∀ a b u, a < p.n → b < p.n → u ∈ (p.v a).out → u ∈ (p.v b).out → a = b) ∧ ∀ a < p.n, ∀ u ∈ (p.v a).out, a < u := by
  unfold build at h
  dsimp only at h
  cases hf : fragment Graph.init (expand t) with
  | none => rw [hf] at h; cases h
  | some r =>
    rw [hf] at h
    dsimp only at h
    have hg := fragment_good _ _ _ (expand_named t hn) (expand_leavesOk t hl) hf
    have hb := fragment_words _ _ _ (expand_named t hn) (expand_leavesOk t hl) (expand_words t hw) hf
    have hin : Graph.init.n = 1 := rfl
    have hv0 : r.1.v 0 = {} := by rw [hg.old 0 (by rw [hin]; omega)]; rfl
    unfold finish at h
    obtain ⟨p1, -⟩ := patchMid_added r.2.ins r.2.skip [(0, 0)] r.1
    have p3 := fun a => patchMid_adds r.2.ins r.2.skip [(0, 0)] r.1 a (by simp)
    simp only [List.map_cons, List.map_nil, List.mem_singleton] at p3
    dsimp only at h
    split at h
    · cases h
    · cases h
      have hc1 : (concatenate r.1 { ins := [0], outs := [(0, 0)], skip := none } r.2).1 =
          (patchMid r.1 r.2.ins r.2.skip [(0, 0)]).1 := rfl
      obtain ⟨m1, m2, -⟩ := mark_spec label (concatenate r.1 { ins := [0], outs := [(0, 0)], skip := none } r.2).2.outs
        (concatenate r.1 { ins := [0], outs := [(0, 0)], skip := none } r.2).1
      have hN : ((concatenate r.1 { ins := [0], outs := [(0, 0)], skip := none } r.2).1.n) = r.1.n := by rw [hc1, p1.n]
      simp only [(m2 _).2, m1, hN]
      simp only [hc1]
      have hz : ∀ u, u ∈ ((patchMid r.1 r.2.ins r.2.skip [(0, 0)]).1.v 0).out ↔ u ∈ r.2.ins := by
        intro u
        rw [p1.out, hv0]; simp
      have hs : ∀ a, a ≠ 0 → ((patchMid r.1 r.2.ins r.2.skip [(0, 0)]).1.v a).out.Perm (r.1.v a).out := by
        intro a ha
        have := p3 a
        rwa [if_neg ha, List.append_nil] at this
      have hcross : ∀ u b, b ≠ 0 → b < r.1.n → u ∈ r.2.ins → u ∉ ((patchMid r.1 r.2.ins r.2.skip [(0, 0)]).1.v b).out := by
        intro u b hb0 hbn hu hm
        exact hb.free u hu b (by omega) hbn ((hs b hb0).mem_iff.1 hm)
      refine ⟨?_, ?_, ?_⟩
      · intro a ha
        by_cases h0 : a = 0
        · subst h0
          refine ((p3 0).nodup_iff).2 ?_
          rw [hv0]
          simpa using hb.ins
        · exact ((hs a h0).nodup_iff).2 (hb.nodup a (by omega) ha)
      · intro a b u ha hb' hu hu'
        by_cases h0 : a = 0
        · by_cases h0' : b = 0
          · rw [h0, h0']
          · rw [h0, hz] at hu
            exact absurd hu' (hcross u b h0' hb' hu)
        · by_cases h0' : b = 0
          · rw [h0', hz] at hu'
            exact absurd hu (hcross u a h0 ha hu')
          · exact hb.one a b u (by omega) ha (by omega) hb' ((hs a h0).mem_iff.1 hu) ((hs b h0').mem_iff.1 hu')
      · intro a ha u hu
        by_cases h0 : a = 0
        · subst h0
          rw [hz] at hu
          have := hg.ins u hu
          omega
        · exact hb.up a (by omega) ha u ((hs a h0).mem_iff.1 hu)

end Verif.NfaBuilder

namespace Verif.Fsm
open Verif.Nfa Verif.Regex Verif.NfaBuilder Verif.Optimizer Verif.Label Verif.Subset

theorem leads_up {g : Graph} (h : ∀ a, ∀ u ∈ (g.v a).out, a < u) {a b : Nat} (hl : Leads g a b) : a ≤ b := by
  induction hl with
  | refl v => exact Nat.le_refl v
  | step h1 _ ih => have := h _ _ h1; omega

/-- **C74, C78** The automaton of words stays in order when it is merged with others. -/
theorem words_stays {t : Tree Leaf} (hn : NoLook t) (hl : LeavesOk t) (hw : Words t) (fuel l : Nat) : Stays fuel l t := by
  intro p p' h1 h2
  obtain ⟨w1, w2, w3⟩ := build_words hn hl hw h1
  have hp := build_pattern l t hn hl p h1
  have hpr := pruned_of_prune hp.bal h2
  have hsub : ∀ a, (p'.v a).out.Sublist (p.v a).out := by
    intro a
    rcases hpr.each a with e | e
    · rw [e]; exact keep_sub _ _ _
    · rw [e]
  have hr : ∀ a, ∀ u ∈ (p'.v a).out, a < p.n := fun a u hu => (hp.toFresh.range a u ((hsub a).subset hu)).1
  have hup : ∀ a, ∀ u ∈ (p'.v a).out, a < u := fun a u hu => w3 a (hr a u hu) u ((hsub a).subset hu)
  refine ⟨?_, ?_, ?_⟩
  · intro a
    refine (hsub a).nodup ?_
    by_cases han : a < p.n
    · exact w1 a han
    · have : (p.v a).out = [] := List.eq_nil_iff_forall_not_mem.2 fun u hu => han (hp.toFresh.range a u hu).1
      rw [this]; simp
  · intro a b u _ hne hu hu'
    exact hne (w2 a b u (hr a u hu) (hr b u hu') ((hsub a).subset hu) ((hsub b).subset hu'))
  · intro a b _ _ u _ c hc hm
    have := leads_up hup hc
    have := hup c u hm
    omega

end Verif.Fsm
