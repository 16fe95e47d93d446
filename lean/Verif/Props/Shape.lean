import Verif.Props.NfaBuilder
import Verif.Props.Merge
/-!
# The shape of the automaton built for a pattern

Every automaton the builder makes is one the optimizer and the compiler can handle: its
edge lists agree, its match states carry the pattern's label, every state accepts some
byte and none is a dead end.
-/
namespace Verif.NfaBuilder
open Verif.Nfa Verif.Regex Verif.Label Verif.Optimizer

/-- An automaton under construction. -/
structure Neat (g : Graph) : Prop where
  pos : 0 < g.n
  bal : Balanced g
  range : ∀ v, ∀ u ∈ (g.v v).out, v < g.n ∧ 0 < u ∧ u < g.n
  bytes : ∀ v, v ≠ 0 → v < g.n → (g.v v).bytes ≠ 0
  plain : ∀ v, (g.v v).isMatch = false ∧ (g.v v).label = none

theorem addVertex_v (g : Graph) (s : BSet) (j : Nat) : (g.addVertex s).v j = if j = g.n then { bytes := s } else g.v j := rfl

theorem Neat.nothing {g : Graph} (h : Neat g) : (g.v g.n).out = [] ∧ (g.v g.n).inn = [] := by
  constructor
  · rw [List.eq_nil_iff_forall_not_mem]
    intro x hx
    have := (h.range _ _ hx).1
    omega
  · rw [List.eq_nil_iff_forall_not_mem]
    intro x hx
    have := (h.range _ _ (h.bal.mem.2 hx)).2.2
    omega

theorem addVertex_out {g : Graph} (h : Neat g) (s : BSet) (j : Nat) : ((g.addVertex s).v j).out = (g.v j).out := by
  rw [addVertex_v]
  split
  · rename_i e; rw [e, h.nothing.1]
  · rfl

theorem addVertex_inn {g : Graph} (h : Neat g) (s : BSet) (j : Nat) : ((g.addVertex s).v j).inn = (g.v j).inn := by
  rw [addVertex_v]
  split
  · rename_i e; rw [e, h.nothing.2]
  · rfl

theorem addVertex_neat {g : Graph} (h : Neat g) {s : BSet} (hs : s ≠ 0) : Neat (g.addVertex s) := by
  have hn : (g.addVertex s).n = g.n + 1 := rfl
  refine ⟨by rw [hn]; omega, ?_, ?_, ?_, ?_⟩
  · intro a b; rw [addVertex_out h, addVertex_inn h]; exact h.bal a b
  · intro v u hu
    rw [addVertex_out h] at hu
    have := h.range v u hu
    rw [hn]; omega
  · intro v h0 hv
    rw [addVertex_v]
    split
    · exact hs
    · exact h.bytes v h0 (by rw [hn] at hv; omega)
  · intro v
    rw [addVertex_v]
    split
    · exact ⟨rfl, rfl⟩
    · exact h.plain v

theorem Neat.added {g g' : Graph} {S D : List Nat} (h : Neat g) (ha : Added g g' S D) (hb : Balanced g')
    (hS : ∀ a ∈ S, a < g.n) (hD : ∀ b ∈ D, 0 < b ∧ b < g.n) : Neat g' := by
  refine ⟨by rw [ha.n]; exact h.pos, hb, ?_, ?_, ?_⟩
  · intro v u hu
    rw [ha.n]
    rcases (ha.out v u).1 hu with h1 | ⟨h1, h2⟩
    · exact h.range v u h1
    · exact ⟨hS v h1, hD u h2⟩
  · intro v h0 hv; rw [ha.bytes]; exact h.bytes v h0 (by rw [ha.n] at hv; exact hv)
  · intro v; rw [ha.isMatch, ha.label]; exact h.plain v

theorem insertEdges_balanced (v : Nat) (us : List Nat) : ∀ (g : Graph) (pos : Nat), Balanced g →
    Balanced (insertEdges g v pos us) := by
  induction us with
  | nil => intro g pos h; exact h
  | cons u us ih => intro g pos h; exact ih _ _ (insertEdge_balanced h v u pos)

theorem patchMid_balanced (dst : List Nat) (skip : Option Nat) (os : List (Nat × Nat)) : ∀ g : Graph, Balanced g →
    Balanced (patchMid g dst skip os).1 := by
  induction os with
  | nil => intro g h; exact h
  | cons p os ih =>
    intro g h
    exact ih _ (insertEdges_balanced _ _ _ _ (insertEdges_balanced _ _ _ _ h))

theorem addEdge_eq (g : Graph) (h t : Nat) : g.addEdge h t = g.insertEdge h t (g.v h).out.length := by
  unfold Graph.addEdge Graph.insertEdge
  congr 1
  unfold Graph.modify
  congr 1
  funext j
  by_cases e : j = h
  · rw [if_pos e, if_pos e, e]
    simp [insertAt]
  · rw [if_neg e, if_neg e]

theorem addEdge_neat {g : Graph} (hg : Neat g) {h t : Nat} (hh : h < g.n) (ht0 : 0 < t) (ht : t < g.n) :
    Neat (g.addEdge h t) := by
  refine hg.added (addEdge_added g h t) ?_ (by simpa using hh) (by simpa using ⟨ht0, ht⟩)
  rw [addEdge_eq]
  exact insertEdge_balanced hg.bal _ _ _

theorem addVertex_mono {g : Graph} (h : Neat g) (s : BSet) : ∀ v u, u ∈ (g.v v).out → u ∈ ((g.addVertex s).v v).out := by
  intro v u hu; rw [addVertex_out h]; exact hu

theorem Added.mono {g g' : Graph} {S D : List Nat} (ha : Added g g' S D) : ∀ v u, u ∈ (g.v v).out → u ∈ (g'.v v).out :=
  fun v u hu => (ha.out v u).2 (.inl hu)

/-- A fragment, the states from `n0` on being its own. -/
structure Shape (n0 : Nat) (g : Graph) (f : Frag) : Prop where
  neat : Neat g
  root : (g.v 0).out = []
  le : n0 ≤ g.n
  some : f.ins ≠ []
  ins : ∀ i ∈ f.ins, 0 < i ∧ i < g.n
  outs : ∀ o ∈ f.outs.map (·.1), 0 < o ∧ o < g.n
  live : ∀ a, n0 ≤ a → a < g.n → ∃ o ∈ f.outs.map (·.1), Leads g a o
  begins : ∀ i ∈ f.ins, ∃ o ∈ f.outs.map (·.1), Leads g i o

/-- Edges were only added. -/
def Grown (g g' : Graph) : Prop := g.n ≤ g'.n ∧ ∀ v u, u ∈ (g.v v).out → u ∈ (g'.v v).out

theorem Grown.rfl' {g : Graph} : Grown g g := ⟨Nat.le_refl _, fun _ _ h => h⟩

theorem Grown.trans {a b c : Graph} (h : Grown a b) (h' : Grown b c) : Grown a c :=
  ⟨Nat.le_trans h.1 h'.1, fun v u hu => h'.2 v u (h.2 v u hu)⟩

theorem Grown.leads {g g' : Graph} (h : Grown g g') {a b : Nat} (hl : Leads g a b) : Leads g' a b := leads_mono h.2 hl

theorem Added.grown {g g' : Graph} {S D : List Nat} (ha : Added g g' S D) : Grown g g' := ⟨by rw [ha.n], ha.mono⟩

theorem addVertex_grown {g : Graph} (h : Neat g) (s : BSet) : Grown g (g.addVertex s) :=
  ⟨Nat.le_succ _, addVertex_mono h s⟩

theorem single_ne_zero (b : UInt8) : BSet.single b ≠ 0 := by
  intro h
  have := (has_single b b).2 rfl
  rw [h, has_zero] at this
  cases this

theorem root_added {g g' : Graph} {S D : List Nat} (ha : Added g g' S D) (hS : ∀ a ∈ S, a ≠ 0) (h : (g.v 0).out = []) :
    (g'.v 0).out = [] := by
  rw [List.eq_nil_iff_forall_not_mem]
  intro x hx
  rcases (ha.out 0 x).1 hx with h1 | ⟨h1, -⟩
  · rw [h] at h1; cases h1
  · exact hS 0 h1 rfl

theorem root_addVertex {g : Graph} (hg : Neat g) (s : BSet) (h : (g.v 0).out = []) : ((g.addVertex s).v 0).out = [] := by
  rw [addVertex_out hg]; exact h

/-! ## Literals -/

theorem litLoop_shape (bs : List UInt8) : ∀ (g : Graph) (prev : Nat), Neat g → (g.v 0).out = [] → 0 < prev → prev < g.n →
    Neat (litLoop g prev bs).1 ∧ ((litLoop g prev bs).1.v 0).out = [] ∧ Grown g (litLoop g prev bs).1 ∧
    0 < (litLoop g prev bs).2 ∧ (litLoop g prev bs).2 < (litLoop g prev bs).1.n ∧
    Leads (litLoop g prev bs).1 prev (litLoop g prev bs).2 ∧
    ∀ a, g.n ≤ a → a < (litLoop g prev bs).1.n → Leads (litLoop g prev bs).1 a (litLoop g prev bs).2 := by
  induction bs with
  | nil =>
    intro g prev hg hr h0 hp
    exact ⟨hg, hr, .rfl', h0, hp, .refl _, fun a h1 h2 => by simp only [litLoop] at h2; omega⟩
  | cons b bs ih =>
    intro g prev hg hr h0 hp
    have hn1 : (g.addVertex (.single b)).n = g.n + 1 := rfl
    have g1 := addVertex_neat hg (single_ne_zero b)
    have g2 := addEdge_neat g1 (h := prev) (t := g.n) (by rw [hn1]; omega) hg.pos (by rw [hn1]; omega)
    have ha := addEdge_added (g.addVertex (.single b)) prev g.n
    have hn2 : ((g.addVertex (.single b)).addEdge prev g.n).n = g.n + 1 := by rw [ha.n, hn1]
    have hr2 := root_added ha (by simp; omega) (root_addVertex hg _ hr)
    obtain ⟨i1, i2, i3, i4, i5, i6, i7⟩ := ih _ g.n g2 hr2 hg.pos (by rw [hn2]; omega)
    show Neat (litLoop ((g.addVertex (.single b)).addEdge prev g.n) g.n bs).1 ∧ _
    refine ⟨i1, i2, ((addVertex_grown hg _).trans ha.grown).trans i3, i4, i5, ?_, ?_⟩
    · exact .step (i3.2 _ _ ((ha.out _ _).2 (.inr ⟨by simp, by simp⟩))) i6
    · intro a h1 h2
      by_cases e : a = g.n
      · rw [e]; exact i6
      · exact i7 a (by rw [hn2]; omega) h2

theorem literal_shape {g : Graph} {bs : List UInt8} {r : Graph × Frag} (hg : Neat g) (hr : (g.v 0).out = [])
    (h : literal g bs = some r) : Shape g.n r.1 r.2 := by
  cases bs with
  | nil => cases h
  | cons b bs =>
    simp only [literal, Option.some.injEq] at h
    subst h
    have hn1 : (g.addVertex (.single b)).n = g.n + 1 := rfl
    obtain ⟨i1, i2, i3, i4, i5, i6, i7⟩ := litLoop_shape bs _ g.n (addVertex_neat hg (single_ne_zero b))
      (root_addVertex hg _ hr) hg.pos (by rw [hn1]; omega)
    have hle := i3.1
    have hpos := hg.pos
    rw [hn1] at hle
    refine ⟨i1, i2, ?_, by simp, ?_, ?_, ?_, ?_⟩
    · dsimp only; omega
    · intro i hi
      simp only [List.mem_singleton] at hi
      dsimp only; omega
    · intro o ho
      simp only [List.map_cons, List.map_nil, List.mem_singleton] at ho
      rw [ho]; exact ⟨i4, i5⟩
    · intro a h1 h2
      refine ⟨(litLoop (g.addVertex (.single b)) g.n bs).2, by simp, ?_⟩
      dsimp only at h2 ⊢
      by_cases e : a = g.n
      · rw [e]; exact i6
      · exact i7 a (by rw [hn1]; omega) h2
    · intro i hi
      simp only [List.mem_singleton] at hi
      refine ⟨(litLoop (g.addVertex (.single b)) g.n bs).2, by simp, ?_⟩
      rw [hi]; exact i6

/-! ## Classes -/

theorem walkBack_leads {g : Graph} (hg : Neat g) (hr : (g.v 0).out = []) : ∀ (ss : List BSet) (tail : Nat), 0 < tail → tail < g.n →
    0 < (walkBack g tail ss).1 ∧ (walkBack g tail ss).1 < g.n ∧ Leads g (walkBack g tail ss).1 tail ∧
    ∀ s ∈ (walkBack g tail ss).2, s ∈ ss := by
  intro ss
  induction ss with
  | nil => intro tail h0 h1; exact ⟨h0, h1, .refl _, by simp [walkBack]⟩
  | cons s ss ih =>
    intro tail h0 h1
    simp only [walkBack]
    cases hf : (g.v tail).inn.find? (fun h => (g.v h).bytes == s) with
    | none => exact ⟨h0, h1, .refl _, fun _ h => h⟩
    | some x =>
      have hx := hg.bal.mem.2 (List.mem_of_find?_eq_some hf)
      have hx0 : x ≠ 0 := by rintro rfl; rw [hr] at hx; cases hx
      obtain ⟨i1, i2, i3, i4⟩ := ih x (by omega) (hg.range _ _ hx).1
      exact ⟨i1, i2, i3.snoc hx, fun s' hs' => by simp [i4 s' hs']⟩

theorem buildFront_shape (ss : List BSet) : ∀ (g : Graph) (tail : Nat), Neat g → (g.v 0).out = [] → 0 < tail → tail < g.n →
    (∀ s ∈ ss, s ≠ 0) →
    Neat (buildFront g tail ss).1 ∧ ((buildFront g tail ss).1.v 0).out = [] ∧ Grown g (buildFront g tail ss).1 ∧
    0 < (buildFront g tail ss).2 ∧ (buildFront g tail ss).2 < (buildFront g tail ss).1.n ∧
    Leads (buildFront g tail ss).1 (buildFront g tail ss).2 tail ∧
    ∀ a, g.n ≤ a → a < (buildFront g tail ss).1.n → Leads (buildFront g tail ss).1 a tail := by
  induction ss with
  | nil =>
    intro g tail hg hr h0 hp _
    exact ⟨hg, hr, .rfl', h0, hp, .refl _, fun a h1 h2 => by simp only [buildFront] at h2; omega⟩
  | cons s ss ih =>
    intro g tail hg hr h0 hp hs
    have hn1 : (g.addVertex s).n = g.n + 1 := rfl
    have g1 := addVertex_neat hg (hs s (by simp))
    have g2 := addEdge_neat g1 (h := g.n) (t := tail) (by rw [hn1]; omega) h0 (by rw [hn1]; omega)
    have ha := addEdge_added (g.addVertex s) g.n tail
    have hn2 : ((g.addVertex s).addEdge g.n tail).n = g.n + 1 := by rw [ha.n, hn1]
    have hpos := hg.pos
    have hr2 := root_added ha (by simp; omega) (root_addVertex hg _ hr)
    obtain ⟨i1, i2, i3, i4, i5, i6, i7⟩ := ih _ g.n g2 hr2 hg.pos (by rw [hn2]; omega) (fun s' h => hs s' (by simp [h]))
    have he := i3.2 _ _ ((ha.out g.n tail).2 (.inr ⟨by simp, by simp⟩))
    show Neat (buildFront ((g.addVertex s).addEdge g.n tail) g.n ss).1 ∧ _
    refine ⟨i1, i2, ((addVertex_grown hg _).trans ha.grown).trans i3, i4, i5, i6.snoc he, ?_⟩
    · intro a h1 h2
      by_cases e : a = g.n
      · rw [e]; exact .step he (.refl _)
      · exact (i7 a (by rw [hn2]; omega) h2).snoc he

/-- A class under construction. -/
structure Part (n0 : Nat) (g : Graph) (f : Frag) : Prop where
  neat : Neat g
  root : (g.v 0).out = []
  le : n0 ≤ g.n
  ins : ∀ i ∈ f.ins, 0 < i ∧ i < g.n
  outs : ∀ o ∈ f.outs.map (·.1), 0 < o ∧ o < g.n
  live : ∀ a, n0 ≤ a → a < g.n → ∃ o ∈ f.outs.map (·.1), Leads g a o
  begins : ∀ i ∈ f.ins, ∃ o ∈ f.outs.map (·.1), Leads g i o

theorem encStep_part {n0 : Nat} {st : Graph × Frag} {enc : List BSet} (h : Part n0 st.1 st.2) (he : enc ≠ [])
    (hs : ∀ s ∈ enc, s ≠ 0) : Part n0 (encStep st enc).1 (encStep st enc).2 ∧ (encStep st enc).2.ins ≠ [] := by
  have hs' : ∀ s ∈ enc.reverse, s ≠ 0 := fun s hsr => hs s (List.mem_reverse.1 hsr)
  unfold encStep
  cases hrev : enc.reverse with
  | nil => exact absurd (List.reverse_eq_nil_iff.1 hrev) he
  | cons s ss =>
    rw [hrev] at hs'
    dsimp only
    cases hf : st.2.outs.find? (fun p => (st.1.v p.1).bytes == s) with
    | some p =>
      dsimp only
      have hp : p.1 ∈ st.2.outs.map (·.1) := List.mem_map_of_mem (List.mem_of_find?_eq_some hf)
      obtain ⟨p1, p2⟩ := h.outs _ hp
      obtain ⟨w1, w2, w3, w4⟩ := walkBack_leads h.neat h.root ss p.1 p1 p2
      obtain ⟨i1, i2, i3, i4, i5, i6, i7⟩ := buildFront_shape (walkBack st.1 p.1 ss).2 st.1 (walkBack st.1 p.1 ss).1 h.neat h.root w1 w2
        (fun s' h' => hs' s' (by simp [w4 s' h']))
      have hle := i3.1
      refine ⟨⟨i1, i2, Nat.le_trans h.le hle, ?_, ?_, ?_, ?_⟩, by simp⟩
      · intro i hi
        rcases List.mem_append.1 hi with h1 | h1
        · have := h.ins i h1; omega
        · rw [List.mem_singleton.1 h1]; exact ⟨i4, i5⟩
      · intro o ho
        have := h.outs o ho; omega
      · intro a h1 h2
        by_cases hlt : a < st.1.n
        · obtain ⟨o, h3, h4⟩ := h.live a h1 hlt
          exact ⟨o, h3, i3.leads h4⟩
        · exact ⟨p.1, hp, (i7 a (by omega) h2).trans (i3.leads w3)⟩
      · intro i hi
        rcases List.mem_append.1 hi with h1 | h1
        · obtain ⟨o, h3, h4⟩ := h.begins i h1
          exact ⟨o, h3, i3.leads h4⟩
        · rw [List.mem_singleton.1 h1]
          exact ⟨p.1, hp, i6.trans (i3.leads w3)⟩
    | none =>
      dsimp only
      have hn1 : (st.1.addVertex s).n = st.1.n + 1 := rfl
      have hg1 := addVertex_neat h.neat (hs' s (by simp))
      have hgr := addVertex_grown h.neat s
      obtain ⟨i1, i2, i3, i4, i5, i6, i7⟩ := buildFront_shape ss (st.1.addVertex s) st.1.n hg1
        (root_addVertex h.neat s h.root) h.neat.pos (by rw [hn1]; omega) (fun s' h' => hs' s' (by simp [h']))
      have hle := i3.1
      rw [hn1] at hle
      have hpos := h.neat.pos
      have hgr' := hgr.trans i3
      refine ⟨⟨i1, i2, by have := h.le; omega, ?_, ?_, ?_, ?_⟩, by simp⟩
      · intro i hi
        rcases List.mem_append.1 hi with h1 | h1
        · have := h.ins i h1; omega
        · rw [List.mem_singleton.1 h1]; exact ⟨i4, i5⟩
      · intro o ho
        rw [List.map_append, List.mem_append] at ho
        rcases ho with h1 | h1
        · have := h.outs o h1; omega
        · simp only [List.map_cons, List.map_nil, List.mem_singleton] at h1
          omega
      · intro a h1 h2
        by_cases hlt : a < st.1.n
        · obtain ⟨o, h3, h4⟩ := h.live a h1 hlt
          exact ⟨o, by rw [List.map_append]; exact List.mem_append.2 (.inl h3), hgr'.leads h4⟩
        · refine ⟨st.1.n, by simp, ?_⟩
          by_cases e : a = st.1.n
          · rw [e]; exact .refl _
          · exact i7 a (by rw [hn1]; omega) h2
      · intro i hi
        rcases List.mem_append.1 hi with h1 | h1
        · obtain ⟨o, h3, h4⟩ := h.begins i h1
          exact ⟨o, by rw [List.map_append]; exact List.mem_append.2 (.inl h3), hgr'.leads h4⟩
        · rw [List.mem_singleton.1 h1]
          exact ⟨st.1.n, by simp, i6⟩

theorem foldl_part {n0 : Nat} (es : List (List BSet)) : ∀ st : Graph × Frag, Part n0 st.1 st.2 →
    (∀ e ∈ es, e ≠ [] ∧ ∀ s ∈ e, s ≠ 0) → Part n0 (es.foldl encStep st).1 (es.foldl encStep st).2 ∧
      (es ≠ [] ∨ st.2.ins ≠ [] → (es.foldl encStep st).2.ins ≠ []) := by
  induction es with
  | nil => intro st h _; exact ⟨h, by simp⟩
  | cons e es ih =>
    intro st h hes
    obtain ⟨h1, h2⟩ := encStep_part h (hes e (by simp)).1 (hes e (by simp)).2
    obtain ⟨h3, h4⟩ := ih _ h1 (fun e' he' => hes e' (by simp [he']))
    exact ⟨h3, fun _ => h4 (.inr h2)⟩

theorem breakout_full {encs es : List (List BSet)} {brk : BSet} {additive : Bool}
    (hok : LeafOk (.cls encs brk additive)) (h : breakout encs brk additive = some es) :
    es ≠ [] ∧ ∀ e ∈ es, e ≠ [] ∧ ∀ s ∈ e, s ≠ 0 := by
  obtain ⟨h1, -, h2⟩ := hok
  have hz : ∀ s : BSet, s ≠ 0 → s ||| brk ≠ 0 := by
    intro s hs h0
    apply hs
    have : s &&& (s ||| brk) = s := by
      ext i hi
      simp
      intro h; simp [h]
    rw [h0] at this
    rw [← this]; simp
  unfold breakout at h
  cases encs with
  | nil =>
    simp only at h
    split at h
    · cases h
    · next hc =>
      simp only [not_or] at hc
      simp only [Option.some.injEq] at h; subst h
      refine ⟨by simp, ?_⟩
      intro e he
      rw [List.mem_singleton.1 he]
      exact ⟨by simp, by simpa using hc.2⟩
  | cons e es' =>
    simp only at h
    by_cases hb : brk = 0
    · rw [if_pos hb] at h
      cases h
      exact ⟨by simp, fun e he => ⟨h1 e he, h2 e he⟩⟩
    · rw [if_neg hb] at h
      cases additive with
      | true =>
        simp only [if_true] at h
        split at h
        · next s =>
          cases h
          refine ⟨by simp, ?_⟩
          intro e he
          rcases List.mem_cons.1 he with rfl | he
          · exact ⟨by simp, by simpa using hz s (h2 [s] (by simp) s (by simp))⟩
          · exact ⟨h1 e (by simp [he]), h2 e (by simp [he])⟩
        · cases h
          refine ⟨by simp, ?_⟩
          intro e' he
          rcases List.mem_append.1 he with he | he
          · exact ⟨h1 e' he, h2 e' he⟩
          · rw [List.mem_singleton.1 he]
            exact ⟨by simp, by simpa using hb⟩
      | false =>
        simp only [Bool.false_eq_true, if_false] at h
        split at h
        · next s =>
          split at h
          · split at h
            · cases h
            · next hne =>
              cases h
              exact ⟨hne, fun e he => ⟨h1 e (by simp [he]), h2 e (by simp [he])⟩⟩
          · next hne =>
            cases h
            refine ⟨by simp, ?_⟩
            intro e he
            rcases List.mem_cons.1 he with rfl | he
            · exact ⟨by simp, by simpa using hne⟩
            · exact ⟨h1 e (by simp [he]), h2 e (by simp [he])⟩
        · cases h
          exact ⟨by simp, fun e he => ⟨h1 e he, h2 e he⟩⟩

theorem charClass_shape {g : Graph} {encs : List (List BSet)} {brk : BSet} {additive : Bool} (hg : Neat g)
    (hr : (g.v 0).out = []) (hok : LeafOk (.cls encs brk additive)) {r : Graph × Frag}
    (h : charClass g encs brk additive = some r) : Shape g.n r.1 r.2 := by
  simp only [charClass, Option.bind_eq_bind, Option.bind_eq_some_iff, Option.some.injEq] at h
  obtain ⟨es, hes, rfl⟩ := h
  obtain ⟨b1, b2⟩ := breakout_full hok hes
  obtain ⟨p, q⟩ := foldl_part (n0 := g.n) es (g, { ins := [], outs := [], skip := none })
    ⟨hg, hr, Nat.le_refl _, by simp, by simp, fun a h1 h2 => by dsimp only at h2; omega, by simp⟩ b2
  exact ⟨p.neat, p.root, p.le, q (.inl b1), p.ins, p.outs, p.live, p.begins⟩

/-! ## Operators -/

theorem question_ins (ng : Bool) (f : Frag) : (question ng f).ins = f.ins ∧ (question ng f).outs = f.outs := by
  unfold question
  split
  · exact ⟨rfl, rfl⟩
  · split <;> exact ⟨rfl, rfl⟩

theorem Shape.congr {n0 : Nat} {g : Graph} {f f' : Frag} (h : Shape n0 g f) (hi : f'.ins = f.ins) (ho : f'.outs.map (·.1) = f.outs.map (·.1)) :
    Shape n0 g f' :=
  ⟨h.neat, h.root, h.le, by rw [hi]; exact h.some, by rw [hi]; exact h.ins, by rw [ho]; exact h.outs,
    by rw [ho]; exact h.live, by rw [hi, ho]; exact h.begins⟩

theorem question_shape {n0 : Nat} {g : Graph} {f : Frag} (ng : Bool) (h : Shape n0 g f) : Shape n0 g (question ng f) :=
  h.congr (question_ins ng f).1 (by rw [(question_ins ng f).2])

theorem plus_shape {n0 : Nat} {g : Graph} {f : Frag} (ng : Bool) (h : Shape n0 g f) :
    Shape n0 (plus ng g f).1 (plus ng g f).2 := by
  obtain ⟨ha, hm⟩ := patchMid_added f.ins (if ng then some 0 else none) f.outs g
  have hb := patchMid_balanced f.ins (if ng then some 0 else none) f.outs g h.neat.bal
  have hn := h.neat.added ha hb (fun a hA => (h.outs a hA).2) h.ins
  have hgr := ha.grown
  refine Shape.congr (f := f) ?_ rfl hm
  refine ⟨hn, root_added ha (fun a hA => by have := h.outs a hA; omega) h.root, Nat.le_trans h.le hgr.1, h.some, ?_, ?_, ?_, ?_⟩
  · intro i hi
    have := h.ins i hi
    exact ⟨this.1, Nat.lt_of_lt_of_le this.2 hgr.1⟩
  · intro o ho
    have := h.outs o ho
    exact ⟨this.1, Nat.lt_of_lt_of_le this.2 hgr.1⟩
  · intro a h1 h2
    obtain ⟨o, h3, h4⟩ := h.live a h1 (by rw [show (plus ng g f).1.n = g.n from ha.n] at h2; exact h2)
    exact ⟨o, h3, hgr.leads h4⟩
  · intro i hi
    obtain ⟨o, h3, h4⟩ := h.begins i hi
    exact ⟨o, h3, hgr.leads h4⟩

theorem repetition_shape {n0 : Nat} {g : Graph} {f : Frag} (ng : Bool) (m M : Nat) (h : Shape n0 g f) :
    Shape n0 (repetition ng m M g f).1 (repetition ng m M g f).2 := by
  unfold repetition
  split
  · split
    · exact question_shape ng h
    · split
      · exact question_shape ng (plus_shape ng h)
      · exact h
  · split
    · exact plus_shape ng h
    · exact h

theorem alternate_shape {n0 : Nat} {g1 g2 : Graph} {f s : Frag} (h1 : Shape n0 g1 f) (h2 : Shape g1.n g2 s) (hgr : Grown g1 g2) :
    Shape n0 g2 (alternate f s) := by
  have hle := hgr.1
  refine ⟨h2.neat, h2.root, Nat.le_trans h1.le hle, ?_, ?_, ?_, ?_, ?_⟩
  · simp [alternate, h1.some]
  · intro i hi
    rcases List.mem_append.1 hi with h | h
    · have := h1.ins i h; omega
    · exact h2.ins i h
  · intro o ho
    simp only [alternate, List.map_append, List.mem_append] at ho
    rcases ho with h | h
    · have := h1.outs o h; omega
    · exact h2.outs o h
  · intro a ha1 ha2
    simp only [alternate, List.map_append, List.mem_append]
    by_cases hlt : a < g1.n
    · obtain ⟨o, h3, h4⟩ := h1.live a ha1 hlt
      exact ⟨o, .inl h3, hgr.leads h4⟩
    · obtain ⟨o, h3, h4⟩ := h2.live a (by omega) ha2
      exact ⟨o, .inr h3, h4⟩
  · intro i hi
    simp only [alternate, List.map_append, List.mem_append]
    rcases List.mem_append.1 hi with h | h
    · obtain ⟨o, h3, h4⟩ := h1.begins i h
      exact ⟨o, .inl h3, hgr.leads h4⟩
    · obtain ⟨o, h3, h4⟩ := h2.begins i h
      exact ⟨o, .inr h3, h4⟩

theorem concatenate_shape {n0 : Nat} {g1 g2 : Graph} {f s : Frag} (h1 : Shape n0 g1 f) (h2 : Shape g1.n g2 s) (hgr : Grown g1 g2) :
    Shape n0 (concatenate g2 f s).1 (concatenate g2 f s).2 := by
  obtain ⟨ha, hm⟩ := patchMid_added s.ins s.skip f.outs g2
  have hb := patchMid_balanced s.ins s.skip f.outs g2 h2.neat.bal
  have hle := hgr.1
  have hfo : ∀ a ∈ f.outs.map (·.1), 0 < a ∧ a < g2.n := fun a hA => by have := h1.outs a hA; omega
  have hn := h2.neat.added ha hb (fun a hA => (hfo a hA).2) h2.ins
  have hc1 : (concatenate g2 f s).1 = (patchMid g2 s.ins s.skip f.outs).1 := rfl
  have hcn : (concatenate g2 f s).1.n = g2.n := by rw [hc1, ha.n]
  have hgc : Grown g2 (concatenate g2 f s).1 := ha.grown
  -- the second fragment can be left by the whole
  have hso : ∀ o ∈ s.outs.map (·.1), o ∈ (concatenate g2 f s).2.outs.map (·.1) := by
    intro o ho
    simp only [concatenate]
    split
    · rw [List.map_append]; exact List.mem_append.2 (.inr ho)
    · exact ho
  have hbeg : ∀ i ∈ s.ins, ∃ o ∈ (concatenate g2 f s).2.outs.map (·.1), Leads (concatenate g2 f s).1 i o := by
    intro i hi
    obtain ⟨o, h3, h4⟩ := h2.begins i hi
    exact ⟨o, hso o h3, hgc.leads h4⟩
  have hout : ∀ o ∈ f.outs.map (·.1), ∃ o' ∈ (concatenate g2 f s).2.outs.map (·.1), Leads (concatenate g2 f s).1 o o' := by
    intro o ho
    obtain ⟨i, hi⟩ := List.exists_mem_of_ne_nil _ h2.some
    obtain ⟨o', h3, h4⟩ := hbeg i hi
    exact ⟨o', h3, .step ((ha.out o i).2 (.inr ⟨ho, hi⟩)) h4⟩
  have hall : ∀ a, (∃ o ∈ f.outs.map (·.1), Leads g1 a o) →
      ∃ o' ∈ (concatenate g2 f s).2.outs.map (·.1), Leads (concatenate g2 f s).1 a o' := by
    rintro a ⟨o, h3, h4⟩
    obtain ⟨o', h5, h6⟩ := hout o h3
    exact ⟨o', h5, (hgc.leads (hgr.leads h4)).trans h6⟩
  have hins : ∀ i ∈ (concatenate g2 f s).2.ins, i ∈ f.ins ∨ i ∈ s.ins := by
    intro i hi
    simp only [concatenate] at hi
    split at hi
    · simp only [List.mem_append] at hi
      rcases hi with (h | h) | h
      · exact .inl (List.mem_of_mem_take h)
      · exact .inr h
      · exact .inl (List.mem_of_mem_drop h)
    · exact .inl hi
  refine ⟨hn, root_added ha (fun a hA => by have := hfo a hA; omega) h2.root, by rw [hcn]; exact Nat.le_trans h1.le hle, ?_, ?_, ?_, ?_, ?_⟩
  · simp only [concatenate]
    split
    · simp [h2.some]
    · exact h1.some
  · intro i hi
    rw [hcn]
    rcases hins i hi with h | h
    · have := h1.ins i h; omega
    · exact h2.ins i h
  · intro o ho
    rw [hcn]
    simp only [concatenate] at ho
    split at ho
    · rw [List.map_append, List.mem_append, hm] at ho
      rcases ho with h | h
      · exact hfo o h
      · exact h2.outs o h
    · exact h2.outs o ho
  · intro a ha1 ha2
    rw [hcn] at ha2
    by_cases hlt : a < g1.n
    · exact hall a (h1.live a ha1 hlt)
    · obtain ⟨o, h3, h4⟩ := h2.live a (by omega) ha2
      exact ⟨o, hso o h3, hgc.leads h4⟩
  · intro i hi
    rcases hins i hi with h | h
    · exact hall i (h1.begins i h)
    · exact hbeg i h

theorem Good.grown {g0 g : Graph} {f : Frag} {L : Language UInt8} (h0 : Neat g0) (h : Good g0 g f L) : Grown g0 g := by
  refine ⟨h.le, fun v u hu => ?_⟩
  rw [h.old v (h0.range v u hu).1]; exact hu

theorem fragment_shape (t : Tree Leaf) : ∀ (g0 : Graph) (r : Graph × Frag), Neat g0 → (g0.v 0).out = [] → Named t → LeavesOk t →
    fragment g0 t = some r → Shape g0.n r.1 r.2 := by
  induction t with
  | leaf a =>
    intro g0 r hg hr _ hl h
    cases a with
    | lit bs => exact literal_shape hg hr h
    | cls encs brk additive => exact charClass_shape hg hr hl h
  | look k t => intro g0 r _ _ hn; exact hn.elim
  | alt l r ihl ihr =>
    intro g0 q hg hr hn hl h
    simp only [fragment, Option.bind_eq_bind, Option.bind_eq_some_iff, Option.some.injEq] at h
    obtain ⟨a, ha, b, hb, rfl⟩ := h
    have i1 := ihl g0 a hg hr hn.1 hl.1 ha
    exact alternate_shape i1 (ihr a.1 b i1.neat i1.root hn.2 hl.2 hb) ((fragment_good r a.1 b hn.2 hl.2 hb).grown i1.neat)
  | cat l r ihl ihr =>
    intro g0 q hg hr hn hl h
    simp only [fragment, Option.bind_eq_bind, Option.bind_eq_some_iff, Option.some.injEq] at h
    obtain ⟨a, ha, b, hb, rfl⟩ := h
    have i1 := ihl g0 a hg hr hn.1 hl.1 ha
    exact concatenate_shape i1 (ihr a.1 b i1.neat i1.root hn.2 hl.2 hb) ((fragment_good r a.1 b hn.2 hl.2 hb).grown i1.neat)
  | rep ng m M t ih =>
    intro g0 q hg hr hn hl h
    simp only [fragment, Option.bind_eq_bind, Option.bind_eq_some_iff, Option.some.injEq] at h
    obtain ⟨a, ha, rfl⟩ := h
    exact repetition_shape ng m M (ih g0 a hg hr hn.2 hl ha)

theorem neat_init : Neat Graph.init := by
  refine ⟨by decide, ?_, ?_, ?_, ?_⟩
  · intro a b; rfl
  · intro v u hu; cases hu
  · intro v h0 hv
    have : Graph.init.n = 1 := rfl
    omega
  · intro v; exact ⟨rfl, rfl⟩

theorem mark_inn (label : Nat) (os : List (Nat × Nat)) : ∀ (g : Graph) a, ((mark g label os).v a).inn = (g.v a).inn := by
  induction os with
  | nil => intro g a; rfl
  | cons p os ih =>
    intro g a
    obtain ⟨v, pos⟩ := p
    show ((mark (g.modify v _) label os).v a).inn = _
    rw [ih]
    simp only [Graph.modify]
    split <;> rfl

/-- Every automaton built for a pattern is fit for the optimizer. -/
theorem build_pattern (label : Nat) (t : Tree Leaf) (hn : NoLook t) (hl : LeavesOk t) (g : Graph)
    (h : build label (some t) = .good g) : Pattern g label := by
  unfold build at h
  dsimp only at h
  cases hf : fragment Graph.init (expand t) with
  | none => rw [hf] at h; cases h
  | some r =>
    rw [hf] at h
    dsimp only at h
    have hs := fragment_shape _ _ _ neat_init rfl (expand_named t hn) (expand_leavesOk t hl) hf
    obtain ⟨ha, hm⟩ := patchMid_added r.2.ins r.2.skip [(0, 0)] r.1
    have hb := patchMid_balanced r.2.ins r.2.skip [(0, 0)] r.1 hs.neat.bal
    have hne := hs.neat.added ha hb (by simpa using hs.neat.pos) hs.ins
    unfold finish at h
    obtain ⟨c, hc⟩ : ∃ c, c = concatenate r.1 { ins := [0], outs := [(0, 0)], skip := none } r.2 := ⟨_, rfl⟩
    have hc1 : c.1 = (patchMid r.1 r.2.ins r.2.skip [(0, 0)]).1 := by rw [hc]; rfl
    rw [← hc1] at ha hne
    dsimp only at h
    rw [← hc] at h
    split at h
    · cases h
    · rename_i hany
      simp only [Built.good.injEq] at h
      subst h
      have hno0 : ∀ o ∈ c.2.outs.map (·.1), o ≠ 0 := by
        rintro o ho rfl
        obtain ⟨p, hp, hp0⟩ := List.mem_map.1 ho
        exact hany (List.any_eq_true.2 ⟨p, hp, by simpa using hp0⟩)
      have hso : ∀ o ∈ r.2.outs.map (·.1), o ∈ c.2.outs.map (·.1) := by
        intro o ho
        rw [hc]
        simp only [concatenate]
        split
        · rw [List.map_append]; exact List.mem_append.2 (.inr ho)
        · exact ho
      obtain ⟨m1, m2, m3, m4⟩ := mark_spec label c.2.outs c.1
      have hcn : (mark c.1 label c.2.outs).n = c.1.n := m1
      have hgr : Grown r.1 (mark c.1 label c.2.outs) := by
        refine ⟨by rw [hcn, ha.n], fun v u hu => ?_⟩
        rw [(m2 v).2]; exact ha.mono v u hu
      have hrange : ∀ v, ∀ u ∈ ((mark c.1 label c.2.outs).v v).out, v < (mark c.1 label c.2.outs).n ∧ 0 < u ∧ u < (mark c.1 label c.2.outs).n := by
        intro v u hu
        rw [(m2 v).2] at hu
        rw [hcn]; exact hne.range v u hu
      have hlt : ∀ v, Leads (mark c.1 label c.2.outs) 0 v → v < c.1.n := by
        intro v hv
        rcases leads_last hv with e | ⟨p, -, hp⟩
        · rw [← e]; exact hne.pos
        · have := (hrange p v hp).2.2; rwa [hcn] at this
      refine ⟨⟨by rw [hcn]; exact hne.pos, hrange, ?_⟩, ⟨?_, ?_, ?_⟩, ?_, ?_⟩
      · intro a b; rw [(m2 a).2, mark_inn]; exact hne.bal a b
      · rw [m4 0 (fun h => hno0 0 h rfl)]; exact (hne.plain 0).1
      · intro v hv
        by_cases ho : v ∈ c.2.outs.map (·.1)
        · exact (m3 v ho).2
        · rw [m4 v ho, (hne.plain v).1] at hv; cases hv
      · intro v hv
        by_cases ho : v ∈ c.2.outs.map (·.1)
        · rw [(m3 v ho).1] at hv; cases hv
        · rw [m4 v ho]; exact (hne.plain v).2
      · intro v hv h0
        rw [(m2 v).1]; exact hne.bytes v h0 (hlt v hv)
      · intro v hv h0
        have hvn := hlt v hv
        obtain ⟨o, h3, h4⟩ := hs.live v (by show 1 ≤ v; omega) (by rw [ha.n] at hvn; exact hvn)
        exact ⟨o, hgr.leads h4, (m3 o (hso o h3)).1⟩

end Verif.NfaBuilder
