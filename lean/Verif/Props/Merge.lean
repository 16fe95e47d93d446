import Verif.Props.Prune
import Mathlib.Data.List.Perm.Subperm
/-!
# C20: merging an automaton into the combined one

After merging, the combined automaton accepts with every label what it accepted before
and what the new automaton accepts, and nothing else.
-/
namespace Verif.Optimizer
open Verif.Nfa Verif.Compiler Verif.Label

/-! ## Specification -/

/-- What is relied on of the combined automaton: edges are between its states and not to
the initial one, no two are parallel, and each state has a predecessor. -/
structure Base (g : Graph) : Prop where
  pos : 0 < g.n
  range : ∀ v, ∀ u ∈ (g.v v).out, v < g.n ∧ 0 < u ∧ u < g.n
  bal : Balanced g
  nodup : ∀ v, (g.v v).out.Nodup
  pred : ∀ v < g.n, v ≠ 0 → ∃ p, v ∈ (g.v p).out

/-- What is relied on of the new automaton. -/
structure Fresh (g : Graph) : Prop where
  pos : 0 < g.n
  range : ∀ v, ∀ u ∈ (g.v v).out, v < g.n ∧ 0 < u ∧ u < g.n
  bal : Balanced g

/-- Just the match states are labelled. -/
structure LabelsMatch (g : Graph) : Prop where
  root : (g.v 0).isMatch = false
  labels : ∀ v, (g.v v).isMatch = true ↔ (g.v v).label ≠ none

/-! ## Preliminaries -/

/-- The end of an edge of the new automaton. -/
def tl (src : Graph) (e : Nat × Nat) : Nat := (src.v e.1).out.getD e.2 0

theorem getD_lt (l : List Nat) {i : Nat} (h : i < l.length) : l.getD i 0 = l[i] := by
  simp [List.getD, h]

theorem tl_mem {src : Graph} {e : Nat × Nat} (h : e.2 < (src.v e.1).out.length) : tl src e ∈ (src.v e.1).out := by
  unfold tl
  rw [getD_lt _ h]
  exact List.getElem_mem h

theorem Balanced.mem {g : Graph} (h : Balanced g) {a b : Nat} : b ∈ (g.v a).out ↔ a ∈ (g.v b).inn := by
  rw [← List.count_pos_iff, ← List.count_pos_iff, h a b]

/-- A state with one edge entering it. -/
theorem Balanced.single {g : Graph} (h : Balanced g) {t : Nat} (h1 : (g.v t).inn.length = 1) :
    ∃ p, ∀ x, t ∈ (g.v x).out ↔ x = p := by
  obtain ⟨p, hp⟩ := List.length_eq_one_iff.1 h1
  refine ⟨p, fun x => ?_⟩
  rw [h.mem, hp, List.mem_singleton]

theorem Balanced.edge_unique {g : Graph} (h : Balanced g) {t : Nat} (h1 : (g.v t).inn.length = 1) {e e' : Nat × Nat}
    (he : e.2 < (g.v e.1).out.length) (he' : e'.2 < (g.v e'.1).out.length) (ht : tl g e = t) (ht' : tl g e' = t) :
    e = e' := by
  obtain ⟨p, hp⟩ := h.single h1
  have e1 : e.1 = p := (hp _).1 (ht ▸ tl_mem he)
  have e2 : e'.1 = p := (hp _).1 (ht' ▸ tl_mem he')
  obtain ⟨a, i⟩ := e
  obtain ⟨b, j⟩ := e'
  simp only at e1 e2
  subst e2; subst e1
  have hc : (g.v a).out.count t = 1 := by
    obtain ⟨q, hq⟩ := List.length_eq_one_iff.1 h1
    have : a ∈ (g.v t).inn := h.mem.1 ((hp a).2 rfl)
    rw [hq, List.mem_singleton] at this
    rw [h, hq, this]; simp
  simp only [tl] at ht ht' he he'
  rw [getD_lt _ he] at ht
  rw [getD_lt _ he'] at ht'
  congr 1
  -- two places of `t` in the list are the same
  have key : ∀ (l : List Nat) (i j : Nat) (hi : i < l.length) (hj : j < l.length), l[i] = t → l[j] = t → l.count t = 1 → i = j := by
    intro l
    induction l with
    | nil => intro i j hi; simp at hi
    | cons x l ih =>
      intro i j hi hj h1 h2 hc
      cases i with
      | zero =>
        cases j with
        | zero => rfl
        | succ j =>
          exfalso
          simp only [List.getElem_cons_zero] at h1
          simp only [List.getElem_cons_succ] at h2
          have : 0 < l.count t := List.count_pos_iff.2 (h2 ▸ List.getElem_mem _)
          rw [h1, List.count_cons_self] at hc
          omega
      | succ i =>
        cases j with
        | zero =>
          exfalso
          simp only [List.getElem_cons_succ] at h1
          simp only [List.getElem_cons_zero] at h2
          have : 0 < l.count t := List.count_pos_iff.2 (h1 ▸ List.getElem_mem _)
          rw [h2, List.count_cons_self] at hc
          omega
        | succ j =>
          simp only [List.getElem_cons_succ] at h1 h2
          simp only [List.length_cons] at hi hj
          have : l.count t = 1 := by
            have hp : 0 < l.count t := List.count_pos_iff.2 (h1 ▸ List.getElem_mem _)
            rw [List.count_cons] at hc
            omega
          rw [ih i j (by omega) (by omega) h1 h2 this]
  exact key _ i j he he' ht ht' hc

/-- The words read into a state with one predecessor. -/
theorem reads_single {g : Graph} {t p : Nat} (ht : t ≠ 0) (hp : ∀ x, t ∈ (g.v x).out ↔ x = p) (w : List UInt8) :
    Reads g w t ↔ ∃ w' b, w = w' ++ [b] ∧ Reads g w' p ∧ (g.v t).bytes.has b = true := by
  rcases List.eq_nil_or_concat w with rfl | ⟨w', b, rfl⟩
  · rw [reads_nil_iff]
    constructor
    · intro h; exact (ht h).elim
    · rintro ⟨w', b, h, -⟩; simp at h
  · rw [List.concat_eq_append, reads_step_iff]
    constructor
    · rintro ⟨v, h1, h2, h3⟩
      exact ⟨w', b, rfl, (hp v).1 h2 ▸ h1, h3⟩
    · rintro ⟨w'', b', h, h1, h2⟩
      obtain ⟨rfl, hb⟩ := List.append_inj' h rfl
      cases hb
      exact ⟨p, h1, (hp p).2 rfl, h2⟩

theorem insertEdge_out (g : Graph) (h t pos v : Nat) :
    ((g.insertEdge h t pos).v v).out = if v = h then insertAt (g.v v).out pos t else (g.v v).out := by
  simp only [Graph.insertEdge, Graph.modify]
  split <;> split <;> rfl

theorem insertEdge_inn (g : Graph) (h t pos v : Nat) :
    ((g.insertEdge h t pos).v v).inn = if v = t then (g.v v).inn ++ [h] else (g.v v).inn := by
  simp only [Graph.insertEdge, Graph.modify]
  split <;> split <;> rfl

theorem insertEdge_same (g : Graph) (h t pos : Nat) : SameStates g (g.insertEdge h t pos) := by
  refine ⟨rfl, ?_, ?_, ?_⟩ <;>
  · intro v
    simp only [Graph.insertEdge, Graph.modify]
    split <;> split <;> rfl

theorem insertAt_perm (l : List Nat) (i x : Nat) : (insertAt l i x).Perm (x :: l) := by
  unfold insertAt
  have := List.perm_middle (a := x) (l₁ := l.take i) (l₂ := l.drop i)
  rwa [List.take_append_drop] at this

theorem insertEdge_balanced {g : Graph} (hb : Balanced g) (h t pos : Nat) : Balanced (g.insertEdge h t pos) := by
  intro x y
  rw [insertEdge_out, insertEdge_inn]
  have := hb x y
  by_cases e1 : x = h
  · subst e1
    rw [if_pos rfl, (insertAt_perm _ _ _).count_eq, List.count_cons]
    by_cases e2 : y = t
    · subst e2
      rw [if_pos rfl, List.count_append, this]; simp
    · rw [if_neg e2, this]; simp [Ne.symm e2]
  · rw [if_neg e1, this]
    by_cases e2 : y = t
    · rw [if_pos e2, List.count_append]; simp [Ne.symm e1]
    · rw [if_neg e2]

theorem connect_same (g : Graph) (dh dt di : Nat) : SameStates g (connect g dh dt di) := by
  unfold connect
  split
  · exact SameStates.refl g
  · exact insertEdge_same ..

theorem connect_balanced {g : Graph} (hb : Balanced g) (dh dt di : Nat) : Balanced (connect g dh dt di) := by
  unfold connect
  split
  · exact hb
  · exact insertEdge_balanced hb _ _ _

theorem connect_mem (g : Graph) (dh dt di d d' : Nat) :
    d' ∈ ((connect g dh dt di).v d).out ↔ d' ∈ (g.v d).out ∨ (d = dh ∧ d' = dt) := by
  unfold connect
  by_cases h : dt ∈ (g.v dh).out
  · rw [if_pos h]
    constructor
    · exact Or.inl
    · rintro (h' | ⟨rfl, rfl⟩)
      · exact h'
      · exact h
  · rw [if_neg h, insertEdge_out]
    by_cases e : d = dh
    · rw [if_pos e, (insertAt_perm _ _ _).mem_iff, List.mem_cons]
      constructor
      · rintro (h' | h')
        · exact Or.inr ⟨e, h'⟩
        · exact Or.inl h'
      · rintro (h' | ⟨-, h'⟩)
        · exact Or.inr h'
        · exact Or.inl h'
    · rw [if_neg e]
      simp [e]

theorem connect_nodup {g : Graph} (hn : ∀ v, (g.v v).out.Nodup) (dh dt di v : Nat) :
    ((connect g dh dt di).v v).out.Nodup := by
  unfold connect
  split
  · exact hn v
  · rename_i h
    rw [insertEdge_out]
    split
    · rename_i e
      subst e
      rw [(insertAt_perm _ _ _).nodup_iff, List.nodup_cons]
      exact ⟨h, hn _⟩
    · exact hn v

theorem findMerge_some {m : Merge} {src : Graph} {st di dt : Nat} : ∀ ts i, findMerge m src st ts i = some (di, dt) →
    dt ∈ ts ∧ canMerge m src dt st = true := by
  intro ts
  induction ts with
  | nil => intro i h; cases h
  | cons t ts ih =>
    intro i h
    rw [findMerge] at h
    by_cases hc : canMerge m src t st = true
    · rw [if_pos hc] at h
      cases h
      exact ⟨by simp, hc⟩
    · rw [if_neg hc] at h
      obtain ⟨h1, h2⟩ := ih _ h
      exact ⟨by simp [h1], h2⟩

/-- Two vertices hold the same. -/
def SameData (a b : Vertex) : Prop := a.bytes = b.bytes ∧ a.isMatch = b.isMatch ∧ a.label = b.label

/-! ## The invariant -/

structure MInv (dst0 src : Graph) (vis : List (Nat × Nat)) (m : Merge) : Prop where
  zero : m.s2d 0 = some 0
  size : dst0.n ≤ m.dst.n
  data : ∀ d < dst0.n, SameData (m.dst.v d) (dst0.v d)
  edge : ∀ d d', d' ∈ (m.dst.v d).out ↔ d' ∈ (dst0.v d).out ∨
    ∃ e ∈ vis, m.s2d e.1 = some d ∧ m.s2d (tl src e) = some d'
  bal : Balanced m.dst
  nodup : ∀ d, (m.dst.v d).out.Nodup
  img : ∀ t d, t ≠ 0 → m.s2d t = some d → d ≠ 0 ∧ d < m.dst.n ∧ SameData (m.dst.v d) (src.v t)
  vis1 : ∀ e ∈ vis, e.2 < (src.v e.1).out.length ∧ m.s2d e.1 ≠ none ∧ m.s2d (tl src e) ≠ none
  via : ∀ t, t ≠ 0 → m.s2d t ≠ none → ∃ e ∈ vis, tl src e = t
  eqOld : ∀ t d, m.s2d t = some d → d < dst0.n → ∀ w, Reads dst0 w d ↔ Reads src w t
  eqSrc : ∀ t t' d, m.s2d t = some d → m.s2d t' = some d → ∀ w, Reads src w t ↔ Reads src w t'
  d2s1 : ∀ d, ∀ t ∈ m.d2s d, m.s2d t = some d ∧ t ≠ 0
  d2s2 : ∀ t d, t ≠ 0 → m.s2d t = some d → t ∈ m.d2s d
  new : ∀ d, dst0.n ≤ d → d < m.dst.n → ∃ t, t ≠ 0 ∧ m.s2d t = some d
  one : ∀ t d, t ≠ 0 → m.s2d t = some d → d < dst0.n → (src.v t).inn.length = 1
  up : ∀ t d p, t ≠ 0 → m.s2d t = some d → d < dst0.n → d ∈ (m.dst.v p).out → p < dst0.n ∧ ∃ h, m.s2d h = some p
  reach : ∀ t d, m.s2d t = some d → Leads m.dst 0 d
  far : ∀ d, m.dst.n ≤ d → SameData (m.dst.v d) (dst0.v d)
  from0 : ∀ t d, m.s2d t = some d → Leads src 0 t

theorem MInv.lt {dst0 src : Graph} {vis m} (hd : Base dst0) (h : MInv dst0 src vis m) {t d : Nat} (ht : m.s2d t = some d) :
    d < m.dst.n := by
  by_cases h0 : t = 0
  · subst h0; rw [h.zero] at ht; cases ht
    have := h.size; have := hd.pos; omega
  · exact (h.img t d h0 ht).2.1

theorem MInv.range {dst0 src : Graph} {vis m} (hd : Base dst0) (hs : Fresh src) (h : MInv dst0 src vis m) {d d' : Nat}
    (he : d' ∈ (m.dst.v d).out) : d < m.dst.n ∧ 0 < d' ∧ d' < m.dst.n := by
  have := h.size
  rcases (h.edge d d').1 he with h1 | ⟨e, he, h1, h2⟩
  · obtain ⟨a, b, c⟩ := hd.range d d' h1
    exact ⟨by omega, b, by omega⟩
  · have h0 := hs.range e.1 _ (tl_mem (h.vis1 e he).1)
    obtain ⟨a, b, -⟩ := h.img _ _ (by omega) h2
    exact ⟨h.lt hd h1, by omega, b⟩

theorem leads_mono {g g' : Graph} (h : ∀ v u, u ∈ (g.v v).out → u ∈ (g'.v v).out) {a b : Nat} (hl : Leads g a b) : Leads g' a b := by
  induction hl with
  | refl => exact .refl _
  | step hu _ ih => exact .step (h _ _ hu) ih

theorem init_inv {dst0 src : Graph} (hd : Base dst0) (hs : Fresh src) : MInv dst0 src []
    { dst := dst0, s2d := fun x => if x = 0 then some 0 else none, d2s := fun _ => [], pos := fun _ => none } := by
  have h0 : ∀ {t d : Nat}, (if t = 0 then some 0 else none) = some d → t = 0 ∧ d = 0 := by
    intro t d h
    split at h
    · exact ⟨by assumption, (Option.some.inj h).symm⟩
    · cases h
  -- only the empty word is read into the initial states
  have r0 : ∀ {G : Graph}, (∀ v, ∀ u ∈ (G.v v).out, 0 < u) → ∀ w, Reads G w 0 ↔ w = [] := by
    intro G hG w
    constructor
    · intro h
      rcases List.eq_nil_or_concat w with rfl | ⟨w', b, rfl⟩
      · rfl
      · rw [List.concat_eq_append, reads_step_iff] at h
        obtain ⟨v, -, h2, -⟩ := h
        have := hG v 0 h2; omega
    · rintro rfl; exact .init
  refine ⟨rfl, Nat.le_refl _, fun _ _ => ⟨rfl, rfl, rfl⟩, by simp, hd.bal, hd.nodup, ?_, by simp, ?_, ?_, ?_, by simp, ?_, ?_, ?_, ?_, ?_, fun _ _ => ⟨rfl, rfl, rfl⟩, ?_⟩
  · intro t d ht h; exact (ht (h0 h).1).elim
  · intro t ht h; simp [ht] at h
  · intro t d h _ w
    obtain ⟨rfl, rfl⟩ := h0 h
    rw [r0 (fun v u hu => (hd.range v u hu).2.1), r0 (fun v u hu => (hs.range v u hu).2.1)]
  · intro t t' d h h' w
    rw [(h0 h).1, (h0 h').1]
  · intro t d ht h; exact (ht (h0 h).1).elim
  · intro d h1 h2; simp only at h2; omega
  · intro t d ht h; exact (ht (h0 h).1).elim
  · intro t d p ht h; exact (ht (h0 h).1).elim
  · intro t d h; rw [(h0 h).2]; exact .refl 0
  · intro t d h; rw [(h0 h).1]; exact .refl 0

theorem canMerge_spec {m : Merge} {src : Graph} {dt st : Nat} (h : canMerge m src dt st = true) :
    (m.dst.v dt).label = (src.v st).label ∧ (m.dst.v dt).inn.length = 1 ∧ (src.v st).inn.length = 1 ∧
      (∀ x xs, m.d2s dt = x :: xs → (src.v x).inn.length = 1) ∧ (m.dst.v dt).bytes = (src.v st).bytes := by
  simp only [canMerge, Bool.and_eq_true, beq_iff_eq] at h
  obtain ⟨⟨⟨⟨⟨h1, -⟩, h2⟩, h3⟩, h4⟩, h5⟩ := h
  refine ⟨h1, h2, h3, ?_, h5⟩
  intro x xs hx
  rw [hx] at h4
  simpa using h4

/-- The words read into two states with one predecessor each, with the same bytes, when
the same words are read into the predecessors. -/
theorem reads_alike {g g' : Graph} {t t' p p' : Nat} (ht : t ≠ 0) (ht' : t' ≠ 0)
    (hp : ∀ x, t ∈ (g.v x).out ↔ x = p) (hp' : ∀ x, t' ∈ (g'.v x).out ↔ x = p')
    (hb : (g.v t).bytes = (g'.v t').bytes) (hr : ∀ w, Reads g w p ↔ Reads g' w p') (w : List UInt8) :
    Reads g w t ↔ Reads g' w t' := by
  rw [reads_single ht hp, reads_single ht' hp']
  constructor
  · rintro ⟨w', b, h1, h2, h3⟩; exact ⟨w', b, h1, (hr _).1 h2, hb ▸ h3⟩
  · rintro ⟨w', b, h1, h2, h3⟩; exact ⟨w', b, h1, (hr _).2 h2, hb ▸ h3⟩

/-- Merging a state with one of the combined automaton. -/
theorem merged_reads {dst0 src : Graph} {vis m} (hd : Base dst0) (hs : Fresh src) (h : MInv dst0 src vis m)
    {hh t dh d : Nat} (ht0 : t ≠ 0) (hh2 : m.s2d hh = some dh) (hth : t ∈ (src.v hh).out) (hd' : d ∈ (m.dst.v dh).out)
    (hc : canMerge m src d t = true) :
    (d < dst0.n → (∀ w, Reads dst0 w d ↔ Reads src w t) ∧ dh < dst0.n) ∧
    (∀ x, x ≠ 0 → m.s2d x = some d → ∀ w, Reads src w x ↔ Reads src w t) := by
  obtain ⟨-, c2, c3, c4, c5⟩ := canMerge_spec hc
  obtain ⟨p, hp⟩ := h.bal.single c2
  have hpd : dh = p := (hp dh).1 hd'
  subst hpd
  obtain ⟨q, hq⟩ := hs.bal.single c3
  have hqh : hh = q := (hq hh).1 hth
  subst hqh
  obtain ⟨-, hd0, hdn⟩ := h.range hd hs hd'
  have hA : d < dst0.n → (∀ w, Reads dst0 w d ↔ Reads src w t) ∧ dh < dst0.n := by
    intro hlt
    obtain ⟨p', hp'⟩ := hd.pred d hlt (by omega)
    have e1 : p' = dh := (hp p').1 ((h.edge p' d).2 (.inl hp'))
    subst e1
    have hlp := (hd.range _ _ hp').1
    refine ⟨?_, hlp⟩
    refine reads_alike (by omega) ht0 (p := p') (p' := hh) ?_ hq ?_ (h.eqOld hh p' hh2 hlp)
    · intro x
      constructor
      · intro hx; exact (hp x).1 ((h.edge x d).2 (.inl hx))
      · rintro rfl; exact hp'
    · rw [← (h.data d hlt).1, c5]
  refine ⟨hA, ?_⟩
  intro x hx0 hx w
  by_cases hlt : d < dst0.n
  · rw [← (hA hlt).1 w, h.eqOld x d hx hlt w]
  · -- all of them are like the first
    have key : ∀ y, y ∈ m.d2s d → ∀ z zs, m.d2s d = z :: zs → ∀ w, Reads src w y ↔ Reads src w z := by
      intro y hy z zs hz w
      have hz' : z ∈ m.d2s d := by rw [hz]; simp
      exact h.eqSrc y z d (h.d2s1 d y hy).1 (h.d2s1 d z hz').1 w
    have hxm := h.d2s2 x d hx0 hx
    cases hds : m.d2s d with
    | nil => rw [hds] at hxm; cases hxm
    | cons z zs =>
      rw [key x hxm z zs hds w]
      have hz' : z ∈ m.d2s d := by rw [hds]; simp
      obtain ⟨hz1, hz0⟩ := h.d2s1 d z hz'
      obtain ⟨e, he, hez⟩ := h.via z hz0 (by rw [hz1]; simp)
      obtain ⟨v1, v2, v3⟩ := h.vis1 e he
      obtain ⟨pe, hpe⟩ := Option.ne_none_iff_exists'.1 v2
      have : pe = dh := (hp pe).1 ((h.edge pe d).2 (.inr ⟨e, he, hpe, by rw [hez]; exact hz1⟩))
      subst this
      obtain ⟨r, hr⟩ := hs.bal.single (c4 z zs hds)
      have hre : e.1 = r := (hr _).1 (hez ▸ tl_mem v1)
      subst hre
      refine reads_alike hz0 ht0 hr hq ?_ (fun w => h.eqSrc e.1 hh pe hpe hh2 w) w
      rw [← c5, (h.img z d hz0 hz1).2.2.1]

/-- What is needed to follow one edge of the new automaton. -/
theorem process_inv {dst0 src : Graph} {vis m} (hd : Base dst0) (hs : Fresh src) (hl : LabelsMatch src) (hl' : ∀ v < dst0.n, (dst0.v v).isMatch = true ↔ (dst0.v v).label ≠ none)
    (h : MInv dst0 src vis m)
    {e : Nat × Nat} {dh : Nat} (hev : e ∉ vis) (hei : e.2 < (src.v e.1).out.length) (hh2 : m.s2d e.1 = some dh) :
    MInv dst0 src (e :: vis) (processChild m src (tl src e) dh) := by
  have htm := tl_mem hei
  have ht0 : tl src e ≠ 0 := by have := hs.range _ _ htm; omega
  generalize ht : tl src e = t at *
  have hdhn : dh < m.dst.n := h.lt hd hh2
  -- the labels and the match flags of the combined automaton agree
  have hlm : ∀ d < m.dst.n, d ≠ 0 → ((m.dst.v d).isMatch = true ↔ (m.dst.v d).label ≠ none) := by
    intro d hdn hd0
    by_cases hlt : d < dst0.n
    · rw [(h.data d hlt).2.1, (h.data d hlt).2.2]; exact hl' d hlt
    · obtain ⟨t', h1, h2⟩ := h.new d (by omega) hdn
      obtain ⟨-, -, h3⟩ := h.img t' d h1 h2
      rw [h3.2.1, h3.2.2]; exact hl.labels t'
  cases hst : m.s2d t with
  | some dt =>
    -- the end of the edge is mapped already
    have hpl : place m src t dh = (m.dst, dt, (m.dst.v dh).out.idxOf dt) := by simp [place, hst]
    have hs2d : (processChild m src t dh).s2d = m.s2d := by
      simp only [processChild, hpl]
      funext x
      split
      · rename_i e; rw [e, hst]
      · rfl
    have hdst : (processChild m src t dh).dst = connect m.dst dh dt ((m.dst.v dh).out.idxOf dt) := by
      simp only [processChild, hpl]
    have hd2s : (processChild m src t dh).d2s = fun x => if x = dt then m.d2s dt ++ [t] else m.d2s x := by
      simp only [processChild, hpl]
    have hsame := connect_same m.dst dh dt ((m.dst.v dh).out.idxOf dt)
    have hmono : ∀ v u, u ∈ (m.dst.v v).out → u ∈ ((processChild m src t dh).dst.v v).out := by
      intro v u hu; rw [hdst, connect_mem]; exact .inl hu
    refine ⟨by rw [hs2d]; exact h.zero, ?_, ?_, ?_, ?_, ?_, ?_, ?_, ?_, ?_, ?_, ?_, ?_, ?_, ?_, ?_, ?_, ?_, ?_⟩
    · rw [hdst, hsame.n]; exact h.size
    · intro d hdn
      rw [hdst]
      exact ⟨(hsame.bytes d).trans (h.data d hdn).1, (hsame.isMatch d).trans (h.data d hdn).2.1, (hsame.label d).trans (h.data d hdn).2.2⟩
    · intro d d'
      rw [hdst, connect_mem, h.edge, hs2d]
      constructor
      · rintro ((h1 | ⟨e', h1, h2, h3⟩) | ⟨rfl, rfl⟩)
        · exact .inl h1
        · exact .inr ⟨e', by simp [h1], h2, h3⟩
        · exact .inr ⟨e, by simp, hh2, by rw [ht, hst]⟩
      · rintro (h1 | ⟨e', h1, h2, h3⟩)
        · exact .inl (.inl h1)
        · rcases List.mem_cons.1 h1 with rfl | h1
          · rw [ht, hst] at h3; rw [hh2] at h2
            exact .inr ⟨(Option.some.inj h2).symm, (Option.some.inj h3).symm⟩
          · exact .inl (.inr ⟨e', h1, h2, h3⟩)
    · rw [hdst]; exact connect_balanced h.bal _ _ _
    · intro d; rw [hdst]; exact connect_nodup h.nodup _ _ _ d
    · intro t' d ht' h1
      rw [hs2d] at h1
      obtain ⟨a, b, c⟩ := h.img t' d ht' h1
      rw [hdst]
      exact ⟨a, by rw [hsame.n]; exact b, (hsame.bytes d).trans c.1, (hsame.isMatch d).trans c.2.1, (hsame.label d).trans c.2.2⟩
    · intro e' he'
      rw [hs2d]
      rcases List.mem_cons.1 he' with rfl | he'
      · exact ⟨hei, by rw [hh2]; simp, by rw [ht, hst]; simp⟩
      · exact h.vis1 e' he'
    · intro t' ht' h1
      rw [hs2d] at h1
      obtain ⟨e', h2, h3⟩ := h.via t' ht' h1
      exact ⟨e', by simp [h2], h3⟩
    · rw [hs2d]; exact h.eqOld
    · rw [hs2d]; exact h.eqSrc
    · intro d t' ht'
      rw [hs2d]
      rw [hd2s] at ht'
      simp only at ht'
      split at ht'
      · rename_i e1
        rcases List.mem_append.1 ht' with h1 | h1
        · rw [e1]; exact h.d2s1 dt t' h1
        · rw [List.mem_singleton.1 h1, e1]; exact ⟨hst, ht0⟩
      · exact h.d2s1 d t' ht'
    · intro t' d ht' h1
      rw [hs2d] at h1
      rw [hd2s]
      simp only
      split
      · rename_i e1
        rw [e1] at h1
        exact List.mem_append.2 (.inl (h.d2s2 t' dt ht' h1))
      · exact h.d2s2 t' d ht' h1
    · intro d h1 h2
      rw [hs2d]
      rw [hdst, hsame.n] at h2
      exact h.new d h1 h2
    · rw [hs2d]; exact h.one
    · intro t' d p ht' h1 h2 h3
      rw [hs2d] at h1 ⊢
      rw [hdst, connect_mem] at h3
      rcases h3 with h3 | ⟨rfl, rfl⟩
      · exact h.up t' d p ht' h1 h2 h3
      · -- the edge would be one already followed
        exfalso
        obtain ⟨e', he', hte⟩ := h.via t ht0 (by rw [hst]; simp)
        have := hs.bal.edge_unique (h.one t d ht0 hst h2) hei (h.vis1 e' he').1 ht hte
        exact hev (this ▸ he')
    · intro t' d h1
      rw [hs2d] at h1
      exact leads_mono hmono (h.reach t' d h1)
    · intro d hdn
      rw [hdst, hsame.n] at hdn
      rw [hdst]
      obtain ⟨a, b, c⟩ := h.far d hdn
      exact ⟨(hsame.bytes d).trans a, (hsame.isMatch d).trans b, (hsame.label d).trans c⟩
    · rw [hs2d]; exact h.from0
  | none =>
    cases hf : findMerge m src t ((m.dst.v dh).out.drop ((m.pos dh).getD 0)) ((m.pos dh).getD 0) with
    | some r =>
      obtain ⟨di, dt⟩ := r
      obtain ⟨hdt1, hcm⟩ := findMerge_some _ _ hf
      have hdt : dt ∈ (m.dst.v dh).out := List.mem_of_mem_drop hdt1
      obtain ⟨hA, hB⟩ := merged_reads hd hs h ht0 hh2 htm hdt hcm
      obtain ⟨-, hdt0, hdtn⟩ := h.range hd hs hdt
      obtain ⟨c1, c2, c3, c4, c5⟩ := canMerge_spec hcm
      have hpl : place m src t dh = (m.dst, dt, di) := by simp only [place, hst, hf]
      have hs2d : (processChild m src t dh).s2d = fun x => if x = t then some dt else m.s2d x := by
        simp only [processChild, hpl]
      have hdst : (processChild m src t dh).dst = m.dst := by
        simp only [processChild, hpl, connect]
        rw [if_pos hdt]
      have hd2s : (processChild m src t dh).d2s = fun x => if x = dt then m.d2s dt ++ [t] else m.d2s x := by
        simp only [processChild, hpl]
      have hmt : ∀ x, x ≠ t → (processChild m src t dh).s2d x = m.s2d x := by
        intro x hx; rw [hs2d]; simp only; rw [if_neg hx]
      have hmt' : (processChild m src t dh).s2d t = some dt := by rw [hs2d]; simp
      have hkeep : ∀ x d, m.s2d x = some d → (processChild m src t dh).s2d x = some d := by
        intro x d hx
        by_cases hxt : x = t
        · rw [hxt, hst] at hx; cases hx
        · rw [hmt x hxt]; exact hx
      have hcase : ∀ x d, (processChild m src t dh).s2d x = some d → (x = t ∧ d = dt) ∨ (x ≠ t ∧ m.s2d x = some d) := by
        intro x d hx
        by_cases hxt : x = t
        · rw [hxt, hmt'] at hx; exact .inl ⟨hxt, (Option.some.inj hx).symm⟩
        · rw [hmt x hxt] at hx; exact .inr ⟨hxt, hx⟩
      have hB' : ∀ x, m.s2d x = some dt → ∀ w, Reads src w x ↔ Reads src w t := by
        intro x hx
        refine hB x ?_ hx
        rintro rfl
        rw [h.zero] at hx; cases hx; omega
      refine ⟨hkeep 0 0 h.zero, ?_, ?_, ?_, ?_, ?_, ?_, ?_, ?_, ?_, ?_, ?_, ?_, ?_, ?_, ?_, ?_, ?_, ?_⟩
      · rw [hdst]; exact h.size
      · rw [hdst]; exact h.data
      · intro d d'
        rw [hdst, h.edge]
        constructor
        · rintro (h1 | ⟨e', h1, h2, h3⟩)
          · exact .inl h1
          · exact .inr ⟨e', by simp [h1], hkeep _ _ h2, hkeep _ _ h3⟩
        · rintro (h1 | ⟨e', h1, h2, h3⟩)
          · exact .inl h1
          · rcases List.mem_cons.1 h1 with rfl | h1
            · rw [ht, hmt'] at h3
              have h2' := hkeep _ _ hh2
              rw [h2'] at h2
              cases h2; cases h3
              exact (h.edge _ _).1 hdt
            · obtain ⟨v1, v2, v3⟩ := h.vis1 e' h1
              obtain ⟨a, ha⟩ := Option.ne_none_iff_exists'.1 v2
              obtain ⟨b, hb⟩ := Option.ne_none_iff_exists'.1 v3
              rw [hkeep _ _ ha] at h2
              rw [hkeep _ _ hb] at h3
              cases h2; cases h3
              exact .inr ⟨e', h1, ha, hb⟩
      · rw [hdst]; exact h.bal
      · rw [hdst]; exact h.nodup
      · intro t' d ht' h1
        rw [hdst]
        rcases hcase _ _ h1 with ⟨rfl, rfl⟩ | ⟨-, h1⟩
        · refine ⟨by omega, hdtn, c5, ?_, c1⟩
          have a := hlm d hdtn (by omega)
          have b := hl.labels t'
          rw [c1] at a
          cases h1 : (m.dst.v d).isMatch <;> cases h2 : (src.v t').isMatch <;> simp_all
        · exact h.img t' d ht' h1
      · intro e' he'
        rcases List.mem_cons.1 he' with rfl | he'
        · exact ⟨hei, by rw [hkeep _ _ hh2]; simp, by rw [ht, hmt']; simp⟩
        · obtain ⟨v1, v2, v3⟩ := h.vis1 e' he'
          obtain ⟨a, ha⟩ := Option.ne_none_iff_exists'.1 v2
          obtain ⟨b, hb⟩ := Option.ne_none_iff_exists'.1 v3
          exact ⟨v1, by rw [hkeep _ _ ha]; simp, by rw [hkeep _ _ hb]; simp⟩
      · intro t' ht' h1
        by_cases htt : t' = t
        · exact ⟨e, by simp, by rw [ht, htt]⟩
        · rw [hmt _ htt] at h1
          obtain ⟨e', h2, h3⟩ := h.via t' ht' h1
          exact ⟨e', by simp [h2], h3⟩
      · intro t' d h1 hlt
        rcases hcase _ _ h1 with ⟨rfl, rfl⟩ | ⟨-, h1⟩
        · exact (hA hlt).1
        · exact h.eqOld t' d h1 hlt
      · intro t1 t2 d h1 h2 w
        rcases hcase _ _ h1 with ⟨e1, e2⟩ | ⟨-, h3⟩
        · rcases hcase _ _ h2 with ⟨e3, -⟩ | ⟨-, h4⟩
          · rw [e1, e3]
          · rw [e1]; exact (hB' t2 (e2 ▸ h4) w).symm
        · rcases hcase _ _ h2 with ⟨e1, e2⟩ | ⟨-, h4⟩
          · rw [e1]; exact hB' t1 (e2 ▸ h3) w
          · exact h.eqSrc t1 t2 d h3 h4 w
      · intro d t' ht'
        rw [hd2s] at ht'
        simp only at ht'
        split at ht'
        · rename_i e1
          rcases List.mem_append.1 ht' with h1 | h1
          · rw [e1]; exact ⟨hkeep _ _ (h.d2s1 dt t' h1).1, (h.d2s1 dt t' h1).2⟩
          · rw [List.mem_singleton.1 h1, e1]; exact ⟨hmt', ht0⟩
        · exact ⟨hkeep _ _ (h.d2s1 d t' ht').1, (h.d2s1 d t' ht').2⟩
      · intro t' d ht' h1
        rw [hd2s]
        simp only
        rcases hcase _ _ h1 with ⟨rfl, rfl⟩ | ⟨-, h1⟩
        · simp
        · split
          · rename_i e1
            rw [e1] at h1
            exact List.mem_append.2 (.inl (h.d2s2 t' dt ht' h1))
          · exact h.d2s2 t' d ht' h1
      · intro d h1 h2
        rw [hdst] at h2
        obtain ⟨t', h3, h4⟩ := h.new d h1 h2
        exact ⟨t', h3, hkeep _ _ h4⟩
      · intro t' d ht' h1 hlt
        rcases hcase _ _ h1 with ⟨rfl, rfl⟩ | ⟨-, h1⟩
        · exact c3
        · exact h.one t' d ht' h1 hlt
      · intro t' d p ht' h1 h2 h3
        rw [hdst] at h3
        rcases hcase _ _ h1 with ⟨rfl, rfl⟩ | ⟨-, h1⟩
        · obtain ⟨q, hq⟩ := h.bal.single c2
          have e1 := (hq p).1 h3
          have e2 := (hq dh).1 hdt
          rw [e1, ← e2]
          exact ⟨(hA h2).2, e.1, hkeep _ _ hh2⟩
        · obtain ⟨a, x, hx⟩ := h.up t' d p ht' h1 h2 h3
          exact ⟨a, x, hkeep _ _ hx⟩
      · intro t' d h1
        rw [hdst]
        rcases hcase _ _ h1 with ⟨rfl, rfl⟩ | ⟨-, h1⟩
        · exact (h.reach _ _ hh2).snoc hdt
        · exact h.reach t' d h1
      · rw [hdst]; exact h.far
      · intro t' d h1
        rcases hcase _ _ h1 with ⟨e1, -⟩ | ⟨-, h2⟩
        · rw [e1]; exact (h.from0 _ _ hh2).snoc htm
        · exact h.from0 t' d h2
    | none =>
      -- a new state
      obtain ⟨di, hpl⟩ : ∃ di, place m src t dh = (copyVertex m.dst (src.v t), m.dst.n, di) := by
        simp only [place, hst, hf]; exact ⟨_, rfl⟩
      have hs2d : (processChild m src t dh).s2d = fun x => if x = t then some m.dst.n else m.s2d x := by
        simp only [processChild, hpl]
      have hdst : (processChild m src t dh).dst = connect (copyVertex m.dst (src.v t)) dh m.dst.n di := by
        simp only [processChild, hpl]
      have hd2s : (processChild m src t dh).d2s = fun x => if x = m.dst.n then m.d2s m.dst.n ++ [t] else m.d2s x := by
        simp only [processChild, hpl]
      have hsame := connect_same (copyVertex m.dst (src.v t)) dh m.dst.n di
      have hcv : ∀ d, d ≠ m.dst.n → (copyVertex m.dst (src.v t)).v d = m.dst.v d := by
        intro d hdn; simp only [copyVertex]; rw [if_neg hdn]
      have hcn : (copyVertex m.dst (src.v t)).v m.dst.n =
          { bytes := (src.v t).bytes, isMatch := (src.v t).isMatch, label := (src.v t).label } := by
        simp [copyVertex]
      have hno : (m.dst.v m.dst.n).out = [] := by
        rw [List.eq_nil_iff_forall_not_mem]
        intro x hx
        have := (h.range hd hs hx).1
        omega
      have hni : (m.dst.v m.dst.n).inn = [] := by
        rw [List.eq_nil_iff_forall_not_mem]
        intro x hx
        have := (h.range hd hs (h.bal.mem.2 hx)).2.2
        omega
      have hout : ∀ d, ((copyVertex m.dst (src.v t)).v d).out = (m.dst.v d).out := by
        intro d
        by_cases e1 : d = m.dst.n
        · rw [e1, hcn, hno]
        · rw [hcv d e1]
      have hinn : ∀ d, ((copyVertex m.dst (src.v t)).v d).inn = (m.dst.v d).inn := by
        intro d
        by_cases e1 : d = m.dst.n
        · rw [e1, hcn, hni]
        · rw [hcv d e1]
      have hbal : Balanced (copyVertex m.dst (src.v t)) := by
        intro a b; rw [hout, hinn]; exact h.bal a b
      have hnd : ∀ v, ((copyVertex m.dst (src.v t)).v v).out.Nodup := by
        intro v; rw [hout]; exact h.nodup v
      have hsz : (copyVertex m.dst (src.v t)).n = m.dst.n + 1 := rfl
      have hmt : ∀ x, x ≠ t → (processChild m src t dh).s2d x = m.s2d x := by
        intro x hx; rw [hs2d]; simp only; rw [if_neg hx]
      have hmt' : (processChild m src t dh).s2d t = some m.dst.n := by rw [hs2d]; simp
      have hkeep : ∀ x d, m.s2d x = some d → (processChild m src t dh).s2d x = some d := by
        intro x d hx
        by_cases hxt : x = t
        · rw [hxt, hst] at hx; cases hx
        · rw [hmt x hxt]; exact hx
      have hcase : ∀ x d, (processChild m src t dh).s2d x = some d →
          (x = t ∧ d = m.dst.n) ∨ (d < m.dst.n ∧ m.s2d x = some d) := by
        intro x d hx
        by_cases hxt : x = t
        · rw [hxt, hmt'] at hx; exact .inl ⟨hxt, (Option.some.inj hx).symm⟩
        · rw [hmt x hxt] at hx; exact .inr ⟨h.lt hd hx, hx⟩
      have hmono : ∀ v u, u ∈ (m.dst.v v).out → u ∈ ((processChild m src t dh).dst.v v).out := by
        intro v u hu; rw [hdst, connect_mem, hout]; exact .inl hu
      have hsize := h.size
      have hdata : ∀ d, d ≠ m.dst.n → SameData ((processChild m src t dh).dst.v d) (m.dst.v d) := by
        intro d hdn
        rw [hdst]
        refine ⟨?_, ?_, ?_⟩
        · rw [hsame.bytes, hcv d hdn]
        · rw [hsame.isMatch, hcv d hdn]
        · rw [hsame.label, hcv d hdn]
      refine ⟨hkeep 0 0 h.zero, ?_, ?_, ?_, ?_, ?_, ?_, ?_, ?_, ?_, ?_, ?_, ?_, ?_, ?_, ?_, ?_, ?_, ?_⟩
      · rw [hdst, hsame.n, hsz]; omega
      · intro d hdn
        obtain ⟨a, b, c⟩ := hdata d (by omega)
        obtain ⟨a', b', c'⟩ := h.data d hdn
        exact ⟨a.trans a', b.trans b', c.trans c'⟩
      · intro d d'
        rw [hdst, connect_mem, hout, h.edge]
        constructor
        · rintro ((h1 | ⟨e', h1, h2, h3⟩) | ⟨rfl, rfl⟩)
          · exact .inl h1
          · exact .inr ⟨e', by simp [h1], hkeep _ _ h2, hkeep _ _ h3⟩
          · exact .inr ⟨e, by simp, hkeep _ _ hh2, by rw [ht, hmt']⟩
        · rintro (h1 | ⟨e', h1, h2, h3⟩)
          · exact .inl (.inl h1)
          · rcases List.mem_cons.1 h1 with rfl | h1
            · rw [ht, hmt'] at h3
              rw [hkeep _ _ hh2] at h2
              exact .inr ⟨(Option.some.inj h2).symm, (Option.some.inj h3).symm⟩
            · obtain ⟨v1, v2, v3⟩ := h.vis1 e' h1
              obtain ⟨a, ha⟩ := Option.ne_none_iff_exists'.1 v2
              obtain ⟨b, hb⟩ := Option.ne_none_iff_exists'.1 v3
              rw [hkeep _ _ ha] at h2
              rw [hkeep _ _ hb] at h3
              cases h2; cases h3
              exact .inl (.inr ⟨e', h1, ha, hb⟩)
      · rw [hdst]; exact connect_balanced hbal _ _ _
      · intro d; rw [hdst]; exact connect_nodup hnd _ _ _ d
      · intro t' d ht' h1
        rcases hcase _ _ h1 with ⟨e1, e2⟩ | ⟨hlt, h2⟩
        · refine ⟨by omega, by rw [hdst, hsame.n, hsz]; omega, ?_⟩
          rw [hdst, e1, e2]
          refine ⟨?_, ?_, ?_⟩
          · rw [hsame.bytes, hcn]
          · rw [hsame.isMatch, hcn]
          · rw [hsame.label, hcn]
        · obtain ⟨a, b, c⟩ := h.img t' d ht' h2
          obtain ⟨x, y, z⟩ := hdata d (by omega)
          exact ⟨a, by rw [hdst, hsame.n, hsz]; omega, x.trans c.1, y.trans c.2.1, z.trans c.2.2⟩
      · intro e' he'
        rcases List.mem_cons.1 he' with rfl | he'
        · exact ⟨hei, by rw [hkeep _ _ hh2]; simp, by rw [ht, hmt']; simp⟩
        · obtain ⟨v1, v2, v3⟩ := h.vis1 e' he'
          obtain ⟨a, ha⟩ := Option.ne_none_iff_exists'.1 v2
          obtain ⟨b, hb⟩ := Option.ne_none_iff_exists'.1 v3
          exact ⟨v1, by rw [hkeep _ _ ha]; simp, by rw [hkeep _ _ hb]; simp⟩
      · intro t' ht' h1
        by_cases htt : t' = t
        · exact ⟨e, by simp, by rw [ht, htt]⟩
        · rw [hmt _ htt] at h1
          obtain ⟨e', h2, h3⟩ := h.via t' ht' h1
          exact ⟨e', by simp [h2], h3⟩
      · intro t' d h1 hlt
        rcases hcase _ _ h1 with ⟨e1, e2⟩ | ⟨-, h2⟩
        · omega
        · exact h.eqOld t' d h2 hlt
      · intro t1 t2 d h1 h2 w
        rcases hcase _ _ h1 with ⟨e1, e2⟩ | ⟨hlt, h3⟩
        · rcases hcase _ _ h2 with ⟨e3, -⟩ | ⟨hlt, h4⟩
          · rw [e1, e3]
          · omega
        · rcases hcase _ _ h2 with ⟨e1, e2⟩ | ⟨-, h4⟩
          · omega
          · exact h.eqSrc t1 t2 d h3 h4 w
      · intro d t' ht'
        rw [hd2s] at ht'
        simp only at ht'
        split at ht'
        · rename_i e1
          rcases List.mem_append.1 ht' with h1 | h1
          · rw [e1]; exact ⟨hkeep _ _ (h.d2s1 _ t' h1).1, (h.d2s1 _ t' h1).2⟩
          · rw [List.mem_singleton.1 h1, e1]; exact ⟨hmt', ht0⟩
        · exact ⟨hkeep _ _ (h.d2s1 d t' ht').1, (h.d2s1 d t' ht').2⟩
      · intro t' d ht' h1
        rw [hd2s]
        simp only
        rcases hcase _ _ h1 with ⟨e1, e2⟩ | ⟨hlt, h2⟩
        · rw [if_pos e2, e1]; simp
        · rw [if_neg (by omega)]
          exact h.d2s2 t' d ht' h2
      · intro d h1 h2
        rw [hdst, hsame.n, hsz] at h2
        by_cases hlt : d < m.dst.n
        · obtain ⟨t', h3, h4⟩ := h.new d h1 hlt
          exact ⟨t', h3, hkeep _ _ h4⟩
        · have : d = m.dst.n := by omega
          exact ⟨t, ht0, by rw [this]; exact hmt'⟩
      · intro t' d ht' h1 hlt
        rcases hcase _ _ h1 with ⟨e1, e2⟩ | ⟨-, h2⟩
        · omega
        · exact h.one t' d ht' h2 hlt
      · intro t' d p ht' h1 h2 h3
        rw [hdst, connect_mem, hout] at h3
        rcases hcase _ _ h1 with ⟨e1, e2⟩ | ⟨hlt, h4⟩
        · omega
        · rcases h3 with h3 | ⟨-, h3⟩
          · obtain ⟨a, x, hx⟩ := h.up t' d p ht' h4 h2 h3
            exact ⟨a, x, hkeep _ _ hx⟩
          · omega
      · intro t' d h1
        rcases hcase _ _ h1 with ⟨e1, e2⟩ | ⟨hlt, h2⟩
        · rw [e2]
          refine (leads_mono hmono (h.reach _ _ hh2)).snoc ?_
          rw [hdst, connect_mem]
          exact .inr ⟨rfl, rfl⟩
        · exact leads_mono hmono (h.reach t' d h2)
      · intro d hdn
        rw [hdst, hsame.n, hsz] at hdn
        obtain ⟨a, b, c⟩ := hdata d (by omega)
        obtain ⟨a', b', c'⟩ := h.far d (by omega)
        exact ⟨a.trans a', b.trans b', c.trans c'⟩
      · intro t' d h1
        rcases hcase _ _ h1 with ⟨e1, -⟩ | ⟨-, h2⟩
        · rw [e1]; exact (h.from0 _ _ hh2).snoc htm
        · exact h.from0 t' d h2

/-! ## The loop -/

/-- How the combined automaton comes out of a merge. -/
structure Merged (dst0 src : Graph) (vis : List (Nat × Nat)) (m : Merge) : Prop extends MInv dst0 src vis m where
  done : ∀ h, m.s2d h ≠ none → ∀ i, i < (src.v h).out.length → (h, i) ∈ vis

theorem mem_edgesOf {src : Graph} {v : Nat} {e : Nat × Nat} : e ∈ edgesOf src v ↔ e.1 = v ∧ e.2 < (src.v v).out.length := by
  simp only [edgesOf, List.mem_map, List.mem_range]
  constructor
  · rintro ⟨i, hi, rfl⟩; exact ⟨rfl, hi⟩
  · rintro ⟨rfl, hi⟩; exact ⟨e.2, hi, rfl⟩

/-- What holds of the stack. -/
structure Stack (src : Graph) (es vis : List (Nat × Nat)) (m : Merge) : Prop where
  ok : ∀ e ∈ es, e.2 < (src.v e.1).out.length ∧ m.s2d e.1 ≠ none
  all : ∀ h, m.s2d h ≠ none → ∀ i, i < (src.v h).out.length → (h, i) ∈ vis ∨ (h, i) ∈ es
  nodup : vis.Nodup

theorem process_mapped (m : Merge) (src : Graph) (t dh x : Nat) :
    (processChild m src t dh).s2d x ≠ none ↔ x = t ∨ m.s2d x ≠ none := by
  simp only [processChild]
  split
  · rename_i e; simp [e]
  · rename_i e; simp [e]

theorem stack_step {src : Graph} {e : Nat × Nat} {es vis : List (Nat × Nat)} {m : Merge} (dh : Nat)
    (hk : Stack src (e :: es) vis m) (hev : e ∉ vis) :
    Stack src (edgesOf src (tl src e) ++ es) (e :: vis) (processChild m src (tl src e) dh) := by
  refine ⟨?_, ?_, List.nodup_cons.2 ⟨hev, hk.nodup⟩⟩
  · intro e' he'
    rw [process_mapped]
    rcases List.mem_append.1 he' with h1 | h1
    · obtain ⟨h2, h3⟩ := mem_edgesOf.1 h1
      exact ⟨by rw [h2]; exact h3, .inl h2⟩
    · obtain ⟨h2, h3⟩ := hk.ok e' (by simp [h1])
      exact ⟨h2, .inr h3⟩
  · intro h hh i hi
    rw [process_mapped] at hh
    rcases hh with rfl | hh
    · exact .inr (List.mem_append.2 (.inl (mem_edgesOf.2 ⟨rfl, hi⟩)))
    · rcases hk.all h hh i hi with h1 | h1
      · exact .inl (by simp [h1])
      · rcases List.mem_cons.1 h1 with h1 | h1
        · exact .inl (by simp [h1])
        · exact .inr (List.mem_append.2 (.inr h1))

theorem stack_skip {src : Graph} {e : Nat × Nat} {es vis : List (Nat × Nat)} {m : Merge}
    (hk : Stack src (e :: es) vis m) (hev : e ∈ vis) : Stack src es vis m := by
  refine ⟨fun e' he' => hk.ok e' (by simp [he']), ?_, hk.nodup⟩
  intro h hh i hi
  rcases hk.all h hh i hi with h1 | h1
  · exact .inl h1
  · rcases List.mem_cons.1 h1 with h1 | h1
    · exact .inl (h1 ▸ hev)
    · exact .inr h1

theorem mergeLoop_spec {dst0 src : Graph} (hd : Base dst0) (hs : Fresh src) (hl : LabelsMatch src)
    (hl' : ∀ v < dst0.n, (dst0.v v).isMatch = true ↔ (dst0.v v).label ≠ none) : ∀ fuel es vis m g,
    MInv dst0 src vis m → Stack src es vis m → mergeLoop src fuel es vis m = some g →
    ∃ vis' m', m'.dst = g ∧ Merged dst0 src vis' m' := by
  intro fuel
  induction fuel with
  | zero => intro es vis m g _ _ h; cases h
  | succ fuel ih =>
    intro es vis m g hi hk h
    match es with
    | [] =>
      simp only [mergeLoop, Option.some.injEq] at h
      exact ⟨vis, m, h, hi, fun h hh i hi => by simpa using hk.all h hh i hi⟩
    | e :: es =>
      obtain ⟨a, i⟩ := e
      simp only [mergeLoop] at h
      by_cases hv : (a, i) ∈ vis
      · rw [if_pos hv] at h
        exact ih es vis m g hi (stack_skip hk hv) h
      · rw [if_neg hv] at h
        obtain ⟨h1, h2⟩ := hk.ok (a, i) (by simp)
        obtain ⟨dh, hdh⟩ := Option.ne_none_iff_exists'.1 h2
        simp only at hdh
        rw [hdh, Option.getD_some] at h
        exact ih _ _ _ g (process_inv hd hs hl hl' hi hv h1 hdh) (stack_step dh hk hv) h

theorem init_stack (dst0 src : Graph) : Stack src (edgesOf src 0) []
    { dst := dst0, s2d := fun x => if x = 0 then some 0 else none, d2s := fun _ => [], pos := fun _ => none } := by
  refine ⟨?_, ?_, List.nodup_nil⟩
  · intro e he
    obtain ⟨h1, h2⟩ := mem_edgesOf.1 he
    exact ⟨by rw [h1]; exact h2, by simp [h1]⟩
  · intro h hh i hi
    have : h = 0 := by
      by_contra hne
      simp [hne] at hh
    subst this
    exact .inr (mem_edgesOf.2 ⟨rfl, hi⟩)

theorem merged_of_merge {dst src dst' : Graph} (hd : Base dst) (hs : Fresh src) (hl : LabelsMatch src)
    (hl' : ∀ v < dst.n, (dst.v v).isMatch = true ↔ (dst.v v).label ≠ none) {fuel : Nat}
    (h : mergeIntoFSM fuel dst src = some dst') : ∃ vis m, m.dst = dst' ∧ Merged dst src vis m :=
  mergeLoop_spec hd hs hl hl' fuel _ _ _ _ (init_inv hd hs) (init_stack dst src) h

/-- The number of edges of an automaton bounds that of the edges visited. -/
theorem visited_le {src : Graph} (hs : Fresh src) {vis : List (Nat × Nat)} (hn : vis.Nodup)
    (hv : ∀ e ∈ vis, e.2 < (src.v e.1).out.length) :
    vis.length ≤ ((List.range src.n).flatMap (edgesOf src)).length := by
  refine (List.subperm_of_subset hn ?_).length_le
  intro e he
  rw [List.mem_flatMap]
  exact ⟨e.1, List.mem_range.2 (hs.range e.1 _ (tl_mem (hv e he))).1, mem_edgesOf.2 ⟨rfl, hv e he⟩⟩

theorem mergeLoop_ends {dst0 src : Graph} (hd : Base dst0) (hs : Fresh src) (hl : LabelsMatch src)
    (hl' : ∀ v < dst0.n, (dst0.v v).isMatch = true ↔ (dst0.v v).label ≠ none) : ∀ k es vis m,
    ((List.range src.n).flatMap (edgesOf src)).length ≤ vis.length + k → MInv dst0 src vis m → Stack src es vis m →
    ∃ g F, ∀ fuel ≥ F, mergeLoop src fuel es vis m = some g := by
  intro k
  induction k with
  | zero =>
    intro es
    induction es with
    | nil =>
      intro vis m _ _ _
      refine ⟨m.dst, 1, fun fuel hf => ?_⟩
      obtain ⟨n, rfl⟩ : ∃ n, fuel = n + 1 := ⟨fuel - 1, by omega⟩
      rfl
    | cons e es ih =>
      intro vis m hle hi hk
      by_cases hv : e ∈ vis
      · obtain ⟨g, F, hF⟩ := ih vis m hle hi (stack_skip hk hv)
        refine ⟨g, F + 1, fun fuel hf => ?_⟩
        obtain ⟨n, rfl⟩ : ∃ n, fuel = n + 1 := ⟨fuel - 1, by omega⟩
        obtain ⟨a, i⟩ := e
        simp only [mergeLoop]
        rw [if_pos hv]
        exact hF n (by omega)
      · exfalso
        have : (e :: vis).length ≤ _ := visited_le hs (List.nodup_cons.2 ⟨hv, hk.nodup⟩) (by
          intro e' he'
          rcases List.mem_cons.1 he' with rfl | he'
          · exact (hk.ok e' (by simp)).1
          · exact (hi.vis1 e' he').1)
        simp only [List.length_cons] at this
        omega
  | succ k ihk =>
    intro es
    induction es with
    | nil =>
      intro vis m _ _ _
      refine ⟨m.dst, 1, fun fuel hf => ?_⟩
      obtain ⟨n, rfl⟩ : ∃ n, fuel = n + 1 := ⟨fuel - 1, by omega⟩
      rfl
    | cons e es ih =>
      intro vis m hle hi hk
      by_cases hv : e ∈ vis
      · obtain ⟨g, F, hF⟩ := ih vis m hle hi (stack_skip hk hv)
        refine ⟨g, F + 1, fun fuel hf => ?_⟩
        obtain ⟨n, rfl⟩ : ∃ n, fuel = n + 1 := ⟨fuel - 1, by omega⟩
        obtain ⟨a, i⟩ := e
        simp only [mergeLoop]
        rw [if_pos hv]
        exact hF n (by omega)
      · obtain ⟨h1, h2⟩ := hk.ok e (by simp)
        obtain ⟨dh, hdh⟩ := Option.ne_none_iff_exists'.1 h2
        obtain ⟨g, F, hF⟩ := ihk (edgesOf src (tl src e) ++ es) (e :: vis) (processChild m src (tl src e) dh)
          (by simp only [List.length_cons]; omega) (process_inv hd hs hl hl' hi hv h1 hdh) (stack_step dh hk hv)
        refine ⟨g, F + 1, fun fuel hf => ?_⟩
        obtain ⟨n, rfl⟩ : ∃ n, fuel = n + 1 := ⟨fuel - 1, by omega⟩
        obtain ⟨a, i⟩ := e
        simp only at hdh
        simp only [mergeLoop]
        rw [if_neg hv, hdh, Option.getD_some]
        exact hF n (by omega)

/-- Merging comes to an end. -/
theorem merge_ends {dst src : Graph} (hd : Base dst) (hs : Fresh src) (hl : LabelsMatch src)
    (hl' : ∀ v < dst.n, (dst.v v).isMatch = true ↔ (dst.v v).label ≠ none) :
    ∃ dst' F, ∀ fuel ≥ F, mergeIntoFSM fuel dst src = some dst' :=
  mergeLoop_ends hd hs hl hl' _ _ [] _ (by simp only [List.length_nil, Nat.zero_add]; exact Nat.le_refl _)
    (init_inv hd hs) (init_stack dst src)

/-! ## The language -/

theorem Merged.edge_src {dst0 src : Graph} {vis m} (h : Merged dst0 src vis m) {v u dv : Nat}
    (hu : u ∈ (src.v v).out) (hv : m.s2d v = some dv) : ∃ du, m.s2d u = some du ∧ du ∈ (m.dst.v dv).out := by
  obtain ⟨i, hi, hiu⟩ := List.getElem_of_mem hu
  have hvis := h.done v (by rw [hv]; simp) i hi
  have ht : tl src (v, i) = u := by simp only [tl]; rw [getD_lt _ hi, hiu]
  obtain ⟨du, hdu⟩ := Option.ne_none_iff_exists'.1 (h.vis1 _ hvis).2.2
  rw [ht] at hdu
  exact ⟨du, hdu, (h.edge dv du).2 (.inr ⟨_, hvis, hv, by rw [ht]; exact hdu⟩)⟩

theorem Merged.reads_src {dst0 src : Graph} {vis m} (hs : Fresh src) (h : Merged dst0 src vis m) {t : Nat} {w : List UInt8}
    (hr : Reads src w t) : ∃ d, m.s2d t = some d ∧ Reads m.dst w d := by
  induction hr with
  | init => exact ⟨0, h.zero, .init⟩
  | @step w v u b _ hu hb ih =>
    obtain ⟨dv, h1, h2⟩ := ih
    obtain ⟨du, hdu, he⟩ := h.edge_src hu h1
    have hu0 := (hs.range v u hu).2.1
    refine ⟨du, hdu, .step h2 he ?_⟩
    rw [(h.img u du (by omega) hdu).2.2.1]; exact hb

theorem Merged.reads_old {dst0 src : Graph} {vis m} (hd : Base dst0) (h : Merged dst0 src vis m) {d : Nat} {w : List UInt8}
    (hr : Reads dst0 w d) : Reads m.dst w d := by
  induction hr with
  | init => exact .init
  | @step w v u b _ hu hb ih =>
    refine .step ih ((h.edge v u).2 (.inl hu)) ?_
    rw [(h.data u (hd.range v u hu).2.2).1]; exact hb

/-- The words read into the states of the outcome. -/
theorem Merged.reads {dst0 src : Graph} {vis m} (hd : Base dst0) (hs : Fresh src) (h : Merged dst0 src vis m) {d : Nat}
    {w : List UInt8} : Reads m.dst w d ↔ Reads dst0 w d ∨ ∃ t, m.s2d t = some d ∧ Reads src w t := by
  constructor
  · intro hr
    induction hr with
    | init => exact .inl .init
    | @step w v u b _ hu hb ih =>
      -- what is read into `v`, in each automaton it belongs to
      have hold : ∀ t, m.s2d t = some v → Reads src w t := by
        intro t ht
        rcases ih with h1 | ⟨t', h1, h2⟩
        · rcases Nat.lt_or_ge v dst0.n with hlt | hge
          · exact (h.eqOld t v ht hlt w).1 h1
          · exfalso
            generalize hw : w = w' at h1
            cases h1 with
            | init => have := hd.pos; omega
            | step _ h3 _ => have := (hd.range _ _ h3).2.2; omega
        · exact (h.eqSrc t t' v ht h1 w).2 h2
      rcases (h.edge v u).1 hu with h1 | ⟨e, he, h1, h2⟩
      · obtain ⟨a, -, c⟩ := hd.range v u h1
        left
        refine .step ?_ h1 (by rw [← (h.data u c).1]; exact hb)
        rcases ih with h3 | ⟨t', h3, h4⟩
        · exact h3
        · exact (h.eqOld t' v h3 a w).2 h4
      · have hm := tl_mem (h.vis1 e he).1
        have h0 := (hs.range _ _ hm).2.1
        refine .inr ⟨_, h2, .step (hold _ h1) hm ?_⟩
        rw [← (h.img _ u (by omega) h2).2.2.1]; exact hb
  · rintro (h1 | ⟨t, h1, h2⟩)
    · exact h.reads_old hd h1
    · obtain ⟨d', h3, h4⟩ := h.reads_src hs h2
      rw [h1] at h3; cases h3; exact h4

theorem reads_lt {g : Graph} (hd : Base g) {w : List UInt8} {v : Nat} (h : Reads g w v) : v < g.n := by
  cases h with
  | init => exact hd.pos
  | step _ h2 _ => exact (hd.range _ _ h2).2.2

theorem Merged.accepts {dst0 src : Graph} {vis m} (hd : Base dst0) (hs : Fresh src) (hl : LabelsMatch src)
    (hr : (dst0.v 0).isMatch = false) (h : Merged dst0 src vis m) (l : Nat) (w : List UInt8) :
    Accepts m.dst l w ↔ Accepts dst0 l w ∨ Accepts src l w := by
  have hr' : (m.dst.v 0).isMatch = false := by rw [(h.data 0 hd.pos).2.1]; exact hr
  rw [accepts_iff_reads hr', accepts_iff_reads hr, accepts_iff_reads hl.root]
  constructor
  · rintro ⟨d, h1, h2, h3⟩
    rcases (h.reads hd hs).1 h1 with h4 | ⟨t, h4, h5⟩
    · obtain ⟨-, b, c⟩ := h.data d (reads_lt hd h4)
      exact .inl ⟨d, h4, by rw [← b]; exact h2, by rw [← c]; exact h3⟩
    · by_cases ht : t = 0
      · subst ht
        rw [h.zero] at h4; cases h4
        rw [hr'] at h2; cases h2
      · obtain ⟨-, -, -, b, c⟩ := h.img t d ht h4
        exact .inr ⟨t, h5, by rw [← b]; exact h2, by rw [← c]; exact h3⟩
  · rintro (⟨d, h1, h2, h3⟩ | ⟨t, h1, h2, h3⟩)
    · obtain ⟨-, b, c⟩ := h.data d (reads_lt hd h1)
      exact ⟨d, (h.reads hd hs).2 (.inl h1), by rw [b]; exact h2, by rw [c]; exact h3⟩
    · obtain ⟨d, h4, h5⟩ := h.reads_src hs h1
      have ht : t ≠ 0 := by
        rintro rfl
        rw [hl.root] at h2; cases h2
      obtain ⟨-, -, -, b, c⟩ := h.img t d ht h4
      exact ⟨d, h5, by rw [b]; exact h2, by rw [c]; exact h3⟩

/-- C20: the combined automaton accepts with each label just what it accepted and what
the new automaton accepts. -/
theorem merge_language {dst src dst' : Graph} (hd : Base dst) (hdl : LabelsMatch dst) (hs : Fresh src) (hl : LabelsMatch src)
    {fuel : Nat} (h : mergeIntoFSM fuel dst src = some dst') (l : Nat) (w : List UInt8) :
    Accepts dst' l w ↔ Accepts dst l w ∨ Accepts src l w := by
  obtain ⟨vis, m, rfl, hm⟩ := merged_of_merge hd hs hl (fun v _ => hdl.labels v) h
  exact hm.accepts hd hs hl hdl.root l w

/-! ## The shape of the outcome -/

/-- The combined automata, as the compiler needs them: besides being tidy they have no
parallel edges and every state can be entered. -/
structure Combined (g : Graph) : Prop extends Tidy g where
  pos : 0 < g.n
  bal : Balanced g
  nodup : ∀ v, (g.v v).out.Nodup
  bytes : ∀ v < g.n, v ≠ 0 → (g.v v).bytes ≠ 0

/-- The automata of single patterns: no way leads into a dead end. -/
structure Pattern (g : Graph) (l : Nat) : Prop extends Fresh g, OneLabel g l where
  bytes : ∀ v, Leads g 0 v → v ≠ 0 → (g.v v).bytes ≠ 0
  live : ∀ v, Leads g 0 v → v ≠ 0 → ∃ m, Leads g v m ∧ (g.v m).isMatch = true

theorem leads_last {g : Graph} {a b : Nat} (h : Leads g a b) : a = b ∨ ∃ p, Leads g a p ∧ b ∈ (g.v p).out := by
  induction h with
  | refl => exact .inl rfl
  | step hu _ ih =>
    rcases ih with rfl | ⟨p, h1, h2⟩
    · exact .inr ⟨_, .refl _, hu⟩
    · exact .inr ⟨p, .step hu h1, h2⟩

theorem Combined.base {g : Graph} (h : Combined g) : Base g where
  pos := h.pos
  range := h.range
  bal := h.bal
  nodup := h.nodup
  pred := by
    intro v hv h0
    rcases leads_last (h.reach v hv) with e | ⟨p, -, h2⟩
    · exact (h0 e.symm).elim
    · exact ⟨p, h2⟩

theorem Combined.labelsMatch {g : Graph} (h : Combined g) : LabelsMatch g := ⟨h.root, h.labels⟩

theorem Pattern.labelsMatch {g : Graph} {l : Nat} (h : Pattern g l) : LabelsMatch g where
  root := h.root
  labels := by
    intro v
    cases hm : (g.v v).isMatch
    · simp [h.others v hm]
    · simp [h.matches_ v hm]

theorem combined_init : Combined Graph.init := by
  have hv : ∀ v, Graph.init.v v = {} := fun v => rfl
  have hn : Graph.init.n = 1 := rfl
  refine ⟨⟨?_, ?_, ?_, ?_, rfl, ?_, ?_, ?_⟩, by rw [hn]; omega, ?_, ?_, ?_⟩
  · intro v u; simp [hv]
  · intro v u hu; simp [hv] at hu
  · intro v; simp [hv]
  · intro v h; simp [hv] at h
  · intro m m' h; simp [hv] at h
  · intro v h
    have : v = 0 := by rw [hn] at h; omega
    rw [this]; exact .refl 0
  · intro v h h0; rw [hn] at h; omega
  · intro a b; simp [hv]
  · intro v; simp [hv]
  · intro v h h0; rw [hn] at h; omega

/-- Merging a pattern with a new label keeps the combined automaton in shape. -/
theorem merge_combined {dst src dst' : Graph} {l : Nat} (hd : Combined dst) (hs : Pattern src l)
    (hf : ∀ v, (dst.v v).label ≠ some l) {fuel : Nat} (h : mergeIntoFSM fuel dst src = some dst') :
    Combined dst' ∧ ∀ v k, (dst'.v v).label = some k → k = l ∨ ∃ v', (dst.v v').label = some k := by
  have hb := hd.base
  have hfr : Fresh src := hs.toFresh
  have hlm := hs.labelsMatch
  obtain ⟨vis, m, rfl, hm⟩ := merged_of_merge hb hfr hlm (fun v _ => hd.labels v) h
  have hsize := hm.size
  -- ways in the new automaton have images
  have himg : ∀ {a b da}, Leads src a b → m.s2d a = some da → ∃ db, m.s2d b = some db ∧ Leads m.dst da db := by
    intro a b da hl
    induction hl generalizing da with
    | refl => intro ha; exact ⟨da, ha, .refl _⟩
    | step hu _ ih =>
      intro ha
      obtain ⟨du, hdu, he⟩ := hm.edge_src hu ha
      obtain ⟨db, h1, h2⟩ := ih hdu
      exact ⟨db, h1, .step he h2⟩
  have hmap := hm.from0
  -- old ways stay
  have hmono : ∀ v u, u ∈ (dst.v v).out → u ∈ (m.dst.v v).out := fun v u hu => (hm.edge v u).2 (.inl hu)
  -- where the data of a state is from
  have hfrom : ∀ d, d ≠ 0 → d < m.dst.n → (d < dst.n ∧ SameData (m.dst.v d) (dst.v d)) ∨
      (dst.n ≤ d ∧ ∃ t, t ≠ 0 ∧ m.s2d t = some d ∧ SameData (m.dst.v d) (src.v t)) := by
    intro d h0 hlt
    rcases Nat.lt_or_ge d dst.n with h1 | h1
    · exact .inl ⟨h1, hm.data d h1⟩
    · obtain ⟨t, h2, h3⟩ := hm.new d h1 hlt
      exact .inr ⟨h1, t, h2, h3, (hm.img t d h2 h3).2.2⟩
  have hany : ∀ d, (SameData (m.dst.v d) (dst.v d)) ∨
      (d < m.dst.n ∧ dst.n ≤ d ∧ ∃ t, t ≠ 0 ∧ m.s2d t = some d ∧ SameData (m.dst.v d) (src.v t)) := by
    intro d
    rcases Nat.lt_or_ge d m.dst.n with h1 | h1
    · by_cases h0 : d = 0
      · exact .inl (hm.data d (by have := hb.pos; omega))
      · rcases hfrom d h0 h1 with ⟨-, h2⟩ | h2
        · exact .inl h2
        · exact .inr ⟨h1, h2⟩
    · exact .inl (hm.far d h1)
  have hlabels : ∀ v, (m.dst.v v).isMatch = true ↔ (m.dst.v v).label ≠ none := by
    intro v
    rcases hany v with ⟨-, h2, h3⟩ | ⟨-, -, t, -, -, -, h2, h3⟩
    · rw [h2, h3]; exact hd.labels v
    · rw [h2, h3]; exact hlm.labels t
  -- edges into old states which are images come from such states
  have hnewout : ∀ p d, dst.n ≤ p → d ∈ (m.dst.v p).out → dst.n ≤ d := by
    intro p d hp he
    by_contra hlt
    rcases (hm.edge p d).1 he with h1 | ⟨e, he', h1, h2⟩
    · have := (hb.range p d h1).1; omega
    · have h0 := (hfr.range _ _ (tl_mem (hm.vis1 e he').1)).2.1
      have := (hm.up _ d p (by omega) h2 (by omega) he).1
      omega
  have hpure : ∀ p d, p < dst.n → (∀ t, m.s2d t ≠ some p) → d ∈ (m.dst.v p).out →
      d ∈ (dst.v p).out ∧ ∀ t, m.s2d t ≠ some d := by
    intro p d hp hn he
    rcases (hm.edge p d).1 he with h1 | ⟨e, -, h1, -⟩
    · refine ⟨h1, ?_⟩
      intro t ht
      obtain ⟨-, h0, hdn⟩ := hb.range p d h1
      by_cases ht0 : t = 0
      · subst ht0; rw [hm.zero] at ht; cases ht; omega
      · obtain ⟨-, x, hx⟩ := hm.up t d p ht0 ht hdn he
        exact hn x hx
    · exact (hn _ h1).elim
  have hnewleads : ∀ a b, Leads m.dst a b → dst.n ≤ a → dst.n ≤ b := by
    intro a b hl
    induction hl with
    | refl => exact id
    | step hu _ ih => intro ha; exact ih (hnewout _ _ ha hu)
  have hpureleads : ∀ a b, Leads m.dst a b → a < dst.n → (∀ t, m.s2d t ≠ some a) → Leads dst a b ∧ b < dst.n := by
    intro a b hl
    induction hl with
    | refl => intro ha _; exact ⟨.refl _, ha⟩
    | step hu _ ih =>
      intro ha hn
      obtain ⟨h1, h2⟩ := hpure _ _ ha hn hu
      obtain ⟨h3, h4⟩ := ih (hb.range _ _ h1).2.2 h2
      exact ⟨.step h1 h3, h4⟩
  have hpos : 0 < m.dst.n := by have := hb.pos; omega
  refine ⟨⟨⟨?_, ?_, hlabels, ?_, ?_, ?_, ?_, ?_⟩, hpos, hm.bal, hm.nodup, ?_⟩, ?_⟩
  · intro v u; exact hm.bal.mem
  · intro v u hu; exact hm.range hb hfr hu
  · intro v hv
    by_contra hge
    rw [(hm.far v (by omega)).2.1] at hv
    have := hd.inside v hv
    omega
  · rw [(hm.data 0 hb.pos).2.1]; exact hd.root
  · intro a b ha hb' hl
    rcases hany a with ⟨-, h2, h3⟩ | ⟨-, h1, t, -, -, -, h2, h3⟩
    · -- an old match: it is no image
      have hma : (dst.v a).isMatch = true := by rw [← h2]; exact ha
      have han := hd.inside a hma
      have hni : ∀ t, m.s2d t ≠ some a := by
        intro t ht
        by_cases ht0 : t = 0
        · subst ht0; rw [hm.zero] at ht; cases ht
          rw [hd.root] at hma; cases hma
        · obtain ⟨-, -, -, h4, h5⟩ := hm.img t a ht0 ht
          have := hs.matches_ t (by rw [← h4]; exact ha)
          rw [h5.symm, h3] at this
          exact hf a this
      obtain ⟨h4, h5⟩ := hpureleads a b hl han hni
      have hdb := hm.data b h5
      rw [hdb.2.2, h3]
      exact hd.tails a b hma (by rw [← hdb.2.1]; exact hb') h4
    · have h4 := hnewleads a b hl h1
      have e1 := hs.matches_ t (by rw [← h2]; exact ha)
      rcases Nat.lt_or_ge b m.dst.n with hbn | hbn
      · obtain ⟨t', h5, h6⟩ := hm.new b h4 hbn
        obtain ⟨-, -, -, h7, h8⟩ := hm.img t' b h5 h6
        have e2 := hs.matches_ t' (by rw [← h7]; exact hb')
        rw [h8, e2, h3, e1]
      · rw [(hm.far b hbn).2.1] at hb'
        have := hd.inside b hb'
        omega
  · intro v hv
    rcases Nat.lt_or_ge v dst.n with h1 | h1
    · exact leads_mono hmono (hd.reach v h1)
    · obtain ⟨t, -, h2⟩ := hm.new v h1 hv
      exact hm.reach t v h2
  · intro v hv h0
    rcases hfrom v h0 hv with ⟨h1, -⟩ | ⟨h1, t, h2, h3, -⟩
    · obtain ⟨x, h2, h3⟩ := hd.live v h1 h0
      refine ⟨x, leads_mono hmono h2, ?_⟩
      rw [(hm.data x (hd.inside x h3)).2.1]; exact h3
    · obtain ⟨x, h4, h5⟩ := hs.live t (hmap t v h3) h2
      obtain ⟨dx, h6, h7⟩ := himg h4 h3
      refine ⟨dx, h7, ?_⟩
      have hx0 : x ≠ 0 := by rintro rfl; rw [hs.root] at h5; cases h5
      rw [(hm.img x dx hx0 h6).2.2.2.1]; exact h5
  · intro v hv h0
    rcases hfrom v h0 hv with ⟨h1, h2, -⟩ | ⟨h1, t, h2, h3, h4, -⟩
    · rw [h2]; exact hd.bytes v h1 h0
    · rw [h4]; exact hs.bytes t (hmap t v h3) h2
  · intro v k hk
    rcases hany v with ⟨-, -, h3⟩ | ⟨-, -, t, -, -, -, h2, h3⟩
    · exact .inr ⟨v, by rw [← h3]; exact hk⟩
    · left
      rw [h3] at hk
      cases hmt : (src.v t).isMatch
      · rw [hs.others t hmt] at hk; cases hk
      · rw [hs.matches_ t hmt] at hk; exact (Option.some.inj hk).symm

end Verif.Optimizer
