import Verif.NfaBuilder
import Verif.Props.Regex
/-!
# Properties of the automaton builder (C15, C16, C17)
-/
namespace Verif.NfaBuilder
open Verif.Regex Verif.Nfa

/-! ## Paths -/

theorem _root_.Verif.Nfa.Path.append {g : Graph} {a s d t : Nat} {x y : List UInt8} (h : Path g a x s)
    (he : d ∈ (g.v s).out) (h' : Path g d y t) : Path g a (x ++ y) t := by
  induction h with
  | one hb => exact .cons hb he h'
  | cons hb hu _ ih => exact .cons hb hu (ih he)

theorem _root_.Verif.Nfa.Path.ne_nil {g : Graph} {a t : Nat} {w : List UInt8} (h : Path g a w t) : w ≠ [] := by
  cases h <;> simp

/-- Two graphs agree on the bytes and edges of a closed set of vertices. -/
theorem _root_.Verif.Nfa.Path.transfer {g g' : Graph} {C : Nat → Prop} (hc : ∀ a, C a → ∀ b ∈ (g.v a).out, C b)
    (hb : ∀ a, C a → (g'.v a).bytes = (g.v a).bytes)
    (ho : ∀ a, C a → ∀ b ∈ (g.v a).out, b ∈ (g'.v a).out)
    {a t : Nat} {w : List UInt8} (h : Path g a w t) (ha : C a) : Path g' a w t ∧ C t := by
  induction h with
  | one hx => exact ⟨.one (by rw [hb _ ha]; exact hx), ha⟩
  | cons hx hu _ ih =>
    obtain ⟨h1, h2⟩ := ih (hc _ ha _ hu)
    exact ⟨.cons (by rw [hb _ ha]; exact hx) (ho _ ha _ hu) h1, h2⟩

/-! ## Adding edges -/

/-- `g'` is `g` with edges from all of `S` to all of `D`. -/
structure Added (g g' : Graph) (S D : List Nat) : Prop where
  n : g'.n = g.n
  bytes : ∀ a, (g'.v a).bytes = (g.v a).bytes
  isMatch : ∀ a, (g'.v a).isMatch = (g.v a).isMatch
  label : ∀ a, (g'.v a).label = (g.v a).label
  out : ∀ a b, b ∈ (g'.v a).out ↔ b ∈ (g.v a).out ∨ (a ∈ S ∧ b ∈ D)
  same : ∀ a, a ∉ S → a ∉ D → g'.v a = g.v a

theorem mem_insertAt {l : List Nat} {i x y : Nat} : y ∈ insertAt l i x ↔ y ∈ l ∨ y = x := by
  unfold insertAt
  rw [List.mem_append, List.mem_cons]
  constructor
  · rintro (h | rfl | h)
    · exact Or.inl (List.mem_of_mem_take h)
    · exact Or.inr rfl
    · exact Or.inl (List.mem_of_mem_drop h)
  · rintro (h | rfl)
    · rw [← List.take_append_drop i l, List.mem_append] at h
      tauto
    · tauto

theorem insertEdge_added (g : Graph) (h t pos : Nat) : Added g (g.insertEdge h t pos) [h] [t] := by
  refine ⟨rfl, ?_, ?_, ?_, ?_, ?_⟩
  · intro a; unfold Graph.insertEdge Graph.modify; dsimp only; split <;> split <;> rfl
  · intro a; unfold Graph.insertEdge Graph.modify; dsimp only; split <;> split <;> rfl
  · intro a; unfold Graph.insertEdge Graph.modify; dsimp only; split <;> split <;> rfl
  · intro a b
    unfold Graph.insertEdge Graph.modify
    dsimp only
    by_cases h1 : a = h
    · subst h1
      simp only [if_true]
      split <;> simp [mem_insertAt]
    · simp only [if_neg h1]
      split <;> simp [h1]
  · intro a h1 h2
    simp only [List.mem_singleton] at h1 h2
    unfold Graph.insertEdge Graph.modify
    simp [h1, h2]

theorem addEdge_added (g : Graph) (h t : Nat) : Added g (g.addEdge h t) [h] [t] := by
  refine ⟨rfl, ?_, ?_, ?_, ?_, ?_⟩
  · intro a; unfold Graph.addEdge Graph.modify; dsimp only; split <;> split <;> rfl
  · intro a; unfold Graph.addEdge Graph.modify; dsimp only; split <;> split <;> rfl
  · intro a; unfold Graph.addEdge Graph.modify; dsimp only; split <;> split <;> rfl
  · intro a b
    unfold Graph.addEdge Graph.modify
    dsimp only
    by_cases h1 : a = h
    · subst h1
      simp only [if_true]
      split <;> simp
    · simp only [if_neg h1]
      split <;> simp [h1]
  · intro a h1 h2
    simp only [List.mem_singleton] at h1 h2
    unfold Graph.addEdge Graph.modify
    simp [h1, h2]

theorem Added.refl (g : Graph) (S : List Nat) : Added g g S [] :=
  ⟨rfl, fun _ => rfl, fun _ => rfl, fun _ => rfl, by simp, fun _ _ _ => rfl⟩

theorem insertEdges_added (v : Nat) (us : List Nat) : ∀ (g : Graph) (pos : Nat),
    Added g (insertEdges g v pos us) [v] us := by
  induction us with
  | nil => intro g pos; exact Added.refl g _
  | cons u us ih =>
    intro g pos
    have h1 := insertEdge_added g v u pos
    have h2 := ih (g.insertEdge v u pos) (pos + 1)
    show Added g (insertEdges (g.insertEdge v u pos) v (pos + 1) us) _ _
    refine ⟨h2.n.trans h1.n, fun a => (h2.bytes a).trans (h1.bytes a), fun a => (h2.isMatch a).trans (h1.isMatch a),
      fun a => (h2.label a).trans (h1.label a), ?_, ?_⟩
    · intro a b
      rw [h2.out, h1.out]
      simp only [List.mem_cons]
      tauto
    · intro a ha hb
      simp only [List.mem_cons, not_or] at hb
      rw [h2.same a ha hb.2, h1.same a ha (by simpa using hb.1)]

theorem patchMid_added (dst : List Nat) (skip : Option Nat) (os : List (Nat × Nat)) : ∀ g : Graph,
    Added g (patchMid g dst skip os).1 (os.map (·.1)) dst ∧
    (patchMid g dst skip os).2.map (·.1) = os.map (·.1) := by
  induction os with
  | nil =>
    intro g
    exact ⟨⟨rfl, fun _ => rfl, fun _ => rfl, fun _ => rfl, by simp [patchMid], fun _ _ _ => rfl⟩, rfl⟩
  | cons p os ih =>
    intro g
    obtain ⟨v, pos⟩ := p
    obtain ⟨k, hk⟩ : ∃ k, k = (match skip with
      | none => dst.length
      | some s => min s dst.length) := ⟨_, rfl⟩
    have e : patchMid g dst skip ((v, pos) :: os) =
        ((patchMid (insertEdges (insertEdges g v pos (dst.take k)) v (pos + k) (dst.drop k)) dst skip os).1,
          (v, pos + k) :: (patchMid (insertEdges (insertEdges g v pos (dst.take k)) v (pos + k) (dst.drop k))
            dst skip os).2) := by
      rw [hk]; rfl
    rw [e]
    have h1 := insertEdges_added v (dst.take k) g pos
    have h2 := insertEdges_added v (dst.drop k) (insertEdges g v pos (dst.take k)) (pos + k)
    obtain ⟨h3, h4⟩ := ih (insertEdges (insertEdges g v pos (dst.take k)) v (pos + k) (dst.drop k))
    refine ⟨⟨?_, ?_, ?_, ?_, ?_, ?_⟩, ?_⟩
    · exact h3.n.trans (h2.n.trans h1.n)
    · exact fun a => (h3.bytes a).trans ((h2.bytes a).trans (h1.bytes a))
    · exact fun a => (h3.isMatch a).trans ((h2.isMatch a).trans (h1.isMatch a))
    · exact fun a => (h3.label a).trans ((h2.label a).trans (h1.label a))
    · intro a b
      have hm : b ∈ dst ↔ b ∈ dst.take k ∨ b ∈ dst.drop k := by
        rw [← List.mem_append, List.take_append_drop]
      rw [h3.out, h2.out, h1.out]
      simp only [List.map_cons, List.mem_cons, List.not_mem_nil, or_false]
      tauto
    · intro a ha hb
      rw [List.map_cons, List.mem_cons, not_or] at ha
      have ha1 : a ∉ [v] := by simpa using ha.1
      rw [h3.same a ha.2 hb, h2.same a ha1 (fun h => hb (List.mem_of_mem_drop h)),
        h1.same a ha1 (fun h => hb (List.mem_of_mem_take h))]
    · simp only [List.map_cons, h4]

/-! ## What a fragment means -/

/-- The fragment `f`, made of the vertices added to `g0` to get `g`, accepts exactly
the strings of `L`. -/
structure Good (g0 g : Graph) (f : Frag) (L : Language UInt8) : Prop where
  le : g0.n ≤ g.n
  old : ∀ j < g0.n, g.v j = g0.v j
  ins : ∀ i ∈ f.ins, g0.n ≤ i ∧ i < g.n
  outs : ∀ o ∈ f.outs.map (·.1), g0.n ≤ o ∧ o < g.n
  edges : ∀ a, g0.n ≤ a → a < g.n → ∀ b ∈ (g.v a).out, g0.n ≤ b ∧ b < g.n
  fresh : ∀ a, g0.n ≤ a → a < g.n → (g.v a).isMatch = false
  skip : f.skip.isSome = true ↔ [] ∈ L
  lang : ∀ w, w ≠ [] → (w ∈ L ↔ ∃ i ∈ f.ins, ∃ o ∈ f.outs.map (·.1), Path g i w o)

theorem Good.congr {g0 g : Graph} {f : Frag} {L L' : Language UInt8} (h : Good g0 g f L) (e : L = L') :
    Good g0 g f L' := e ▸ h

/-- Paths of a fragment after edges were added elsewhere. -/
theorem Good.path_of_same {g0 g g' : Graph} {f : Frag} {L : Language UInt8} (h : Good g0 g f L)
    (hs : ∀ a, g0.n ≤ a → a < g.n → g'.v a = g.v a) (i : Nat) (hi : g0.n ≤ i ∧ i < g.n) (w : List UInt8) (t : Nat) :
    Path g i w t ↔ Path g' i w t := by
  constructor
  · intro hp
    exact (hp.transfer (C := fun a => g0.n ≤ a ∧ a < g.n) (fun a ha b hb => h.edges a ha.1 ha.2 b hb)
      (fun a ha => by rw [hs a ha.1 ha.2]) (fun a ha b hb => by rw [hs a ha.1 ha.2]; exact hb) hi).1
  · intro hp
    exact (hp.transfer (C := fun a => g0.n ≤ a ∧ a < g.n)
      (fun a ha b hb => h.edges a ha.1 ha.2 b (by rwa [hs a ha.1 ha.2] at hb))
      (fun a ha => by rw [hs a ha.1 ha.2]) (fun a ha b hb => by rwa [hs a ha.1 ha.2] at hb) hi).1

theorem alternate_good {g0 g1 g2 : Graph} {f s : Frag} {A B : Language UInt8} (h1 : Good g0 g1 f A)
    (h2 : Good g1 g2 s B) : Good g0 g2 (alternate f s) (A + B) := by
  have hle := h1.le
  have hle2 := h2.le
  refine ⟨by omega, ?_, ?_, ?_, ?_, ?_, ?_, ?_⟩
  · intro j hj
    rw [h2.old j (by omega), h1.old j hj]
  · intro i hi
    rcases List.mem_append.1 hi with hi | hi
    · have := h1.ins i hi; omega
    · have := h2.ins i hi; omega
  · intro o ho
    simp only [alternate, List.map_append, List.mem_append] at ho
    rcases ho with ho | ho
    · have := h1.outs o ho; omega
    · have := h2.outs o ho; omega
  · intro a ha ha2 b hb
    by_cases hlt : a < g1.n
    · rw [h2.old a hlt] at hb
      have := h1.edges a ha hlt b hb; omega
    · have := h2.edges a (by omega) ha2 b hb; omega
  · intro a ha ha2
    by_cases hlt : a < g1.n
    · rw [h2.old a hlt]; exact h1.fresh a ha hlt
    · exact h2.fresh a (by omega) ha2
  · rw [Language.mem_add, ← h1.skip, ← h2.skip]
    unfold alternate
    cases f.skip <;> cases s.skip <;> simp
  · intro w hw
    rw [Language.mem_add, h1.lang w hw, h2.lang w hw]
    have tr : ∀ i ∈ f.ins, ∀ t, Path g1 i w t ↔ Path g2 i w t := fun i hi t =>
      h1.path_of_same (fun a _ ha => h2.old a ha) i (h1.ins i hi) w t
    constructor
    · rintro (⟨i, hi, o, ho, hp⟩ | ⟨i, hi, o, ho, hp⟩)
      · exact ⟨i, List.mem_append_left _ hi, o, by
          simp only [alternate, List.map_append, List.mem_append]; exact Or.inl ho, (tr i hi o).1 hp⟩
      · exact ⟨i, List.mem_append_right _ hi, o, by
          simp only [alternate, List.map_append, List.mem_append]; exact Or.inr ho, hp⟩
    · rintro ⟨i, hi, o, ho, hp⟩
      simp only [alternate, List.map_append, List.mem_append] at ho
      rcases List.mem_append.1 hi with hi | hi
      · left
        have hp' := (tr i hi o).2 hp
        have hC := (hp'.transfer (g' := g1) (C := fun a => g0.n ≤ a ∧ a < g1.n)
          (fun a ha b hb => h1.edges a ha.1 ha.2 b hb) (fun _ _ => rfl) (fun _ _ _ hb => hb) (h1.ins i hi)).2
        rcases ho with ho | ho
        · exact ⟨i, hi, o, ho, hp'⟩
        · have := h2.outs o ho; omega
      · right
        have hC := (hp.transfer (g' := g2) (C := fun a => g1.n ≤ a ∧ a < g2.n)
          (fun a ha b hb => h2.edges a ha.1 ha.2 b hb) (fun _ _ => rfl) (fun _ _ _ hb => hb) (h2.ins i hi)).2
        rcases ho with ho | ho
        · have := h1.outs o ho; omega
        · exact ⟨i, hi, o, ho, hp⟩

/-- A path after edges from `S` to `D` were added, where the two sides were separate:
it stays on the first side, or crosses once. -/
theorem cross {g g' : Graph} {S D : List Nat} {C1 C2 : Nat → Prop} (ha : Added g g' S D)
    (hS : ∀ s ∈ S, C1 s) (hD : ∀ d ∈ D, C2 d) (hdis : ∀ a, C1 a → C2 a → False)
    (hc1 : ∀ a, C1 a → ∀ b ∈ (g.v a).out, C1 b) (hc2 : ∀ a, C2 a → ∀ b ∈ (g.v a).out, C2 b)
    {v t : Nat} {w : List UInt8} (hp : Path g' v w t) :
    (C2 v → Path g v w t ∧ C2 t) ∧
    (C1 v → (C1 t ∧ Path g v w t) ∨
      (C2 t ∧ ∃ x y, w = x ++ y ∧ ∃ s ∈ S, ∃ d ∈ D, Path g v x s ∧ Path g d y t)) := by
  induction hp with
  | one hb =>
    rw [ha.bytes] at hb
    exact ⟨fun h => ⟨.one hb, h⟩, fun h => Or.inl ⟨h, .one hb⟩⟩
  | @cons v u t b w hb hu hp ih =>
    rw [ha.bytes] at hb
    rw [ha.out] at hu
    constructor
    · intro hv
      rcases hu with hu | ⟨h, -⟩
      · obtain ⟨h1, h2⟩ := ih.1 (hc2 v hv u hu)
        exact ⟨.cons hb hu h1, h2⟩
      · exact (hdis v (hS v h) hv).elim
    · intro hv
      rcases hu with hu | ⟨h, hd⟩
      · rcases ih.2 (hc1 v hv u hu) with ⟨h1, h2⟩ | ⟨h1, x, y, rfl, s, hs, d, hd, h2, h3⟩
        · exact Or.inl ⟨h1, .cons hb hu h2⟩
        · exact Or.inr ⟨h1, b :: x, y, rfl, s, hs, d, hd, .cons hb hu h2, h3⟩
      · obtain ⟨h1, h2⟩ := ih.1 (hD u hd)
        exact Or.inr ⟨h2, [b], w, rfl, v, h, u, hd, .one hb, h1⟩

theorem Added.path {g g' : Graph} {S D : List Nat} (ha : Added g g' S D) {v t : Nat} {w : List UInt8}
    (hp : Path g v w t) : Path g' v w t :=
  (hp.transfer (C := fun _ => True) (fun _ _ _ _ => trivial) (fun a _ => ha.bytes a)
    (fun a _ b hb => (ha.out a b).2 (Or.inl hb)) trivial).1

theorem concatenate_good {g0 g1 g2 : Graph} {f s : Frag} {A B : Language UInt8} (h1 : Good g0 g1 f A)
    (h2 : Good g1 g2 s B) : Good g0 (concatenate g2 f s).1 (concatenate g2 f s).2 (A * B) := by
  have hle := h1.le
  have hle2 := h2.le
  obtain ⟨ha, hm⟩ := patchMid_added s.ins s.skip f.outs g2
  have eg : (concatenate g2 f s).1 = (patchMid g2 s.ins s.skip f.outs).1 := rfl
  rw [eg]
  obtain ⟨g3, hg3⟩ : ∃ g3, g3 = (patchMid g2 s.ins s.skip f.outs).1 := ⟨_, rfl⟩
  rw [← hg3] at ha ⊢
  have e1 : ∀ a, g0.n ≤ a → a < g1.n → ∀ b ∈ (g2.v a).out, g0.n ≤ b ∧ b < g1.n := by
    intro a h3 h4 b hb; rw [h2.old a h4] at hb; exact h1.edges a h3 h4 b hb
  have tr : ∀ i ∈ f.ins, ∀ w t, Path g1 i w t ↔ Path g2 i w t := fun i hi w t =>
    h1.path_of_same (fun a _ ha => h2.old a ha) i (h1.ins i hi) w t
  have hins : ∀ i, i ∈ (concatenate g2 f s).2.ins ↔ i ∈ f.ins ∨ (f.skip.isSome = true ∧ i ∈ s.ins) := by
    intro i
    show i ∈ (match f.skip with | some k => f.ins.take k ++ s.ins ++ f.ins.drop k | none => f.ins) ↔ _
    cases f.skip with
    | none => simp
    | some k =>
      have : i ∈ f.ins ↔ i ∈ f.ins.take k ∨ i ∈ f.ins.drop k := by
        rw [← List.mem_append, List.take_append_drop]
      simp only [List.mem_append, Option.isSome_some, true_and]
      tauto
  have houts : ∀ o, o ∈ (concatenate g2 f s).2.outs.map (·.1) ↔
      (s.skip.isSome = true ∧ o ∈ f.outs.map (·.1)) ∨ o ∈ s.outs.map (·.1) := by
    intro o
    show o ∈ List.map (fun p : Nat × Nat => p.1) (match s.skip with
      | some _ => (patchMid g2 s.ins s.skip f.outs).2 ++ s.outs
      | none => s.outs) ↔ _
    rw [← hm]
    cases s.skip with
    | none => simp
    | some k => simp
  refine ⟨by rw [ha.n]; omega, ?_, ?_, ?_, ?_, ?_, ?_, ?_⟩
  · intro j hj
    rw [ha.same j (fun h => by have := h1.outs j h; omega) (fun h => by have := h2.ins j h; omega),
      h2.old j (by omega), h1.old j hj]
  · intro i hi
    rw [ha.n]
    rcases (hins i).1 hi with hi | ⟨-, hi⟩
    · have := h1.ins i hi; omega
    · have := h2.ins i hi; omega
  · intro o ho
    rw [ha.n]
    rcases (houts o).1 ho with ⟨-, ho⟩ | ho
    · have := h1.outs o ho; omega
    · have := h2.outs o ho; omega
  · intro a h3 h4 b hb
    rw [ha.n] at h4 ⊢
    rw [ha.out] at hb
    rcases hb with hb | ⟨-, hb⟩
    · by_cases hlt : a < g1.n
      · have := e1 a h3 hlt b hb; omega
      · have := h2.edges a (by omega) h4 b hb; omega
    · have := h2.ins b hb; omega
  · intro a h3 h4
    rw [ha.n] at h4
    rw [ha.isMatch]
    by_cases hlt : a < g1.n
    · rw [h2.old a hlt]; exact h1.fresh a h3 hlt
    · exact h2.fresh a (by omega) h4
  · rw [nil_mem_mul, ← h1.skip, ← h2.skip]
    show (match f.skip, s.skip with | some j, some k => some (j + k) | _, _ => none).isSome = true ↔ _
    cases f.skip <;> cases s.skip <;> simp
  · intro w hw
    have hS : ∀ o ∈ f.outs.map (·.1), (fun a => g0.n ≤ a ∧ a < g1.n) o := fun o ho => h1.outs o ho
    have hD : ∀ d ∈ s.ins, (fun a => g1.n ≤ a ∧ a < g2.n) d := fun d hd => h2.ins d hd
    have cr := @cross g2 g3 (f.outs.map (·.1)) s.ins (fun a => g0.n ≤ a ∧ a < g1.n) (fun a => g1.n ≤ a ∧ a < g2.n)
      ha hS hD (fun a h3 h4 => by omega) (fun a h3 b hb => e1 a h3.1 h3.2 b hb)
      (fun a h3 b hb => h2.edges a h3.1 h3.2 b hb)
    rw [Language.mem_mul]
    constructor
    · rintro ⟨x, hx, y, hy, rfl⟩
      by_cases hx0 : x = []
      · subst hx0
        have hsk := h1.skip.2 hx
        have hy0 : y ≠ [] := by simpa using hw
        obtain ⟨i, hi, o, ho, hp⟩ := (h2.lang y hy0).1 hy
        exact ⟨i, (hins i).2 (Or.inr ⟨hsk, hi⟩), o, (houts o).2 (Or.inr ho), ha.path hp⟩
      · obtain ⟨i, hi, o, ho, hp⟩ := (h1.lang x hx0).1 hx
        by_cases hy0 : y = []
        · subst hy0
          have hsk := h2.skip.2 hy
          rw [List.append_nil]
          exact ⟨i, (hins i).2 (Or.inl hi), o, (houts o).2 (Or.inl ⟨hsk, ho⟩), ha.path ((tr i hi x o).1 hp)⟩
        · obtain ⟨i2, hi2, o2, ho2, hp2⟩ := (h2.lang y hy0).1 hy
          exact ⟨i, (hins i).2 (Or.inl hi), o2, (houts o2).2 (Or.inr ho2),
            (ha.path ((tr i hi x o).1 hp)).append ((ha.out o i2).2 (Or.inr ⟨ho, hi2⟩)) (ha.path hp2)⟩
    · rintro ⟨i, hi, o, ho, hp⟩
      rcases (hins i).1 hi with hi | ⟨hsk, hi⟩
      · rcases (cr hp).2 (h1.ins i hi) with ⟨hC, hp'⟩ | ⟨hC, x, y, rfl, u, hu, d, hd, hp1, hp2⟩
        · rcases (houts o).1 ho with ⟨hsk, ho⟩ | ho
          · exact ⟨w, (h1.lang w hw).2 ⟨i, hi, o, ho, (tr i hi w o).2 hp'⟩, [], h2.skip.1 hsk, by simp⟩
          · have := h2.outs o ho; omega
        · rcases (houts o).1 ho with ⟨hsk, ho⟩ | ho
          · have := h1.outs o ho; omega
          · exact ⟨x, (h1.lang x hp1.ne_nil).2 ⟨i, hi, u, hu, (tr i hi x u).2 hp1⟩, y,
              (h2.lang y hp2.ne_nil).2 ⟨d, hd, o, ho, hp2⟩, rfl⟩
      · obtain ⟨hp', hC⟩ := (cr hp).1 (h2.ins i hi)
        rcases (houts o).1 ho with ⟨-, ho⟩ | ho
        · have := h1.outs o ho; omega
        · exact ⟨[], h1.skip.1 hsk, w, (h2.lang w hw).2 ⟨i, hi, o, ho, hp'⟩, rfl⟩

/-! ## Repetition -/

theorem question_good {g0 g : Graph} {f : Frag} {A : Language UInt8} (ng : Bool) (h : Good g0 g f A) :
    Good g0 g (question ng f) (1 + A) := by
  have e1 : (question ng f).ins = f.ins := by unfold question; split; · rfl
                                              · split <;> rfl
  have e2 : (question ng f).outs = f.outs := by unfold question; split; · rfl
                                                · split <;> rfl
  have e3 : (question ng f).skip.isSome = true := by unfold question; split; · rfl
                                                     · split <;> rfl
  refine ⟨h.le, h.old, by rw [e1]; exact h.ins, by rw [e2]; exact h.outs, h.edges, h.fresh, ?_, ?_⟩
  · rw [e3]; simp [Language.mem_add]
  · intro w hw
    rw [e1, e2, ← h.lang w hw, Language.mem_add]
    simp [hw]

theorem plus_path {g g' : Graph} {S D : List Nat} (ha : Added g g' S D) {A : Language UInt8}
    (hA : ∀ w d s, d ∈ D → s ∈ S → Path g d w s → w ∈ A)
    {v t : Nat} {w : List UInt8} (hp : Path g' v w t) (ht : t ∈ S) :
    ∃ x y, w = x ++ y ∧ ∃ s ∈ S, Path g v x s ∧ y ∈ KStar.kstar A := by
  induction hp with
  | @one v b hb =>
    rw [ha.bytes] at hb
    exact ⟨[b], [], rfl, v, ht, .one hb, Language.nil_mem_kstar A⟩
  | @cons v u t b w hb hu hp ih =>
    rw [ha.bytes] at hb
    obtain ⟨x, y, rfl, s, hs, h1, h2⟩ := ih ht
    rcases (ha.out v u).1 hu with hu | ⟨h3, h4⟩
    · exact ⟨b :: x, y, rfl, s, hs, .cons hb hu h1, h2⟩
    · refine ⟨[b], x ++ y, rfl, v, h3, .one hb, ?_⟩
      obtain ⟨L, rfl, hL⟩ := Language.mem_kstar.1 h2
      exact Language.mem_kstar.2 ⟨x :: L, rfl, by
        intro z hz
        rcases List.mem_cons.1 hz with rfl | hz
        · exact hA z u s h4 hs h1
        · exact hL z hz⟩

theorem plus_good {g0 g : Graph} {f : Frag} {A : Language UInt8} (ng : Bool) (h : Good g0 g f A) :
    Good g0 (plus ng g f).1 (plus ng g f).2 (A * KStar.kstar A) := by
  obtain ⟨ha, hm⟩ := patchMid_added f.ins (if ng then some 0 else none) f.outs g
  have eg : (plus ng g f).1 = (patchMid g f.ins (if ng then some 0 else none) f.outs).1 := rfl
  have eo : (plus ng g f).2.outs.map (·.1) = f.outs.map (·.1) := hm
  rw [eg]
  obtain ⟨g3, hg3⟩ : ∃ g3, g3 = (patchMid g f.ins (if ng then some 0 else none) f.outs).1 := ⟨_, rfl⟩
  rw [← hg3] at ha ⊢
  refine ⟨by rw [ha.n]; exact h.le, ?_, ?_, ?_, ?_, ?_, ?_, ?_⟩
  · intro j hj
    rw [ha.same j (fun h' => by have := h.outs j h'; omega) (fun h' => by have := h.ins j h'; omega), h.old j hj]
  · intro i hi; rw [ha.n]; exact h.ins i hi
  · intro o ho; rw [eo] at ho; rw [ha.n]; exact h.outs o ho
  · intro a h3 h4 b hb
    rw [ha.n] at h4 ⊢
    rw [ha.out] at hb
    rcases hb with hb | ⟨-, hb⟩
    · exact h.edges a h3 h4 b hb
    · exact h.ins b hb
  · intro a h3 h4
    rw [ha.n] at h4
    rw [ha.isMatch]; exact h.fresh a h3 h4
  · rw [nil_mem_mul]
    show f.skip.isSome = true ↔ _
    rw [h.skip]
    exact ⟨fun h => ⟨h, Language.nil_mem_kstar A⟩, fun h => h.1⟩
  · intro w hw
    rw [eo]
    show _ ↔ ∃ i ∈ f.ins, _
    constructor
    · intro hmem
      rw [Language.mem_mul] at hmem
      obtain ⟨x, hx, y, hy, rfl⟩ := hmem
      have hxy : x ++ y ∈ KStar.kstar A := by
        obtain ⟨L, rfl, hL⟩ := Language.mem_kstar.1 hy
        exact Language.mem_kstar.2 ⟨x :: L, rfl, by
          intro z hz
          rcases List.mem_cons.1 hz with rfl | hz
          · exact hx
          · exact hL z hz⟩
      rw [Language.mem_kstar_iff_exists_nonempty] at hxy
      obtain ⟨S, e, hS⟩ := hxy
      rw [e] at hw ⊢
      clear e hx hy
      induction S with
      | nil => simp at hw
      | cons z S ih =>
        obtain ⟨hz1, hz2⟩ := hS z (by simp)
        obtain ⟨i, hi, o, ho, hp⟩ := (h.lang z hz2).1 hz1
        by_cases hS0 : S.flatten = []
        · rw [List.flatten_cons, hS0, List.append_nil]
          exact ⟨i, hi, o, ho, ha.path hp⟩
        · obtain ⟨i2, hi2, o2, ho2, hp2⟩ := ih hS0 (fun y hy => hS y (by simp [hy]))
          rw [List.flatten_cons]
          exact ⟨i, hi, o2, ho2, (ha.path hp).append ((ha.out o i2).2 (Or.inr ⟨ho, hi2⟩)) hp2⟩
    · rintro ⟨i, hi, o, ho, hp⟩
      obtain ⟨x, y, rfl, s, hs, h1, h2⟩ := plus_path ha
        (fun w d s hd hs hp => (h.lang w hp.ne_nil).2 ⟨d, hd, s, hs, hp⟩) hp ho
      exact Language.append_mem_mul ((h.lang x h1.ne_nil).2 ⟨i, hi, s, hs, h1⟩) h2

/-- The named repetitions. -/
theorem lang_question {α : Type} (sem : α → Language UInt8) (ng : Bool) (t : Tree α) :
    lang sem (.rep ng 0 1 t) = 1 + lang sem t := by
  ext w
  rw [mem_rep, Language.mem_add]
  constructor
  · rintro ⟨k, -, hk, hw⟩
    have : k = 0 ∨ k = 1 := by
      rcases hk with h | h
      · simp [UNB] at h
      · omega
    rcases this with rfl | rfl
    · left; simpa using hw
    · right; simpa using hw
  · rintro (h | h)
    · exact ⟨0, by omega, Or.inr (by omega), by simpa using h⟩
    · exact ⟨1, by omega, Or.inr (by omega), by simpa using h⟩

theorem mem_kstar_pow {A : Language UInt8} {w : List UInt8} : w ∈ KStar.kstar A ↔ ∃ k, w ∈ A ^ k := by
  rw [Language.kstar_eq_iSup_pow, Language.mem_iSup]

theorem lang_star {α : Type} (sem : α → Language UInt8) (ng : Bool) (t : Tree α) :
    lang sem (.rep ng 0 UNB t) = KStar.kstar (lang sem t) := by
  ext w
  rw [mem_rep, mem_kstar_pow]
  exact ⟨fun ⟨k, _, _, h⟩ => ⟨k, h⟩, fun ⟨k, h⟩ => ⟨k, by omega, Or.inl rfl, h⟩⟩

theorem lang_plus {α : Type} (sem : α → Language UInt8) (ng : Bool) (t : Tree α) :
    lang sem (.rep ng 1 UNB t) = lang sem t * KStar.kstar (lang sem t) := by
  ext w
  rw [mem_rep, Language.mem_mul]
  constructor
  · rintro ⟨k, hk, -, hw⟩
    obtain ⟨j, rfl⟩ : ∃ j, k = 1 + j := ⟨k - 1, by omega⟩
    rw [pow_add, pow_one, Language.mem_mul] at hw
    obtain ⟨x, hx, y, hy, e⟩ := hw
    exact ⟨x, hx, y, mem_kstar_pow.2 ⟨j, hy⟩, e⟩
  · rintro ⟨x, hx, y, hy, rfl⟩
    obtain ⟨j, hy⟩ := mem_kstar_pow.1 hy
    exact ⟨1 + j, by omega, Or.inl rfl, by
      rw [pow_add, pow_one]; exact Language.append_mem_mul hx hy⟩

/-! ## C16: counted repetition -/

theorem lang_copies {α : Type} (sem : α → Language UInt8) (t s : Tree α) (k : Nat) :
    lang sem (copies t s k) = lang sem t ^ k * lang sem s := by
  induction k with
  | zero => simp [copies]
  | succ k ih => simp only [copies, lang]; rw [ih, pow_succ', mul_assoc]

theorem mem_optional {α : Type} (sem : α → Language UInt8) (ng : Bool) (t : Tree α) (k : Nat) (w : List UInt8) :
    w ∈ lang sem (optional ng t k) ↔ ∃ j, j ≤ k + 1 ∧ w ∈ lang sem t ^ j := by
  induction k generalizing w with
  | zero =>
    rw [optional, lang_question, Language.mem_add]
    constructor
    · rintro (h | h)
      · exact ⟨0, by omega, by simpa using h⟩
      · exact ⟨1, by omega, by simpa using h⟩
    · rintro ⟨j, hj, h⟩
      have : j = 0 ∨ j = 1 := by omega
      rcases this with rfl | rfl
      · left; simpa using h
      · right; simpa using h
  | succ k ih =>
    rw [optional, lang_question, Language.mem_add]
    show _ ∨ w ∈ lang sem t * lang sem (optional ng t k) ↔ _
    rw [Language.mem_mul]
    constructor
    · rintro (h | ⟨x, hx, y, hy, rfl⟩)
      · exact ⟨0, by omega, by simpa using h⟩
      · obtain ⟨j, hj, h⟩ := (ih y).1 hy
        exact ⟨j + 1, by omega, by rw [pow_succ']; exact Language.append_mem_mul hx h⟩
    · rintro ⟨j, hj, h⟩
      cases j with
      | zero => left; simpa using h
      | succ j =>
        rw [pow_succ', Language.mem_mul] at h
        obtain ⟨x, hx, y, hy, rfl⟩ := h
        exact Or.inr ⟨x, hx, y, (ih y).2 ⟨j, by omega, hy⟩, rfl⟩

/-- **C16.** The tree a counted repetition is replaced by before the automaton is
built denotes exactly the strings made of at least `m` and at most `M` (or, with no
upper bound, any number of at least `m`) consecutive matches of the repeated pattern,
for every `m ≤ M` except `{0}` (which never reaches the builder, `reduce_noDead`). -/
theorem counted_repetition {α : Type} (sem : α → Language UInt8) (ng : Bool) (m M : Nat) (t : Tree α)
    (hm : m ≤ M) (h0 : ¬ (m = 0 ∧ M = 0)) (hu : m < UNB) (w : List UInt8) :
    w ∈ lang sem (expandRep ng m M t) ↔ ∃ k, m ≤ k ∧ (M = UNB ∨ k ≤ M) ∧ w ∈ lang sem t ^ k := by
  unfold expandRep
  split
  · rfl
  · next hn =>
    split
    · next e =>
      subst e
      rw [lang_copies, ← pow_succ, show m - 1 + 1 = m by omega]
      constructor
      · intro h; exact ⟨m, Nat.le_refl _, Or.inr (Nat.le_refl _), h⟩
      · rintro ⟨k, hk, hk2, h⟩
        have : k = m := by rcases hk2 with h' | h' <;> omega
        exact this ▸ h
    · split
      · next e =>
        rw [lang_copies, lang_plus, ← mul_assoc, ← pow_succ, Language.mem_mul]
        have hm1 : 1 ≤ m := by
          rcases Nat.eq_zero_or_pos m with h | h
          · exact absurd (Or.inl ⟨h, Or.inr e⟩) hn
          · exact h
        rw [show m - 1 + 1 = m by omega]
        constructor
        · rintro ⟨x, hx, y, hy, rfl⟩
          obtain ⟨j, hy⟩ := mem_kstar_pow.1 hy
          exact ⟨m + j, by omega, Or.inl e, by rw [pow_add]; exact Language.append_mem_mul hx hy⟩
        · rintro ⟨k, hk, -, h⟩
          obtain ⟨j, rfl⟩ : ∃ j, k = m + j := ⟨k - m, by omega⟩
          rw [pow_add, Language.mem_mul] at h
          obtain ⟨x, hx, y, hy, e⟩ := h
          exact ⟨x, hx, y, mem_kstar_pow.2 ⟨j, hy⟩, e⟩
      · next hne hnu =>
        rw [lang_copies, Language.mem_mul]
        constructor
        · rintro ⟨x, hx, y, hy, rfl⟩
          obtain ⟨j, hj, hy⟩ := (mem_optional sem ng t _ y).1 hy
          exact ⟨m + j, by omega, Or.inr (by omega), by rw [pow_add]; exact Language.append_mem_mul hx hy⟩
        · rintro ⟨k, hk, hk2, h⟩
          have hk2 : k ≤ M := by rcases hk2 with h' | h'; · exact absurd h' hnu
                                 · exact h'
          obtain ⟨j, rfl⟩ : ∃ j, k = m + j := ⟨k - m, by omega⟩
          rw [pow_add, Language.mem_mul] at h
          obtain ⟨x, hx, y, hy, e⟩ := h
          exact ⟨x, hx, y, (mem_optional sem ng t _ y).2 ⟨j, by omega, hy⟩, e⟩

/-- Only `?`, `*` and `+` repetitions. -/
def Named {α : Type} : Tree α → Prop
  | .leaf _ => True
  | .alt l r => Named l ∧ Named r
  | .cat l r => Named l ∧ Named r
  | .rep _ m M t => ((m = 0 ∧ (M = 1 ∨ M = UNB)) ∨ (m = 1 ∧ M = UNB)) ∧ Named t
  | .look _ _ => False

theorem named_copies {α : Type} {t s : Tree α} (ht : Named t) (hs : Named s) (k : Nat) :
    Named (copies t s k) := by
  induction k with
  | zero => exact hs
  | succ k ih => exact ⟨ht, ih⟩

theorem named_optional {α : Type} {t : Tree α} (ng : Bool) (ht : Named t) (k : Nat) :
    Named (optional ng t k) := by
  induction k with
  | zero => exact ⟨Or.inl ⟨rfl, Or.inl rfl⟩, ht⟩
  | succ k ih => exact ⟨Or.inl ⟨rfl, Or.inl rfl⟩, ht, ih⟩

theorem expand_named {α : Type} (t : Tree α) (hn : NoLook t) : Named (expand t) := by
  induction t with
  | leaf a => trivial
  | look k t => exact hn.elim
  | alt l r ihl ihr => exact ⟨ihl hn.1, ihr hn.2⟩
  | cat l r ihl ihr => exact ⟨ihl hn.1, ihr hn.2⟩
  | rep ng m M t ih =>
    have ih := ih hn
    show Named (expandRep ng m M (expand t))
    unfold expandRep
    split
    · next h => exact ⟨h, ih⟩
    · split
      · exact named_copies ih ih _
      · split
        · exact named_copies ih (s := .rep ng 1 UNB _) ⟨Or.inr ⟨rfl, rfl⟩, ih⟩ _
        · exact named_copies ih (named_optional ng ih _) _

theorem expand_lang {α : Type} (sem : α → Language UInt8) (t : Tree α) (hok : Ok t) (hd : NoDead t) :
    lang sem (expand t) = lang sem t := by
  induction t with
  | leaf a => rfl
  | look k t => rfl
  | alt l r ihl ihr => simp only [expand, lang]; rw [ihl hok.1 hd.1, ihr hok.2 hd.2]
  | cat l r ihl ihr => simp only [expand, lang]; rw [ihl hok.1 hd.1, ihr hok.2 hd.2]
  | rep ng m M t ih =>
    ext w
    show w ∈ lang sem (expandRep ng m M (expand t)) ↔ _
    rw [counted_repetition sem ng m M (expand t) hok.1 hd.1 hok.2.2.1, mem_rep, ih hok.2.2.2 hd.2]

/-! ## Leaves -/

/-- The byte string fits the sequence of byte sets. -/
def Fits (e : List BSet) (w : List UInt8) : Prop := List.Forall₂ (fun s b => s.has b = true) e w

/-- What a leaf denotes: a literal, its bytes; a class, the strings fitting one of its
sequences, with the single breakout bytes added or removed. -/
def leafSem : Leaf → Language UInt8
  | .lit bs => {w | w = bs}
  | .cls encs brk true => {w | (∃ e ∈ encs, Fits e w) ∨ ∃ b, brk.has b = true ∧ w = [b]}
  | .cls encs brk false => {w | (∃ e ∈ encs, Fits e w) ∧ ¬ ∃ b, brk.has b = true ∧ w = [b]}

/-- What the encoders guarantee of a class's sequences: none is empty, only the first can
have length one, and no byte set in them is empty. -/
def LeafOk : Leaf → Prop
  | .lit bs => bs ≠ []
  | .cls encs _ _ => (∀ e ∈ encs, e ≠ []) ∧ (∀ e ∈ encs.tail, e.length ≠ 1) ∧ ∀ e ∈ encs, ∀ s ∈ e, s ≠ 0

theorem leafSem_nonempty {a : Leaf} (h : LeafOk a) : [] ∉ leafSem a := by
  cases a with
  | lit bs => exact fun e => h (show [] = bs from e).symm
  | cls encs brk additive =>
    have key : ¬ ∃ e ∈ encs, Fits e [] := by
      rintro ⟨e, he, hf⟩
      cases hf
      exact h.1 [] he rfl
    cases additive with
    | true =>
      rintro (h' | ⟨b, -, hb⟩)
      · exact key h'
      · simp at hb
    | false => exact fun h' => key h'.1

theorem has_zero (b : UInt8) : BSet.has 0 b = false := by simp [BSet.has]

theorem has_zero' (b : UInt8) : BSet.has (0#256) b = false := has_zero b

theorem has_or (s t : BSet) (b : UInt8) : BSet.has (s ||| t) b = (s.has b || t.has b) := by
  simp [BSet.has]

theorem has_diff (s t : BSet) (b : UInt8) : BSet.has (s &&& ~~~t) b = (s.has b && !t.has b) := by
  have : b.toNat < 256 := b.toNat_lt
  simp [BSet.has, this]

theorem fits_single {s : BSet} {w : List UInt8} : Fits [s] w ↔ ∃ b, s.has b = true ∧ w = [b] := by
  constructor
  · intro h
    cases h with
    | cons hb hn => cases hn; exact ⟨_, hb, rfl⟩
  · rintro ⟨b, hb, rfl⟩; exact .cons hb .nil

theorem fits_length {e : List BSet} {w : List UInt8} (h : Fits e w) : e.length = w.length := h.length_eq

theorem breakout_spec {encs es : List (List BSet)} {brk : BSet} {additive : Bool}
    (hok : LeafOk (.cls encs brk additive)) (h : breakout encs brk additive = some es) :
    (∀ e ∈ es, e ≠ []) ∧ ∀ w, w ∈ leafSem (.cls encs brk additive) ↔ ∃ e ∈ es, Fits e w := by
  obtain ⟨h1, h2, -⟩ := hok
  unfold breakout at h
  cases encs with
  | nil =>
    simp only at h
    split at h
    · cases h
    · next hc =>
      simp only [not_or, Bool.not_eq_false] at hc
      simp only [Option.some.injEq] at h; subst h
      obtain ⟨rfl, -⟩ := hc
      refine ⟨by simp, fun w => ?_⟩
      show (_ ∨ _) ↔ _
      simp [fits_single]
  | cons e es' =>
    simp only at h
    split at h
    · next hb =>
      subst hb
      simp only [Option.some.injEq] at h; subst h
      refine ⟨h1, fun w => ?_⟩
      cases additive with
      | true =>
        show (_ ∨ _) ↔ _
        simp [has_zero']
      | false =>
        show (_ ∧ _) ↔ _
        simp [has_zero']
    · split at h
      · next hb ht =>
        subst ht
        split at h
        · next s =>
          simp only [Option.some.injEq] at h; subst h
          refine ⟨fun x hx => ?_, fun w => ?_⟩
          · rcases List.mem_cons.1 hx with rfl | hx
            · simp
            · exact h1 x (by simp [hx])
          · show ((∃ e ∈ [s] :: es', _) ∨ _) ↔ _
            simp only [List.mem_cons, exists_eq_or_imp, fits_single, has_or, Bool.or_eq_true]
            constructor
            · rintro ((⟨b, hb, rfl⟩ | h) | ⟨b, hb, rfl⟩)
              · exact Or.inl ⟨b, Or.inl hb, rfl⟩
              · exact Or.inr h
              · exact Or.inl ⟨b, Or.inr hb, rfl⟩
            · rintro (⟨b, hb | hb, rfl⟩ | h)
              · exact Or.inl (Or.inl ⟨b, hb, rfl⟩)
              · exact Or.inr ⟨b, hb, rfl⟩
              · exact Or.inl (Or.inr h)
        · simp only [Option.some.injEq] at h; subst h
          refine ⟨fun x hx => ?_, fun w => ?_⟩
          · rcases List.mem_append.1 hx with hx | hx
            · exact h1 x hx
            · simp only [List.mem_singleton] at hx; subst hx; simp
          · show ((∃ x ∈ e :: es', _) ∨ _) ↔ _
            constructor
            · rintro (⟨x, hx, hf⟩ | hbr)
              · exact ⟨x, List.mem_append_left _ hx, hf⟩
              · exact ⟨[brk], List.mem_append_right _ (by simp), fits_single.2 hbr⟩
            · rintro ⟨x, hx, hf⟩
              rcases List.mem_append.1 hx with hx | hx
              · exact Or.inl ⟨x, hx, hf⟩
              · simp only [List.mem_singleton] at hx; subst hx
                exact Or.inr (fits_single.1 hf)
      · next hb ht =>
        simp only [Bool.not_eq_true] at ht
        subst ht
        have h2' : ∀ x ∈ es', x.length ≠ 1 := h2
        have hlong : ∀ w, (∃ x ∈ es', Fits x w) → ¬ ∃ b, brk.has b = true ∧ w = [b] := by
          rintro w ⟨x, hx, hf⟩ ⟨b, -, rfl⟩
          exact h2' x hx (fits_length hf)
        split at h
        · next s =>
          split at h
          · next hz =>
            split at h
            · cases h
            · simp only [Option.some.injEq] at h; subst h
              refine ⟨fun x hx => h1 x (by simp [hx]), fun w => ?_⟩
              show ((∃ e ∈ [s] :: es', _) ∧ _) ↔ _
              simp only [List.mem_cons, exists_eq_or_imp, fits_single]
              constructor
              · rintro ⟨⟨b, hb, rfl⟩ | h, hn⟩
                · exfalso
                  have := has_diff s brk b
                  rw [hz, has_zero, hb] at this
                  refine hn ⟨b, ?_, rfl⟩
                  simpa using this
                · exact h
              · intro h; exact ⟨Or.inr h, hlong w h⟩
          · simp only [Option.some.injEq] at h; subst h
            refine ⟨fun x hx => ?_, fun w => ?_⟩
            · rcases List.mem_cons.1 hx with rfl | hx
              · simp
              · exact h1 x (by simp [hx])
            · show ((∃ e ∈ [s] :: es', _) ∧ _) ↔ _
              simp only [List.mem_cons, exists_eq_or_imp, fits_single, has_diff, Bool.and_eq_true,
                Bool.not_eq_true']
              constructor
              · rintro ⟨⟨b, hb, rfl⟩ | h, hn⟩
                · refine Or.inl ⟨b, ⟨hb, ?_⟩, rfl⟩
                  by_contra hc
                  exact hn ⟨b, by simpa using hc, rfl⟩
                · exact Or.inr h
              · rintro (⟨b, ⟨hb, hc⟩, rfl⟩ | h)
                · refine ⟨Or.inl ⟨b, hb, rfl⟩, ?_⟩
                  rintro ⟨c, hc', e⟩
                  simp only [List.cons.injEq, and_true] at e
                  subst e
                  rw [hc] at hc'; cases hc'
                · exact ⟨Or.inr h, hlong w h⟩
        · next hne =>
          simp only [Option.some.injEq] at h; subst h
          refine ⟨h1, fun w => ?_⟩
          show ((∃ x ∈ e :: es', _) ∧ _) ↔ _
          constructor
          · exact fun h => h.1
          · rintro ⟨x, hx, hf⟩
            refine ⟨⟨x, hx, hf⟩, ?_⟩
            rcases List.mem_cons.1 hx with rfl | hx
            · rintro ⟨b, -, rfl⟩
              have := fits_length hf
              match x, this with
              | [s], _ => exact hne s rfl
            · exact hlong w ⟨x, hx, hf⟩

/-- Literals. -/
theorem litLoop_spec (bs : List UInt8) : ∀ (g : Graph) (prev : Nat), prev < g.n → (g.v prev).out = [] →
    g.n ≤ (litLoop g prev bs).1.n ∧
    (∀ j < g.n, j ≠ prev → (litLoop g prev bs).1.v j = g.v j) ∧
    ((litLoop g prev bs).1.v prev).bytes = (g.v prev).bytes ∧
    ((litLoop g prev bs).1.v prev).isMatch = (g.v prev).isMatch ∧
    (∀ a, a = prev ∨ g.n ≤ a ∧ a < (litLoop g prev bs).1.n → ∀ b ∈ ((litLoop g prev bs).1.v a).out,
      g.n ≤ b ∧ b < (litLoop g prev bs).1.n) ∧
    ((litLoop g prev bs).2 = prev ∧ bs = [] ∨ g.n ≤ (litLoop g prev bs).2 ∧ (litLoop g prev bs).2 < (litLoop g prev bs).1.n) ∧
    (∀ a, g.n ≤ a → a < (litLoop g prev bs).1.n → ((litLoop g prev bs).1.v a).isMatch = false) ∧
    (∀ w, Path (litLoop g prev bs).1 prev w (litLoop g prev bs).2 ↔
      ∃ b, (g.v prev).bytes.has b = true ∧ w = b :: bs) := by
  induction bs with
  | nil =>
    intro g prev hp ho
    refine ⟨Nat.le_refl _, fun _ _ _ => rfl, rfl, rfl, ?_, Or.inl ⟨rfl, rfl⟩, ?_, ?_⟩
    · rintro a (rfl | ⟨h1, h2⟩) b hb
      · simp [litLoop, ho] at hb
      · simp only [litLoop] at h2; omega
    · intro a h1 h2; simp only [litLoop] at h2; omega
    · intro w
      simp only [litLoop]
      constructor
      · intro h
        cases h with
        | one hb => exact ⟨_, hb, rfl⟩
        | cons hb hu _ => rw [ho] at hu; cases hu
      · rintro ⟨b, hb, rfl⟩; exact .one hb
  | cons c cs ih =>
    intro g prev hp ho
    have e : litLoop g prev (c :: cs) = litLoop ((g.addVertex (.single c)).addEdge prev g.n) g.n cs := rfl
    rw [e]
    obtain ⟨g1, hg1⟩ : ∃ g1, g1 = (g.addVertex (.single c)).addEdge prev g.n := ⟨_, rfl⟩
    rw [← hg1]
    have hadd := addEdge_added (g.addVertex (.single c)) prev g.n
    rw [← hg1] at hadd
    have hn1 : g1.n = g.n + 1 := hadd.n
    have hnp : ¬ prev = g.n := by omega
    have v1 : ∀ j < g.n, j ≠ prev → g1.v j = g.v j := by
      intro j hj hjp
      rw [hadd.same j (by simpa using hjp) (by simp; omega)]
      simp only [Graph.addVertex]
      rw [if_neg (by omega)]
    have hout0 : (g1.v g.n).out = [] := by
      rw [hg1]; simp [Graph.addEdge, Graph.modify, Graph.addVertex, Ne.symm hnp]
    have hb0 : (g1.v g.n).bytes = .single c := by
      rw [hadd.bytes]; simp [Graph.addVertex]
    have hm0 : (g1.v g.n).isMatch = false := by
      rw [hadd.isMatch]; simp [Graph.addVertex]
    have houtp : (g1.v prev).out = [g.n] := by
      rw [hg1]; simp [Graph.addEdge, Graph.modify, Graph.addVertex, hnp, ho]
    have hbp : (g1.v prev).bytes = (g.v prev).bytes := by
      rw [hadd.bytes]; simp [Graph.addVertex, hnp]
    have hmp : (g1.v prev).isMatch = (g.v prev).isMatch := by
      rw [hadd.isMatch]; simp [Graph.addVertex, hnp]
    obtain ⟨i1, i2, i3, i4, i5, i6, i7, i8⟩ := ih g1 g.n (by omega) hout0
    have vp : (litLoop g1 g.n cs).1.v prev = g1.v prev := i2 prev (by omega) (by omega)
    refine ⟨by omega, ?_, ?_, ?_, ?_, ?_, ?_, ?_⟩
    · intro j hj hjp
      rw [i2 j (by omega) (by omega), v1 j hj hjp]
    · rw [vp, hbp]
    · rw [vp, hmp]
    · rintro a (rfl | ⟨h1, h2⟩) b hb
      · rw [vp, houtp] at hb
        simp only [List.mem_singleton] at hb
        subst hb
        omega
      · have := i5 a (by omega) b hb
        omega
    · right
      rcases i6 with ⟨h, -⟩ | h
      · rw [h]; omega
      · omega
    · intro a h1 h2
      by_cases h : a = g.n
      · subst h; rw [i4]; exact hm0
      · exact i7 a (by omega) h2
    · intro w
      have hlast : (litLoop g1 g.n cs).2 ≠ prev := by
        rcases i6 with ⟨h, -⟩ | h <;> omega
      constructor
      · intro h
        generalize hL : (litLoop g1 g.n cs).2 = L at h hlast
        cases h with
        | one hb => exact absurd rfl hlast
        | cons hb hu hp' =>
          rw [vp, houtp] at hu
          simp only [List.mem_singleton] at hu
          subst hu
          rw [← hL] at hp'
          obtain ⟨b', hb', rfl⟩ := (i8 _).1 hp'
          rw [hb0, has_single] at hb'
          subst hb'
          rw [vp, hbp] at hb
          exact ⟨_, hb, rfl⟩
      · rintro ⟨b, hb, rfl⟩
        refine .cons (by rw [vp, hbp]; exact hb) (by rw [vp, houtp]; simp) ((i8 _).2 ⟨c, ?_, rfl⟩)
        rw [hb0, has_single]

theorem literal_good {g0 : Graph} {bs : List UInt8} {r : Graph × Frag} (h : literal g0 bs = some r) :
    Good g0 r.1 r.2 (leafSem (.lit bs)) := by
  cases bs with
  | nil => simp [literal] at h
  | cons b bs =>
    simp only [literal, Option.some.injEq] at h
    subst h
    obtain ⟨i1, i2, i3, i4, i5, i6, i7, i8⟩ := litLoop_spec bs (g0.addVertex (.single b)) g0.n
      (by simp [Graph.addVertex]) (by simp [Graph.addVertex])
    have hn : (g0.addVertex (.single b)).n = g0.n + 1 := rfl
    have hv : (g0.addVertex (.single b)).v g0.n = { bytes := .single b } := by simp [Graph.addVertex]
    refine ⟨by dsimp only; omega, ?_, ?_, ?_, ?_, ?_, ?_, ?_⟩
    · intro j hj
      rw [i2 j (by omega) (by omega)]
      simp only [Graph.addVertex]
      rw [if_neg (by omega)]
    · intro i hi
      simp only [List.mem_singleton] at hi
      subst hi; dsimp only; omega
    · intro o ho
      simp only [List.map_cons, List.map_nil, List.mem_singleton] at ho
      subst ho
      dsimp only
      rcases i6 with ⟨h, -⟩ | h
      · rw [h]; omega
      · omega
    · intro a h1 h2 x hx
      have := i5 a (by dsimp only at h2; omega) x hx
      dsimp only; omega
    · intro a h1 h2
      by_cases h : a = g0.n
      · subst h; rw [i4, hv]
      · exact i7 a (by omega) h2
    · exact ⟨fun h => by simp at h, fun h => absurd (show [] = b :: bs from h) (by simp)⟩
    · intro w _
      simp only [List.mem_singleton, exists_eq_left, List.map_cons, List.map_nil]
      rw [i8 w, hv]
      show w = b :: bs ↔ _
      constructor
      · rintro rfl; exact ⟨b, (has_single b b).2 rfl, rfl⟩
      · rintro ⟨c, hc, rfl⟩
        rw [has_single] at hc; rw [hc]

/-- The state while the sequences of a class are added: every vertex begins exactly
one chain of byte sets, `σ`, ending in an out vertex; the in vertices begin the
sequences added so far. -/
structure Chains (g0 : Graph) (g : Graph) (f : Frag) (σ : Nat → List BSet) (don : List (List BSet)) : Prop where
  le : g0.n ≤ g.n
  old : ∀ j < g0.n, g.v j = g0.v j
  vert : ∀ a, g0.n ≤ a → a < g.n →
    ((g.v a).out = [] ∧ a ∈ f.outs.map (·.1) ∧ σ a = [(g.v a).bytes]) ∨
    ∃ u, g0.n ≤ u ∧ u < g.n ∧ (g.v a).out = [u] ∧ a ∉ f.outs.map (·.1) ∧ σ a = (g.v a).bytes :: σ u
  outs : ∀ o ∈ f.outs.map (·.1), g0.n ≤ o ∧ o < g.n
  inn : ∀ a, g0.n ≤ a → a < g.n → ∀ h ∈ (g.v a).inn, g0.n ≤ h ∧ h < g.n ∧ a ∈ (g.v h).out
  ins : ∀ i ∈ f.ins, g0.n ≤ i ∧ i < g.n
  done : f.ins.map σ = don
  fresh : ∀ a, g0.n ≤ a → a < g.n → (g.v a).isMatch = false
  skip : f.skip = none

theorem Chains.walkBack {g0 g : Graph} {f : Frag} {σ : Nat → List BSet} {don : List (List BSet)}
    (h : Chains g0 g f σ don) (ss : List BSet) : ∀ tail, g0.n ≤ tail → tail < g.n →
    g0.n ≤ (walkBack g tail ss).1 ∧ (walkBack g tail ss).1 < g.n ∧
    (walkBack g tail ss).2.reverse ++ σ (walkBack g tail ss).1 = ss.reverse ++ σ tail := by
  induction ss with
  | nil => intro tail h1 h2; exact ⟨h1, h2, rfl⟩
  | cons s ss ih =>
    intro tail h1 h2
    unfold NfaBuilder.walkBack
    split
    · next x hx =>
      have hmem := List.mem_of_find?_eq_some hx
      have hby : (g.v x).bytes = s := by simpa using List.find?_some hx
      obtain ⟨x1, x2, x3⟩ := h.inn tail h1 h2 x hmem
      obtain ⟨i1, i2, i3⟩ := ih x x1 x2
      refine ⟨i1, i2, ?_⟩
      rw [i3]
      rcases h.vert x x1 x2 with ⟨ho, -, -⟩ | ⟨u, -, -, ho, -, hs⟩
      · rw [ho] at x3; cases x3
      · rw [ho] at x3
        simp only [List.mem_singleton] at x3
        subst x3
        rw [hs, hby]; simp
    · exact ⟨h1, h2, rfl⟩

/-- Adding a vertex in front of `u`. -/
theorem Chains.front {g0 g : Graph} {f : Frag} {σ : Nat → List BSet} {don : List (List BSet)}
    (h : Chains g0 g f σ don) (s : BSet) (u : Nat) (hu1 : g0.n ≤ u) (hu2 : u < g.n) :
    Chains g0 ((g.addVertex s).addEdge g.n u) f (fun a => if a = g.n then s :: σ u else σ a) don := by
  obtain ⟨g1, hg1⟩ : ∃ g1, g1 = (g.addVertex s).addEdge g.n u := ⟨_, rfl⟩
  rw [← hg1]
  have hadd := addEdge_added (g.addVertex s) g.n u
  rw [← hg1] at hadd
  have hn1 : g1.n = g.n + 1 := hadd.n
  have hle := h.le
  have hnu : ¬ g.n = u := by omega
  have hsame : ∀ j < g.n, j ≠ u → g1.v j = g.v j := by
    intro j hj hju
    rw [hadd.same j (by simp; omega) (by simpa using hju)]
    simp only [Graph.addVertex]
    rw [if_neg (by omega)]
  have hvu : g1.v u = { g.v u with inn := (g.v u).inn ++ [g.n] } := by
    rw [hg1]; simp [Graph.addEdge, Graph.modify, Graph.addVertex, Ne.symm hnu]
  have hvn : g1.v g.n = { bytes := s, out := [u] } := by
    rw [hg1]; simp [Graph.addEdge, Graph.modify, Graph.addVertex, hnu]
  have hob : ∀ j < g.n, (g1.v j).out = (g.v j).out ∧ (g1.v j).bytes = (g.v j).bytes ∧
      (g1.v j).isMatch = (g.v j).isMatch := by
    intro j hj
    by_cases hju : j = u
    · subst hju; rw [hvu]; exact ⟨rfl, rfl, rfl⟩
    · rw [hsame j hj hju]; exact ⟨rfl, rfl, rfl⟩
  refine ⟨by omega, ?_, ?_, ?_, ?_, ?_, ?_, ?_, h.skip⟩
  · intro j hj
    rw [hsame j (by omega) (by omega), h.old j hj]
  · intro a h1 h2
    by_cases ha : a = g.n
    · subst ha
      right
      refine ⟨u, hu1, by omega, by rw [hvn], fun ho => ?_, ?_⟩
      · have := h.outs _ ho; omega
      · simp only [if_true, hvn]
        rw [if_neg (Ne.symm hnu)]
    · have ha2 : a < g.n := by omega
      obtain ⟨e1, e2, -⟩ := hob a ha2
      simp only [if_neg ha]
      rw [e1, e2]
      rcases h.vert a h1 ha2 with ⟨p1, p2, p3⟩ | ⟨x, p1, p2, p3, p4, p5⟩
      · exact Or.inl ⟨p1, p2, p3⟩
      · right
        exact ⟨x, p1, by omega, p3, p4, by rw [p5, if_neg (by omega)]⟩
  · intro o ho
    have := h.outs o ho; omega
  · intro a h1 h2 x hx
    by_cases ha : a = g.n
    · subst ha; rw [hvn] at hx; cases hx
    · have ha2 : a < g.n := by omega
      by_cases hau : a = u
      · subst hau
        rw [hvu] at hx
        rcases List.mem_append.1 hx with hx | hx
        · obtain ⟨q1, q2, q3⟩ := h.inn a h1 ha2 x hx
          exact ⟨q1, by omega, by rw [(hob x q2).1]; exact q3⟩
        · simp only [List.mem_singleton] at hx
          subst hx
          exact ⟨by omega, by omega, by rw [hvn]; simp⟩
      · rw [hsame a ha2 hau] at hx
        obtain ⟨q1, q2, q3⟩ := h.inn a h1 ha2 x hx
        exact ⟨q1, by omega, by rw [(hob x q2).1]; exact q3⟩
  · intro i hi
    have := h.ins i hi; omega
  · rw [← h.done]
    apply List.map_congr_left
    intro i hi
    have := h.ins i hi
    rw [if_neg (by omega)]
  · intro a h1 h2
    by_cases ha : a = g.n
    · subst ha; rw [hvn]
    · rw [(hob a (by omega)).2.2]; exact h.fresh a h1 (by omega)

theorem Chains.buildFront {g0 : Graph} {f : Frag} {don : List (List BSet)} (ss : List BSet) :
    ∀ (g : Graph) (σ : Nat → List BSet) (tail : Nat), Chains g0 g f σ don → g0.n ≤ tail → tail < g.n →
    ∃ σ', Chains g0 (buildFront g tail ss).1 f σ' don ∧ g0.n ≤ (buildFront g tail ss).2 ∧
      (buildFront g tail ss).2 < (buildFront g tail ss).1.n ∧
      σ' (buildFront g tail ss).2 = ss.reverse ++ σ tail := by
  induction ss with
  | nil => intro g σ tail h h1 h2; exact ⟨σ, h, h1, h2, rfl⟩
  | cons s ss ih =>
    intro g σ tail h h1 h2
    have hf := h.front s tail h1 h2
    have hle := h.le
    obtain ⟨σ', c1, c2, c3, c4⟩ := ih ((g.addVertex s).addEdge g.n tail) _ g.n hf (by omega)
      (by show g.n < g.n + 1; omega)
    refine ⟨σ', c1, c2, c3, ?_⟩
    show σ' _ = _
    rw [show NfaBuilder.buildFront g tail (s :: ss) = NfaBuilder.buildFront ((g.addVertex s).addEdge g.n tail) g.n ss from rfl, c4]
    simp

/-- A new last vertex. -/
theorem Chains.newTail {g0 g : Graph} {f : Frag} {σ : Nat → List BSet} {don : List (List BSet)}
    (h : Chains g0 g f σ don) (s : BSet) :
    Chains g0 (g.addVertex s) { f with outs := f.outs ++ [(g.n, 0)] }
      (fun a => if a = g.n then [s] else σ a) don := by
  have hle := h.le
  have hv : ∀ j < g.n, (g.addVertex s).v j = g.v j := by
    intro j hj; simp only [Graph.addVertex]; rw [if_neg (by omega)]
  have hvn : (g.addVertex s).v g.n = { bytes := s } := by simp [Graph.addVertex]
  have hn : (g.addVertex s).n = g.n + 1 := rfl
  refine ⟨by omega, ?_, ?_, ?_, ?_, ?_, ?_, ?_, h.skip⟩
  · intro j hj; rw [hv j (by omega), h.old j hj]
  · intro a h1 h2
    by_cases ha : a = g.n
    · subst ha
      left
      rw [hvn]
      exact ⟨rfl, by simp, by simp⟩
    · have ha2 : a < g.n := by omega
      rw [hv a ha2]
      simp only [if_neg ha, List.map_append, List.mem_append]
      rcases h.vert a h1 ha2 with ⟨p1, p2, p3⟩ | ⟨x, p1, p2, p3, p4, p5⟩
      · exact Or.inl ⟨p1, Or.inl p2, p3⟩
      · right
        refine ⟨x, p1, by omega, p3, ?_, by rw [p5, if_neg (by omega)]⟩
        rintro (ho | ho)
        · exact p4 ho
        · simp at ho; exact ha ho
  · intro o ho
    simp only [List.map_append, List.mem_append, List.map_cons, List.map_nil, List.mem_singleton] at ho
    rcases ho with ho | rfl
    · have := h.outs o ho; omega
    · omega
  · intro a h1 h2 x hx
    by_cases ha : a = g.n
    · subst ha; rw [hvn] at hx; cases hx
    · rw [hv a (by omega)] at hx
      obtain ⟨q1, q2, q3⟩ := h.inn a h1 (by omega) x hx
      exact ⟨q1, by omega, by rw [hv x q2]; exact q3⟩
  · intro i hi
    have := h.ins i hi; omega
  · rw [← h.done]
    apply List.map_congr_left
    intro i hi
    have := h.ins i hi
    rw [if_neg (by omega)]
  · intro a h1 h2
    by_cases ha : a = g.n
    · subst ha; rw [hvn]
    · rw [hv a (by omega)]; exact h.fresh a h1 (by omega)

theorem Chains.addIn {g0 g : Graph} {f : Frag} {σ : Nat → List BSet} {don : List (List BSet)}
    (h : Chains g0 g f σ don) (i : Nat) (h1 : g0.n ≤ i) (h2 : i < g.n) :
    Chains g0 g { f with ins := f.ins ++ [i] } σ (don ++ [σ i]) := by
  refine ⟨h.le, h.old, h.vert, h.outs, h.inn, ?_, ?_, h.fresh, h.skip⟩
  · intro j hj
    rcases List.mem_append.1 hj with hj | hj
    · exact h.ins j hj
    · simp only [List.mem_singleton] at hj; subst hj; exact ⟨h1, h2⟩
  · simp only [List.map_append, List.map_cons, List.map_nil, h.done]

theorem Chains.encStep {g0 : Graph} {st : Graph × Frag} {σ : Nat → List BSet} {don : List (List BSet)}
    (h : Chains g0 st.1 st.2 σ don) (enc : List BSet) (hne : enc ≠ []) :
    ∃ σ', Chains g0 (encStep st enc).1 (encStep st enc).2 σ' (don ++ [enc]) := by
  unfold NfaBuilder.encStep
  split
  · next hr => simp at hr; exact absurd hr hne
  · next s ss hr =>
    have he : enc = ss.reverse ++ [s] := by
      rw [← List.reverse_reverse enc, hr, List.reverse_cons]
    split
    · next p hp =>
      have hmem := List.mem_of_find?_eq_some hp
      have hby : (st.1.v p.1).bytes = s := by simpa using List.find?_some hp
      have hpo : p.1 ∈ st.2.outs.map (·.1) := List.mem_map_of_mem hmem
      obtain ⟨r1, r2⟩ := h.outs p.1 hpo
      have hsp : σ p.1 = [s] := by
        rcases h.vert p.1 r1 r2 with ⟨-, -, q⟩ | ⟨u, -, -, -, q, -⟩
        · rw [q, hby]
        · exact absurd hpo q
      obtain ⟨w1, w2, w3⟩ := h.walkBack ss p.1 r1 r2
      obtain ⟨σ', c1, c2, c3, c4⟩ := Chains.buildFront (NfaBuilder.walkBack st.1 p.1 ss).2 st.1 σ
        (NfaBuilder.walkBack st.1 p.1 ss).1 h w1 w2
      refine ⟨σ', ?_⟩
      have := c1.addIn _ c2 c3
      rw [c4, w3, hsp, ← he] at this
      exact this
    · next hp =>
      have hle := h.le
      have hnt := h.newTail s
      obtain ⟨σ', c1, c2, c3, c4⟩ := Chains.buildFront ss (st.1.addVertex s) _ st.1.n hnt (by omega)
        (by show st.1.n < st.1.n + 1; omega)
      refine ⟨σ', ?_⟩
      have := c1.addIn _ c2 c3
      rw [c4, if_pos rfl, ← he] at this
      exact this

theorem Chains.foldl {g0 : Graph} (es : List (List BSet)) : ∀ (st : Graph × Frag) (σ : Nat → List BSet)
    (don : List (List BSet)), Chains g0 st.1 st.2 σ don → (∀ e ∈ es, e ≠ []) →
    ∃ σ', Chains g0 (es.foldl NfaBuilder.encStep st).1 (es.foldl NfaBuilder.encStep st).2 σ' (don ++ es) := by
  induction es with
  | nil => intro st σ don h _; exact ⟨σ, by simpa using h⟩
  | cons e es ih =>
    intro st σ don h hne
    obtain ⟨σ1, h1⟩ := h.encStep e (hne e (by simp))
    obtain ⟨σ2, h2⟩ := ih _ σ1 _ h1 (fun x hx => hne x (by simp [hx]))
    exact ⟨σ2, by simpa using h2⟩

/-- From a vertex, exactly the strings fitting its chain lead to an out vertex. -/
theorem Chains.path {g0 g : Graph} {f : Frag} {σ : Nat → List BSet} {don : List (List BSet)}
    (h : Chains g0 g f σ don) (n : Nat) : ∀ a, g0.n ≤ a → a < g.n → (σ a).length = n → ∀ w,
    (∃ o ∈ f.outs.map (·.1), Path g a w o) ↔ Fits (σ a) w := by
  induction n with
  | zero =>
    intro a h1 h2 hl
    rcases h.vert a h1 h2 with ⟨-, -, p⟩ | ⟨u, -, -, -, -, p⟩ <;> rw [p] at hl <;> simp at hl
  | succ n ih =>
    intro a h1 h2 hl w
    rcases h.vert a h1 h2 with ⟨p1, p2, p3⟩ | ⟨u, u1, u2, p3, p4, p5⟩
    · rw [p3, fits_single]
      constructor
      · rintro ⟨o, ho, hp⟩
        cases hp with
        | one hb => exact ⟨_, hb, rfl⟩
        | cons hb hu _ => rw [p1] at hu; cases hu
      · rintro ⟨b, hb, rfl⟩; exact ⟨a, p2, .one hb⟩
    · rw [p5] at hl ⊢
      have ihu := ih u u1 u2 (by simpa using hl)
      constructor
      · rintro ⟨o, ho, hp⟩
        cases hp with
        | one hb => exact absurd ho p4
        | cons hb hu hp' =>
          rw [p3] at hu
          simp only [List.mem_singleton] at hu
          subst hu
          exact .cons hb ((ihu _).1 ⟨o, ho, hp'⟩)
      · intro hf
        cases hf with
        | cons hb hf' =>
          obtain ⟨o, ho, hp⟩ := (ihu _).2 hf'
          exact ⟨o, ho, .cons hb (by rw [p3]; simp) hp⟩

theorem charClass_good {g0 : Graph} {encs : List (List BSet)} {brk : BSet} {additive : Bool}
    (hok : LeafOk (.cls encs brk additive)) {r : Graph × Frag}
    (h : charClass g0 encs brk additive = some r) : Good g0 r.1 r.2 (leafSem (.cls encs brk additive)) := by
  simp only [charClass, Option.bind_eq_bind, Option.bind_eq_some_iff, Option.some.injEq] at h
  obtain ⟨es, hes, rfl⟩ := h
  obtain ⟨b1, b2⟩ := breakout_spec hok hes
  have h0 : Chains g0 g0 { ins := [], outs := [], skip := none } (fun _ => []) [] :=
    ⟨Nat.le_refl _, fun _ _ => rfl, fun a h1 h2 => by omega, by simp, fun a h1 h2 => by omega, by simp, rfl,
      fun a h1 h2 => by omega, rfl⟩
  obtain ⟨σ, hc⟩ := Chains.foldl es (g0, { ins := [], outs := [], skip := none }) _ [] h0 b1
  rw [List.nil_append] at hc
  refine ⟨hc.le, hc.old, hc.ins, hc.outs, ?_, hc.fresh, ?_, ?_⟩
  · intro a h1 h2 b hb
    rcases hc.vert a h1 h2 with ⟨p1, -, -⟩ | ⟨u, u1, u2, p3, -, -⟩
    · rw [p1] at hb; cases hb
    · rw [p3] at hb
      simp only [List.mem_singleton] at hb
      subst hb; exact ⟨u1, u2⟩
  · rw [hc.skip]
    refine ⟨fun h => by simp at h, fun h => absurd h (leafSem_nonempty hok)⟩
  · intro w _
    rw [b2 w]
    have hd := hc.done
    constructor
    · rintro ⟨e, he, hf⟩
      rw [← hd, List.mem_map] at he
      obtain ⟨i, hi, rfl⟩ := he
      obtain ⟨i1, i2⟩ := hc.ins i hi
      exact ⟨i, hi, (hc.path _ i i1 i2 rfl w).2 hf⟩
    · rintro ⟨i, hi, hp⟩
      obtain ⟨i1, i2⟩ := hc.ins i hi
      exact ⟨σ i, by rw [← hd]; exact List.mem_map_of_mem hi, (hc.path _ i i1 i2 rfl w).1 hp⟩

/-! ## C15 and C17 -/

/-- All leaves are as the encoders make them. -/
abbrev LeavesOk (t : Tree Leaf) : Prop := AllLeaves LeafOk t

theorem fragment_good (t : Tree Leaf) : ∀ (g0 : Graph) (r : Graph × Frag), Named t → LeavesOk t →
    fragment g0 t = some r → Good g0 r.1 r.2 (lang leafSem t) := by
  induction t with
  | leaf a =>
    intro g0 r _ hl h
    cases a with
    | lit bs => exact literal_good h
    | cls encs brk additive => exact charClass_good hl h
  | look k t => intro g0 r hn; exact hn.elim
  | alt l r ihl ihr =>
    intro g0 q hn hl h
    simp only [fragment, Option.bind_eq_bind, Option.bind_eq_some_iff, Option.some.injEq] at h
    obtain ⟨a, ha, b, hb, rfl⟩ := h
    exact alternate_good (ihl g0 a hn.1 hl.1 ha) (ihr a.1 b hn.2 hl.2 hb)
  | cat l r ihl ihr =>
    intro g0 q hn hl h
    simp only [fragment, Option.bind_eq_bind, Option.bind_eq_some_iff, Option.some.injEq] at h
    obtain ⟨a, ha, b, hb, rfl⟩ := h
    exact concatenate_good (ihl g0 a hn.1 hl.1 ha) (ihr a.1 b hn.2 hl.2 hb)
  | rep ng m M t ih =>
    intro g0 q hn hl h
    simp only [fragment, Option.bind_eq_bind, Option.bind_eq_some_iff, Option.some.injEq] at h
    obtain ⟨a, ha, rfl⟩ := h
    have hg := ih g0 a hn.2 hl ha
    rcases hn.1 with ⟨rfl, rfl | rfl⟩ | ⟨rfl, rfl⟩
    · have e : repetition ng 0 1 a.1 a.2 = (a.1, question ng a.2) := by simp [repetition]
      rw [e]
      exact (question_good ng hg).congr (lang_question leafSem ng t).symm
    · have e : repetition ng 0 UNB a.1 a.2 = ((plus ng a.1 a.2).1, question ng (plus ng a.1 a.2).2) := by
        simp [repetition, UNB]
      rw [e]
      refine (question_good ng (plus_good ng hg)).congr ?_
      rw [lang_star, Language.one_add_self_mul_kstar_eq_kstar]
    · have e : repetition ng 1 UNB a.1 a.2 = plus ng a.1 a.2 := by simp [repetition]
      rw [e]
      exact (plus_good ng hg).congr (lang_plus leafSem ng t).symm

theorem leavesOk_copies {t s : Tree Leaf} (ht : LeavesOk t) (hs : LeavesOk s) (k : Nat) :
    LeavesOk (copies t s k) := by
  induction k with
  | zero => exact hs
  | succ k ih => exact ⟨ht, ih⟩

theorem leavesOk_optional {t : Tree Leaf} (ng : Bool) (ht : LeavesOk t) (k : Nat) :
    LeavesOk (optional ng t k) := by
  induction k with
  | zero => exact ht
  | succ k ih => exact ⟨ht, ih⟩

theorem expand_leavesOk (t : Tree Leaf) (h : LeavesOk t) : LeavesOk (expand t) := by
  induction t with
  | leaf a => exact h
  | look k t => exact h
  | alt l r ihl ihr => exact ⟨ihl h.1, ihr h.2⟩
  | cat l r ihl ihr => exact ⟨ihl h.1, ihr h.2⟩
  | rep ng m M t ih =>
    have ih := ih h
    show LeavesOk (expandRep ng m M (expand t))
    unfold expandRep
    split
    · exact ih
    · split
      · exact leavesOk_copies ih ih _
      · split
        · exact leavesOk_copies ih (s := .rep ng 1 UNB _) ih _
        · exact leavesOk_copies ih (leavesOk_optional ng ih _) _

theorem mark_spec (label : Nat) (os : List (Nat × Nat)) : ∀ g : Graph,
    (mark g label os).n = g.n ∧ (∀ a, ((mark g label os).v a).bytes = (g.v a).bytes ∧
      ((mark g label os).v a).out = (g.v a).out) ∧
    (∀ a, a ∈ os.map (·.1) → ((mark g label os).v a).isMatch = true ∧ ((mark g label os).v a).label = some label) ∧
    (∀ a, a ∉ os.map (·.1) → (mark g label os).v a = g.v a) := by
  induction os with
  | nil => intro g; exact ⟨rfl, fun _ => ⟨rfl, rfl⟩, by simp, fun _ _ => rfl⟩
  | cons p os ih =>
    intro g
    obtain ⟨v, pos⟩ := p
    obtain ⟨g1, hg1⟩ : ∃ g1, g1 = g.modify v fun x => { x with isMatch := true, label := some label } := ⟨_, rfl⟩
    have e : mark g label ((v, pos) :: os) = mark g1 label os := by rw [hg1]; rfl
    rw [e]
    obtain ⟨i1, i2, i3, i4⟩ := ih g1
    have hv : g1.v v = { g.v v with isMatch := true, label := some label } := by
      rw [hg1]; simp [Graph.modify]
    have hnv : ∀ a, a ≠ v → g1.v a = g.v a := by
      intro a ha; rw [hg1]; simp [Graph.modify, ha]
    refine ⟨by rw [i1, hg1]; rfl, ?_, ?_, ?_⟩
    · intro a
      obtain ⟨q1, q2⟩ := i2 a
      rw [q1, q2]
      by_cases ha : a = v
      · subst ha; rw [hv]; exact ⟨rfl, rfl⟩
      · rw [hnv a ha]; exact ⟨rfl, rfl⟩
    · intro a ha
      by_cases hm : a ∈ os.map (·.1)
      · exact i3 a hm
      · simp only [List.map_cons, List.mem_cons] at ha
        rcases ha with rfl | ha
        · rw [i4 a hm, hv]; exact ⟨rfl, rfl⟩
        · exact absurd ha hm
    · intro a ha
      simp only [List.map_cons, List.mem_cons, not_or] at ha
      rw [i4 a ha.2, hnv a ha.1]

/-- What `build` gives, in one statement. -/
theorem build_spec (label : Nat) (t : Tree Leaf) (hok : Ok t) (hn : NoLook t) (hd : NoDead t)
    (hl : LeavesOk t) :
    build label (some t) = .threw ∨
    (build label (some t) = .empty ∧ [] ∈ lang leafSem t) ∨
    ∃ g, build label (some t) = .good g ∧ [] ∉ lang leafSem t ∧
      (∀ l w, Accepts g l w ↔ l = label ∧ w ∈ lang leafSem t) ∧
      (∀ a < g.n, ∀ b ∈ (g.v a).out, 0 < b ∧ b < g.n) ∧ (g.v 0).isMatch = false := by
  unfold build
  dsimp only
  cases hf : fragment Graph.init (expand t) with
  | none => exact Or.inl rfl
  | some r =>
    right
    have hg := fragment_good _ _ _ (expand_named t hn) (expand_leavesOk t hl) hf
    rw [expand_lang leafSem t hok hd] at hg
    have hin : Graph.init.n = 1 := rfl
    have hv0 : r.1.v 0 = {} := by rw [hg.old 0 (by rw [hin]; omega)]; rfl
    obtain ⟨ha, hm⟩ := patchMid_added r.2.ins r.2.skip [(0, 0)] r.1
    dsimp only
    unfold finish
    obtain ⟨c, hc⟩ : ∃ c, c = concatenate r.1 { ins := [0], outs := [(0, 0)], skip := none } r.2 := ⟨_, rfl⟩
    have hc1 : c.1 = (patchMid r.1 r.2.ins r.2.skip [(0, 0)]).1 := by rw [hc]; rfl
    rw [← hc1] at ha
    dsimp only
    rw [← hc]
    by_cases hsk : r.2.skip.isSome = true
    · left
      obtain ⟨k, hk⟩ := Option.isSome_iff_exists.1 hsk
      have ho : c.2.outs = (patchMid r.1 r.2.ins r.2.skip [(0, 0)]).2 ++ r.2.outs := by
        rw [hc]; simp only [concatenate, hk]
      have hmem : 0 ∈ c.2.outs.map (·.1) := by rw [ho, List.map_append, hm]; simp
      obtain ⟨p, hp, hp0⟩ := List.mem_map.1 hmem
      rw [if_pos (List.any_eq_true.2 ⟨p, hp, by simpa using hp0⟩)]
      exact ⟨rfl, hg.skip.1 hsk⟩
    · right
      have hnone : r.2.skip = none := by
        cases hs : r.2.skip with
        | none => rfl
        | some k => rw [hs] at hsk; simp at hsk
      have ho : c.2.outs = r.2.outs := by rw [hc]; simp only [concatenate, hnone]
      have hno0 : ∀ o ∈ c.2.outs.map (·.1), o ≠ 0 := by
        intro o hoo; rw [ho] at hoo; have := hg.outs o hoo; omega
      rw [if_neg (by
        intro hany
        obtain ⟨p, hp, hp0⟩ := List.any_eq_true.1 hany
        exact hno0 p.1 (List.mem_map_of_mem hp) (by simpa using hp0))]
      obtain ⟨m1, m2, m3, m4⟩ := mark_spec label c.2.outs c.1
      have hnil : [] ∉ lang leafSem t := fun h => hsk (hg.skip.2 h)
      have hstart : ∀ u, u ∈ ((mark c.1 label c.2.outs).v 0).out ↔ u ∈ r.2.ins := by
        intro u
        rw [(m2 0).2, ha.out, hv0]
        simp
      have hedge : ∀ a, a ≠ 0 → ∀ b, b ∈ ((mark c.1 label c.2.outs).v a).out ↔ b ∈ (r.1.v a).out := by
        intro a ha0 b
        rw [(m2 a).2, ha.out]
        simp [ha0]
      have hpath : ∀ i, 1 ≤ i → i < r.1.n → ∀ w o, Path (mark c.1 label c.2.outs) i w o ↔ Path r.1 i w o := by
        intro i h1 h2 w o
        constructor
        · intro hp
          exact (hp.transfer (C := fun a => 1 ≤ a ∧ a < r.1.n)
            (fun a hC b hb => hg.edges a hC.1 hC.2 b ((hedge a (by omega) b).1 hb))
            (fun a _ => by rw [(m2 a).1, ha.bytes])
            (fun a hC b hb => (hedge a (by omega) b).1 hb) ⟨h1, h2⟩).1
        · intro hp
          exact (hp.transfer (C := fun a => 1 ≤ a ∧ a < r.1.n)
            (fun a hC b hb => hg.edges a hC.1 hC.2 b hb)
            (fun a _ => by rw [(m2 a).1, ha.bytes])
            (fun a hC b hb => (hedge a (by omega) b).2 hb) ⟨h1, h2⟩).1
      have hin0 : ∀ i ∈ r.2.ins, 1 ≤ i ∧ i < r.1.n := fun i hi => hg.ins i hi
      have hmn : (mark c.1 label c.2.outs).n = r.1.n := by rw [m1, ha.n]
      have h0n : 0 ∉ c.2.outs.map (·.1) := fun h => hno0 0 h rfl
      refine ⟨_, rfl, hnil, ?_, ?_, ?_⟩
      · intro l w
        constructor
        · rintro ⟨u, hu, o, hp, hmt, hlb⟩
          have hu' := (hstart u).1 hu
          obtain ⟨u1, u2⟩ := hin0 u hu'
          have hp' := (hpath u u1 u2 w o).1 hp
          have hC := (hp'.transfer (g' := r.1) (C := fun a => 1 ≤ a ∧ a < r.1.n)
            (fun a hC b hb => hg.edges a hC.1 hC.2 b hb) (fun _ _ => rfl) (fun _ _ _ hb => hb) ⟨u1, u2⟩).2
          by_cases hoo : o ∈ c.2.outs.map (·.1)
          · rw [(m3 o hoo).2] at hlb
            rw [ho] at hoo
            exact ⟨by simpa using hlb.symm, (hg.lang w hp'.ne_nil).2 ⟨u, hu', o, hoo, hp'⟩⟩
          · rw [m4 o hoo, ha.isMatch, hg.fresh o hC.1 hC.2] at hmt; cases hmt
        · rintro ⟨rfl, hw⟩
          have hw0 : w ≠ [] := fun h => hnil (h ▸ hw)
          obtain ⟨i, hi, o, hoo, hp⟩ := (hg.lang w hw0).1 hw
          obtain ⟨u1, u2⟩ := hin0 i hi
          rw [← ho] at hoo
          exact ⟨i, (hstart i).2 hi, o, (hpath i u1 u2 w o).2 hp, m3 o hoo⟩
      · intro a han b hb
        rw [hmn] at han ⊢
        by_cases ha0 : a = 0
        · subst ha0
          have := hin0 b ((hstart b).1 hb); omega
        · have := hg.edges a (by omega) han b ((hedge a ha0 b).1 hb); omega
      · rw [m4 0 h0n, ha.isMatch, hv0]

/-- **C15.** For every tree the rewriter hands over (bounds in order, no `{0}`, no
lookaround) whose leaves are as the encoders make them: if an automaton is built, it
accepts a byte string iff the pattern denotes it, and only with the pattern's own
label. -/
theorem builder_language (label : Nat) (t : Tree Leaf) (hok : Ok t) (hn : NoLook t) (hd : NoDead t)
    (hl : LeavesOk t) (g : Graph) (h : build label (some t) = .good g) :
    ∀ l w, Accepts g l w ↔ l = label ∧ w ∈ lang leafSem t := by
  rcases build_spec label t hok hn hd hl with h' | ⟨h', -⟩ | ⟨g', h', -, h2, -⟩
  · rw [h'] at h; cases h
  · rw [h'] at h; cases h
  · rw [h'] at h; cases h; exact h2

/-- **C17.** Unless a character does not exist in the encoding, building is refused
("Empty matches") iff the pattern accepts the empty string; an empty root is refused. -/
theorem refused_iff_empty (label : Nat) (t : Tree Leaf) (hok : Ok t) (hn : NoLook t) (hd : NoDead t)
    (hl : LeavesOk t) (ht : build label (some t) ≠ .threw) :
    (build label (some t) = .empty ↔ [] ∈ lang leafSem t) ∧ build label none = .empty := by
  refine ⟨?_, rfl⟩
  rcases build_spec label t hok hn hd hl with h' | ⟨h', h1⟩ | ⟨g', h', h1, -, -⟩
  · exact absurd h' ht
  · exact ⟨fun _ => h1, fun _ => h'⟩
  · rw [h']; exact ⟨fun h => (by cases h), fun h => absurd h h1⟩

/-- **C15, from the parser's tree.** Rewriting and then building a pattern without
non-greedy operators: the automaton accepts exactly the strings the parsed pattern
denotes, unless the pattern has the shape `AltOk` excludes (see
`empty_branch_loses_match`). -/
theorem pattern_language (label : Nat) (t : Tree Leaf) (x : Leaf) (counted : Bool) (hx : LeafOk x)
    (hok : Ok t) (hn : NoLook t) (hw : weight t < UNB) (ha : AltOk (assoc t).2)
    (hc : counted = false → NoDead t) (hl : LeavesOk t) (u : Option (Tree Leaf)) (g : Graph)
    (hr : reduce x false counted t = some u) (h : build label u = .good g) :
    ∀ l w, Accepts g l w ↔ l = label ∧ w ∈ lang leafSem t := by
  obtain ⟨u', hu', he⟩ := reduce_preserves_language_partial leafSem x counted t hok hn hw ha
  rw [hr] at hu'
  cases hu'
  cases u with
  | none => simp [build] at h
  | some u =>
    obtain ⟨d1, d2, d3⟩ := reduce_noDead x false counted t u hok hn hw hc rfl hr
    have hlu := reduce_leaves LeafOk x hx counted t u hl hr
    intro l w
    rw [builder_language label u d3 d2 d1 hlu g h l w]
    have he : lang leafSem u = lang leafSem t := he
    rw [he]

/-- **C17, from the parser's tree.** -/
theorem pattern_refused_iff_empty (label : Nat) (t : Tree Leaf) (x : Leaf) (counted : Bool) (hx : LeafOk x)
    (hok : Ok t) (hn : NoLook t) (hw : weight t < UNB) (ha : AltOk (assoc t).2)
    (hc : counted = false → NoDead t) (hl : LeavesOk t) (u : Option (Tree Leaf))
    (hr : reduce x false counted t = some u) (ht : build label u ≠ .threw) :
    build label u = .empty ↔ [] ∈ lang leafSem t := by
  obtain ⟨u', hu', he⟩ := reduce_preserves_language_partial leafSem x counted t hok hn hw ha
  rw [hr] at hu'
  cases hu'
  cases u with
  | none =>
    refine ⟨fun _ => ?_, fun _ => rfl⟩
    rw [← he]
    exact (Language.mem_one []).2 rfl
  | some u =>
    obtain ⟨d1, d2, d3⟩ := reduce_noDead x false counted t u hok hn hw hc rfl hr
    have hlu := reduce_leaves LeafOk x hx counted t u hl hr
    have he : lang leafSem u = lang leafSem t := he
    rw [(refused_iff_empty label u d3 d2 d1 hlu ht).1, he]

/-! Non-vacuity: `a[bc]{2,3}` with label 7. -/

/-- `a[bc]{2,3}`. -/
def sample : Tree Leaf :=
  .cat (.leaf (.lit [0x61])) (.rep false 2 3 (.leaf (.cls [[BSet.single 0x62 ||| BSet.single 0x63]] 0 true)))

theorem sample_hyps : Ok sample ∧ NoLook sample ∧ NoDead sample ∧ LeavesOk sample ∧ AltOk (assoc sample).2 ∧
    weight sample < UNB := by
  simp [sample, Ok, NoLook, NoDead, AllLeaves, LeafOk, AltOk, assoc, weight, UNB, BSet.single]

/-- It is built, with five vertices, and so is its rewritten form. -/
example : (∃ g, build 7 (some sample) = .good g ∧ g.n = 5) ∧
    reduce (Leaf.lit [0x78]) false true sample = some (some sample) := by
  constructor
  · refine ⟨_, rfl, ?_⟩
    decide +kernel
  · simp [reduce, sample, assoc, combine, reduceEmptyRoot, reduceEmpty, onlyZero, fixDead, uselessRoot, useless,
      prune]

/-- `a?` is refused. -/
example : build 7 (some (.rep false 0 1 (.leaf (.lit [0x61])))) = .empty ∧
    build 7 (some (.rep false 0 1 (.leaf (.lit [0x61])))) ≠ .threw := by
  constructor
  · rfl
  · intro h; cases h

end Verif.NfaBuilder
