import Verif.Subset
import Verif.Props.Sequences
import Verif.Props.Shape
import Verif.Props.Merge
import Verif.Props.Fsm
import Mathlib.Data.Set.Finite.List
import Mathlib.Data.Set.Finite.Lattice
/-!
# C21: determinization keeps what is accepted
-/
namespace Verif.Subset
open Verif.Nfa Verif.Sequences Verif.Label Verif.Optimizer Verif.NfaBuilder

/-! ## Adding edges to vertices found by key -/

/-- An automaton under construction. -/
structure Net (g : Graph) : Prop where
  pos : 0 < g.n
  bal : Balanced g
  range : ∀ v, ∀ u ∈ (g.v v).out, v < g.n ∧ 0 < u ∧ u < g.n
  outside : ∀ v, g.n ≤ v → (g.v v).isMatch = false ∧ (g.v v).label = none

theorem addEdge_v (g : Graph) (h t x : Nat) : ((g.addEdge h t).v x).bytes = (g.v x).bytes ∧
    ((g.addEdge h t).v x).isMatch = (g.v x).isMatch ∧ ((g.addEdge h t).v x).label = (g.v x).label ∧
    ((g.addEdge h t).v x).out = if x = h then (g.v x).out ++ [t] else (g.v x).out := by
  unfold Graph.addEdge Graph.modify
  dsimp only
  refine ⟨?_, ?_, ?_, ?_⟩ <;> split <;> (try split) <;> simp_all

theorem addEdge_balanced {g : Graph} (h : Balanced g) (a b : Nat) : Balanced (g.addEdge a b) := by
  rw [addEdge_eq]; exact insertEdge_balanced h _ _ _

theorem Net.addEdge {g : Graph} (h : Net g) {a b : Nat} (ha : a < g.n) (h0 : 0 < b) (hb : b < g.n) : Net (g.addEdge a b) := by
  refine ⟨h.pos, addEdge_balanced h.bal a b, ?_, ?_⟩
  · intro v u hu
    rw [(addEdge_v g a b v).2.2.2] at hu
    split at hu
    · next e =>
      rcases List.mem_append.1 hu with h1 | h1
      · exact h.range v u h1
      · rw [List.mem_singleton] at h1
        rw [e, h1]; exact ⟨ha, h0, hb⟩
    · exact h.range v u hu
  · intro v hv
    obtain ⟨-, e1, e2, -⟩ := addEdge_v g a b v
    rw [e1, e2]; exact h.outside v hv

theorem Net.nothing {g : Graph} (h : Net g) {v : Nat} (hv : g.n ≤ v) : (g.v v).out = [] ∧ (g.v v).inn = [] := by
  constructor
  · rw [List.eq_nil_iff_forall_not_mem]
    intro x hx
    have := (h.range _ _ hx).1
    omega
  · rw [List.eq_nil_iff_forall_not_mem]
    intro x hx
    have := (h.range _ _ (h.bal.mem.2 hx)).2.2
    omega

/-- A new vertex with some data and no edges. -/
def newVertex (g : Graph) (x : Vertex) : Graph := copyVertex g x

theorem newVertex_v (g : Graph) (x : Vertex) (j : Nat) : (newVertex g x).v j =
    if j = g.n then { bytes := x.bytes, isMatch := x.isMatch, label := x.label } else g.v j := rfl

theorem Net.newVertex {g : Graph} (h : Net g) (x : Vertex) : Net (newVertex g x) := by
  have hn : (Subset.newVertex g x).n = g.n + 1 := rfl
  have ho : ∀ j, ((Subset.newVertex g x).v j).out = (g.v j).out := by
    intro j; rw [newVertex_v]; split
    · next e => rw [e, (h.nothing (Nat.le_refl _)).1]
    · rfl
  have hi : ∀ j, ((Subset.newVertex g x).v j).inn = (g.v j).inn := by
    intro j; rw [newVertex_v]; split
    · next e => rw [e, (h.nothing (Nat.le_refl _)).2]
    · rfl
  refine ⟨by rw [hn]; omega, ?_, ?_, ?_⟩
  · intro a b; rw [ho, hi]; exact h.bal a b
  · intro v u hu
    rw [ho] at hu
    have := h.range v u hu
    rw [hn]; omega
  · intro v hv
    rw [hn] at hv
    rw [newVertex_v, if_neg (by omega)]
    exact h.outside v (by omega)

section
variable {K : Type} [DecidableEq K]

/-- The automaton, the vertices found so far, and the keys for which there was none. -/
structure Ln (K : Type) where
  g : Graph
  f : K → Option Nat
  new : List K

/-- An edge to the vertex of the key, which is made if there is none. -/
def link (data : K → Vertex) (d : Nat) (s : Ln K) (k : K) : Ln K :=
  match s.f k with
  | none => { g := (newVertex s.g (data k)).addEdge d s.g.n, f := fun x => if x = k then some s.g.n else s.f x, new := k :: s.new }
  | some t => { s with g := s.g.addEdge d t }

/-- What adding edges for a list of keys does. -/
structure Linked (data : K → Vertex) (d : Nat) (ks : List K) (g : Graph) (f : K → Option Nat) (s : Ln K) : Prop where
  net : Net s.g
  le : g.n ≤ s.g.n
  lt : ∀ k t, s.f k = some t → t < s.g.n
  keep : ∀ k t, f k = some t → s.f k = some t
  fresh : ∀ k t, f k = none → s.f k = some t → g.n ≤ t ∧ (s.g.v t).bytes = (data k).bytes ∧
    (s.g.v t).isMatch = (data k).isMatch ∧ (s.g.v t).label = (data k).label
  inj : ∀ k k' t, f k = none → f k' = none → s.f k = some t → s.f k' = some t → k = k'
  onto : ∀ t, g.n ≤ t → t < s.g.n → ∃ k, f k = none ∧ s.f k = some t
  some : ∀ k ∈ ks, s.f k ≠ none
  only : ∀ k, f k = none → s.f k ≠ none → k ∈ ks
  new : s.new.Nodup ∧ ∀ k, k ∈ s.new ↔ f k = none ∧ s.f k ≠ none
  here : (s.g.v d).out = (g.v d).out ++ ks.map fun k => (s.f k).getD 0
  there : ∀ v, v ≠ d → (s.g.v v).out = (g.v v).out
  same : ∀ v < g.n, (s.g.v v).bytes = (g.v v).bytes ∧ (s.g.v v).isMatch = (g.v v).isMatch ∧ (s.g.v v).label = (g.v v).label

theorem links {data : K → Vertex} {d : Nat} {g : Graph} {f : K → Option Nat} (hg : Net g) (hd : d < g.n)
    (hf : ∀ k t, f k = some t → t < g.n) (ks : List K) (h0 : ∀ k ∈ ks, f k ≠ some 0) :
    Linked data d ks g f (ks.foldl (link data d) { g, f, new := [] }) := by
  induction ks using List.reverseRecOn with
  | nil =>
    refine ⟨hg, Nat.le_refl _, hf, fun _ _ h => h, ?_, ?_, ?_, by simp, fun k h h' => (h' h).elim, ?_, by simp, fun _ _ => rfl,
      fun _ _ => ⟨rfl, rfl, rfl⟩⟩
    · intro k t h h'; have h' : f k = some t := h'; rw [h] at h'; cases h'
    · intro k k' t h _ h'; have h' : f k = some t := h'; rw [h] at h'; cases h'
    · intro t h1 h2; exact absurd h2 (Nat.not_lt.2 h1)
    · refine ⟨by simp, fun k => ⟨fun h => by simp at h, fun h => (h.2 h.1).elim⟩⟩
  | append_singleton ks k ih =>
    have ih := ih (fun x hx => h0 x (by simp [hx]))
    rw [List.foldl_append, List.foldl_cons, List.foldl_nil]
    generalize ks.foldl (link data d) { g, f, new := [] } = s at ih
    have hds : d < s.g.n := Nat.lt_of_lt_of_le hd ih.le
    unfold link
    cases hk : s.f k with
    | some t =>
      dsimp only
      have ht := ih.lt k t hk
      have ht0 : 0 < t := by
        rcases Nat.eq_zero_or_pos t with e | e
        · exfalso
          rw [e] at hk
          cases hfk : f k with
          | none => have := (ih.fresh k 0 hfk hk).1; have := hg.pos; omega
          | some t' =>
            have := ih.keep k t' hfk
            rw [hk] at this
            cases this
            exact h0 k (by simp) hfk
        · exact e
      refine ⟨ih.net.addEdge hds ht0 ht, ih.le, ih.lt, ih.keep, ?_, ih.inj, ih.onto, ?_, ?_, ih.new, ?_, ?_, ?_⟩
      · intro k' t' h1 h2
        obtain ⟨a, b, c, e⟩ := ih.fresh k' t' h1 h2
        obtain ⟨e1, e2, e3, -⟩ := addEdge_v s.g d t t'
        rw [e1, e2, e3]; exact ⟨a, b, c, e⟩
      · intro k' hk'
        rcases List.mem_append.1 hk' with h | h
        · exact ih.some k' h
        · rw [List.mem_singleton] at h; rw [h, hk]; exact fun e => by cases e
      · intro k' h1 h2; exact List.mem_append_left _ (ih.only k' h1 h2)
      · rw [(addEdge_v s.g d t d).2.2.2, if_pos rfl, ih.here, List.map_append, ← List.append_assoc]
        simp [hk]
      · intro v hv; rw [(addEdge_v s.g d t v).2.2.2, if_neg hv]; exact ih.there v hv
      · intro v hv
        obtain ⟨e1, e2, e3, -⟩ := addEdge_v s.g d t v
        rw [e1, e2, e3]; exact ih.same v hv
    | none =>
      dsimp only
      have hsp := ih.net.pos
      have hn : (newVertex s.g (data k)).n = s.g.n + 1 := rfl
      have hvd : ∀ x, (((newVertex s.g (data k)).addEdge d s.g.n).v x).bytes = ((newVertex s.g (data k)).v x).bytes ∧
          (((newVertex s.g (data k)).addEdge d s.g.n).v x).isMatch = ((newVertex s.g (data k)).v x).isMatch ∧
          (((newVertex s.g (data k)).addEdge d s.g.n).v x).label = ((newVertex s.g (data k)).v x).label ∧
          (((newVertex s.g (data k)).addEdge d s.g.n).v x).out =
            if x = d then ((newVertex s.g (data k)).v x).out ++ [s.g.n] else ((newVertex s.g (data k)).v x).out :=
        fun x => addEdge_v _ _ _ x
      have hfk : f k = none := by
        cases hfk : f k with
        | none => rfl
        | some t' => rw [ih.keep k t' hfk] at hk; cases hk
      have hold : ∀ k' t, (if k' = k then some s.g.n else s.f k') = some t → k' ≠ k → s.f k' = some t := by
        intro k' t h hne; rw [if_neg hne] at h; exact h
      refine ⟨(ih.net.newVertex (data k)).addEdge (by rw [hn]; omega) hsp (by rw [hn]; omega), ?_, ?_, ?_, ?_, ?_, ?_, ?_, ?_,
        ?_, ?_, ?_, ?_⟩
      · show g.n ≤ s.g.n + 1
        have := ih.le; omega
      · intro k' t h
        show t < s.g.n + 1
        have h : (if k' = k then some s.g.n else s.f k') = some t := h
        by_cases e : k' = k
        · rw [if_pos e] at h; cases h; omega
        · have := ih.lt k' t (hold k' t h e); omega
      · intro k' t h
        have h' := ih.keep k' t h
        have e : k' ≠ k := fun e => by rw [e, hk] at h'; cases h'
        show (if k' = k then _ else _) = _
        rw [if_neg e]; exact h'
      · intro k' t h1 h2
        obtain ⟨a1, a2, a3, -⟩ := hvd t
        rw [a1, a2, a3, newVertex_v]
        by_cases e : k' = k
        · have h2 : (if k' = k then some s.g.n else s.f k') = some t := h2
          rw [if_pos e] at h2; cases h2
          rw [if_pos rfl, e]
          exact ⟨ih.le, rfl, rfl, rfl⟩
        · have h3 := hold k' t h2 e
          have := ih.lt k' t h3
          rw [if_neg (by omega)]
          exact ih.fresh k' t h1 h3
      · intro k1 k2 t h1 h2 h3 h4
        by_cases e1 : k1 = k
        · by_cases e2 : k2 = k
          · rw [e1, e2]
          · have h3 : (if k1 = k then some s.g.n else s.f k1) = some t := h3
            rw [if_pos e1] at h3; cases h3
            have := ih.lt k2 _ (hold k2 _ h4 e2); omega
        · have h3' := hold k1 t h3 e1
          by_cases e2 : k2 = k
          · have h4 : (if k2 = k then some s.g.n else s.f k2) = some t := h4
            rw [if_pos e2] at h4; cases h4
            have := ih.lt k1 _ h3'; omega
          · exact ih.inj k1 k2 t h1 h2 h3' (hold k2 t h4 e2)
      · intro t h1 h2
        have h2 : t < s.g.n + 1 := h2
        by_cases e : t = s.g.n
        · exact ⟨k, hfk, by show (if k = k then _ else _) = _; rw [if_pos rfl, e]⟩
        · obtain ⟨k', h3, h4⟩ := ih.onto t h1 (by omega)
          refine ⟨k', h3, ?_⟩
          show (if k' = k then _ else _) = _
          rw [if_neg (fun e => by rw [e, hk] at h4; cases h4)]; exact h4
      · intro k' hk'
        show (if k' = k then _ else _) ≠ _
        by_cases e : k' = k
        · rw [if_pos e]; exact fun e => by cases e
        · rw [if_neg e]
          rcases List.mem_append.1 hk' with h | h
          · exact ih.some k' h
          · rw [List.mem_singleton] at h; exact (e h).elim
      · intro k' h1 h2
        by_cases e : k' = k
        · rw [e]; simp
        · have h2 : (if k' = k then some s.g.n else s.f k') ≠ none := h2
          rw [if_neg e] at h2
          exact List.mem_append_left _ (ih.only k' h1 h2)
      · refine ⟨List.nodup_cons.2 ⟨fun h => ((ih.new.2 k).1 h).2 hk, ih.new.1⟩, fun k' => ?_⟩
        show k' ∈ k :: s.new ↔ f k' = none ∧ (if k' = k then some s.g.n else s.f k') ≠ none
        rw [List.mem_cons]
        by_cases e : k' = k
        · subst e; simp [hfk]
        · rw [if_neg e, ih.new.2 k']; simp [e]
      · show (((newVertex s.g (data k)).addEdge d s.g.n).v d).out = _
        rw [(hvd d).2.2.2, if_pos rfl, newVertex_v, if_neg (by omega), ih.here, List.map_append, ← List.append_assoc]
        congr 1
        · congr 1
          refine List.map_congr_left fun k' hk' => ?_
          have := ih.some k' hk'
          show _ = (if k' = k then some s.g.n else s.f k').getD 0
          rw [if_neg (fun e => by rw [e] at this; exact this hk)]
        · simp
      · intro v hv
        show (((newVertex s.g (data k)).addEdge d s.g.n).v v).out = _
        rw [(hvd v).2.2.2, if_neg hv, newVertex_v]
        split
        · next e => rw [hg.nothing (by have := ih.le; omega) |>.1]
        · exact ih.there v hv
      · intro v hv
        obtain ⟨a1, a2, a3, -⟩ := hvd v
        have := ih.le
        show (((newVertex s.g (data k)).addEdge d s.g.n).v v).bytes = _ ∧ (((newVertex s.g (data k)).addEdge d s.g.n).v v).isMatch = _ ∧ _
        rw [a1, a2, a3, newVertex_v, if_neg (by omega)]
        exact ih.same v hv

end

/-! ## The keys of the successors -/

theorem mem_tails {src : Graph} {heads : List Nat} {b t : Nat} :
    t ∈ tails src heads b ↔ ∃ h ∈ heads, t ∈ (src.v h).out ∧ (src.v t).bytes.getLsbD b = true := by
  unfold tails
  rw [(removeRightDuplicates_set _).2.1, List.mem_flatMap]
  simp only [List.mem_filter]

theorem tails_nodup (src : Graph) (heads : List Nat) (b : Nat) : (tails src heads b).Nodup :=
  (removeRightDuplicates_set _).1

theorem bit_one (b i : Nat) : (BitVec.ofNat 256 (2 ^ b)).getLsbD i = true ↔ i < 256 ∧ i = b := by
  rw [BitVec.getLsbD_ofNat, Nat.testBit_two_pow, Bool.and_eq_true, decide_eq_true_eq, decide_eq_true_eq]
  exact ⟨fun ⟨a, b⟩ => ⟨a, b.symm⟩, fun ⟨a, b⟩ => ⟨a, b.symm⟩⟩

theorem bytesWith_bit {src : Graph} {heads l : List Nat} {i : Nat} :
    (bytesWith src heads l).getLsbD i = true ↔ i < 256 ∧ tails src heads i = l := by
  have key : ∀ (bs : List Nat) (s0 : BSet),
      ((bs.foldl (fun s b => if tails src heads b = l then s ||| BitVec.ofNat 256 (2 ^ b) else s) s0).getLsbD i = true ↔
        s0.getLsbD i = true ∨ (i < 256 ∧ i ∈ bs ∧ tails src heads i = l)) := by
    intro bs
    induction bs with
    | nil => intro s0; simp
    | cons b bs ih =>
      intro s0
      rw [List.foldl_cons, ih]
      split
      · next h =>
        rw [BitVec.getLsbD_or, Bool.or_eq_true, bit_one]
        constructor
        · rintro ((h1 | ⟨h1, h2⟩) | ⟨h1, h2, h3⟩)
          · exact Or.inl h1
          · exact Or.inr ⟨h1, by simp [h2], by rw [h2]; exact h⟩
          · exact Or.inr ⟨h1, by simp [h2], h3⟩
        · rintro (h1 | ⟨h1, h2, h3⟩)
          · exact Or.inl (Or.inl h1)
          · rcases List.mem_cons.1 h2 with e | e
            · exact Or.inl (Or.inr ⟨h1, e⟩)
            · exact Or.inr ⟨h1, e, h3⟩
      · next h =>
        constructor
        · rintro (h1 | ⟨h1, h2, h3⟩)
          · exact Or.inl h1
          · exact Or.inr ⟨h1, by simp [h2], h3⟩
        · rintro (h1 | ⟨h1, h2, h3⟩)
          · exact Or.inl h1
          · rcases List.mem_cons.1 h2 with e | e
            · rw [e] at h3; exact (h h3).elim
            · exact Or.inr ⟨h1, e, h3⟩
  unfold bytesWith
  rw [key]
  simp

attribute [local irreducible] bytesWith

theorem bytesWith_inj {src : Graph} {heads : List Nat} {b : Nat} (hb : b < 256) {l : List Nat}
    (h : bytesWith src heads l = bytesWith src heads (tails src heads b)) : l = tails src heads b := by
  have h1 : (bytesWith src heads (tails src heads b)).getLsbD b = true := bytesWith_bit.2 ⟨hb, rfl⟩
  rw [← h] at h1
  exact (bytesWith_bit.1 h1).2.symm

/-- A group is a single match state, or states which are no match states. -/
def Pure (src : Graph) (l : List Nat) : Prop :=
  (∃ m, l = [m] ∧ (src.v m).isMatch = true) ∨ (l ≠ [] ∧ ∀ t ∈ l, (src.v t).isMatch = false)

theorem Pure.ne {src : Graph} {l : List Nat} (h : Pure src l) : l ≠ [] := by
  rcases h with ⟨m, rfl, -⟩ | ⟨h, -⟩
  · simp
  · exact h

theorem groups_spec (src : Graph) (ts : List Nat) : (groups src ts).flatten = ts ∧ ∀ l ∈ groups src ts, Pure src l := by
  have key : ∀ ts : List Nat, (ts.foldl (addGroup src) ([], true)).1.flatten = ts ∧
      (∀ l ∈ (ts.foldl (addGroup src) ([], true)).1, Pure src l) ∧
      ((ts.foldl (addGroup src) ([], true)).2 = false → ∃ gs l, (ts.foldl (addGroup src) ([], true)).1 = gs ++ [l] ∧
        l ≠ [] ∧ ∀ t ∈ l, (src.v t).isMatch = false) := by
    intro ts
    induction ts using List.reverseRecOn with
    | nil => simp
    | append_singleton ts t ih =>
      rw [List.foldl_append, List.foldl_cons, List.foldl_nil]
      generalize ts.foldl (addGroup src) ([], true) = s at ih
      obtain ⟨i1, i2, i3⟩ := ih
      unfold addGroup
      split
      · next h =>
        refine ⟨by simp [i1], ?_, fun h' => by cases h'⟩
        intro l hl
        rcases List.mem_append.1 hl with h1 | h1
        · exact i2 l h1
        · rw [List.mem_singleton] at h1; exact Or.inl ⟨t, h1, h⟩
      · next h =>
        have h : (src.v t).isMatch = false := by simpa using h
        split
        · refine ⟨by simp [i1], ?_, fun _ => ⟨s.1, [t], rfl, by simp, by simpa using h⟩⟩
          intro l hl
          rcases List.mem_append.1 hl with h1 | h1
          · exact i2 l h1
          · rw [List.mem_singleton] at h1; exact Or.inr ⟨by simp [h1], by simpa [h1] using h⟩
        · next h2 =>
          obtain ⟨gs, l, e, h3, h4⟩ := i3 (by simpa using h2)
          have hp : ∀ x ∈ l ++ [t], (src.v x).isMatch = false := by
            intro x hx
            rcases List.mem_append.1 hx with h5 | h5
            · exact h4 x h5
            · rw [List.mem_singleton] at h5; rw [h5]; exact h
          rw [e] at i1 i2 ⊢
          have e1 : (gs ++ [l]).dropLast = gs := by simp
          have e2 : (gs ++ [l]).getLastD [] = l := by simp
          simp only [e1, e2]
          refine ⟨?_, ?_, fun _ => ⟨gs, l ++ [t], rfl, by simp, hp⟩⟩
          · rw [← i1]; simp
          · intro l' hl'
            rcases List.mem_append.1 hl' with h5 | h5
            · exact i2 l' (by simp [h5])
            · rw [List.mem_singleton] at h5; exact Or.inr ⟨by simp [h5], by rw [h5]; exact hp⟩
  exact ⟨(key ts).1, (key ts).2.1⟩

theorem groups_nodup {src : Graph} {ts : List Nat} (h : ts.Nodup) : (groups src ts).Nodup := by
  obtain ⟨h1, h2⟩ := groups_spec src ts
  rw [← h1, List.nodup_flatten] at h
  refine h.2.imp_of_mem ?_
  intro a b ha _ hd e
  subst e
  obtain ⟨x, hx⟩ := List.exists_mem_of_ne_nil _ (h2 a ha).ne
  exact hd hx hx

theorem mem_succKeys {src : Graph} {heads : List Nat} {k : Key} : k ∈ succKeys src heads ↔
    ∃ b < 256, k.1 = bytesWith src heads (tails src heads b) ∧ k.2 ∈ groups src (tails src heads b) := by
  unfold succKeys byteSets
  simp only [List.mem_flatMap, List.mem_insertionSort, List.mem_map, (removeRightDuplicates_set _).2.1, List.mem_range]
  constructor
  · rintro ⟨_, ⟨_, ⟨b, hb, rfl⟩, rfl⟩, l, hl, rfl⟩
    exact ⟨b, hb, rfl, hl⟩
  · rintro ⟨b, hb, h1, h2⟩
    exact ⟨_, ⟨_, ⟨b, hb, rfl⟩, rfl⟩, k.2, h2, by rw [← h1]⟩

theorem succKeys_nodup (src : Graph) (heads : List Nat) : (succKeys src heads).Nodup := by
  unfold succKeys
  rw [List.nodup_flatMap]
  have hmem : ∀ k ∈ byteSets src heads, ∃ b < 256, k = (bytesWith src heads (tails src heads b), tails src heads b) := by
    intro k hk
    unfold byteSets at hk
    simp only [List.mem_insertionSort, List.mem_map, (removeRightDuplicates_set _).2.1, List.mem_range] at hk
    obtain ⟨_, ⟨b, hb, rfl⟩, rfl⟩ := hk
    exact ⟨b, hb, rfl⟩
  refine ⟨?_, ?_⟩
  · intro k hk
    obtain ⟨b, -, rfl⟩ := hmem k hk
    exact (groups_nodup (tails_nodup src heads b)).map (fun _ _ e => congrArg Prod.snd e)
  · have hn : (byteSets src heads).Nodup := by
      unfold byteSets
      rw [(List.perm_insertionSort _ _).nodup_iff]
      exact (removeRightDuplicates_set _).1.map (fun _ _ e => congrArg Prod.snd e)
    refine hn.imp_of_mem ?_
    intro k k' hk hk' hne
    obtain ⟨b, hb, rfl⟩ := hmem k hk
    obtain ⟨b', hb', rfl⟩ := hmem k' hk'
    intro x hx hx'
    simp only [List.mem_map] at hx hx'
    obtain ⟨l, -, rfl⟩ := hx
    obtain ⟨l', -, e⟩ := hx'
    have e1 : bytesWith src heads (tails src heads b') = bytesWith src heads (tails src heads b) := congrArg Prod.fst e
    have := bytesWith_inj hb e1
    exact hne (by rw [this])

/-- What a key among the successors says. -/
theorem succ_sound {src : Graph} {heads : List Nat} {k : Key} (h : k ∈ succKeys src heads) :
    Pure src k.2 ∧ k.1 ≠ 0 ∧
    ∀ t ∈ k.2, (∃ x ∈ heads, t ∈ (src.v x).out) ∧ ∀ b, k.1.getLsbD b = true → (src.v t).bytes.getLsbD b = true ∧
      ∃ x ∈ heads, t ∈ (src.v x).out := by
  obtain ⟨b, hb, h1, h2⟩ := mem_succKeys.1 h
  obtain ⟨g1, g2⟩ := groups_spec src (tails src heads b)
  have hin : ∀ t ∈ k.2, t ∈ tails src heads b := by
    intro t ht; rw [← g1]; exact List.mem_flatten.2 ⟨_, h2, ht⟩
  refine ⟨g2 _ h2, ?_, fun t ht => ⟨?_, fun b' hb' => ?_⟩⟩
  · intro e
    have : k.1.getLsbD b = true := by rw [h1]; exact bytesWith_bit.2 ⟨hb, rfl⟩
    rw [e] at this; simp at this
  · obtain ⟨x, hx, h3, -⟩ := mem_tails.1 (hin t ht)
    exact ⟨x, hx, h3⟩
  · rw [h1] at hb'
    have ht' := hin t ht
    rw [← (bytesWith_bit.1 hb').2] at ht'
    obtain ⟨x, hx, h3, h4⟩ := mem_tails.1 ht'
    exact ⟨h4, x, hx, h3⟩

theorem succ_complete {src : Graph} {heads : List Nat} {x t b : Nat} (hx : x ∈ heads) (ht : t ∈ (src.v x).out)
    (hb : (src.v t).bytes.getLsbD b = true) : ∃ k ∈ succKeys src heads, k.1.getLsbD b = true ∧ t ∈ k.2 := by
  have hb' : b < 256 := BitVec.lt_of_getLsbD hb
  have h1 : t ∈ tails src heads b := mem_tails.2 ⟨x, hx, ht, hb⟩
  rw [← (groups_spec src (tails src heads b)).1] at h1
  obtain ⟨l, h2, h3⟩ := List.mem_flatten.1 h1
  exact ⟨(bytesWith src heads (tails src heads b), l), mem_succKeys.2 ⟨b, hb', rfl, h2⟩, bytesWith_bit.2 ⟨hb', rfl⟩, h3⟩

/-! ## The loops -/

/-- The data of the state for a key. -/
def kData (src : Graph) (k : Key) : Vertex :=
  { bytes := k.1, isMatch := (src.v (k.2.headD 0)).isMatch,
    label := if (src.v (k.2.headD 0)).isMatch then (src.v (k.2.headD 0)).label else none }

theorem makeDest_fold (src : Graph) (d depth : Nat) (ks : List Key) (s : Sub) (new : List Key) :
    ks.foldl (makeDest src d depth) { s with stack := new.map (fun k => (k, depth)) ++ s.stack } =
      let L := ks.foldl (link (kData src) d) { g := s.dst, f := s.tab, new }
      { s with dst := L.g, tab := L.f, stack := L.new.map (fun k => (k, depth)) ++ s.stack } := by
  induction ks generalizing s new with
  | nil => rfl
  | cons k ks ih =>
    rw [List.foldl_cons, List.foldl_cons]
    have e : makeDest src d depth { s with stack := new.map (fun k => (k, depth)) ++ s.stack } k =
        let L := link (kData src) d { g := s.dst, f := s.tab, new } k
        { s with dst := L.g, tab := L.f, stack := L.new.map (fun k => (k, depth)) ++ s.stack } := by
      unfold makeDest link
      dsimp only
      cases hk : s.tab k with
      | some t => rfl
      | none =>
        dsimp only
        congr 2
        have : ∀ b : Bool, ∀ lab, b = (src.v (k.2.headD 0)).isMatch → lab = (src.v (k.2.headD 0)).label →
            (if b = true then (s.dst.addVertex k.1).modify s.dst.n (fun x => { x with isMatch := true, label := lab })
              else s.dst.addVertex k.1) = newVertex s.dst (kData src k) := by
          intro b lab hb hl
          unfold newVertex copyVertex kData
          rw [← hb, ← hl]
          cases b
          · rfl
          · simp only [Graph.modify, Graph.addVertex, if_true]
            congr 1
            funext j
            split <;> simp_all
        exact this _ _ rfl rfl
    rw [e]
    exact ih { s with dst := (link (kData src) d { g := s.dst, f := s.tab, new } k).g, tab := (link (kData src) d { g := s.dst, f := s.tab, new } k).f } _

theorem connectTo_fold (d : Nat) (ns : List Nat) (s : Sub) (new : List Nat) :
    ns.foldl (connectTo d) s =
      let L := ns.foldl (link (fun _ => {}) d) { g := s.dst, f := s.s2d, new }
      { s with dst := L.g, s2d := L.f } := by
  induction ns generalizing s new with
  | nil => rfl
  | cons n ns ih =>
    rw [List.foldl_cons, List.foldl_cons]
    have e : connectTo d s n = let L := link (fun _ => {}) d { g := s.dst, f := s.s2d, new } n
        { s with dst := L.g, s2d := L.f } := by
      unfold connectTo link
      dsimp only
      cases hk : s.s2d n <;> rfl
    rw [e]
    exact ih { s with dst := (link (fun _ => {}) d { g := s.dst, f := s.s2d, new } n).g, s2d := (link (fun _ => {}) d { g := s.dst, f := s.s2d, new } n).f } _

theorem copyEdge_fold (d : Nat) (ns : List Nat) (c : Copy) (new : List Nat) :
    ns.foldl (copyEdge d) { c with next := new ++ c.next } =
      let L := ns.foldl (link (fun _ => {}) d) { g := c.dst, f := c.s2d, new }
      { dst := L.g, s2d := L.f, next := L.new ++ c.next } := by
  induction ns generalizing c new with
  | nil => rfl
  | cons n ns ih =>
    rw [List.foldl_cons, List.foldl_cons]
    have e : copyEdge d { c with next := new ++ c.next } n = let L := link (fun _ => {}) d { g := c.dst, f := c.s2d, new } n
        { dst := L.g, s2d := L.f, next := L.new ++ c.next } := by
      unfold copyEdge link
      dsimp only
      cases hk : c.s2d n <;> rfl
    rw [e]
    exact ih { c with dst := (link (fun _ => {}) d { g := c.dst, f := c.s2d, new } n).g, s2d := (link (fun _ => {}) d { g := c.dst, f := c.s2d, new } n).f } _

/-- The edges of a state: to the states of the keys, or to the copies. -/
def Outs (src : Graph) (tab : Key → Option Nat) (s2d : Nat → Option Nat) (k : Key) (out : List Nat) : Prop :=
  (out = (succKeys src k.2).map (fun k' => (tab k').getD 0) ∧ ∀ k' ∈ succKeys src k.2, tab k' ≠ none) ∨
  (out = (k.2.flatMap fun h => (src.v h).out).map (fun h => (s2d h).getD 0) ∧
    ∀ h ∈ k.2.flatMap (fun h => (src.v h).out), s2d h ≠ none)

/-- The keys of states other than the initial one. -/
def Good (src : Graph) (k : Key) : Prop :=
  Pure src k.2 ∧ k.1 ≠ 0 ∧ ∀ t ∈ k.2, 0 < t ∧ t < src.n ∧ ∀ b, k.1.getLsbD b = true → (src.v t).bytes.getLsbD b = true

/-- The state of the construction: `S` are the keys to be handled, `C` the states to be
copied. -/
structure Inv (src dst : Graph) (tab : Key → Option Nat) (s2d : Nat → Option Nat) (S : List Key) (C : Nat → Prop) : Prop where
  net : Net dst
  root : tab (0, [0]) = some 0
  tlt : ∀ k d, tab k = some d → d < dst.n
  slt : ∀ h d, s2d h = some d → d < dst.n
  tinj : ∀ k k' d, tab k = some d → tab k' = some d → k = k'
  sinj : ∀ h h' d, s2d h = some d → s2d h' = some d → h = h'
  disj : ∀ k h d, tab k = some d → s2d h = some d → False
  cover : ∀ d < dst.n, (∃ k, tab k = some d) ∨ ∃ h, s2d h = some d
  data : ∀ k d, tab k = some d → (dst.v d).bytes = k.1 ∧ (dst.v d).isMatch = (kData src k).isMatch ∧
    (dst.v d).label = (kData src k).label
  good : ∀ k d, tab k = some d → k = (0, [0]) ∨ Good src k
  sgood : ∀ h d, s2d h = some d → 0 < h ∧ h < src.n
  stab : ∀ k ∈ S, tab k ≠ none
  snod : S.Nodup
  todo : ∀ k d, tab k = some d → k ∈ S → (dst.v d).out = []
  done : ∀ k d, tab k = some d → k ∉ S → Outs src tab s2d k (dst.v d).out
  ctodo : ∀ h d, s2d h = some d → C h → (dst.v d).out = []
  cdone : ∀ h d, s2d h = some d → ¬ C h → ((dst.v d).bytes = (src.v h).bytes ∧ (dst.v d).isMatch = (src.v h).isMatch ∧
    (dst.v d).label = (src.v h).label) ∧ (dst.v d).out = (src.v h).out.map (fun u => (s2d u).getD 0) ∧
    ∀ u ∈ (src.v h).out, s2d u ≠ none
  reach : ∀ v < dst.n, Leads dst 0 v

theorem getD_keep {K : Type} {f f' : K → Option Nat} (h : ∀ k t, f k = some t → f' k = some t) {k : K} (hk : f k ≠ none) :
    (f k).getD 0 = (f' k).getD 0 ∧ f' k ≠ none := by
  cases e : f k with
  | none => exact (hk e).elim
  | some t => rw [h k t e]; exact ⟨rfl, fun e => by cases e⟩

theorem map_keep {K : Type} {f f' : K → Option Nat} (h : ∀ k t, f k = some t → f' k = some t) {l : List K} (hk : ∀ k ∈ l, f k ≠ none) :
    l.map (fun k => (f k).getD 0) = l.map (fun k => (f' k).getD 0) ∧ ∀ k ∈ l, f' k ≠ none :=
  ⟨List.map_congr_left fun k hk' => (getD_keep h (hk k hk')).1, fun k hk' => (getD_keep h (hk k hk')).2⟩

theorem Outs.mono {src : Graph} {tab tab' : Key → Option Nat} {s2d s2d' : Nat → Option Nat} {k : Key} {out : List Nat}
    (h : Outs src tab s2d k out) (ht : ∀ k t, tab k = some t → tab' k = some t) (hs : ∀ k t, s2d k = some t → s2d' k = some t) :
    Outs src tab' s2d' k out := by
  rcases h with ⟨h1, h2⟩ | ⟨h1, h2⟩
  · obtain ⟨a, b⟩ := map_keep ht h2
    exact Or.inl ⟨by rw [h1, a], b⟩
  · obtain ⟨a, b⟩ := map_keep hs h2
    exact Or.inr ⟨by rw [h1, a], b⟩

theorem linked_reach {K : Type} [DecidableEq K] {data : K → Vertex} {d : Nat} {ks : List K} {g : Graph} {f : K → Option Nat}
    {L : Ln K} (h : Linked data d ks g f L) (hd : d < g.n) (hr : ∀ v < g.n, Leads g 0 v) : ∀ v < L.g.n, Leads L.g 0 v := by
  have hm : ∀ v u, u ∈ (g.v v).out → u ∈ (L.g.v v).out := by
    intro v u hu
    by_cases e : v = d
    · rw [e, h.here]; rw [e] at hu; exact List.mem_append_left _ hu
    · rw [h.there v e]; exact hu
  intro v hv
  by_cases hv' : v < g.n
  · exact leads_mono hm (hr v hv')
  · obtain ⟨k, h1, h2⟩ := h.onto v (by omega) hv
    refine (leads_mono hm (hr d hd)).snoc ?_
    rw [h.here]
    refine List.mem_append_right _ (List.mem_map.2 ⟨k, h.only k h1 (by rw [h2]; exact fun e => by cases e), by rw [h2]; rfl⟩)

/-- Handling the successors of a key. -/
theorem Inv.handle {src dst : Graph} {tab : Key → Option Nat} {s2d : Nat → Option Nat} {k : Key} {S : List Key} {C : Nat → Prop}
    (hsrc : Tidy src) (h : Inv src dst tab s2d (k :: S) C) {d : Nat} (hd : tab k = some d) :
    ∃ L, L = (succKeys src k.2).foldl (link (kData src) d) { g := dst, f := tab, new := [] } ∧
    Linked (kData src) d (succKeys src k.2) dst tab L ∧ Inv src L.g L.f s2d (L.new ++ S) C := by
  have hdn := h.tlt k d hd
  have hkg := h.good k d hd
  have h0 : ∀ k' ∈ succKeys src k.2, tab k' ≠ some 0 := by
    intro k' hk' e
    have := h.tinj _ _ _ e h.root
    rw [this] at hk'
    exact (succ_sound hk').2.1 rfl
  have hL := links (data := kData src) h.net hdn h.tlt (succKeys src k.2) h0
  refine ⟨_, rfl, hL, ?_⟩
  generalize (succKeys src k.2).foldl (link (kData src) d) { g := dst, f := tab, new := [] } = L at hL
  have hsplit : ∀ k' d', L.f k' = some d' → tab k' = some d' ∨ (tab k' = none ∧ k' ∈ succKeys src k.2) := by
    intro k' d' e
    cases e1 : tab k' with
    | none => exact Or.inr ⟨rfl, hL.only k' e1 (by rw [e]; exact fun e => by cases e)⟩
    | some t => rw [hL.keep k' t e1] at e; exact Or.inl e
  have hout : ∀ v, v ≠ d → (L.g.v v).out = (dst.v v).out := hL.there
  have hkeepd : ∀ v < dst.n, (L.g.v v).bytes = (dst.v v).bytes ∧ (L.g.v v).isMatch = (dst.v v).isMatch ∧
      (L.g.v v).label = (dst.v v).label := hL.same
  have hdout : (dst.v d).out = [] := h.todo k d hd (by simp)
  have hgood : ∀ k' ∈ succKeys src k.2, Good src k' := by
    intro k' hk'
    obtain ⟨a, b, c⟩ := succ_sound hk'
    refine ⟨a, b, fun t ht => ?_⟩
    obtain ⟨⟨x, hx, hxt⟩, c2⟩ := c t ht
    have := hsrc.range x t hxt
    exact ⟨this.2.1, this.2.2, fun b hb => (c2 b hb).1⟩
  have hkS : k ∉ S := (List.nodup_cons.1 h.snod).1
  refine ⟨hL.net, hL.keep _ _ h.root, hL.lt, ?_, ?_, h.sinj, ?_, ?_, ?_, ?_, h.sgood, ?_, ?_, ?_, ?_, ?_, ?_, linked_reach hL hdn h.reach⟩
  · intro x y e; exact Nat.lt_of_lt_of_le (h.slt x y e) hL.le
  · intro k1 k2 d' e1 e2
    rcases hsplit k1 d' e1 with a | ⟨a, -⟩ <;> rcases hsplit k2 d' e2 with b | ⟨b, -⟩
    · exact h.tinj _ _ _ a b
    · have := (hL.fresh k2 d' b e2).1; have := h.tlt k1 d' a; omega
    · have := (hL.fresh k1 d' a e1).1; have := h.tlt k2 d' b; omega
    · exact hL.inj _ _ _ a b e1 e2
  · intro k' x d' e1 e2
    rcases hsplit k' d' e1 with a | ⟨a, -⟩
    · exact h.disj _ _ _ a e2
    · have := (hL.fresh k' d' a e1).1; have := h.slt x d' e2; omega
  · intro v hv
    by_cases hv' : v < dst.n
    · rcases h.cover v hv' with ⟨k', e⟩ | e
      · exact Or.inl ⟨k', hL.keep _ _ e⟩
      · exact Or.inr e
    · obtain ⟨k', -, e⟩ := hL.onto v (by omega) hv
      exact Or.inl ⟨k', e⟩
  · intro k' d' e
    rcases hsplit k' d' e with a | ⟨a, -⟩
    · obtain ⟨x, y, z⟩ := h.data k' d' a
      obtain ⟨x', y', z'⟩ := hkeepd d' (h.tlt k' d' a)
      rw [x', y', z']; exact ⟨x, y, z⟩
    · exact (hL.fresh k' d' a e).2
  · intro k' d' e
    rcases hsplit k' d' e with a | ⟨-, a⟩
    · exact h.good k' d' a
    · exact Or.inr (hgood k' a)
  · intro k' hk'
    rcases List.mem_append.1 hk' with a | a
    · exact ((hL.new.2 k').1 a).2
    · exact (getD_keep hL.keep (h.stab k' (by simp [a]))).2
  · rw [List.nodup_append]
    refine ⟨hL.new.1, (List.nodup_cons.1 h.snod).2, ?_⟩
    intro x hx y hy e
    subst e
    exact h.stab x (by simp [hy]) ((hL.new.2 x).1 hx).1
  · intro k' d' e hk'
    rcases hsplit k' d' e with a | ⟨a, -⟩
    · have hk'S : k' ∈ S := by
        rcases List.mem_append.1 hk' with b | b
        · rw [((hL.new.2 k').1 b).1] at a; cases a
        · exact b
      rw [hout d' (fun e2 => by subst e2; rw [h.tinj _ _ _ hd a] at hkS; exact hkS hk'S)]
      exact h.todo k' d' a (by simp [hk'S])
    · have := (hL.fresh k' d' a e).1
      rw [hout d' (by omega), (h.net.nothing (by omega)).1]
  · intro k' d' e hk'
    rw [List.mem_append, not_or] at hk'
    have a : tab k' = some d' := by
      rcases hsplit k' d' e with a | ⟨a, -⟩
      · exact a
      · exact (hk'.1 ((hL.new.2 k').2 ⟨a, by rw [e]; exact fun e => by cases e⟩)).elim
    by_cases e2 : k' = k
    · subst e2
      rw [hd] at a; cases a
      exact Or.inl ⟨by rw [hL.here, hdout, List.nil_append], hL.some⟩
    · rw [hout d' (fun e3 => by subst e3; exact e2 (h.tinj _ _ _ a hd))]
      refine (h.done k' d' a ?_).mono hL.keep (fun _ _ x => x)
      rw [List.mem_cons, not_or]; exact ⟨e2, hk'.2⟩
  · intro x d' e hC
    rw [hout d' (fun e3 => by subst e3; exact h.disj _ _ _ hd e)]
    exact h.ctodo x d' e hC
  · intro x d' e hC
    rw [hout d' (fun e3 => by subst e3; exact h.disj _ _ _ hd e)]
    obtain ⟨x', y', z'⟩ := hkeepd d' (h.slt x d' e)
    rw [x', y', z']; exact h.cdone x d' e hC

/-- Connecting the state of a key to the copies. -/
theorem Inv.connect {src dst : Graph} {tab : Key → Option Nat} {s2d : Nat → Option Nat} {k : Key} {S : List Key}
    (hsrc : Tidy src) (h : Inv src dst tab s2d (k :: S) fun _ => True) {d : Nat} (hd : tab k = some d) :
    ∃ L, L = (k.2.flatMap fun h => (src.v h).out).foldl (link (fun _ => {}) d) { g := dst, f := s2d, new := [] } ∧
    Linked (fun _ => {}) d (k.2.flatMap fun h => (src.v h).out) dst s2d L ∧ Inv src L.g tab L.f S fun _ => True := by
  have hdn := h.tlt k d hd
  have h0 : ∀ x ∈ (k.2.flatMap fun h => (src.v h).out), s2d x ≠ some 0 := by
    intro x _ e
    exact h.disj _ _ _ h.root e
  have hL := links (data := fun _ => {}) h.net hdn h.slt (k.2.flatMap fun h => (src.v h).out) h0
  refine ⟨_, rfl, hL, ?_⟩
  generalize (k.2.flatMap fun h => (src.v h).out).foldl (link (fun _ => {}) d) { g := dst, f := s2d, new := [] } = L at hL
  have hsplit : ∀ x d', L.f x = some d' → s2d x = some d' ∨ (s2d x = none ∧ x ∈ k.2.flatMap fun h => (src.v h).out) := by
    intro k' d' e
    cases e1 : s2d k' with
    | none => exact Or.inr ⟨rfl, hL.only k' e1 (by rw [e]; exact fun e => by cases e)⟩
    | some t => rw [hL.keep k' t e1] at e; exact Or.inl e
  have hdout : (dst.v d).out = [] := h.todo k d hd (by simp)
  have hkS : k ∉ S := (List.nodup_cons.1 h.snod).1
  refine ⟨hL.net, h.root, ?_, hL.lt, h.tinj, ?_, ?_, ?_, ?_, h.good, ?_, fun k' hk' => h.stab k' (by simp [hk']),
    (List.nodup_cons.1 h.snod).2, ?_, ?_, ?_, fun x d' _ hC => (hC trivial).elim, linked_reach hL hdn h.reach⟩
  · intro x y e; exact Nat.lt_of_lt_of_le (h.tlt x y e) hL.le
  · intro k1 k2 d' e1 e2
    rcases hsplit k1 d' e1 with a | ⟨a, -⟩ <;> rcases hsplit k2 d' e2 with b | ⟨b, -⟩
    · exact h.sinj _ _ _ a b
    · have := (hL.fresh k2 d' b e2).1; have := h.slt k1 d' a; omega
    · have := (hL.fresh k1 d' a e1).1; have := h.slt k2 d' b; omega
    · exact hL.inj _ _ _ a b e1 e2
  · intro k' x d' e1 e2
    rcases hsplit x d' e2 with a | ⟨a, -⟩
    · exact h.disj _ _ _ e1 a
    · have := (hL.fresh x d' a e2).1; have := h.tlt k' d' e1; omega
  · intro v hv
    by_cases hv' : v < dst.n
    · rcases h.cover v hv' with e | ⟨x, e⟩
      · exact Or.inl e
      · exact Or.inr ⟨x, hL.keep _ _ e⟩
    · obtain ⟨k', -, e⟩ := hL.onto v (by omega) hv
      exact Or.inr ⟨k', e⟩
  · intro k' d' e
    obtain ⟨x', y', z'⟩ := hL.same d' (h.tlt k' d' e)
    rw [x', y', z']; exact h.data k' d' e
  · intro x d' e
    rcases hsplit x d' e with a | ⟨-, a⟩
    · exact h.sgood x d' a
    · obtain ⟨y, -, hy⟩ := List.mem_flatMap.1 a
      exact (hsrc.range y x hy).2
  · intro k' d' e hk'
    rw [hL.there d' (fun e2 => by subst e2; rw [h.tinj _ _ _ hd e] at hkS; exact hkS hk')]
    exact h.todo k' d' e (by simp [hk'])
  · intro k' d' e hk'
    by_cases e2 : k' = k
    · subst e2
      rw [hd] at e; cases e
      exact Or.inr ⟨by rw [hL.here, hdout, List.nil_append], hL.some⟩
    · rw [hL.there d' (fun e3 => by subst e3; exact e2 (h.tinj _ _ _ e hd))]
      refine (h.done k' d' e ?_).mono (fun _ _ x => x) hL.keep
      rw [List.mem_cons, not_or]; exact ⟨e2, hk'⟩
  · intro x d' e _
    rcases hsplit x d' e with a | ⟨a, -⟩
    · rw [hL.there d' (fun e3 => by subst e3; exact h.disj _ _ _ hd a)]
      exact h.ctodo x d' a trivial
    · have := (hL.fresh x d' a e).1
      rw [hL.there d' (by omega), (h.net.nothing (by omega)).1]

/-- Copying a state. -/
theorem Inv.copy {src dst : Graph} {tab : Key → Option Nat} {s2d : Nat → Option Nat} {C : Nat → Prop}
    (hsrc : Tidy src) (h : Inv src dst tab s2d [] C) {x d : Nat} (hd : s2d x = some d) (hx : C x) :
    ∃ L, L = (src.v x).out.foldl (link (fun _ => {}) d) { g := dst.modify d fun y =>
        { y with label := (src.v x).label, isMatch := (src.v x).isMatch, bytes := (src.v x).bytes }, f := s2d, new := [] } ∧
    Linked (fun _ => {}) d (src.v x).out (dst.modify d fun y =>
        { y with label := (src.v x).label, isMatch := (src.v x).isMatch, bytes := (src.v x).bytes }) s2d L ∧
    Inv src L.g tab L.f [] fun y => y ∈ L.new ∨ (C y ∧ y ≠ x) := by
  have hdn := h.slt x d hd
  have hm : ∀ v, ((dst.modify d fun y =>
        { y with label := (src.v x).label, isMatch := (src.v x).isMatch, bytes := (src.v x).bytes }).v v).out = (dst.v v).out ∧
      ((dst.modify d fun y =>
        { y with label := (src.v x).label, isMatch := (src.v x).isMatch, bytes := (src.v x).bytes }).v v).inn = (dst.v v).inn := by
    intro v; unfold Graph.modify; dsimp only; split <;> exact ⟨rfl, rfl⟩
  have hmd : ∀ v, v ≠ d → (dst.modify d fun y =>
        { y with label := (src.v x).label, isMatch := (src.v x).isMatch, bytes := (src.v x).bytes }).v v = dst.v v := by
    intro v hv; unfold Graph.modify; dsimp only; rw [if_neg hv]
  have hmd' : ((dst.modify d fun y =>
        { y with label := (src.v x).label, isMatch := (src.v x).isMatch, bytes := (src.v x).bytes }).v d).bytes = (src.v x).bytes ∧
      ((dst.modify d fun y =>
        { y with label := (src.v x).label, isMatch := (src.v x).isMatch, bytes := (src.v x).bytes }).v d).isMatch = (src.v x).isMatch ∧
      ((dst.modify d fun y =>
        { y with label := (src.v x).label, isMatch := (src.v x).isMatch, bytes := (src.v x).bytes }).v d).label = (src.v x).label := by
    unfold Graph.modify; dsimp only; rw [if_pos rfl]; exact ⟨rfl, rfl, rfl⟩
  have hmn : (dst.modify d fun y =>
        { y with label := (src.v x).label, isMatch := (src.v x).isMatch, bytes := (src.v x).bytes }).n = dst.n := rfl
  generalize (dst.modify d fun y =>
        { y with label := (src.v x).label, isMatch := (src.v x).isMatch, bytes := (src.v x).bytes }) = m at *
  have hnet : Net m := by
    refine ⟨by rw [hmn]; exact h.net.pos, ?_, ?_, ?_⟩
    · intro a b; rw [(hm a).1, (hm b).2]; exact h.net.bal a b
    · intro a b hb; rw [(hm a).1] at hb; rw [hmn]; exact h.net.range a b hb
    · intro a ha; rw [hmn] at ha; rw [hmd a (by omega)]; exact h.net.outside a ha
  have h0 : ∀ y ∈ (src.v x).out, s2d y ≠ some 0 := by
    intro y _ e
    exact h.disj _ _ _ h.root e
  have hL := links (data := fun _ => {}) hnet (by rw [hmn]; exact hdn) (by rw [hmn]; exact h.slt) (src.v x).out h0
  refine ⟨_, rfl, hL, ?_⟩
  generalize (src.v x).out.foldl (link (fun _ => {}) d) { g := m, f := s2d, new := [] } = L at hL
  have hLn : dst.n ≤ L.g.n := by have := hL.le; rw [hmn] at this; exact this
  have hsplit : ∀ y d', L.f y = some d' → s2d y = some d' ∨ (s2d y = none ∧ y ∈ (src.v x).out) := by
    intro k' d' e
    cases e1 : s2d k' with
    | none => exact Or.inr ⟨rfl, hL.only k' e1 (by rw [e]; exact fun e => by cases e)⟩
    | some t => rw [hL.keep k' t e1] at e; exact Or.inl e
  have hdout : (dst.v d).out = [] := h.ctodo x d hd hx
  have hfresh : ∀ y d', s2d y = none → L.f y = some d' → dst.n ≤ d' := by
    intro y d' a b; have := (hL.fresh y d' a b).1; rw [hmn] at this; exact this
  refine ⟨hL.net, h.root, ?_, hL.lt, h.tinj, ?_, ?_, ?_, ?_, h.good, ?_, by simp, List.nodup_nil, by simp, ?_, ?_, ?_, ?_⟩
  · intro x y e; exact Nat.lt_of_lt_of_le (h.tlt x y e) hLn
  · intro k1 k2 d' e1 e2
    rcases hsplit k1 d' e1 with a | ⟨a, -⟩ <;> rcases hsplit k2 d' e2 with b | ⟨b, -⟩
    · exact h.sinj _ _ _ a b
    · have := hfresh k2 d' b e2; have := h.slt k1 d' a; omega
    · have := hfresh k1 d' a e1; have := h.slt k2 d' b; omega
    · exact hL.inj _ _ _ a b e1 e2
  · intro k' y d' e1 e2
    rcases hsplit y d' e2 with a | ⟨a, -⟩
    · exact h.disj _ _ _ e1 a
    · have := hfresh y d' a e2; have := h.tlt k' d' e1; omega
  · intro v hv
    by_cases hv' : v < dst.n
    · rcases h.cover v hv' with e | ⟨y, e⟩
      · exact Or.inl e
      · exact Or.inr ⟨y, hL.keep _ _ e⟩
    · obtain ⟨k', -, e⟩ := hL.onto v (by rw [hmn]; omega) hv
      exact Or.inr ⟨k', e⟩
  · intro k' d' e
    obtain ⟨x', y', z'⟩ := hL.same d' (by rw [hmn]; exact h.tlt k' d' e)
    rw [x', y', z', hmd d' (fun e2 => by subst e2; exact h.disj _ _ _ e hd)]; exact h.data k' d' e
  · intro y d' e
    rcases hsplit y d' e with a | ⟨-, a⟩
    · exact h.sgood y d' a
    · exact (hsrc.range x y a).2
  · intro k' d' e _
    rw [hL.there d' (fun e2 => by subst e2; exact h.disj _ _ _ e hd), (hm d').1]
    exact (h.done k' d' e (by simp)).mono (fun _ _ z => z) hL.keep
  · intro y d' e hC
    rcases hsplit y d' e with a | ⟨a, -⟩
    · rcases hC with b | ⟨b, c⟩
      · rw [((hL.new.2 y).1 b).1] at a; cases a
      · rw [hL.there d' (fun e3 => by subst e3; exact c (h.sinj _ _ _ a hd)), (hm d').1]
        exact h.ctodo y d' a b
    · have := hfresh y d' a e
      rw [hL.there d' (by omega), (hm d').1, (h.net.nothing (by omega)).1]
  · intro y d' e hC
    rw [not_or] at hC
    have a : s2d y = some d' := by
      rcases hsplit y d' e with a | ⟨a, -⟩
      · exact a
      · exact (hC.1 ((hL.new.2 y).2 ⟨a, by rw [e]; exact fun e => by cases e⟩)).elim
    obtain ⟨x', y', z'⟩ := hL.same d' (by rw [hmn]; exact h.slt y d' a)
    rw [x', y', z']
    by_cases e2 : y = x
    · subst e2
      rw [hd] at a; cases a
      refine ⟨hmd', ?_, hL.some⟩
      rw [hL.here, (hm d).1, hdout, List.nil_append]
    · have hne : d' ≠ d := fun e3 => by subst e3; exact e2 (h.sinj _ _ _ a hd)
      rw [hL.there d' hne, (hm d').1, hmd d' hne]
      obtain ⟨p, q, r⟩ := h.cdone y d' a (fun hc => hC.2 ⟨hc, e2⟩)
      obtain ⟨s, t⟩ := map_keep hL.keep r
      exact ⟨p, by rw [q, s], t⟩
  · refine linked_reach hL (by rw [hmn]; exact hdn) ?_
    intro v hv
    rw [hmn] at hv
    exact leads_mono (fun a b hb => by rw [(hm a).1]; exact hb) (h.reach v hv)

theorem Inv.weaken {src dst : Graph} {tab : Key → Option Nat} {s2d : Nat → Option Nat} {S : List Key} {C C' : Nat → Prop}
    (h : Inv src dst tab s2d S C) (hc : ∀ y, s2d y ≠ none → (C y ↔ C' y)) : Inv src dst tab s2d S C' := by
  refine { h with ctodo := ?_, cdone := ?_ }
  · intro x d hx hC; exact h.ctodo x d hx ((hc x (by rw [hx]; exact fun e => by cases e)).2 hC)
  · intro x d hx hC; exact h.cdone x d hx (fun hC' => hC ((hc x (by rw [hx]; exact fun e => by cases e)).1 hC'))

/-- The state of the first loop. -/
structure SInv (src : Graph) (limit : Nat) (s : Sub) : Prop where
  inv : Inv src s.dst s.tab s.s2d (s.stack.map Prod.fst) fun _ => True
  depth : ∀ x ∈ s.stack, x.2 < s.dst.n
  cut : (∃ h, s.s2d h ≠ none) → limit < s.dst.n

theorem sinv_init {src : Graph} (hsrc : Tidy src) (limit : Nat) : SInv src limit
    { dst := Graph.init, tab := fun k => if k = (0, [0]) then some 0 else none, stack := [((0, [0]), 0)], s2d := fun _ => none } := by
  refine ⟨?_, by simp [Graph.init], by simp⟩
  have ht : ∀ (k : Key) d, (if k = (0, [0]) then some 0 else none) = some d → k = (0, [0]) ∧ d = 0 := by
    intro k d h; split at h
    · next e => cases h; exact ⟨e, rfl⟩
    · cases h
  refine ⟨⟨by simp [Graph.init], fun a b => by simp [Graph.init], by simp [Graph.init], by simp [Graph.init]⟩, by simp, ?_,
    by simp, ?_, by simp, by simp, ?_, ?_, ?_, by simp, by simp, by simp, ?_, ?_, by simp, by simp, ?_⟩
  · intro k d h; obtain ⟨-, rfl⟩ := ht k d h; simp [Graph.init]
  · intro k k' d h h'; rw [(ht k d h).1, (ht k' d h').1]
  · intro d hd; left; refine ⟨(0, [0]), ?_⟩
    have hd : d < 1 := hd
    show (if ((0, [0]) : Key) = (0, [0]) then some 0 else none) = some d
    rw [if_pos rfl]; congr 1; omega
  · intro k d h; obtain ⟨rfl, rfl⟩ := ht k d h
    simp [Graph.init, kData, hsrc.root]
  · intro k d h; exact Or.inl (ht k d h).1
  · intro k d _ _; rfl
  · intro k d h h'; rw [(ht k d h).1] at h'; simp at h'
  · intro v hv
    have hv : v < 1 := hv
    rw [show v = 0 by omega]; exact .refl 0

theorem sinv_step {src : Graph} (hsrc : Tidy src) {limit : Nat} {s : Sub} (h : SInv src limit s) {k : Key} {depth : Nat}
    {st : List (Key × Nat)} (hs : s.stack = (k, depth) :: st) :
    ∃ s', s' = (if depth < limit then handle src k.2 ((s.tab k).getD 0) (depth + 1) { s with stack := st }
        else connectOrig src k.2 ((s.tab k).getD 0) { s with stack := st }) ∧ SInv src limit s' ∧
      s.dst.n ≤ s'.dst.n ∧ (∀ k d, s.tab k = some d → s'.tab k = some d) ∧
      ∃ N : List Key, N.Nodup ∧ (∀ x ∈ N, s.tab x = none ∧ s'.tab x ≠ none ∧ x ∈ succKeys src k.2) ∧ s'.stack.length = N.length + st.length := by
  have hinv := h.inv
  rw [hs, List.map_cons] at hinv
  have hdep : depth < s.dst.n := h.depth (k, depth) (by rw [hs]; simp)
  have hdepst : ∀ x ∈ st, x.2 < s.dst.n := fun x hx => h.depth x (by rw [hs]; simp [hx])
  obtain ⟨d, hd⟩ := Option.ne_none_iff_exists'.1 (hinv.stab k (by simp))
  rw [hd, Option.getD_some]
  refine ⟨_, rfl, ?_⟩
  split
  · obtain ⟨L, e, hL, hI⟩ := Inv.handle hsrc hinv hd
    have eq : Subset.handle src k.2 d (depth + 1) { s with stack := st } =
        { s with dst := L.g, tab := L.f, stack := L.new.map (fun k => (k, depth + 1)) ++ st } := by
      unfold Subset.handle
      have := makeDest_fold src d (depth + 1) (succKeys src k.2) { s with stack := st } []
      simp only [List.map_nil, List.nil_append] at this
      rw [this, e]
    rw [eq]
    refine ⟨⟨?_, ?_, ?_⟩, hL.le, hL.keep, L.new, hL.new.1, ?_, by simp⟩
    · have e2 : (L.new.map (fun k => (k, depth + 1)) ++ st).map Prod.fst = L.new ++ st.map Prod.fst := by
        rw [List.map_append, List.map_map]; simp [Function.comp_def]
      dsimp only
      rw [e2]; exact hI
    · intro x hx
      have hle := hL.le
      rcases List.mem_append.1 hx with hx | hx
      · obtain ⟨y, hy, rfl⟩ := List.mem_map.1 hx
        obtain ⟨a, b⟩ := (hL.new.2 y).1 hy
        obtain ⟨t, ht⟩ := Option.ne_none_iff_exists'.1 b
        have := (hL.fresh y t a ht).1
        have := hL.lt y t ht
        dsimp only; omega
      · have := hdepst x hx
        dsimp only; omega
    · intro hc
      have := h.cut hc
      have hle := hL.le
      dsimp only; omega
    · intro x hx
      obtain ⟨a, b⟩ := (hL.new.2 x).1 hx
      exact ⟨a, b, hL.only x a b⟩
  · next hlim =>
    obtain ⟨L, e, hL, hI⟩ := Inv.connect hsrc hinv hd
    have eq : connectOrig src k.2 d { s with stack := st } = { s with dst := L.g, s2d := L.f, stack := st } := by
      unfold connectOrig
      rw [connectTo_fold d _ _ [], e]
    rw [eq]
    refine ⟨⟨hI, ?_, ?_⟩, hL.le, fun _ _ h => h, [], by simp, by simp, by simp⟩
    · intro x hx
      have := hdepst x hx
      have := hL.le
      dsimp only; omega
    · intro _
      have := hL.le
      dsimp only; omega

theorem subsetLoop_inv {src : Graph} (hsrc : Tidy src) {limit : Nat} : ∀ fuel s s', SInv src limit s →
    subsetLoop src limit fuel s = some s' → SInv src limit s' ∧ s'.stack = [] := by
  intro fuel
  induction fuel with
  | zero => intro s s' _ h; cases h
  | succ n ih =>
    intro s s' hs h
    unfold subsetLoop at h
    split at h
    · next e => cases h; exact ⟨hs, e⟩
    · next k depth st e =>
      obtain ⟨s1, e1, h1, -⟩ := sinv_step hsrc hs e
      dsimp only at h
      rw [← e1] at h
      exact ih _ _ h1 h

/-- The state of the second loop. -/
structure CInv (src : Graph) (limit : Nat) (tab : Key → Option Nat) (c : Copy) : Prop where
  inv : Inv src c.dst tab c.s2d [] fun y => y ∈ c.next
  nodup : c.next.Nodup
  some : ∀ y ∈ c.next, c.s2d y ≠ none
  cut : (∃ h, c.s2d h ≠ none) → limit < c.dst.n

theorem cinv_step {src : Graph} (hsrc : Tidy src) {limit : Nat} {tab : Key → Option Nat} {c : Copy} (h : CInv src limit tab c)
    {x : Nat} {next : List Nat} (hs : c.next = x :: next) :
    ∃ c', c' = (src.v x).out.foldl (copyEdge ((c.s2d x).getD 0)) { c with
        dst := c.dst.modify ((c.s2d x).getD 0) fun y =>
          { y with label := (src.v x).label, isMatch := (src.v x).isMatch, bytes := (src.v x).bytes }, next } ∧
      CInv src limit tab c' ∧ (∀ k d, c.s2d k = some d → c'.s2d k = some d) ∧
      ∃ N : List Nat, N.Nodup ∧ (∀ x ∈ N, c.s2d x = none ∧ c'.s2d x ≠ none) ∧ c'.next.length = N.length + next.length := by
  obtain ⟨d, hd⟩ := Option.ne_none_iff_exists'.1 (h.some x (by rw [hs]; simp))
  have hnd := h.nodup
  rw [hs, List.nodup_cons] at hnd
  rw [hd, Option.getD_some]
  obtain ⟨L, e, hL, hI⟩ := Inv.copy hsrc h.inv hd (by rw [hs]; simp)
  have eq : (src.v x).out.foldl (copyEdge d) { c with
        dst := c.dst.modify d fun y =>
          { y with label := (src.v x).label, isMatch := (src.v x).isMatch, bytes := (src.v x).bytes }, next } =
      { dst := L.g, s2d := L.f, next := L.new ++ next } := by
    have := copyEdge_fold d (src.v x).out { c with
        dst := c.dst.modify d fun y =>
          { y with label := (src.v x).label, isMatch := (src.v x).isMatch, bytes := (src.v x).bytes }, next } []
    simp only [List.nil_append] at this
    rw [this, e]
  refine ⟨_, rfl, ?_⟩
  rw [eq]
  refine ⟨⟨?_, ?_, ?_, ?_⟩, hL.keep, L.new, hL.new.1, fun y hy => (hL.new.2 y).1 hy, by simp⟩
  · refine hI.weaken fun y _ => ?_
    rw [hs, List.mem_append, List.mem_cons]
    constructor
    · rintro (a | ⟨a | a, b⟩)
      · exact Or.inl a
      · exact (b a).elim
      · exact Or.inr a
    · rintro (a | a)
      · exact Or.inl a
      · exact Or.inr ⟨Or.inr a, fun e => hnd.1 (e ▸ a)⟩
  · rw [List.nodup_append]
    refine ⟨hL.new.1, hnd.2, ?_⟩
    intro a ha b hb e
    subst e
    exact h.some a (by rw [hs]; simp [hb]) ((hL.new.2 a).1 ha).1
  · intro y hy
    rcases List.mem_append.1 hy with a | a
    · exact ((hL.new.2 y).1 a).2
    · exact (getD_keep hL.keep (h.some y (by rw [hs]; simp [a]))).2
  · intro _
    have := h.cut ⟨x, by rw [hd]; exact fun e => by cases e⟩
    exact Nat.lt_of_lt_of_le this hL.le

theorem copyLoop_inv {src : Graph} (hsrc : Tidy src) {limit : Nat} {tab : Key → Option Nat} : ∀ fuel c d, CInv src limit tab c →
    copyLoop src fuel c = some d → ∃ s2d, Inv src d tab s2d [] (fun _ => False) ∧ ((∃ h, s2d h ≠ none) → limit < d.n) := by
  intro fuel
  induction fuel with
  | zero => intro s s' _ h; cases h
  | succ n ih =>
    intro c d hc h
    unfold copyLoop at h
    split at h
    · next e =>
      cases h
      exact ⟨c.s2d, hc.inv.weaken fun y _ => by rw [e]; simp, hc.cut⟩
    · next x next e =>
      obtain ⟨c1, e1, h1, -⟩ := cinv_step hsrc hc e
      dsimp only at h
      rw [← e1] at h
      exact ih _ _ h1 h

theorem cinv_init {src : Graph} {limit : Nat} {s : Sub} (h : SInv src limit s) (he : s.stack = []) :
    CInv src limit s.tab { dst := s.dst, s2d := s.s2d, next := ((List.range src.n).filter fun x => (s.s2d x).isSome).reverse } := by
  have hmem : ∀ y, y ∈ ((List.range src.n).filter fun x => (s.s2d x).isSome).reverse ↔ s.s2d y ≠ none := by
    intro y
    rw [List.mem_reverse, List.mem_filter, List.mem_range, Option.isSome_iff_ne_none]
    refine ⟨fun h => h.2, fun h' => ⟨?_, h'⟩⟩
    obtain ⟨d, hd⟩ := Option.ne_none_iff_exists'.1 h'
    exact (h.inv.sgood y d hd).2
  have hi := h.inv
  rw [he, List.map_nil] at hi
  refine ⟨hi.weaken fun y hy => ?_, ?_, fun y hy => (hmem y).1 hy, h.cut⟩
  · exact ⟨fun _ => (hmem y).2 hy, fun _ => trivial⟩
  · rw [List.nodup_reverse]; exact List.nodup_range.filter _

/-- What subset construction makes. -/
theorem subset_inv {src : Graph} (hsrc : Tidy src) {fuel limit : Nat} {d : Graph} (h : subsetDFA fuel src limit = some d) :
    ∃ tab s2d, Inv src d tab s2d [] (fun _ => False) ∧ ((∃ h, s2d h ≠ none) → limit < d.n) := by
  unfold subsetDFA at h
  dsimp only at h
  split at h
  · cases h
  · next s e =>
    obtain ⟨h1, h2⟩ := subsetLoop_inv hsrc _ _ _ (sinv_init hsrc limit) e
    exact ⟨s.tab, copyLoop_inv hsrc _ _ _ (cinv_init h1 h2) h⟩

/-! ## What the new automaton does -/

/-- The original states a new state stands for. -/
def Mem (tab : Key → Option Nat) (s2d : Nat → Option Nat) (d t : Nat) : Prop :=
  (∃ k, tab k = some d ∧ t ∈ k.2) ∨ s2d t = some d

section
variable {src dst : Graph} {tab : Key → Option Nat} {s2d : Nat → Option Nat}

theorem mem_root (h : Inv src dst tab s2d [] fun _ => False) {t : Nat} : Mem tab s2d 0 t ↔ t = 0 := by
  constructor
  · rintro (⟨k, h1, h2⟩ | h1)
    · rw [h.tinj _ _ _ h1 h.root] at h2; simpa using h2
    · exact (h.disj _ _ _ h.root h1).elim
  · rintro rfl; exact Or.inl ⟨_, h.root, by simp⟩

theorem edge_back (h : Inv src dst tab s2d [] fun _ => False) {d u t' : Nat} (hu : u ∈ (dst.v d).out) (hm : Mem tab s2d u t') :
    (∃ t, Mem tab s2d d t ∧ t' ∈ (src.v t).out) ∧
    ∀ b, (dst.v u).bytes.getLsbD b = true → (src.v t').bytes.getLsbD b = true ∧ ∃ t, Mem tab s2d d t ∧ t' ∈ (src.v t).out := by
  have hd := (h.net.range d u hu).1
  have copy : ∀ y, s2d y = some u → y = t' ∧ (dst.v u).bytes = (src.v t').bytes := by
    intro y hy
    rcases hm with ⟨k, h1, -⟩ | h1
    · exact (h.disj _ _ _ h1 hy).elim
    · have := h.sinj _ _ _ hy h1
      exact ⟨this, (h.cdone t' u h1 (fun x => x)).1.1⟩
  have fromCopies : ∀ l : List Nat, (∀ y ∈ l, s2d y ≠ none) → u ∈ l.map (fun y => (s2d y).getD 0) → ∃ y ∈ l, s2d y = some u := by
    intro l hl hu'
    obtain ⟨y, hy, e⟩ := List.mem_map.1 hu'
    obtain ⟨z, hz⟩ := Option.ne_none_iff_exists'.1 (hl y hy)
    rw [hz, Option.getD_some] at e
    exact ⟨y, hy, e ▸ hz⟩
  rcases h.cover d hd with ⟨k, hk⟩ | ⟨x, hx⟩
  · rcases h.done k d hk (by simp) with ⟨o1, o2⟩ | ⟨o1, o2⟩
    · rw [o1] at hu
      obtain ⟨k', hk', e⟩ := List.mem_map.1 hu
      obtain ⟨z, hz⟩ := Option.ne_none_iff_exists'.1 (o2 k' hk')
      rw [hz, Option.getD_some] at e
      subst e
      have ht' : t' ∈ k'.2 := by
        rcases hm with ⟨k2, h1, h2⟩ | h1
        · rw [h.tinj _ _ _ h1 hz] at h2; exact h2
        · exact (h.disj _ _ _ hz h1).elim
      obtain ⟨-, -, c⟩ := succ_sound hk'
      obtain ⟨⟨x, hx, hxt⟩, c2⟩ := c t' ht'
      refine ⟨⟨x, Or.inl ⟨k, hk, hx⟩, hxt⟩, fun b hb => ?_⟩
      rw [(h.data k' _ hz).1] at hb
      obtain ⟨c3, x, hx, hxt⟩ := c2 b hb
      exact ⟨c3, x, Or.inl ⟨k, hk, hx⟩, hxt⟩
    · rw [o1] at hu
      obtain ⟨y, hy, e⟩ := fromCopies _ o2 hu
      obtain ⟨rfl, eb⟩ := copy y e
      obtain ⟨x, hx, hxy⟩ := List.mem_flatMap.1 hy
      exact ⟨⟨x, Or.inl ⟨k, hk, hx⟩, hxy⟩, fun b hb => ⟨eb ▸ hb, x, Or.inl ⟨k, hk, hx⟩, hxy⟩⟩
  · obtain ⟨-, o1, o2⟩ := h.cdone x d hx (fun x => x)
    rw [o1] at hu
    obtain ⟨y, hy, e⟩ := fromCopies _ o2 hu
    obtain ⟨rfl, eb⟩ := copy y e
    exact ⟨⟨x, Or.inr hx, hy⟩, fun b hb => ⟨eb ▸ hb, x, Or.inr hx, hy⟩⟩

theorem edge_fwd (h : Inv src dst tab s2d [] fun _ => False) {d t t' b : Nat} (hm : Mem tab s2d d t) (ht : t' ∈ (src.v t).out)
    (hb : (src.v t').bytes.getLsbD b = true) : ∃ u ∈ (dst.v d).out, Mem tab s2d u t' ∧ (dst.v u).bytes.getLsbD b = true := by
  have copy : ∀ l : List Nat, (∀ y ∈ l, s2d y ≠ none) → t' ∈ l →
      ∃ u ∈ l.map (fun y => (s2d y).getD 0), Mem tab s2d u t' ∧ (dst.v u).bytes.getLsbD b = true := by
    intro l hl ht'
    obtain ⟨z, hz⟩ := Option.ne_none_iff_exists'.1 (hl t' ht')
    refine ⟨z, List.mem_map.2 ⟨t', ht', by rw [hz]; rfl⟩, Or.inr hz, ?_⟩
    rw [(h.cdone t' z hz (fun x => x)).1.1]; exact hb
  rcases hm with ⟨k, hk, htk⟩ | hx
  · rcases h.done k d hk (by simp) with ⟨o1, o2⟩ | ⟨o1, o2⟩
    · obtain ⟨k', hk', b1, b2⟩ := succ_complete htk ht hb
      obtain ⟨z, hz⟩ := Option.ne_none_iff_exists'.1 (o2 k' hk')
      refine ⟨z, ?_, Or.inl ⟨k', hz, b2⟩, ?_⟩
      · rw [o1]; exact List.mem_map.2 ⟨k', hk', by rw [hz]; rfl⟩
      · rw [(h.data k' z hz).1]; exact b1
    · rw [o1]; exact copy _ o2 (List.mem_flatMap.2 ⟨t, htk, ht⟩)
  · obtain ⟨-, o1, o2⟩ := h.cdone t d hx (fun x => x)
    rw [o1]; exact copy _ o2 ht

theorem match_fwd (hsrc : Tidy src) (h : Inv src dst tab s2d [] fun _ => False) {d t : Nat} (hm : Mem tab s2d d t)
    (ht : (src.v t).isMatch = true) : (dst.v d).isMatch = true ∧ (dst.v d).label = (src.v t).label := by
  rcases hm with ⟨k, hk, htk⟩ | hx
  · obtain ⟨-, d2, d3⟩ := h.data k d hk
    rcases h.good k d hk with rfl | ⟨g1, -⟩
    · rw [List.mem_singleton] at htk; rw [htk, hsrc.root] at ht; cases ht
    · rcases g1 with ⟨m, e, hmm⟩ | ⟨-, g1⟩
      · rw [e, List.mem_singleton] at htk
        subst htk
        rw [d2, d3]; unfold kData; dsimp only
        rw [e, List.headD_cons, if_pos ht]; exact ⟨ht, rfl⟩
      · rw [g1 t htk] at ht; cases ht
  · obtain ⟨⟨-, o1, o2⟩, -⟩ := h.cdone t d hx (fun x => x)
    rw [o1, o2]; exact ⟨ht, rfl⟩

theorem match_back (hsrc : Tidy src) (h : Inv src dst tab s2d [] fun _ => False) {d : Nat} (hd : (dst.v d).isMatch = true) :
    ∃ t, (∀ t', Mem tab s2d d t' ↔ t' = t) ∧ (src.v t).isMatch = true ∧ (dst.v d).label = (src.v t).label := by
  have hdn : d < dst.n := by
    by_contra hc
    rw [(h.net.outside d (by omega)).1] at hd; cases hd
  rcases h.cover d hdn with ⟨k, hk⟩ | ⟨x, hx⟩
  · obtain ⟨-, d2, d3⟩ := h.data k d hk
    rw [d2] at hd
    have hd : (src.v (k.2.headD 0)).isMatch = true := hd
    have d3 : (dst.v d).label = if (src.v (k.2.headD 0)).isMatch then (src.v (k.2.headD 0)).label else none := d3
    rw [if_pos hd] at d3
    refine ⟨k.2.headD 0, fun t' => ?_, hd, d3⟩
    have hk2 : k.2 = [k.2.headD 0] := by
      rcases h.good k d hk with rfl | ⟨g1, -⟩
      · rfl
      · rcases g1 with ⟨m, e, -⟩ | ⟨g1, g2⟩
        · rw [e]; rfl
        · obtain ⟨m, l, e⟩ := List.exists_cons_of_ne_nil g1
          rw [e, List.headD_cons, g2 m (by rw [e]; simp)] at hd; cases hd
    constructor
    · rintro (⟨k', h1, h2⟩ | h1)
      · rw [h.tinj _ _ _ h1 hk, hk2, List.mem_singleton] at h2; exact h2
      · exact (h.disj _ _ _ hk h1).elim
    · rintro rfl; exact Or.inl ⟨k, hk, by rw [hk2]; simp⟩
  · obtain ⟨⟨-, o1, o2⟩, -⟩ := h.cdone x d hx (fun x => x)
    refine ⟨x, fun t' => ?_, by rw [← o1]; exact hd, o2⟩
    constructor
    · rintro (⟨k', h1, -⟩ | h1)
      · exact (h.disj _ _ _ h1 hx).elim
      · exact h.sinj _ _ _ h1 hx
    · rintro rfl; exact Or.inr hx

theorem mem_ne (h : Inv src dst tab s2d [] fun _ => False) {d : Nat} (hd : d < dst.n) : ∃ t, Mem tab s2d d t := by
  rcases h.cover d hd with ⟨k, hk⟩ | ⟨x, hx⟩
  · rcases h.good k d hk with rfl | ⟨g1, -⟩
    · exact ⟨0, Or.inl ⟨_, hk, by simp⟩⟩
    · obtain ⟨x, hx⟩ := List.exists_mem_of_ne_nil _ g1.ne
      exact ⟨x, Or.inl ⟨k, hk, hx⟩⟩
  · exact ⟨x, Or.inr hx⟩

theorem mem_lt (h : Inv src dst tab s2d [] fun _ => False) {d t : Nat} (hd : d ≠ 0) (hm : Mem tab s2d d t) : 0 < t ∧ t < src.n := by
  rcases hm with ⟨k, hk, htk⟩ | hx
  · rcases h.good k d hk with rfl | ⟨-, -, g⟩
    · rw [h.root] at hk; cases hk; exact (hd rfl).elim
    · exact ⟨(g t htk).1, (g t htk).2.1⟩
  · exact h.sgood _ _ hx

theorem leads_back (h : Inv src dst tab s2d [] fun _ => False) {d d' : Nat} (hl : Leads dst d d') :
    ∀ {t'}, Mem tab s2d d' t' → ∃ t, Mem tab s2d d t ∧ Leads src t t' := by
  induction hl with
  | refl => intro t' hm; exact ⟨t', hm, .refl _⟩
  | step hu _ ih =>
    intro t' hm
    obtain ⟨x, h1, h2⟩ := ih hm
    obtain ⟨⟨y, h3, h4⟩, -⟩ := edge_back h hu h1
    exact ⟨y, h3, .step h4 h2⟩

theorem leads_fwd (hb : ∀ v < src.n, v ≠ 0 → (src.v v).bytes ≠ 0) (hsrc : Tidy src) (h : Inv src dst tab s2d [] fun _ => False) {t t' : Nat}
    (hl : Leads src t t') : ∀ {d}, Mem tab s2d d t → ∃ d', Leads dst d d' ∧ Mem tab s2d d' t' := by
  induction hl with
  | refl => intro d hm; exact ⟨d, .refl _, hm⟩
  | @step v u t hu _ ih =>
    intro d hm
    have hr := hsrc.range _ _ hu
    obtain ⟨b, hb'⟩ := Fsm.exists_byte (hb u hr.2.2 (by omega))
    obtain ⟨d1, h1, h2, -⟩ := edge_fwd h hm hu hb'
    obtain ⟨d', h3, h4⟩ := ih h2
    exact ⟨d', .step h1 h3, h4⟩

theorem reads_back (h : Inv src dst tab s2d [] fun _ => False) {w : List UInt8} {d : Nat} (hr : Nfa.Reads dst w d) :
    ∀ t, Mem tab s2d d t → Nfa.Reads src w t := by
  induction hr with
  | init => intro t hm; rw [mem_root h] at hm; rw [hm]; exact .init
  | step _ hu hb ih =>
    intro t hm
    obtain ⟨e, x, h1, h2⟩ := (edge_back h hu hm).2 _ hb
    exact .step (ih x h1) h2 e

theorem reads_fwd (h : Inv src dst tab s2d [] fun _ => False) {w : List UInt8} {t : Nat} (hr : Nfa.Reads src w t) :
    ∃ d, Mem tab s2d d t ∧ Nfa.Reads dst w d := by
  induction hr with
  | init => exact ⟨0, (mem_root h).2 rfl, .init⟩
  | step _ hu hb ih =>
    obtain ⟨d, h1, h2⟩ := ih
    obtain ⟨u, h3, h4, h5⟩ := edge_fwd h h1 hu hb
    exact ⟨u, h4, .step h2 h3 h5⟩

end

/-! ## C21 -/

/-- **C21** Subset construction, with any limit on the depth, keeps which byte strings
are accepted with which label. -/
theorem subset_language {src : Graph} (hsrc : Tidy src) {fuel limit : Nat} {d : Graph} (h : subsetDFA fuel src limit = some d)
    (l : Nat) (w : List UInt8) : Accepts d l w ↔ Accepts src l w := by
  obtain ⟨tab, s2d, hI, -⟩ := subset_inv hsrc h
  have hr : (d.v 0).isMatch = false := by
    rw [(hI.data _ _ hI.root).2.1]; exact hsrc.root
  rw [accepts_iff_reads hr, accepts_iff_reads hsrc.root]
  constructor
  · rintro ⟨v, h1, h2, h3⟩
    obtain ⟨t, m1, m2, m3⟩ := match_back hsrc hI h2
    exact ⟨t, reads_back hI h1 t ((m1 t).2 rfl), m2, by rw [← m3]; exact h3⟩
  · rintro ⟨t, h1, h2, h3⟩
    obtain ⟨v, m1, m2⟩ := reads_fwd hI h1
    obtain ⟨e1, e2⟩ := match_fwd hsrc hI m1 h2
    exact ⟨v, m2, e1, by rw [e2]; exact h3⟩

/-- The new automaton is as tidy as the old one; it has no parallel edges if it has no
more states than the limit. -/
theorem subset_shape {src : Graph} (hsrc : Combined src) {fuel limit : Nat} {d : Graph} (h : subsetDFA fuel src limit = some d) :
    Tidy d ∧ Balanced d ∧ 0 < d.n ∧ (∀ v < d.n, v ≠ 0 → (d.v v).bytes ≠ 0) ∧ (2 ≤ src.n → 2 ≤ d.n) ∧
    (d.n ≤ limit → ∀ v, (d.v v).out.Nodup) := by
  obtain ⟨tab, s2d, hI, hcut⟩ := subset_inv hsrc.toTidy h
  have hT := hsrc.toTidy
  refine ⟨⟨fun v u => hI.net.bal.mem, hI.net.range, ?_, ?_, ?_, ?_, hI.reach, ?_⟩, hI.net.bal, hI.net.pos, ?_, ?_, ?_⟩
  · intro v
    constructor
    · intro hm
      obtain ⟨t, -, m2, m3⟩ := match_back hT hI hm
      rw [m3]; exact (hT.labels t).1 m2
    · intro hl
      by_cases hv : v < d.n
      · rcases hI.cover v hv with ⟨k, hk⟩ | ⟨x, hx⟩
        · obtain ⟨-, d2, d3⟩ := hI.data k v hk
          rw [d3] at hl
          rw [d2]
          have hl : (if (src.v (k.2.headD 0)).isMatch then (src.v (k.2.headD 0)).label else none) ≠ none := hl
          show (src.v (k.2.headD 0)).isMatch = true
          by_contra hc
          rw [if_neg hc] at hl; exact hl rfl
        · obtain ⟨⟨-, o1, o2⟩, -⟩ := hI.cdone x v hx (fun x => x)
          rw [o2] at hl
          rw [o1]; exact (hT.labels x).2 hl
      · exact (hl (hI.net.outside v (by omega)).2).elim
  · intro v hm
    by_contra hc
    rw [(hI.net.outside v (by omega)).1] at hm; cases hm
  · rw [(hI.data _ _ hI.root).2.1]; exact hT.root
  · intro m m' hm hm' hl
    obtain ⟨t, a1, a2, a3⟩ := match_back hT hI hm
    obtain ⟨t', b1, b2, b3⟩ := match_back hT hI hm'
    obtain ⟨x, hx, hl'⟩ := leads_back hI hl ((b1 t').2 rfl)
    rw [a1] at hx
    subst hx
    rw [a3, b3]; exact hT.tails x t' a2 b2 hl'
  · intro v hv h0
    obtain ⟨t, ht⟩ := mem_ne hI hv
    obtain ⟨t0, tn⟩ := mem_lt hI h0 ht
    obtain ⟨m, h1, h2⟩ := hT.live t tn (by omega)
    obtain ⟨d', h3, h4⟩ := leads_fwd hsrc.bytes hT hI h1 ht
    exact ⟨d', h3, (match_fwd hT hI h4 h2).1⟩
  · intro v hv h0
    rcases hI.cover v hv with ⟨k, hk⟩ | ⟨x, hx⟩
    · rw [(hI.data k v hk).1]
      rcases hI.good k v hk with rfl | g
      · rw [hI.root] at hk; cases hk; exact (h0 rfl).elim
      · exact g.2.1
    · rw [(hI.cdone x v hx (fun x => x)).1.1]
      have := hI.sgood x v hx
      exact hsrc.bytes x this.2 (by omega)
  · intro hn
    obtain ⟨m, h1, h2⟩ := hT.live 1 (by omega) (by omega)
    obtain ⟨d', h3, h4⟩ := leads_fwd hsrc.bytes hT hI ((hT.reach 1 (by omega)).trans h1) ((mem_root hI).2 rfl)
    have h5 := match_fwd hT hI h4 h2
    have : d' < d.n := by
      by_contra hc
      rw [(hI.net.outside d' (by omega)).1] at h5; cases h5.1
    have : d' ≠ 0 := by
      rintro rfl
      rw [(hI.data _ _ hI.root).2.1, show (kData src (0, [0])).isMatch = (src.v 0).isMatch from rfl, hT.root] at h5
      cases h5.1
    omega
  · intro hlim v
    have hno : ∀ x, s2d x = none := by
      intro x
      by_contra hc
      have := hcut ⟨x, hc⟩
      omega
    by_cases hv : v < d.n
    · rcases hI.cover v hv with ⟨k, hk⟩ | ⟨x, hx⟩
      · rcases hI.done k v hk (by simp) with ⟨o1, o2⟩ | ⟨o1, o2⟩
        · rw [o1]
          refine (List.nodup_map_iff_inj_on (succKeys_nodup src k.2)).2 ?_
          intro a ha b hb e
          obtain ⟨z, hz⟩ := Option.ne_none_iff_exists'.1 (o2 a ha)
          obtain ⟨z', hz'⟩ := Option.ne_none_iff_exists'.1 (o2 b hb)
          rw [hz, hz', Option.getD_some, Option.getD_some] at e
          subst e
          exact hI.tinj _ _ _ hz hz'
        · rw [o1]
          cases e : (k.2.flatMap fun h => (src.v h).out) with
          | nil => simp
          | cons a l => exact (o2 a (by rw [e]; simp) (hno a)).elim
      · rw [hno] at hx; cases hx
    · rw [(hI.net.nothing (by omega)).1]; exact List.nodup_nil

/-- Without parallel edges it is fit for labelling and compiling. -/
theorem subset_combined {src : Graph} (hsrc : Combined src) {fuel limit : Nat} {d : Graph} (h : subsetDFA fuel src limit = some d)
    (hd : ∀ v, (d.v v).out.Nodup) : Combined d := by
  obtain ⟨a, b, c, e, -⟩ := subset_shape hsrc h
  exact { a with pos := c, bal := b, nodup := hd, bytes := e }

/-! ## The construction ends -/

theorem finite_lists (n : Nat) : {l : List Nat | l.length ≤ n ∧ ∀ x ∈ l, x < n}.Finite := by
  have := (List.finite_length_le (Fin n) n).image (List.map Fin.val)
  refine this.subset ?_
  rintro l ⟨h1, h2⟩
  refine ⟨l.attach.map fun x => ⟨x.1, h2 x.1 x.2⟩, by simpa using h1, by simp [Function.comp_def]⟩

theorem finite_keys (n : Nat) : {k : Key | k.2.length ≤ n ∧ ∀ x ∈ k.2, x < n}.Finite := by
  have hf : Finite BSet := Finite.of_injective BitVec.toFin (fun a b h => BitVec.eq_of_toFin_eq h)
  have := (Set.finite_univ (α := BSet)).prod (finite_lists n)
  exact this.subset fun k hk => ⟨trivial, hk⟩

theorem succ_small {src : Graph} (hsrc : Tidy src) {heads : List Nat} {k : Key} (h : k ∈ succKeys src heads) :
    k.2.length ≤ src.n ∧ ∀ x ∈ k.2, x < src.n := by
  obtain ⟨b, -, -, h2⟩ := mem_succKeys.1 h
  obtain ⟨g1, -⟩ := groups_spec src (tails src heads b)
  have hsub : k.2.Sublist (tails src heads b) := by
    rw [← g1]; exact List.sublist_flatten_of_mem h2
  have hlt : ∀ x ∈ k.2, x < src.n := by
    intro x hx
    obtain ⟨y, -, hy, -⟩ := mem_tails.1 (hsub.subset hx)
    exact (hsrc.range y x hy).2.2
  refine ⟨?_, hlt⟩
  have hn := hsub.nodup (tails_nodup src heads b)
  have := (hn.subperm (l₂ := List.range src.n) (fun x hx => List.mem_range.2 (hlt x hx))).length_le
  simpa using this

theorem count_less {K : Type} [DecidableEq K] (T : Finset K) {f f' : K → Option Nat} (hk : ∀ k t, f k = some t → f' k = some t)
    {N : List K} (hN : N.Nodup) (h : ∀ x ∈ N, f x = none ∧ f' x ≠ none ∧ x ∈ T) :
    (T.filter fun k => f' k = none).card + N.length ≤ (T.filter fun k => f k = none).card := by
  rw [← List.toFinset_card_of_nodup hN, ← Finset.card_union_of_disjoint]
  · refine Finset.card_le_card ?_
    intro x hx
    rw [Finset.mem_filter]
    rcases Finset.mem_union.1 hx with h1 | h1
    · obtain ⟨a, b⟩ := Finset.mem_filter.1 h1
      refine ⟨a, ?_⟩
      cases e : f x with
      | none => rfl
      | some t => rw [hk x t e] at b; cases b
    · obtain ⟨a, -, c⟩ := h x (List.mem_toFinset.1 h1)
      exact ⟨c, a⟩
  · rw [Finset.disjoint_left]
    intro x hx hx'
    exact (h x (List.mem_toFinset.1 hx')).2.1 (Finset.mem_filter.1 hx).2

theorem subsetLoop_ends {src : Graph} (hsrc : Tidy src) (limit : Nat) (T : Finset Key)
    (hT : ∀ heads, ∀ k ∈ succKeys src heads, k ∈ T) : ∀ m s, SInv src limit s →
    (T.filter fun k => s.tab k = none).card + s.stack.length ≤ m →
    ∃ s', ∀ fuel ≥ m + 1, subsetLoop src limit fuel s = some s' := by
  intro m
  induction m with
  | zero =>
    intro s _ h
    refine ⟨s, fun fuel hf => ?_⟩
    obtain ⟨f, rfl⟩ : ∃ f, fuel = f + 1 := ⟨fuel - 1, by omega⟩
    have : s.stack = [] := List.length_eq_zero_iff.1 (by omega)
    unfold subsetLoop; rw [this]
  | succ m ih =>
    intro s hs h
    cases e : s.stack with
    | nil =>
      refine ⟨s, fun fuel hf => ?_⟩
      obtain ⟨f, rfl⟩ : ∃ f, fuel = f + 1 := ⟨fuel - 1, by omega⟩
      unfold subsetLoop; rw [e]
    | cons x st =>
      obtain ⟨k, depth⟩ := x
      obtain ⟨s1, e1, h1, -, hk, N, n1, n2, n3⟩ := sinv_step hsrc hs e
      have := count_less T hk n1 (fun x hx => ⟨(n2 x hx).1, (n2 x hx).2.1, hT _ x (n2 x hx).2.2⟩)
      rw [e, List.length_cons] at h
      obtain ⟨s', h'⟩ := ih s1 h1 (by omega)
      refine ⟨s', fun fuel hf => ?_⟩
      obtain ⟨f, rfl⟩ : ∃ f, fuel = f + 1 := ⟨fuel - 1, by omega⟩
      unfold subsetLoop; rw [e]
      dsimp only
      rw [← e1]
      exact h' f (by omega)

theorem copyLoop_ends {src : Graph} (hsrc : Tidy src) {limit : Nat} {tab : Key → Option Nat} : ∀ m c, CInv src limit tab c →
    ((Finset.range src.n).filter fun k => c.s2d k = none).card + c.next.length ≤ m →
    ∃ d, ∀ fuel ≥ m + 1, copyLoop src fuel c = some d := by
  intro m
  induction m with
  | zero =>
    intro c _ h
    refine ⟨c.dst, fun fuel hf => ?_⟩
    obtain ⟨f, rfl⟩ : ∃ f, fuel = f + 1 := ⟨fuel - 1, by omega⟩
    have : c.next = [] := List.length_eq_zero_iff.1 (by omega)
    unfold copyLoop; rw [this]
  | succ m ih =>
    intro c hc h
    cases e : c.next with
    | nil =>
      refine ⟨c.dst, fun fuel hf => ?_⟩
      obtain ⟨f, rfl⟩ : ∃ f, fuel = f + 1 := ⟨fuel - 1, by omega⟩
      unfold copyLoop; rw [e]
    | cons x next =>
      obtain ⟨c1, e1, h1, hk, N, n1, n2, n3⟩ := cinv_step hsrc hc e
      have := count_less (Finset.range src.n) hk n1 (fun y hy => ⟨(n2 y hy).1, (n2 y hy).2, by
        obtain ⟨d, hd⟩ := Option.ne_none_iff_exists'.1 (n2 y hy).2
        exact Finset.mem_range.2 (h1.inv.sgood y d hd).2⟩)
      rw [e, List.length_cons] at h
      obtain ⟨s', h'⟩ := ih c1 h1 (by omega)
      refine ⟨s', fun fuel hf => ?_⟩
      obtain ⟨f, rfl⟩ : ∃ f, fuel = f + 1 := ⟨fuel - 1, by omega⟩
      unfold copyLoop; rw [e]
      dsimp only
      rw [← e1]
      exact h' f (by omega)

/-- **C21** Subset construction ends. -/
theorem subset_ends {src : Graph} (hsrc : Tidy src) (limit : Nat) : ∃ d F, ∀ fuel ≥ F, subsetDFA fuel src limit = some d := by
  let T := (finite_keys src.n).toFinset
  have hT : ∀ heads, ∀ k ∈ succKeys src heads, k ∈ T := fun heads k hk =>
    (Set.Finite.mem_toFinset _).2 (succ_small hsrc hk)
  obtain ⟨s, F1, h1⟩ : ∃ s F, ∀ fuel ≥ F, subsetLoop src limit fuel
      { dst := Graph.init, tab := fun k => if k = (0, [0]) then some 0 else none, stack := [((0, [0]), 0)], s2d := fun _ => none } = some s := by
    obtain ⟨s, h1⟩ := subsetLoop_ends hsrc limit T hT _ _ (sinv_init hsrc limit) (Nat.le_refl _)
    exact ⟨s, _, h1⟩
  obtain ⟨a, b⟩ := subsetLoop_inv hsrc _ _ _ (sinv_init hsrc limit) (h1 _ (Nat.le_refl _))
  obtain ⟨d, F2, h2⟩ : ∃ d F, ∀ fuel ≥ F, copyLoop src fuel
      { dst := s.dst, s2d := s.s2d, next := ((List.range src.n).filter fun x => (s.s2d x).isSome).reverse } = some d := by
    obtain ⟨d, h2⟩ := copyLoop_ends hsrc _ _ (cinv_init a b) (Nat.le_refl _)
    exact ⟨d, _, h2⟩
  refine ⟨d, max F1 F2, fun fuel hf => ?_⟩
  unfold subsetDFA
  dsimp only
  rw [h1 fuel (le_trans (le_max_left _ _) hf)]
  exact h2 fuel (le_trans (le_max_right _ _) hf)

end Verif.Subset
