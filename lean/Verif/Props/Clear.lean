import Verif.Props.Reported
/-!
# Patterns whose automata stay in order

`Stays` of C74 and C78 is a condition on the automaton.  Here is one on the pattern: wherever there is a
choice of what to read next, no two of the alternatives begin with the same set of bytes.
-/
namespace Verif.NfaBuilder
open Verif.Nfa Verif.Regex Verif.Optimizer

/-! ## Specification -/

/-- The sets of bytes a leaf can begin with, one for each of its sequences. -/
def first : Leaf → List BSet
  | .lit bs => (bs.head?.map BSet.single).toList
  | .cls encs brk additive => ((breakout encs brk additive).getD []).map (·.headD 0)

variable {α β : Type}

/-- Can the pattern match nothing? -/
def nullable : Tree α → Bool
  | .leaf _ => false
  | .alt l r => nullable l || nullable r
  | .cat l r => nullable l && nullable r
  | .rep _ m _ t => m == 0 || nullable t
  | .look _ _ => false

/-- What a match can begin with, where `fs` says it for the leaves. -/
def heads (fs : α → List β) : Tree α → List β
  | .leaf a => fs a
  | .alt l r => heads fs l ++ heads fs r
  | .cat l r => heads fs l ++ if nullable l then heads fs r else []
  | .rep _ _ _ t => heads fs t
  | .look _ _ => []

/-- What a match can go on with where it could also end. -/
def again (fs : α → List β) : Tree α → List β
  | .leaf _ => []
  | .alt l r => again fs l ++ again fs r
  | .cat l r => again fs r ++ if nullable r then again fs l ++ heads fs r else []
  | .rep _ m M t => again fs t ++ if m = M ∨ M = 1 then [] else heads fs t
  | .look _ _ => []

/-- Wherever there is a choice of what to read next, the alternatives begin with different things.  (What is
repeated matches something, unless it is repeated at most once, or without bound as by `*` or `+`.) -/
def Clear (fs : α → List β) : Tree α → Prop
  | .leaf a => (fs a).Nodup
  | .alt l r => Clear fs l ∧ Clear fs r ∧ ∀ s ∈ heads fs l, s ∉ heads fs r
  | .cat l r => Clear fs l ∧ Clear fs r ∧ (∀ s ∈ again fs l, s ∉ heads fs r) ∧ (nullable l = true → ∀ s ∈ heads fs l, s ∉ heads fs r)
  | .rep _ m M t => Clear fs t ∧ (1 < M → ∀ s ∈ again fs t, s ∉ heads fs t) ∧
      (nullable t = true → M ≤ 1 ∨ (m ≤ 1 ∧ M = UNB))
  | .look _ _ => False

/-! ## Counted repetitions -/

variable {fs : α → List β}


theorem heads_nodup : ∀ t : Tree α, Clear fs t → (heads fs t).Nodup
  | .leaf a, h => h
  | .alt l r, h => List.nodup_append.2 ⟨heads_nodup l h.1, heads_nodup r h.2.1, fun a ha b hb e => h.2.2 a ha (e ▸ hb)⟩
  | .cat l r, h => by
    rw [heads]
    split
    · next hl => exact List.nodup_append.2 ⟨heads_nodup l h.1, heads_nodup r h.2.1, fun a ha b hb e => h.2.2.2 hl a ha (e ▸ hb)⟩
    · rw [List.append_nil]; exact heads_nodup l h.1
  | .rep _ _ _ t, h => heads_nodup t h.1
  | .look _ _, h => h.elim

theorem nullable_copies (t s : Tree α) (k : Nat) : nullable (copies t s k) = ((k == 0 || nullable t) && nullable s) := by
  induction k with
  | zero => simp [copies]
  | succ k ih =>
    rw [copies, nullable, ih]
    cases nullable t <;> cases nullable s <;> simp

theorem nullable_optional (ng : Bool) (t : Tree α) (k : Nat) : nullable (optional ng t k) = true := by
  cases k <;> simp [optional, nullable]

theorem heads_optional (ng : Bool) {t : Tree α} (ht : nullable t = false) (k : Nat) : heads fs (optional ng t k) = heads fs t := by
  cases k with
  | zero => rfl
  | succ k => simp [optional, heads, ht]

theorem again_optional (ng : Bool) {t : Tree α} (ht : nullable t = false) : ∀ k,
    ∀ s ∈ again fs (optional ng t k), s ∈ again fs t ++ heads fs t := by
  intro k
  induction k with
  | zero => intro s hs; simpa [optional, again] using Or.inl hs
  | succ k ih =>
    intro s hs
    simp only [optional, again, nullable_optional, if_true, or_true, List.append_nil, heads_optional ng ht, List.mem_append] at hs ih ⊢
    rcases hs with hs | hs | hs
    · exact ih s hs
    · exact .inl hs
    · exact .inr hs

theorem clear_optional (ng : Bool) {t : Tree α} (ht : nullable t = false) (hc : Clear fs t) (hd : ∀ s ∈ again fs t, s ∉ heads fs t) : ∀ k,
    Clear fs (optional ng t k) := by
  intro k
  induction k with
  | zero => exact ⟨hc, fun h => absurd h (by decide), fun _ => .inl (Nat.le_refl 1)⟩
  | succ k ih =>
    refine ⟨⟨hc, ih, ?_, fun h => ?_⟩, fun h => absurd h (by decide), fun _ => .inl (Nat.le_refl 1)⟩
    · rw [heads_optional ng ht]; exact hd
    · rw [ht] at h; cases h

/-- Copies in front of something that begins in the same way. -/
theorem copies_clear {t s : Tree α} (ht : nullable t = false) (hc : Clear fs t) (hs : Clear fs s)
    (hd : ∀ x ∈ again fs t, x ∉ heads fs t) (hh : heads fs s = heads fs t) (ha : ∀ x ∈ again fs s, x ∈ again fs t ++ heads fs t) : ∀ k,
    Clear fs (copies t s k) ∧ heads fs (copies t s k) = heads fs t ∧ ∀ x ∈ again fs (copies t s k), x ∈ again fs t ++ heads fs t := by
  intro k
  induction k with
  | zero => exact ⟨hs, hh, ha⟩
  | succ k ih =>
    obtain ⟨i1, i2, i3⟩ := ih
    refine ⟨⟨hc, i1, by rw [i2]; exact hd, fun h => by rw [ht] at h; cases h⟩, by simp [copies, heads, ht], ?_⟩
    intro x hx
    rw [copies, again, List.mem_append] at hx
    rcases hx with hx | hx
    · exact i3 x hx
    · split at hx
      · rw [List.mem_append, i2] at hx
        exact List.mem_append.2 hx
      · cases hx

theorem copies_again {t : Tree α} (ht : nullable t = false) (k : Nat) : again fs (copies t t k) = again fs t := by
  induction k with
  | zero => rfl
  | succ k ih =>
    have : nullable (copies t t k) = false := by rw [nullable_copies, ht]; simp
    rw [copies, again, this, ih]
    simp

/-- What counts for the automaton is the same of a tree with counted repetitions written out. -/
theorem expand_clear : ∀ t : Tree α, Ok t → NoDead t → Clear fs t →
    Clear fs (expand t) ∧ heads fs (expand t) = heads fs t ∧ nullable (expand t) = nullable t ∧ ∀ s ∈ again fs (expand t), s ∈ again fs t
  | .leaf a, _, _, h => ⟨h, rfl, rfl, fun _ h => h⟩
  | .look _ _, _, _, h => h.elim
  | .alt l r, ho, hd, h => by
    obtain ⟨a1, a2, a3, a4⟩ := expand_clear l ho.1 hd.1 h.1
    obtain ⟨b1, b2, b3, b4⟩ := expand_clear r ho.2 hd.2 h.2.1
    refine ⟨⟨a1, b1, by rw [a2, b2]; exact h.2.2⟩, by simp [expand, heads, a2, b2], by simp [expand, nullable, a3, b3], ?_⟩
    intro s hs
    rw [expand, again, List.mem_append] at hs
    rw [again, List.mem_append]
    exact hs.imp (a4 s) (b4 s)
  | .cat l r, ho, hd, h => by
    obtain ⟨a1, a2, a3, a4⟩ := expand_clear l ho.1 hd.1 h.1
    obtain ⟨b1, b2, b3, b4⟩ := expand_clear r ho.2 hd.2 h.2.1
    refine ⟨⟨a1, b1, fun s hs => ?_, fun hn => ?_⟩, by simp [expand, heads, a2, a3, b2], by simp [expand, nullable, a3, b3], ?_⟩
    · rw [b2]; exact h.2.2.1 s (a4 s hs)
    · rw [a2, b2]; exact h.2.2.2 (by rw [← a3]; exact hn)
    · intro s hs
      rw [expand, again, List.mem_append, b3] at hs
      rw [again, List.mem_append]
      rcases hs with hs | hs
      · exact .inl (b4 s hs)
      · split at hs
        · next hn =>
          right
          rw [if_pos hn]
          rw [List.mem_append, b2] at hs
          rw [List.mem_append]
          exact hs.imp (a4 s) id
        · cases hs
  | .rep ng m M t, ho, hd, h => by
    obtain ⟨a1, a2, a3, a4⟩ := expand_clear t ho.2.2.2 hd.2 h.1
    obtain ⟨h1, h2, h3⟩ := h
    obtain ⟨o1, o2, o3, -⟩ := ho
    have hM : M ≠ 0 := fun e => hd.1 ⟨by omega, e⟩
    show Clear fs (expandRep ng m M (expand t)) ∧ _
    rw [show expand (.rep ng m M t) = expandRep ng m M (expand t) from rfl]
    have hU : 1 < UNB := by decide
    unfold expandRep
    split
    · next hn =>
      refine ⟨⟨a1, fun hM => ?_, ?_⟩, by simp [heads, a2], by simp [nullable, a3], ?_⟩
      · intro s hs; rw [a2]; exact h2 hM s (a4 s hs)
      · rw [a3]; exact h3
      · intro s hs
        rw [again, List.mem_append, a2] at hs
        rw [again, List.mem_append]
        exact hs.imp (a4 s) id
    · next hn =>
      have hone : m = M → M = 1 → nullable (expand t) = nullable t := fun _ _ => a3
      by_cases hm1 : M = 1
      · have : m = M := by omega
        rw [if_pos this, this, hm1]
        simp only [copies, Nat.sub_self]
        refine ⟨a1, a2, by rw [a3]; simp [nullable], ?_⟩
        intro s hs
        simpa [again] using a4 s hs
      · have hnt : nullable (expand t) = false := by
          rw [a3]
          cases hq : nullable t with
          | false => rfl
          | true => rcases h3 hq with h | h <;> omega
        have hd' : ∀ s ∈ again fs (expand t), s ∉ heads fs (expand t) := by
          intro s hs; rw [a2]; exact h2 (by omega) s (a4 s hs)
        split
        · next e =>
          obtain ⟨c1, c2, -⟩ := copies_clear hnt a1 a1 hd' rfl (fun x hx => List.mem_append.2 (.inl hx)) (m - 1)
          refine ⟨c1, by rw [c2, a2]; rfl, by rw [nullable_copies, hnt, nullable, ← a3, hnt]; simp; omega, ?_⟩
          rw [copies_again hnt]
          intro s hs
          rw [again, List.mem_append]
          exact .inl (a4 s hs)
        · next hne =>
          have hag : again fs (Tree.rep ng m M t) = again fs t ++ heads fs t := by
            rw [again, if_neg (by omega)]
          split
          · next hMU =>
            obtain ⟨c1, c2, c3⟩ := copies_clear (s := .rep ng 1 UNB (expand t)) hnt a1
              ⟨a1, fun _ => hd', fun h => by rw [hnt] at h; cases h⟩ hd' rfl
              (fun x hx => by rwa [again, if_neg (by omega)] at hx) (m - 1)
            refine ⟨c1, by rw [c2, a2]; rfl, ?_, ?_⟩
            · rw [nullable_copies, nullable, nullable, ← a3, hnt]; simp; omega
            · intro s hs
              have := c3 s hs
              rw [a2, List.mem_append] at this
              rw [hag, List.mem_append]
              exact this.imp (a4 s) id
          · obtain ⟨c1, c2, c3⟩ := copies_clear hnt a1 (clear_optional ng hnt a1 hd' (M - m - 1)) hd'
              (heads_optional ng hnt _) (again_optional ng hnt _) m
            refine ⟨c1, by rw [c2, a2]; rfl, ?_, ?_⟩
            · rw [nullable_copies, nullable_optional, nullable, ← a3, hnt]
              simp
            · intro s hs
              have := c3 s hs
              rw [a2, List.mem_append] at this
              rw [hag, List.mem_append]
              exact this.imp (a4 s) id

/-! ## The automaton -/

theorem insertAt_perm (l : List Nat) (i x : Nat) : (insertAt l i x).Perm (l ++ [x]) := by
  unfold insertAt
  refine List.perm_middle.trans ?_
  rw [List.take_append_drop]
  exact (List.perm_append_singleton x l).symm

theorem insertEdge_adds (g : Graph) (h t pos a : Nat) :
    ((g.insertEdge h t pos).v a).out.Perm ((g.v a).out ++ if a = h then [t] else []) := by
  unfold Graph.insertEdge Graph.modify
  by_cases e : a = h <;> by_cases e' : a = t <;> simp only [e, e', if_true, if_false] <;>
    first
      | exact insertAt_perm _ _ _
      | (simp)
      | (split <;> first | exact insertAt_perm _ _ _ | simp)

theorem insertEdges_adds (v : Nat) (us : List Nat) : ∀ (g : Graph) (pos a : Nat),
    ((insertEdges g v pos us).v a).out.Perm ((g.v a).out ++ if a = v then us else []) := by
  induction us with
  | nil => intro g pos a; simp [insertEdges]
  | cons u us ih =>
    intro g pos a
    refine (ih (g.insertEdge v u pos) (pos + 1) a).trans ?_
    refine ((insertEdge_adds g v u pos a).append_right _).trans ?_
    split <;> simp

theorem patchMid_adds (dst : List Nat) (skip : Option Nat) (os : List (Nat × Nat)) : ∀ (g : Graph) (a : Nat),
    (os.map Prod.fst).Nodup →
    ((patchMid g dst skip os).1.v a).out.Perm ((g.v a).out ++ if a ∈ os.map Prod.fst then dst else []) := by
  induction os with
  | nil => intro g a _; simp [patchMid]
  | cons p os ih =>
    intro g a hn
    obtain ⟨v, pos⟩ := p
    obtain ⟨k, hk⟩ : ∃ k, k = (match skip with
      | none => dst.length
      | some s => min s dst.length) := ⟨_, rfl⟩
    have e : (patchMid g dst skip ((v, pos) :: os)).1 =
        (patchMid (insertEdges (insertEdges g v pos (dst.take k)) v (pos + k) (dst.drop k)) dst skip os).1 := by
      rw [hk]; rfl
    rw [e]
    rw [List.map_cons, List.nodup_cons] at hn
    refine (ih _ a hn.2).trans ?_
    refine ((insertEdges_adds v _ _ _ a).append_right _).trans ?_
    refine (((insertEdges_adds v _ _ _ a).append_right _).append_right _).trans ?_
    by_cases hav : a = v
    · subst hav
      simp only [if_true, List.map_cons, List.mem_cons, true_or, if_neg hn.1, List.append_nil, List.append_assoc,
        List.take_append_drop]
      exact List.Perm.refl _
    · simp only [hav, if_false, List.append_nil, List.map_cons, List.mem_cons, false_or]
      exact List.Perm.refl _

/-- The vertices of a fragment: what begins it, what can follow where it ends, and nowhere are there
two ways to go on with the same set of bytes. -/
structure Apart (g0 g : Graph) (f : Frag) (t : Tree Leaf) : Prop where
  heads : (f.ins.map fun i => (g.v i).bytes).Perm (heads first t)
  skip : f.skip.isSome = nullable t
  nodup : (f.outs.map Prod.fst).Nodup
  again : ∀ o ∈ f.outs.map Prod.fst, ∀ u ∈ (g.v o).out, (g.v u).bytes ∈ again first t
  apart : ∀ a, g0.n ≤ a → a < g.n → ((g.v a).out.map fun u => (g.v u).bytes).Nodup

theorem litLoop_line (bs : List UInt8) : ∀ (g : Graph) (prev : Nat), prev < g.n → (g.v prev).out = [] →
    (∀ a, a = prev ∨ g.n ≤ a ∧ a < (litLoop g prev bs).1.n → ((litLoop g prev bs).1.v a).out.length ≤ 1) ∧
    ((litLoop g prev bs).1.v (litLoop g prev bs).2).out = [] := by
  induction bs with
  | nil =>
    intro g prev hp ho
    refine ⟨?_, ho⟩
    rintro a (rfl | ⟨h1, h2⟩)
    · simp [litLoop, ho]
    · simp only [litLoop] at h2; omega
  | cons c cs ih =>
    intro g prev hp ho
    have e : litLoop g prev (c :: cs) = litLoop ((g.addVertex (.single c)).addEdge prev g.n) g.n cs := rfl
    rw [e]
    obtain ⟨g1, hg1⟩ : ∃ g1, g1 = (g.addVertex (.single c)).addEdge prev g.n := ⟨_, rfl⟩
    rw [← hg1]
    have hn1 : g1.n = g.n + 1 := by rw [hg1]; rfl
    have hnp : ¬ prev = g.n := by omega
    have hout0 : (g1.v g.n).out = [] := by
      rw [hg1]; simp [Graph.addEdge, Graph.modify, Graph.addVertex, Ne.symm hnp]
    have houtp : (g1.v prev).out = [g.n] := by
      rw [hg1]; simp [Graph.addEdge, Graph.modify, Graph.addVertex, hnp, ho]
    obtain ⟨-, i2, -⟩ := litLoop_spec cs g1 g.n (by omega) hout0
    obtain ⟨j1, j2⟩ := ih g1 g.n (by omega) hout0
    refine ⟨?_, j2⟩
    rintro a (rfl | ⟨h1, h2⟩)
    · rw [i2 a (by omega) (by omega), houtp]; simp
    · by_cases h : a = g.n
      · exact j1 a (.inl h)
      · exact j1 a (.inr ⟨by omega, h2⟩)

theorem nodup_short {α : Type} {l : List α} (h : l.length ≤ 1) : l.Nodup := by
  match l, h with
  | [], _ => exact List.nodup_nil
  | [a], _ => simp

theorem literal_apart {g0 : Graph} {bs : List UInt8} {r : Graph × Frag} (h : literal g0 bs = some r) :
    Apart g0 r.1 r.2 (.leaf (.lit bs)) := by
  cases bs with
  | nil => simp [literal] at h
  | cons b bs =>
    simp only [literal, Option.some.injEq] at h
    subst h
    obtain ⟨-, -, i3, -⟩ := litLoop_spec bs (g0.addVertex (.single b)) g0.n
      (by simp [Graph.addVertex]) (by simp [Graph.addVertex])
    obtain ⟨j1, j2⟩ := litLoop_line bs (g0.addVertex (.single b)) g0.n
      (by simp [Graph.addVertex]) (by simp [Graph.addVertex])
    have hn : (g0.addVertex (.single b)).n = g0.n + 1 := rfl
    refine ⟨?_, rfl, by simp, ?_, ?_⟩
    · simp only [List.map_cons, List.map_nil, i3]
      simp [Graph.addVertex, heads, first]
    · intro o ho
      simp only [List.map_cons, List.map_nil, List.mem_singleton] at ho
      subst ho
      intro u hu
      dsimp only at hu
      rw [j2] at hu; cases hu
    · intro a h1 h2
      apply nodup_short
      rw [List.length_map]
      by_cases h : a = g0.n
      · exact j1 a (.inl h)
      · exact j1 a (.inr ⟨by omega, h2⟩)

theorem encStep_adds (st : Graph × Frag) (enc : List BSet) :
    (encStep st enc).2.outs = st.2.outs ∨ (encStep st enc).2.outs = st.2.outs ++ [(st.1.n, 0)] := by
  unfold encStep
  split
  · exact .inl rfl
  · split
    · exact .inl rfl
    · exact .inr rfl

theorem foldl_outs_nodup {g0 : Graph} (es : List (List BSet)) : ∀ (st : Graph × Frag) (σ : Nat → List BSet)
    (don : List (List BSet)), Chains g0 st.1 st.2 σ don → (∀ e ∈ es, e ≠ []) → (st.2.outs.map Prod.fst).Nodup →
    ((es.foldl encStep st).2.outs.map Prod.fst).Nodup := by
  induction es with
  | nil => intro st σ don _ _ h; exact h
  | cons e es ih =>
    intro st σ don h hne hn
    obtain ⟨σ1, h1⟩ := h.encStep e (hne e (by simp))
    refine ih _ σ1 _ h1 (fun x hx => hne x (by simp [hx])) ?_
    rcases encStep_adds st e with e | e
    · rw [e]; exact hn
    · rw [e, List.map_append, List.nodup_append]
      refine ⟨hn, by simp, ?_⟩
      intro a ha b hb hab
      simp only [List.map_cons, List.map_nil, List.mem_singleton] at hb
      have := h.outs a ha
      omega

theorem charClass_apart {g0 : Graph} {encs : List (List BSet)} {brk : BSet} {additive : Bool}
    (hok : LeafOk (.cls encs brk additive)) {r : Graph × Frag}
    (h : charClass g0 encs brk additive = some r) : Apart g0 r.1 r.2 (.leaf (.cls encs brk additive)) := by
  simp only [charClass, Option.bind_eq_bind, Option.bind_eq_some_iff, Option.some.injEq] at h
  obtain ⟨es, hes, rfl⟩ := h
  obtain ⟨b1, -⟩ := breakout_spec hok hes
  have h0 : Chains g0 g0 { ins := [], outs := [], skip := none } (fun _ => []) [] :=
    ⟨Nat.le_refl _, fun _ _ => rfl, fun a h1 h2 => by omega, by simp, fun a h1 h2 => by omega, by simp, rfl,
      fun a h1 h2 => by omega, rfl⟩
  have hnd := foldl_outs_nodup es (g0, { ins := [], outs := [], skip := none }) _ [] h0 b1 (by simp)
  obtain ⟨σ, hc⟩ := Chains.foldl es (g0, { ins := [], outs := [], skip := none }) _ [] h0 b1
  rw [List.nil_append] at hc
  refine ⟨?_, by rw [hc.skip]; rfl, hnd, ?_, ?_⟩
  · have e : es.map (·.headD 0) = (List.foldl encStep (g0, { ins := [], outs := [], skip := none }) es).2.ins.map
        fun i => (σ i).headD 0 := by
      conv => lhs; rw [← hc.done]
      rw [List.map_map]; rfl
    rw [heads, first, hes, Option.getD_some, e]
    refine List.Perm.of_eq (List.map_congr_left fun i hi => ?_)
    obtain ⟨i1, i2⟩ := hc.ins i hi
    rcases hc.vert i i1 i2 with ⟨-, -, p⟩ | ⟨u, -, -, -, -, p⟩ <;> simp [p]
  · intro o ho u hu
    obtain ⟨o1, o2⟩ := hc.outs o ho
    rcases hc.vert o o1 o2 with ⟨p, -⟩ | ⟨v, -, -, -, p, -⟩
    · rw [p] at hu; cases hu
    · exact absurd ho p
  · intro a h1 h2
    apply nodup_short
    rcases hc.vert a h1 h2 with ⟨p, -⟩ | ⟨v, -, -, p, -⟩ <;> simp [p]

/-- Ways to go on, after edges were added. -/
theorem added_apart {g g' : Graph} {S D : List Nat} (hb : ∀ a, (g'.v a).bytes = (g.v a).bytes) {a : Nat}
    (hp : (g'.v a).out.Perm ((g.v a).out ++ if a ∈ S then D else [])) (h1 : ((g.v a).out.map fun u => (g.v u).bytes).Nodup)
    (h2 : a ∈ S → (D.map fun u => (g.v u).bytes).Nodup) (h3 : a ∈ S → ∀ u ∈ (g.v a).out, ∀ d ∈ D, (g.v u).bytes ≠ (g.v d).bytes) :
    ((g'.v a).out.map fun u => (g'.v u).bytes).Nodup := by
  have : (fun u => (g'.v u).bytes) = fun u => (g.v u).bytes := funext hb
  rw [this]
  refine ((hp.map _).nodup_iff).2 ?_
  split
  · next hS =>
    rw [List.map_append, List.nodup_append]
    refine ⟨h1, h2 hS, ?_⟩
    intro x hx y hy
    obtain ⟨u, hu, rfl⟩ := List.mem_map.1 hx
    obtain ⟨d, hd, rfl⟩ := List.mem_map.1 hy
    exact h3 hS u hu d hd
  · rwa [List.append_nil]

theorem plus_apart {g0 g : Graph} {f : Frag} {t : Tree Leaf} (ng : Bool) (hc : Clear first t)
    (hd : ∀ s ∈ again first t, s ∉ heads first t) (h : Apart g0 g f t) :
    (fun r : Graph × Frag => (r.2.ins.map fun i => (r.1.v i).bytes).Perm (heads first t) ∧ r.2.skip.isSome = nullable t ∧
      (r.2.outs.map Prod.fst).Nodup ∧ (∀ o ∈ r.2.outs.map Prod.fst, ∀ u ∈ (r.1.v o).out, (r.1.v u).bytes ∈ again first t ++ heads first t) ∧
      ∀ a, g0.n ≤ a → a < r.1.n → ((r.1.v a).out.map fun u => (r.1.v u).bytes).Nodup) (plus ng g f) := by
  obtain ⟨p1, p2⟩ := patchMid_added f.ins (if ng then some 0 else none) f.outs g
  have p3 := fun a => patchMid_adds f.ins (if ng then some 0 else none) f.outs g a h.nodup
  have hhd : (f.ins.map fun i => (g.v i).bytes).Nodup := (h.heads.nodup_iff).2 (heads_nodup t hc)
  unfold plus
  refine ⟨?_, h.skip, by dsimp only; rw [p2]; exact h.nodup, ?_, ?_⟩
  · simp only [p1.bytes]; exact h.heads
  · dsimp only
    rw [p2]
    intro o ho u hu
    rw [p1.bytes, List.mem_append]
    rcases (p1.out o u).1 hu with hu | ⟨-, hu⟩
    · exact .inl (h.again o ho u hu)
    · exact .inr (h.heads.mem_iff.1 (List.mem_map_of_mem hu))
  · intro a h1 h2
    refine added_apart p1.bytes (p3 a) (h.apart a h1 (by rw [← p1.n]; exact h2)) (fun _ => hhd) ?_
    intro ha u hu d hdd e
    exact hd _ (h.again a ha u hu) (by rw [e]; exact h.heads.mem_iff.1 (List.mem_map_of_mem hdd))

theorem concatenate_apart {g0 g1 g2 : Graph} {f s : Frag} {l r : Tree Leaf} (k1 : Good g0 g1 f (lang leafSem l))
    (k2 : Good g1 g2 s (lang leafSem r)) (hc : Clear first (.cat l r)) (h1 : Apart g0 g1 f l) (h2 : Apart g1 g2 s r) :
    Apart g0 (concatenate g2 f s).1 (concatenate g2 f s).2 (.cat l r) := by
  obtain ⟨c1, c2, c3, c4⟩ := hc
  obtain ⟨p1, p2⟩ := patchMid_added s.ins s.skip f.outs g2
  have p3 := fun a => patchMid_adds s.ins s.skip f.outs g2 a h1.nodup
  have old := k2.old
  have le := k2.le
  have le1 := k1.le
  have oldb : ∀ u < g1.n, (g2.v u).bytes = (g1.v u).bytes := fun u hu => by rw [old u hu]
  have hhd : (s.ins.map fun i => (g2.v i).bytes).Nodup := (h2.heads.nodup_iff).2 (heads_nodup r c2)
  -- what leaves the first part
  have hgo : ∀ o ∈ f.outs.map Prod.fst, ∀ u ∈ (g2.v o).out, (g2.v u).bytes ∈ again first l := by
    intro o ho u hu
    have := k1.outs o ho
    rw [old o this.2] at hu
    rw [oldb u (k1.edges o this.1 this.2 u hu).2]
    exact h1.again o ho u hu
  have hin : (f.ins.map fun i => (g2.v i).bytes).Perm (heads first l) := by
    refine List.Perm.trans (List.Perm.of_eq (List.map_congr_left fun i hi => ?_)) h1.heads
    exact oldb i (k1.ins i hi).2
  have hdis : ∀ o ∈ s.outs.map Prod.fst, o ∉ f.outs.map Prod.fst := by
    intro o ho ho'
    have := k2.outs o ho
    have := k1.outs o ho'
    omega
  unfold concatenate
  refine ⟨?_, ?_, ?_, ?_, ?_⟩
  · simp only [p1.bytes, heads]
    have hs := h1.skip
    cases hf : f.skip with
    | none =>
      rw [hf] at hs
      simp only [Option.isSome_none] at hs
      simp only [← hs, Bool.false_eq_true, if_false, List.append_nil]
      exact hin
    | some k =>
      rw [hf] at hs
      simp only [Option.isSome_some] at hs
      simp only [← hs, if_true]
      refine List.Perm.trans ?_ (hin.append h2.heads)
      rw [← List.map_append]
      refine List.Perm.map _ ?_
      refine List.Perm.trans (List.Perm.append_right _ List.perm_append_comm) ?_
      rw [List.append_assoc, List.take_append_drop]
      exact List.perm_append_comm
  · rw [nullable, ← h1.skip, ← h2.skip]
    cases f.skip <;> cases s.skip <;> rfl
  · cases hs : s.skip with
    | none => exact h2.nodup
    | some k =>
      dsimp only
      rw [hs] at p2
      rw [List.map_append, p2, List.nodup_append]
      exact ⟨h1.nodup, h2.nodup, fun a ha b hb e => hdis b hb (e ▸ ha)⟩
  · intro o ho u hu
    rw [p1.bytes, again, List.mem_append]
    have hsk := h2.skip
    have second : o ∈ s.outs.map Prod.fst → (g2.v u).bytes ∈ again first r := by
      intro ho
      rcases (p1.out o u).1 hu with hu | ⟨hu, -⟩
      · exact h2.again o ho u hu
      · exact absurd hu (hdis o ho)
    cases hs : s.skip with
    | none =>
      rw [hs] at ho
      exact .inl (second ho)
    | some k =>
      rw [hs] at ho hsk p2
      simp only [Option.isSome_some] at hsk
      dsimp only at ho
      rw [List.map_append, p2, List.mem_append] at ho
      rcases ho with ho | ho
      · right
        rw [← hsk, if_pos rfl, List.mem_append]
        rcases (p1.out o u).1 hu with hu | ⟨-, hu⟩
        · exact .inl (hgo o ho u hu)
        · exact .inr (h2.heads.mem_iff.1 (List.mem_map_of_mem hu))
      · exact .inl (second ho)
  · intro a ha1 ha2
    dsimp only at ha2
    rw [p1.n] at ha2
    refine added_apart p1.bytes (p3 a) ?_ (fun _ => hhd) ?_
    · by_cases ha : a < g1.n
      · rw [old a ha]
        have : ((g1.v a).out.map fun u => (g2.v u).bytes) = (g1.v a).out.map fun u => (g1.v u).bytes :=
          List.map_congr_left fun u hu => oldb u (k1.edges a ha1 ha u hu).2
        rw [this]
        exact h1.apart a ha1 ha
      · exact h2.apart a (by omega) ha2
    · intro ha u hu d hd e
      exact c3 _ (hgo a ha u hu) (by rw [e]; exact h2.heads.mem_iff.1 (List.mem_map_of_mem hd))

theorem alternate_apart {g0 g1 g2 : Graph} {f s : Frag} {l r : Tree Leaf} (k1 : Good g0 g1 f (lang leafSem l))
    (k2 : Good g1 g2 s (lang leafSem r)) (h1 : Apart g0 g1 f l) (h2 : Apart g1 g2 s r) :
    Apart g0 g2 (alternate f s) (.alt l r) := by
  have old := k2.old
  have oldb : ∀ u < g1.n, (g2.v u).bytes = (g1.v u).bytes := fun u hu => by rw [old u hu]
  refine ⟨?_, ?_, ?_, ?_, ?_⟩
  · simp only [alternate, List.map_append, heads]
    refine List.Perm.append ?_ h2.heads
    refine List.Perm.trans (List.Perm.of_eq (List.map_congr_left fun i hi => ?_)) h1.heads
    exact oldb i (k1.ins i hi).2
  · rw [nullable, ← h1.skip, ← h2.skip]
    unfold alternate
    cases f.skip <;> cases s.skip <;> rfl
  · simp only [alternate, List.map_append]
    rw [List.nodup_append]
    refine ⟨h1.nodup, h2.nodup, ?_⟩
    intro a ha b hb e
    have := k1.outs a ha
    have := k2.outs b hb
    omega
  · intro o ho u hu
    simp only [alternate, List.map_append, List.mem_append] at ho
    rw [again, List.mem_append]
    rcases ho with ho | ho
    · left
      have := k1.outs o ho
      rw [old o this.2] at hu
      rw [oldb u (k1.edges o this.1 this.2 u hu).2]
      exact h1.again o ho u hu
    · exact .inr (h2.again o ho u hu)
  · intro a ha1 ha2
    by_cases ha : a < g1.n
    · rw [old a ha]
      have : ((g1.v a).out.map fun u => (g2.v u).bytes) = (g1.v a).out.map fun u => (g1.v u).bytes :=
        List.map_congr_left fun u hu => oldb u (k1.edges a ha1 ha u hu).2
      rw [this]
      exact h1.apart a ha1 ha
    · exact h2.apart a (by omega) ha2

theorem question_skip (ng : Bool) (f : Frag) : (question ng f).ins = f.ins ∧ (question ng f).outs = f.outs ∧
    (question ng f).skip.isSome = true := by
  unfold question
  split
  · exact ⟨rfl, rfl, rfl⟩
  · cases f.skip <;> exact ⟨rfl, rfl, rfl⟩

theorem fragment_apart (t : Tree Leaf) : ∀ (g0 : Graph) (r : Graph × Frag), Named t → LeavesOk t → Clear first t →
    fragment g0 t = some r → Apart g0 r.1 r.2 t := by
  induction t with
  | leaf a =>
    intro g0 r _ hl _ h
    cases a with
    | lit bs => exact literal_apart h
    | cls encs brk additive => exact charClass_apart hl h
  | look k t => intro g0 r hn; exact hn.elim
  | alt l r ihl ihr =>
    intro g0 q hn hl hc h
    simp only [fragment, Option.bind_eq_bind, Option.bind_eq_some_iff, Option.some.injEq] at h
    obtain ⟨a, ha, b, hb, rfl⟩ := h
    exact alternate_apart (fragment_good l g0 a hn.1 hl.1 ha) (fragment_good r a.1 b hn.2 hl.2 hb)
      (ihl g0 a hn.1 hl.1 hc.1 ha) (ihr a.1 b hn.2 hl.2 hc.2.1 hb)
  | cat l r ihl ihr =>
    intro g0 q hn hl hc h
    simp only [fragment, Option.bind_eq_bind, Option.bind_eq_some_iff, Option.some.injEq] at h
    obtain ⟨a, ha, b, hb, rfl⟩ := h
    exact concatenate_apart (fragment_good l g0 a hn.1 hl.1 ha) (fragment_good r a.1 b hn.2 hl.2 hb) hc
      (ihl g0 a hn.1 hl.1 hc.1 ha) (ihr a.1 b hn.2 hl.2 hc.2.1 hb)
  | rep ng m M t ih =>
    intro g0 q hn hl hc h
    simp only [fragment, Option.bind_eq_bind, Option.bind_eq_some_iff, Option.some.injEq] at h
    obtain ⟨a, ha, rfl⟩ := h
    have hg := ih g0 a hn.2 hl hc.1 ha
    rcases hn.1 with ⟨rfl, rfl | rfl⟩ | ⟨rfl, rfl⟩
    · have e : repetition ng 0 1 a.1 a.2 = (a.1, question ng a.2) := by simp [repetition]
      rw [e]
      obtain ⟨q1, q2, q3⟩ := question_skip ng a.2
      refine ⟨by dsimp only; rw [q1]; exact hg.heads, by rw [q3]; rfl, by dsimp only; rw [q2]; exact hg.nodup, ?_, hg.apart⟩
      dsimp only
      rw [q2]
      intro o ho u hu
      rw [again, List.mem_append]
      exact .inl (hg.again o ho u hu)
    · have e : repetition ng 0 UNB a.1 a.2 = ((plus ng a.1 a.2).1, question ng (plus ng a.1 a.2).2) := by
        simp [repetition, UNB]
      rw [e]
      obtain ⟨q1, q2, q3⟩ := question_skip ng (plus ng a.1 a.2).2
      obtain ⟨w1, w2, w3, w4, w5⟩ := plus_apart ng hc.1 (hc.2.1 (by decide)) hg
      refine ⟨by dsimp only; rw [q1]; exact w1, by rw [q3]; rfl, by dsimp only; rw [q2]; exact w3, ?_, w5⟩
      dsimp only
      rw [q2, again, if_neg (by decide)]
      exact w4
    · have e : repetition ng 1 UNB a.1 a.2 = plus ng a.1 a.2 := by simp [repetition]
      rw [e]
      obtain ⟨w1, w2, w3, w4, w5⟩ := plus_apart ng hc.1 (hc.2.1 (by decide)) hg
      refine ⟨w1, by rw [w2, nullable]; simp, w3, ?_, w5⟩
      rw [again, if_neg (by decide)]
      exact w4

/-- Nowhere in the automaton of a clear pattern are there two ways to go on with the same set of bytes. -/
theorem build_apart {label : Nat} {t : Tree Leaf} (hok : Ok t) (hn : NoLook t) (hd : NoDead t) (hl : LeavesOk t) (hc : Clear first t)
    {p : Graph} (h : build label (some t) = .good p) : ∀ a < p.n, ((p.v a).out.map fun u => (p.v u).bytes).Nodup := by
  unfold build at h
  dsimp only at h
  cases hf : fragment Graph.init (expand t) with
  | none => rw [hf] at h; cases h
  | some r =>
    rw [hf] at h
    dsimp only at h
    obtain ⟨e1, e2, e3, -⟩ := expand_clear t hok hd hc
    have hg := fragment_good _ _ _ (expand_named t hn) (expand_leavesOk t hl) hf
    have ha := fragment_apart _ _ _ (expand_named t hn) (expand_leavesOk t hl) e1 hf
    have hin : Graph.init.n = 1 := rfl
    have hv0 : r.1.v 0 = {} := by rw [hg.old 0 (by rw [hin]; omega)]; rfl
    unfold finish at h
    obtain ⟨p1, -⟩ := patchMid_added r.2.ins r.2.skip [(0, 0)] r.1
    have p3 := fun a => patchMid_adds r.2.ins r.2.skip [(0, 0)] r.1 a (by simp)
    dsimp only at h
    split at h
    · cases h
    · cases h
      have hc1 : (concatenate r.1 { ins := [0], outs := [(0, 0)], skip := none } r.2).1 =
          (patchMid r.1 r.2.ins r.2.skip [(0, 0)]).1 := rfl
      obtain ⟨m1, m2, -⟩ := mark_spec label (concatenate r.1 { ins := [0], outs := [(0, 0)], skip := none } r.2).2.outs
        (concatenate r.1 { ins := [0], outs := [(0, 0)], skip := none } r.2).1
      intro a han
      rw [m1, hc1, p1.n] at han
      rw [(m2 a).2]
      simp only [(m2 _).1]
      rw [hc1]
      refine added_apart p1.bytes (p3 a) ?_ (fun _ => (ha.heads.nodup_iff).2 (heads_nodup _ e1)) ?_
      · by_cases h0 : a = 0
        · subst h0; rw [hv0]; simp
        · exact ha.apart a (by omega) han
      · intro h0 u hu
        simp only [List.map_cons, List.map_nil, List.mem_singleton] at h0
        subst h0
        rw [hv0] at hu; cases hu

end Verif.NfaBuilder

namespace Verif.Fsm
open Verif.Nfa Verif.Regex Verif.NfaBuilder Verif.Optimizer Verif.Label Verif.Subset

theorem orderly_of_apart {g : Graph} (h : ∀ a, ((g.v a).out.map fun u => (g.v u).bytes).Nodup) : Orderly g := by
  have inj : ∀ {a u u'}, u ∈ (g.v a).out → u' ∈ (g.v a).out → (g.v u).bytes = (g.v u').bytes → u = u' :=
    fun h1 h2 h3 => List.inj_on_of_nodup_map (h _) h1 h2 h3
  have ht : ∀ {t t'}, Twin g t t' → t = t' := by
    intro t t' hw
    induction hw with
    | refl v => rfl
    | step _ e1 e2 _ _ e5 _ _ ih => subst ih; exact inj e1 e2 e5
  exact ⟨fun v => (h v).of_map _, fun a b t hw hne => absurd (ht hw) hne, fun a b hw hne => absurd (ht hw) hne⟩

/-- **C74, C78** The automaton of a clear pattern stays in order when it is merged with others. -/
theorem clear_stays {t : Tree Leaf} (hok : Ok t) (hn : NoLook t) (hd : NoDead t) (hl : LeavesOk t) (hc : Clear first t)
    (fuel l : Nat) : Stays fuel l t := by
  intro p p' h1 h2
  have ha := build_apart hok hn hd hl hc h1
  have hp := build_pattern l t hn hl p h1
  have hpr := pruned_of_prune hp.bal h2
  apply orderly_of_apart
  intro a
  have hb : (fun u => (p'.v u).bytes) = fun u => (p.v u).bytes := funext hpr.same.bytes
  rw [hb]
  have hsub : (p'.v a).out.Sublist (p.v a).out := by
    rcases hpr.each a with e | e
    · rw [e]; exact keep_sub _ _ _
    · rw [e]
  refine (hsub.map _).nodup ?_
  by_cases han : a < p.n
  · exact ha a han
  · have : (p.v a).out = [] := List.eq_nil_iff_forall_not_mem.2 fun u hu => han (hp.toFresh.range a u hu).1
    rw [this]; simp

end Verif.Fsm
