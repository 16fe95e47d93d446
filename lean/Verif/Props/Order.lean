import Verif.Props.Ways
import Verif.Props.NfaBuilder
import Verif.Props.Shape
/-!
# C73: the automaton orders the matches as a backtracking matcher does

The specification is `rests` of `Props/Backtrack.lean`: what is left after each way to match,
in order of preference.
-/
namespace Verif.NfaBuilder
open Verif.Regex Verif.Nfa Verif.Optimizer

/-! ## What a fragment leaves, in order -/

/-- `mid` at position `p` among the lists for `us`. -/
def around {β : Type} (p : Option Nat) (mid : List β) (us : List Nat) (h : Nat → List β) : List β :=
  match p with
  | none => us.flatMap h
  | some p => (us.take p).flatMap h ++ mid ++ (us.drop p).flatMap h

/-- What is left after entering a vertex; `ex` says at which place among a vertex's edges
the fragment is left. -/
def enter (g : Graph) (ex : Nat → Option Nat) : List UInt8 → Nat → List (List UInt8)
  | [], _ => []
  | b :: w, u => if (g.v u).bytes.has b then around (ex u) [w] (g.v u).out fun x => enter g ex w x else []

/-- Where a fragment is left. -/
def exits (outs : List (Nat × Nat)) (v : Nat) : Option Nat := outs.lookup v

/-- What is left after the fragment. -/
def leaves (g : Graph) (f : Frag) (w : List UInt8) : List (List UInt8) :=
  around f.skip [w] f.ins fun u => enter g (exits f.outs) w u

theorem around_congr {β : Type} {p : Option Nat} {mid : List β} {us : List Nat} {h h' : Nat → List β}
    (e : ∀ u ∈ us, h u = h' u) : around p mid us h = around p mid us h' := by
  unfold around
  split
  · exact List.flatMap_congr e
  · rw [List.flatMap_congr fun u hu => e u (List.mem_of_mem_take hu),
      List.flatMap_congr fun u hu => e u (List.mem_of_mem_drop hu)]

theorem around_flatMap {β γ : Type} (p : Option Nat) (mid : List β) (us : List Nat) (h : Nat → List β) (k : β → List γ) :
    (around p mid us h).flatMap k = around p (mid.flatMap k) us fun u => (h u).flatMap k := by
  unfold around
  split
  · rw [List.flatMap_assoc]
  · simp only [List.flatMap_append, List.flatMap_assoc]

theorem mem_around {β : Type} {p : Option Nat} {mid : List β} {us : List Nat} {h : Nat → List β} {x : β} :
    x ∈ around p mid us h ↔ (p.isSome = true ∧ x ∈ mid) ∨ ∃ u ∈ us, x ∈ h u := by
  unfold around
  cases p with
  | none => simp
  | some p =>
    simp only [List.mem_append, List.mem_flatMap, Option.isSome_some, true_and]
    have : ∀ u, u ∈ us ↔ u ∈ us.take p ∨ u ∈ us.drop p := fun u => by
      rw [← List.mem_append, List.take_append_drop]
    constructor
    · rintro ((⟨u, h1, h2⟩ | h1) | ⟨u, h1, h2⟩)
      · exact .inr ⟨u, (this u).2 (.inl h1), h2⟩
      · exact .inl h1
      · exact .inr ⟨u, (this u).2 (.inr h1), h2⟩
    · rintro (h1 | ⟨u, h1, h2⟩)
      · exact .inl (.inr h1)
      · rcases (this u).1 h1 with h1 | h1
        · exact .inl (.inl ⟨u, h1, h2⟩)
        · exact .inr ⟨u, h1, h2⟩

/-- Only the part of the graph that can be reached matters. -/
theorem enter_congr {g g' : Graph} {ex ex' : Nat → Option Nat} {C : Nat → Prop}
    (hc : ∀ a, C a → ∀ b ∈ (g.v a).out, C b) (hb : ∀ a, C a → (g'.v a).bytes = (g.v a).bytes)
    (ho : ∀ a, C a → (g'.v a).out = (g.v a).out) (he : ∀ a, C a → ex' a = ex a) (w : List UInt8) :
    ∀ u, C u → enter g' ex' w u = enter g ex w u := by
  induction w with
  | nil => intro u _; rfl
  | cons b w ih =>
    intro u hu
    rw [enter, enter, hb u hu, ho u hu, he u hu]
    split
    · exact around_congr fun x hx => ih x (hc u hu x hx)
    · rfl

theorem enter_shorter {g : Graph} {ex : Nat → Option Nat} (w : List UInt8) :
    ∀ u, ∀ x ∈ enter g ex w u, x.length < w.length := by
  induction w with
  | nil => intro u x hx; cases hx
  | cons b w ih =>
    intro u x hx
    rw [enter] at hx
    split at hx
    · rw [mem_around] at hx
      rcases hx with ⟨-, hx⟩ | ⟨v, -, hx⟩
      · rw [List.mem_singleton] at hx; subst hx; simp
      · have := ih v x hx
        simp; omega
    · cases hx

theorem mem_enter {g : Graph} {ex : Nat → Option Nat} (w : List UInt8) :
    ∀ u x, x ∈ enter g ex w u ↔ ∃ y t, Path g u y t ∧ (ex t).isSome = true ∧ w = y ++ x := by
  induction w with
  | nil =>
    intro u x
    constructor
    · intro h; cases h
    · rintro ⟨y, t, hp, -, e⟩
      have := hp.ne_nil
      simp at e
      exact absurd e.1 this
  | cons b w ih =>
    intro u x
    rw [enter]
    constructor
    · intro hx
      split at hx
      · next hb =>
        rw [mem_around] at hx
        rcases hx with ⟨h1, hx⟩ | ⟨v, hv, hx⟩
        · rw [List.mem_singleton] at hx; subst hx
          exact ⟨[b], u, .one hb, h1, rfl⟩
        · obtain ⟨y, t, hp, ht, rfl⟩ := (ih v x).1 hx
          exact ⟨b :: y, t, .cons hb hv hp, ht, rfl⟩
      · cases hx
    · rintro ⟨y, t, hp, ht, e⟩
      cases hp with
      | one hb =>
        simp at e
        obtain ⟨rfl, rfl⟩ := e
        rw [if_pos hb, mem_around]
        exact .inl ⟨ht, by simp⟩
      | cons hb hv hp =>
        simp at e
        obtain ⟨rfl, rfl⟩ := e
        rw [if_pos hb, mem_around]
        exact .inr ⟨_, hv, (ih _ x).2 ⟨_, t, hp, ht, rfl⟩⟩

theorem exits_isSome {outs : List (Nat × Nat)} {v : Nat} : (exits outs v).isSome = true ↔ v ∈ outs.map (·.1) := by
  unfold exits
  induction outs with
  | nil => simp
  | cons p outs ih =>
    obtain ⟨a, b⟩ := p
    rw [List.lookup_cons]
    by_cases h : v = a
    · subst h; simp
    · have : (v == a) = false := by simp [h]
      rw [this]
      simp only [ih, List.map_cons, List.mem_cons, h, false_or]

theorem exits_append {a b : List (Nat × Nat)} {v : Nat} : exits (a ++ b) v = (exits a v).or (exits b v) := by
  unfold exits
  induction a with
  | nil => simp
  | cons p a ih =>
    obtain ⟨x, y⟩ := p
    rw [List.cons_append, List.lookup_cons, List.lookup_cons]
    cases (v == x)
    · exact ih
    · rfl

theorem exits_none {outs : List (Nat × Nat)} {v : Nat} (h : v ∉ outs.map (·.1)) : exits outs v = none := by
  rw [← exits_isSome] at h
  simpa using h

theorem exits_mem {outs : List (Nat × Nat)} {v p : Nat} (h : exits outs v = some p) : (v, p) ∈ outs := by
  unfold exits at h
  induction outs with
  | nil => simp at h
  | cons q outs ih =>
    obtain ⟨a, b⟩ := q
    rw [List.lookup_cons] at h
    by_cases hv : v = a
    · subst hv; simp at h; simp [h]
    · have : (v == a) = false := by simp [hv]
      rw [this] at h
      exact List.mem_cons_of_mem _ (ih h)

/-- What a fragment leaves is what is left after a string of its language. -/
theorem mem_leaves {g0 g : Graph} {f : Frag} {L : Language UInt8} (h : Good g0 g f L) (w x : List UInt8) :
    x ∈ leaves g f w ↔ ∃ u ∈ L, w = u ++ x := by
  rw [leaves, mem_around]
  constructor
  · rintro (⟨h1, h2⟩ | ⟨i, hi, hx⟩)
    · rw [List.mem_singleton] at h2
      exact ⟨[], h.skip.1 h1, h2.symm⟩
    · obtain ⟨y, t, hp, ht, e⟩ := (mem_enter w i x).1 hx
      exact ⟨y, (h.lang y hp.ne_nil).2 ⟨i, hi, t, exits_isSome.1 ht, hp⟩, e⟩
  · rintro ⟨u, hu, e⟩
    by_cases hu0 : u = []
    · subst hu0
      exact .inl ⟨h.skip.2 hu, by simp [e]⟩
    · obtain ⟨i, hi, o, ho, hp⟩ := (h.lang u hu0).1 hu
      exact .inr ⟨i, hi, (mem_enter w i x).2 ⟨u, o, hp, exits_isSome.2 ho, e⟩⟩

/-! ## Edges inserted at their places -/

theorem insertEdge_out (g : Graph) (v u pos a : Nat) : ((g.insertEdge v u pos).v a).out =
    if a = v then insertAt (g.v a).out pos u else (g.v a).out := by
  unfold Graph.insertEdge Graph.modify
  dsimp only
  split <;> split <;> rfl

theorem insertEdges_out (v : Nat) (us : List Nat) : ∀ (g : Graph) (pos a : Nat), pos ≤ (g.v v).out.length →
    ((insertEdges g v pos us).v a).out =
      if a = v then (g.v v).out.take pos ++ us ++ (g.v v).out.drop pos else (g.v a).out := by
  induction us with
  | nil =>
    intro g pos a _
    rw [insertEdges, List.append_nil, List.take_append_drop]
    split
    · next h => rw [h]
    · rfl
  | cons u us ih =>
    intro g pos a hp
    rw [insertEdges, ih]
    · rw [insertEdge_out, if_pos rfl, insertEdge_out]
      by_cases ha : a = v
      · subst ha
        rw [if_pos rfl, if_pos rfl]
        unfold insertAt
        have e1 : ((g.v a).out.take pos).length = pos := by simp [hp]
        have e2 : ((g.v a).out.take pos ++ u :: (g.v a).out.drop pos).take (pos + 1) = (g.v a).out.take pos ++ [u] := by
          rw [List.take_append, e1, Nat.add_sub_cancel_left]
          simp
        have e3 : ((g.v a).out.take pos ++ u :: (g.v a).out.drop pos).drop (pos + 1) = (g.v a).out.drop pos := by
          rw [List.drop_append, e1, Nat.add_sub_cancel_left]
          simp
        rw [e2, e3]
        simp
      · rw [if_neg ha, if_neg ha, if_neg ha]
    · rw [insertEdge_out, if_pos rfl]
      unfold insertAt
      simp
      omega

/-- Where the exit comes among the inserted edges. -/
def place (dst : List Nat) (skip : Option Nat) : Nat :=
  match skip with
  | none => dst.length
  | some s => min s dst.length

theorem patchMid_snd (dst : List Nat) (skip : Option Nat) (os : List (Nat × Nat)) : ∀ g : Graph,
    (patchMid g dst skip os).2 = os.map fun p => (p.1, p.2 + place dst skip) := by
  induction os with
  | nil => intro g; rfl
  | cons p os ih =>
    intro g
    obtain ⟨v, pos⟩ := p
    rw [List.map_cons, ← ih (insertEdges (insertEdges g v pos (dst.take (place dst skip))) v (pos + place dst skip)
      (dst.drop (place dst skip)))]
    rfl

theorem exits_map {os : List (Nat × Nat)} {k v : Nat} :
    exits (os.map fun p => (p.1, p.2 + k)) v = (exits os v).map (· + k) := by
  unfold exits
  induction os with
  | nil => rfl
  | cons p os ih =>
    obtain ⟨a, b⟩ := p
    rw [List.map_cons, List.lookup_cons, List.lookup_cons]
    cases (v == a)
    · exact ih
    · rfl

theorem patchMid_out (dst : List Nat) (skip : Option Nat) (os : List (Nat × Nat)) : ∀ g : Graph,
    (os.map (·.1)).Nodup → (∀ p ∈ os, p.2 ≤ (g.v p.1).out.length) → ∀ a,
    ((patchMid g dst skip os).1.v a).out = match exits os a with
      | none => (g.v a).out
      | some pos => (g.v a).out.take pos ++ dst ++ (g.v a).out.drop pos := by
  induction os with
  | nil => intro g _ _ a; rfl
  | cons p os ih =>
    intro g hnd hpos a
    obtain ⟨v, pos⟩ := p
    rw [List.map_cons, List.nodup_cons] at hnd
    have hp : pos ≤ (g.v v).out.length := hpos (v, pos) (by simp)
    have e : (patchMid g dst skip ((v, pos) :: os)).1 = (patchMid (insertEdges (insertEdges g v pos
        (dst.take (place dst skip))) v (pos + place dst skip) (dst.drop (place dst skip))) dst skip os).1 := rfl
    obtain ⟨k, hk⟩ : ∃ k, k = place dst skip := ⟨_, rfl⟩
    have hkl : k ≤ dst.length := by
      rw [hk]
      unfold place
      split
      · exact Nat.le_refl _
      · exact Nat.min_le_right _ _
    rw [e, ← hk]
    have h1 : ∀ a, ((insertEdges g v pos (dst.take k)).v a).out = _ := fun a => insertEdges_out v _ g pos a hp
    have hl : ((insertEdges g v pos (dst.take k)).v v).out.length = (g.v v).out.length + k := by
      rw [h1 v, if_pos rfl]
      simp
      omega
    have h2 : ∀ a, ((insertEdges (insertEdges g v pos (dst.take k)) v (pos + k) (dst.drop k)).v a).out =
        if a = v then (g.v v).out.take pos ++ dst ++ (g.v v).out.drop pos else (g.v a).out := by
      intro a
      rw [insertEdges_out _ _ _ _ _ (by omega)]
      by_cases ha : a = v
      · rw [if_pos ha, if_pos ha, h1 v, if_pos rfl]
        have e1 : ((g.v v).out.take pos ++ dst.take k).length = pos + k := by simp [hp, hkl]
        rw [List.take_append_of_le_length (Nat.le_of_eq e1.symm), List.take_of_length_le (Nat.le_of_eq e1),
          List.drop_append_of_le_length (Nat.le_of_eq e1.symm), List.drop_of_length_le (Nat.le_of_eq e1)]
        conv => rhs; rw [← List.take_append_drop k dst]
        simp
      · rw [if_neg ha, if_neg ha, h1 a, if_neg ha]
    rw [ih _ hnd.2]
    · by_cases ha : a = v
      · subst ha
        rw [exits_none hnd.1, h2 a, if_pos rfl]
        unfold exits
        rw [List.lookup_cons]
        simp
      · have : exits ((v, pos) :: os) a = exits os a := by
          unfold exits
          rw [List.lookup_cons]
          have : (a == v) = false := by simp [ha]
          rw [this]
        rw [this, h2 a, if_neg ha]
    · intro p hpm
      have hpv : p.1 ≠ v := by
        intro h
        subst h
        exact hnd.1 (List.mem_map.2 ⟨p, hpm, rfl⟩)
      rw [h2, if_neg hpv]
      exact hpos p (by simp [hpm])

/-! ## Fragments as the callbacks make them -/

/-- Each vertex a fragment is left from occurs once, and the places are places. -/
structure Placed (g : Graph) (f : Frag) : Prop where
  nodup : (f.outs.map (·.1)).Nodup
  pos : ∀ p ∈ f.outs, p.2 ≤ (g.v p.1).out.length
  skip : ∀ k, f.skip = some k → k ≤ f.ins.length

theorem Placed.exit {g : Graph} {f : Frag} (h : Placed g f) {v p : Nat} (e : exits f.outs v = some p) :
    p ≤ (g.v v).out.length := h.pos _ (exits_mem e)

/-- Out edges and bytes of vertices of a fragment in a later graph. -/
theorem leaves_old {g0 g1 g2 : Graph} {f : Frag} {A : Language UInt8} (h1 : Good g0 g1 f A)
    (hb : ∀ a, g0.n ≤ a → a < g1.n → (g2.v a).bytes = (g1.v a).bytes)
    (ho : ∀ a, g0.n ≤ a → a < g1.n → (g2.v a).out = (g1.v a).out) {ex : Nat → Option Nat}
    (he : ∀ a, g0.n ≤ a → a < g1.n → ex a = exits f.outs a) (w : List UInt8) {u : Nat} (hu : g0.n ≤ u ∧ u < g1.n) :
    enter g2 ex w u = enter g1 (exits f.outs) w u :=
  enter_congr (C := fun a => g0.n ≤ a ∧ a < g1.n) (fun a ha b hb => h1.edges a ha.1 ha.2 b hb)
    (fun a ha => hb a ha.1 ha.2) (fun a ha => ho a ha.1 ha.2) (fun a ha => he a ha.1 ha.2) w u hu

theorem alternate_leaves {g0 g1 g2 : Graph} {f s : Frag} {A B : Language UInt8} (h1 : Good g0 g1 f A)
    (h2 : Good g1 g2 s B) (p1 : Placed g1 f) (p2 : Placed g2 s) :
    Placed g2 (alternate f s) ∧ ∀ w, Same (leaves g2 (alternate f s) w) (leaves g1 f w ++ leaves g2 s w) := by
  have hle := h1.le
  have hle2 := h2.le
  have o1 := h1.outs
  have o2 := h2.outs
  constructor
  · refine ⟨?_, ?_, ?_⟩
    · simp only [alternate, List.map_append]
      rw [List.nodup_append]
      refine ⟨p1.nodup, p2.nodup, fun a ha b hb e => ?_⟩
      have := o1 a ha
      have := o2 b hb
      omega
    · intro p hp
      rcases List.mem_append.1 hp with hp | hp
      · rw [h2.old p.1 (o1 p.1 (List.mem_map_of_mem hp)).2]
        exact p1.pos p hp
      · exact p2.pos p hp
    · intro k hk
      show k ≤ (f.ins ++ s.ins).length
      rw [List.length_append]
      unfold alternate at hk
      dsimp only at hk
      cases hf : f.skip with
      | some j =>
        rw [hf] at hk
        have := p1.skip j hf
        have : j = k := by simpa using hk
        omega
      | none =>
        rw [hf] at hk
        cases hs : s.skip with
        | none => rw [hs] at hk; cases hk
        | some j =>
          rw [hs] at hk
          have := p2.skip j hs
          have : f.ins.length + j = k := by simpa using hk
          omega
  · intro w
    have e1 : ∀ u ∈ f.ins, enter g2 (exits (alternate f s).outs) w u = enter g1 (exits f.outs) w u := by
      intro u hu
      refine leaves_old h1 (fun a _ ha => by rw [h2.old a ha]) (fun a _ ha => by rw [h2.old a ha]) (fun a ha ha2 => ?_) w
        (h1.ins u hu)
      show exits (f.outs ++ s.outs) a = _
      rw [exits_append, exits_none (outs := s.outs) (fun h => by have := o2 a h; omega)]
      simp
    have e2 : ∀ u ∈ s.ins, enter g2 (exits (alternate f s).outs) w u = enter g2 (exits s.outs) w u := by
      intro u hu
      refine leaves_old h2 (fun a _ ha => rfl) (fun a _ ha => rfl) (fun a ha ha2 => ?_) w (h2.ins u hu)
      show exits (f.outs ++ s.outs) a = _
      rw [exits_append, exits_none (outs := f.outs) (fun h => by have := o1 a h; omega)]
      rfl
    have a1 : ∀ l : List Nat, (∀ u ∈ l, u ∈ f.ins) →
        l.flatMap (enter g2 (exits (alternate f s).outs) w) = l.flatMap (enter g1 (exits f.outs) w) :=
      fun l hl => List.flatMap_congr fun u hu => e1 u (hl u hu)
    have a2 : ∀ l : List Nat, (∀ u ∈ l, u ∈ s.ins) →
        l.flatMap (enter g2 (exits (alternate f s).outs) w) = l.flatMap (enter g2 (exits s.outs) w) :=
      fun l hl => List.flatMap_congr fun u hu => e2 u (hl u hu)
    unfold leaves
    show Same (around (match f.skip, s.skip with
      | some k, _ => some k
      | none, some k => some (f.ins.length + k)
      | none, none => none) [w] (f.ins ++ s.ins) _) _
    cases hf : f.skip with
    | none =>
      cases hs : s.skip with
      | none =>
        simp only [around, List.flatMap_append]
        rw [a1 _ fun _ h => h, a2 _ fun _ h => h]
        rfl
      | some k =>
        simp only [around]
        rw [List.take_append, List.drop_append, Nat.add_sub_cancel_left,
          List.take_of_length_le (Nat.le_add_right _ _), List.drop_of_length_le (Nat.le_add_right _ _)]
        simp only [List.flatMap_append, List.nil_append, List.append_assoc]
        rw [a1 _ fun _ h => h, a2 _ fun _ h => List.mem_of_mem_take h, a2 _ fun _ h => List.mem_of_mem_drop h]
        rfl
    | some k =>
      have hk := p1.skip k hf
      have e3 : around (some k) [w] (f.ins ++ s.ins) (fun u => enter g2 (exits (alternate f s).outs) w u) =
          around (some k) [w] f.ins (fun u => enter g1 (exits f.outs) w u) ++ s.ins.flatMap (enter g2 (exits s.outs) w) := by
        simp only [around]
        rw [List.take_append, List.drop_append, Nat.sub_eq_zero_of_le hk]
        simp only [List.take_zero, List.drop_zero, List.append_nil, List.flatMap_append, List.append_assoc]
        rw [a1 _ fun _ h => List.mem_of_mem_take h, a1 _ fun _ h => List.mem_of_mem_drop h, a2 _ fun _ h => h]
      simp only [e3]
      cases hs : s.skip with
      | none => exact Same.refl _
      | some j =>
        have hw : w ∈ around (some k) [w] f.ins (fun u => enter g1 (exits f.outs) w u) :=
          mem_around.2 (.inl ⟨rfl, by simp⟩)
        generalize around (some k) [w] f.ins (fun u => enter g1 (exits f.outs) w u) = X at hw
        simp only [around]
        have e4 : s.ins.flatMap (enter g2 (exits s.outs) w) =
            (s.ins.take j).flatMap (enter g2 (exits s.outs) w) ++ (s.ins.drop j).flatMap (enter g2 (exits s.outs) w) := by
          rw [← List.flatMap_append, List.take_append_drop]
        rw [e4]
        simp only [← List.append_assoc]
        refine Same.append ?_ rfl
        exact (same_drop fun y hy => by
          rw [List.mem_singleton] at hy; subst hy; exact List.mem_append_left _ hw).symm

theorem concatenate_leaves {g0 g1 g2 : Graph} {f s : Frag} {A B : Language UInt8} (h1 : Good g0 g1 f A)
    (h2 : Good g1 g2 s B) (p1 : Placed g1 f) (p2 : Placed g2 s) :
    Placed (concatenate g2 f s).1 (concatenate g2 f s).2 ∧
      ∀ w, leaves (concatenate g2 f s).1 (concatenate g2 f s).2 w = (leaves g1 f w).flatMap (leaves g2 s) := by
  have hle := h1.le
  have hle2 := h2.le
  have o1 := h1.outs
  have o2 := h2.outs
  obtain ⟨ha, -⟩ := patchMid_added s.ins s.skip f.outs g2
  have hsnd := patchMid_snd s.ins s.skip f.outs g2
  have hout := patchMid_out s.ins s.skip f.outs g2 p1.nodup (fun p hp => by
    rw [h2.old p.1 (o1 p.1 (List.mem_map_of_mem hp)).2]; exact p1.pos p hp)
  have eg : (concatenate g2 f s).1 = (patchMid g2 s.ins s.skip f.outs).1 := rfl
  have eo : (concatenate g2 f s).2.outs = match s.skip with
      | some _ => (patchMid g2 s.ins s.skip f.outs).2 ++ s.outs
      | none => s.outs := rfl
  have ei : (concatenate g2 f s).2.ins = match f.skip with
      | some k => f.ins.take k ++ s.ins ++ f.ins.drop k
      | none => f.ins := rfl
  have es : (concatenate g2 f s).2.skip = match f.skip, s.skip with
      | some j, some k => some (j + k)
      | _, _ => none := rfl
  rw [hsnd] at eo
  rw [eg]
  obtain ⟨g3, hg3⟩ : ∃ g3, g3 = (patchMid g2 s.ins s.skip f.outs).1 := ⟨_, rfl⟩
  rw [← hg3] at ha hout ⊢
  obtain ⟨c, hc⟩ : ∃ c, c = (concatenate g2 f s).2 := ⟨_, rfl⟩
  rw [← hc] at eo ei es ⊢
  have lt1 : ∀ a, g0.n ≤ a → a < g1.n → exits s.outs a = none :=
    fun a _ h => exits_none fun h' => by have := o2 a h'; omega
  have lt2 : ∀ a, g1.n ≤ a → exits f.outs a = none :=
    fun a h => exits_none fun h' => by have := o1 a h'; omega
  -- exits
  have x1 : ∀ a, g0.n ≤ a → a < g1.n → exits c.outs a =
      if s.skip.isSome then (exits f.outs a).map (· + place s.ins s.skip) else none := by
    intro a h3 h4
    rw [eo]
    cases hs : s.skip with
    | none => simp [lt1 a h3 h4]
    | some k =>
      dsimp only
      rw [exits_append, lt1 a h3 h4, exits_map]
      simp
  have x2 : ∀ a, g1.n ≤ a → exits c.outs a = exits s.outs a := by
    intro a h3
    rw [eo]
    cases hs : s.skip with
    | none => rfl
    | some k =>
      dsimp only
      rw [exits_append, exits_map, lt2 a h3]
      rfl
  have oS : ∀ a, g1.n ≤ a → (g3.v a).out = (g2.v a).out := by
    intro a h3
    rw [hout a, lt2 a h3]
  -- the second part
  have second : ∀ w, ∀ u ∈ s.ins, enter g3 (exits c.outs) w u = enter g2 (exits s.outs) w u := by
    intro w u hu
    exact leaves_old h2 (fun a _ _ => ha.bytes a) (fun a h3 _ => oS a h3) (fun a h3 _ => x2 a h3) w (h2.ins u hu)
  have secondL : ∀ w (l : List Nat), (∀ u ∈ l, u ∈ s.ins) →
      l.flatMap (enter g3 (exits c.outs) w) = l.flatMap (enter g2 (exits s.outs) w) :=
    fun w l hl => List.flatMap_congr fun u hu => second w u (hl u hu)
  -- splitting at the inserted edges
  have split : ∀ (w : List UInt8) (P Q : List Nat) (h : Nat → List (List UInt8)) (n : Nat), P.length = n →
      (∀ u ∈ s.ins, h u = enter g2 (exits s.outs) w u) →
      around (if s.skip.isSome then some (n + place s.ins s.skip) else none) [w] (P ++ s.ins ++ Q) h =
        P.flatMap h ++ leaves g2 s w ++ Q.flatMap h := by
    intro w P Q h n hn hh
    have hf : ∀ l : List Nat, (∀ u ∈ l, u ∈ s.ins) → l.flatMap h = l.flatMap (enter g2 (exits s.outs) w) :=
      fun l hl => List.flatMap_congr fun u hu => hh u (hl u hu)
    unfold leaves
    cases hs : s.skip with
    | none =>
      simp only [Option.isSome_none, Bool.false_eq_true, if_false, around, List.flatMap_append]
      rw [hf _ fun _ h => h]
    | some k =>
      have hk := p2.skip k hs
      have hp : place s.ins (some k) = k := Nat.min_eq_left hk
      simp only [Option.isSome_some, if_true, around]
      rw [hp, List.append_assoc P, List.take_append, List.drop_append, hn, Nat.add_sub_cancel_left,
        List.take_of_length_le (by omega), List.drop_of_length_le (by omega), List.take_append, List.drop_append,
        Nat.sub_eq_zero_of_le hk]
      simp only [List.take_zero, List.drop_zero, List.append_nil, List.nil_append, List.flatMap_append, List.append_assoc]
      rw [hf _ fun _ h => List.mem_of_mem_take h, hf _ fun _ h => List.mem_of_mem_drop h]
  -- the first part
  have first : ∀ w, ∀ u, g0.n ≤ u → u < g1.n →
      enter g3 (exits c.outs) w u = (enter g1 (exits f.outs) w u).flatMap (leaves g2 s) := by
    intro w
    induction w with
    | nil => intro u _ _; rfl
    | cons b w ih =>
      intro u h3 h4
      rw [enter, enter, ha.bytes u, h2.old u h4]
      split
      · rw [around_flatMap, x1 u h3 h4, hout u, h2.old u h4]
        cases hx : exits f.outs u with
        | none =>
          simp only [Option.map_none, ite_self]
          exact List.flatMap_congr fun x hx' => by
            have := h1.edges u h3 h4 x hx'
            exact ih x this.1 this.2
        | some pos =>
          simp only [Option.map_some]
          have hpos := p1.exit hx
          rw [split w _ _ _ pos (by simp [hpos]) (second w)]
          simp only [around, List.flatMap_cons, List.flatMap_nil, List.append_nil]
          congr 1
          · congr 1
            exact List.flatMap_congr fun x hx' => by
              have := h1.edges u h3 h4 x (List.mem_of_mem_take hx')
              exact ih x this.1 this.2
          · exact List.flatMap_congr fun x hx' => by
              have := h1.edges u h3 h4 x (List.mem_of_mem_drop hx')
              exact ih x this.1 this.2
      · rfl
  constructor
  · refine ⟨?_, ?_, ?_⟩
    · rw [eo]
      cases hs : s.skip with
      | none => exact p2.nodup
      | some k =>
        dsimp only
        rw [List.map_append, List.map_map, List.nodup_append]
        refine ⟨p1.nodup, p2.nodup, fun a ha b hb e => ?_⟩
        have := o1 a ha
        have := o2 b hb
        omega
    · intro p hp
      have key2 : p ∈ s.outs → p.2 ≤ (g3.v p.1).out.length := by
        intro hp
        rw [oS p.1 (o2 p.1 (List.mem_map_of_mem hp)).1]
        exact p2.pos p hp
      rw [eo] at hp
      cases hs : s.skip with
      | none => rw [hs] at hp; exact key2 hp
      | some k =>
        rw [hs] at hp
        rcases List.mem_append.1 hp with hp | hp
        · obtain ⟨q, hq, rfl⟩ := List.mem_map.1 hp
          have hqo := o1 q.1 (List.mem_map_of_mem hq)
          dsimp only
          rw [hout q.1]
          cases hx : exits f.outs q.1 with
          | none =>
            have := exits_isSome.2 (List.mem_map_of_mem (f := fun p : Nat × Nat => p.1) hq)
            rw [hx] at this
            cases this
          | some pos =>
            have hqp : pos = q.2 := by
              have h5 := exits_mem hx
              have : (q.1, pos) = q := by
                have hnd := p1.nodup
                exact List.inj_on_of_nodup_map hnd h5 hq rfl
              rw [← this]
            have hpos := p1.exit hx
            rw [h2.old q.1 hqo.2]
            have := p2.skip k hs
            simp only [place, List.length_append, List.length_take, List.length_drop]
            omega
        · exact key2 hp
    · intro k hk
      rw [es] at hk
      cases hf : f.skip with
      | none => rw [hf] at hk; cases hk
      | some i =>
        rw [hf] at hk ei
        cases hs : s.skip with
        | none => rw [hs] at hk; cases hk
        | some j =>
          rw [hs] at hk
          cases hk
          have := p1.skip i hf
          have := p2.skip j hs
          rw [ei]
          simp
          omega
  · intro w
    have firstL : ∀ l : List Nat, (∀ u ∈ l, u ∈ f.ins) →
        l.flatMap (enter g3 (exits c.outs) w) = l.flatMap (fun u => (enter g1 (exits f.outs) w u).flatMap (leaves g2 s)) :=
      fun l hl => List.flatMap_congr fun u hu => by
        have := h1.ins u (hl u hu)
        exact first w u this.1 this.2
    have e0 : ∀ k, leaves g1 f w = around k [w] f.ins (fun u => enter g1 (exits f.outs) w u) → k = f.skip →
      (leaves g1 f w).flatMap (leaves g2 s) = around k (leaves g2 s w) f.ins
        (fun u => (enter g1 (exits f.outs) w u).flatMap (leaves g2 s)) := by
      intro k hk _
      rw [hk, around_flatMap]
      simp
    rw [e0 f.skip rfl rfl]
    unfold leaves
    rw [es, ei]
    cases hf : f.skip with
    | none =>
      simp only [around]
      exact firstL _ fun _ h => h
    | some j =>
      have hj := p1.skip j hf
      have := split w (f.ins.take j) (f.ins.drop j) (enter g3 (exits c.outs) w) j (by simp [hj]) (second w)
      have hif : (match (some j : Option Nat), s.skip with
          | some j, some k => some (j + k)
          | _, _ => none) = if s.skip.isSome then some (j + place s.ins s.skip) else none := by
        cases hs : s.skip with
        | none => rfl
        | some k => simp [place, p2.skip k hs]
      dsimp only at hif ⊢
      rw [hif]
      refine this.trans ?_
      simp only [around]
      rw [firstL _ fun _ h => List.mem_of_mem_take h, firstL _ fun _ h => List.mem_of_mem_drop h]
      rfl

theorem star_nil (f : List UInt8 → List (List UInt8)) (ng : Bool) (n : Nat) : Regex.star f ng n [] = [[]] := by
  cases n with
  | zero => rfl
  | succ n =>
    unfold Regex.star
    have : ((f []).filter fun r => decide (r.length < ([] : List UInt8).length)) = [] := by
      rw [List.filter_eq_nil_iff]; simp
    rw [this]
    unfold either
    cases ng <;> rfl

/-- Rounds beyond what is left change nothing. -/
theorem star_fuel (f : List UInt8 → List (List UInt8)) (ng : Bool) (n : Nat) : ∀ (m : Nat) (w : List UInt8),
    w.length ≤ n → w.length ≤ m → Regex.star f ng n w = Regex.star f ng m w := by
  induction n with
  | zero =>
    intro m w h _
    have : w = [] := List.length_eq_zero_iff.1 (Nat.le_zero.1 h)
    rw [this, star_nil, star_nil]
  | succ n ih =>
    intro m w h h2
    cases m with
    | zero =>
      have : w = [] := List.length_eq_zero_iff.1 (Nat.le_zero.1 h2)
      rw [this, star_nil, star_nil]
    | succ m =>
      show either _ _ _ = either _ _ _
      congr 1
      refine List.flatMap_congr fun r hr => ?_
      have hr := (List.mem_filter.1 hr).2
      simp only [decide_eq_true_eq] at hr
      exact ih m r (by omega) (by omega)

theorem filter_leaves (g : Graph) (f : Frag) (w : List UInt8) :
    ((leaves g f w).filter fun r => r.length < w.length) = f.ins.flatMap fun u => enter g (exits f.outs) w u := by
  have key : ∀ l : List Nat, ((l.flatMap fun u => enter g (exits f.outs) w u).filter fun r => decide (r.length < w.length)) =
      l.flatMap fun u => enter g (exits f.outs) w u := by
    intro l
    rw [List.filter_eq_self]
    intro x hx
    obtain ⟨u, -, hu⟩ := List.mem_flatMap.1 hx
    simpa using enter_shorter w u x hu
  unfold leaves around
  split
  · exact key _
  · rw [List.filter_append, List.filter_append, key, key]
    have : ([w].filter fun r => decide (r.length < w.length)) = [] := by simp
    rw [this, List.append_nil, ← List.flatMap_append, List.take_append_drop]

/-- Any number of rounds, seen from the fragment. -/
theorem star_leaves (g : Graph) (f : Frag) (ng : Bool) (w : List UInt8) :
    Regex.star (leaves g f) ng w.length w =
      either ng ((f.ins.flatMap fun u => enter g (exits f.outs) w u).flatMap fun x => Regex.star (leaves g f) ng x.length x) [w] := by
  cases hw : w.length with
  | zero =>
    have : w = [] := List.length_eq_zero_iff.1 hw
    subst this
    have : (f.ins.flatMap fun u => enter g (exits f.outs) [] u) = [] := by simp [enter]
    rw [this]
    unfold either
    cases ng <;> rfl
  | succ n =>
    have e : Regex.star (leaves g f) ng (n + 1) w = either ng
        (((leaves g f w).filter fun r => r.length < w.length).flatMap (Regex.star (leaves g f) ng n)) [w] := rfl
    rw [e, filter_leaves]
    congr 1
    refine List.flatMap_congr fun r hr => ?_
    obtain ⟨u, -, hu⟩ := List.mem_flatMap.1 hr
    have := enter_shorter w u r hu
    exact star_fuel (leaves g f) ng n r.length r (by omega) (Nat.le_refl _)

/-- If the fragment can be skipped, skipping comes last. -/
def SkipLast (f : Frag) : Prop := ∀ k, f.skip = some k → k = f.ins.length

/-- Wherever the fragment is left, leaving comes last. -/
def EndsLast (g : Graph) (f : Frag) : Prop := ∀ p ∈ f.outs, p.2 = (g.v p.1).out.length

theorem Placed.at {g : Graph} {f : Frag} (h : Placed g f) {q : Nat × Nat} (hq : q ∈ f.outs) :
    exits f.outs q.1 = some q.2 := by
  cases hx : exits f.outs q.1 with
  | none =>
    have := exits_isSome.2 (List.mem_map_of_mem (f := fun p : Nat × Nat => p.1) hq)
    rw [hx] at this
    cases this
  | some pos =>
    have : (q.1, pos) = q := List.inj_on_of_nodup_map h.nodup (exits_mem hx) hq rfl
    rw [← this]

theorem plus_enter {g0 g : Graph} {f : Frag} {A : Language UInt8} (ng : Bool) (h : Good g0 g f A) (p : Placed g f) :
    Placed (plus ng g f).1 (plus ng g f).2 ∧ (ng = false → EndsLast g f → EndsLast (plus ng g f).1 (plus ng g f).2) ∧
    ∀ w u, g0.n ≤ u → u < g.n → enter (plus ng g f).1 (exits (plus ng g f).2.outs) w u =
      (enter g (exits f.outs) w u).flatMap fun x => Regex.star (leaves g f) ng x.length x := by
  obtain ⟨ha, -⟩ := patchMid_added f.ins (if ng then some 0 else none) f.outs g
  have hsnd := patchMid_snd f.ins (if ng then some 0 else none) f.outs g
  have hout := patchMid_out f.ins (if ng then some 0 else none) f.outs g p.nodup p.pos
  have eg : (plus ng g f).1 = (patchMid g f.ins (if ng then some 0 else none) f.outs).1 := rfl
  have ef : (plus ng g f).2 = { f with outs := (patchMid g f.ins (if ng then some 0 else none) f.outs).2 } := rfl
  have hk : place f.ins (if ng then some 0 else none) = if ng then 0 else f.ins.length := by
    cases ng <;> simp [place]
  rw [hk] at hsnd
  rw [eg, ef, hsnd]
  obtain ⟨g', hg'⟩ : ∃ g', g' = (patchMid g f.ins (if ng then some 0 else none) f.outs).1 := ⟨_, rfl⟩
  rw [← hg'] at ha hout ⊢
  have hlen : ∀ q ∈ f.outs, (g'.v q.1).out.length = (g.v q.1).out.length + f.ins.length := by
    intro q hq
    rw [hout q.1, p.at hq]
    have := p.pos q hq
    simp
    omega
  refine ⟨⟨?_, ?_, p.skip⟩, ?_, ?_⟩
  · dsimp only
    rw [List.map_map]
    exact p.nodup
  · intro q hq
    obtain ⟨q', hq', rfl⟩ := List.mem_map.1 hq
    dsimp only
    rw [hlen q' hq']
    have := p.pos q' hq'
    split <;> omega
  · intro hng he q hq
    obtain ⟨q', hq', rfl⟩ := List.mem_map.1 hq
    dsimp only
    rw [hlen q' hq', hng, he q' hq']
    rfl
  · intro w
    dsimp only
    induction w with
    | nil => intro u _ _; rfl
    | cons b w ih =>
      intro u h3 h4
      have ihL : ∀ l : List Nat, (∀ x ∈ l, g0.n ≤ x ∧ x < g.n) →
          (l.flatMap fun x => enter g' (exits (f.outs.map fun p => (p.1, p.2 + if ng then 0 else f.ins.length))) w x) =
          (l.flatMap fun x => (enter g (exits f.outs) w x).flatMap fun x => Regex.star (leaves g f) ng x.length x) :=
        fun l hl => List.flatMap_congr fun x hx => ih x (hl x hx).1 (hl x hx).2
      rw [enter, enter, ha.bytes u]
      split
      · rw [around_flatMap, exits_map, hout u]
        have hed := h.edges u h3 h4
        cases hx : exits f.outs u with
        | none => exact ihL _ hed
        | some pos =>
          have hpos := p.exit hx
          simp only [Option.map_some, List.flatMap_cons, List.flatMap_nil, List.append_nil]
          rw [star_leaves, List.flatMap_assoc]
          simp only [around]
          have i1 := ihL _ fun x hx' => hed x (List.mem_of_mem_take (i := pos) hx')
          have i2 := ihL _ fun x hx' => hed x (List.mem_of_mem_drop (i := pos) hx')
          have i3 := ihL _ h.ins
          have e1 : ((g.v u).out.take pos).length = pos := by simp [hpos]
          cases ng with
          | true =>
            simp only [if_true, Nat.add_zero] at i1 i2 i3 ⊢
            rw [List.append_assoc (List.take pos (g.v u).out) f.ins, List.take_append_of_le_length (Nat.le_of_eq e1.symm),
              List.take_of_length_le (Nat.le_of_eq e1), List.drop_append_of_le_length (Nat.le_of_eq e1.symm),
              List.drop_of_length_le (Nat.le_of_eq e1), List.nil_append, List.flatMap_append, i1, i2, i3]
            simp [either]
          | false =>
            simp only [Bool.false_eq_true, if_false] at i1 i2 i3 ⊢
            have e2 : ((g.v u).out.take pos ++ f.ins).length = pos + f.ins.length := by simp [hpos]
            rw [List.take_append_of_le_length (Nat.le_of_eq e2.symm),
              List.take_of_length_le (Nat.le_of_eq e2), List.drop_append_of_le_length (Nat.le_of_eq e2.symm),
              List.drop_of_length_le (Nat.le_of_eq e2), List.nil_append, List.flatMap_append, i1, i2, i3]
            simp [either]
      · rfl

theorem same_cut {β : Type} [DecidableEq β] {a b c : List β} (h : ∀ y ∈ b, y ∈ a) : Same (a ++ (b ++ c)) (a ++ c) := by
  rw [← List.append_assoc]
  exact (same_drop h).append (Same.refl c)

theorem plus_leaves {g0 g : Graph} {f : Frag} {A : Language UInt8} (ng : Bool) (h : Good g0 g f A) (p : Placed g f)
    (hl : ng = true ∨ SkipLast f) (w : List UInt8) :
    Same (leaves (plus ng g f).1 (plus ng g f).2 w)
      ((leaves g f w).flatMap fun x => Regex.star (leaves g f) ng x.length x) := by
  obtain ⟨-, -, he⟩ := plus_enter ng h p
  have heL : ∀ l : List Nat, (∀ x ∈ l, x ∈ f.ins) →
      (l.flatMap fun x => enter (plus ng g f).1 (exits (plus ng g f).2.outs) w x) =
      (l.flatMap fun u => enter g (exits f.outs) w u).flatMap fun x => Regex.star (leaves g f) ng x.length x := by
    intro l hl
    rw [List.flatMap_assoc]
    exact List.flatMap_congr fun x hx => he w x (h.ins x (hl x hx)).1 (h.ins x (hl x hx)).2
  have hst := star_leaves g f ng w
  have e1 : (plus ng g f).2.ins = f.ins := rfl
  have e2 : (plus ng g f).2.skip = f.skip := rfl
  obtain ⟨S, hS⟩ : ∃ S : List UInt8 → List (List UInt8), S = fun x => Regex.star (leaves g f) ng x.length x := ⟨_, rfl⟩
  have hSw : S w = Regex.star (leaves g f) ng w.length w := by rw [hS]
  rw [← hS] at heL hst ⊢
  rw [← hSw] at hst
  have hd : leaves g f w = around f.skip [w] f.ins fun u => enter g (exits f.outs) w u := rfl
  have hd' : leaves (plus ng g f).1 (plus ng g f).2 w = around f.skip [w] f.ins
    fun u => enter (plus ng g f).1 (exits (plus ng g f).2.outs) w u := rfl
  rw [hd, hd']
  cases hk : f.skip with
  | none =>
    simp only [around]
    rw [heL _ fun _ h => h]
    exact Same.refl _
  | some k =>
    simp only [around, List.flatMap_append, List.flatMap_cons, List.flatMap_nil, List.append_nil]
    rw [heL _ fun _ h => List.mem_of_mem_take h, heL _ fun _ h => List.mem_of_mem_drop h, hst]
    have e3 : (f.ins.flatMap fun u => enter g (exits f.outs) w u) =
        ((f.ins.take k).flatMap fun u => enter g (exits f.outs) w u) ++
          (f.ins.drop k).flatMap fun u => enter g (exits f.outs) w u := by
      rw [← List.flatMap_append, List.take_append_drop]
    rw [e3, List.flatMap_append]
    obtain ⟨P, hP⟩ : ∃ P, P = ((f.ins.take k).flatMap fun u => enter g (exits f.outs) w u).flatMap S := ⟨_, rfl⟩
    obtain ⟨Q, hQ⟩ : ∃ Q, Q = ((f.ins.drop k).flatMap fun u => enter g (exits f.outs) w u).flatMap S := ⟨_, rfl⟩
    rw [← hP, ← hQ]
    cases ng with
    | true =>
      simp only [either, if_true]
      have s1 : Same ((P ++ [w]) ++ (P ++ (Q ++ Q))) ((P ++ [w]) ++ (Q ++ Q)) := same_cut fun y hy => by simp [hy]
      have s2 : Same ((P ++ [w] ++ Q) ++ Q) (P ++ [w] ++ Q) := same_drop fun y hy => by simp [hy]
      have s3 := s1.trans (by rw [← List.append_assoc (P ++ [w]) Q Q]; exact s2)
      refine Same.symm ?_
      have e4 : P ++ ([w] ++ (P ++ Q)) ++ Q = (P ++ [w]) ++ (P ++ (Q ++ Q)) := by simp
      rw [e4]
      exact s3
    | false =>
      have hkl := (hl.resolve_left (by simp)) k hk
      have hQ0 : Q = [] := by rw [hQ, hkl, List.drop_length]; rfl
      rw [hQ0]
      simp only [either, Bool.false_eq_true, if_false, List.append_nil]
      exact (same_cut fun y hy => hy).symm

/-- No round or some. -/
theorem star_of_plus (g : Graph) (f : Frag) (ng : Bool) (hl : ng = true ∨ SkipLast f) (w : List UInt8) :
    Same (either ng ((leaves g f w).flatMap fun x => Regex.star (leaves g f) ng x.length x) [w])
      (Regex.star (leaves g f) ng w.length w) := by
  have hst := star_leaves g f ng w
  obtain ⟨S, hS⟩ : ∃ S : List UInt8 → List (List UInt8), S = fun x => Regex.star (leaves g f) ng x.length x := ⟨_, rfl⟩
  have hSw : S w = Regex.star (leaves g f) ng w.length w := by rw [hS]
  rw [← hS] at hst ⊢
  rw [← hSw] at hst ⊢
  have hd : leaves g f w = around f.skip [w] f.ins fun u => enter g (exits f.outs) w u := rfl
  rw [hd]
  cases hk : f.skip with
  | none =>
    rw [hst]
    exact Same.refl _
  | some k =>
    simp only [around, List.flatMap_append, List.flatMap_cons, List.flatMap_nil, List.append_nil]
    rw [hst]
    have e3 : (f.ins.flatMap fun u => enter g (exits f.outs) w u) =
        ((f.ins.take k).flatMap fun u => enter g (exits f.outs) w u) ++
          (f.ins.drop k).flatMap fun u => enter g (exits f.outs) w u := by
      rw [← List.flatMap_append, List.take_append_drop]
    rw [e3, List.flatMap_append]
    obtain ⟨P, hP⟩ : ∃ P, P = ((f.ins.take k).flatMap fun u => enter g (exits f.outs) w u).flatMap S := ⟨_, rfl⟩
    obtain ⟨Q, hQ⟩ : ∃ Q, Q = ((f.ins.drop k).flatMap fun u => enter g (exits f.outs) w u).flatMap S := ⟨_, rfl⟩
    rw [← hP, ← hQ]
    cases ng with
    | true =>
      simp only [either, if_true]
      have s1 : Same (([w] ++ P) ++ (([w] ++ P) ++ (Q ++ Q))) (([w] ++ P) ++ (Q ++ Q)) := same_cut fun y hy => hy
      have s2 : Same (([w] ++ P ++ Q) ++ Q) ([w] ++ P ++ Q) := same_drop fun y hy => by simp [hy]
      have e4 : [w] ++ (P ++ ([w] ++ (P ++ Q)) ++ Q) = ([w] ++ P) ++ (([w] ++ P) ++ (Q ++ Q)) := by simp
      have e5 : [w] ++ (P ++ Q) = [w] ++ P ++ Q := by simp
      rw [e4, e5]
      exact s1.trans (by rw [← List.append_assoc ([w] ++ P) Q Q]; exact s2)
    | false =>
      have hkl := (hl.resolve_left (by simp)) k hk
      have hQ0 : Q = [] := by rw [hQ, hkl, List.drop_length]; rfl
      rw [hQ0]
      simp only [either, Bool.false_eq_true, if_false, List.append_nil]
      rw [List.append_assoc, List.append_assoc]
      exact (same_cut fun y hy => hy).trans (by
        rw [← List.append_assoc]
        exact same_drop fun y hy => by simp at hy; simp [hy])

theorem question_leaves (g : Graph) (f : Frag) (ng : Bool) (p : Placed g f) :
    Placed g (question ng f) ∧ (ng = false → (f.skip.isSome = true → SkipLast f) → SkipLast (question ng f)) ∧
    (question ng f).outs = f.outs ∧ ∀ w, Same (leaves g (question ng f) w) (either ng (leaves g f w) [w]) := by
  cases ng with
  | true =>
    have e : question true f = { f with skip := some 0 } := rfl
    rw [e]
    refine ⟨⟨p.nodup, p.pos, fun k hk => by cases hk; exact Nat.zero_le _⟩, (fun h => absurd h (by simp)), rfl, fun w => ?_⟩
    have hd : leaves g f w = around f.skip [w] f.ins fun u => enter g (exits f.outs) w u := rfl
    have hd' : leaves g { f with skip := some 0 } w = around (some 0) [w] f.ins
      fun u => enter g (exits f.outs) w u := rfl
    rw [hd, hd']
    cases hk : f.skip with
    | none => simp [around, either, Same]
    | some k =>
      simp only [around, either, if_true, List.take_zero, List.drop_zero, List.flatMap_nil, List.nil_append]
      have e3 : (f.ins.flatMap fun u => enter g (exits f.outs) w u) =
          ((f.ins.take k).flatMap fun u => enter g (exits f.outs) w u) ++
            (f.ins.drop k).flatMap fun u => enter g (exits f.outs) w u := by
        rw [← List.flatMap_append, List.take_append_drop]
      rw [e3]
      generalize ((f.ins.take k).flatMap fun u => enter g (exits f.outs) w u) = P
      generalize ((f.ins.drop k).flatMap fun u => enter g (exits f.outs) w u) = Q
      have e4 : [w] ++ (P ++ [w] ++ Q) = ([w] ++ P) ++ ([w] ++ Q) := by simp
      rw [e4, ← List.append_assoc]
      exact (same_cut fun y hy => by simp at hy; simp [hy]).symm
  | false =>
    cases hk : f.skip with
    | none =>
      have e : question false f = { f with skip := some f.ins.length } := by simp [question, hk]
      rw [e]
      refine ⟨⟨p.nodup, p.pos, fun k hk => by cases hk; exact Nat.le_refl _⟩, fun _ _ k hk => by cases hk; rfl, rfl,
        fun w => ?_⟩
      have hd : leaves g f w = around f.skip [w] f.ins fun u => enter g (exits f.outs) w u := rfl
      have hd' : leaves g { f with skip := some f.ins.length } w = around (some f.ins.length) [w] f.ins
        fun u => enter g (exits f.outs) w u := rfl
      rw [hd, hd', hk]
      simp [around, either, Same]
    | some k =>
      have hkl := p.skip k hk
      have e : question false f = f := by
        obtain ⟨i, o, s⟩ := f
        simp only at hk
        subst hk
        simp only [question, Bool.false_eq_true, if_false]
        rw [Nat.min_eq_left hkl]
      rw [e]
      refine ⟨p, fun _ h => h (by simp), rfl, fun w => ?_⟩
      have hw : w ∈ leaves g f w := mem_around.2 (.inl ⟨by rw [hk]; rfl, by simp⟩)
      simp only [either, Bool.false_eq_true, if_false]
      exact (same_drop fun y hy => by simp at hy; rw [hy]; exact hw).symm

/-! ## Leaves -/

theorem litLoop_last (bs : List UInt8) : ∀ (g : Graph) (prev : Nat), prev < g.n → (g.v prev).out = [] →
    ((litLoop g prev bs).1.v (litLoop g prev bs).2).out = [] := by
  induction bs with
  | nil => intro g prev _ h; exact h
  | cons b bs ih =>
    intro g prev hp _
    rw [litLoop]
    refine ih _ _ (by simp [Graph.addVertex, Graph.addEdge, Graph.modify]) ?_
    have : g.n ≠ prev := by omega
    simp [Graph.addVertex, Graph.addEdge, Graph.modify, this]

theorem buildFront_n (ss : List BSet) : ∀ (g : Graph) (tail : Nat), g.n ≤ (buildFront g tail ss).1.n := by
  induction ss with
  | nil => intro g _; exact Nat.le_refl _
  | cons s ss ih =>
    intro g tail
    rw [buildFront]
    refine Nat.le_trans ?_ (ih _ _)
    simp [Graph.addVertex, Graph.addEdge, Graph.modify]

theorem encStep_outs (st : Graph × Frag) (enc : List BSet)
    (h : (st.2.outs.map (·.1)).Nodup ∧ ∀ p ∈ st.2.outs, p.1 < st.1.n ∧ p.2 = 0) :
    ((encStep st enc).2.outs.map (·.1)).Nodup ∧ ∀ p ∈ (encStep st enc).2.outs, p.1 < (encStep st enc).1.n ∧ p.2 = 0 := by
  unfold encStep
  split
  · exact h
  · next s ss _ =>
    split
    · next p _ =>
      refine ⟨h.1, fun q hq => ?_⟩
      have := h.2 q hq
      have := buildFront_n (walkBack st.1 p.1 ss).2 st.1 (walkBack st.1 p.1 ss).1
      dsimp only
      omega
    · have hn := buildFront_n ss (st.1.addVertex s) st.1.n
      have hn2 : (st.1.addVertex s).n = st.1.n + 1 := rfl
      refine ⟨?_, fun q hq => ?_⟩
      · dsimp only
        rw [List.map_append, List.nodup_append]
        refine ⟨h.1, by simp, fun a ha b hb e => ?_⟩
        obtain ⟨q, hq, rfl⟩ := List.mem_map.1 ha
        have := (h.2 q hq).1
        simp at hb
        omega
      · dsimp only at hq ⊢
        rcases List.mem_append.1 hq with hq | hq
        · have := h.2 q hq; omega
        · simp at hq
          subst hq
          dsimp only
          omega

theorem foldl_outs (es : List (List BSet)) : ∀ st : Graph × Frag,
    ((st.2.outs.map (·.1)).Nodup ∧ ∀ p ∈ st.2.outs, p.1 < st.1.n ∧ p.2 = 0) →
    (((es.foldl encStep st).2.outs.map (·.1)).Nodup ∧
      ∀ p ∈ (es.foldl encStep st).2.outs, p.1 < (es.foldl encStep st).1.n ∧ p.2 = 0) := by
  induction es with
  | nil => intro st h; exact h
  | cons e es ih => intro st h; exact ih _ (encStep_outs st e h)

/-- A leaf is left at the end of its vertices, which have no edges yet. -/
theorem leaf_placed {g0 : Graph} {a : Leaf} (hok : LeafOk a) {r : Graph × Frag} (h : fragment g0 (.leaf a) = some r) :
    Placed r.1 r.2 ∧ SkipLast r.2 ∧ EndsLast r.1 r.2 := by
  cases a with
  | lit bs =>
    have h : literal g0 bs = some r := h
    cases bs with
    | nil => simp [literal] at h
    | cons b bs =>
      simp only [literal, Option.some.injEq] at h
      subst h
      have := litLoop_last bs (g0.addVertex (.single b)) g0.n (by simp [Graph.addVertex]) (by simp [Graph.addVertex])
      refine ⟨⟨by simp, by simp, fun k hk => by cases hk⟩, (show SkipLast _ from fun k hk => (by cases hk)), fun p hp => ?_⟩
      simp at hp
      subst hp
      dsimp only
      rw [this]
      rfl
  | cls encs brk additive =>
    have h : charClass g0 encs brk additive = some r := h
    simp only [charClass, Option.bind_eq_bind, Option.bind_eq_some_iff, Option.some.injEq] at h
    obtain ⟨es, hes, rfl⟩ := h
    obtain ⟨b1, b2⟩ := breakout_spec hok hes
    have h0 : Chains g0 g0 { ins := [], outs := [], skip := none } (fun _ => []) [] :=
      ⟨Nat.le_refl _, fun _ _ => rfl, fun a h1 h2 => by omega, by simp, fun a h1 h2 => by omega, by simp, rfl,
        fun a h1 h2 => by omega, rfl⟩
    obtain ⟨σ, hc⟩ := Chains.foldl es (g0, { ins := [], outs := [], skip := none }) _ [] h0 b1
    obtain ⟨o1, o2⟩ := foldl_outs es (g0, { ins := [], outs := [], skip := none }) (by simp)
    have hsk := hc.skip
    refine ⟨⟨o1, fun p hp => by rw [(o2 p hp).2]; exact Nat.zero_le _, fun k hk => by rw [hsk] at hk; cases hk⟩,
      (show SkipLast _ from fun k hk => (by rw [hsk] at hk; cases hk)), fun p hp => ?_⟩
    rw [(o2 p hp).2]
    have hm := List.mem_map_of_mem (f := fun p : Nat × Nat => p.1) hp
    obtain ⟨q1, q2⟩ := hc.outs p.1 hm
    rcases hc.vert p.1 q1 q2 with ⟨h, -, -⟩ | ⟨u, -, -, -, h, -⟩
    · rw [h]; rfl
    · exact absurd hm h

/-- If the rest is determined, there is nothing to order. -/
theorem same_of_mem {a b : List (List UInt8)} (h : ∀ x, x ∈ a ↔ x ∈ b) (h1 : ∀ x ∈ a, ∀ y ∈ a, x = y) : Same a b := by
  cases a with
  | nil =>
    cases b with
    | nil => rfl
    | cons y b => exact absurd ((h y).2 (by simp)) (by simp)
  | cons x a =>
    have hx : ∀ y ∈ x :: a, y = x := fun y hy => h1 y hy x (by simp)
    have e1 := same_self hx (by simp)
    have e2 := same_self (a := b) (w := x) (fun y hy => hx y ((h y).2 hy)) (by
      intro hb
      have := (h x).1 (by simp)
      rw [hb] at this
      cases this)
    exact e1.trans e2.symm

/-- No string of the leaf begins another one. -/
def OneWay (a : Leaf) : Prop := ∀ u ∈ leafSem a, ∀ v ∈ leafSem a, u <+: v → u = v

theorem oneWay_unique {a : Leaf} (h : OneWay a) {w x y : List UInt8} (hx : ∃ u ∈ leafSem a, w = u ++ x)
    (hy : ∃ u ∈ leafSem a, w = u ++ y) : x = y := by
  obtain ⟨u, hu, e1⟩ := hx
  obtain ⟨v, hv, e2⟩ := hy
  have hp1 : u <+: w := ⟨x, e1.symm⟩
  have hp2 : v <+: w := ⟨y, e2.symm⟩
  have : u = v := by
    rcases List.prefix_or_prefix_of_prefix hp1 hp2 with hp | hp
    · exact h u hu v hv hp
    · exact (h v hv u hu hp).symm
  subst this
  rw [e1] at e2
  exact List.append_cancel_left e2

/-! ## Trees -/

/-- If the expression can match nothing, doing so is what it tries last. -/
def Last {α : Type} (sem : α → Language UInt8) : Tree α → Prop
  | .leaf _ => True
  | .alt l r => [] ∉ lang sem l ∧ Last sem r
  | .cat l r => [] ∈ lang sem l → [] ∈ lang sem r → Last sem l ∧ Last sem r
  | .rep ng m M t => (m = 0 → ng = false) ∧ ([] ∈ lang sem t → (ng = false ∨ m = M) ∧ Last sem t)
  | .look _ _ => True

/-- What is repeated greedily without bound tries to match nothing last. -/
def Calm {α : Type} (sem : α → Language UInt8) : Tree α → Prop
  | .leaf _ => True
  | .alt l r => Calm sem l ∧ Calm sem r
  | .cat l r => Calm sem l ∧ Calm sem r
  | .rep ng _ M t => Calm sem t ∧ (ng = false → M = UNB → [] ∈ lang sem t → Last sem t)
  | .look _ _ => True

/-- Wherever a match can end, going on is tried before ending it. -/
def Tail {α : Type} (sem : α → Language UInt8) : Tree α → Prop
  | .leaf _ => True
  | .alt l r => Tail sem l ∧ Tail sem r
  | .cat l r => Tail sem r ∧ ([] ∈ lang sem r → Tail sem l ∧ Last sem r)
  | .rep ng m M t => (ng = false ∨ m = M) ∧ Tail sem t ∧ ([] ∈ lang sem t → Last sem t)
  | .look _ _ => True

variable {leaf : Leaf → List UInt8 → List (List UInt8)}

theorem fragment_leaves (hs : ∀ a, Splits (leaf a) (leafSem a)) (t : Tree Leaf) : ∀ (g0 : Graph) (r : Graph × Frag),
    Named t → LeavesOk t → AllLeaves OneWay t → Calm leafSem t → fragment g0 t = some r →
    Placed r.1 r.2 ∧ (Last leafSem t → SkipLast r.2) ∧ (Tail leafSem t → EndsLast r.1 r.2) ∧
      ∀ w, Same (leaves r.1 r.2 w) (rests leaf t w) := by
  induction t with
  | leaf a =>
    intro g0 r hn hl h1 _ h
    obtain ⟨q1, q2, q3⟩ := leaf_placed hl h
    refine ⟨q1, fun _ => q2, fun _ => q3, fun w => ?_⟩
    have hg := fragment_good _ g0 r hn hl h
    have hm : ∀ x, x ∈ leaves r.1 r.2 w ↔ ∃ u ∈ leafSem a, w = u ++ x := mem_leaves hg w
    refine same_of_mem (fun x => ?_) fun x hx y hy => oneWay_unique h1 ((hm x).1 hx) ((hm y).1 hy)
    rw [hm]
    exact (hs a w x).symm
  | look k t => intro g0 r hn; exact hn.elim
  | alt l r ihl ihr =>
    intro g0 q hn hl h1 hc h
    simp only [fragment, Option.bind_eq_bind, Option.bind_eq_some_iff, Option.some.injEq] at h
    obtain ⟨a, ha, b, hb, rfl⟩ := h
    have ga := fragment_good _ g0 a hn.1 hl.1 ha
    have gb := fragment_good _ a.1 b hn.2 hl.2 hb
    obtain ⟨a1, a2, a3, a4⟩ := ihl g0 a hn.1 hl.1 h1.1 hc.1 ha
    obtain ⟨b1, b2, b3, b4⟩ := ihr a.1 b hn.2 hl.2 h1.2 hc.2 hb
    obtain ⟨c1, c2⟩ := alternate_leaves ga gb a1 b1
    refine ⟨c1, fun hL k hk => ?_, fun hT p hp => ?_, fun w => (c2 w).trans ((a4 w).append (b4 w))⟩
    · have hf : a.2.skip = none := by
        cases hf : a.2.skip with
        | none => rfl
        | some j => exact absurd (ga.skip.1 (by rw [hf]; rfl)) hL.1
      have := b2 hL.2
      simp only [alternate, hf] at hk ⊢
      cases hsk : b.2.skip with
      | none => rw [hsk] at hk; cases hk
      | some j =>
        rw [hsk] at hk
        have e := this j hsk
        have : a.2.ins.length + j = k := by simpa using hk
        rw [List.length_append]
        omega
    · rcases List.mem_append.1 hp with hp | hp
      · dsimp only
        rw [gb.old p.1 (ga.outs p.1 (List.mem_map_of_mem hp)).2]
        exact a3 hT.1 p hp
      · exact b3 hT.2 p hp
  | cat l r ihl ihr =>
    intro g0 q hn hl h1 hc h
    simp only [fragment, Option.bind_eq_bind, Option.bind_eq_some_iff, Option.some.injEq] at h
    obtain ⟨a, ha, b, hb, rfl⟩ := h
    have ga := fragment_good _ g0 a hn.1 hl.1 ha
    have gb := fragment_good _ a.1 b hn.2 hl.2 hb
    obtain ⟨a1, a2, a3, a4⟩ := ihl g0 a hn.1 hl.1 h1.1 hc.1 ha
    obtain ⟨b1, b2, b3, b4⟩ := ihr a.1 b hn.2 hl.2 h1.2 hc.2 hb
    obtain ⟨c1, c2⟩ := concatenate_leaves ga gb a1 b1
    refine ⟨c1, fun hL k hk => ?_, fun hT p hp => ?_, fun w => ?_⟩
    · cases hf : a.2.skip with
      | none => simp only [concatenate, hf] at hk; cases hk
      | some i =>
        cases hsk : b.2.skip with
        | none => simp only [concatenate, hf, hsk] at hk; cases hk
        | some j =>
          obtain ⟨l1, l2⟩ := hL (ga.skip.1 (by rw [hf]; rfl)) (gb.skip.1 (by rw [hsk]; rfl))
          have e1 := a2 l1 i hf
          have e2 := b2 l2 j hsk
          simp only [concatenate, hf, hsk] at hk ⊢
          have : i + j = k := by simpa using hk
          simp
          omega
    · have hout := patchMid_out b.2.ins b.2.skip a.2.outs b.1 a1.nodup (fun p hp => by
        rw [gb.old p.1 (ga.outs p.1 (List.mem_map_of_mem hp)).2]; exact a1.pos p hp)
      have hsnd := patchMid_snd b.2.ins b.2.skip a.2.outs b.1
      have eg : (concatenate b.1 a.2 b.2).1 = (patchMid b.1 b.2.ins b.2.skip a.2.outs).1 := rfl
      have eo : (concatenate b.1 a.2 b.2).2.outs = match b.2.skip with
          | some _ => (patchMid b.1 b.2.ins b.2.skip a.2.outs).2 ++ b.2.outs
          | none => b.2.outs := rfl
      rw [hsnd] at eo
      rw [eg, hout p.1]
      have key : p ∈ b.2.outs → p.2 = (match exits a.2.outs p.1 with
          | none => (b.1.v p.1).out
          | some pos => (b.1.v p.1).out.take pos ++ b.2.ins ++ (b.1.v p.1).out.drop pos).length := by
        intro hp
        have hx : exits a.2.outs p.1 = none := exits_none fun h' => by
          have := ga.outs p.1 h'
          have := gb.outs p.1 (List.mem_map_of_mem hp)
          omega
        rw [hx]
        exact b3 hT.1 p hp
      rw [eo] at hp
      cases hsk : b.2.skip with
      | none => rw [hsk] at hp; exact key hp
      | some j =>
        rw [hsk] at hp
        rcases List.mem_append.1 hp with hp | hp
        · obtain ⟨q, hq, rfl⟩ := List.mem_map.1 hp
          obtain ⟨t1, t2⟩ := hT.2 (gb.skip.1 (by rw [hsk]; rfl))
          have e1 := a3 t1 q hq
          have e2 := b2 t2 j hsk
          dsimp only
          rw [a1.at hq, gb.old q.1 (ga.outs q.1 (List.mem_map_of_mem hq)).2, e1]
          simp [place, e2]
        · exact key hp
    · rw [c2 w, rests_cat]
      exact (a4 w).flatMap b4
  | rep ng m M t ih =>
    intro g0 q hn hl h1 hc h
    simp only [fragment, Option.bind_eq_bind, Option.bind_eq_some_iff, Option.some.injEq] at h
    obtain ⟨a, ha, rfl⟩ := h
    have hg := fragment_good _ g0 a hn.2 hl ha
    obtain ⟨a1, a2, a3, a4⟩ := ih g0 a hn.2 hl h1 hc.1 ha
    have hskl : ∀ {P : Prop}, ([] ∈ lang leafSem t → P ∧ Last leafSem t) → a.2.skip.isSome = true → SkipLast a.2 :=
      fun h hs => a2 (h (hg.skip.1 hs)).2
    have hsl2 : ([] ∈ lang leafSem t → Last leafSem t) → SkipLast a.2 := by
      intro h k hk
      exact a2 (h (hg.skip.1 (by rw [hk]; rfl))) k hk
    rcases hn.1 with ⟨rfl, rfl | rfl⟩ | ⟨rfl, rfl⟩
    · have e : repetition ng 0 1 a.1 a.2 = (a.1, question ng a.2) := by simp [repetition]
      rw [e]
      obtain ⟨q1, q2, q3, q4⟩ := question_leaves a.1 a.2 ng a1
      refine ⟨q1, fun hL => q2 (hL.1 rfl) (hskl hL.2), fun hT p hp => ?_, fun w => ?_⟩
      · rw [q3] at hp
        exact a3 hT.2.1 p hp
      · refine (q4 w).trans ?_
        have e2 : rests leaf (.rep ng 0 1 t) w = either ng (rests leaf t w) [w] := by
          rw [rests_rep]
          simp [times, upto, UNB]
        rw [e2]
        exact (a4 w).either (Same.refl _)
    · have e : repetition ng 0 UNB a.1 a.2 = ((plus ng a.1 a.2).1, question ng (plus ng a.1 a.2).2) := by
        simp [repetition, UNB]
      rw [e]
      obtain ⟨p1, p2, p3⟩ := plus_enter ng hg a1
      obtain ⟨q1, q2, q3, q4⟩ := question_leaves (plus ng a.1 a.2).1 (plus ng a.1 a.2).2 ng p1
      have hcl : ng = true ∨ SkipLast a.2 := by
        cases ng with
        | true => exact .inl rfl
        | false => exact .inr (hsl2 (hc.2 rfl rfl))
      refine ⟨q1, fun hL => q2 (hL.1 rfl) (hskl hL.2), fun hT p hp => ?_, fun w => ?_⟩
      · rw [q3] at hp
        have hng : ng = false := hT.1.resolve_right (by simp [UNB])
        exact p2 hng (a3 hT.2.1) p hp
      · refine (q4 w).trans (((plus_leaves ng hg a1 hcl w).either (Same.refl _)).trans
          ((star_of_plus a.1 a.2 ng hcl w).trans ?_))
        have e2 : rests leaf (.rep ng 0 UNB t) w = Regex.star (rests leaf t) ng w.length w := by
          rw [rests_rep]
          simp [times]
        rw [e2]
        exact Same.star a4 ng _ w
    · have e : repetition ng 1 UNB a.1 a.2 = plus ng a.1 a.2 := by simp [repetition]
      rw [e]
      obtain ⟨p1, p2, p3⟩ := plus_enter ng hg a1
      have hcl : ng = true ∨ SkipLast a.2 := by
        cases ng with
        | true => exact .inl rfl
        | false => exact .inr (hsl2 (hc.2 rfl rfl))
      refine ⟨p1, fun hL k hk => hskl hL.2 (by rw [show a.2.skip = some k from hk]; rfl) k hk, fun hT => ?_, fun w => ?_⟩
      · have hng : ng = false := hT.1.resolve_right (by simp [UNB])
        exact p2 hng (a3 hT.2.1)
      · refine (plus_leaves ng hg a1 hcl w).trans ?_
        have e2 : rests leaf (.rep ng 1 UNB t) w =
            (rests leaf t w).flatMap fun x => Regex.star (rests leaf t) ng x.length x := by
          rw [rests_rep]
          simp [times]
        rw [e2]
        exact (a4 w).flatMap fun x => Same.star a4 ng _ x

/-! ## Counted repetitions -/

theorem copies_rests (t s : Tree Leaf) (k : Nat) (w : List UInt8) :
    rests leaf (copies t s k) w = (times (rests leaf t) k w).flatMap (rests leaf s) := by
  induction k generalizing w with
  | zero => simp [copies, times]
  | succ k ih =>
    rw [copies, rests_cat, times, List.flatMap_assoc]
    exact List.flatMap_congr fun x _ => ih x

theorem optional_rests (ng : Bool) (t : Tree Leaf) (k : Nat) (w : List UInt8) :
    rests leaf (optional ng t k) w = upto (rests leaf t) ng (k + 1) w := by
  have hq : ∀ (s : Tree Leaf) (w : List UInt8), rests leaf (.rep ng 0 1 s) w = either ng (rests leaf s w) [w] := by
    intro s w
    rw [rests_rep]
    simp [times, upto, UNB]
  induction k generalizing w with
  | zero =>
    rw [optional, hq, upto]
    simp [upto]
  | succ k ih =>
    rw [optional, hq, upto, rests_cat]
    congr 1
    exact List.flatMap_congr fun x _ => ih x

theorem expandRep_rests (ng : Bool) (m M : Nat) (t : Tree Leaf) (hle : m ≤ M) (hM : ¬ (m = 0 ∧ M = 0)) (hm : m ≠ UNB) (w : List UInt8) :
    rests leaf (expandRep ng m M t) w = rests leaf (.rep ng m M t) w := by
  unfold expandRep
  split
  · rfl
  · next h1 =>
    split
    · next h2 =>
      subst h2
      rw [copies_rests, rests_rep]
      simp only [if_neg hm, Nat.sub_self, upto]
      obtain ⟨k, rfl⟩ : ∃ k, m = k + 1 := ⟨m - 1, by omega⟩
      rw [times_snoc]
      simp
    · next h2 =>
      split
      · next h3 =>
        subst h3
        obtain ⟨k, rfl⟩ : ∃ k, m = k + 1 := ⟨m - 1, by
          by_contra h
          exact h1 (.inl ⟨by omega, .inr rfl⟩)⟩
        rw [copies_rests, rests_rep, times_snoc, List.flatMap_assoc]
        refine List.flatMap_congr fun x _ => ?_
        rw [rests_rep]
        simp [times]
      · next h3 =>
        rw [copies_rests, rests_rep]
        refine List.flatMap_congr fun x _ => ?_
        rw [optional_rests, if_neg h3]
        congr 1
        omega

theorem expand_rests (t : Tree Leaf) (hok : Ok t) (hd : NoDead t) : rests leaf (expand t) = rests leaf t := by
  induction t with
  | leaf a => rfl
  | look k t => rfl
  | alt l r ihl ihr =>
    funext w
    show rests leaf (expand l) w ++ rests leaf (expand r) w = _
    rw [ihl hok.1 hd.1, ihr hok.2 hd.2]
    rfl
  | cat l r ihl ihr =>
    funext w
    show (rests leaf (expand l) w).flatMap (rests leaf (expand r)) = _
    rw [ihl hok.1 hd.1, ihr hok.2 hd.2]
    rfl
  | rep ng m M t ih =>
    funext w
    show rests leaf (expandRep ng m M (expand t)) w = _
    rw [expandRep_rests ng m M (expand t) hok.1 hd.1 (ok_min hok), rests_rep, rests_rep, ih hok.2.2.2 hd.2]

theorem last_of_not (sem : Leaf → Language UInt8) (t : Tree Leaf) (hn : NoLook t) (hle : Ok t)
    (h : [] ∉ lang sem t) : Last sem t := by
  induction t with
  | leaf a => trivial
  | look k t => exact hn.elim
  | alt l r ihl ihr =>
    rw [lang, Language.mem_add, not_or] at h
    exact ⟨h.1, ihr hn.2 hle.2 h.2⟩
  | cat l r ihl ihr =>
    intro h1 h2
    exact absurd (show [] ∈ lang sem l * lang sem r from Language.mem_mul.2 ⟨[], h1, [], h2, rfl⟩) h
  | rep ng m M t ih =>
    rw [mem_rep] at h
    have hp : ∀ k, [] ∈ lang sem t → [] ∈ lang sem t ^ k := by
      intro k h1
      induction k with
      | zero => exact (Language.mem_one []).2 rfl
      | succ k ihk => rw [pow_succ]; exact Language.mem_mul.2 ⟨[], ihk, [], h1, rfl⟩
    refine ⟨fun hm => ?_, fun h1 => ?_⟩
    · exact absurd ⟨0, by omega, by omega, (Language.mem_one []).2 rfl⟩ h
    · exact absurd ⟨m, Nat.le_refl _, .inr hle.1, hp m h1⟩ h

theorem copies_last {sem : Leaf → Language UInt8} {s r : Tree Leaf} (hs : [] ∈ lang sem s → Last sem s) (hr : Last sem r)
    (k : Nat) : Last sem (copies s r k) := by
  induction k with
  | zero => exact hr
  | succ k ih => exact fun h1 _ => ⟨hs h1, ih⟩

theorem optional_last {sem : Leaf → Language UInt8} {s : Tree Leaf} (hs : [] ∈ lang sem s → Last sem s) (k : Nat) :
    Last sem (optional false s k) := by
  induction k with
  | zero => exact ⟨fun _ => rfl, fun h => ⟨.inl rfl, hs h⟩⟩
  | succ k ih => exact ⟨fun _ => rfl, fun _ => ⟨.inl rfl, fun h1 _ => ⟨hs h1, ih⟩⟩⟩

theorem expandRep_last {sem : Leaf → Language UInt8} {ng : Bool} {m M : Nat} {s : Tree Leaf} (hn : NoLook s) (hok : Ok s)
    (hm : m < UNB) (h : Last sem (.rep ng m M s)) : Last sem (expandRep ng m M s) := by
  have hs : Last sem s := by
    by_cases h0 : [] ∈ lang sem s
    · exact (h.2 h0).2
    · exact last_of_not sem s hn hok h0
  unfold expandRep
  split
  · exact h
  · next h1 =>
    split
    · exact copies_last (fun _ => hs) hs _
    · next h2 =>
      split
      · next h3 =>
        refine copies_last (r := .rep ng 1 UNB s) (fun _ => hs) ⟨fun h => absurd h (by omega), fun h0 => ⟨.inl ?_, hs⟩⟩ _
        exact (h.2 h0).1.resolve_right h2
      · by_cases h0 : [] ∈ lang sem s
        · rw [(h.2 h0).1.resolve_right h2]
          exact copies_last (fun _ => hs) (optional_last (fun _ => hs) _) _
        · cases m with
          | zero =>
            rw [h.1 rfl]
            exact copies_last (fun _ => hs) (optional_last (fun _ => hs) _) _
          | succ m => exact fun h1 => absurd h1 h0

theorem copies_tail {sem : Leaf → Language UInt8} {s r : Tree Leaf} (ht : Tail sem s) (hs : [] ∈ lang sem s → Last sem s)
    (hr : Tail sem r) (hl : Last sem r) (k : Nat) : Tail sem (copies s r k) := by
  induction k with
  | zero => exact hr
  | succ k ih => exact ⟨ih, fun _ => ⟨ht, copies_last hs hl k⟩⟩

theorem optional_tail {sem : Leaf → Language UInt8} {s : Tree Leaf} (ht : Tail sem s) (hs : [] ∈ lang sem s → Last sem s)
    (k : Nat) : Tail sem (optional false s k) := by
  induction k with
  | zero => exact ⟨.inl rfl, ht, hs⟩
  | succ k ih =>
    exact ⟨.inl rfl, ⟨ih, fun _ => ⟨ht, optional_last hs k⟩⟩, fun _ h1 _ => ⟨hs h1, optional_last hs k⟩⟩

theorem expandRep_tail {sem : Leaf → Language UInt8} {ng : Bool} {m M : Nat} {s : Tree Leaf} (hn : NoLook s) (hok : Ok s)
    (h : Tail sem (.rep ng m M s)) : Tail sem (expandRep ng m M s) := by
  obtain ⟨h1, ht, hl⟩ := h
  have hs : Last sem s := by
    by_cases h0 : [] ∈ lang sem s
    · exact hl h0
    · exact last_of_not sem s hn hok h0
  unfold expandRep
  split
  · exact ⟨h1, ht, hl⟩
  · split
    · exact copies_tail ht hl ht hs _
    · next h2 =>
      have hng := h1.resolve_right h2
      subst hng
      split
      · exact copies_tail (r := .rep false 1 UNB s) ht hl ⟨.inl rfl, ht, hl⟩ ⟨fun _ => rfl, fun h0 => ⟨.inl rfl, hl h0⟩⟩ _
      · exact copies_tail ht hl (optional_tail ht hl _) (optional_last hl _) _

theorem copies_calm {sem : Leaf → Language UInt8} {s r : Tree Leaf} (hs : Calm sem s) (hr : Calm sem r) (k : Nat) :
    Calm sem (copies s r k) := by
  induction k with
  | zero => exact hr
  | succ k ih => exact ⟨hs, ih⟩

theorem optional_calm {sem : Leaf → Language UInt8} {ng : Bool} {s : Tree Leaf} (hs : Calm sem s) (k : Nat) :
    Calm sem (optional ng s k) := by
  induction k with
  | zero => exact ⟨hs, fun _ h => by simp [UNB] at h⟩
  | succ k ih => exact ⟨⟨hs, ih⟩, fun _ h => by simp [UNB] at h⟩

theorem expandRep_calm {sem : Leaf → Language UInt8} {ng : Bool} {m M : Nat} {s : Tree Leaf}
    (h : Calm sem (.rep ng m M s)) : Calm sem (expandRep ng m M s) := by
  unfold expandRep
  split
  · exact h
  · split
    · exact copies_calm h.1 h.1 _
    · split
      · next h3 => exact copies_calm (r := .rep ng 1 UNB s) h.1 ⟨h.1, fun hng _ => h.2 hng h3⟩ _
      · exact copies_calm h.1 (optional_calm h.1 _) _

theorem expand_all {P : Leaf → Prop} (t : Tree Leaf) (h : AllLeaves P t) : AllLeaves P (expand t) := by
  have hc : ∀ {s r : Tree Leaf}, AllLeaves P s → AllLeaves P r → ∀ k, AllLeaves P (copies s r k) := by
    intro s r hs hr k
    induction k with
    | zero => exact hr
    | succ k ih => exact ⟨hs, ih⟩
  have ho : ∀ {ng : Bool} {s : Tree Leaf}, AllLeaves P s → ∀ k, AllLeaves P (optional ng s k) := by
    intro ng s hs k
    induction k with
    | zero => exact hs
    | succ k ih => exact ⟨hs, ih⟩
  induction t with
  | leaf a => exact h
  | look k t => exact h
  | alt l r ihl ihr => exact ⟨ihl h.1, ihr h.2⟩
  | cat l r ihl ihr => exact ⟨ihl h.1, ihr h.2⟩
  | rep ng m M t ih =>
    have ih := ih h
    show AllLeaves P (expandRep ng m M (expand t))
    unfold expandRep
    split
    · exact ih
    · split
      · exact hc ih ih _
      · split
        · exact hc ih (r := .rep ng 1 UNB _) ih _
        · exact hc ih (ho ih _) _

theorem expand_noLook (t : Tree Leaf) (h : NoLook t) : NoLook (expand t) := by
  have hc : ∀ {s r : Tree Leaf}, NoLook s → NoLook r → ∀ k, NoLook (copies s r k) := by
    intro s r hs hr k
    induction k with
    | zero => exact hr
    | succ k ih => exact ⟨hs, ih⟩
  have ho : ∀ {ng : Bool} {s : Tree Leaf}, NoLook s → ∀ k, NoLook (optional ng s k) := by
    intro ng s hs k
    induction k with
    | zero => exact hs
    | succ k ih => exact ⟨hs, ih⟩
  induction t with
  | leaf a => exact h
  | look k t => exact h
  | alt l r ihl ihr => exact ⟨ihl h.1, ihr h.2⟩
  | cat l r ihl ihr => exact ⟨ihl h.1, ihr h.2⟩
  | rep ng m M t ih =>
    have ih := ih h
    show NoLook (expandRep ng m M (expand t))
    unfold expandRep
    split
    · exact ih
    · split
      · exact hc ih ih _
      · split
        · exact hc ih (r := .rep ng 1 UNB _) ih _
        · exact hc ih (ho ih _) _

theorem expand_ok (t : Tree Leaf) (h : Ok t) : Ok (expand t) := by
  have hc : ∀ {s r : Tree Leaf}, Ok s → Ok r → ∀ k, Ok (copies s r k) := by
    intro s r hs hr k
    induction k with
    | zero => exact hr
    | succ k ih => exact ⟨hs, ih⟩
  have ho : ∀ {ng : Bool} {s : Tree Leaf}, Ok s → ∀ k, Ok (optional ng s k) := by
    intro ng s hs k
    have b : (0 : Nat) ≤ 1 ∧ 1 ≤ UNB ∧ 0 < UNB := by simp [UNB]
    induction k with
    | zero => exact ⟨b.1, b.2.1, b.2.2, hs⟩
    | succ k ih => exact ⟨b.1, b.2.1, b.2.2, hs, ih⟩
  induction t with
  | leaf a => exact h
  | look k t => exact h
  | alt l r ihl ihr => exact ⟨ihl h.1, ihr h.2⟩
  | cat l r ihl ihr => exact ⟨ihl h.1, ihr h.2⟩
  | rep ng m M t ih =>
    have ih := ih h.2.2.2
    show Ok (expandRep ng m M (expand t))
    unfold expandRep
    split
    · exact ⟨h.1, h.2.1, h.2.2.1, ih⟩
    · split
      · exact hc ih ih _
      · split
        · exact hc ih (r := .rep ng 1 UNB _) ⟨by simp [UNB], Nat.le_refl _, by simp [UNB], ih⟩ _
        · exact hc ih (ho ih _) _

theorem expand_orders (sem : Leaf → Language UInt8) (t : Tree Leaf) (hok : Ok t) (hd : NoDead t) (hn : NoLook t) :
    (Last sem t → Last sem (expand t)) ∧ (Calm sem t → Calm sem (expand t)) ∧ (Tail sem t → Tail sem (expand t)) := by
  induction t with
  | leaf a => exact ⟨id, id, id⟩
  | look k t => exact hn.elim
  | alt l r ihl ihr =>
    have il := ihl hok.1 hd.1 hn.1
    have ir := ihr hok.2 hd.2 hn.2
    refine ⟨fun h => ⟨?_, ir.1 h.2⟩, fun h => ⟨il.2.1 h.1, ir.2.1 h.2⟩, fun h => ⟨il.2.2 h.1, ir.2.2 h.2⟩⟩
    rw [expand_lang sem l hok.1 hd.1]
    exact h.1
  | cat l r ihl ihr =>
    have il := ihl hok.1 hd.1 hn.1
    have ir := ihr hok.2 hd.2 hn.2
    have el := expand_lang sem l hok.1 hd.1
    have er := expand_lang sem r hok.2 hd.2
    refine ⟨fun h h1 h2 => ?_, fun h => ⟨il.2.1 h.1, ir.2.1 h.2⟩, fun h => ⟨ir.2.2 h.1, fun h2 => ?_⟩⟩
    · rw [el] at h1
      rw [er] at h2
      have := h h1 h2
      exact ⟨il.1 this.1, ir.1 this.2⟩
    · rw [er] at h2
      have := h.2 h2
      exact ⟨il.2.2 this.1, ir.1 this.2⟩
  | rep ng m M t ih =>
    have it := ih hok.2.2.2 hd.2 hn
    have et := expand_lang sem t hok.2.2.2 hd.2
    have hn' := expand_noLook t hn
    have hok' := expand_ok t hok.2.2.2
    refine ⟨fun h => expandRep_last hn' hok' hok.2.2.1 ⟨h.1, fun h1 => ?_⟩, fun h => expandRep_calm ⟨it.2.1 h.1, fun a b h1 => ?_⟩,
      fun h => expandRep_tail hn' hok' ⟨h.1, it.2.2 h.2.1, fun h1 => ?_⟩⟩
    · rw [et] at h1
      exact ⟨(h.2 h1).1, it.1 (h.2 h1).2⟩
    · rw [et] at h1
      exact it.1 (h.2 a b h1)
    · rw [et] at h1
      exact it.1 (h.2.2 h1)

/-! ## The finished automaton -/

/-- What is left after the ways of going on from `v`, the preferred first: along the edges in
their order, and only then stopping. -/
def follow (g : Graph) : List UInt8 → Nat → List (List UInt8)
  | [], v => if (g.v v).isMatch then [[]] else []
  | b :: w, v => ((g.v v).out.flatMap fun u => if (g.v u).bytes.has b then follow g w u else []) ++
      if (g.v v).isMatch then [b :: w] else []

theorem build_follow (hs : ∀ a, Splits (leaf a) (leafSem a)) (label : Nat) (t : Tree Leaf) (hok : Ok t) (hn : NoLook t)
    (hd : NoDead t) (hl : LeavesOk t) (h1 : AllLeaves OneWay t) (hc : Calm leafSem t) (ht : Tail leafSem t) {g : Graph}
    (h : build label (some t) = .good g) : ∀ w, Same (follow g w 0) (rests leaf t w) := by
  unfold build at h
  dsimp only at h
  cases hf : fragment Graph.init (expand t) with
  | none => rw [hf] at h; cases h
  | some r =>
    rw [hf] at h
    dsimp only at h
    have hnm := expand_named t hn
    have hlv := expand_leavesOk t hl
    have hg := fragment_good _ _ _ hnm hlv hf
    obtain ⟨x1, x2, x3⟩ := expand_orders leafSem t hok hd hn
    obtain ⟨f1, f2, f3, f4⟩ := fragment_leaves hs _ _ _ hnm hlv (expand_all t h1) (x2 hc) hf
    have f3 := f3 (x3 ht)
    rw [expand_rests t hok hd] at f4
    have hin : Graph.init.n = 1 := rfl
    have hv0 : r.1.v 0 = {} := by rw [hg.old 0 (by rw [hin]; omega)]; rfl
    obtain ⟨ha, hm⟩ := patchMid_added r.2.ins r.2.skip [(0, 0)] r.1
    have hout := patchMid_out r.2.ins r.2.skip [(0, 0)] r.1 (by simp) (by simp)
    unfold finish at h
    obtain ⟨c, hcc⟩ : ∃ c, c = concatenate r.1 { ins := [0], outs := [(0, 0)], skip := none } r.2 := ⟨_, rfl⟩
    have hc1 : c.1 = (patchMid r.1 r.2.ins r.2.skip [(0, 0)]).1 := by rw [hcc]; rfl
    rw [← hc1] at ha hout
    dsimp only at h
    rw [← hcc] at h
    have hnone : r.2.skip = none := by
      cases hk : r.2.skip with
      | none => rfl
      | some k =>
        have ho : c.2.outs = (patchMid r.1 r.2.ins r.2.skip [(0, 0)]).2 ++ r.2.outs := by
          rw [hcc]; simp only [concatenate, hk]
        have hmem : 0 ∈ c.2.outs.map (·.1) := by rw [ho, List.map_append, hm]; simp
        obtain ⟨p, hp, hp0⟩ := List.mem_map.1 hmem
        rw [if_pos (List.any_eq_true.2 ⟨p, hp, by simpa using hp0⟩)] at h
        cases h
    have ho : c.2.outs = r.2.outs := by rw [hcc]; simp only [concatenate, hnone]
    split at h
    · cases h
    · cases h
      obtain ⟨m1, m2, m3, m4⟩ := mark_spec label c.2.outs c.1
      obtain ⟨G, hG⟩ : ∃ G, G = mark c.1 label c.2.outs := ⟨_, rfl⟩
      rw [← hG] at m1 m2 m3 m4 ⊢
      rw [ho] at m3 m4
      have h0n : 0 ∉ r.2.outs.map (·.1) := fun h => by have := hg.outs 0 h; omega
      have hm0 : (G.v 0).isMatch = false := by rw [m4 0 h0n, ha.isMatch, hv0]
      have ho0 : (G.v 0).out = r.2.ins := by
        rw [(m2 0).2, hout 0]
        simp [exits, hv0]
      have hou : ∀ a, a ≠ 0 → (G.v a).out = (r.1.v a).out := by
        intro a ha0
        rw [(m2 a).2, hout a]
        have : exits [(0, 0)] a = none := exits_none (by simpa using ha0)
        rw [this]
      have hby : ∀ a, (G.v a).bytes = (r.1.v a).bytes := fun a => by rw [(m2 a).1, ha.bytes]
      have key : ∀ (w : List UInt8) (b : UInt8) (u : Nat), 1 ≤ u → u < r.1.n →
          enter r.1 (exits r.2.outs) (b :: w) u = if (G.v u).bytes.has b then follow G w u else [] := by
        intro w
        induction w with
        | nil =>
          intro b u h1 h2
          rw [enter, hby u, follow]
          by_cases hu : u ∈ r.2.outs.map (·.1)
          · obtain ⟨p, hp, rfl⟩ := List.mem_map.1 hu
            rw [f1.at hp, (m3 _ hu).1]
            have e : ∀ l : List Nat, (l.flatMap fun x => enter r.1 (exits r.2.outs) [] x) = [] := by
              intro l; simp [enter]
            simp only [around, e]
            rfl
          · rw [exits_none hu, m4 u hu, ha.isMatch, hg.fresh u h1 h2]
            simp [around, enter]
        | cons c w ih =>
          intro b u h1 h2
          rw [enter, hby u, follow, hou u (by omega)]
          have e : ((r.1.v u).out.flatMap fun x => enter r.1 (exits r.2.outs) (c :: w) x) =
              ((r.1.v u).out.flatMap fun x => if (G.v x).bytes.has c then follow G w x else []) :=
            List.flatMap_congr fun x hx => by
              have := hg.edges u h1 h2 x hx
              exact ih c x this.1 this.2
          by_cases hu : u ∈ r.2.outs.map (·.1)
          · obtain ⟨p, hp, rfl⟩ := List.mem_map.1 hu
            rw [f1.at hp, (m3 _ hu).1, f3 p hp]
            simp only [around, List.take_length, List.drop_length, List.flatMap_nil, List.append_nil, if_true]
            rw [e]
          · rw [exits_none hu, m4 u hu, ha.isMatch, hg.fresh u h1 h2]
            simp only [around, Bool.false_eq_true, if_false, List.append_nil]
            rw [e]
      intro w
      refine Same.trans ?_ (f4 w)
      have : follow G w 0 = leaves r.1 r.2 w := by
        unfold leaves
        rw [hnone]
        cases w with
        | nil => simp [follow, hm0, around, enter]
        | cons b w =>
          rw [follow, hm0, ho0]
          simp only [around, Bool.false_eq_true, if_false, List.append_nil]
          exact List.flatMap_congr fun x hx => by
            have := hg.ins x hx
            exact (key w b x this.1 this.2).symm
      rw [this]
      exact Same.refl _

/-! ## Ways through the automaton -/

/-- The states `p` read `w` from `v` on and end in `t`. -/
inductive Steps (g : Graph) : Nat → List Nat → List UInt8 → Nat → Prop
  | stop {v} : Steps g v [] [] v
  | go {v u b p w t} : u ∈ (g.v v).out → (g.v u).bytes.has b = true → Steps g u p w t → Steps g v (u :: p) (b :: w) t

theorem Steps.snoc {g : Graph} {v t u : Nat} {b : UInt8} {p : List Nat} {w : List UInt8} (h : Steps g v p w t)
    (hu : u ∈ (g.v t).out) (hb : (g.v u).bytes.has b = true) : Steps g v (p ++ [u]) (w ++ [b]) u := by
  induction h with
  | stop => exact .go hu hb .stop
  | go a b _ ih => exact .go a b (ih hu)

theorem steps_of_way {g : Graph} {p w v lab} (h : Compiler.Way g p w v lab) : Steps g 0 p w v := by
  induction h with
  | init => exact .stop
  | step _ hu hb ih => exact ih.snoc hu hb

theorem way_of_steps {g : Graph} {v t p w} (h : Steps g v p w t) : ∀ {p0 w0 lab}, Compiler.Way g p0 w0 v lab →
    ∃ lab', Compiler.Way g (p0 ++ p) (w0 ++ w) t lab' := by
  induction h with
  | stop => intro p0 w0 lab h; exact ⟨lab, by simpa using h⟩
  | go hu hb _ ih =>
    intro p0 w0 lab h
    obtain ⟨lab', h'⟩ := ih (h.step hu hb)
    exact ⟨lab', by simpa using h'⟩

/-- `Prefer` for ways from any state. -/
def PreferFrom (g : Graph) (v : Nat) (p q : List Nat) : Prop :=
  (∃ u r, p = q ++ u :: r) ∨
  ∃ c u r u' r', p = c ++ u :: r ∧ q = c ++ u' :: r' ∧ Compiler.Earlier (g.v (c.getLast?.getD v)).out u u'

theorem PreferFrom.cons {g : Graph} {v u : Nat} {p q : List Nat} (h : PreferFrom g u p q) :
    PreferFrom g v (u :: p) (u :: q) := by
  rcases h with ⟨x, r, rfl⟩ | ⟨c, x, r, x', r', rfl, rfl, h⟩
  · exact .inl ⟨x, r, rfl⟩
  · refine .inr ⟨u :: c, x, r, x', r', rfl, rfl, ?_⟩
    have : (u :: c).getLast?.getD v = c.getLast?.getD u := by
      cases c with
      | nil => rfl
      | cons y c => simp [List.getLast?_cons]
    rw [this]
    exact h

/-- The first of the ways, and that there is none. -/
theorem follow_best (g : Graph) (w : List UInt8) : ∀ v,
    (follow g w v = [] → ∀ p u t, Steps g v p u t → u <+: w → (g.v t).isMatch = false) ∧
    ∀ x l, follow g w v = x :: l → ∃ p u t, Steps g v p u t ∧ w = u ++ x ∧ (g.v t).isMatch = true ∧
      ∀ q u' t', Steps g v q u' t' → u' <+: w → (g.v t').isMatch = true → q = p ∨ PreferFrom g v p q := by
  induction w with
  | nil =>
    intro v
    rw [follow]
    have hnil : ∀ {p u t}, Steps g v p u t → u <+: [] → p = [] ∧ t = v := by
      intro p u t hs hu
      have := List.prefix_nil.1 hu
      subst this
      cases hs
      exact ⟨rfl, rfl⟩
    constructor
    · intro h p u t hs hu
      obtain ⟨-, rfl⟩ := hnil hs hu
      by_contra hc
      rw [if_pos (by simpa using hc)] at h
      cases h
    · intro x l h
      split at h
      · next hm =>
        cases h
        exact ⟨[], [], v, .stop, rfl, hm, fun q u' t' hs hu _ => .inl (hnil hs hu).1⟩
      · cases h
  | cons b w ih =>
    intro v
    rw [follow]
    -- ways that go on
    have hgo : ∀ {q u' t'}, Steps g v q u' t' → u' <+: b :: w → q = [] ∧ t' = v ∨
        ∃ u q' u'', q = u :: q' ∧ u ∈ (g.v v).out ∧ (g.v u).bytes.has b = true ∧ Steps g u q' u'' t' ∧ u'' <+: w := by
      intro q u' t' hs hu
      cases hs with
      | stop => exact .inl ⟨rfl, rfl⟩
      | go h1 h2 h3 =>
        rw [List.cons_prefix_cons] at hu
        obtain ⟨rfl, hu⟩ := hu
        exact .inr ⟨_, _, _, rfl, h1, h2, h3, hu⟩
    obtain ⟨out, hout⟩ : ∃ out, out = (g.v v).out := ⟨_, rfl⟩
    rw [← hout] at hgo ⊢
    -- the first edge that leads somewhere
    have hfirst : ∀ l : List Nat, (l.flatMap fun u => if (g.v u).bytes.has b then follow g w u else []) = [] ∨
        ∃ a u c, l = a ++ u :: c ∧ (∀ y ∈ a, (g.v y).bytes.has b = true → follow g w y = []) ∧
          (g.v u).bytes.has b = true ∧ follow g w u ≠ [] ∧
          ∃ z, (l.flatMap fun u => if (g.v u).bytes.has b then follow g w u else []) = follow g w u ++ z := by
      intro l
      induction l with
      | nil => exact .inl rfl
      | cons y l ihl =>
        rw [List.flatMap_cons]
        by_cases hy : (g.v y).bytes.has b = true ∧ follow g w y ≠ []
        · exact .inr ⟨[], y, l, rfl, by simp, hy.1, hy.2, _, by rw [if_pos hy.1]⟩
        · have hy0 : (if (g.v y).bytes.has b then follow g w y else []) = [] := by
            split
            · next hb => by_contra hne; exact hy ⟨hb, hne⟩
            · rfl
          rw [hy0, List.nil_append]
          rcases ihl with h | ⟨a, u, c, h1, h2, h3, h4, h5⟩
          · exact .inl h
          · refine .inr ⟨y :: a, u, c, by rw [h1]; rfl, ?_, h3, h4, h5⟩
            intro y' hy' hb'
            rcases List.mem_cons.1 hy' with rfl | hy'
            · rw [if_pos hb'] at hy0; exact hy0
            · exact h2 y' hy' hb'
    rcases hfirst out with hnone | ⟨a, u, c, h1, h2, h3, h4, z, h5⟩
    · rw [hnone, List.nil_append]
      have hno : ∀ u ∈ out, (g.v u).bytes.has b = true → follow g w u = [] := by
        intro u hu hb
        have := (List.flatMap_eq_nil_iff.1 hnone) u hu
        rwa [if_pos hb] at this
      constructor
      · intro h p u t hs hu
        rcases hgo hs hu with ⟨-, rfl⟩ | ⟨x, q', u'', rfl, hx, hxb, hst, hpre⟩
        · by_contra hc
          rw [if_pos (by simpa using hc)] at h
          cases h
        · exact (ih x).1 (hno x hx hxb) q' u'' t hst hpre
      · intro x l h
        split at h
        · next hm =>
          cases h
          refine ⟨[], [], v, .stop, rfl, hm, fun q u' t' hs hu hmt => ?_⟩
          rcases hgo hs hu with ⟨rfl, -⟩ | ⟨x, q', u'', rfl, hx, hxb, hst, hpre⟩
          · exact .inl rfl
          · rw [(ih x).1 (hno x hx hxb) q' u'' t' hst hpre] at hmt
            cases hmt
        · cases h
    · rw [h5]
      constructor
      · intro h
        exact absurd (List.append_eq_nil_iff.1 (List.append_eq_nil_iff.1 h).1).1 h4
      · intro x l h
        obtain ⟨y, l', hy⟩ := List.exists_cons_of_ne_nil h4
        have hxy : y = x := by
          rw [hy] at h
          simpa using (List.cons.inj h).1
        subst hxy
        obtain ⟨p, s, t, e1, e2, e3, e4⟩ := (ih u).2 y l' hy
        refine ⟨u :: p, b :: s, t, .go (by rw [← hout, h1]; simp) h3 e1, by rw [e2]; rfl, e3, fun q u' t' hs hu hmt => ?_⟩
        rcases hgo hs hu with ⟨rfl, -⟩ | ⟨x', q', u'', rfl, hx, hxb, hst, hpre⟩
        · exact .inr (.inl ⟨u, p, rfl⟩)
        · by_cases hxu : x' = u
          · subst hxu
            rcases e4 q' u'' t' hst hpre hmt with rfl | hpf
            · exact .inl rfl
            · exact .inr hpf.cons
          · right
            right
            refine ⟨[], u, p, x', q', rfl, rfl, ?_⟩
            show Compiler.Earlier (g.v v).out u x'
            rw [← hout, h1]
            have hxa : x' ∉ a := by
              intro hxa
              rw [(ih x').1 (h2 x' hxa hxb) q' u'' t' hst hpre] at hmt
              cases hmt
            rw [h1] at hx
            have hxc : x' ∈ c := by
              rcases List.mem_append.1 hx with h | h
              · exact absurd h hxa
              · rcases List.mem_cons.1 h with h | h
                · exact absurd h hxu
                · exact h
            obtain ⟨c1, c2, hc12, hnc⟩ := List.eq_append_cons_of_mem hxc
            refine ⟨a ++ u :: c1, c2, by rw [hc12]; simp, by simp, ?_⟩
            simp [hxa, hxu, hnc]

/-! ## C73 -/

/-- What is reported in the stream `buf` (starting at offset `off`) from `m` on, if `first`
says what is left after the match to take at the beginning of some data: the leftmost place
where there is a match, the end of the match taken there, and then what is reported from that
end on. -/
def Reports (first : List UInt8 → Option (List UInt8)) (off : Nat) (buf : List UInt8) : Nat → List (Nat × Nat) → Prop
  | m, [] => ∀ s, m ≤ s → off ≤ s → s ≤ off + buf.length → first (buf.drop (s - off)) = none
  | m, (s, e) :: hs => m ≤ s ∧ off ≤ s ∧ s < e ∧ e ≤ off + buf.length ∧
      first (buf.drop (s - off)) = some (buf.drop (e - off)) ∧
      (∀ s', m ≤ s' → off ≤ s' → s' < s → first (buf.drop (s' - off)) = none) ∧
      Reports first off buf e hs

theorem reports_congr {first first' : List UInt8 → Option (List UInt8)} (h : ∀ w, first w = first' w) {off : Nat}
    {buf : List UInt8} : ∀ {m hs}, Reports first off buf m hs ↔ Reports first' off buf m hs := by
  have : first = first' := funext h
  rw [this]
  intro m hs
  exact Iff.rfl

theorem steps_length {g : Graph} {v t p w} (h : Steps g v p w t) : w.length = p.length := by
  induction h with
  | stop => rfl
  | go _ _ _ ih => simp [ih]

theorem wayAt_iff {g : Graph} {l : Nat} (hl : OneLabel g l) {off : Nat} {buf : List UInt8} {s e : Nat} {p : List Nat} :
    Compiler.WayAt g off buf l s e p ↔ off ≤ s ∧ s < e ∧ e ≤ off + buf.length ∧
      ∃ t, Steps g 0 p ((buf.drop (s - off)).take (e - s)) t ∧ (g.v t).isMatch = true := by
  constructor
  · rintro ⟨a, b, c, v, hw, hm⟩
    exact ⟨a, b, c, v, steps_of_way hw, hm⟩
  · rintro ⟨a, b, c, v, hw, hm⟩
    obtain ⟨lab, hw⟩ := way_of_steps hw .init
    simp only [List.nil_append] at hw
    refine ⟨a, b, c, v, ?_, hm⟩
    generalize (buf.drop (s - off)).take (e - s) = y at hw
    cases hw with
    | init => rw [hl.root] at hm; cases hm
    | @step p w x lab u b h1 hu hb =>
      have := h1.step hu hb
      rw [hl.matches_ _ hm] at this
      exact this

/-- The ways an automaton prefers, by computing. -/
theorem preferred_iff_follow {g : Graph} {l : Nat} (hl : OneLabel g l) {off : Nat} {buf : List UInt8} : ∀ {hs m},
    Compiler.Preferred g off buf l m hs ↔ Reports (fun w => (follow g w 0).head?) off buf m hs := by
  -- no match
  have hnone : ∀ {s}, off ≤ s → s ≤ off + buf.length →
      ((follow g (buf.drop (s - off)) 0).head? = none ↔ ∀ e p, ¬ Compiler.WayAt g off buf l s e p) := by
    intro s h1 h2
    rw [List.head?_eq_none_iff]
    constructor
    · intro h e p hw
      obtain ⟨-, -, -, t, hst, hm⟩ := (wayAt_iff hl).1 hw
      rw [(follow_best g _ 0).1 h p _ t hst (List.take_prefix _ _)] at hm
      cases hm
    · intro h
      by_contra hne
      obtain ⟨x, l', hx⟩ := List.exists_cons_of_ne_nil hne
      obtain ⟨p, u, t, hst, e, hm, -⟩ := (follow_best g _ 0).2 x l' hx
      have hu0 : u ≠ [] := by
        rintro rfl
        cases hst
        rw [hl.root] at hm
        cases hm
      have hlen := congrArg List.length e
      simp only [List.length_drop, List.length_append] at hlen
      have hpos := List.length_pos_of_ne_nil hu0
      refine h (s + u.length) p ((wayAt_iff hl).2 ⟨h1, by omega, by omega, t, ?_, hm⟩)
      have : (buf.drop (s - off)).take (s + u.length - s) = u := by
        rw [e, Nat.add_sub_cancel_left, List.take_left]
      rw [this]
      exact hst
  -- the best match
  have hbest : ∀ {s x}, off ≤ s → s ≤ off + buf.length → (follow g (buf.drop (s - off)) 0).head? = some x →
      ∃ p e, Compiler.WayAt g off buf l s e p ∧ x = buf.drop (e - off) ∧
        ∀ e' q, Compiler.WayAt g off buf l s e' q → q = p ∨ Compiler.Prefer g p q := by
    intro s x h1 h2 h
    cases hf : follow g (buf.drop (s - off)) 0 with
    | nil => rw [hf] at h; cases h
    | cons y l' =>
      rw [hf] at h
      cases h
      obtain ⟨p, u, t, hst, e, hm, hb⟩ := (follow_best g _ 0).2 x l' hf
      have hu0 : u ≠ [] := by
        rintro rfl
        cases hst
        rw [hl.root] at hm
        cases hm
      have hlen := congrArg List.length e
      simp only [List.length_drop, List.length_append] at hlen
      have hpos := List.length_pos_of_ne_nil hu0
      refine ⟨p, s + u.length, (wayAt_iff hl).2 ⟨h1, by omega, by omega, t, ?_, hm⟩, ?_, ?_⟩
      · have : (buf.drop (s - off)).take (s + u.length - s) = u := by
          rw [e, Nat.add_sub_cancel_left, List.take_left]
        rw [this]
        exact hst
      · have e2 : s + u.length - off = (s - off) + u.length := by omega
        rw [e2, ← List.drop_drop, e, List.drop_left]
      · intro e' q hq
        obtain ⟨-, -, -, t', hst', hm'⟩ := (wayAt_iff hl).1 hq
        exact hb q _ t' hst' (List.take_prefix _ _) hm'
  have hlen : ∀ {s e p}, Compiler.WayAt g off buf l s e p → e = s + p.length := by
    rintro s e p hw
    obtain ⟨a, b, c, t, hst, -⟩ := (wayAt_iff hl).1 hw
    have := steps_length hst
    simp only [List.length_take, List.length_drop] at this
    omega
  intro hs
  induction hs with
  | nil =>
    intro m
    constructor
    · intro h s h1 h2 h3
      rw [hnone h2 h3]
      intro e p hw
      have := h s e p hw
      omega
    · intro h s e p hw
      by_contra hc
      have hw' := hw
      obtain ⟨a, b, c, -⟩ := hw
      exact (hnone a (by omega)).1 (h s (by omega) a (by omega)) e p hw'
  | cons x hs ih =>
    obtain ⟨s, e⟩ := x
    intro m
    simp only [Compiler.Preferred, Reports, ih]
    constructor
    · rintro ⟨h1, ⟨p, hw, hb⟩, h3⟩
      have hw' := hw
      obtain ⟨a, b, c, -⟩ := hw'
      refine ⟨h1, a, b, c, ?_, ?_, h3⟩
      · cases hf : (follow g (buf.drop (s - off)) 0).head? with
        | none => exact absurd hw ((hnone a (by omega)).1 hf e p)
        | some x =>
          obtain ⟨p', e', hw', hx, hb'⟩ := hbest a (by omega) hf
          have hpp : p' = p := by
            rcases hb' e p hw with h | h
            · exact h.symm
            · rcases hb s e' p' hw' h1 with h' | ⟨-, h' | h'⟩
              · omega
              · exact h'
              · exact (prefer_asymm' h h').elim
          subst hpp
          rw [hx, hlen hw', ← hlen hw]
      · intro s' q1 q2 q3
        rw [hnone q2 (by omega)]
        intro e' q hq
        rcases hb s' e' q hq q1 with h | ⟨h, -⟩ <;> omega
    · rintro ⟨h1, a, b, c, h2, h3, h4⟩
      refine ⟨h1, ?_, h4⟩
      obtain ⟨p, e', hw, hx, hb⟩ := hbest a (by omega) h2
      have hee : e' = e := by
        obtain ⟨-, b', c', -⟩ := hw
        have := congrArg List.length hx
        simp only [List.length_drop] at this
        omega
      subst hee
      refine ⟨p, hw, fun s' e'' q hq hms => ?_⟩
      rcases Nat.lt_trichotomy s s' with hlt | heq | hgt
      · exact .inl hlt
      · subst heq
        exact .inr ⟨rfl, hb e'' q hq⟩
      · have hq' := hq
        obtain ⟨a', -⟩ := hq'
        exact absurd hq ((hnone a' (by omega)).1 (h3 s' hms a' hgt) e'' q)

/-- **C73.** The automaton built for a pattern prefers, in every stream and from every offset
on, exactly the matches a backtracking matcher finds first, under three conditions: no string
of a leaf begins another string of it; what is repeated greedily without bound tries to match
nothing last; and wherever a match can end, the pattern tries to go on before. -/
theorem built_prefers (leaf : Leaf → List UInt8 → List (List UInt8)) (hs : ∀ a, Splits (leaf a) (leafSem a)) (label : Nat)
    (t : Tree Leaf) (hok : Ok t) (hn : NoLook t) (hd : NoDead t) (hl : LeavesOk t) (h1 : AllLeaves OneWay t)
    (hc : Calm leafSem t) (ht : Tail leafSem t) {g : Graph} (h : build label (some t) = .good g) (off : Nat)
    (buf : List UInt8) (m : Nat) (hits : List (Nat × Nat)) :
    Compiler.Preferred g off buf label m hits ↔ Reports (preferred leaf t) off buf m hits := by
  rw [preferred_iff_follow (build_pattern label t hn hl g h).toOneLabel]
  exact reports_congr fun w => (build_follow hs label t hok hn hd hl h1 hc ht h w).head

/-- **C73** after pruning. -/
theorem pruned_prefers (leaf : Leaf → List UInt8 → List (List UInt8)) (hs : ∀ a, Splits (leaf a) (leafSem a)) (label : Nat)
    (t : Tree Leaf) (hok : Ok t) (hn : NoLook t) (hd : NoDead t) (hl : LeavesOk t) (h1 : AllLeaves OneWay t)
    (hc : Calm leafSem t) (ht : Tail leafSem t) {g g' : Graph} (h : build label (some t) = .good g) {fuel : Nat}
    (hp : pruneBranches fuel g = some g') (off : Nat) (buf : List UInt8) (m : Nat) (hits : List (Nat × Nat)) :
    Compiler.Preferred g' off buf label m hits ↔ Reports (preferred leaf t) off buf m hits := by
  have hpat := build_pattern label t hn hl g h
  rw [← prune_preferred hpat.toOneLabel hpat.bal hp]
  exact built_prefers leaf hs label t hok hn hd hl h1 hc ht h off buf m hits

/-! ## Leaves, computed -/

/-- The string fits the sequence of byte sets. -/
def fitsB : List BSet → List UInt8 → Bool
  | [], [] => true
  | s :: e, b :: w => s.has b && fitsB e w
  | _, _ => false

theorem fitsB_iff (e : List BSet) : ∀ w, fitsB e w = true ↔ Fits e w := by
  induction e with
  | nil =>
    intro w
    cases w with
    | nil => exact ⟨fun _ => .nil, fun _ => rfl⟩
    | cons b w => exact ⟨fun h => (by cases h), fun h => (by cases h)⟩
  | cons s e ih =>
    intro w
    cases w with
    | nil => exact ⟨fun h => (by cases h), fun h => (by cases h)⟩
    | cons b w =>
      simp only [fitsB, Bool.and_eq_true, ih]
      exact ⟨fun h => .cons h.1 h.2, fun h => by cases h with | cons a b => exact ⟨a, b⟩⟩

def oneOf (s : BSet) : List UInt8 → Bool
  | [b] => s.has b
  | _ => false

theorem oneOf_iff (s : BSet) (w : List UInt8) : oneOf s w = true ↔ ∃ b, s.has b = true ∧ w = [b] := by
  constructor
  · intro h
    unfold oneOf at h
    split at h
    · next b => exact ⟨b, h, rfl⟩
    · cases h
  · rintro ⟨b, h, rfl⟩
    exact h

/-- The string is one of the leaf's. -/
def leafHas : Leaf → List UInt8 → Bool
  | .lit bs, w => w == bs
  | .cls encs brk true, w => encs.any (fitsB · w) || oneOf brk w
  | .cls encs brk false, w => encs.any (fitsB · w) && !oneOf brk w

theorem leafHas_iff (a : Leaf) (w : List UInt8) : leafHas a w = true ↔ w ∈ leafSem a := by
  have key : ∀ encs : List (List BSet), encs.any (fitsB · w) = true ↔ ∃ e ∈ encs, Fits e w := by
    intro encs
    rw [List.any_eq_true]
    exact exists_congr fun e => and_congr_right fun _ => fitsB_iff e w
  cases a with
  | lit bs => exact beq_iff_eq
  | cls encs brk additive =>
    cases additive with
    | true =>
      show (encs.any (fitsB · w) || oneOf brk w) = true ↔ (∃ e ∈ encs, Fits e w) ∨ ∃ b, brk.has b = true ∧ w = [b]
      rw [Bool.or_eq_true, key, oneOf_iff]
    | false =>
      show (encs.any (fitsB · w) && !oneOf brk w) = true ↔ (∃ e ∈ encs, Fits e w) ∧ ¬ ∃ b, brk.has b = true ∧ w = [b]
      rw [Bool.and_eq_true, key, ← oneOf_iff]
      simp

/-- What is left after a string of the leaf, the shortest string first. -/
def leafRests (a : Leaf) (w : List UInt8) : List (List UInt8) :=
  ((List.range (w.length + 1)).filter fun n => leafHas a (w.take n)).map fun n => w.drop n

theorem leafRests_splits (a : Leaf) : Splits (leafRests a) (leafSem a) := by
  intro w r
  simp only [leafRests, List.mem_map, List.mem_filter, List.mem_range, leafHas_iff]
  constructor
  · rintro ⟨n, ⟨-, h⟩, rfl⟩
    exact ⟨w.take n, h, (List.take_append_drop n w).symm⟩
  · rintro ⟨u, hu, rfl⟩
    exact ⟨u.length, ⟨by simp; omega, by simpa using hu⟩, by simp⟩

theorem oneWay_lit (bs : List UInt8) : OneWay (.lit bs) := by
  intro u hu v hv _
  have hu : u = bs := hu
  have hv : v = bs := hv
  rw [hu, hv]

/-- Classes all of whose strings have the same length. -/
theorem oneWay_cls {encs : List (List BSet)} (brk : BSet) {additive : Bool} {n : Nat} (h : ∀ e ∈ encs, e.length = n)
    (hb : additive = true → brk = 0 ∨ n = 1) : OneWay (.cls encs brk additive) := by
  have key : ∀ u, u ∈ leafSem (.cls encs brk additive) → u.length = n := by
    intro u hu
    cases additive with
    | true =>
      rcases hu with ⟨e, he, hf⟩ | ⟨b, hbb, rfl⟩
      · rw [← fits_length hf, h e he]
      · rcases hb rfl with rfl | rfl
        · rw [has_zero] at hbb; cases hbb
        · rfl
    | false =>
      obtain ⟨⟨e, he, hf⟩, -⟩ := hu
      rw [← fits_length hf, h e he]
  intro u hu v hv hp
  exact hp.eq_of_length (by rw [key u hu, key v hv])


/-! ## Examples -/

/-- `Reports`, computed. -/
def reportsB (first : List UInt8 → Option (List UInt8)) (off : Nat) (buf : List UInt8) : Nat → List (Nat × Nat) → Bool
  | m, [] => (List.range (off + buf.length + 1)).all fun s => s < m || s < off || first (buf.drop (s - off)) == none
  | m, (s, e) :: hs => m ≤ s && off ≤ s && s < e && e ≤ off + buf.length &&
      first (buf.drop (s - off)) == some (buf.drop (e - off)) &&
      (List.range s).all (fun s' => s' < m || s' < off || first (buf.drop (s' - off)) == none) &&
      reportsB first off buf e hs

theorem reports_of_B {first : List UInt8 → Option (List UInt8)} {off : Nat} {buf : List UInt8} : ∀ {hs m},
    reportsB first off buf m hs = true → Reports first off buf m hs := by
  intro hs
  induction hs with
  | nil =>
    intro m h s h1 h2 h3
    have := List.all_eq_true.1 h s (List.mem_range.2 (by omega))
    simp only [Bool.or_eq_true, decide_eq_true_eq, beq_iff_eq] at this
    rcases this with (h | h) | h
    · omega
    · omega
    · exact h
  | cons x hs ih =>
    obtain ⟨s, e⟩ := x
    intro m h
    simp only [reportsB, Bool.and_eq_true, decide_eq_true_eq, beq_iff_eq] at h
    obtain ⟨⟨⟨⟨⟨⟨h1, h2⟩, h3⟩, h4⟩, h5⟩, h6⟩, h7⟩ := h
    refine ⟨h1, h2, h3, h4, h5, fun s' q1 q2 q3 => ?_, ih h7⟩
    have := List.all_eq_true.1 h6 s' (List.mem_range.2 q3)
    simp only [Bool.or_eq_true, decide_eq_true_eq, beq_iff_eq] at this
    rcases this with (h | h) | h
    · omega
    · omega
    · exact h

private def lit1 (b : UInt8) : Tree Leaf := .leaf (.lit [b])

/-- `x(?:a|ab)*?c+`. -/
def lazyMiddle : Tree Leaf :=
  .cat (lit1 0x78) (.cat (.rep true 0 UNB (.alt (lit1 0x61) (.cat (lit1 0x61) (lit1 0x62)))) (.rep false 1 UNB (lit1 0x63)))

/-- Everything assumed holds of it. -/
theorem lazyMiddle_ok : Ok lazyMiddle ∧ NoLook lazyMiddle ∧ NoDead lazyMiddle ∧ LeavesOk lazyMiddle ∧ AllLeaves OneWay lazyMiddle ∧
    Calm leafSem lazyMiddle ∧ Tail leafSem lazyMiddle ∧ [] ∉ lang leafSem lazyMiddle := by
  have ok : ∀ b : UInt8, LeafOk (.lit [b]) := fun b h => (by cases h)
  have a1 : Ok lazyMiddle := by simp [lazyMiddle, lit1, Ok, UNB]
  have a2 : NoLook lazyMiddle := by simp [lazyMiddle, lit1, NoLook]
  have a3 : NoDead lazyMiddle := by simp [lazyMiddle, lit1, NoDead, UNB]
  have a4 : LeavesOk lazyMiddle := by simp [lazyMiddle, lit1, LeavesOk, AllLeaves, ok]
  have a5 : AllLeaves OneWay lazyMiddle := by simp [lazyMiddle, lit1, AllLeaves, oneWay_lit]
  have n1 : ∀ b : UInt8, [] ∉ lang leafSem (lit1 b) := fun b => leafSem_nonempty (ok b)
  have a6 : Calm leafSem lazyMiddle := by
    have := n1 0x63
    simp [lazyMiddle, Calm, lit1] at this ⊢
    exact fun h => absurd h this
  have a7 : Tail leafSem lazyMiddle := by
    have n2 : [] ∉ lang leafSem (.rep false 1 UNB (lit1 0x63)) := by
      rintro ⟨k, h1, -, h2⟩
      rcases nil_mem_pow.1 h2 with h | h
      · omega
      · exact n1 0x63 h
    refine ⟨⟨⟨.inl rfl, trivial, fun h => absurd h (n1 0x63)⟩, fun h => absurd h n2⟩, fun h => absurd h ?_⟩
    intro h
    exact n2 (nil_mem_mul.1 h).2
  refine ⟨a1, a2, a3, a4, a5, a6, a7, fun h => n1 0x78 (nil_mem_mul.1 h).1⟩

/-- It reports `xabacc` and `xc` in "xxabaccaxc". -/
example : ∃ g g', build 3 (some lazyMiddle) = .good g ∧ pruneBranches 60 g = some g' ∧
      Compiler.Preferred g' 5 [0x78, 0x78, 0x61, 0x62, 0x61, 0x63, 0x63, 0x61, 0x78, 0x63] 3 5 [(6, 12), (13, 15)] := by
  obtain ⟨a1, a2, a3, a4, a5, a6, a7, -⟩ := lazyMiddle_ok
  have h : (match build 3 (some lazyMiddle) with
    | .good g => (pruneBranches 60 g).isSome
    | _ => false) = true := by decide +kernel
  cases hb : build 3 (some lazyMiddle) with
  | threw => rw [hb] at h; cases h
  | empty => rw [hb] at h; cases h
  | good g =>
    rw [hb] at h
    obtain ⟨g', hp⟩ := Option.isSome_iff_exists.1 h
    refine ⟨g, g', rfl, hp, ?_⟩
    rw [pruned_prefers leafRests leafRests_splits 3 lazyMiddle a1 a2 a3 a4 a5 a6 a7 hb hp]
    exact reports_of_B (by decide +kernel)

/-- `a(?:b?|c)`. -/
def optionFirst : Tree Leaf := .cat (lit1 0x61) (.alt (.rep false 0 1 (lit1 0x62)) (lit1 0x63))

/-- Where a match can end before something that is tried later, the automaton goes on: for
`a(?:b?|c)` a backtracking matcher reports "a" in "ac", the automaton built prefers "ac". -/
theorem ends_reorder : ∃ g, build 0 (some optionFirst) = .good g ∧ Ok optionFirst ∧ NoLook optionFirst ∧
    NoDead optionFirst ∧ LeavesOk optionFirst ∧ AllLeaves OneWay optionFirst ∧ Calm leafSem optionFirst ∧
    Reports (preferred leafRests optionFirst) 0 [0x61, 0x63] 0 [(0, 1)] ∧
    Compiler.Preferred g 0 [0x61, 0x63] 0 0 [(0, 2)] := by
  have ok : ∀ b : UInt8, LeafOk (.lit [b]) := fun b h => (by cases h)
  have a2 : NoLook optionFirst := by simp [optionFirst, lit1, NoLook]
  have a4 : LeavesOk optionFirst := by simp [optionFirst, lit1, LeavesOk, AllLeaves, ok]
  have h : (match build 0 (some optionFirst) with
    | .good g => reportsB (fun w => (follow g w 0).head?) 0 [0x61, 0x63] 0 [(0, 2)]
    | _ => false) = true := by decide +kernel
  cases hb : build 0 (some optionFirst) with
  | threw => rw [hb] at h; cases h
  | empty => rw [hb] at h; cases h
  | good g =>
    rw [hb] at h
    refine ⟨g, rfl, ?_, a2, ?_, a4, ?_, ?_, reports_of_B (by decide +kernel), ?_⟩
    · simp [optionFirst, lit1, Ok, UNB]
    · simp [optionFirst, lit1, NoDead]
    · simp [optionFirst, lit1, AllLeaves, oneWay_lit]
    · simp [optionFirst, lit1, Calm, UNB]
    · rw [preferred_iff_follow (build_pattern 0 _ a2 a4 g hb).toOneLabel]
      exact reports_of_B h

/-- `(?:b|a??)*(?:aa|a)`. -/
def lazyLoop : Tree Leaf :=
  .cat (.rep false 0 UNB (.alt (lit1 0x62) (.rep true 0 1 (lit1 0x61)))) (.alt (.leaf (.lit [0x61, 0x61])) (lit1 0x61))

/-- Where what is repeated can match nothing before something that is tried later, the
automaton goes its own way: for `(?:b|a??)*(?:aa|a)` a backtracking matcher that gives up
empty rounds reports all of "aaa", the automaton built prefers "aa". -/
theorem rounds_reorder : ∃ g, build 0 (some lazyLoop) = .good g ∧ Ok lazyLoop ∧ NoLook lazyLoop ∧
    NoDead lazyLoop ∧ LeavesOk lazyLoop ∧ AllLeaves OneWay lazyLoop ∧ Tail leafSem lazyLoop ∧
    Reports (preferred leafRests lazyLoop) 0 [0x61, 0x61, 0x61] 0 [(0, 3)] ∧
    Compiler.Preferred g 0 [0x61, 0x61, 0x61] 0 0 [(0, 2), (2, 3)] := by
  have ok : ∀ b : UInt8, LeafOk (.lit [b]) := fun b h => (by cases h)
  have ok2 : LeafOk (.lit [0x61, 0x61]) := fun h => (by cases h)
  have a2 : NoLook lazyLoop := by simp [lazyLoop, lit1, NoLook]
  have a4 : LeavesOk lazyLoop := by simp [lazyLoop, lit1, LeavesOk, AllLeaves, ok, ok2]
  have h : (match build 0 (some lazyLoop) with
    | .good g => reportsB (fun w => (follow g w 0).head?) 0 [0x61, 0x61, 0x61] 0 [(0, 2), (2, 3)]
    | _ => false) = true := by decide +kernel
  cases hb : build 0 (some lazyLoop) with
  | threw => rw [hb] at h; cases h
  | empty => rw [hb] at h; cases h
  | good g =>
    rw [hb] at h
    refine ⟨g, rfl, ?_, a2, ?_, a4, ?_, ?_, reports_of_B (by decide +kernel), ?_⟩
    · simp [lazyLoop, lit1, Ok, UNB]
    · simp [lazyLoop, lit1, NoDead, UNB]
    · simp [lazyLoop, lit1, AllLeaves, oneWay_lit]
    · have e1 := leafSem_nonempty ok2
      have e2 := leafSem_nonempty (ok 0x61)
      refine ⟨⟨trivial, trivial⟩, fun hh => ?_⟩
      rcases hh with hh | hh
      · exact absurd hh e1
      · exact absurd hh e2
    · rw [preferred_iff_follow (build_pattern 0 _ a2 a4 g hb).toOneLabel]
      exact reports_of_B h

end Verif.NfaBuilder
