import Verif.BestPair
/-!
# C13: the byte-pair filter never rejects a match
-/
namespace Verif.BestPair
open Verif.Nfa

/-- There is a walk of `d` edges from the initial state to `v`. -/
inductive Walk (g : Graph) : Nat → Nat → Prop
  | zero : Walk g 0 0
  | step {d v u : Nat} : Walk g d v → u ∈ (g.v v).out → Walk g (d + 1) u

/-- Order of the heap. -/
def Lt (p q : Nat × Nat) : Prop := p.1 < q.1 ∨ (p.1 = q.1 ∧ p.2 < q.2)

theorem mem_emplace (d v : Nat) (ps : List (Nat × Nat)) (q : Nat × Nat) :
    q ∈ emplace d v ps ↔ q = (d, v) ∨ q ∈ ps := by
  induction ps with
  | nil => simp [emplace]
  | cons p ps ih =>
    obtain ⟨e, u⟩ := p
    unfold emplace
    split
    · simp
    · split
      · next h =>
        obtain ⟨rfl, rfl⟩ := h
        simp
      · simp only [List.mem_cons, ih]; tauto

theorem emplace_sorted (d v : Nat) (ps : List (Nat × Nat)) (h : ps.Pairwise Lt) :
    (emplace d v ps).Pairwise Lt := by
  induction ps with
  | nil => simp [emplace]
  | cons p ps ih =>
    obtain ⟨e, u⟩ := p
    have hc := List.pairwise_cons.1 h
    unfold emplace
    split
    · next hlt =>
      refine List.pairwise_cons.2 ⟨?_, h⟩
      intro q hq
      rcases List.mem_cons.1 hq with rfl | hq
      · exact hlt
      · have := hc.1 q hq
        unfold Lt at this ⊢
        dsimp only at this ⊢
        omega
    · split
      · exact h
      · next h1 h2 =>
        refine List.pairwise_cons.2 ⟨?_, ih hc.2⟩
        intro q hq
        rcases (mem_emplace d v ps q).1 hq with rfl | hq
        · unfold Lt; dsimp only; omega
        · exact hc.1 q hq

theorem mem_emplaceAll (d : Nat) (ts : List Nat) : ∀ (ps : List (Nat × Nat)) (q : Nat × Nat),
    q ∈ emplaceAll d ts ps ↔ (∃ t ∈ ts, q = (d, t)) ∨ q ∈ ps := by
  induction ts with
  | nil => intro ps q; simp [emplaceAll]
  | cons t ts ih =>
    intro ps q
    rw [emplaceAll, ih, mem_emplace]
    simp only [List.mem_cons, exists_eq_or_imp]
    rw [← or_assoc, or_comm (b := q = (d, t))]

theorem emplaceAll_sorted (d : Nat) (ts : List Nat) : ∀ (ps : List (Nat × Nat)), ps.Pairwise Lt →
    (emplaceAll d ts ps).Pairwise Lt := by
  induction ts with
  | nil => intro ps h; exact h
  | cons t ts ih => intro ps h; exact ih _ (emplace_sorted d t ps h)

/-- The offset's record admits the pair. -/
def Admits (b : List Pairs) (d : Nat) (x y : UInt8) : Prop := ∃ p, b[d]? = some p ∧ p x y = true

theorem record_admits (b : List Pairs) (d : Nat) (p : Pairs) (e : Nat) (x y : UInt8) :
    Admits (record b d p) e x y ↔ Admits b e x y ∨ (e = d ∧ p x y = true) := by
  unfold Admits record
  simp only [List.getElem?_modify, List.getElem?_append, List.getElem?_replicate]
  by_cases hed : d = e
  · subst hed
    by_cases hlt : d < b.length
    · have hx : b[d]? = some b[d] := List.getElem?_eq_getElem hlt
      simp only [hx, hlt, if_true]
      simp
    · have hx : b[d]? = none := List.getElem?_eq_none (by omega)
      simp only [hx, hlt, if_false]
      rw [if_pos (show d - b.length < d + 1 - b.length by omega)]
      simp
  · by_cases hlt : e < b.length
    · simp [hlt, hed, Ne.symm hed]
    · have hx : b[e]? = none := List.getElem?_eq_none (by omega)
      simp only [hx, hlt, if_false, hed, Ne.symm hed, false_and, or_false]
      constructor
      · rintro ⟨q, hq, hp⟩
        split at hq
        · simp at hq; subst hq; simp at hp
        · simp at hq
      · rintro ⟨q, hq, hp⟩; simp at hq

/-- What holds between iterations; `dn` are the pairs processed. -/
structure LInv (g : Graph) (dn : Nat × Nat → Prop) (next : List (Nat × Nat)) (b : List Pairs) (lmin : Nat) : Prop where
  sorted : next.Pairwise Lt
  root : dn (0, 0) ∨ (0, 0) ∈ next
  closed : ∀ d h, dn (d, h) → d < lmin + 1 → ∀ t ∈ (g.v h).out, dn (d + 1, t) ∨ (d + 1, t) ∈ next
  recd : ∀ d h, dn (d, h) → ∀ x y, contributions g h x y = true → Admits b d x y
  least : ∀ d h, dn (d, h) → (g.v h).isMatch = true → lmin ≤ d

/-- Everything near enough has been processed. -/
structure LDone (g : Graph) (b : List Pairs) (lmin : Nat) : Prop where
  recd : ∀ d h, Walk g d h → d ≤ lmin → ∀ x y, contributions g h x y = true → Admits b d x y
  least : ∀ d h, Walk g d h → (g.v h).isMatch = true → lmin ≤ d

theorem LInv.done {g : Graph} {dn : Nat × Nat → Prop} {next : List (Nat × Nat)} {b : List Pairs} {lmin : Nat}
    (h : LInv g dn next b lmin) (hn : ∀ p ∈ next, lmin + 1 < p.1) : LDone g b lmin := by
  have key : ∀ d v, Walk g d v → d ≤ lmin + 1 → dn (d, v) := by
    intro d v hw
    induction hw with
    | zero =>
      intro _
      rcases h.root with hr | hr
      · exact hr
      · exact absurd (hn _ hr) (by simp)
    | @step d v u hw hu ih =>
      intro hd
      rcases h.closed d v (ih (by omega)) (by omega) u hu with hr | hr
      · exact hr
      · have := hn _ hr; dsimp only at this; omega
  refine ⟨fun d v hw hd => h.recd d v (key d v hw (by omega)), ?_⟩
  intro d v hw hm
  by_contra hlt
  exact hlt (h.least d v (key d v hw (by omega)) hm)

/-- One iteration. -/
theorem LInv.step {g : Graph} {dn : Nat × Nat → Prop} {next : List (Nat × Nat)} {b : List Pairs} {lmin : Nat}
    {d v : Nat} (h : LInv g dn ((d, v) :: next) b lmin) :
    let lmin' := if (g.v v).isMatch ∧ d < lmin then d else lmin
    LInv g (fun p => dn p ∨ p = (d, v))
      (if d < lmin' + 1 then emplaceAll (d + 1) (g.v v).out next else next)
      (record b d (contributions g v)) lmin' := by
  intro lmin'
  have hl : lmin' ≤ lmin := by
    show (if _ then _ else _) ≤ _
    split <;> omega
  have hc := List.pairwise_cons.1 h.sorted
  have hmem : ∀ q, q ∈ next → q ∈ (if d < lmin' + 1 then emplaceAll (d + 1) (g.v v).out next else next) := by
    intro q hq
    split
    · exact (mem_emplaceAll _ _ _ _).2 (Or.inr hq)
    · exact hq
  refine ⟨?_, ?_, ?_, ?_, ?_⟩
  · split
    · exact emplaceAll_sorted _ _ _ hc.2
    · exact hc.2
  · rcases h.root with hr | hr
    · exact Or.inl (Or.inl hr)
    · rcases List.mem_cons.1 hr with hr | hr
      · exact Or.inl (Or.inr hr)
      · exact Or.inr (hmem _ hr)
  · rintro e u (hd | hd) he t ht
    · rcases h.closed e u hd (by omega) t ht with hr | hr
      · exact Or.inl (Or.inl hr)
      · rcases List.mem_cons.1 hr with hr | hr
        · exact Or.inl (Or.inr hr)
        · exact Or.inr (hmem _ hr)
    · cases hd
      right
      rw [if_pos he]
      exact (mem_emplaceAll _ _ _ _).2 (Or.inl ⟨t, ht, rfl⟩)
  · rintro e u (hd | hd) x y hxy
    · exact (record_admits _ _ _ _ _ _).2 (Or.inl (h.recd e u hd x y hxy))
    · cases hd
      exact (record_admits _ _ _ _ _ _).2 (Or.inr ⟨rfl, hxy⟩)
  · rintro e u (hd | hd) hm
    · exact Nat.le_trans hl (h.least e u hd hm)
    · cases hd
      show (if _ then _ else _) ≤ _
      split
      · exact Nat.le_refl _
      · next hn => simp only [hm, true_and] at hn; omega

theorem loop_done (g : Graph) (fuel : Nat) : ∀ (dn : Nat × Nat → Prop) (next : List (Nat × Nat)) (b : List Pairs)
    (lmin : Nat) (r : List Pairs × Nat), LInv g dn next b lmin → loop g fuel next b lmin = some r →
    LDone g r.1 r.2 := by
  induction fuel with
  | zero =>
    intro dn next b lmin r hI hr
    cases next with
    | nil => simp only [loop, Option.some.injEq] at hr; subst hr; exact hI.done (by simp)
    | cons p ps => simp [loop] at hr
  | succ fuel ih =>
    intro dn next b lmin r hI hr
    cases next with
    | nil => simp only [loop, Option.some.injEq] at hr; subst hr; exact hI.done (by simp)
    | cons p ps =>
      obtain ⟨d, v⟩ := p
      unfold loop at hr
      split at hr
      · next hd =>
        simp only [Option.some.injEq] at hr; subst hr
        refine hI.done ?_
        intro q hq
        rcases List.mem_cons.1 hq with rfl | hq
        · exact hd
        · have := (List.pairwise_cons.1 hI.sorted).1 q hq
          unfold Lt at this; dsimp only at this ⊢; omega
      · exact ih _ _ _ _ r hI.step hr

theorem linv_init (g : Graph) : LInv g (fun _ => False) [(0, 0)] [] 4294967294 :=
  ⟨by simp, Or.inr (by simp), by simp, by simp, by simp⟩

/-- A path in the automaton as a walk: the vertex entered with the `i`-th byte. -/
theorem path_walk {g : Graph} {v t : Nat} {w : List UInt8} (hp : Path g v w t) : ∀ d h, Walk g d h →
    v ∈ (g.v h).out → Walk g (d + w.length) t ∧
    ∀ i, i < w.length → ∃ h' u, Walk g (d + i) h' ∧ u ∈ (g.v h').out ∧
      (∃ b, w[i]? = some b ∧ (g.v u).bytes.has b = true) ∧
      (i + 1 = w.length → u = t) ∧ (i = 0 → u = v) ∧
      (i + 1 < w.length → ∃ u' ∈ (g.v u).out, ∃ b, w[i + 1]? = some b ∧ (g.v u').bytes.has b = true) := by
  induction hp with
  | @one v b hb =>
    intro d h hw hv
    refine ⟨hw.step hv, ?_⟩
    intro i hi
    simp only [List.length_cons, List.length_nil, Nat.zero_add] at hi
    have : i = 0 := by omega
    subst this
    exact ⟨h, v, hw, hv, ⟨b, by simp, hb⟩, fun _ => rfl, fun _ => rfl, by simp⟩
  | @cons v u t b w hb hu hp ih =>
    intro d h hw hv
    obtain ⟨h1, h2⟩ := ih (d + 1) v (hw.step hv) hu
    have hw0 : 0 < w.length := by cases hp <;> simp
    refine ⟨by
      have e : d + (b :: w).length = d + 1 + w.length := by simp only [List.length_cons]; omega
      rw [e]; exact h1, ?_⟩
    intro i hi
    cases i with
    | zero =>
      refine ⟨h, v, hw, hv, ⟨b, by simp, hb⟩, ?_, fun _ => rfl, ?_⟩
      · intro h; simp only [List.length_cons] at h; omega
      · intro _
        obtain ⟨-, u', -, -, ⟨c, hc, hcb⟩, -, hu', -⟩ := h2 0 hw0
        have := hu' rfl
        subst this
        exact ⟨u', hu, c, by simpa using hc, hcb⟩
    | succ i =>
      simp only [List.length_cons] at hi
      obtain ⟨h', x, q1, q2, ⟨c, hc, hcb⟩, q3, q4, q5⟩ := h2 i (by omega)
      refine ⟨h', x, by rw [show d + (i + 1) = d + 1 + i by omega]; exact q1, q2,
        ⟨c, by simpa using hc, hcb⟩, ?_, by simp, ?_⟩
      · intro h; simp only [List.length_cons] at h; exact q3 (by omega)
      · intro h
        simp only [List.length_cons] at h
        obtain ⟨u', hu', c', hc', hcb'⟩ := q5 (by omega)
        exact ⟨u', hu', c', by simpa using hc', hcb'⟩

/-- **C13.** For every automaton and every data that begins with a match: if at least
`off + 2` bytes are there, the filter admits the two bytes at distance `off`. -/
theorem filter_never_rejects (g : Graph) (fuel off : Nat) (filter : Pairs)
    (hr : bestPair fuel g = some (off, filter))
    (w rest : List UInt8) (hacc : Matches g w)
    (x y : UInt8) (hx : (w ++ rest)[off]? = some x) (hy : (w ++ rest)[off + 1]? = some y) :
    filter x y = true := by
  unfold bestPair at hr
  split at hr
  · cases hr
  · next b lmin hl =>
    have hd := loop_done g fuel _ _ _ _ _ (linv_init g) hl
    split at hr
    · cases hr
    · next p ps hbt =>
      simp only [Option.map_eq_some_iff, Prod.mk.injEq] at hr
      obtain ⟨q, hq, rfl, rfl⟩ := hr
      generalize argmin 0 (count p) 1 ps = off at *
      rw [← hbt] at hq
      obtain ⟨ho, hq⟩ : off < lmin ∧ b[off]? = some q := by
        rw [List.getElem?_take] at hq
        split at hq
        · exact ⟨by assumption, hq⟩
        · cases hq
      obtain ⟨u, hu, t, hp, hm⟩ := hacc
      obtain ⟨w1, w2⟩ := path_walk hp 0 0 .zero hu
      have hmin : lmin ≤ w.length := by
        have := hd.least _ _ w1 hm
        omega
      -- the state at depth `off`, and the one entered with `x`
      obtain ⟨h, t0, hwh, ht0, ⟨x', hx', hxb⟩, hlast, -, hnext⟩ := w2 off (by omega)
      rw [Nat.zero_add] at hwh
      have hxx : x' = x := by
        rw [List.getElem?_append_left (by omega), hx'] at hx
        exact Option.some.inj hx
      subst hxx
      have hcon : contributions g h x' y = true := by
        unfold contributions
        rw [List.any_eq_true]
        refine ⟨t0, ht0, ?_⟩
        unfold contribute
        rw [hxb, Bool.true_and, Bool.or_eq_true]
        by_cases hlen : off + 1 = w.length
        · left; rw [hlast hlen]; exact hm
        · right
          obtain ⟨u', hu', y', hy', hyb⟩ := hnext (by omega)
          have : y' = y := by
            rw [List.getElem?_append_left (by omega), hy'] at hy
            exact Option.some.inj hy
          subst this
          rw [List.any_eq_true]
          exact ⟨u', hu', hyb⟩
      obtain ⟨q', hq', hqq⟩ := hd.recd off h hwh (by omega) x' y hcon
      rw [hq] at hq'
      cases hq'
      exact hqq

/-! ## The filter is always found -/

/-- The place of a pair in the heap's order. -/
def rank (n : Nat) (p : Nat × Nat) : Nat := p.1 * n + p.2

/-- When everything pending is farther than a match, the least match length is known. -/
theorem LInv.lmin_le {g : Graph} {dn : Nat × Nat → Prop} {next : List (Nat × Nat)} {b : List Pairs} {lmin : Nat}
    (h : LInv g dn next b lmin) {dm m : Nat} (hw : Walk g dm m) (hm : (g.v m).isMatch = true)
    (hn : ∀ p ∈ next, dm < p.1) : lmin ≤ dm := by
  by_contra hlt
  have key : ∀ d v, Walk g d v → d ≤ dm → dn (d, v) := by
    intro d v hw
    induction hw with
    | zero =>
      intro _
      rcases h.root with hr | hr
      · exact hr
      · exact absurd (hn _ hr) (by simp)
    | @step d v u hw hu ih =>
      intro hd
      rcases h.closed d v (ih (by omega)) (by omega) u hu with hr | hr
      · exact hr
      · have := hn _ hr; dsimp only at this; omega
  exact hlt (h.least dm m (key dm m hw (Nat.le_refl _)) hm)

theorem rank_lt {n d e v u : Nat} (hv : v < n) (h : Lt (d, v) (e, u)) : rank n (d, v) < rank n (e, u) := by
  unfold Lt at h
  unfold rank
  dsimp only at h ⊢
  rcases h with h | ⟨rfl, h⟩
  · have : (d + 1) * n ≤ e * n := Nat.mul_le_mul_right n h
    rw [Nat.add_mul] at this
    omega
  · omega

theorem mem_ite_emplaceAll {c : Prop} [Decidable c] {d : Nat} {ts : List Nat} {ps : List (Nat × Nat)}
    {q : Nat × Nat} (h : q ∈ if c then emplaceAll d ts ps else ps) : (∃ t ∈ ts, q = (d, t)) ∨ q ∈ ps := by
  split at h
  · exact (mem_emplaceAll _ _ _ _).1 h
  · exact Or.inr h

theorem loop_ends (g : Graph) (hin : ∀ v < g.n, ∀ u ∈ (g.v v).out, u < g.n) (dm m : Nat)
    (hw : Walk g dm m) (hm : (g.v m).isMatch = true) (fuel : Nat) :
    ∀ (dn : Nat × Nat → Prop) (next : List (Nat × Nat)) (b : List Pairs) (lmin c : Nat),
    LInv g dn next b lmin → (∀ p ∈ next, p.2 < g.n) → (∀ p ∈ next, c ≤ rank g.n p) → 0 < fuel →
    (dm + 2) * g.n < c + fuel → ∃ r, loop g fuel next b lmin = some r := by
  induction fuel with
  | zero => intro dn next b lmin c _ _ _ h; omega
  | succ fuel ih =>
    intro dn next b lmin c hI hn hc _ hf
    cases next with
    | nil => exact ⟨_, rfl⟩
    | cons p ps =>
      obtain ⟨d, v⟩ := p
      have hvn : v < g.n := hn (d, v) (by simp)
      have hsrt := List.pairwise_cons.1 hI.sorted
      unfold loop
      split
      · exact ⟨_, rfl⟩
      · next hd =>
        have hdm : d ≤ dm + 1 := by
          by_contra hlt
          have := hI.lmin_le hw hm (fun q hq => by
            rcases List.mem_cons.1 hq with rfl | hq
            · show dm < d; omega
            · have := hsrt.1 q hq
              unfold Lt at this; dsimp only at this; omega)
          omega
        have hcp : c ≤ d * g.n + v := hc (d, v) (by simp)
        have hcode : d * g.n + v < (dm + 2) * g.n := by
          have : (d + 1) * g.n ≤ (dm + 2) * g.n := Nat.mul_le_mul_right _ (by omega)
          rw [Nat.add_mul] at this
          omega
        refine ih _ _ _ _ (d * g.n + v + 1) hI.step ?_ ?_ (by omega) (by omega)
        · intro q hq
          rcases mem_ite_emplaceAll hq with ⟨t, ht, rfl⟩ | hq
          · exact hin v hvn t ht
          · exact hn q (by simp [hq])
        · have hrest : ∀ q ∈ ps, d * g.n + v + 1 ≤ rank g.n q := by
            intro q hq
            exact rank_lt hvn (hsrt.1 q hq)
          intro q hq
          rcases mem_ite_emplaceAll hq with ⟨t, ht, rfl⟩ | hq
          · exact rank_lt hvn (Or.inl (Nat.lt_succ_self d))
          · exact hrest q hq

theorem record_length (b : List Pairs) (d : Nat) (p : Pairs) : d < (record b d p).length := by
  unfold record
  simp only [List.length_modify, List.length_append, List.length_replicate]
  omega

theorem record_length' (b : List Pairs) (d : Nat) (p : Pairs) : b.length ≤ (record b d p).length := by
  unfold record
  simp only [List.length_modify, List.length_append, List.length_replicate]
  omega

theorem loop_length (g : Graph) (h0 : (g.v 0).isMatch = false) (fuel : Nat) :
    ∀ (next : List (Nat × Nat)) (b : List Pairs) (lmin : Nat) (r : List Pairs × Nat),
    (b ≠ [] ∨ next.head? = some (0, 0)) → 0 < lmin → (∀ p ∈ next, p.1 = 0 → p.2 = 0) →
    loop g fuel next b lmin = some r → r.1 ≠ [] ∧ 0 < r.2 := by
  induction fuel with
  | zero =>
    intro next b lmin r hb hl hz hr
    cases next with
    | nil => simp at hb; simp only [loop, Option.some.injEq] at hr; subst hr; exact ⟨hb, hl⟩
    | cons p ps => simp [loop] at hr
  | succ fuel ih =>
    intro next b lmin r hb hl hz hr
    cases next with
    | nil => simp at hb; simp only [loop, Option.some.injEq] at hr; subst hr; exact ⟨hb, hl⟩
    | cons p ps =>
      obtain ⟨d, v⟩ := p
      unfold loop at hr
      split at hr
      · next hd =>
        simp only [Option.some.injEq] at hr; subst hr
        rcases hb with hb | hb
        · exact ⟨hb, hl⟩
        · simp only [List.head?_cons, Option.some.injEq, Prod.mk.injEq] at hb; omega
      · refine ih _ _ _ r (Or.inl ?_) ?_ ?_ hr
        · intro h
          have := record_length b d (contributions g v)
          rw [h] at this; simp at this
        · split
          · next hm =>
            by_contra hd0
            have hd0 : d = 0 := by omega
            have := hz (d, v) (by simp) hd0
            dsimp only at this
            rw [this, h0] at hm
            simp at hm
          · exact hl
        · intro q hq hq0
          rcases mem_ite_emplaceAll hq with ⟨t, ht, rfl⟩ | hq
          · simp at hq0
          · exact hz q (by simp [hq]) hq0

theorem argmin_lt (i0 c : Nat) (ps : List Pairs) : ∀ i, i0 < i → argmin i0 c i ps < i + ps.length := by
  induction ps generalizing i0 c with
  | nil => intro i h; exact h
  | cons p ps ih =>
    intro i h
    unfold argmin
    simp only [List.length_cons]
    split
    · have := ih i (count p) (i + 1) (by omega); omega
    · have := ih i0 c (i + 1) (by omega); omega

/-- The search for a filter ends with one whenever some match state can be reached
and the initial state is not a match. -/
theorem filter_found (g : Graph) (hn : 0 < g.n) (hin : ∀ v < g.n, ∀ u ∈ (g.v v).out, u < g.n)
    (h0 : (g.v 0).isMatch = false) (w : List UInt8) (hacc : Matches g w) :
    ∃ F, ∀ fuel, F ≤ fuel → ∃ r, bestPair fuel g = some r := by
  obtain ⟨u, hu, t, hp, hm⟩ := hacc
  obtain ⟨w1, -⟩ := path_walk hp 0 0 .zero hu
  refine ⟨(0 + w.length + 2) * g.n + 1, fun fuel hf => ?_⟩
  obtain ⟨r, hr⟩ := loop_ends g hin _ t w1 hm fuel _ _ _ _ 0 (linv_init g) (by simpa using hn)
    (by simp) (by omega) (by omega)
  obtain ⟨hb, hl⟩ := loop_length g h0 fuel _ _ _ r (Or.inr rfl) (by decide) (by simp) hr
  unfold bestPair
  rw [hr]
  obtain ⟨b, lmin⟩ := r
  dsimp only at hb hl ⊢
  split
  · next h =>
    rw [List.take_eq_nil_iff] at h
    rcases h with h | h
    · omega
    · exact absurd h hb
  · next p ps h =>
    have := argmin_lt 0 (count p) ps 1 (by omega)
    rw [List.getElem?_eq_getElem (by simp only [List.length_cons]; omega)]
    exact ⟨_, rfl⟩

/-! Non-vacuity: the automaton of `[ab]c`, whose filter is at offset 0 and admits
exactly `ac` and `bc`. -/

/-- `[ab]c` with label 3. -/
def sample : Graph where
  n := 3
  v := fun i =>
    if i = 0 then { out := [1] }
    else if i = 1 then { bytes := BSet.single 0x61 ||| BSet.single 0x62, out := [2], inn := [0] }
    else { bytes := BSet.single 0x63, inn := [1], isMatch := true, label := some 3 }

example : Matches sample [0x62, 0x63] :=
  ⟨1, by decide, 2, .cons (u := 2) (by decide +kernel) (by decide) (.one (by decide +kernel)), by decide⟩

example : (sample.v 0).isMatch = false ∧ ∀ v < sample.n, ∀ u ∈ (sample.v v).out, u < sample.n := by
  decide

end Verif.BestPair
