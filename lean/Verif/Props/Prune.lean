import Verif.Optimizer
import Verif.Props.Preferred
import Verif.Props.Label
import Mathlib.Tactic.Tauto
/-!
# C22: pruning

Pruning the edges behind a match which they cannot beat does not change which matches
are preferred: whatever the data, the hits to report for the pruned automaton are those
for the automaton.
-/
namespace Verif.Optimizer
open Verif.Nfa Verif.Compiler Verif.Label

/-! ## Specification -/

/-- In-lists and out-lists hold the same edges. -/
def Balanced (g : Graph) : Prop := ∀ h t, (g.v h).out.count t = (g.v t).inn.count h

/-- The automaton of one pattern: just the match states are labelled, all with `l`. -/
structure OneLabel (g : Graph) (l : Nat) : Prop where
  root : (g.v 0).isMatch = false
  matches_ : ∀ v, (g.v v).isMatch = true → (g.v v).label = some l
  others : ∀ v, (g.v v).isMatch = false → (g.v v).label = none

/-! ## What is removed -/

/-- The successors which stay. -/
def keep (g : Graph) : BSet → List Nat → List Nat
  | _, [] => []
  | mbs, t :: ts =>
    let obs := (g.v t).bytes &&& ~~~mbs
    let mbs := if (g.v t).isMatch then mbs ||| obs else mbs
    if obs = 0 then keep g mbs ts else t :: keep g mbs ts

theorem keep_sub (g : Graph) : ∀ ts mbs, (keep g mbs ts).Sublist ts := by
  intro ts
  induction ts with
  | nil => intro mbs; exact List.Sublist.refl _
  | cons t ts ih =>
    intro mbs
    simp only [keep]
    split
    · exact (ih _).cons _
    · exact (ih _).cons_cons _

theorem has_and_not (s t : BSet) (b : UInt8) : BSet.has (s &&& ~~~t) b = (s.has b && !t.has b) := by
  have : b.toNat < 256 := b.toNat_lt
  simp [BSet.has, this]

theorem has_or' (s t : BSet) (b : UInt8) : BSet.has (s ||| t) b = (s.has b || t.has b) := by
  simp [BSet.has]

theorem has_zero'' (b : UInt8) : BSet.has 0 b = false := by simp [BSet.has]

/-- A successor which does not stay is behind a match which does, for each of its bytes. -/
theorem keep_or (g : Graph) {b : UInt8} : ∀ ts mbs, mbs.has b = false → ∀ u ∈ ts, (g.v u).bytes.has b = true →
    u ∈ keep g mbs ts ∨ ∃ m ∈ keep g mbs ts, (g.v m).isMatch = true ∧ (g.v m).bytes.has b = true ∧ Earlier ts m u := by
  intro ts
  induction ts with
  | nil => intro mbs _ u hu; cases hu
  | cons t ts ih =>
    intro mbs hm u hu hb
    by_cases e : u = t
    · subst e
      left
      simp only [keep]
      have h1 : BSet.has ((g.v u).bytes &&& ~~~mbs) b = true := by rw [has_and_not, hb, hm]; rfl
      have h0 : (g.v u).bytes &&& ~~~mbs ≠ 0 := by
        intro h0; rw [h0, has_zero''] at h1; cases h1
      rw [if_neg h0]
      simp
    · have hu' : u ∈ ts := by
        rcases List.mem_cons.1 hu with h | h
        · exact (e h).elim
        · exact h
      have lift : ∀ {mbs'}, (u ∈ keep g mbs' ts ∨ ∃ m ∈ keep g mbs' ts, (g.v m).isMatch = true ∧
          (g.v m).bytes.has b = true ∧ Earlier ts m u) → ∀ {xs : List Nat}, (∀ x ∈ keep g mbs' ts, x ∈ xs) →
          u ∈ xs ∨ ∃ m ∈ xs, (g.v m).isMatch = true ∧ (g.v m).bytes.has b = true ∧ Earlier (t :: ts) m u := by
        rintro mbs' (h | ⟨m, h1, h2, h3, a, c, rfl, h5, h6⟩) xs hx
        · exact Or.inl (hx u h)
        · exact Or.inr ⟨m, hx m h1, h2, h3, t :: a, c, by simp, by simp [h5], by simp [h6, e]⟩
      simp only [keep]
      by_cases ht : (g.v t).isMatch = true ∧ (g.v t).bytes.has b = true
      · -- the match `t` is in front
        right
        have h1 : BSet.has ((g.v t).bytes &&& ~~~mbs) b = true := by rw [has_and_not, ht.2, hm]; rfl
        have h0 : (g.v t).bytes &&& ~~~mbs ≠ 0 := by
          intro h0; rw [h0, has_zero''] at h1; cases h1
        rw [if_neg h0]
        obtain ⟨x, y, rfl, hx⟩ := List.eq_append_cons_of_mem hu'
        exact ⟨t, by simp, ht.1, ht.2, t :: x, y, by simp, by simp, by simp [hx, e]⟩
      · have hm' : BSet.has (if (g.v t).isMatch then mbs ||| ((g.v t).bytes &&& ~~~mbs) else mbs) b = false := by
          by_cases h1 : (g.v t).isMatch = true
          · have h2 : (g.v t).bytes.has b = false := by
              cases h : (g.v t).bytes.has b with
              | false => rfl
              | true => exact (ht ⟨h1, h⟩).elim
            rw [if_pos h1, has_or', has_and_not, h2, hm]; rfl
          · rw [if_neg h1]; exact hm
        have := ih _ hm' u hu' hb
        split
        · exact lift this (fun x hx => hx)
        · exact lift this (fun x hx => by simp [hx])

/-- The first successor stays. -/
theorem keep_nonempty (g : Graph) {ts : List Nat} (h : ts ≠ []) (hb : ∀ t ∈ ts, (g.v t).bytes ≠ 0) : keep g 0 ts ≠ [] := by
  cases ts with
  | nil => exact (h rfl).elim
  | cons t ts =>
    simp only [keep]
    have : (g.v t).bytes &&& ~~~(0 : BSet) = (g.v t).bytes := by
      have h0 : ~~~(0 : BSet) = BitVec.allOnes 256 := by decide
      rw [h0, BitVec.and_allOnes]
    rw [this, if_neg (hb t (by simp))]
    simp

/-! ## The walk -/

/-- Nothing but edges changes. -/
structure SameStates (g g' : Graph) : Prop where
  n : g'.n = g.n
  bytes : ∀ v, (g'.v v).bytes = (g.v v).bytes
  isMatch : ∀ v, (g'.v v).isMatch = (g.v v).isMatch
  label : ∀ v, (g'.v v).label = (g.v v).label

theorem SameStates.refl (g : Graph) : SameStates g g := ⟨rfl, fun _ => rfl, fun _ => rfl, fun _ => rfl⟩

theorem SameStates.trans {g g' g'' : Graph} (h : SameStates g g') (h' : SameStates g' g'') : SameStates g g'' :=
  ⟨by rw [h'.n, h.n], fun v => by rw [h'.bytes, h.bytes], fun v => by rw [h'.isMatch, h.isMatch],
    fun v => by rw [h'.label, h.label]⟩

theorem removeEdge_eq {g : Graph} {h i t : Nat} (ht : (g.v h).out[i]? = some t) :
    removeEdge g h i = (g.modify h fun x => { x with out := x.out.eraseIdx i }).modify t
      fun x => { x with inn := x.inn.erase h } := by
  unfold removeEdge
  rw [ht]

theorem removeEdge_same {g : Graph} {h i t : Nat} (ht : (g.v h).out[i]? = some t) : SameStates g (removeEdge g h i) := by
  rw [removeEdge_eq ht]
  refine ⟨rfl, ?_, ?_, ?_⟩ <;>
  · intro v
    simp only [Graph.modify]
    split <;> split <;> rfl

theorem removeEdge_out {g : Graph} {h i t : Nat} (ht : (g.v h).out[i]? = some t) (v : Nat) :
    ((removeEdge g h i).v v).out = if v = h then (g.v v).out.eraseIdx i else (g.v v).out := by
  rw [removeEdge_eq ht]
  simp only [Graph.modify]
  split <;> split <;> rfl

theorem removeEdge_inn {g : Graph} {h i t : Nat} (ht : (g.v h).out[i]? = some t) (v : Nat) :
    ((removeEdge g h i).v v).inn = if v = t then (g.v v).inn.erase h else (g.v v).inn := by
  rw [removeEdge_eq ht]
  simp only [Graph.modify]
  split <;> split <;> rfl

theorem count_eraseIdx {l : List Nat} {i t : Nat} (h : l[i]? = some t) (x : Nat) :
    (l.eraseIdx i).count x = l.count x - if x = t then 1 else 0 := by
  induction l generalizing i with
  | nil => simp at h
  | cons a l ih =>
    cases i with
    | zero =>
      simp only [List.getElem?_cons_zero, Option.some.injEq] at h
      subst h
      simp only [List.eraseIdx_cons_zero, List.count_cons]
      by_cases e : x = a
      · subst e; simp
      · simp [e, Ne.symm e]
    | succ i =>
      simp only [List.getElem?_cons_succ] at h
      simp only [List.eraseIdx_cons_succ, List.count_cons, ih h]
      by_cases e : x = t
      · subst e
        have : 0 < l.count x := List.count_pos_iff.2 (List.mem_of_getElem? h)
        simp; omega
      · simp [e]

theorem removeEdge_balanced {g : Graph} {h i t : Nat} (ht : (g.v h).out[i]? = some t) (hb : Balanced g) :
    Balanced (removeEdge g h i) := by
  intro x y
  rw [removeEdge_out ht, removeEdge_inn ht]
  have := hb x y
  by_cases e1 : x = h
  · subst e1
    by_cases e2 : y = t
    · subst e2
      rw [if_pos rfl, if_pos rfl, count_eraseIdx ht, if_pos rfl, List.count_erase_self, this]
    · rw [if_pos rfl, if_neg e2, count_eraseIdx ht, if_neg e2]
      simpa using this
  · rw [if_neg e1]
    by_cases e2 : y = t
    · subst e2
      rw [if_pos rfl, List.count_erase_of_ne e1, this]
    · rw [if_neg e2, this]

theorem keep_congr {g g' : Graph} (h : SameStates g g') : ∀ ts mbs, keep g' mbs ts = keep g mbs ts := by
  intro ts
  induction ts with
  | nil => intro mbs; rfl
  | cons t ts ih =>
    intro mbs
    simp only [keep, h.bytes, h.isMatch, ih]

theorem pruneOut_spec {head : Nat} : ∀ ts i mbs (s : Prune) pre, (s.g.v head).out = pre ++ ts → pre.length = i →
    let r := pruneOut head ts i mbs s
    SameStates s.g r.g ∧ (r.g.v head).out = pre ++ keep s.g mbs ts ∧ (∀ v, v ≠ head → (r.g.v v).out = (s.g.v v).out) ∧
    (Balanced s.g → Balanced r.g) ∧
    (∀ x, x ∈ r.seen ↔ x ∈ s.seen ∨ x ∈ ts) ∧ (∀ x, x ∈ r.next ↔ x ∈ s.next ∨ (x ∈ ts ∧ x ∉ s.seen)) ∧
    (s.next.Nodup → (∀ x ∈ s.next, x ∈ s.seen) → r.next.Nodup) := by
  intro ts
  induction ts with
  | nil =>
    intro i mbs s pre h _
    exact ⟨SameStates.refl _, by simpa [pruneOut, keep] using h, fun _ _ => rfl, fun h => h, by simp [pruneOut],
      by simp [pruneOut], fun h _ => h⟩
  | cons tail ts ih =>
    intro i mbs s pre h hi
    -- the bookkeeping
    obtain ⟨s1, hs1, hg1, hseen, hnext, hnd, hsub⟩ : ∃ s1 : Prune,
        (if tail ∈ s.seen then s else { s with next := tail :: s.next, seen := tail :: s.seen }) = s1 ∧ s1.g = s.g ∧
        (∀ x, x ∈ s1.seen ↔ x ∈ s.seen ∨ x = tail) ∧ (∀ x, x ∈ s1.next ↔ x ∈ s.next ∨ (x = tail ∧ x ∉ s.seen)) ∧
        (s.next.Nodup → (∀ x ∈ s.next, x ∈ s.seen) → s1.next.Nodup) ∧
        ((∀ x ∈ s.next, x ∈ s.seen) → ∀ x ∈ s1.next, x ∈ s1.seen) := by
      refine ⟨_, rfl, ?_⟩
      by_cases hm : tail ∈ s.seen
      · rw [if_pos hm]
        refine ⟨rfl, ?_, ?_, fun h _ => h, fun h => h⟩
        · intro x
          constructor
          · exact Or.inl
          · rintro (h | rfl)
            · exact h
            · exact hm
        · intro x
          constructor
          · exact Or.inl
          · rintro (h' | ⟨rfl, h'⟩)
            · exact h'
            · exact (h' hm).elim
      · rw [if_neg hm]
        refine ⟨rfl, ?_, ?_, ?_, ?_⟩
        · intro x; simp only [List.mem_cons]; exact Or.comm
        · intro x
          simp only [List.mem_cons]
          constructor
          · rintro (rfl | h)
            · exact Or.inr ⟨rfl, hm⟩
            · exact Or.inl h
          · rintro (h | ⟨h, -⟩)
            · exact Or.inr h
            · exact Or.inl h
        · intro h1 h2
          simp only [List.nodup_cons]
          exact ⟨fun h => hm (h2 _ h), h1⟩
        · intro h x hx
          simp only [List.mem_cons] at hx ⊢
          rcases hx with hx | hx
          · exact Or.inl hx
          · exact Or.inr (h x hx)
    simp only [pruneOut, hs1]
    have hmem : ∀ {r : Prune}, (∀ x, x ∈ r.seen ↔ x ∈ s1.seen ∨ x ∈ ts) →
        (∀ x, x ∈ r.next ↔ x ∈ s1.next ∨ (x ∈ ts ∧ x ∉ s1.seen)) →
        (∀ x, x ∈ r.seen ↔ x ∈ s.seen ∨ x ∈ tail :: ts) ∧
        (∀ x, x ∈ r.next ↔ x ∈ s.next ∨ (x ∈ tail :: ts ∧ x ∉ s.seen)) := by
      intro r h1 h2
      refine ⟨?_, ?_⟩
      · intro x; rw [h1, hseen, List.mem_cons]; tauto
      · intro x
        rw [h2, hnext, hseen, List.mem_cons]
        tauto
    have htail : (s1.g.v head).out[i]? = some tail := by
      rw [hg1, h, List.getElem?_append_right (by omega)]
      simp [hi]
    rw [hg1]
    by_cases ho : (s.g.v tail).bytes &&& ~~~mbs = 0
    · rw [if_pos ho]
      rw [hg1] at htail
      have hs := removeEdge_same htail
      have := ih i (if (s.g.v tail).isMatch then mbs ||| ((s.g.v tail).bytes &&& ~~~mbs) else mbs)
        { s1 with g := removeEdge s.g head i } pre (by
          simp only
          rw [removeEdge_out htail, if_pos rfl, h, List.eraseIdx_append_of_length_le (by omega)]
          simp [hi]) hi
      simp only at this
      obtain ⟨r1, r2, r3, r4, r5, r6, r7⟩ := this
      refine ⟨hs.trans r1, ?_, ?_, ?_, (hmem r5 r6).1, (hmem r5 r6).2, fun a b => r7 (hnd a b) (hsub b)⟩
      · rw [r2, keep_congr hs]
        simp only [keep]
        rw [if_pos ho]
      · intro v hv
        rw [r3 v hv, removeEdge_out htail, if_neg hv]
      · intro hb; exact r4 (removeEdge_balanced htail hb)
    · rw [if_neg ho]
      have := ih (i + 1) (if (s.g.v tail).isMatch then mbs ||| ((s.g.v tail).bytes &&& ~~~mbs) else mbs)
        s1 (pre ++ [tail]) (by rw [hg1, h]; simp) (by simp [hi])
      simp only at this
      obtain ⟨r1, r2, r3, r4, r5, r6, r7⟩ := this
      rw [hg1] at r1 r2 r3 r4
      refine ⟨r1, ?_, r3, r4, (hmem r5 r6).1, (hmem r5 r6).2, fun a b => r7 (hnd a b) (hsub b)⟩
      rw [r2]
      simp only [keep]
      rw [if_neg ho]
      simp

/-- What is known in the middle of the walk: `dn` are the states done. -/
structure PruneInv (g : Graph) (dn : List Nat) (s : Prune) : Prop where
  same : SameStates g s.g
  bal : Balanced s.g
  done : ∀ v ∈ dn, (s.g.v v).out = keep g 0 (g.v v).out ∧ ∀ t ∈ (g.v v).out, t ∈ s.seen
  rest : ∀ v, v ∉ dn → (s.g.v v).out = (g.v v).out
  seen : ∀ v, v ∈ s.seen ↔ v ∈ dn ∨ v ∈ s.next
  nodup : s.next.Nodup
  disj : ∀ v ∈ s.next, v ∉ dn

theorem pruneInv_step {g : Graph} {dn : List Nat} {s : Prune} {head : Nat} {next : List Nat} (h : PruneInv g dn s)
    (hn : s.next = head :: next) :
    PruneInv g (head :: dn) (pruneOut head (s.g.v head).out 0 0 { s with next }) := by
  have hh : head ∉ dn := h.disj head (by rw [hn]; simp)
  have hout := h.rest head hh
  have := pruneOut_spec (head := head) (s.g.v head).out 0 0 { s with next } [] (by simp) rfl
  simp only [List.nil_append] at this
  obtain ⟨r1, r2, r3, r4, r5, r6, r7⟩ := this
  have hnd := h.nodup
  rw [hn, List.nodup_cons] at hnd
  refine ⟨h.same.trans r1, r4 h.bal, ?_, ?_, ?_, ?_, ?_⟩
  · intro v hv
    rcases List.mem_cons.1 hv with rfl | hv'
    · refine ⟨?_, ?_⟩
      · rw [r2, keep_congr h.same, hout]
      · intro t ht
        rw [r5]
        exact Or.inr (by rw [hout]; exact ht)
    · have hne : v ≠ head := fun e => hh (e ▸ hv')
      rw [r3 v hne]
      refine ⟨(h.done v hv').1, fun t ht => ?_⟩
      rw [r5]
      exact Or.inl ((h.done v hv').2 t ht)
  · intro v hv
    simp only [List.mem_cons, not_or] at hv
    rw [r3 v hv.1]
    exact h.rest v hv.2
  · intro v
    have hs := h.seen v
    rw [hn, List.mem_cons] at hs
    rw [r5, r6, List.mem_cons]
    by_cases hv : v ∈ s.seen
    · have := hs.1 hv; tauto
    · tauto
  · refine r7 hnd.2 ?_
    intro x hx
    rw [h.seen, hn]
    exact Or.inr (by simp [hx])
  · intro v hv
    rw [r6] at hv
    simp only [List.mem_cons, not_or]
    rcases hv with hv | ⟨-, hv⟩
    · exact ⟨fun e => hnd.1 (e ▸ hv), h.disj v (by rw [hn]; simp [hv])⟩
    · rw [h.seen, hn] at hv
      simp only [List.mem_cons, not_or] at hv
      exact ⟨hv.2.1, hv.1⟩

/-- What pruning does. -/
structure Pruned (g g' : Graph) : Prop where
  same : SameStates g g'
  bal : Balanced g'
  each : ∀ v, (g'.v v).out = keep g 0 (g.v v).out ∨ (g'.v v).out = (g.v v).out
  reached : ∀ v, Leads g 0 v → (g'.v v).out = keep g 0 (g.v v).out

theorem pruneLoop_spec {g : Graph} : ∀ fuel dn s g', PruneInv g dn s → (0 ∈ s.seen) → pruneLoop fuel s = some g' →
    Pruned g g' := by
  intro fuel
  induction fuel with
  | zero => intro dn s g' _ _ h; cases h
  | succ n ih =>
    intro dn s g' hi h0 h
    rw [pruneLoop] at h
    cases hn : s.next with
    | nil =>
      rw [hn] at h
      cases h
      have hs : ∀ v, v ∈ s.seen ↔ v ∈ dn := by intro v; rw [hi.seen, hn]; simp
      refine ⟨hi.same, hi.bal, ?_, ?_⟩
      · intro v
        by_cases hv : v ∈ dn
        · exact Or.inl (hi.done v hv).1
        · exact Or.inr (hi.rest v hv)
      · have : ∀ {a v}, Leads g a v → a ∈ dn → v ∈ dn := by
          intro a v hl
          induction hl with
          | refl => exact fun h => h
          | step hu _ ih => intro ha; exact ih ((hs _).1 ((hi.done _ ha).2 _ hu))
        intro v hl
        exact (hi.done v (this hl ((hs 0).1 h0))).1
    | cons head next =>
      rw [hn] at h
      refine ih (head :: dn) _ _ (pruneInv_step hi hn) ?_ h
      have hp := (pruneOut_spec (head := head) (s.g.v head).out 0 0 { s with next } [] (by simp) rfl).2.2.2.2.1
      exact (hp 0).2 (Or.inl h0)

theorem pruned_of_prune {g g' : Graph} {fuel : Nat} (hb : Balanced g) (h : pruneBranches fuel g = some g') : Pruned g g' := by
  refine pruneLoop_spec fuel [] _ g' ⟨SameStates.refl _, hb, by simp, fun _ _ => rfl, by simp, by simp, by simp⟩ (by simp) h

/-- Pruning ends. -/
theorem prune_ends {g : Graph} (hb : Balanced g) (hr : ∀ v, ∀ u ∈ (g.v v).out, u < g.n) (hn : 0 < g.n) :
    ∃ g' F, ∀ fuel ≥ F, pruneBranches fuel g = some g' := by
  have key : ∀ c dn s, PruneInv g dn s → (∀ v ∈ s.next, v < g.n) →
      count g.n (fun v => v ∉ dn) ≤ c → ∃ g' F, ∀ fuel ≥ F, pruneLoop fuel s = some g' := by
    intro c
    induction c with
    | zero =>
      intro dn s hi hlt hc
      have : s.next = [] := by
        cases hn : s.next with
        | nil => rfl
        | cons head next =>
          have h1 := hi.disj head (by rw [hn]; simp)
          have := count_lt (n := g.n) (p := fun v => v ∉ dn) (q := fun _ => false) (by simp)
            (hlt head (by rw [hn]; simp)) (by simpa using h1) rfl
          omega
      refine ⟨s.g, 1, ?_⟩
      intro fuel hf
      obtain ⟨n, rfl⟩ : ∃ n, fuel = n + 1 := ⟨fuel - 1, by omega⟩
      rw [pruneLoop, this]
    | succ c ih =>
      intro dn s hi hlt hc
      cases hn : s.next with
      | nil =>
        refine ⟨s.g, 1, ?_⟩
        intro fuel hf
        obtain ⟨n, rfl⟩ : ∃ n, fuel = n + 1 := ⟨fuel - 1, by omega⟩
        rw [pruneLoop, hn]
      | cons head next =>
        have h1 := hi.disj head (by rw [hn]; simp)
        have hcl := count_lt (n := g.n) (p := fun v => v ∉ dn) (q := fun v => v ∉ head :: dn) (by simp)
            (hlt head (by rw [hn]; simp)) (by simpa using h1) (by simp)
        obtain ⟨g', F, h⟩ := ih (head :: dn) _ (pruneInv_step hi hn) (by
          intro v hv
          have := (pruneOut_spec (head := head) (s.g.v head).out 0 0 { s with next } [] (by simp) rfl).2.2.2.2.2.1
          rcases (this v).1 hv with h | ⟨h, -⟩
          · exact hlt v (by rw [hn]; simp at h; simp [h])
          · rw [hi.rest head h1] at h
            exact hr head v h) (by omega)
        refine ⟨g', F + 1, ?_⟩
        intro fuel hf
        obtain ⟨n, rfl⟩ : ∃ n, fuel = n + 1 := ⟨fuel - 1, by omega⟩
        rw [pruneLoop, hn]
        exact h n (by omega)
  exact key _ [] _ ⟨SameStates.refl _, hb, by simp, fun _ _ => rfl, by simp, by simp, by simp⟩ (by simpa using hn) (Nat.le_refl _)

/-! ## The order of the ways -/

theorem earlier_iff {xs : List Nat} {u u' : Nat} : Earlier xs u u' ↔ u' ∈ xs ∧ xs.idxOf u < xs.idxOf u' := by
  constructor
  · rintro ⟨a, c, rfl, h1, h2⟩
    refine ⟨by simp, ?_⟩
    rw [List.idxOf_append_of_mem h1, List.idxOf_append_of_notMem h2]
    have := List.idxOf_lt_length_of_mem h1
    omega
  · rintro ⟨h1, h2⟩
    obtain ⟨a, c, rfl, h3⟩ := List.eq_append_cons_of_mem h1
    refine ⟨a, c, rfl, ?_, h3⟩
    by_contra h
    rw [List.idxOf_append_of_notMem h, List.idxOf_append_of_notMem h3, List.idxOf_cons_self] at h2
    omega

theorem earlier_irrefl {xs : List Nat} {u : Nat} : ¬ Earlier xs u u := by
  rw [earlier_iff]; omega

theorem earlier_asymm {xs : List Nat} {u u' : Nat} (h : Earlier xs u u') : ¬ Earlier xs u' u := by
  rw [earlier_iff] at *; omega

theorem earlier_trans {xs : List Nat} {a b c : Nat} (h : Earlier xs a b) (h' : Earlier xs b c) : Earlier xs a c := by
  rw [earlier_iff] at *; exact ⟨h'.1, by omega⟩

/-- `Prefer`, from the front. -/
def Prefers (g : Graph) : Nat → List Nat → List Nat → Prop
  | _, [], _ => False
  | _, _ :: _, [] => True
  | v, u :: p, u' :: q => Earlier (g.v v).out u u' ∨ (u = u' ∧ Prefers g u p q)

theorem endOf_snoc (c : List Nat) (u : Nat) : endOf (c ++ [u]) = u := by simp [endOf]

theorem prefers_iff {g : Graph} : ∀ p q c, Prefers g (endOf c) p q ↔ ((∃ u r, p = q ++ u :: r) ∨
    ∃ c' u r u' r', p = c' ++ u :: r ∧ q = c' ++ u' :: r' ∧ Earlier (g.v (endOf (c ++ c'))).out u u') := by
  intro p
  induction p with
  | nil =>
    intro q c
    simp [Prefers]
  | cons u p ih =>
    intro q c
    cases q with
    | nil =>
      simp only [Prefers, List.nil_append, true_iff]
      exact Or.inl ⟨u, p, rfl⟩
    | cons u' q =>
      simp only [Prefers]
      constructor
      · rintro (h | ⟨rfl, h⟩)
        · exact Or.inr ⟨[], u, p, u', q, rfl, rfl, by simpa using h⟩
        · have h' : Prefers g (endOf (c ++ [u])) p q := by rw [endOf_snoc]; exact h
          rcases (ih q (c ++ [u])).1 h' with ⟨x, r, rfl⟩ | ⟨c', x, r, x', r', rfl, rfl, he⟩
          · exact Or.inl ⟨x, r, rfl⟩
          · exact Or.inr ⟨u :: c', x, r, x', r', rfl, rfl, by simpa using he⟩
      · rintro (⟨x, r, h⟩ | ⟨c', x, r, x', r', h1, h2, he⟩)
        · rw [List.cons_append, List.cons.injEq] at h
          obtain ⟨rfl, rfl⟩ := h
          refine Or.inr ⟨rfl, ?_⟩
          have := (ih q (c ++ [u])).2 (Or.inl ⟨x, r, rfl⟩)
          rwa [endOf_snoc] at this
        · cases c' with
          | nil =>
            cases h1; cases h2
            exact Or.inl (by simpa using he)
          | cons y c' =>
            rw [List.cons_append, List.cons.injEq] at h1 h2
            obtain ⟨rfl, rfl⟩ := h1
            obtain ⟨rfl, rfl⟩ := h2
            refine Or.inr ⟨rfl, ?_⟩
            have := (ih (c' ++ x' :: r') (c ++ [u'])).2 (Or.inr ⟨c', x, r, x', r', rfl, rfl, by simpa using he⟩)
            rwa [endOf_snoc] at this

theorem prefer_iff {g : Graph} {p q : List Nat} : Prefer g p q ↔ Prefers g 0 p q := by
  have := prefers_iff (g := g) p q []
  simp only [List.nil_append] at this
  rw [show endOf [] = 0 from rfl] at this
  exact this.symm

theorem prefers_asymm {g : Graph} : ∀ p q v, Prefers g v p q → ¬ Prefers g v q p := by
  intro p
  induction p with
  | nil => intro q v h; cases h
  | cons u p ih =>
    intro q v h
    cases q with
    | nil => exact fun h => h
    | cons u' q =>
      simp only [Prefers] at h ⊢
      rintro (h' | ⟨rfl, h'⟩)
      · rcases h with h | ⟨rfl, h⟩
        · exact earlier_asymm h h'
        · exact earlier_irrefl h'
      · rcases h with h | ⟨-, h⟩
        · exact earlier_irrefl h
        · exact ih q _ h h'

theorem prefers_trans {g : Graph} : ∀ p q r v, Prefers g v p q → Prefers g v q r → Prefers g v p r := by
  intro p
  induction p with
  | nil => intro q r v h; cases h
  | cons u p ih =>
    intro q r v h h'
    cases q with
    | nil => cases h'
    | cons u' q =>
      cases r with
      | nil => trivial
      | cons u'' r =>
        simp only [Prefers] at h h' ⊢
        rcases h with h | ⟨rfl, h⟩
        · rcases h' with h' | ⟨rfl, h'⟩
          · exact Or.inl (earlier_trans h h')
          · exact Or.inl h
        · rcases h' with h' | ⟨rfl, h'⟩
          · exact Or.inl h'
          · exact Or.inr ⟨rfl, ih q r _ h h'⟩

theorem prefer_asymm' {g : Graph} {p q : List Nat} (h : Prefer g p q) : ¬ Prefer g q p := by
  rw [prefer_iff] at *; exact prefers_asymm _ _ _ h

theorem prefer_trans {g : Graph} {p q r : List Nat} (h : Prefer g p q) (h' : Prefer g q r) : Prefer g p r := by
  rw [prefer_iff] at *; exact prefers_trans _ _ _ _ h h'

theorem and_not_eq_zero {s t : BSet} : s &&& ~~~t = 0 ↔ ∀ b, s.has b = true → t.has b = true := by
  constructor
  · intro h b hb
    have : BSet.has (s &&& ~~~t) b = false := by rw [h, has_zero'']
    rw [has_and_not, hb] at this
    simpa using this
  · intro h
    apply BitVec.eq_of_getLsbD_eq
    intro i hi
    have := h (UInt8.ofNat i)
    simp only [BSet.has, UInt8.toNat_ofNat', Nat.mod_eq_of_lt hi] at this
    simp only [BitVec.getLsbD_and, BitVec.getLsbD_not, hi, decide_true, Bool.true_and]
    cases hs : s.getLsbD i with
    | false => simp
    | true => simp [this hs]

theorem keep_covered (g : Graph) {u : Nat} : ∀ ts mbs, (∀ b, (g.v u).bytes.has b = true → mbs.has b = true) →
    u ∉ keep g mbs ts := by
  intro ts
  induction ts with
  | nil => intro mbs _; simp [keep]
  | cons t ts ih =>
    intro mbs h
    have h' : u ∉ keep g (if (g.v t).isMatch then mbs ||| ((g.v t).bytes &&& ~~~mbs) else mbs) ts := by
      refine ih _ ?_
      intro b hb
      split
      · rw [has_or', h b hb]; rfl
      · exact h b hb
    simp only [keep]
    split
    · exact h'
    · rename_i ho
      rw [List.mem_cons, not_or]
      refine ⟨?_, h'⟩
      rintro rfl
      exact ho (and_not_eq_zero.2 h)

/-- What stays, stays in order. -/
theorem keep_earlier (g : Graph) {u u' : Nat} : ∀ ts mbs, u ∈ keep g mbs ts → u' ∈ keep g mbs ts →
    (Earlier ts u u' ↔ Earlier (keep g mbs ts) u u') := by
  intro ts
  induction ts with
  | nil => intro mbs h; simp [keep] at h
  | cons t ts ih =>
    intro mbs hu hu'
    -- the head stays if it is one of the two
    have hd : t = u ∨ t = u' → (g.v t).bytes &&& ~~~mbs ≠ 0 := by
      intro ht h0
      have hc := keep_covered g (u := t) (t :: ts) mbs (and_not_eq_zero.1 h0)
      rcases ht with rfl | rfl
      · exact hc hu
      · exact hc hu'
    rw [earlier_iff, earlier_iff]
    simp only [hu', (keep_sub g _ _).subset hu', true_and]
    by_cases e1 : t = u
    · subst e1
      by_cases e2 : t = u'
      · subst e2; simp
      · simp only [keep, if_neg (hd (Or.inl rfl))]
        rw [List.idxOf_cons_self, List.idxOf_cons_self, List.idxOf_cons_ne _ e2, List.idxOf_cons_ne _ e2]
        omega
    · by_cases e2 : t = u'
      · subst e2
        simp only [keep, if_neg (hd (Or.inr rfl))]
        rw [List.idxOf_cons_self, List.idxOf_cons_self]
        omega
      · rw [List.idxOf_cons_ne _ e1, List.idxOf_cons_ne _ e2]
        simp only [keep] at hu hu' ⊢
        split at hu
        · rename_i ho
          rw [if_pos ho] at hu' ⊢
          have := ih _ hu hu'
          rw [earlier_iff, earlier_iff] at this
          simp only [hu', (keep_sub g _ _).subset hu', true_and] at this
          omega
        · rename_i ho
          rw [if_neg ho] at hu' ⊢
          have hu := (List.mem_cons.1 hu).resolve_left (Ne.symm e1)
          have hu' := (List.mem_cons.1 hu').resolve_left (Ne.symm e2)
          have := ih _ hu hu'
          rw [earlier_iff, earlier_iff] at this
          simp only [hu', (keep_sub g _ _).subset hu', true_and] at this
          rw [List.idxOf_cons_ne _ e1, List.idxOf_cons_ne _ e2]
          omega

/-! ## C22 -/

theorem way_leads {g : Graph} {p w v lab} (h : Way g p w v lab) : Leads g 0 v := by
  induction h with
  | init => exact .refl 0
  | step _ hu _ ih => exact ih.snoc hu

theorem way_end {g : Graph} {p w v lab} (h : Way g p w v lab) : v = endOf p := by
  cases h with
  | init => rfl
  | step => rw [endOf_snoc]

theorem way_at {g : Graph} {p w v lab} (h : Way g p w v lab) : ∀ {c u r}, p = c ++ u :: r →
    ∃ w' lab', Way g c w' (endOf c) lab' ∧ u ∈ (g.v (endOf c)).out := by
  induction h with
  | init => intro c u r e; simp at e
  | @step p w v lab x b h hu hb ih =>
    intro c u r e
    rcases List.eq_nil_or_concat r with rfl | ⟨r', y, rfl⟩
    · obtain ⟨rfl, e2⟩ := List.append_inj' e rfl
      cases e2
      have := way_end h
      exact ⟨w, lab, this ▸ h, this ▸ hu⟩
    · simp only [List.concat_eq_append] at e
      have e' : p ++ [x] = (c ++ u :: r') ++ [y] := by rw [e]; simp
      obtain ⟨rfl, e2⟩ := List.append_inj' e' rfl
      exact ih rfl

theorem Pruned.way {g g' : Graph} (h : Pruned g g') {p w v lab} (hw : Way g' p w v lab) : Way g p w v lab := by
  induction hw with
  | init => exact .init
  | @step p w v lab u b _ hu hb ih =>
    rw [h.same.label]
    rw [h.same.bytes] at hb
    refine ih.step ?_ hb
    rw [h.reached v (way_leads ih)] at hu
    exact (keep_sub g _ _).subset hu

/-- A way either stays or passes by a match which stays. -/
theorem Pruned.way_or {g g' : Graph} (h : Pruned g g') {q w v lab} (hw : Way g q w v lab) : Way g' q w v lab ∨
    ∃ c x r w1 b w2 m lab', q = c ++ x :: r ∧ w = w1 ++ b :: w2 ∧ Way g' (c ++ [m]) (w1 ++ [b]) m ((g.v m).label.or lab') ∧
      (g.v m).isMatch = true ∧ Earlier (g.v (endOf c)).out m x := by
  induction hw with
  | init => exact Or.inl .init
  | @step p w v lab u b hp hu hb ih =>
    rcases ih with ih | ⟨c, x, r, w1, b', w2, m, lab', rfl, rfl, h1, h2, h3⟩
    · have hout := h.reached v (way_leads hp)
      rcases keep_or g (g.v v).out 0 (has_zero'' b) u hu hb with hk | ⟨m, hk, hm, hmb, he⟩
      · left
        rw [← hout] at hk
        rw [← h.same.bytes] at hb
        have := ih.step hk hb
        rwa [h.same.label] at this
      · right
        rw [← hout] at hk
        rw [← h.same.bytes] at hmb
        have := ih.step hk hmb
        rw [h.same.label] at this
        exact ⟨p, u, [], w, b, [], m, lab, rfl, rfl, this, hm, by rw [← way_end hp]; exact he⟩
    · right
      exact ⟨c, x, r ++ [u], w1, b', w2 ++ [b], m, lab', by simp, by simp, h1, h2, h3⟩

theorem Pruned.prefer {g g' : Graph} (h : Pruned g g') {p w v lab q w' v' lab'} (hp : Way g' p w v lab)
    (hq : Way g' q w' v' lab') : Prefer g p q ↔ Prefer g' p q := by
  unfold Prefer
  refine or_congr Iff.rfl ?_
  have key : ∀ c u r u' r', p = c ++ u :: r → q = c ++ u' :: r' →
      (Earlier (g.v (endOf c)).out u u' ↔ Earlier (g'.v (endOf c)).out u u') := by
    intro c u r u' r' h1 h2
    obtain ⟨w1, l1, a1, a2⟩ := way_at hp h1
    obtain ⟨w2, l2, b1, b2⟩ := way_at hq h2
    rw [h.reached _ (way_leads (h.way a1))] at a2 b2 ⊢
    exact keep_earlier g _ _ a2 b2
  constructor
  · rintro ⟨c, u, r, u', r', h1, h2, h3⟩
    exact ⟨c, u, r, u', r', h1, h2, (key c u r u' r' h1 h2).1 h3⟩
  · rintro ⟨c, u, r, u', r', h1, h2, h3⟩
    exact ⟨c, u, r, u', r', h1, h2, (key c u r u' r' h1 h2).2 h3⟩

theorem way_label {g : Graph} {l : Nat} (hl : OneLabel g l) {p w v lab} (h : Way g p w v lab) :
    lab = none ∨ lab = some l := by
  induction h with
  | init => exact Or.inl rfl
  | @step p w v lab u b _ _ _ ih =>
    cases e : (g.v u).isMatch with
    | true => right; rw [hl.matches_ u e]; rfl
    | false => rw [hl.others u e]; exact ih

theorem Pruned.wayAt {g g' : Graph} (h : Pruned g g') {off buf k s e p} (hw : WayAt g' off buf k s e p) :
    WayAt g off buf k s e p := by
  obtain ⟨h1, h2, h3, v, h4, h5⟩ := hw
  exact ⟨h1, h2, h3, v, h.way h4, by rw [← h.same.isMatch]; exact h5⟩

/-- Every match is there after pruning, or one which is preferred to it. -/
theorem Pruned.beat {g g' : Graph} {l : Nat} (hl : OneLabel g l) (h : Pruned g g') {off buf k s e q}
    (hw : WayAt g off buf k s e q) : ∃ e' p, WayAt g' off buf k s e' p ∧ e' ≤ e ∧ (p = q ∨ Prefer g p q) := by
  obtain ⟨h1, h2, h3, v, h4, h5⟩ := hw
  rcases h.way_or h4 with hw | ⟨c, x, r, w1, b, w2, m, lab', rfl, hw, h6, h7, h8⟩
  · exact ⟨e, q, ⟨h1, h2, h3, v, hw, by rw [h.same.isMatch]; exact h5⟩, Nat.le_refl _, Or.inl rfl⟩
  · have hlen : (w1 ++ b :: w2).length ≤ e - s := by
      rw [← hw]; simp
    simp only [List.length_append, List.length_cons] at hlen
    have hk : k = l := by
      rcases way_label hl h4 with e | e
      · cases e
      · exact Option.some.inj e
    refine ⟨s + (w1.length + 1), c ++ [m], ⟨h1, by omega, by omega, m, ?_, by rw [h.same.isMatch]; exact h7⟩, by omega, ?_⟩
    · have hword : (buf.drop (s - off)).take (s + (w1.length + 1) - s) = w1 ++ [b] := by
        have : s + (w1.length + 1) - s = w1.length + 1 := by omega
        rw [this]
        have ht : ((buf.drop (s - off)).take (e - s)).take (w1.length + 1) = (buf.drop (s - off)).take (w1.length + 1) := by
          rw [List.take_take]; congr 1; omega
        rw [← ht, hw, show w1 ++ b :: w2 = (w1 ++ [b]) ++ w2 by simp, List.take_append_of_le_length (by simp)]
        exact List.take_of_length_le (by simp)
      rw [hword]
      rw [hl.matches_ m h7] at h6
      rw [hk]
      exact h6
    · exact Or.inr (Or.inr ⟨c, m, [], x, r, rfl, rfl, h8⟩)

theorem Pruned.preferred {g g' : Graph} {l : Nat} (hl : OneLabel g l) (h : Pruned g g') {off buf k} : ∀ hs m,
    Preferred g off buf k m hs ↔ Preferred g' off buf k m hs := by
  intro hs
  induction hs with
  | nil =>
    intro m
    constructor
    · intro hp s e p hw
      exact hp s e p (h.wayAt hw)
    · intro hp s e p hw
      obtain ⟨e', p', hw', -⟩ := h.beat hl hw
      exact hp s e' p' hw'
  | cons x hs ih =>
    obtain ⟨s, e⟩ := x
    intro m
    simp only [Preferred, ih e]
    refine and_congr_right fun hms => and_congr ?_ Iff.rfl
    constructor
    · rintro ⟨p, hp, hbest⟩
      obtain ⟨e', p', hw', -, hpp⟩ := h.beat hl hp
      have hpeq : p' = p := by
        rcases hpp with rfl | hpp
        · rfl
        · rcases hbest s e' p' (h.wayAt hw') hms with hlt | ⟨-, hq | hq⟩
          · omega
          · exact hq
          · exact (prefer_asymm' hpp hq).elim
      subst hpeq
      obtain ⟨a1, a2, a3, v1, a4, a5⟩ := hp
      obtain ⟨b1, b2, b3, v2, b4, b5⟩ := hw'
      have hlen : ∀ {G p w v lab}, Way G p w v lab → w.length = p.length := by
        intro G p w v lab hh
        induction hh with
        | init => rfl
        | step _ _ _ ih => simp [ih]
      have he : e = e' := by
        have l1 := hlen a4
        have l2 := hlen b4
        simp only [List.length_take, List.length_drop] at l1 l2
        omega
      subst he
      refine ⟨p', ⟨b1, b2, b3, v2, b4, b5⟩, ?_⟩
      intro s' e'' q hq hms'
      rcases hbest s' e'' q (h.wayAt hq) hms' with hlt | ⟨rfl, hq'⟩
      · exact Or.inl hlt
      · refine Or.inr ⟨rfl, ?_⟩
        rcases hq' with rfl | hq'
        · exact Or.inl rfl
        · obtain ⟨-, -, -, v3, c4, -⟩ := hq
          exact Or.inr ((h.prefer b4 c4).1 hq')
    · rintro ⟨p, hp, hbest⟩
      refine ⟨p, h.wayAt hp, ?_⟩
      intro s' e' q hq hms
      obtain ⟨e'', p'', hw'', -, hpp⟩ := h.beat hl hq
      rcases hbest s' e'' p'' hw'' hms with hlt | ⟨rfl, hq'⟩
      · exact Or.inl hlt
      · refine Or.inr ⟨rfl, ?_⟩
        obtain ⟨-, -, -, v1, a1, -⟩ := hp
        obtain ⟨-, -, -, v2, a2, -⟩ := hw''
        rcases hq' with rfl | hq'
        · rcases hpp with rfl | hpp
          · exact Or.inl rfl
          · exact Or.inr hpp
        · have := (h.prefer a1 a2).2 hq'
          rcases hpp with rfl | hpp
          · exact Or.inr this
          · exact Or.inr (prefer_trans this hpp)

/-- C22: the hits to report for the pruned automaton are those for the automaton,
whatever the data. -/
theorem prune_preferred {g g' : Graph} {l : Nat} (hl : OneLabel g l) (hb : Balanced g) {fuel : Nat}
    (h : pruneBranches fuel g = some g') (off : Nat) (buf : List UInt8) (k m : Nat) (hs : List (Nat × Nat)) :
    Preferred g off buf k m hs ↔ Preferred g' off buf k m hs :=
  (pruned_of_prune hb h).preferred hl hs m

end Verif.Optimizer
