import Verif.Props.Follow
import Verif.Props.Subset
/-!
# Determinizing keeps which match is preferred (C74)

A state of the determinized automaton stands for a list of states of the original one, in
order of preference; what it leaves after its matches is what they leave, one after the other.
-/
namespace Verif.Subset
open Verif.Nfa Verif.Regex Verif.Optimizer Verif.Label Verif.NfaBuilder Verif.Sequences

theorem same_dups {β : Type} [DecidableEq β] (l : List β) : Same (removeRightDuplicates l) l := by
  have key : ∀ (l seen : List β), nub (removeDups seen l) = (nub l).filter (· ∉ seen) := by
    intro l
    induction l with
    | nil => intro seen; rfl
    | cons x l ih =>
      intro seen
      rw [removeDups]
      split
      · next h =>
        rw [ih, nub, List.filter_cons, if_neg (by simpa using h), List.filter_filter]
        refine List.filter_congr fun y _ => ?_
        by_cases hy : y = x
        · subst hy; simp [h]
        · simp [hy]
      · next h =>
        rw [nub, ih, nub, List.filter_cons, if_pos (by simpa using h), List.filter_filter, List.filter_filter]
        congr 1
        refine List.filter_congr fun y _ => ?_
        by_cases hy : y = x
        · subst hy; simp
        · simp [hy]
  unfold Same removeRightDuplicates
  rw [key]
  exact List.filter_eq_self.2 (by simp)

theorem flatMap_one {β γ : Type} {l : List β} {f : β → List γ} {x : β} (hn : l.Nodup) (hx : x ∈ l)
    (h : ∀ y ∈ l, y ≠ x → f y = []) : l.flatMap f = f x := by
  induction l with
  | nil => cases hx
  | cons y l ih =>
    rw [List.nodup_cons] at hn
    rw [List.flatMap_cons]
    by_cases hy : y = x
    · subst hy
      have : l.flatMap f = [] := List.flatMap_eq_nil_iff.2 fun z hz => h z (by simp [hz]) (by rintro rfl; exact hn.1 hz)
      rw [this, List.append_nil]
    · rw [h y (by simp) hy, List.nil_append]
      exact ih hn.2 (by rcases List.mem_cons.1 hx with e | e; exact (hy e.symm).elim; exact e) fun z hz => h z (by simp [hz])

theorem goes_nil (g : Graph) (l v : Nat) : goes g l [] v = if (g.v v).isMatch = true ∧ (g.v v).label = some l then [[]] else [] := by
  simp only [goes, follow, only_isMatch]

theorem goes_cons (g : Graph) (l v : Nat) (b : UInt8) (w : List UInt8) : goes g l (b :: w) v =
    ((g.v v).out.flatMap fun u => if (g.v u).bytes.has b = true then goes g l w u else []) ++
      if (g.v v).isMatch = true ∧ (g.v v).label = some l then [b :: w] else [] := by
  simp only [goes, follow, only_isMatch, only_out, only_bytes]

/-- The ways from the successors for the keys, by one byte. -/
theorem succKeys_flatMap {γ : Type} (src : Graph) (heads : List Nat) (b : UInt8) (G : List Nat → List γ) :
    ((succKeys src heads).flatMap fun k => if k.1.has b = true then G k.2 else []) =
      (groups src (tails src heads b.toNat)).flatMap G := by
  have hb : b.toNat < 256 := b.toNat_lt
  unfold succKeys
  rw [List.flatMap_assoc]
  have hmem : ∀ k ∈ byteSets src heads, ∃ i < 256, k = (bytesWith src heads (tails src heads i), tails src heads i) := by
    intro k hk
    unfold byteSets at hk
    simp only [List.mem_insertionSort, List.mem_map, (removeRightDuplicates_set _).2.1, List.mem_range] at hk
    obtain ⟨_, ⟨b, hb, rfl⟩, rfl⟩ := hk
    exact ⟨b, hb, rfl⟩
  have hn : (byteSets src heads).Nodup := by
    unfold byteSets
    rw [(List.perm_insertionSort _ _).nodup_iff]
    exact (removeRightDuplicates_set _).1.map (fun _ _ e => congrArg Prod.snd e)
  have hx : (bytesWith src heads (tails src heads b.toNat), tails src heads b.toNat) ∈ byteSets src heads := by
    unfold byteSets
    simp only [List.mem_insertionSort, List.mem_map, (removeRightDuplicates_set _).2.1, List.mem_range]
    exact ⟨_, ⟨_, hb, rfl⟩, rfl⟩
  rw [flatMap_one hn hx]
  · rw [List.flatMap_map]
    have : (bytesWith src heads (tails src heads b.toNat)).has b = true := bytesWith_bit.2 ⟨hb, rfl⟩
    simp only [this, if_true]
  · intro k hk hne
    obtain ⟨i, hi, rfl⟩ := hmem k hk
    have : (bytesWith src heads (tails src heads i)).has b ≠ true := by
      intro hc
      have := (bytesWith_bit.1 (show (bytesWith src heads (tails src heads i)).getLsbD b.toNat = true from hc)).2
      exact hne (by rw [this])
    rw [List.flatMap_map]
    simp [this]

/-- What a state of the determinized automaton leaves, is what the states it stands for
leave. -/
theorem subset_goes {src dst : Graph} {tab : Key → Option Nat} {s2d : Nat → Option Nat} (hsrc : Tidy src)
    (h : Inv src dst tab s2d [] fun _ => False) (l : Nat) : ∀ w : List UInt8,
    (∀ k d, tab k = some d → Same (goes dst l w d) (k.2.flatMap (goes src l w))) ∧
    ∀ x d, s2d x = some d → Same (goes dst l w d) (goes src l w x) := by
  -- the matches of a key's state
  have hk : ∀ {k d}, tab k = some d → ∀ y : List UInt8, (if (dst.v d).isMatch = true ∧ (dst.v d).label = some l then [y] else []) =
      k.2.flatMap (fun x => if (src.v x).isMatch = true ∧ (src.v x).label = some l then [y] else []) := by
    intro k d hkd y
    obtain ⟨-, d2, d3⟩ := h.data k d hkd
    have hp : Pure src k.2 := by
      rcases h.good k d hkd with rfl | hg
      · exact .inr ⟨by simp, by simp [hsrc.root]⟩
      · exact hg.1
    have e2 : (dst.v d).isMatch = (src.v (k.2.headD 0)).isMatch := d2
    have e3 : (dst.v d).label = if (src.v (k.2.headD 0)).isMatch = true then (src.v (k.2.headD 0)).label else none := d3
    rw [e2, e3]
    clear e2 e3 d2 d3
    rcases hp with ⟨m, e, hm⟩ | ⟨hne, hm⟩
    · simp [e, hm]
    · have h0 : (src.v (k.2.headD 0)).isMatch = false := by
        cases e : k.2 with
        | nil => exact (hne e).elim
        | cons x xs => rw [e] at hm; exact hm x (by simp)
      rw [if_neg (by rw [h0]; simp)]
      symm
      refine List.flatMap_eq_nil_iff.2 fun x hx => ?_
      rw [if_neg (by rw [hm x hx]; simp)]
  have hp2 : ∀ {k d}, tab k = some d → Pure src k.2 ∨ k.2 = [0] := by
    intro k d hkd
    rcases h.good k d hkd with rfl | hg
    · exact .inr rfl
    · exact .inl hg.1
  intro w
  induction w with
  | nil =>
    constructor
    · intro k d hkd
      rw [goes_nil, hk hkd]
      have : goes src l [] = fun x => if (src.v x).isMatch = true ∧ (src.v x).label = some l then [[]] else [] :=
        funext fun x => goes_nil _ _ _
      rw [this]
      exact Same.refl _
    · intro x d hx
      obtain ⟨⟨-, c2, c3⟩, -⟩ := h.cdone x d hx (fun h => h)
      rw [goes_nil, goes_nil, c2, c3]
      exact Same.refl _
  | cons b w ih =>
    obtain ⟨ih1, ih2⟩ := ih
    -- the copies
    have hcopy : ∀ ys : List Nat, (∀ y ∈ ys, s2d y ≠ none) →
        Same ((ys.map fun y => (s2d y).getD 0).flatMap fun u => if (dst.v u).bytes.has b = true then goes dst l w u else [])
          (ys.flatMap fun y => if (src.v y).bytes.has b = true then goes src l w y else []) := by
      intro ys hys
      induction ys with
      | nil => exact Same.refl _
      | cons y ys ih =>
        rw [List.map_cons, List.flatMap_cons, List.flatMap_cons]
        refine Same.append ?_ (ih fun z hz => hys z (by simp [hz]))
        obtain ⟨d, hd⟩ := Option.ne_none_iff_exists'.1 (hys y (by simp))
        rw [hd, Option.getD_some, (h.cdone y d hd (fun h => h)).1.1]
        split
        · exact ih2 y d hd
        · exact Same.refl _
    constructor
    · intro k d hkd
      rw [goes_cons, hk hkd]
      -- first the successors, then the matches
      have hsplit : k.2.flatMap (goes src l (b :: w)) =
          (k.2.flatMap fun x => (src.v x).out.flatMap fun u => if (src.v u).bytes.has b = true then goes src l w u else []) ++
            k.2.flatMap (fun x => if (src.v x).isMatch = true ∧ (src.v x).label = some l then [b :: w] else []) := by
        have hone : ∀ x, k.2 = [x] → k.2.flatMap (goes src l (b :: w)) =
          (k.2.flatMap fun x => (src.v x).out.flatMap fun u => if (src.v u).bytes.has b = true then goes src l w u else []) ++
            k.2.flatMap (fun x => if (src.v x).isMatch = true ∧ (src.v x).label = some l then [b :: w] else []) := by
          intro x e
          rw [e]
          simp only [List.flatMap_cons, List.flatMap_nil, List.append_nil, goes_cons]
        rcases hp2 hkd with (⟨m, e, -⟩ | ⟨-, hm⟩) | e
        · exact hone m e
        · have e1 : k.2.flatMap (fun x => if (src.v x).isMatch = true ∧ (src.v x).label = some l then [b :: w] else []) = [] := by
            refine List.flatMap_eq_nil_iff.2 fun x hx => ?_
            rw [if_neg (by rw [hm x hx]; simp)]
          rw [e1, List.append_nil]
          refine List.flatMap_congr fun x hx => ?_
          rw [goes_cons, if_neg (by rw [hm x hx]; simp), List.append_nil]
        · exact hone 0 e
      rw [hsplit]
      refine Same.append ?_ (Same.refl _)
      rcases h.done k d hkd (by simp) with ⟨o1, o2⟩ | ⟨o1, o2⟩
      · rw [o1]
        have e1 : Same (((succKeys src k.2).map fun k' => (tab k').getD 0).flatMap fun u =>
            if (dst.v u).bytes.has b = true then goes dst l w u else [])
            ((succKeys src k.2).flatMap fun k' => if k'.1.has b = true then k'.2.flatMap (goes src l w) else []) := by
          clear o1 hsplit
          generalize succKeys src k.2 = ks at o2
          induction ks with
          | nil => exact Same.refl _
          | cons k' ks ih =>
            rw [List.map_cons, List.flatMap_cons, List.flatMap_cons]
            refine Same.append ?_ (ih fun z hz => o2 z (by simp [hz]))
            obtain ⟨d', hd'⟩ := Option.ne_none_iff_exists'.1 (o2 k' (by simp))
            rw [hd', Option.getD_some, (h.data k' d' hd').1]
            split
            · exact ih1 k' d' hd'
            · exact Same.refl _
        refine e1.trans ?_
        rw [succKeys_flatMap src k.2 b (fun l' => l'.flatMap (goes src l w))]
        have e2 : (groups src (tails src k.2 b.toNat)).flatMap (fun l' => l'.flatMap (goes src l w)) =
            (tails src k.2 b.toNat).flatMap (goes src l w) := by
          conv_rhs => rw [← (groups_spec src (tails src k.2 b.toNat)).1]
          generalize groups src (tails src k.2 b.toNat) = gs
          induction gs with
          | nil => rfl
          | cons x gs ih => rw [List.flatMap_cons, ih, List.flatten_cons, List.flatMap_append]
        rw [e2]
        have e3 : (k.2.flatMap fun x => (src.v x).out.flatMap fun u => if (src.v u).bytes.has b = true then goes src l w u else []) =
            (k.2.flatMap fun x => (src.v x).out.filter fun t => (src.v t).bytes.getLsbD b.toNat).flatMap (goes src l w) := by
          rw [List.flatMap_assoc]
          refine List.flatMap_congr fun x _ => ?_
          generalize (src.v x).out = ys
          induction ys with
          | nil => rfl
          | cons y ys ih =>
            rw [List.flatMap_cons, ih, List.filter_cons]
            by_cases hy : (src.v y).bytes.has b = true
            · have hy' : (src.v y).bytes.getLsbD b.toNat = true := hy
              rw [if_pos hy, if_pos hy', List.flatMap_cons]
            · have hy' : ¬ (src.v y).bytes.getLsbD b.toNat = true := hy
              rw [if_neg hy, if_neg hy', List.nil_append]
        rw [e3]
        exact Same.flatMap (same_dups _) fun x => Same.refl _
      · rw [o1]
        refine (hcopy _ o2).trans ?_
        rw [List.flatMap_assoc]
        exact Same.refl _
    · intro x d hx
      obtain ⟨⟨-, c2, c3⟩, o1, o2⟩ := h.cdone x d hx (fun h => h)
      rw [goes_cons, goes_cons, c2, c3, o1]
      exact (hcopy _ o2).append (Same.refl _)

/-- Determinizing to any depth keeps which matches are preferred. -/
theorem subset_preferred {src : Graph} (hsrc : Tidy src) {fuel limit : Nat} {d : Graph} (h : subsetDFA fuel src limit = some d)
    (hl : LabelsMatch d) {off : Nat} {buf : List UInt8} {l m : Nat} {hits : List (Nat × Nat)} :
    Compiler.Preferred d off buf l m hits ↔ Compiler.Preferred src off buf l m hits := by
  obtain ⟨tab, s2d, hi, -⟩ := subset_inv hsrc h
  rw [preferred_iff_goes hl, preferred_iff_goes ⟨hsrc.root, hsrc.labels⟩]
  refine reports_congr fun w => ?_
  have := (subset_goes hsrc hi l w).1 _ _ hi.root
  simp only [List.flatMap_cons, List.flatMap_nil, List.append_nil] at this
  exact this.head

end Verif.Subset
