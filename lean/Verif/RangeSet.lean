/-!
# RangeSet (include/rangeset.h)

A set of numbers below `N` stored as a sorted vector of boundaries
`[a0,b0), [a1,b1), ...`.  The vector is a list of `Nat`; `std::lower_bound` and
`std::upper_bound` on a sorted vector are modelled by their defining partition
points.  Dereferencing `begin()`/`back()` of an empty vector is the outcome
`none`.
-/
namespace Verif.RangeSet

/-- The boundary vector `vec` (include/rangeset.h:444). -/
abbrev Vec := List Nat

/-- `std::lower_bound(vec.begin(), vec.end(), x) - vec.begin()`: index of the
first element not less than `x`. -/
def lowerBound (v : Vec) (x : Nat) : Nat := (v.takeWhile (fun a => decide (a < x))).length

/-- `std::upper_bound(vec.begin()+from, vec.end(), x) - vec.begin()`: index of
the first element at or after `start` that is greater than `x`. -/
def upperBound (v : Vec) (start x : Nat) : Nat :=
  start + ((v.drop start).takeWhile (fun a => decide (a ≤ x))).length

/-- include/rangeset.h:185-198 `test`. -/
def test (v : Vec) (pos : Nat) : Bool :=
  let i := lowerBound v pos
  match v[i]? with
  | none => false
  | some a => if i % 2 = 1 then decide (pos < a) else decide (pos = a)

/-- include/rangeset.h:393-435 `insert(first,last)`. -/
def insert (v : Vec) (first last : Nat) : Vec :=
  if first = last then v
  else
    let l := lowerBound v first
    let u := upperBound v l last
    if l = v.length ∨ u = 0 then
      v.take l ++ [first, last] ++ v.drop l
    else
      let insertFirst := !(l % 2 == 1)
      let insertLast := !(u % 2 == 1)
      -- l = vec.erase(l, u)
      let v1 := v.take l ++ v.drop u
      -- if (insertLast) l = vec.insert(l, last)
      let v2 := if insertLast then v1.take l ++ [last] ++ v1.drop l else v1
      -- if (insertFirst) vec.insert(l, first)
      if insertFirst then v2.take l ++ [first] ++ v2.drop l else v2

/-- include/rangeset.h:343-345 `set()`. -/
def setAll (N : Nat) : Vec := [0, N]

/-- include/rangeset.h:364-383 `flip()`.  `vec.back()` of an empty vector is
undefined behaviour (`none`); it would happen after erasing the only element of
a one-element vector. -/
def flip (N : Nat) (v : Vec) : Option Vec :=
  match v with
  | [] => some (setAll N)
  | a :: t =>
    let v1 := if a = 0 then t else 0 :: v
    match v1.getLast? with
    | none => none
    | some b => if b = N then some v1.dropLast else some (v1 ++ [N])

/-- include/rangeset.h:437-441 `erase(first,last)`. -/
def erase (N : Nat) (v : Vec) (first last : Nat) : Option Vec := do
  let v1 ← flip N v
  flip N (insert v1 first last)

/-- include/rangeset.h:347-354 `set(pos, value)`. -/
def setPos (N : Nat) (v : Vec) (pos : Nat) (value : Bool) : Option Vec :=
  if value then some (insert v pos (pos + 1)) else erase N v pos (pos + 1)

/-- include/rangeset.h:385-387 `flip(pos)`. -/
def flipPos (N : Nat) (v : Vec) (pos : Nat) : Option Vec := setPos N v pos (!test v pos)

/-- include/rangeset.h:139-147 `operator|=`: insert every range of `r`.  An odd
trailing boundary would be read past the end (`none`). -/
def union (v : Vec) : Vec → Option Vec
  | [] => some v
  | [_] => none
  | a :: b :: t => union (insert v a b) t

/-- include/rangeset.h:133-137 `operator&=`. -/
def inter (N : Nat) (v r : Vec) : Option Vec := do
  let nv ← flip N v
  let nr ← flip N r
  flip N (← union nv nr)

/-- include/rangeset.h:149-152 `operator^=`. -/
def symm (N : Nat) (v r : Vec) : Option Vec := do
  let a ← inter N v (← flip N r)
  let b ← inter N (← flip N v) r
  union a b

/-- include/rangeset.h:154-157 `operator-=`. -/
def diff (N : Nat) (v r : Vec) : Option Vec := do inter N v (← flip N r)

/-- include/rangeset.h:243-245 `any`. -/
def any (v : Vec) : Bool := !v.isEmpty

/-- include/rangeset.h:251-253 `none`. -/
def none (v : Vec) : Bool := v.isEmpty

/-- include/rangeset.h:247-249 `all`. -/
def all (N : Nat) (v : Vec) : Bool :=
  v.length == 2 && v.head? == some 0 && v.getLast? == some N

/-- include/rangeset.h:255-262 `count`; an odd trailing boundary is not read. -/
def count : Vec → Nat
  | [] => 0
  | [_] => 0
  | a :: b :: t => (b - a) + count t

/-- include/rangeset.h:264-322: the ranges an iterator visits. -/
def ranges : Vec → List (Nat × Nat)
  | [] => []
  | [_] => []
  | a :: b :: t => (a, b) :: ranges t

/-- include/rangeset.h:63-86: construction from a `std::bitset<BN>`; `fuel`
bounds the outer loop, the inner loop finds the end `j` of the run starting at
`i`.  The comparison on line 79 is against `N`, not `BN`, and is kept. -/
def runEnd (b : Nat → Bool) (BN : Nat) : Nat → Nat → Nat
  | 0, j => j
  | fuel + 1, j => if j < BN then (if b j then runEnd b BN fuel (j + 1) else j) else j

/-- See `runEnd`. -/
def fromBitsAux (N BN : Nat) (b : Nat → Bool) : Nat → Nat → Vec
  | 0, _ => []
  | fuel + 1, i =>
    if i < BN then
      if b i then
        let j := runEnd b BN BN (i + 1)
        let here : Vec := if j < BN then [i, j] else if j = N then [i, j] else []
        here ++ fromBitsAux N BN b fuel (j + 1)
      else fromBitsAux N BN b fuel (i + 1)
    else []

/-- include/rangeset.h:63-86. -/
def fromBits (N BN : Nat) (b : Nat → Bool) : Vec := fromBitsAux N BN b (BN + 1) 0

/-! ## Representation -/

/-- Strictly increasing boundaries, an even number of them, all at most `N`. -/
structure WF (N : Nat) (v : Vec) : Prop where
  sorted : v.Pairwise (· < ·)
  even : v.length % 2 = 0
  le : ∀ a ∈ v, a ≤ N

/-- Number of boundaries at or below `x`. -/
def below (v : Vec) (x : Nat) : Nat := v.countP (fun a => decide (a ≤ x))

/-- Abstraction: `x` is in the set iff an odd number of boundaries is ≤ `x`. -/
def has (v : Vec) (x : Nat) : Bool := below v x % 2 == 1

theorem takeWhile_eq_take (p : Nat → Bool) (v : Vec) :
    v.takeWhile p = v.take (v.takeWhile p).length := by
  induction v with
  | nil => rfl
  | cons a t ih => simp only [List.takeWhile_cons]; split <;> simp [← ih]

/-- On a sorted vector everything before the partition point satisfies a
downward closed predicate and nothing after it does. -/
theorem split_lt {v : Vec} (hs : v.Pairwise (· < ·)) (p : Nat → Bool)
    (hp : ∀ a b, a < b → p b → p a) :
    (∀ a ∈ v.take (v.takeWhile p).length, p a = true) ∧
    (∀ a ∈ v.drop (v.takeWhile p).length, p a = false) := by
  induction v with
  | nil => simp
  | cons a t ih =>
    have ih := ih hs.of_cons
    simp only [List.takeWhile_cons]
    by_cases h : p a
    · simp only [h, if_true, List.length_cons, List.take_succ_cons, List.mem_cons,
        List.drop_succ_cons]
      refine ⟨?_, ih.2⟩
      rintro b (rfl | hb)
      · exact h
      · exact ih.1 b hb
    · simp only [h, Bool.false_eq_true, if_false, List.length_nil, List.take_zero,
        List.drop_zero, List.mem_cons]
      refine ⟨by simp, ?_⟩
      rintro b (rfl | hb)
      · simpa using h
      · have hab := (List.pairwise_cons.1 hs).1 b hb
        cases hpb : p b with
        | false => rfl
        | true => exact absurd (hp a b hab hpb) h

theorem lowerBound_le (v : Vec) (x : Nat) : lowerBound v x ≤ v.length :=
  (List.takeWhile_sublist _).length_le

theorem lower_take {v : Vec} (hs : v.Pairwise (· < ·)) (x : Nat) :
    ∀ a ∈ v.take (lowerBound v x), a < x := by
  intro a ha
  have := (split_lt hs (fun a => decide (a < x)) (by
    intro a b hab; simp; omega)).1 a ha
  simpa using this

theorem lower_drop {v : Vec} (hs : v.Pairwise (· < ·)) (x : Nat) :
    ∀ a ∈ v.drop (lowerBound v x), x ≤ a := by
  intro a ha
  have := (split_lt hs (fun a => decide (a < x)) (by
    intro a b hab; simp; omega)).2 a ha
  simpa using this

theorem upper_mid {v : Vec} (hs : v.Pairwise (· < ·)) (l x : Nat) :
    ∀ a ∈ (v.drop l).take (upperBound v l x - l), a ≤ x := by
  intro a ha
  have := (split_lt (hs.sublist (List.drop_sublist l v)) (fun a => decide (a ≤ x)) (by
    intro a b hab; simp; omega)).1 a (by simpa [upperBound] using ha)
  simpa using this

theorem upper_drop {v : Vec} (hs : v.Pairwise (· < ·)) (l x : Nat) :
    ∀ a ∈ v.drop (upperBound v l x), x < a := by
  intro a ha
  have := (split_lt (hs.sublist (List.drop_sublist l v)) (fun a => decide (a ≤ x)) (by
    intro a b hab; simp; omega)).2 a (by simpa [upperBound] using ha)
  simpa using this

theorem upper_le {v : Vec} (l x : Nat) (hl : l ≤ v.length) : upperBound v l x ≤ v.length := by
  have := (List.takeWhile_sublist (fun a => decide (a ≤ x)) (l := v.drop l)).length_le
  simp only [List.length_drop] at this
  simp only [upperBound]
  omega

theorem le_upper (v : Vec) (l x : Nat) : l ≤ upperBound v l x := by simp [upperBound]

/-- `insert` in closed form. -/
theorem insert_eq (v : Vec) (f la : Nat) (hne : f ≠ la) (hev : v.length % 2 = 0) :
    insert v f la = v.take (lowerBound v f) ++
      ((if lowerBound v f % 2 = 0 then [f] else []) ++
       (if upperBound v (lowerBound v f) la % 2 = 0 then [la] else [])) ++
      v.drop (upperBound v (lowerBound v f) la) := by
  have hl := lowerBound_le v f
  have hlu := le_upper v (lowerBound v f) la
  have hu := upper_le (v := v) (lowerBound v f) la hl
  unfold insert
  simp only [if_neg hne]
  generalize hL : lowerBound v f = l at *
  generalize hU : upperBound v l la = u at *
  split
  · rename_i h
    rcases h with h | h
    · have hul : u = l := by omega
      subst hul
      have : u % 2 = 0 := by omega
      simp [this]
    · have h0 : l = 0 := by omega
      subst h0; subst h
      simp
  · have hlen : (v.take l).length = l := by simp; omega
    have key : ∀ (m : Vec), ((v.take l ++ m).take l) = v.take l := by
      intro m; rw [List.take_append_of_le_length (by omega), List.take_take]; simp
    have key2 : ∀ (m : Vec), ((v.take l ++ m).drop l) = m := by
      intro m
      rw [List.drop_append, hlen]
      simp
    rcases Nat.mod_two_eq_zero_or_one l with h1 | h1 <;>
    rcases Nat.mod_two_eq_zero_or_one u with h2 | h2 <;>
    simp only [h1, h2, key, key2, List.append_assoc, List.nil_append, List.cons_append,
      beq_self_eq_true, Bool.not_true, Bool.not_false, if_true, if_false, Bool.false_eq_true,
      Nat.reduceBEq, Nat.one_ne_zero]

theorem below_append (a b : Vec) (x : Nat) : below (a ++ b) x = below a x + below b x := by
  simp [below]

theorem below_cons (a : Nat) (t : Vec) (x : Nat) :
    below (a :: t) x = below t x + (if a ≤ x then 1 else 0) := by
  simp [below, List.countP_cons]

theorem below_nil (x : Nat) : below [] x = 0 := rfl

theorem below_all {a : Vec} {x : Nat} (h : ∀ b ∈ a, b ≤ x) : below a x = a.length := by
  simp only [below]
  rw [List.countP_eq_length]
  simpa using h

theorem below_none {a : Vec} {x : Nat} (h : ∀ b ∈ a, x < b) : below a x = 0 := by
  simp only [below]
  rw [List.countP_eq_zero]
  intro b hb
  have := h b hb
  simp; omega

theorem insert_wf {N : Nat} {v : Vec} (h : WF N v) {f la : Nat} (hfl : f ≤ la) (hla : la ≤ N) :
    WF N (insert v f la) := by
  by_cases hne : f = la
  · simpa [insert, hne] using h
  rw [insert_eq v f la hne h.even]
  have hl := lowerBound_le v f
  have hlu := le_upper v (lowerBound v f) la
  have hu := upper_le (v := v) (lowerBound v f) la hl
  have t1 := lower_take h.sorted f
  have t2 := upper_drop h.sorted (lowerBound v f) la
  generalize lowerBound v f = l at *
  generalize upperBound v l la = u at *
  have hs := h.sorted
  have s1 : (v.take l).Pairwise (· < ·) := hs.sublist (List.take_sublist _ _)
  have s2 : (v.drop u).Pairwise (· < ·) := hs.sublist (List.drop_sublist _ _)
  constructor
  · rw [List.pairwise_append, List.pairwise_append]
    refine ⟨⟨s1, ?_, ?_⟩, s2, ?_⟩
    · split <;> split <;> simp; omega
    · intro a ha b hb
      have := t1 a ha
      simp only [List.mem_append] at hb
      rcases hb with hb | hb <;> split at hb <;> simp at hb <;> omega
    · intro a ha b hb
      have := t2 b hb
      simp only [List.mem_append] at ha
      rcases ha with ha | ha | ha
      · have := t1 a ha; omega
      · split at ha <;> simp at ha <;> omega
      · split at ha <;> simp at ha <;> omega
  · have := h.even
    simp only [List.length_append, List.length_take, List.length_drop]
    rcases Nat.mod_two_eq_zero_or_one l with h1 | h1 <;>
    rcases Nat.mod_two_eq_zero_or_one u with h2 | h2 <;>
    simp [h1, h2] <;> omega
  · intro a ha
    simp only [List.mem_append] at ha
    rcases ha with (ha | ha | ha) | ha
    · exact h.le a (List.mem_of_mem_take ha)
    · split at ha <;> simp at ha; omega
    · split at ha <;> simp at ha; omega
    · exact h.le a (List.mem_of_mem_drop ha)

theorem insert_has {N : Nat} {v : Vec} (h : WF N v) {f la : Nat} (hfl : f ≤ la) (x : Nat) :
    has (insert v f la) x = (has v x || (decide (f ≤ x) && decide (x < la))) := by
  by_cases hne : f = la
  · subst hne
    have : (decide (f ≤ x) && decide (x < f)) = false := by simp
    simp [insert, this]
  rw [insert_eq v f la hne h.even]
  have hl := lowerBound_le v f
  have hlu := le_upper v (lowerBound v f) la
  have hu := upper_le (v := v) (lowerBound v f) la hl
  have t1 := lower_take h.sorted f
  have t1' := lower_drop h.sorted f
  have t2 := upper_drop h.sorted (lowerBound v f) la
  have t3 := upper_mid h.sorted (lowerBound v f) la
  generalize lowerBound v f = l at *
  generalize upperBound v l la = u at *
  have hv : v = v.take l ++ ((v.drop l).take (u - l) ++ v.drop u) := by
    have : v.drop u = (v.drop l).drop (u - l) := by rw [List.drop_drop]; congr 1; omega
    rw [this, List.take_append_drop, List.take_append_drop]
  have hlt : (v.take l).length = l := by simp; omega
  have hlm : ((v.drop l).take (u - l)).length = u - l := by simp; omega
  simp only [has, below_append]
  have hbv : below v x = below (v.take l) x + (below ((v.drop l).take (u - l)) x + below (v.drop u) x) := by
    conv => lhs; rw [hv]
    rw [below_append, below_append]
  have hmem_mid : ∀ a ∈ (v.drop l).take (u - l), f ≤ a := fun a ha => t1' a (List.mem_of_mem_take ha)
  by_cases hx1 : x < f
  · have b1 : below ((v.drop l).take (u - l)) x = 0 := below_none (fun b hb => by
      have := hmem_mid b hb; omega)
    have b2 : below (v.drop u) x = 0 := below_none (fun b hb => by have := t2 b hb; omega)
    have b3 : below (if l % 2 = 0 then [f] else []) x = 0 := below_none (fun b hb => by
      split at hb <;> simp at hb; omega)
    have b4 : below (if u % 2 = 0 then [la] else []) x = 0 := below_none (fun b hb => by
      split at hb <;> simp at hb; omega)
    have e1 : decide (f ≤ x) = false := by simp; omega
    rw [hbv, b1, b2, b3, b4, e1]
    simp
  · have a1 : below (v.take l) x = l := by
      rw [below_all (fun b hb => by have := t1 b hb; omega), hlt]
    have a3 : below (if l % 2 = 0 then [f] else []) x = 1 - l % 2 := by
      split
      · rw [below_all (by simp; omega)]; simp; omega
      · simp [below]; omega
    by_cases hx2 : x < la
    · have a4 : below (if u % 2 = 0 then [la] else []) x = 0 := below_none (fun b hb => by
        split at hb <;> simp at hb; omega)
      have a5 : below (v.drop u) x = 0 := below_none (fun b hb => by have := t2 b hb; omega)
      have e1 : decide (f ≤ x) = true := by simp; omega
      have e2 : decide (x < la) = true := by simpa using hx2
      rw [a1, a3, a4, a5, e1, e2]
      simp; omega
    · have a4 : below (if u % 2 = 0 then [la] else []) x = 1 - u % 2 := by
        split
        · rw [below_all (by simp; omega)]; simp; omega
        · simp [below]; omega
      have a2 : below ((v.drop l).take (u - l)) x = u - l := by
        rw [below_all (fun b hb => by have := t3 b hb; omega), hlm]
      have e2 : decide (x < la) = false := by simpa using hx2
      rw [hbv, a1, a2, a3, a4, e2]
      simp only [Bool.and_false, Bool.or_false]
      congr 1
      omega

theorem sorted_getLast_lt {v : Vec} (hs : v.Pairwise (· < ·)) {b : Nat} (hb : v.getLast? = some b) :
    v = v.dropLast ++ [b] ∧ ∀ a ∈ v.dropLast, a < b := by
  obtain ⟨w, rfl⟩ := List.getLast?_eq_some_iff.1 hb
  simp only [List.dropLast_concat, true_and]
  intro a ha
  have := (List.pairwise_append.1 hs).2.2 a ha b (by simp)
  exact this

theorem parity_flip {m n : Nat} (h : m % 2 ≠ n % 2) : (m % 2 == 1) = !(n % 2 == 1) := by
  rcases Nat.mod_two_eq_zero_or_one m with q | q <;>
  rcases Nat.mod_two_eq_zero_or_one n with r | r <;> rw [q, r] at h ⊢ <;> first | rfl | exact absurd rfl h

theorem flip_spec {N : Nat} (hN : 0 < N) {v : Vec} (h : WF N v) :
    ∃ v', flip N v = some v' ∧ WF N v' ∧ ∀ x, x < N → has v' x = !has v x := by
  cases v with
  | nil =>
    refine ⟨[0, N], rfl, ⟨by simpa using hN, by simp, by simp⟩, ?_⟩
    intro x hx
    have : ¬ N ≤ x := by omega
    simp [has, below, this]
  | cons a t =>
    -- the vector after adjusting the front
    have hs := h.sorted
    have hev := h.even
    simp only [List.length_cons] at hev
    have step1 : ∃ v1 : Vec, (if a = 0 then t else 0 :: a :: t) = v1 ∧ v1 ≠ [] ∧
        v1.Pairwise (· < ·) ∧ v1.length % 2 = 1 ∧ (∀ b ∈ v1, b ≤ N) ∧
        (∀ x, below v1 x % 2 ≠ below (a :: t) x % 2) := by
      by_cases ha : a = 0
      · subst ha
        refine ⟨t, by simp, ?_, hs.of_cons, by omega, fun b hb => h.le b (by simp [hb]), ?_⟩
        · rintro rfl; simp at hev
        · intro x; simp [below]; omega
      · refine ⟨0 :: a :: t, by simp [ha], by simp, ?_, by simp; omega, ?_, ?_⟩
        · rw [List.pairwise_cons]
          refine ⟨?_, hs⟩
          intro b hb
          rcases List.mem_cons.1 hb with rfl | hb
          · omega
          · have := (List.pairwise_cons.1 hs).1 b hb; omega
        · intro b hb
          rcases List.mem_cons.1 hb with rfl | hb
          · omega
          · exact h.le b hb
        · intro x; simp [below, List.countP_cons]; omega
    obtain ⟨v1, e1, hne, s1, o1, l1, p1⟩ := step1
    obtain ⟨b, hb⟩ : ∃ b, v1.getLast? = some b := ⟨v1.getLast hne, List.getLast?_eq_some_getLast hne⟩
    simp only [flip, e1, hb]
    obtain ⟨d1, d2⟩ := sorted_getLast_lt s1 hb
    by_cases hbN : b = N
    · refine ⟨v1.dropLast, by simp [hbN], ⟨s1.sublist (List.dropLast_sublist _), ?_, ?_⟩, ?_⟩
      · rw [List.length_dropLast]; omega
      · intro c hc; exact l1 c (List.dropLast_sublist _ |>.mem hc)
      · intro x hx
        have hb2 : below v1 x = below v1.dropLast x := by
          conv => lhs; rw [d1]
          rw [below_append, below_none (a := [b]) (by simp; omega)]; rfl
        have := p1 x
        rw [hb2] at this
        simp only [has]
        exact parity_flip this
    · have hbl : b < N := by
        have := l1 b (List.mem_of_getLast? hb); omega
      refine ⟨v1 ++ [N], by simp [hbN], ⟨?_, by simp; omega, ?_⟩, ?_⟩
      · rw [List.pairwise_append]
        refine ⟨s1, by simp, ?_⟩
        intro c hc n hn
        simp at hn; subst hn
        rw [d1] at hc
        rcases List.mem_append.1 hc with hc | hc
        · have := d2 c hc; omega
        · simp at hc; omega
      · intro c hc
        rcases List.mem_append.1 hc with hc | hc
        · exact l1 c hc
        · simp at hc; omega
      · intro x hx
        have hb2 : below (v1 ++ [N]) x = below v1 x := by
          rw [below_append, below_none (a := [N]) (by simp; omega)]; rfl
        have := p1 x
        simp only [has, hb2]
        exact parity_flip this

/-- Nothing at or above `N` is in a well-formed set. -/
theorem has_ge {N : Nat} {v : Vec} (h : WF N v) {x : Nat} (hx : N ≤ x) : has v x = false := by
  have := below_all (a := v) (x := x) (fun b hb => by have := h.le b hb; omega)
  simp [has, this, h.even]

theorem getElem?_eq_take_drop {v : Vec} {i a : Nat} (h : v[i]? = some a) :
    v = v.take i ++ a :: v.drop (i+1) := by
  obtain ⟨hi, rfl⟩ := List.getElem?_eq_some_iff.1 h
  rw [← List.drop_eq_getElem_cons hi, List.take_append_drop]

/-- `test` computes the abstraction. -/
theorem test_eq_has {N : Nat} {v : Vec} (h : WF N v) (x : Nat) : test v x = has v x := by
  have t1 := lower_take h.sorted x
  have t2 := lower_drop h.sorted x
  have hl := lowerBound_le v x
  unfold test
  generalize lowerBound v x = l at *
  have hlt : (v.take l).length = l := by simp; omega
  simp only
  cases hv : v[l]? with
  | none =>
    have : l = v.length := by
      have := List.getElem?_eq_none_iff.1 hv; omega
    subst this
    have := below_all (a := v) (x := x) (fun b hb => by have := t1 b (by simpa using hb); omega)
    simp [has, this, h.even]
  | some a =>
    have e := getElem?_eq_take_drop hv
    have hs := h.sorted
    rw [e] at hs
    have hgt : ∀ b ∈ v.drop (l+1), a < b := by
      have := (List.pairwise_append.1 hs).2.1
      exact (List.pairwise_cons.1 this).1
    have hxa : x ≤ a := t2 a (List.mem_of_getElem? (i := 0) (by rw [List.getElem?_drop]; simpa using hv))
    have hb : below v x = l + (if a ≤ x then 1 else 0) := by
      conv => lhs; rw [e]
      rw [below_append, below_all (a := v.take l) (fun b hb => by have := t1 b hb; omega), hlt]
      have : below (v.drop (l+1)) x = 0 := below_none (fun b hb => by have := hgt b hb; omega)
      have h2 : below (a :: v.drop (l+1)) x = below (v.drop (l+1)) x + (if a ≤ x then 1 else 0) := by
        simp [below, List.countP_cons]
      rw [h2, this]; omega
    simp only [has, hb]
    by_cases hax : a ≤ x
    · have hxeq : x = a := by omega
      subst hxeq
      rcases Nat.mod_two_eq_zero_or_one l with q | q <;> simp [q] <;> omega
    · rcases Nat.mod_two_eq_zero_or_one l with q | q <;> simp [q, hax] <;> omega

theorem union_spec {N : Nat} {v : Vec} (hv : WF N v) {r : Vec} (hr : WF N r) :
    ∃ v', union v r = some v' ∧ WF N v' ∧ ∀ x, has v' x = (has v x || has r x) := by
  induction v, r using union.induct with
  | case1 v => exact ⟨v, rfl, hv, by simp [has, below]⟩
  | case2 v a => have := hr.even; simp at this
  | case3 v a b t ih =>
    have hs := hr.sorted
    have hab : a < b := (List.pairwise_cons.1 hs).1 b (by simp)
    have ht : WF N t := ⟨hs.of_cons.of_cons, by have := hr.even; simp at this; omega,
      fun c hc => hr.le c (by simp [hc])⟩
    obtain ⟨v', e, w, hh⟩ := ih (insert_wf hv (by omega) (hr.le b (by simp))) ht
    refine ⟨v', by simpa [union] using e, w, ?_⟩
    intro x
    rw [hh x, insert_has hv (by omega), Bool.or_assoc]
    congr 1
    have hbt : ∀ c ∈ t, b < c := (List.pairwise_cons.1 hs.of_cons).1
    have hbel : below (a :: b :: t) x = below t x + (if b ≤ x then 1 else 0) + (if a ≤ x then 1 else 0) := by
      simp [below, List.countP_cons]
    simp only [has, hbel]
    by_cases h1 : a ≤ x
    · by_cases h2 : b ≤ x
      · have : ¬ x < b := by omega
        rw [if_pos h1, if_pos h2]
        have e : (below t x + 1 + 1) % 2 = below t x % 2 := by omega
        simp [e, h1, this]
      · have : below t x = 0 := below_none (fun c hc => by have := hbt c hc; omega)
        have h3 : x < b := by omega
        simp [h1, h2, h3, this]
    · have h2 : ¬ b ≤ x := by omega
      simp [h1, h2]

theorem inter_spec {N : Nat} (hN : 0 < N) {v : Vec} (hv : WF N v) {r : Vec} (hr : WF N r) :
    ∃ v', inter N v r = some v' ∧ WF N v' ∧ ∀ x, has v' x = (has v x && has r x) := by
  obtain ⟨nv, e1, w1, h1⟩ := flip_spec hN hv
  obtain ⟨nr, e2, w2, h2⟩ := flip_spec hN hr
  obtain ⟨u, e3, w3, h3⟩ := union_spec w1 w2
  obtain ⟨z, e4, w4, h4⟩ := flip_spec hN w3
  refine ⟨z, by simp [inter, e1, e2, e3, e4], w4, ?_⟩
  intro x
  by_cases hx : x < N
  · rw [h4 x hx, h3 x, h1 x hx, h2 x hx]; simp
  · rw [has_ge w4 (by omega), has_ge hv (by omega)]; simp

theorem diff_spec {N : Nat} (hN : 0 < N) {v : Vec} (hv : WF N v) {r : Vec} (hr : WF N r) :
    ∃ v', diff N v r = some v' ∧ WF N v' ∧ ∀ x, has v' x = (has v x && !has r x) := by
  obtain ⟨nr, e2, w2, h2⟩ := flip_spec hN hr
  obtain ⟨u, e3, w3, h3⟩ := inter_spec hN hv w2
  refine ⟨u, by simp [diff, e2, e3], w3, ?_⟩
  intro x
  by_cases hx : x < N
  · rw [h3 x, h2 x hx]
  · rw [has_ge w3 (by omega), has_ge hv (by omega)]; simp

theorem symm_spec {N : Nat} (hN : 0 < N) {v : Vec} (hv : WF N v) {r : Vec} (hr : WF N r) :
    ∃ v', symm N v r = some v' ∧ WF N v' ∧ ∀ x, has v' x = (has v x ^^ has r x) := by
  obtain ⟨nr, e2, w2, h2⟩ := flip_spec hN hr
  obtain ⟨nv, e1, w1, h1⟩ := flip_spec hN hv
  obtain ⟨a, e3, w3, h3⟩ := inter_spec hN hv w2
  obtain ⟨b, e4, w4, h4⟩ := inter_spec hN w1 hr
  obtain ⟨u, e5, w5, h5⟩ := union_spec w3 w4
  refine ⟨u, by simp [symm, e1, e2, e3, e4, e5], w5, ?_⟩
  intro x
  by_cases hx : x < N
  · rw [h5 x, h3 x, h4 x, h1 x hx, h2 x hx]; cases has v x <;> cases has r x <;> rfl
  · rw [has_ge w5 (by omega), has_ge hv (by omega), has_ge hr (by omega)]; rfl

theorem erase_spec {N : Nat} (hN : 0 < N) {v : Vec} (hv : WF N v) {f la : Nat} (hfl : f ≤ la)
    (hla : la ≤ N) : ∃ v', erase N v f la = some v' ∧ WF N v' ∧
      ∀ x, has v' x = (has v x && !(decide (f ≤ x) && decide (x < la))) := by
  obtain ⟨nv, e1, w1, h1⟩ := flip_spec hN hv
  obtain ⟨z, e2, w2, h2⟩ := flip_spec hN (insert_wf w1 hfl hla)
  refine ⟨z, by simp [erase, e1, e2], w2, ?_⟩
  intro x
  by_cases hx : x < N
  · rw [h2 x hx, insert_has w1 hfl, h1 x hx]; simp
  · rw [has_ge w2 (by omega), has_ge hv (by omega)]; simp

/-- Two well-formed vectors denoting the same set are equal. -/
theorem ext_has {N : Nat} {v w : Vec} (hv : WF N v) (hw : WF N w)
    (h : ∀ x, has v x = has w x) : v = w := by
  have sort_ext : ∀ (v w : Vec), v.Pairwise (· < ·) → w.Pairwise (· < ·) →
      (∀ x, below v x % 2 = below w x % 2) → v = w := by
    intro v
    induction v with
    | nil =>
      intro w _ hw h
      cases w with
      | nil => rfl
      | cons b u =>
        have h1 := h b
        have hb : below u b = 0 := below_none (List.pairwise_cons.1 hw).1
        rw [below_cons, below_nil, hb] at h1
        simp at h1
    | cons a t ih =>
      intro w hv hw h
      cases w with
      | nil =>
        have h1 := h a
        have hb : below t a = 0 := below_none (List.pairwise_cons.1 hv).1
        rw [below_cons, below_nil, hb] at h1
        simp at h1
      | cons b u =>
        have ht0 : ∀ x, x ≤ a → below t x = 0 := fun x hx => below_none (fun c hc => by
          have := (List.pairwise_cons.1 hv).1 c hc; omega)
        have hu0 : ∀ x, x ≤ b → below u x = 0 := fun x hx => below_none (fun c hc => by
          have := (List.pairwise_cons.1 hw).1 c hc; omega)
        have e1 : ∀ x, below (a :: t) x = below t x + (if a ≤ x then 1 else 0) := by
          intro x; simp [below, List.countP_cons]
        have e2 : ∀ x, below (b :: u) x = below u x + (if b ≤ x then 1 else 0) := by
          intro x; simp [below, List.countP_cons]
        have hab : a = b := by
          rcases Nat.lt_trichotomy a b with hlt | heq | hlt
          · have := h a
            rw [e1, e2, ht0 a (by omega), hu0 a (by omega)] at this
            have hn : ¬ b ≤ a := by omega
            simp [hn] at this
          · exact heq
          · have := h b
            rw [e1, e2, ht0 b (by omega), hu0 b (by omega)] at this
            have hn : ¬ a ≤ b := by omega
            simp [hn] at this
        subst hab
        congr 1
        apply ih u hv.of_cons hw.of_cons
        intro x
        have := h x
        rw [e1, e2] at this
        split at this <;> omega
  apply sort_ext v w hv.sorted hw.sorted
  intro x
  have := h x
  simp only [has] at this
  rcases Nat.mod_two_eq_zero_or_one (below v x) with q | q <;>
  rcases Nat.mod_two_eq_zero_or_one (below w x) with r | r <;> simp_all

/-- Counting the members below a bound. -/
theorem count_eq {N : Nat} {v : Vec} (h : WF N v) :
    count v = ((List.range N).filter (fun x => has v x)).length := by
  have gen : ∀ (v : Vec) (lo : Nat), v.Pairwise (· < ·) → v.length % 2 = 0 →
      (∀ a ∈ v, lo ≤ a ∧ a ≤ N) → lo ≤ N →
      count v = ((List.range' lo (N - lo)).filter (fun x => has v x)).length := by
    intro v
    induction v using count.induct with
    | case1 =>
      intro lo _ _ _ _
      have : (List.range' lo (N - lo)).filter (fun x => has [] x) = [] := by
        rw [List.filter_eq_nil_iff]; simp [has, below]
      rw [this]; rfl
    | case2 a => intro lo _ h; simp at h
    | case3 a b t ih =>
      intro lo hs hev hb hlo
      have hab : a < b := (List.pairwise_cons.1 hs).1 b (by simp)
      have hat : ∀ c ∈ t, b < c := (List.pairwise_cons.1 hs.of_cons).1
      have ha := hb a (by simp)
      have hbb := hb b (by simp)
      have split1 : List.range' lo (N - lo) =
          List.range' lo (a - lo) ++ List.range' a (b - a) ++ List.range' b (N - b) := by
        have h1 : N - lo = (a - lo) + ((b - a) + (N - b)) := by omega
        rw [h1, ← List.range'_append_1 (m := a - lo), ← List.range'_append_1 (m := b - a),
          List.append_assoc]
        congr 3 <;> omega
      have e1 : ∀ x, below (a :: b :: t) x = below t x + (if b ≤ x then 1 else 0) + (if a ≤ x then 1 else 0) := by
        intro x; simp [below, List.countP_cons]
      rw [split1, List.filter_append, List.filter_append, List.length_append, List.length_append]
      have p1 : (List.range' lo (a - lo)).filter (fun x => has (a :: b :: t) x) = [] := by
        rw [List.filter_eq_nil_iff]
        intro x hx
        rw [List.mem_range'_1] at hx
        have h0 : below t x = 0 := below_none (fun c hc => by have := hat c hc; omega)
        have q1 : ¬ b ≤ x := by omega
        have q2 : ¬ a ≤ x := by omega
        simp [has, e1, h0, q1, q2]
      have p2 : (List.range' a (b - a)).filter (fun x => has (a :: b :: t) x) = List.range' a (b - a) := by
        rw [List.filter_eq_self]
        intro x hx
        rw [List.mem_range'_1] at hx
        have h0 : below t x = 0 := below_none (fun c hc => by have := hat c hc; omega)
        have q1 : ¬ b ≤ x := by omega
        have q2 : a ≤ x := by omega
        simp [has, e1, h0, q1, q2]
      have p3 : (List.range' b (N - b)).filter (fun x => has (a :: b :: t) x) =
          (List.range' b (N - b)).filter (fun x => has t x) := by
        apply List.filter_congr
        intro x hx
        rw [List.mem_range'_1] at hx
        have q1 : b ≤ x := by omega
        have q2 : a ≤ x := by omega
        simp [has, e1, q1, q2]
        congr 1
        omega
      rw [p1, p2, p3, ← ih b hs.of_cons.of_cons (by simp at hev; omega) (fun c hc =>
        ⟨by have := hat c hc; omega, (hb c (by simp [hc])).2⟩) hbb.2]
      simp [count]
  have := gen v 0 h.sorted h.even (fun a ha => ⟨by omega, h.le a ha⟩) (by omega)
  rw [this, List.range_eq_range']
  simp

theorem runEnd_spec (b : Nat → Bool) (BN : Nat) : ∀ fuel j, BN ≤ j + fuel → j ≤ BN →
    j ≤ runEnd b BN fuel j ∧ runEnd b BN fuel j ≤ BN ∧
    (∀ x, j ≤ x → x < runEnd b BN fuel j → b x = true) ∧
    (runEnd b BN fuel j < BN → b (runEnd b BN fuel j) = false) := by
  intro fuel
  induction fuel with
  | zero =>
    intro j h1 h2
    refine ⟨Nat.le_refl _, h2, fun x a b => ?_, fun h => ?_⟩ <;> simp only [runEnd] at * <;> omega
  | succ n ih =>
    intro j h1 h2
    unfold runEnd
    by_cases hj : j < BN
    · rw [if_pos hj]
      cases hb : b j with
      | false => simp only [Bool.false_eq_true, if_false]; exact ⟨by omega, by omega, by omega, fun _ => hb⟩
      | true =>
        simp only [if_true]
        obtain ⟨a1, a2, a3, a4⟩ := ih (j+1) (by omega) (by omega)
        refine ⟨by omega, a2, ?_, a4⟩
        intro x hx1 hx2
        by_cases hxj : x = j
        · subst hxj; exact hb
        · exact a3 x (by omega) hx2
    · rw [if_neg hj]; exact ⟨by omega, by omega, by omega, by omega⟩

theorem has_pair {a b : Nat} {t : Vec} (hab : a < b) (ht : ∀ c ∈ t, b < c) (x : Nat) :
    has (a :: b :: t) x = ((decide (a ≤ x) && decide (x < b)) || has t x) := by
  simp only [has, below_cons]
  by_cases h1 : a ≤ x
  · by_cases h2 : b ≤ x
    · have h3 : ¬ x < b := by omega
      rw [if_pos h1, if_pos h2]
      have e : (below t x + 1 + 1) % 2 = below t x % 2 := by omega
      simp [e, h3]
    · have h3 : x < b := by omega
      have : below t x = 0 := below_none (fun c hc => by have := ht c hc; omega)
      simp [h1, h2, h3, this]
  · have h2 : ¬ b ≤ x := by omega
    simp [h1, h2]

theorem fromBitsAux_spec (N : Nat) (b : Nat → Bool) : ∀ fuel i, N < i + fuel →
    WF N (fromBitsAux N N b fuel i) ∧ (∀ a ∈ fromBitsAux N N b fuel i, i ≤ a) ∧
    (∀ x, has (fromBitsAux N N b fuel i) x = (decide (i ≤ x) && decide (x < N) && b x)) := by
  intro fuel
  induction fuel with
  | zero =>
    intro i hi
    refine ⟨⟨by simp [fromBitsAux], by simp [fromBitsAux], by simp [fromBitsAux]⟩, by simp [fromBitsAux], ?_⟩
    intro x
    have : (decide (i ≤ x) && decide (x < N)) = false := by simp; omega
    simp [fromBitsAux, has, below, this]
  | succ n ih =>
    intro i hi
    unfold fromBitsAux
    by_cases hiN : i < N
    · rw [if_pos hiN]
      cases hb : b i with
      | false =>
        simp only [Bool.false_eq_true, if_false]
        obtain ⟨w, g, h⟩ := ih (i+1) (by omega)
        refine ⟨w, fun a ha => by have := g a ha; omega, ?_⟩
        intro x
        rw [h x]
        by_cases hx : x = i
        · subst hx; simp [hb]
        · congr 2
          simp only [decide_eq_decide]; omega
      | true =>
        simp only [if_true]
        obtain ⟨r1, r2, r3, r4⟩ := runEnd_spec b N N (i+1) (by omega) (by omega)
        generalize hj : runEnd b N N (i+1) = j at *
        have hhere : (if j < N then [i, j] else if j = N then [i, j] else ([] : Vec)) = [i, j] := by
          split
          · rfl
          · rw [if_pos (by omega)]
        rw [hhere]
        obtain ⟨w, g, h⟩ := ih (j+1) (by omega)
        have hgj : ∀ c ∈ fromBitsAux N N b n (j+1), j < c := fun c hc => by
          have := g c hc; omega
        simp only [List.cons_append, List.nil_append]
        refine ⟨⟨?_, ?_, ?_⟩, ?_, ?_⟩
        · rw [List.pairwise_cons, List.pairwise_cons]
          refine ⟨?_, hgj, w.sorted⟩
          intro c hc
          rcases List.mem_cons.1 hc with rfl | hc
          · omega
          · have := hgj c hc; omega
        · have := w.even; simp only [List.length_cons]; omega
        · intro a ha
          rcases List.mem_cons.1 ha with rfl | ha
          · omega
          · rcases List.mem_cons.1 ha with rfl | ha
            · exact r2
            · exact w.le a ha
        · intro a ha
          rcases List.mem_cons.1 ha with rfl | ha
          · omega
          · rcases List.mem_cons.1 ha with rfl | ha
            · omega
            · have := hgj a ha; omega
        · intro x
          rw [has_pair (by omega) hgj, h x]
          by_cases h1 : i ≤ x
          · by_cases h2 : x < j
            · have hbx : b x = true := by
                by_cases hxi : x = i
                · subst hxi; exact hb
                · exact r3 x (by omega) h2
              have h3 : x < N := by omega
              simp [h1, h2, h3, hbx]
            · by_cases hxj : x = j
              · subst hxj
                by_cases hxN : x < N
                · have := r4 hxN; simp [this]
                · simp [hxN]
              · have h4 : j + 1 ≤ x := by omega
                simp [h1, h2, h4]
          · have h4 : ¬ j + 1 ≤ x := by omega
            simp [h1, h4]
    · rw [if_neg hiN]
      refine ⟨⟨by simp, by simp, by simp⟩, by simp, ?_⟩
      intro x
      have : (decide (i ≤ x) && decide (x < N)) = false := by simp; omega
      simp [has, below, this]

/-- Members of the visited ranges are exactly the members of the set. -/
theorem mem_ranges {N : Nat} {v : Vec} (h : WF N v) (x : Nat) :
    has v x = (ranges v).any (fun r => decide (r.1 ≤ x) && decide (x < r.2)) := by
  have gen : ∀ v : Vec, v.Pairwise (· < ·) → v.length % 2 = 0 →
      has v x = (ranges v).any (fun r => decide (r.1 ≤ x) && decide (x < r.2)) := by
    intro v
    induction v using ranges.induct with
    | case1 => intro _ _; rfl
    | case2 a => intro _ h; simp at h
    | case3 a b t ih =>
      intro hs hev
      have hab : a < b := (List.pairwise_cons.1 hs).1 b (by simp)
      rw [has_pair hab (List.pairwise_cons.1 hs.of_cons).1, ih hs.of_cons.of_cons (by simp at hev; omega)]
      simp [ranges]
  exact gen v h.sorted h.even

/-- Visited ranges are non-empty, in bounds, ascending and separated by gaps. -/
theorem ranges_sorted {N : Nat} {v : Vec} (h : WF N v) :
    (ranges v).Pairwise (fun r s => r.2 < s.1) ∧ ∀ r ∈ ranges v, r.1 < r.2 ∧ r.2 ≤ N := by
  have gen : ∀ v : Vec, v.Pairwise (· < ·) → (∀ a ∈ v, a ≤ N) →
      (ranges v).Pairwise (fun r s => r.2 < s.1) ∧ (∀ r ∈ ranges v, r.1 < r.2 ∧ r.2 ≤ N) ∧
      (∀ r ∈ ranges v, r.1 ∈ v) := by
    intro v
    induction v using ranges.induct with
    | case1 => intro _ _; simp [ranges]
    | case2 a => intro _ _; simp [ranges]
    | case3 a b t ih =>
      intro hs hle
      have hab : a < b := (List.pairwise_cons.1 hs).1 b (by simp)
      obtain ⟨i1, i2, i3⟩ := ih hs.of_cons.of_cons (fun c hc => hle c (by simp [hc]))
      refine ⟨?_, ?_, ?_⟩
      · simp only [ranges, List.pairwise_cons]
        refine ⟨fun r hr => ?_, i1⟩
        exact (List.pairwise_cons.1 hs.of_cons).1 _ (i3 r hr)
      · intro r hr
        simp only [ranges, List.mem_cons] at hr
        rcases hr with rfl | hr
        · exact ⟨hab, hle b (by simp)⟩
        · exact i2 r hr
      · intro r hr
        simp only [ranges, List.mem_cons] at hr
        rcases hr with rfl | hr
        · simp
        · have := i3 r hr; simp [this]
  have := gen v h.sorted h.le
  exact ⟨this.1, this.2.1⟩

end Verif.RangeSet
