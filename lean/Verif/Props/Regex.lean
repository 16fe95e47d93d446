import Verif.Regex
import Mathlib.Tactic.Ring
import Mathlib.Tactic.Tauto
/-!
# Properties of the parse tree rewrites (C47, C18, C19)
-/
namespace Verif.Regex

variable {α : Type}

/-! ## Specification: the strings a pattern denotes -/

/-- The set of byte strings a tree denotes, given what its leaves denote.
Greedy and non-greedy repetitions denote the same strings. -/
def lang (sem : α → Language UInt8) : Tree α → Language UInt8
  | .leaf a => sem a
  | .alt l r => lang sem l + lang sem r
  | .cat l r => lang sem l * lang sem r
  | .rep _ m M t => {w | ∃ k, m ≤ k ∧ (M = UNB ∨ k ≤ M) ∧ w ∈ lang sem t ^ k}
  | .look _ _ => 0

/-- The root: an empty pattern denotes just the empty string. -/
def langRoot (sem : α → Language UInt8) : Option (Tree α) → Language UInt8
  | none => 1
  | some t => lang sem t

/-- Every leaf matches at least one byte (true of all four kinds of leaf). -/
def LeafNonempty (sem : α → Language UInt8) : Prop := ∀ a, [] ∉ sem a

/-- Bounds as the parser makes them: minimum at most maximum, which is at most the
"unbounded" value; the minimum is a number. -/
def Ok : Tree α → Prop
  | .leaf _ => True
  | .alt l r => Ok l ∧ Ok r
  | .cat l r => Ok l ∧ Ok r
  | .rep _ m M t => m ≤ M ∧ M ≤ UNB ∧ m < UNB ∧ Ok t
  | .look _ t => Ok t

/-- The sum of all (finite) repetition bounds and the number of leaves in a tree. -/
def weight : Tree α → Nat
  | .leaf _ => 1
  | .alt l r => weight l + weight r
  | .cat l r => weight l + weight r
  | .rep _ m M t => m + (if M = UNB then 0 else M) + weight t
  | .look _ t => weight t

/-! ## C47: accepting the empty string -/

theorem nil_mem_mul {a b : Language UInt8} : [] ∈ a * b ↔ [] ∈ a ∧ [] ∈ b := by
  rw [Language.mem_mul]
  constructor
  · rintro ⟨x, hx, y, hy, h⟩
    rw [List.append_eq_nil_iff] at h
    obtain ⟨rfl, rfl⟩ := h
    exact ⟨hx, hy⟩
  · rintro ⟨h1, h2⟩
    exact ⟨[], h1, [], h2, rfl⟩

theorem nil_mem_pow {a : Language UInt8} {k : Nat} : [] ∈ a ^ k ↔ k = 0 ∨ [] ∈ a := by
  induction k with
  | zero => simp
  | succ k ih => rw [pow_succ, nil_mem_mul, ih]; simp only [Nat.add_eq_zero_iff, one_ne_zero, and_false, false_or]; tauto

/-- **C47.** For every parse tree, the test for zero-length matches answers yes
exactly when the tree denotes the empty string (and it always answers, unless there
is a lookaround). -/
theorem zero_length_test (sem : α → Language UInt8) (hs : LeafNonempty sem) (t : Tree α) (hok : Ok t) (b : Bool)
    (h : hasZero t = some b) : b = true ↔ [] ∈ lang sem t := by
  induction t generalizing b with
  | leaf a =>
    simp only [hasZero, Option.some.injEq] at h
    subst h
    simpa [lang] using hs a
  | look k t => simp [hasZero] at h
  | alt l r ihl ihr =>
    simp only [hasZero, bind, Option.bind] at h
    show _ ↔ [] ∈ lang sem l + lang sem r
    rw [Language.mem_add]
    cases hl : hasZero l with
    | none => simp [hl] at h
    | some c =>
      rw [hl] at h
      cases c with
      | true =>
        simp at h; subst h
        exact ⟨fun _ => Or.inl ((ihl hok.1 true hl).1 rfl), fun _ => rfl⟩
      | false =>
        have h' : hasZero r = some b := by simpa using h
        have := ihl hok.1 false hl
        have h2 := ihr hok.2 b h'
        simp at this
        rw [h2]; simp [this]
  | cat l r ihl ihr =>
    simp only [hasZero, bind, Option.bind] at h
    show _ ↔ [] ∈ lang sem l * lang sem r
    rw [nil_mem_mul]
    cases hl : hasZero l with
    | none => simp [hl] at h
    | some c =>
      rw [hl] at h
      cases c with
      | false =>
        simp at h; subst h
        have := ihl hok.1 false hl
        simp at this
        simp [this]
      | true =>
        have h' : hasZero r = some b := by simpa using h
        have h1 := (ihl hok.1 true hl).1 rfl
        have h2 := ihr hok.2 b h'
        rw [h2]; simp [h1]
  | rep ng m M t ih =>
    obtain ⟨h1, h2, h3, h4⟩ := hok
    simp only [hasZero] at h
    have key : [] ∈ lang sem (.rep ng m M t) ↔ m = 0 ∨ [] ∈ lang sem t := by
      show (∃ k, m ≤ k ∧ (M = UNB ∨ k ≤ M) ∧ [] ∈ lang sem t ^ k) ↔ _
      constructor
      · rintro ⟨k, hk, -, hw⟩
        rcases nil_mem_pow.1 hw with h0 | h0
        · left; omega
        · exact Or.inr h0
      · intro h
        exact ⟨m, Nat.le_refl _, Or.inr h1, nil_mem_pow.2 h⟩
    rw [key]
    split at h
    · next h0 => simp at h; subst h; simp [h0]
    · next h0 => rw [ih h4 b h]; simp [h0]

/-- No lookarounds. -/
def NoLook : Tree α → Prop
  | .leaf _ => True
  | .alt l r => NoLook l ∧ NoLook r
  | .cat l r => NoLook l ∧ NoLook r
  | .rep _ _ _ t => NoLook t
  | .look _ _ => False

theorem hasZero_some (t : Tree α) (h : NoLook t) : ∃ b, hasZero t = some b := by
  induction t with
  | leaf a => exact ⟨_, rfl⟩
  | look k t => exact h.elim
  | alt l r ihl ihr =>
    obtain ⟨b, hb⟩ := ihl h.1
    obtain ⟨c, hc⟩ := ihr h.2
    simp only [hasZero, hb, hc]
    cases b <;> simp
  | cat l r ihl ihr =>
    obtain ⟨b, hb⟩ := ihl h.1
    obtain ⟨c, hc⟩ := ihr h.2
    simp only [hasZero, hb, hc]
    cases b <;> simp
  | rep ng m M t ih =>
    obtain ⟨b, hb⟩ := ih h
    simp only [hasZero, hb]
    split <;> simp

/-- **C47**, as an equivalence: on every lookaround-free pattern the test gives an
answer, and the answer is whether the pattern accepts the empty string. -/
theorem zero_length_test_root (sem : α → Language UInt8) (hs : LeafNonempty sem)
    (t : Option (Tree α)) (hok : ∀ s, t = some s → Ok s ∧ NoLook s) :
    ∃ b, hasZeroRoot t = some b ∧ (b = true ↔ [] ∈ langRoot sem t) := by
  cases t with
  | none => exact ⟨true, rfl, by simp [langRoot]⟩
  | some s =>
    obtain ⟨b, hb⟩ := hasZero_some s (hok s rfl).2
    exact ⟨b, hb, zero_length_test sem hs s (hok s rfl).1 b hb⟩

/-! ## C18: language-preserving rewrites -/

theorem lang_rep_congr (sem : α → Language UInt8) {ng ng' : Bool} {m M : Nat} {t t' : Tree α}
    (h : lang sem t = lang sem t') : lang sem (.rep ng m M t) = lang sem (.rep ng' m M t') := by
  show {w | ∃ k, _} = {w | ∃ k, _}
  rw [h]

/-- Reassociation leaves the set of strings unchanged. -/
theorem assoc_lang (sem : α → Language UInt8) (t : Tree α) : lang sem (assoc t).2 = lang sem t := by
  induction t with
  | leaf a => rfl
  | look k t ih => rfl
  | rep ng m M t ih => exact lang_rep_congr sem ih
  | alt l r ihl ihr =>
    show _ = lang sem l + lang sem r
    unfold assoc
    dsimp only
    split
    · next e f h => rw [← ihl, ← ihr, h]; simp only [lang]; rw [add_assoc]
    · next t h => rw [← ihl, ← ihr]; rfl
  | cat l r ihl ihr =>
    show _ = lang sem l * lang sem r
    unfold assoc
    dsimp only
    split
    · next e f h => rw [← ihl, ← ihr, h]; simp only [lang]; rw [mul_assoc]
    · next t h => rw [← ihl, ← ihr]; rfl

theorem assoc_ok (t : Tree α) (h : Ok t) : Ok (assoc t).2 := by
  induction t with
  | leaf a => trivial
  | look k t ih => exact ih h
  | rep ng m M t ih => exact ⟨h.1, h.2.1, h.2.2.1, ih h.2.2.2⟩
  | alt l r ihl ihr =>
    have h1 := ihl h.1
    have h2 := ihr h.2
    unfold assoc
    dsimp only
    split
    · next e f h => rw [h] at h1; exact ⟨h1.1, h1.2, h2⟩
    · next t h => exact ⟨h1, h2⟩
  | cat l r ihl ihr =>
    have h1 := ihl h.1
    have h2 := ihr h.2
    unfold assoc
    dsimp only
    split
    · next e f h => rw [h] at h1; exact ⟨h1.1, h1.2, h2⟩
    · next t h => exact ⟨h1, h2⟩

theorem assoc_weight (t : Tree α) : weight (assoc t).2 = weight t := by
  induction t with
  | leaf a => rfl
  | look k t ih => exact ih
  | rep ng m M t ih => simp only [assoc, weight, ih]
  | alt l r ihl ihr =>
    unfold assoc
    dsimp only
    split
    · next e f h => rw [h] at ihl; simp only [weight] at *; omega
    · next t h => simp only [weight] at *; omega
  | cat l r ihl ihr =>
    unfold assoc
    dsimp only
    split
    · next e f h => rw [h] at ihl; simp only [weight] at *; omega
    · next t h => simp only [weight] at *; omega

variable [DecidableEq α]

omit [DecidableEq α] in
theorem mem_rep (sem : α → Language UInt8) {ng : Bool} {m M : Nat} {t : Tree α} {w : List UInt8} :
    w ∈ lang sem (.rep ng m M t) ↔ ∃ k, m ≤ k ∧ (M = UNB ∨ k ≤ M) ∧ w ∈ lang sem t ^ k := Iff.rfl

omit [DecidableEq α] in
/-- `T{a,b}T{a,b}` and `T{2a,2b}` denote the same strings. -/
theorem merge_lang (sem : α → Language UInt8) (ng : Bool) (m M : Nat) (t : Tree α)
    (hm : m ≤ M) (hw : m + m < UNB) (hw2 : M ≠ UNB → M + M < UNB) :
    lang sem (.rep ng (add32 m m) (sumMax M M) t)
      = lang sem (.rep ng m M t) * lang sem (.rep ng m M t) := by
  have e1 : add32 m m = m + m := by unfold add32; unfold UNB at hw; omega
  ext w
  rw [Language.mem_mul, mem_rep, e1]
  by_cases hU : M = UNB
  · have e2 : sumMax M M = UNB := by simp [sumMax, hU]
    constructor
    · rintro ⟨k, hk, -, hw⟩
      obtain ⟨j, rfl⟩ : ∃ j, k = m + j := ⟨k - m, by omega⟩
      rw [pow_add, Language.mem_mul] at hw
      obtain ⟨x, hx, y, hy, h⟩ := hw
      exact ⟨x, ⟨m, Nat.le_refl _, Or.inl hU, hx⟩, y, ⟨j, by omega, Or.inl hU, hy⟩, h⟩
    · rintro ⟨x, ⟨i, hi, -, hx⟩, y, ⟨j, hj, -, hy⟩, h⟩
      exact ⟨i + j, by omega, Or.inl e2, by rw [pow_add, Language.mem_mul]; exact ⟨x, hx, y, hy, h⟩⟩
  · have hw2 := hw2 hU
    have e2 : sumMax M M = M + M := by
      unfold sumMax; rw [if_neg (by simpa using hU)]; unfold add32; unfold UNB at hw2; omega
    rw [e2]
    constructor
    · rintro ⟨k, hk, hk2, hw⟩
      have hk2 : k ≤ M + M := by rcases hk2 with h | h <;> omega
      obtain ⟨i, j, hij, hi1, hi2, hj1, hj2⟩ : ∃ i j, k = i + j ∧ m ≤ i ∧ i ≤ M ∧ m ≤ j ∧ j ≤ M := by
        by_cases hkM : k ≤ m + M
        · exact ⟨m, k - m, by omega, by omega, by omega, by omega, by omega⟩
        · exact ⟨k - M, M, by omega, by omega, by omega, by omega, by omega⟩
      subst hij
      rw [pow_add, Language.mem_mul] at hw
      obtain ⟨x, hx, y, hy, h⟩ := hw
      exact ⟨x, ⟨i, hi1, Or.inr hi2, hx⟩, y, ⟨j, hj1, Or.inr hj2, hy⟩, h⟩
    · rintro ⟨x, ⟨i, hi, hi2, hx⟩, y, ⟨j, hj, hj2, hy⟩, h⟩
      refine ⟨i + j, by omega, Or.inr ?_, by rw [pow_add, Language.mem_mul]; exact ⟨x, hx, y, hy, h⟩⟩
      rcases hi2 with h | h <;> rcases hj2 with h' | h' <;> omega

omit [DecidableEq α] in
/-- What the merged repetition keeps. -/
theorem merge_ok {ng : Bool} {m M : Nat} {t : Tree α} (h : Ok (.rep ng m M t))
    (hw : m + m < UNB) (hw2 : M ≠ UNB → M + M < UNB) :
    Ok (.rep ng (add32 m m) (sumMax M M) t) ∧
    weight (.rep ng (add32 m m) (sumMax M M) t) ≤ weight (.rep ng m M t) + weight (.rep ng m M t) := by
  have e1 : add32 m m = m + m := by unfold add32; unfold UNB at hw; omega
  obtain ⟨h1, h2, h3, h4⟩ := h
  by_cases hU : M = UNB
  · have e2 : sumMax M M = UNB := by simp [sumMax, hU]
    rw [e1, e2]
    refine ⟨⟨by omega, Nat.le_refl _, hw, h4⟩, ?_⟩
    simp only [weight, hU, if_true]; omega
  · have hw2 := hw2 hU
    have e2 : sumMax M M = M + M := by
      unfold sumMax; rw [if_neg (by simpa using hU)]; unfold add32; unfold UNB at hw2; omega
    rw [e1, e2]
    refine ⟨⟨by omega, by omega, by omega, h4⟩, ?_⟩
    simp only [weight, if_neg hU, if_neg (show M + M ≠ UNB by omega)]; omega

omit [DecidableEq α] in
theorem weight_rep_bounds {ng : Bool} {m M : Nat} {t : Tree α} {n : Nat}
    (h : weight (.rep ng m M t) + weight (.rep ng m M t) + n < UNB) :
    m + m < UNB ∧ (M ≠ UNB → M + M < UNB) := by
  simp only [weight] at h
  refine ⟨by omega, fun hU => ?_⟩
  rw [if_neg hU] at h; omega

/-- Merging consecutive equal repetitions leaves the set of strings unchanged. -/
theorem combine_spec (sem : α → Language UInt8) (t : Tree α) (hok : Ok t) (hw : weight t < UNB)
    (q : Bool × Tree α) (h : combine t = some q) :
    lang sem q.2 = lang sem t ∧ Ok q.2 ∧ weight q.2 ≤ weight t := by
  induction t generalizing q with
  | leaf a => simp only [combine, Option.some.injEq] at h; subst h; exact ⟨rfl, trivial, Nat.le_refl _⟩
  | look k t => simp [combine] at h
  | rep ng m M t ih =>
    simp only [combine, bind, Option.bind] at h
    split at h
    · cases h
    · next r' hr =>
      simp only [Option.some.injEq] at h; subst h
      have hw' : weight t < UNB := by simp only [weight] at hw; omega
      obtain ⟨h1, h2, h3⟩ := ih hok.2.2.2 hw' r' hr
      refine ⟨lang_rep_congr sem h1, ⟨hok.1, hok.2.1, hok.2.2.1, h2⟩, ?_⟩
      simp only [weight]; omega
  | alt l r ihl ihr =>
    simp only [combine, Option.bind_eq_bind, Option.bind_eq_some_iff] at h
    obtain ⟨l', hl, r', hr, h⟩ := h
    simp only [Option.some.injEq] at h; subst h
    simp only [weight] at hw
    obtain ⟨h1, h2, h3⟩ := ihl hok.1 (by omega) l' hl
    obtain ⟨g1, g2, g3⟩ := ihr hok.2 (by omega) r' hr
    refine ⟨?_, ⟨h2, g2⟩, ?_⟩
    · simp only [lang]; rw [h1, g1]
    · simp only [weight]; omega
  | cat l r ihl ihr =>
    simp only [combine, Option.bind_eq_bind, Option.bind_eq_some_iff] at h
    obtain ⟨l', hl, r', hr, h⟩ := h
    simp only [weight] at hw
    obtain ⟨h1, h2, h3⟩ := ihl hok.1 (by omega) l' hl
    obtain ⟨g1, g2, g3⟩ := ihr hok.2 (by omega) r' hr
    show _ = lang sem l * lang sem r ∧ _
    rw [← h1, ← g1]
    split at h
    · next ng m M t ng' m' M' t' el er =>
      rw [el] at h1 h2 h3
      rw [er] at g1 g2 g3
      rw [el, er]
      split at h
      · next hc =>
        obtain ⟨rfl, rfl, rfl, rfl⟩ := hc
        simp only [Option.some.injEq] at h; subst h
        obtain ⟨b1, b2⟩ := weight_rep_bounds (ng := ng) (m := m) (M := M) (t := t) (n := 0) (by omega)
        obtain ⟨k1, k2⟩ := merge_ok h2 b1 b2
        refine ⟨merge_lang sem ng m M t h2.1 b1 b2, k1, ?_⟩
        show weight (.rep ng (add32 m m) (sumMax M M) t) ≤ weight l + weight r
        omega
      · simp only [Option.some.injEq] at h; subst h
        refine ⟨rfl, ⟨h2, g2⟩, ?_⟩
        show weight (Tree.rep ng m M t) + weight (Tree.rep ng' m' M' t') ≤ weight l + weight r
        omega
    · next ng m M t ng' m' M' t' s el er =>
      rw [el] at h1 h2 h3
      rw [er] at g1 g2 g3
      rw [el, er]
      split at h
      · next hc =>
        obtain ⟨rfl, rfl, rfl, rfl⟩ := hc
        simp only [Option.some.injEq] at h; subst h
        have g3' : weight (Tree.rep ng m M t) + weight s ≤ weight r := g3
        obtain ⟨b1, b2⟩ := weight_rep_bounds (ng := ng) (m := m) (M := M) (t := t) (n := weight s) (by omega)
        obtain ⟨k1, k2⟩ := merge_ok h2 b1 b2
        refine ⟨?_, ⟨k1, g2.2⟩, ?_⟩
        · show lang sem (.rep ng (add32 m m) (sumMax M M) t) * lang sem s
            = lang sem (.rep ng m M t) * (lang sem (.rep ng m M t) * lang sem s)
          rw [merge_lang sem ng m M t h2.1 b1 b2, mul_assoc]
        · show weight (.rep ng (add32 m m) (sumMax M M) t) + weight s ≤ weight l + weight r
          omega
      · simp only [Option.some.injEq] at h; subst h
        refine ⟨rfl, ⟨h2, g2⟩, ?_⟩
        show weight (Tree.rep ng m M t) + weight (Tree.cat (.rep ng' m' M' t') s) ≤ weight l + weight r
        omega
    · simp only [Option.some.injEq] at h; subst h
      refine ⟨rfl, ⟨h2, g2⟩, ?_⟩
      show weight l'.2 + weight r'.2 ≤ _
      simp only [weight]; omega

omit [DecidableEq α] in
theorem prune_lang (sem : α → Language UInt8) (t : Tree α) : lang sem (prune t) = lang sem t := by
  induction t with
  | rep ng m M t ih =>
    unfold prune
    split
    · next h =>
      obtain ⟨rfl, rfl⟩ := h
      rw [ih]
      ext w
      rw [mem_rep]
      constructor
      · intro h; exact ⟨1, Nat.le_refl _, Or.inr (Nat.le_refl _), by rw [pow_one]; exact h⟩
      · rintro ⟨k, hk, hk2, hw⟩
        have : k = 1 := by
          rcases hk2 with h | h
          · simp [UNB] at h
          · omega
        subst this
        rwa [pow_one] at hw
    · split
      · exact lang_rep_congr sem rfl
      · rfl
  | _ => rfl

omit [DecidableEq α] in
/-- Removing `{1}` leaves the set of strings unchanged. -/
theorem useless_lang (sem : α → Language UInt8) (t t' : Tree α) (h : useless t = some t') :
    lang sem t' = lang sem t := by
  induction t using useless.induct generalizing t' with
  | case1 a => simp only [useless, Option.some.injEq] at h; subst h; rfl
  | case2 k t => simp [useless] at h
  | case3 ng m M t ih =>
    simp only [useless, bind, Option.bind] at h
    split at h
    · cases h
    · next s hs =>
      simp only [Option.some.injEq] at h; subst h
      exact lang_rep_congr sem ((ih s hs).trans (prune_lang sem t))
  | case4 l r ihl ihr =>
    simp only [useless, Option.bind_eq_bind, Option.bind_eq_some_iff] at h
    obtain ⟨s, hs, u, hu, h⟩ := h
    simp only [Option.some.injEq] at h; subst h
    simp only [lang]
    rw [ihl s hs, ihr u hu, prune_lang, prune_lang]
  | case5 l r ihl ihr =>
    simp only [useless, Option.bind_eq_bind, Option.bind_eq_some_iff] at h
    obtain ⟨s, hs, u, hu, h⟩ := h
    simp only [Option.some.injEq] at h; subst h
    simp only [lang]
    rw [ihl s hs, ihr u hu, prune_lang, prune_lang]

/-! ### Removing empty subtrees -/

/-- No alternation has a left branch that the code takes to match only the empty
string, unless it takes the right branch to do so as well. -/
def AltOk : Tree α → Prop
  | .leaf _ => True
  | .alt l r => (onlyZero l = some true → onlyZero r = some true) ∧ AltOk l ∧ AltOk r
  | .cat l r => AltOk l ∧ AltOk r
  | .rep _ _ _ t => AltOk t
  | .look _ t => AltOk t

/-- No repetition `{0}` anywhere. -/
def NoDead : Tree α → Prop
  | .leaf _ => True
  | .alt l r => NoDead l ∧ NoDead r
  | .cat l r => NoDead l ∧ NoDead r
  | .rep _ m M t => ¬ (m = 0 ∧ M = 0) ∧ NoDead t
  | .look _ t => NoDead t

omit [DecidableEq α] in
theorem pow_one_lang (k : Nat) : (1 : Language UInt8) ^ k = 1 := one_pow k

omit [DecidableEq α] in
theorem onlyZero_alt {l r : Tree α} : onlyZero (.alt l r) = onlyZero l := rfl

omit [DecidableEq α] in
theorem onlyZero_cat_true {l r : Tree α} :
    onlyZero (.cat l r) = some true ↔ onlyZero l = some true ∧ onlyZero r = some true := by
  simp only [onlyZero, bind, Option.bind]
  cases onlyZero l with
  | none => simp
  | some b => cases b <;> simp

omit [DecidableEq α] in
theorem onlyZero_rep_true {ng : Bool} {m M : Nat} {t : Tree α} :
    onlyZero (.rep ng m M t) = some true ↔ (m = 0 ∧ M = 0) ∨ onlyZero t = some true := by
  simp only [onlyZero]
  split
  · next h => simp [h]
  · next h => simp [h]

omit [DecidableEq α] in
/-- Where alternations are as above, what the code takes to match only the empty
string does. -/
theorem onlyZero_lang (sem : α → Language UInt8) (t : Tree α) (hok : Ok t) (ha : AltOk t)
    (h : onlyZero t = some true) : lang sem t = 1 := by
  induction t with
  | leaf a => simp [onlyZero] at h
  | look k t => simp [onlyZero] at h
  | alt l r ihl ihr =>
    simp only [lang]
    rw [ihl hok.1 ha.2.1 h, ihr hok.2 ha.2.2 (ha.1 h)]
    ext w; simp
  | cat l r ihl ihr =>
    obtain ⟨h1, h2⟩ := onlyZero_cat_true.1 h
    simp only [lang]
    rw [ihl hok.1 ha.1 h1, ihr hok.2 ha.2 h2, one_mul]
  | rep ng m M t ih =>
    ext w
    rw [mem_rep]
    rcases onlyZero_rep_true.1 h with ⟨rfl, rfl⟩ | h
    · constructor
      · rintro ⟨k, -, hk, hw⟩
        have : k = 0 := by
          rcases hk with h | h
          · simp [UNB] at h
          · omega
        subst this; simpa using hw
      · intro hw; exact ⟨0, Nat.le_refl _, Or.inr (Nat.le_refl _), by simpa using hw⟩
    · rw [ih hok.2.2.2 ha h]
      simp only [one_pow]
      constructor
      · rintro ⟨k, -, -, hw⟩; exact hw
      · intro hw; exact ⟨m, Nat.le_refl _, Or.inr hok.1, hw⟩

omit [DecidableEq α] in
theorem dead_lang (sem : α → Language UInt8) (x : α) : lang sem (.rep false 0 0 (.leaf x)) = 1 :=
  onlyZero_lang sem _ ⟨Nat.le_refl _, by simp [UNB], by simp [UNB], trivial⟩
    (show AltOk (.rep false 0 0 (.leaf x)) from trivial) (by simp [onlyZero])

omit [DecidableEq α] in
theorem onlyZero_some (t : Tree α) (h : NoLook t) : ∃ b, onlyZero t = some b := by
  induction t with
  | leaf a => exact ⟨_, rfl⟩
  | look k t => exact h.elim
  | alt l r ihl ihr => exact ihl h.1
  | cat l r ihl ihr =>
    obtain ⟨b, hb⟩ := ihl h.1
    obtain ⟨c, hc⟩ := ihr h.2
    simp only [onlyZero, hb, hc]
    cases b <;> simp
  | rep ng m M t ih =>
    obtain ⟨b, hb⟩ := ih h
    simp only [onlyZero, hb]
    split <;> simp

omit [DecidableEq α] in
theorem onlyZero_ne_true {t : Tree α} (h : NoLook t) (hn : onlyZero t ≠ some true) :
    onlyZero t = some false := by
  obtain ⟨b, hb⟩ := onlyZero_some t h
  cases b
  · exact hb
  · exact absurd hb hn

omit [DecidableEq α] in
/-- Everything about removing empty subtrees at once: it succeeds; it does not change
which subtrees the code takes to match only the empty string; no `{0}` is left; and
where alternations are as above, the set of strings is unchanged. -/
theorem reduceEmpty_spec (sem : α → Language UInt8) (x : α) (t : Tree α) (hok : Ok t) (hn : NoLook t) :
    ∃ t', reduceEmpty x t = some t' ∧ Ok t' ∧ NoLook t' ∧ onlyZero t' = onlyZero t ∧
      (onlyZero t = some false → NoDead t') ∧
      (AltOk t → AltOk t' ∧ lang sem t' = lang sem t) := by
  induction t with
  | leaf a => exact ⟨_, rfl, trivial, trivial, rfl, fun _ => trivial, fun _ => ⟨trivial, rfl⟩⟩
  | look k t => exact hn.elim
  | rep ng m M t ih =>
    obtain ⟨t', e, o1, n1, z1, d1, l1⟩ := ih hok.2.2.2 hn
    by_cases hz : onlyZero (.rep ng m M t) = some true
    · refine ⟨.rep false 0 0 (.leaf x), ?_, ⟨by omega, by simp [UNB], by simp [UNB], trivial⟩, trivial, ?_, ?_, ?_⟩
      · simp [reduceEmpty, hz]
      · rw [hz]; simp [onlyZero]
      · rw [hz]; simp
      · intro ha
        refine ⟨trivial, ?_⟩
        rw [onlyZero_lang sem _ hok ha hz, dead_lang]
    · have hz' := onlyZero_ne_true (t := .rep ng m M t) hn hz
      rw [onlyZero_rep_true, not_or] at hz
      have hzt := onlyZero_ne_true (t := t) hn hz.2
      refine ⟨.rep ng m M t', by simp [reduceEmpty, hz', e], ⟨hok.1, hok.2.1, hok.2.2.1, o1⟩, n1, ?_, ?_, ?_⟩
      · simp only [onlyZero, z1]
      · intro _; exact ⟨hz.1, d1 hzt⟩
      · intro ha; exact ⟨(l1 ha).1, lang_rep_congr sem (l1 ha).2⟩
  | alt l r ihl ihr =>
    obtain ⟨l', el, ol, nl, zl, dl, ll⟩ := ihl hok.1 hn.1
    obtain ⟨r', er, or', nr, zr, dr, lr⟩ := ihr hok.2 hn.2
    by_cases hz : onlyZero (.alt l r) = some true
    · refine ⟨.rep false 0 0 (.leaf x), ?_, ⟨by omega, by simp [UNB], by simp [UNB], trivial⟩, trivial, ?_, ?_, ?_⟩
      · simp [reduceEmpty, hz]
      · rw [hz]; simp [onlyZero]
      · rw [hz]; simp
      · intro ha
        refine ⟨trivial, ?_⟩
        rw [onlyZero_lang sem _ hok ha hz, dead_lang]
    · have hz' := onlyZero_ne_true (t := .alt l r) hn hz
      have e1 : reduceEmpty x (.alt l r) = fixDead (.alt l' r') := by
        simp [reduceEmpty, hz', el, er]
      rw [e1]
      have hzl : onlyZero l = some false := hz'
      by_cases hr : onlyZero r = some true
      · have hr' : onlyZero r' = some true := zr.trans hr
        refine ⟨.rep false 0 1 l', by simp [fixDead, hr'], ⟨by omega, by simp [UNB], by simp [UNB], ol⟩, nl, ?_, ?_, ?_⟩
        · rw [hz']; simp [onlyZero, zl, hzl]
        · intro _; exact ⟨by omega, dl hzl⟩
        · intro ha
          refine ⟨(ll ha.2.1).1, ?_⟩
          have h1 : lang sem r = 1 := onlyZero_lang sem r hok.2 ha.2.2 hr
          have h2 := (ll ha.2.1).2
          ext w
          rw [mem_rep, h2]
          show _ ↔ w ∈ lang sem l + lang sem r
          rw [h1, Language.mem_add]
          constructor
          · rintro ⟨k, -, hk, hw⟩
            have : k = 0 ∨ k = 1 := by
              rcases hk with h | h
              · simp [UNB] at h
              · omega
            rcases this with rfl | rfl
            · right; simpa using hw
            · left; simpa using hw
          · rintro (h | h)
            · exact ⟨1, by omega, Or.inr (by omega), by simpa using h⟩
            · exact ⟨0, by omega, Or.inr (by omega), by simpa using h⟩
      · have hrf := onlyZero_ne_true hn.2 hr
        have hr' : onlyZero r' = some false := zr.trans hrf
        refine ⟨.alt l' r', by simp [fixDead, hr'], ⟨ol, or'⟩, ⟨nl, nr⟩, ?_, ?_, ?_⟩
        · exact zl
        · intro _; exact ⟨dl hzl, dr hrf⟩
        · intro ha
          refine ⟨⟨?_, (ll ha.2.1).1, (lr ha.2.2).1⟩, ?_⟩
          · rw [zl, hzl]; simp
          · simp only [lang]; rw [(ll ha.2.1).2, (lr ha.2.2).2]
  | cat l r ihl ihr =>
    obtain ⟨l', el, ol, nl, zl, dl, ll⟩ := ihl hok.1 hn.1
    obtain ⟨r', er, or', nr, zr, dr, lr⟩ := ihr hok.2 hn.2
    by_cases hz : onlyZero (.cat l r) = some true
    · refine ⟨.rep false 0 0 (.leaf x), ?_, ⟨by omega, by simp [UNB], by simp [UNB], trivial⟩, trivial, ?_, ?_, ?_⟩
      · simp [reduceEmpty, hz]
      · rw [hz]; simp [onlyZero]
      · rw [hz]; simp
      · intro ha
        refine ⟨trivial, ?_⟩
        rw [onlyZero_lang sem _ hok ha hz, dead_lang]
    · have hz' := onlyZero_ne_true (t := .cat l r) hn hz
      have e1 : reduceEmpty x (.cat l r) = fixDead (.cat l' r') := by
        simp [reduceEmpty, hz', el, er]
      rw [e1]
      rw [onlyZero_cat_true] at hz
      by_cases hl : onlyZero l = some true
      · have hl' : onlyZero l' = some true := zl.trans hl
        have hrf := onlyZero_ne_true hn.2 (fun h => hz ⟨hl, h⟩)
        refine ⟨r', by simp [fixDead, hl'], or', nr, ?_, ?_, ?_⟩
        · rw [hz', zr, hrf]
        · intro _; exact dr hrf
        · intro ha
          refine ⟨(lr ha.2).1, ?_⟩
          simp only [lang]
          rw [(lr ha.2).2, onlyZero_lang sem l hok.1 ha.1 hl, one_mul]
      · have hlf := onlyZero_ne_true hn.1 hl
        have hl' : onlyZero l' = some false := zl.trans hlf
        by_cases hr : onlyZero r = some true
        · have hr' : onlyZero r' = some true := zr.trans hr
          refine ⟨l', by simp [fixDead, hl', hr'], ol, nl, ?_, ?_, ?_⟩
          · rw [hz', zl, hlf]
          · intro _; exact dl hlf
          · intro ha
            refine ⟨(ll ha.1).1, ?_⟩
            simp only [lang]
            rw [(ll ha.1).2, onlyZero_lang sem r hok.2 ha.2 hr, mul_one]
        · have hrf := onlyZero_ne_true hn.2 hr
          have hr' : onlyZero r' = some false := zr.trans hrf
          refine ⟨.cat l' r', by simp [fixDead, hl', hr'], ⟨ol, or'⟩, ⟨nl, nr⟩, ?_, ?_, ?_⟩
          · rw [hz']; simp [onlyZero, hl']
          · intro _; exact ⟨dl hlf, dr hrf⟩
          · intro ha
            refine ⟨⟨(ll ha.1).1, (lr ha.2).1⟩, ?_⟩
            simp only [lang]; rw [(ll ha.1).2, (lr ha.2).2]

/-! ### The remaining passes keep what the last ones need -/

omit [DecidableEq α] in
theorem prune_keeps (t : Tree α) (hok : Ok t) (hn : NoLook t) :
    Ok (prune t) ∧ NoLook (prune t) ∧ (NoDead t → NoDead (prune t)) := by
  induction t with
  | rep ng m M t ih =>
    unfold prune
    split
    · obtain ⟨h1, h2, h3⟩ := ih hok.2.2.2 hn
      exact ⟨h1, h2, fun h => h3 h.2⟩
    · split
      · exact ⟨hok, hn, fun h => h⟩
      · exact ⟨hok, hn, fun h => h⟩
  | _ => exact ⟨hok, hn, fun h => h⟩

omit [DecidableEq α] in
theorem useless_keeps (t : Tree α) (hok : Ok t) (hn : NoLook t) :
    ∃ t', useless t = some t' ∧ Ok t' ∧ NoLook t' ∧ (NoDead t → NoDead t') := by
  induction t using useless.induct with
  | case1 a => exact ⟨_, by rw [useless], hok, hn, fun h => h⟩
  | case2 k t => exact hn.elim
  | case3 ng m M t ih =>
    obtain ⟨p1, p2, p3⟩ := prune_keeps t hok.2.2.2 hn
    obtain ⟨t', e, h1, h2, h3⟩ := ih p1 p2
    exact ⟨.rep ng m M t', by rw [useless, e]; rfl, ⟨hok.1, hok.2.1, hok.2.2.1, h1⟩, h2,
      fun h => ⟨h.1, h3 (p3 h.2)⟩⟩
  | case4 l r ihl ihr =>
    obtain ⟨p1, p2, p3⟩ := prune_keeps l hok.1 hn.1
    obtain ⟨q1, q2, q3⟩ := prune_keeps r hok.2 hn.2
    obtain ⟨l', e, h1, h2, h3⟩ := ihl p1 p2
    obtain ⟨r', e', g1, g2, g3⟩ := ihr q1 q2
    exact ⟨.alt l' r', by rw [useless, e, e']; rfl, ⟨h1, g1⟩, ⟨h2, g2⟩,
      fun h => ⟨h3 (p3 h.1), g3 (q3 h.2)⟩⟩
  | case5 l r ihl ihr =>
    obtain ⟨p1, p2, p3⟩ := prune_keeps l hok.1 hn.1
    obtain ⟨q1, q2, q3⟩ := prune_keeps r hok.2 hn.2
    obtain ⟨l', e, h1, h2, h3⟩ := ihl p1 p2
    obtain ⟨r', e', g1, g2, g3⟩ := ihr q1 q2
    exact ⟨.cat l' r', by rw [useless, e, e']; rfl, ⟨h1, g1⟩, ⟨h2, g2⟩,
      fun h => ⟨h3 (p3 h.1), g3 (q3 h.2)⟩⟩

omit [DecidableEq α] in
theorem assoc_noLook (t : Tree α) (h : NoLook t) : NoLook (assoc t).2 := by
  induction t with
  | leaf a => trivial
  | look k t ih => exact h.elim
  | rep ng m M t ih => exact ih h
  | alt l r ihl ihr =>
    have h1 := ihl h.1
    have h2 := ihr h.2
    unfold assoc
    dsimp only
    split
    · next e f h => rw [h] at h1; exact ⟨h1.1, h1.2, h2⟩
    · next t h => exact ⟨h1, h2⟩
  | cat l r ihl ihr =>
    have h1 := ihl h.1
    have h2 := ihr h.2
    unfold assoc
    dsimp only
    split
    · next e f h => rw [h] at h1; exact ⟨h1.1, h1.2, h2⟩
    · next t h => exact ⟨h1, h2⟩

omit [DecidableEq α] in
theorem assoc_flag (t : Tree α) (h : (assoc t).1 = false) : (assoc t).2 = t := by
  induction t with
  | leaf a => rfl
  | look k t ih => exact congrArg (Tree.look k) (ih h)
  | rep ng m M t ih => exact congrArg (Tree.rep ng m M) (ih h)
  | alt l r ihl ihr =>
    unfold assoc at h ⊢
    dsimp only at h ⊢
    split at h
    · simp at h
    · simp only [Bool.or_eq_false_iff] at h
      rw [ihl h.1, ihr h.2]
  | cat l r ihl ihr =>
    unfold assoc at h ⊢
    dsimp only at h ⊢
    split at h
    · simp at h
    · simp only [Bool.or_eq_false_iff] at h
      rw [ihl h.1, ihr h.2]

/-- The last step of `combine` on a concatenation whose children are done. -/
theorem combine_cat {l r : Tree α} {l' r' q : Bool × Tree α} (hl : combine l = some l')
    (hr : combine r = some r') (h : combine (.cat l r) = some q) :
    (q = (l'.1 || r'.1, .cat l'.2 r'.2)) ∨
    (∃ ng m M t, l'.2 = .rep ng m M t ∧ r'.2 = .rep ng m M t ∧
      q = (true, .rep ng (add32 m m) (sumMax M M) t)) ∨
    (∃ ng m M t s, l'.2 = .rep ng m M t ∧ r'.2 = .cat (.rep ng m M t) s ∧
      q = (true, .cat (.rep ng (add32 m m) (sumMax M M) t) s)) := by
  simp only [combine, hl, hr, Option.bind_eq_bind, Option.bind_some] at h
  split at h
  · next ng m M t ng' m' M' t' el er =>
    split at h
    · next hc =>
      obtain ⟨rfl, rfl, rfl, rfl⟩ := hc
      simp only [Option.some.injEq] at h
      exact Or.inr (Or.inl ⟨ng, m, M, t, el, er, h.symm⟩)
    · simp only [Option.some.injEq] at h
      left; rw [el, er]; exact h.symm
  · next ng m M t ng' m' M' t' s el er =>
    split at h
    · next hc =>
      obtain ⟨rfl, rfl, rfl, rfl⟩ := hc
      simp only [Option.some.injEq] at h
      exact Or.inr (Or.inr ⟨ng, m, M, t, s, el, er, h.symm⟩)
    · simp only [Option.some.injEq] at h
      left; rw [el, er]; exact h.symm
  · simp only [Option.some.injEq] at h
    exact Or.inl h.symm

theorem combine_some (t : Tree α) (h : NoLook t) : ∃ q, combine t = some q ∧ NoLook q.2 := by
  induction t with
  | leaf a => exact ⟨_, rfl, trivial⟩
  | look k t => exact h.elim
  | rep ng m M t ih =>
    obtain ⟨q, hq, hn⟩ := ih h
    exact ⟨(q.1, .rep ng m M q.2), by simp [combine, hq], hn⟩
  | alt l r ihl ihr =>
    obtain ⟨q, hq, hn⟩ := ihl h.1
    obtain ⟨p, hp, hm⟩ := ihr h.2
    exact ⟨(q.1 || p.1, .alt q.2 p.2), by simp [combine, hq, hp], hn, hm⟩
  | cat l r ihl ihr =>
    obtain ⟨q, hq, hn⟩ := ihl h.1
    obtain ⟨p, hp, hm⟩ := ihr h.2
    obtain ⟨u, hu⟩ : ∃ u, combine (.cat l r) = some u := by
      simp only [combine, hq, hp, Option.bind_eq_bind, Option.bind_some]
      split
      · split <;> exact ⟨_, rfl⟩
      · split <;> exact ⟨_, rfl⟩
      · exact ⟨_, rfl⟩
    refine ⟨u, hu, ?_⟩
    rcases combine_cat hq hp hu with rfl | ⟨ng, m, M, t, e1, e2, rfl⟩ | ⟨ng, m, M, t, s, e1, e2, rfl⟩
    · exact ⟨hn, hm⟩
    · rw [e1] at hn; exact hn
    · rw [e1] at hn; rw [e2] at hm; exact ⟨hn, hm.2⟩

theorem combine_flag (t : Tree α) (q : Bool × Tree α) (h : combine t = some q) (hq : q.1 = false) :
    q.2 = t := by
  induction t generalizing q with
  | leaf a => simp only [combine, Option.some.injEq] at h; subst h; rfl
  | look k t => simp [combine] at h
  | rep ng m M t ih =>
    simp only [combine, Option.bind_eq_bind, Option.bind_eq_some_iff, Option.some.injEq] at h
    obtain ⟨p, hp, rfl⟩ := h
    exact congrArg (Tree.rep ng m M) (ih p hp hq)
  | alt l r ihl ihr =>
    simp only [combine, Option.bind_eq_bind, Option.bind_eq_some_iff, Option.some.injEq] at h
    obtain ⟨p, hp, u, hu, rfl⟩ := h
    simp only [Bool.or_eq_false_iff] at hq
    show Tree.alt p.2 u.2 = _
    rw [ihl p hp hq.1, ihr u hu hq.2]
  | cat l r ihl ihr =>
    have h0 := h
    simp only [combine, Option.bind_eq_bind, Option.bind_eq_some_iff] at h0
    obtain ⟨p, hp, u, hu, -⟩ := h0
    rcases combine_cat hp hu h with rfl | ⟨ng, m, M, t, e1, e2, rfl⟩ | ⟨ng, m, M, t, s, e1, e2, rfl⟩
    · simp only [Bool.or_eq_false_iff] at hq
      show Tree.cat p.2 u.2 = _
      rw [ihl p hp hq.1, ihr u hu hq.2]
    · simp at hq
    · simp at hq

omit [DecidableEq α] in
theorem merged_zero {m M : Nat} (hm : m + m < UNB) (hM : M ≠ UNB → M + M < UNB) :
    (add32 m m = 0 ∧ sumMax M M = 0) ↔ (m = 0 ∧ M = 0) := by
  have e1 : add32 m m = m + m := by unfold add32; unfold UNB at hm; omega
  rw [e1]
  by_cases hU : M = UNB
  · have e2 : sumMax M M = UNB := by simp [sumMax, hU]
    rw [e2, hU]; simp [UNB]
  · have hw2 := hM hU
    have e2 : sumMax M M = M + M := by
      unfold sumMax; rw [if_neg (by simpa using hU)]; unfold add32; unfold UNB at hw2; omega
    rw [e2]; omega

/-- Merging does not change what the code takes to match only the empty string. -/
theorem combine_onlyZero (t : Tree α) (hok : Ok t) (hn : NoLook t) (hw : weight t < UNB)
    (q : Bool × Tree α) (h : combine t = some q) :
    onlyZero q.2 = onlyZero t ∧ (AltOk t → AltOk q.2) := by
  induction t generalizing q with
  | leaf a => simp only [combine, Option.some.injEq] at h; subst h; exact ⟨rfl, fun h => h⟩
  | look k t => simp [combine] at h
  | rep ng m M t ih =>
    simp only [combine, Option.bind_eq_bind, Option.bind_eq_some_iff, Option.some.injEq] at h
    obtain ⟨p, hp, rfl⟩ := h
    have hw' : weight t < UNB := by simp only [weight] at hw; omega
    obtain ⟨h1, h2⟩ := ih hok.2.2.2 hn hw' p hp
    refine ⟨?_, h2⟩
    simp only [onlyZero, h1]
  | alt l r ihl ihr =>
    simp only [combine, Option.bind_eq_bind, Option.bind_eq_some_iff, Option.some.injEq] at h
    obtain ⟨p, hp, u, hu, rfl⟩ := h
    simp only [weight] at hw
    obtain ⟨h1, h2⟩ := ihl hok.1 hn.1 (by omega) p hp
    obtain ⟨g1, g2⟩ := ihr hok.2 hn.2 (by omega) u hu
    refine ⟨h1, fun ha => ⟨?_, h2 ha.2.1, g2 ha.2.2⟩⟩
    rw [h1, g1]; exact ha.1
  | cat l r ihl ihr =>
    have h0 := h
    simp only [combine, Option.bind_eq_bind, Option.bind_eq_some_iff] at h0
    obtain ⟨p, hp, u, hu, -⟩ := h0
    simp only [weight] at hw
    obtain ⟨h1, h2⟩ := ihl hok.1 hn.1 (by omega) p hp
    obtain ⟨g1, g2⟩ := ihr hok.2 hn.2 (by omega) u hu
    obtain ⟨-, oh, wh⟩ := combine_spec (fun _ => 0) l hok.1 (by omega) p hp
    obtain ⟨-, og, wg⟩ := combine_spec (fun _ => 0) r hok.2 (by omega) u hu
    have hz : onlyZero (Tree.cat l r) = onlyZero (Tree.cat p.2 u.2) := by
      simp only [onlyZero, h1, g1]
    rw [hz]
    obtain ⟨u', hu', nu⟩ := combine_some r hn.2
    rw [hu] at hu'; cases hu'
    obtain ⟨p', hp', np⟩ := combine_some l hn.1
    rw [hp] at hp'; cases hp'
    rcases combine_cat hp hu h with rfl | ⟨ng, m, M, t, e1, e2, rfl⟩ | ⟨ng, m, M, t, s, e1, e2, rfl⟩
    · exact ⟨rfl, fun ha => ⟨h2 ha.1, g2 ha.2⟩⟩
    · rw [e1] at oh wh np h2
      rw [e2] at wg
      obtain ⟨b1, b2⟩ := weight_rep_bounds (ng := ng) (m := m) (M := M) (t := t) (n := 0) (by omega)
      have hmz := merged_zero b1 b2
      rw [e1, e2]
      refine ⟨?_, fun ha => h2 ha.1⟩
      obtain ⟨b, hb⟩ := onlyZero_some t np
      show onlyZero (.rep ng (add32 m m) (sumMax M M) t) = _
      simp only [onlyZero, hmz, hb]
      split <;> cases b <;> rfl
    · rw [e1] at oh wh np h2
      rw [e2] at wg nu g2
      have wg' : weight (Tree.rep ng m M t) + weight s ≤ weight r := wg
      obtain ⟨b1, b2⟩ := weight_rep_bounds (ng := ng) (m := m) (M := M) (t := t) (n := 0) (by omega)
      have hmz := merged_zero b1 b2
      rw [e1, e2]
      refine ⟨?_, fun ha => ⟨h2 ha.1, (g2 ha.2).2⟩⟩
      obtain ⟨b, hb⟩ := onlyZero_some t np
      obtain ⟨c, hc⟩ := onlyZero_some s nu.2
      show onlyZero (.cat (.rep ng (add32 m m) (sumMax M M) t) s) = _
      simp only [onlyZero, hmz, hb, hc]
      split <;> cases b <;> rfl

/-- **C18**, the three rewrites that are right for every pattern: reassociation,
merging of equal neighbouring repetitions, and removal of `{1}`, one after the other,
leave the set of strings unchanged, whatever the leaves denote.  The hypothesis on
the bounds excludes 32-bit overflow. -/
theorem rewrites_preserve_language (sem : α → Language UInt8) (t : Tree α) (hok : Ok t)
    (hn : NoLook t) (hw : weight t < UNB) :
    ∃ c u, combine (assoc t).2 = some c ∧ useless (prune c.2) = some u ∧
      lang sem (assoc t).2 = lang sem t ∧ lang sem c.2 = lang sem t ∧ lang sem u = lang sem t := by
  obtain ⟨c, hc, hnc⟩ := combine_some _ (assoc_noLook t hn)
  obtain ⟨h1, h2, h3⟩ := combine_spec sem _ (assoc_ok t hok) (by rw [assoc_weight]; exact hw) c hc
  rw [assoc_lang] at h1
  obtain ⟨p1, p2, -⟩ := prune_keeps c.2 h2 hnc
  obtain ⟨u, hu, -⟩ := useless_keeps _ p1 p2
  exact ⟨c, u, hc, hu, assoc_lang sem t, h1,
    (useless_lang sem _ _ hu).trans ((prune_lang sem _).trans h1)⟩

/-- **C18**, everything done to a pattern without a `?` after its second character:
if in the reassociated tree no alternation has a branch that matches only the empty
string to the left of one that does not, then reduction succeeds and leaves the set of
strings unchanged, and no `{0}` is left.  The full claim has no hypothesis on
alternations; it is refuted below. -/
theorem reduce_preserves_language_partial (sem : α → Language UInt8) (x : α) (counted : Bool)
    (t : Tree α) (hok : Ok t) (hn : NoLook t) (hw : weight t < UNB)
    (ha : AltOk (assoc t).2) :
    ∃ u, reduce x false counted t = some u ∧ langRoot sem u = lang sem t := by
  obtain ⟨c, hc, hnc⟩ := combine_some _ (assoc_noLook t hn)
  have hw' : weight (assoc t).2 < UNB := by rw [assoc_weight]; exact hw
  obtain ⟨h1, h2, h3⟩ := combine_spec sem _ (assoc_ok t hok) hw' c hc
  obtain ⟨h4, h5⟩ := combine_onlyZero _ (assoc_ok t hok) (assoc_noLook t hn) hw' c hc
  rw [assoc_lang] at h1
  have hac := h5 ha
  simp only [reduce, hc, Option.bind_eq_bind, Option.bind_some, Bool.false_eq_true, if_false]
  split
  · by_cases hz : onlyZero c.2 = some true
    · refine ⟨none, by simp [reduceEmptyRoot, hz, uselessRoot], ?_⟩
      show 1 = _
      rw [← h1, onlyZero_lang sem _ h2 hac hz]
    · have hzf := onlyZero_ne_true hnc hz
      obtain ⟨e, he, oe, ne, -, -, le⟩ := reduceEmpty_spec sem x c.2 h2 hnc
      obtain ⟨p1, p2, -⟩ := prune_keeps e oe ne
      obtain ⟨u, hu, -⟩ := useless_keeps _ p1 p2
      refine ⟨some u, by simp [reduceEmptyRoot, hzf, he, uselessRoot, hu], ?_⟩
      show lang sem u = _
      rw [useless_lang sem _ _ hu, prune_lang, (le hac).2, h1]
  · exact ⟨some c.2, rfl, h1⟩

/-- What single-byte leaves denote. -/
def byteSem (b : UInt8) : Language UInt8 := {[b]}

/-- **C18 is false in general.** The pattern `(a{0}|b)c` matches "bc", but reducing it
gives the pattern `c`, which does not. -/
theorem empty_branch_loses_match :
    ∃ t u : Tree UInt8, Ok t ∧ NoLook t ∧
      t = .cat (.alt (.rep false 0 0 (.leaf 97)) (.leaf 98)) (.leaf 99) ∧
      reduce 120 false true t = some (some u) ∧
      [98, 99] ∈ lang byteSem t ∧ [98, 99] ∉ lang byteSem u := by
  refine ⟨_, .leaf 99, ?_, ?_, rfl, by decide +kernel, ?_, ?_⟩
  · simp [Ok, UNB]
  · simp [NoLook]
  · show _ ∈ (lang byteSem _ + lang byteSem _) * lang byteSem _
    rw [Language.mem_mul]
    exact ⟨[98], (Language.mem_add _ _ _).2 (Or.inr rfl), [99], rfl, rfl⟩
  · show ¬ ([98, 99] = [99]); decide

example : reduce (120 : UInt8) false true
    (.cat (.alt (.leaf 98) (.rep false 0 0 (.leaf 97))) (.leaf 99))
    = some (some (.cat (.rep false 0 1 (.leaf 98)) (.leaf 99))) := by decide +kernel

/-- The hypotheses of the partial theorem hold for `(b|a{0})(c{1}(d*d*))e`, which is
rewritten to `b?cd*e`. -/
example : ∃ t : Tree UInt8, Ok t ∧ NoLook t ∧ weight t < UNB ∧ AltOk (assoc t).2 ∧
    reduce 120 false true t = some (some
      (.cat (.rep false 0 1 (.leaf 98)) (.cat (.cat (.leaf 99) (.rep false 0 UNB (.leaf 100))) (.leaf 101)))) := by
  refine ⟨.cat (.cat (.alt (.leaf 98) (.rep false 0 0 (.leaf 97)))
    (.cat (.rep false 1 1 (.leaf 99)) (.cat (.rep false 0 UNB (.leaf 100)) (.rep false 0 UNB (.leaf 100)))))
    (.leaf 101), ?_, ?_, ?_, ?_, ?_⟩
  · simp [Ok, UNB]
  · simp [NoLook]
  · simp [weight, UNB]
  · simp [assoc, AltOk, onlyZero]
  · simp [reduce, assoc, combine, reduceEmptyRoot, reduceEmpty, onlyZero, fixDead, uselessRoot, prune,
      useless, add32, sumMax, UNB]

/-- After reduction there is no `{0}` anywhere (`counted` is true whenever the text
has a counted repetition). -/
theorem reduce_noDead (x : α) (nongreedy counted : Bool) (t u : Tree α) (hok : Ok t) (hn : NoLook t)
    (hw : weight t < UNB) (hc : counted = false → NoDead t)
    (hng : nongreedy = false)
    (h : reduce x nongreedy counted t = some (some u)) : NoDead u ∧ NoLook u ∧ Ok u := by
  subst hng
  obtain ⟨c, hcc, hnc⟩ := combine_some _ (assoc_noLook t hn)
  have hw' : weight (assoc t).2 < UNB := by rw [assoc_weight]; exact hw
  obtain ⟨h1, h2, h3⟩ := combine_spec (fun _ => 0) _ (assoc_ok t hok) hw' c hcc
  simp only [reduce, hcc, Option.bind_eq_bind, Option.bind_some, Bool.false_eq_true, if_false] at h
  split at h
  · by_cases hz : onlyZero c.2 = some true
    · simp [reduceEmptyRoot, hz, uselessRoot] at h
    · have hzf := onlyZero_ne_true hnc hz
      obtain ⟨e, he, oe, ne, -, de, -⟩ := reduceEmpty_spec (fun _ => 0) x c.2 h2 hnc
      obtain ⟨p1, p2, p3⟩ := prune_keeps e oe ne
      obtain ⟨v, hv, k1, k2, k3⟩ := useless_keeps _ p1 p2
      simp [reduceEmptyRoot, hzf, he, uselessRoot, hv] at h
      subst h
      exact ⟨k3 (p3 (de hzf)), k2, k1⟩
  · next hf =>
    simp only [Bool.or_eq_true, not_or, Bool.not_eq_true] at hf
    simp only [Option.some.injEq] at h
    subst h
    rw [combine_flag _ _ hcc hf.1.2, assoc_flag t hf.1.1]
    exact ⟨hc hf.2, hn, hok⟩

/-! ### No pass invents a leaf -/

/-- Every leaf satisfies `P`. -/
def AllLeaves (P : α → Prop) : Tree α → Prop
  | .leaf a => P a
  | .alt l r => AllLeaves P l ∧ AllLeaves P r
  | .cat l r => AllLeaves P l ∧ AllLeaves P r
  | .rep _ _ _ t => AllLeaves P t
  | .look _ t => AllLeaves P t

omit [DecidableEq α] in
theorem assoc_leaves (P : α → Prop) (t : Tree α) (h : AllLeaves P t) : AllLeaves P (assoc t).2 := by
  induction t with
  | leaf a => exact h
  | look k t ih => exact ih h
  | rep ng m M t ih => exact ih h
  | alt l r ihl ihr =>
    have h1 := ihl h.1
    have h2 := ihr h.2
    unfold assoc
    dsimp only
    split
    · next e f h => rw [h] at h1; exact ⟨h1.1, h1.2, h2⟩
    · next t h => exact ⟨h1, h2⟩
  | cat l r ihl ihr =>
    have h1 := ihl h.1
    have h2 := ihr h.2
    unfold assoc
    dsimp only
    split
    · next e f h => rw [h] at h1; exact ⟨h1.1, h1.2, h2⟩
    · next t h => exact ⟨h1, h2⟩

theorem combine_leaves (P : α → Prop) (t : Tree α) : ∀ c, AllLeaves P t → combine t = some c →
    AllLeaves P c.2 := by
  induction t with
  | leaf a => intro c h hc; simp only [combine, Option.some.injEq] at hc; subst hc; exact h
  | look k t ih => intro c h hc; simp [combine] at hc
  | rep ng m M t ih =>
    intro c h hc
    simp only [combine, Option.bind_eq_bind, Option.bind_eq_some_iff, Option.some.injEq] at hc
    obtain ⟨r, hr, rfl⟩ := hc
    exact ih r h hr
  | alt l r ihl ihr =>
    intro c h hc
    simp only [combine, Option.bind_eq_bind, Option.bind_eq_some_iff, Option.some.injEq] at hc
    obtain ⟨a, ha, b, hb, rfl⟩ := hc
    exact ⟨ihl a h.1 ha, ihr b h.2 hb⟩
  | cat l r ihl ihr =>
    intro c h hc
    simp only [combine, Option.bind_eq_bind, Option.bind_eq_some_iff] at hc
    obtain ⟨a, ha, b, hb, hc⟩ := hc
    have h1 := ihl a h.1 ha
    have h2 := ihr b h.2 hb
    split at hc
    · next e1 e2 =>
      rw [e1] at h1; rw [e2] at h2
      split at hc <;> (simp only [Option.some.injEq] at hc; subst hc)
      · exact h1
      · exact ⟨h1, h2⟩
    · next e1 e2 =>
      rw [e1] at h1; rw [e2] at h2
      split at hc <;> (simp only [Option.some.injEq] at hc; subst hc)
      · exact ⟨h1, h2.2⟩
      · exact ⟨h1, h2⟩
    · simp only [Option.some.injEq] at hc; subst hc; exact ⟨h1, h2⟩

omit [DecidableEq α] in
theorem fixDead_leaves (P : α → Prop) (t u : Tree α) (h : AllLeaves P t) (hu : fixDead t = some u) :
    AllLeaves P u := by
  cases t with
  | cat l r =>
    simp only [fixDead, Option.bind_eq_bind, Option.bind_eq_some_iff] at hu
    obtain ⟨a, -, hu⟩ := hu
    split at hu
    · simp only [Option.some.injEq] at hu; subst hu; exact h.2
    · simp only [Option.bind_eq_some_iff] at hu
      obtain ⟨b, -, hu⟩ := hu
      split at hu <;> (simp only [Option.some.injEq] at hu; subst hu)
      · exact h.1
      · exact h
  | alt l r =>
    simp only [fixDead, Option.bind_eq_bind, Option.bind_eq_some_iff] at hu
    obtain ⟨a, -, hu⟩ := hu
    split at hu <;> (simp only [Option.some.injEq] at hu; subst hu)
    · exact h.1
    · exact h
  | leaf a => simp only [fixDead, Option.some.injEq] at hu; subst hu; exact h
  | rep ng m M t => simp only [fixDead, Option.some.injEq] at hu; subst hu; exact h
  | look k t => simp only [fixDead, Option.some.injEq] at hu; subst hu; exact h

omit [DecidableEq α] in
theorem reduceEmpty_leaves (P : α → Prop) (x : α) (hx : P x) (t : Tree α) : ∀ u, AllLeaves P t →
    reduceEmpty x t = some u → AllLeaves P u := by
  induction t with
  | leaf a => intro u h hu; simp only [reduceEmpty, Option.some.injEq] at hu; subst hu; exact h
  | look k t ih => intro u h hu; simp [reduceEmpty] at hu
  | rep ng m M t ih =>
    intro u h hu
    simp only [reduceEmpty, Option.bind_eq_bind, Option.bind_eq_some_iff] at hu
    obtain ⟨z, -, hu⟩ := hu
    split at hu
    · simp only [Option.some.injEq] at hu; subst hu; exact hx
    · simp only [Option.bind_eq_some_iff, Option.some.injEq] at hu
      obtain ⟨r, hr, rfl⟩ := hu
      exact ih r h hr
  | alt l r ihl ihr =>
    intro u h hu
    simp only [reduceEmpty, Option.bind_eq_bind, Option.bind_eq_some_iff] at hu
    obtain ⟨z, -, hu⟩ := hu
    split at hu
    · simp only [Option.some.injEq] at hu; subst hu; exact hx
    · simp only [Option.bind_eq_some_iff] at hu
      obtain ⟨a, ha, b, hb, hu⟩ := hu
      exact fixDead_leaves P _ _ (show AllLeaves P (.alt a b) from ⟨ihl a h.1 ha, ihr b h.2 hb⟩) hu
  | cat l r ihl ihr =>
    intro u h hu
    simp only [reduceEmpty, Option.bind_eq_bind, Option.bind_eq_some_iff] at hu
    obtain ⟨z, -, hu⟩ := hu
    split at hu
    · simp only [Option.some.injEq] at hu; subst hu; exact hx
    · simp only [Option.bind_eq_some_iff] at hu
      obtain ⟨a, ha, b, hb, hu⟩ := hu
      exact fixDead_leaves P _ _ (show AllLeaves P (.cat a b) from ⟨ihl a h.1 ha, ihr b h.2 hb⟩) hu

omit [DecidableEq α] in
theorem prune_leaves (P : α → Prop) (t : Tree α) (h : AllLeaves P t) : AllLeaves P (prune t) := by
  induction t with
  | rep ng m M t ih =>
    unfold prune
    split
    · exact ih h
    · split <;> exact h
  | _ => exact h

omit [DecidableEq α] in
theorem useless_leaves (P : α → Prop) (n : Nat) : ∀ t : Tree α, sizeOf t ≤ n → ∀ u, AllLeaves P t →
    useless t = some u → AllLeaves P u := by
  induction n with
  | zero => intro t ht; cases t <;> simp at ht
  | succ n ih =>
    intro t ht u h hu
    cases t with
    | leaf a => simp only [useless, Option.some.injEq] at hu; subst hu; exact h
    | look k t => simp [useless] at hu
    | rep ng m M t =>
      simp only [useless, Option.bind_eq_bind, Option.bind_eq_some_iff, Option.some.injEq] at hu
      obtain ⟨r, hr, rfl⟩ := hu
      have := prune_size t
      simp only [Tree.rep.sizeOf_spec] at ht
      exact ih _ (by omega) r (prune_leaves P t h) hr
    | alt l r =>
      simp only [useless, Option.bind_eq_bind, Option.bind_eq_some_iff, Option.some.injEq] at hu
      obtain ⟨a, ha, b, hb, rfl⟩ := hu
      have := prune_size l
      have := prune_size r
      simp only [Tree.alt.sizeOf_spec] at ht
      exact ⟨ih _ (by omega) a (prune_leaves P l h.1) ha, ih _ (by omega) b (prune_leaves P r h.2) hb⟩
    | cat l r =>
      simp only [useless, Option.bind_eq_bind, Option.bind_eq_some_iff, Option.some.injEq] at hu
      obtain ⟨a, ha, b, hb, rfl⟩ := hu
      have := prune_size l
      have := prune_size r
      simp only [Tree.cat.sizeOf_spec] at ht
      exact ⟨ih _ (by omega) a (prune_leaves P l h.1) ha, ih _ (by omega) b (prune_leaves P r h.2) hb⟩

/-- Every leaf of the rewritten tree is a leaf of the original or the dummy. -/
theorem reduce_leaves (P : α → Prop) (x : α) (hx : P x) (counted : Bool) (t u : Tree α)
    (h : AllLeaves P t) (hu : reduce x false counted t = some (some u)) : AllLeaves P u := by
  simp only [reduce, Option.bind_eq_bind, Option.bind_eq_some_iff, Bool.false_eq_true, if_false,
    Option.some.injEq] at hu
  obtain ⟨c, hc, q, rfl, hu⟩ := hu
  have h1 := combine_leaves P _ c (assoc_leaves P t h) hc
  dsimp only at hu
  split at hu
  · simp only [reduceEmptyRoot, Option.bind_eq_bind, Option.bind_eq_some_iff] at hu
    obtain ⟨o, ⟨z, -, ho⟩, hu⟩ := hu
    split at ho
    · simp only [Option.some.injEq] at ho; subst ho; simp [uselessRoot] at hu
    · simp only [Option.bind_eq_some_iff, Option.some.injEq] at ho
      obtain ⟨e, he, rfl⟩ := ho
      simp only [uselessRoot, Option.bind_eq_bind, Option.bind_eq_some_iff, Option.some.injEq] at hu
      obtain ⟨v, hv, rfl⟩ := hu
      exact useless_leaves P _ _ (Nat.le_refl _) v (prune_leaves P e (reduceEmpty_leaves P x hx _ e h1 he)) hv
  · simp only [Option.some.injEq] at hu; subst hu; exact h1

/-! ## C19: trailing non-greedy repetitions -/

/-- No non-greedy repetition. -/
def NoNg : Tree α → Prop
  | .leaf _ => True
  | .alt l r => NoNg l ∧ NoNg r
  | .cat l r => NoNg l ∧ NoNg r
  | .rep ng _ _ t => ng = false ∧ NoNg t
  | .look _ t => NoNg t

/-- No non-greedy repetition inside another repetition. -/
def NgFlat : Tree α → Prop
  | .leaf _ => True
  | .alt l r => NgFlat l ∧ NgFlat r
  | .cat l r => NgFlat l ∧ NgFlat r
  | .rep _ _ _ t => NoNg t
  | .look _ t => NgFlat t

/-- `B` does not lose or move any place where `A` matches: `B`'s strings are among
`A`'s, and any data that begins with a string of `A` begins with a string of `B`. -/
def SamePlaces (A B : Language UInt8) : Prop :=
  (∀ w ∈ B, w ∈ A) ∧ ∀ w ∈ A, ∃ p, p <+: w ∧ p ∈ B

omit [DecidableEq α] in
theorem SamePlaces.refl (A : Language UInt8) : SamePlaces A A :=
  ⟨fun _ h => h, fun w h => ⟨w, List.prefix_refl w, h⟩⟩

omit [DecidableEq α] in
theorem SamePlaces.trans {A B C : Language UInt8} (h : SamePlaces A B) (g : SamePlaces B C) :
    SamePlaces A C :=
  ⟨fun w hw => h.1 w (g.1 w hw), fun w hw => by
    obtain ⟨p, hp, hb⟩ := h.2 w hw
    obtain ⟨q, hq, hc⟩ := g.2 p hb
    exact ⟨q, hq.trans hp, hc⟩⟩

omit [DecidableEq α] in
theorem SamePlaces.add {A B C D : Language UInt8} (h : SamePlaces A B) (g : SamePlaces C D) :
    SamePlaces (A + C) (B + D) := by
  constructor
  · intro w hw
    rw [Language.mem_add] at hw ⊢
    exact hw.imp (h.1 w) (g.1 w)
  · intro w hw
    rw [Language.mem_add] at hw
    rcases hw with hw | hw
    · obtain ⟨p, hp, hb⟩ := h.2 w hw
      exact ⟨p, hp, (Language.mem_add _ _ _).2 (Or.inl hb)⟩
    · obtain ⟨p, hp, hb⟩ := g.2 w hw
      exact ⟨p, hp, (Language.mem_add _ _ _).2 (Or.inr hb)⟩

omit [DecidableEq α] in
/-- The right factor may be replaced. -/
theorem SamePlaces.mul_right {A B C : Language UInt8} (h : SamePlaces B C) :
    SamePlaces (A * B) (A * C) := by
  constructor
  · intro w hw
    rw [Language.mem_mul] at hw ⊢
    obtain ⟨x, hx, y, hy, e⟩ := hw
    exact ⟨x, hx, y, h.1 y hy, e⟩
  · intro w hw
    rw [Language.mem_mul] at hw
    obtain ⟨x, hx, y, hy, rfl⟩ := hw
    obtain ⟨p, hp, hc⟩ := h.2 y hy
    exact ⟨x ++ p, (List.prefix_append_right_inj x).2 hp, Language.append_mem_mul hx hc⟩

omit [DecidableEq α] in
/-- Both factors may be replaced if the right one accepts the empty string. -/
theorem SamePlaces.mul_nullable {A B C D : Language UInt8} (h : SamePlaces A B) (g : SamePlaces C D)
    (hn : [] ∈ C) : SamePlaces (A * C) (B * D) := by
  have hd : [] ∈ D := by
    obtain ⟨p, hp, hq⟩ := g.2 [] hn
    rw [List.prefix_nil] at hp
    rwa [hp] at hq
  constructor
  · intro w hw
    rw [Language.mem_mul] at hw ⊢
    obtain ⟨x, hx, y, hy, e⟩ := hw
    exact ⟨x, h.1 x hx, y, g.1 y hy, e⟩
  · intro w hw
    rw [Language.mem_mul] at hw
    obtain ⟨x, hx, y, hy, rfl⟩ := hw
    obtain ⟨p, hp, hb⟩ := h.2 x hx
    refine ⟨p, hp.trans (List.prefix_append x y), ?_⟩
    have := Language.append_mem_mul hb hd
    simpa using this

omit [DecidableEq α] in
theorem prefix_pow {A : Language UInt8} {k m : Nat} (h : m ≤ k) {w : List UInt8} (hw : w ∈ A ^ k) :
    ∃ p, p <+: w ∧ p ∈ A ^ m := by
  obtain ⟨j, rfl⟩ : ∃ j, k = m + j := ⟨k - m, by omega⟩
  rw [pow_add, Language.mem_mul] at hw
  obtain ⟨x, hx, y, -, rfl⟩ := hw
  exact ⟨x, List.prefix_append x y, hx⟩

omit [DecidableEq α] in
/-- `S{n,m}` at the end of a match may be cut to `S{n}`. -/
theorem cut_rep (sem : α → Language UInt8) (ng ng' : Bool) (m M : Nat) (t : Tree α) (hm : m ≤ M)
    (hu : m < UNB) : SamePlaces (lang sem (.rep ng m M t)) (lang sem (.rep ng' m m t)) := by
  constructor
  · rintro w ⟨k, hk, hk2, hw⟩
    have : k = m := by rcases hk2 with h | h <;> omega
    subst this
    exact ⟨k, Nat.le_refl _, Or.inr hm, hw⟩
  · rintro w ⟨k, hk, hk2, hw⟩
    obtain ⟨p, hp, hq⟩ := prefix_pow hk hw
    exact ⟨p, hp, m, Nat.le_refl _, Or.inr (Nat.le_refl _), hq⟩

omit [DecidableEq α] in
theorem NoNg.flat {t : Tree α} (h : NoNg t) : NgFlat t := by
  induction t with
  | leaf a => trivial
  | look k t ih => exact ih h
  | rep ng m M t ih => exact h.2
  | alt l r ihl ihr => exact ⟨ihl h.1, ihr h.2⟩
  | cat l r ihl ihr => exact ⟨ihl h.1, ihr h.2⟩

omit [DecidableEq α] in
theorem thenEmpty_noNg (t : Tree α) (h : NoNg t) (hn : NoLook t) : thenEmpty t = some (false, t) := by
  induction t with
  | leaf a => rfl
  | look k t ih => exact hn.elim
  | rep ng m M t ih =>
    obtain ⟨rfl, h⟩ := h
    simp [thenEmpty, ih h hn]
  | alt l r ihl ihr => simp [thenEmpty, ihl h.1 hn.1, ihr h.2 hn.2]
  | cat l r ihl ihr =>
    obtain ⟨b, hb⟩ := hasZero_some r hn.2
    have e1 := ihl h.1 hn.1
    have e2 := ihr h.2 hn.2
    simp only [thenEmpty, hb, e2, Option.bind_eq_bind, Option.bind_some]
    cases b with
    | false => simp
    | true =>
      simp only [if_true]
      cases l with
      | rep ng m M t =>
        obtain ⟨rfl, -⟩ := h.1
        simp [e1]
      | _ => simp [e1]

theorem thenGreedy_noNg (t : Tree α) (h : NoNg t) : thenGreedy t = (false, t) := by
  induction t using thenGreedy.induct with
  | case1 a => rfl
  | case2 k t ih => simp [thenGreedy, ih h]
  | case3 ng m M t ih => simp [thenGreedy, ih h.2]
  | case4 l r ihl ihr => simp [thenGreedy, ihl h.1, ihr h.2]
  | case5 a b s r => exact absurd h.1.1 (by simp)
  | case6 a b s r => exact absurd h.1.1 (by simp)
  | case7 a b s r => exact absurd h.1.1 (by simp)
  | case8 a b s r => exact absurd h.1.1 (by simp)
  | case9 a b s r => exact absurd h.1.1 (by simp)
  | case10 l r hl ih =>
    rw [thenGreedy]
    · simp [ih h.2]
    · exact hl

omit [DecidableEq α] in
/-- Cutting trailing non-greedy repetitions keeps the places, when none is inside
another repetition. -/
theorem thenEmpty_places (sem : α → Language UInt8) (hs : LeafNonempty sem) (t : Tree α) (hok : Ok t)
    (hn : NoLook t) (hf : NgFlat t) :
    ∃ q, thenEmpty t = some q ∧ Ok q.2 ∧ NoLook q.2 ∧ NgFlat q.2 ∧ weight q.2 ≤ 2 * weight t ∧
      SamePlaces (lang sem t) (lang sem q.2) := by
  induction t with
  | leaf a => exact ⟨_, rfl, trivial, trivial, trivial, by simp [weight], SamePlaces.refl _⟩
  | look k t => exact hn.elim
  | rep ng m M t ih =>
    have hnn : NoNg t := hf
    have e := thenEmpty_noNg t hnn hn
    cases ng with
    | false =>
      refine ⟨(false, .rep false m M t), by simp [thenEmpty, e], hok, hn, hf, ?_, SamePlaces.refl _⟩
      dsimp only; omega
    | true =>
      refine ⟨(true, .rep false m m t), by simp [thenEmpty, e],
        ⟨Nat.le_refl _, Nat.le_of_lt hok.2.2.1, hok.2.2.1, hok.2.2.2⟩, hn, hf, ?_,
        cut_rep sem true false m M t hok.1 hok.2.2.1⟩
      simp only [weight, if_neg (Nat.ne_of_lt hok.2.2.1)]
      omega
  | alt l r ihl ihr =>
    obtain ⟨p, hp, p1, p2, p3, p4, p5⟩ := ihl hok.1 hn.1 hf.1
    obtain ⟨q, hq, q1, q2, q3, q4, q5⟩ := ihr hok.2 hn.2 hf.2
    refine ⟨(p.1 || q.1, .alt p.2 q.2), by simp [thenEmpty, hp, hq], ⟨p1, q1⟩, ⟨p2, q2⟩, ⟨p3, q3⟩, ?_,
      p5.add q5⟩
    simp only [weight]; omega
  | cat l r ihl ihr =>
    obtain ⟨p, hp, p1, p2, p3, p4, p5⟩ := ihl hok.1 hn.1 hf.1
    obtain ⟨q, hq, q1, q2, q3, q4, q5⟩ := ihr hok.2 hn.2 hf.2
    obtain ⟨b, hb⟩ := hasZero_some r hn.2
    have hz := zero_length_test sem hs r hok.2 b hb
    cases b with
    | false =>
      refine ⟨(q.1, .cat l q.2), by simp [thenEmpty, hb, hq], ⟨hok.1, q1⟩, ⟨hn.1, q2⟩, ⟨hf.1, q3⟩, ?_,
        q5.mul_right⟩
      simp only [weight]; omega
    | true =>
      have hnul := hz.1 rfl
      have key : (∃ ng m M t, l = .rep ng m M t ∧ ng = true) ∨
          thenEmpty (.cat l r) = some (p.1 || q.1, .cat p.2 q.2) := by
        cases l with
        | rep ng m M t =>
          cases ng with
          | true => exact Or.inl ⟨_, _, _, _, rfl, rfl⟩
          | false => right; simp [thenEmpty, hb, hq] at hp ⊢; simp [hp]
        | leaf a => right; simp [thenEmpty, hb, hq] at hp ⊢; subst hp; simp
        | _ => right; simp [thenEmpty, hb, hq] at hp ⊢; simp [hp]
      rcases key with ⟨ng, m, M, t, rfl, rfl⟩ | key
      · refine ⟨(true, .cat (.rep false m m t) q.2), by simp [thenEmpty, hb, hq],
          ⟨⟨Nat.le_refl _, Nat.le_of_lt hok.1.2.2.1, hok.1.2.2.1, hok.1.2.2.2⟩, q1⟩, ⟨hn.1, q2⟩,
          ⟨hf.1, q3⟩, ?_, (cut_rep sem true false m M t hok.1.1 hok.1.2.2.1).mul_nullable q5 hnul⟩
        simp only [weight, if_neg (Nat.ne_of_lt hok.1.2.2.1)]; omega
      · refine ⟨_, key, ⟨p1, q1⟩, ⟨p2, q2⟩, ⟨p3, q3⟩, ?_, p5.mul_nullable q5 hnul⟩
        simp only [weight]; omega

omit [DecidableEq α] in
theorem weight_pos (t : Tree α) : 1 ≤ weight t := by
  induction t with
  | leaf a => exact Nat.le_refl _
  | look k t ih => exact ih
  | rep ng m M t ih => simp only [weight]; omega
  | alt l r ihl ihr => simp only [weight]; omega
  | cat l r ihl ihr => simp only [weight]; omega

omit [DecidableEq α] in
/-- `S{a,b}?S{c,d}` at the end of a match may be replaced by `S{a+c,a+d}`. -/
theorem ng_merge (sem : α → Language UInt8) (ng g : Bool) (a b c d : Nat) (s : Tree α) (hab : a ≤ b)
    (hac : a + c < UNB) (had : d ≠ UNB → a + d < UNB) :
    SamePlaces (lang sem (.rep ng a b s) * lang sem (.rep g c d s))
      (lang sem (.rep false (add32 a c) (if d = UNB then UNB else add32 a d) s)) := by
  have e1 : add32 a c = a + c := by unfold add32; unfold UNB at hac; omega
  rw [e1]
  constructor
  · rintro w ⟨k, hk, hk2, hw⟩
    obtain ⟨j, rfl⟩ : ∃ j, k = a + j := ⟨k - a, by omega⟩
    rw [pow_add, Language.mem_mul] at hw
    obtain ⟨x, hx, y, hy, rfl⟩ := hw
    refine Language.append_mem_mul ⟨a, Nat.le_refl _, Or.inr hab, hx⟩ ⟨j, by omega, ?_, hy⟩
    by_cases hd : d = UNB
    · exact Or.inl hd
    · have h1 := had hd
      have e2 : add32 a d = a + d := by unfold add32; unfold UNB at h1; omega
      rw [if_neg hd, e2] at hk2
      right; rcases hk2 with h | h <;> omega
  · intro w hw
    rw [Language.mem_mul] at hw
    obtain ⟨x, ⟨i, hi, -, hx⟩, y, ⟨j, hj, hj2, hy⟩, rfl⟩ := hw
    have hxy : x ++ y ∈ lang sem s ^ (i + j) := by
      rw [pow_add]; exact Language.append_mem_mul hx hy
    by_cases hd : d = UNB
    · exact ⟨x ++ y, List.prefix_refl _, i + j, by omega, Or.inl (by rw [if_pos hd]), hxy⟩
    · have h1 := had hd
      have e2 : add32 a d = a + d := by unfold add32; unfold UNB at h1; omega
      have hj2 : j ≤ d := by rcases hj2 with h | h; · exact absurd h hd
                             · exact h
      obtain ⟨p, hp, hq⟩ := prefix_pow (m := a + j) (by omega) hxy
      exact ⟨p, hp, a + j, by omega, Or.inr (by rw [if_neg hd, e2]; omega), hq⟩

omit [DecidableEq α] in
theorem lang_once (sem : α → Language UInt8) (t : Tree α) : lang sem (.rep false 1 1 t) = lang sem t := by
  have h1 := prune_lang sem (Tree.rep false 1 1 t)
  rw [← h1, prune, if_pos ⟨rfl, rfl⟩, prune_lang]

/-- What `thenGreedy` can do with `S{a,b}?r`. -/
theorem thenGreedy_cat (a b : Nat) (s r : Tree α) :
    (thenGreedy (.cat (.rep true a b s) r)).2 = .cat (.rep true a b s) (thenGreedy r).2 ∨
    (∃ c d, (thenGreedy r).2 = .rep false c d s ∧ (thenGreedy (.cat (.rep true a b s) r)).2 =
      .rep false (add32 a c) (if d = UNB then UNB else add32 a d) (thenGreedy s).2) ∨
    ((thenGreedy r).2 = s ∧ (thenGreedy (.cat (.rep true a b s) r)).2 =
      .rep false (add32 a 1) (add32 a 1) (thenGreedy s).2) := by
  rw [thenGreedy]
  split
  · next c d s' h =>
    split
    · next e => subst e; exact Or.inr (Or.inl ⟨c, d, h, rfl⟩)
    · split
      · next e => exact Or.inr (Or.inr ⟨by rw [h, e], rfl⟩)
      · left; rw [h]
  · split
    · next e => exact Or.inr (Or.inr ⟨e.symm, rfl⟩)
    · exact Or.inl rfl

theorem thenGreedy_cat' (l r : Tree α) (h : ∀ a b s, l ≠ .rep true a b s) :
    (thenGreedy (.cat l r)).2 = .cat l (thenGreedy r).2 := by
  cases l with
  | rep ng a b s =>
    cases ng with
    | true => exact absurd rfl (h a b s)
    | false => simp [thenGreedy]
  | _ => simp [thenGreedy]

/-- Merging a trailing non-greedy repetition with what follows keeps the places, when
none is inside another repetition. -/
theorem thenGreedy_places (sem : α → Language UInt8) (t : Tree α) (hok : Ok t)
    (hn : NoLook t) (hf : NgFlat t) (hw : 2 * weight t < UNB) :
    Ok (thenGreedy t).2 ∧ NoLook (thenGreedy t).2 ∧ weight (thenGreedy t).2 ≤ 2 * weight t ∧
      SamePlaces (lang sem t) (lang sem (thenGreedy t).2) := by
  induction t with
  | leaf a => exact ⟨trivial, trivial, by simp [thenGreedy, weight], SamePlaces.refl _⟩
  | look k t => exact hn.elim
  | rep ng m M t ih =>
    have hnn : NoNg t := hf
    have e : (thenGreedy (.rep ng m M t)).2 = .rep ng m M t := by
      simp [thenGreedy, thenGreedy_noNg t hnn]
    rw [e]
    exact ⟨hok, hn, by omega, SamePlaces.refl _⟩
  | alt l r ihl ihr =>
    simp only [weight] at hw
    obtain ⟨p1, p2, p4, p5⟩ := ihl hok.1 hn.1 hf.1 (by omega)
    obtain ⟨q1, q2, q4, q5⟩ := ihr hok.2 hn.2 hf.2 (by omega)
    refine ⟨⟨p1, q1⟩, ⟨p2, q2⟩, ?_, p5.add q5⟩
    simp only [thenGreedy, weight]; omega
  | cat l r ihl ihr =>
    simp only [weight] at hw
    obtain ⟨q1, q2, q4, q5⟩ := ihr hok.2 hn.2 hf.2 (by omega)
    by_cases hl : ∃ a b s, l = .rep true a b s
    · obtain ⟨a, b, s, rfl⟩ := hl
      have hnn : NoNg s := hf.1
      have es : (thenGreedy s).2 = s := by rw [thenGreedy_noNg s hnn]
      have hsp := weight_pos s
      have hrp := weight_pos (thenGreedy r).2
      simp only [weight] at hw
      rcases thenGreedy_cat a b s r with h | ⟨c, d, h1, h⟩ | ⟨h1, h⟩
      · rw [h]
        refine ⟨⟨hok.1, q1⟩, ⟨hn.1, q2⟩, ?_, q5.mul_right⟩
        simp only [weight]; omega
      · rw [h, es]
        rw [h1] at q1 q2 q4 q5
        simp only [weight] at q4
        have hac : a + c < UNB := by omega
        have had : d ≠ UNB → a + d < UNB := by intro hd; rw [if_neg hd] at q4; omega
        have e1 : add32 a c = a + c := by unfold add32; unfold UNB at hac; omega
        refine ⟨?_, hn.1, ?_, q5.mul_right.trans
          (ng_merge sem true false a b c d s hok.1.1 hac had)⟩
        · rw [e1]
          by_cases hd : d = UNB
          · rw [if_pos hd]; exact ⟨by omega, Nat.le_refl _, hac, hok.1.2.2.2⟩
          · have h2 := had hd
            have e2 : add32 a d = a + d := by unfold add32; unfold UNB at h2; omega
            rw [if_neg hd, e2]
            exact ⟨by have := q1.1; omega, by omega, hac, hok.1.2.2.2⟩
        · rw [e1]
          by_cases hd : d = UNB
          · rw [if_pos hd] at *
            simp only [weight, if_true]; omega
          · have h2 := had hd
            have e2 : add32 a d = a + d := by unfold add32; unfold UNB at h2; omega
            rw [if_neg hd] at *
            rw [e2]
            simp only [weight, if_neg (Nat.ne_of_lt h2)]; omega
      · rw [h, es]
        rw [h1] at q1 q2 q4 q5
        have ha1 : a + 1 < UNB := by omega
        have e1 : add32 a 1 = a + 1 := by unfold add32; unfold UNB at ha1; omega
        refine ⟨?_, hn.1, ?_, ?_⟩
        · rw [e1]; exact ⟨Nat.le_refl _, by omega, ha1, hok.1.2.2.2⟩
        · rw [e1]; simp only [weight, if_neg (Nat.ne_of_lt ha1)]; omega
        · have h3 := ng_merge sem true false a b 1 1 s hok.1.1 ha1 (fun _ => ha1)
          rw [if_neg (show (1 : Nat) ≠ UNB by simp [UNB]), lang_once] at h3
          exact q5.mul_right.trans h3
    · have h := thenGreedy_cat' l r (fun a b s e => hl ⟨a, b, s, e⟩)
      rw [h]
      refine ⟨⟨hok.1, q1⟩, ⟨hn.1, q2⟩, ?_, q5.mul_right⟩
      simp only [weight]; omega

/-- **C19** for every pattern in which no non-greedy repetition is inside another
repetition: after the two reductions of trailing non-greedy repetitions, exactly the
same positions of any data start a match of the pattern (and every match of the new
pattern is one of the old).  That the preferred match also ends at the same place is
`nongreedy_reduction_preferred` in `Props/Backtrack.lean`.  Missing: patterns with nested
non-greedy repetitions, for which the claim is refuted below. -/
theorem nongreedy_reduction_partial (sem : α → Language UInt8) (hs : LeafNonempty sem) (t : Tree α)
    (hok : Ok t) (hn : NoLook t) (hf : NgFlat t) (hw : 4 * weight t < UNB) :
    ∃ q, thenEmpty t = some q ∧
      ∀ data : List UInt8,
        (∃ p, p <+: data ∧ p ∈ lang sem t) ↔ ∃ p, p <+: data ∧ p ∈ lang sem (thenGreedy q.2).2 := by
  obtain ⟨q, hq, q1, q2, q3, q4, q5⟩ := thenEmpty_places sem hs t hok hn hf
  obtain ⟨-, -, -, g⟩ := thenGreedy_places sem q.2 q1 q2 q3 (by omega)
  have h := q5.trans g
  refine ⟨q, hq, fun data => ⟨?_, ?_⟩⟩
  · rintro ⟨p, hp, hm⟩
    obtain ⟨p', hp', hm'⟩ := h.2 p hm
    exact ⟨p', hp'.trans hp, hm'⟩
  · rintro ⟨p, hp, hm⟩
    exact ⟨p, hp, h.1 p hm⟩

/-- `xa+?a{2,3}`: the hypotheses hold, and the reductions give `xa{3,4}`. -/
example : ∃ t : Tree UInt8, Ok t ∧ NoLook t ∧ NgFlat t ∧ 4 * weight t < UNB ∧
    (thenGreedy t).2 = .cat (.leaf 120) (.rep false 3 4 (.leaf 97)) := by
  refine ⟨.cat (.leaf 120) (.cat (.rep true 1 UNB (.leaf 97)) (.rep false 2 3 (.leaf 97))), ?_, ?_, ?_, ?_,
    by decide +kernel⟩
  · simp [Ok, UNB]
  · simp [NoLook]
  · simp [NgFlat, NoNg]
  · simp [weight, UNB]

theorem byteSem_nonempty : LeafNonempty byteSem := by
  intro a h; exact absurd (show ([] : List UInt8) = [a] from h) (by simp)

/-- **C19 is false in general.** The pattern `(ab??){2}` matches the data "aba", but
reducing it gives `a{2}`, which has no match anywhere in that data. -/
theorem nested_nongreedy_loses_match :
    ∃ t u : Tree UInt8, Ok t ∧ NoLook t ∧
      t = .rep false 2 2 (.cat (.leaf 97) (.rep true 0 1 (.leaf 98))) ∧
      reduce 120 true true t = some (some u) ∧
      [97, 98, 97] ∈ lang byteSem t ∧
      ∀ p, p <:+: [97, 98, 97] → p ∉ lang byteSem u := by
  refine ⟨_, .rep false 2 2 (.leaf 97), ?_, ?_, rfl, ?_, ?_, ?_⟩
  · simp [Ok, UNB]
  · simp [NoLook]
  · simp [reduce, assoc, combine, thenEmpty, thenGreedy, reduceEmptyRoot, reduceEmpty, onlyZero, fixDead,
      uselessRoot, prune, useless, hasZero]
  · refine ⟨2, Nat.le_refl _, Or.inr (Nat.le_refl _), ?_⟩
    rw [pow_two]
    refine Language.append_mem_mul (a := [97, 98]) (b := [97]) ?_ ?_
    · refine Language.append_mem_mul (a := [97]) (b := [98]) rfl ⟨1, by omega, Or.inr (by omega), ?_⟩
      rw [pow_one]; rfl
    · refine Language.append_mem_mul (a := [97]) (b := []) rfl ⟨0, by omega, Or.inr (by omega), ?_⟩
      rw [pow_zero]; rfl
  · rintro p hp ⟨k, hk, hk2, hw⟩
    have : k = 2 := by
      rcases hk2 with h | h
      · simp [UNB] at h
      · omega
    subst this
    rw [pow_two, Language.mem_mul] at hw
    obtain ⟨x, hx, y, hy, rfl⟩ := hw
    have hx : x = [97] := hx
    have hy : y = [97] := hy
    subst hx hy
    revert hp; decide

end Verif.Regex
