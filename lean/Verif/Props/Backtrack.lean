import Verif.Props.Regex
/-!
# C19, continued: where the preferred match ends

A backtracking matcher tries the ways of matching a pattern in order: the left alternative
before the right one, another round of a greedy repetition before going on, going on before
another round of a non-greedy one.  The first way that succeeds is the preferred match.
-/
namespace Verif.Regex

variable {α : Type}

/-! ## Specification -/

/-- `a` before `b`, or for non-greedy repetitions `b` before `a`. -/
def either (ng : Bool) (a b : List (List UInt8)) : List (List UInt8) := if ng then b ++ a else a ++ b

/-- `n` rounds. -/
def times (f : List UInt8 → List (List UInt8)) : Nat → List UInt8 → List (List UInt8)
  | 0, w => [w]
  | n + 1, w => (f w).flatMap (times f n)

/-- Up to `n` rounds. -/
def upto (f : List UInt8 → List (List UInt8)) (ng : Bool) : Nat → List UInt8 → List (List UInt8)
  | 0, w => [w]
  | n + 1, w => either ng ((f w).flatMap (upto f ng n)) [w]

/-- Any number of rounds that match something (so at most `n` of them, if `n` bytes are left). -/
def star (f : List UInt8 → List (List UInt8)) (ng : Bool) : Nat → List UInt8 → List (List UInt8)
  | 0, w => [w]
  | n + 1, w => either ng (((f w).filter fun r => r.length < w.length).flatMap (star f ng n)) [w]

/-- What is left of `w` after each way to match a beginning of it, in order of preference.
`leaf` says so for the leaves. -/
def rests (leaf : α → List UInt8 → List (List UInt8)) : Tree α → List UInt8 → List (List UInt8)
  | .leaf a => leaf a
  | .alt l r => fun w => rests leaf l w ++ rests leaf r w
  | .cat l r => fun w => (rests leaf l w).flatMap (rests leaf r)
  | .rep ng m M t => fun w => (times (rests leaf t) m w).flatMap fun x =>
    if M = UNB then star (rests leaf t) ng x.length x else upto (rests leaf t) ng (M - m) x
  | .look _ _ => fun _ => []

/-- What is left after the preferred match at the beginning of `w`, if there is a match. -/
def preferred (leaf : α → List UInt8 → List (List UInt8)) (t : Tree α) (w : List UInt8) : Option (List UInt8) :=
  (rests leaf t w).head?

/-! ## Lemmas on the first element -/

variable {leaf : α → List UInt8 → List (List UInt8)}

theorem rests_rep (ng : Bool) (m M : Nat) (t : Tree α) (w : List UInt8) :
    rests leaf (.rep ng m M t) w = (times (rests leaf t) m w).flatMap fun x =>
      if M = UNB then star (rests leaf t) ng x.length x else upto (rests leaf t) ng (M - m) x := rfl

theorem rests_cat (l r : Tree α) (w : List UInt8) :
    rests leaf (.cat l r) w = (rests leaf l w).flatMap (rests leaf r) := rfl

theorem head_append {β : Type} {a b a' b' : List β} (ha : a.head? = a'.head?) (hb : b.head? = b'.head?) :
    (a ++ b).head? = (a' ++ b').head? := by
  rw [List.head?_append, List.head?_append, ha, hb]

theorem head_nil {β : Type} {a b : List β} (h : a.head? = b.head?) : a = [] ↔ b = [] := by
  rw [← List.head?_eq_none_iff, ← List.head?_eq_none_iff, h]

theorem head_flatMap {β γ : Type} {l : List β} {f g : β → List γ} (h : ∀ x ∈ l, (f x).head? = (g x).head?) :
    (l.flatMap f).head? = (l.flatMap g).head? := by
  induction l with
  | nil => rfl
  | cons x l ih =>
    rw [List.flatMap_cons, List.flatMap_cons]
    exact head_append (h x (by simp)) (ih fun y hy => h y (by simp [hy]))

/-- If going on always succeeds, the first way decides. -/
theorem head_total {β γ : Type} {l l' : List β} {f g : β → List γ} (hl : l.head? = l'.head?)
    (h : ∀ x, (f x).head? = (g x).head?) (hf : ∀ x, f x ≠ []) : (l.flatMap f).head? = (l'.flatMap g).head? := by
  cases l with
  | nil =>
    have := (head_nil hl).1 rfl
    rw [this]
    rfl
  | cons x l =>
    cases l' with
    | nil => cases hl
    | cons y l' =>
      cases hl
      rw [List.flatMap_cons, List.flatMap_cons, List.head?_append, List.head?_append]
      have h1 := h x
      cases hx : f x with
      | nil => exact absurd hx (hf x)
      | cons a as =>
        rw [hx] at h1
        rw [← h1]
        rfl

theorem mem_either {ng : Bool} {a b : List (List UInt8)} {x} : x ∈ either ng a b ↔ x ∈ a ∨ x ∈ b := by
  unfold either
  split
  · rw [List.mem_append, or_comm]
  · rw [List.mem_append]

/-! ## Subtrees that can match nothing -/

theorem times_self {f : List UInt8 → List (List UInt8)} (h : ∀ w, w ∈ f w) (n : Nat) (w : List UInt8) :
    w ∈ times f n w := by
  induction n with
  | zero => simp [times]
  | succ n ih => exact List.mem_flatMap.2 ⟨w, h w, ih⟩

theorem upto_self (f : List UInt8 → List (List UInt8)) (ng : Bool) (n : Nat) (w : List UInt8) : w ∈ upto f ng n w := by
  cases n with
  | zero => simp [upto]
  | succ n => rw [upto, mem_either]; simp

theorem star_self (f : List UInt8 → List (List UInt8)) (ng : Bool) (n : Nat) (w : List UInt8) : w ∈ star f ng n w := by
  cases n with
  | zero => simp [star]
  | succ n => rw [star, mem_either]; simp

theorem zero_self (t : Tree α) (h : hasZero t = some true) (w : List UInt8) : w ∈ rests leaf t w := by
  induction t generalizing w with
  | leaf a => cases h
  | alt l r ihl ihr =>
    rw [hasZero] at h
    show w ∈ rests leaf l w ++ rests leaf r w
    cases hl : hasZero l with
    | none => rw [hl] at h; cases h
    | some b =>
      cases b with
      | true => exact List.mem_append_left _ (ihl hl w)
      | false =>
        rw [hl] at h
        exact List.mem_append_right _ (ihr h w)
  | cat l r ihl ihr =>
    rw [hasZero] at h
    cases hl : hasZero l with
    | none => rw [hl] at h; cases h
    | some b =>
      cases b with
      | true =>
        rw [hl] at h
        exact List.mem_flatMap.2 ⟨w, ihl hl w, ihr h w⟩
      | false => rw [hl] at h; cases h
  | rep ng m M t ih =>
    rw [hasZero] at h
    refine List.mem_flatMap.2 ⟨w, ?_, ?_⟩
    · by_cases hm : m = 0
      · rw [hm]; simp [times]
      · rw [if_neg hm] at h
        exact times_self (ih h) _ _
    · split
      · exact star_self _ _ _ _
      · exact upto_self _ _ _ _
  | look k t => cases h

theorem zero_ne (t : Tree α) (h : hasZero t = some true) (w : List UInt8) : rests leaf t w ≠ [] :=
  List.ne_nil_of_mem (zero_self t h w)

/-! ## Trailing non-greedy repetitions -/

theorem times_snoc (f : List UInt8 → List (List UInt8)) (n : Nat) (w : List UInt8) :
    times f (n + 1) w = (times f n w).flatMap f := by
  induction n generalizing w with
  | zero => simp [times]
  | succ n ih =>
    rw [times, times, List.flatMap_assoc]
    exact List.flatMap_congr fun x _ => ih x

theorem star_head (f : List UInt8 → List (List UInt8)) (n : Nat) (w : List UInt8) :
    (star f true n w).head? = some w := by
  cases n with
  | zero => rfl
  | succ n => rfl

theorem upto_head (f : List UInt8 → List (List UInt8)) (n : Nat) (w : List UInt8) :
    (upto f true n w).head? = some w := by
  cases n with
  | zero => rfl
  | succ n => rfl

theorem rests_exact (ng : Bool) (m : Nat) (hm : m ≠ UNB) (t : Tree α) (w : List UInt8) :
    rests leaf (.rep ng m m t) w = times (rests leaf t) m w := by
  rw [rests]
  simp only [if_neg hm, Nat.sub_self, upto]
  simp

/-- A non-greedy repetition first tries its minimum. -/
theorem ng_head (m M : Nat) (hm : m ≠ UNB) (t : Tree α) (w : List UInt8) :
    (rests leaf (.rep true m M t) w).head? = (rests leaf (.rep false m m t) w).head? := by
  rw [rests_exact _ _ hm, rests]
  have : times (rests leaf t) m w = (times (rests leaf t) m w).flatMap fun r => [r] := by simp
  conv => rhs; rw [this]
  refine head_flatMap fun x _ => ?_
  split
  · exact star_head _ _ _
  · exact upto_head _ _ _

theorem ok_min {ng : Bool} {m M : Nat} {t : Tree α} (h : Ok (.rep ng m M t)) : m ≠ UNB := by
  unfold Ok at h
  omega

theorem thenEmpty_preferred (t : Tree α) (hok : Ok t) (hf : NgFlat t) (hn : NoLook t) :
    ∀ q, thenEmpty t = some q → ∀ w, preferred leaf q.2 w = preferred leaf t w := by
  induction t with
  | leaf a => intro q h w; cases h; rfl
  | look k t => exact absurd hn (by simp [NoLook])
  | alt l r ihl ihr =>
    intro q h w
    rw [thenEmpty] at h
    cases hl : thenEmpty l with
    | none => rw [hl] at h; cases h
    | some l' =>
      cases hr : thenEmpty r with
      | none => rw [hl, hr] at h; cases h
      | some r' =>
        rw [hl, hr] at h
        cases h
        exact head_append (ihl hok.1 hf.1 hn.1 l' hl w) (ihr hok.2 hf.2 hn.2 r' hr w)
  | rep ng m M t ih =>
    intro q h w
    have hN := thenEmpty_noNg t hf hn
    cases ng with
    | false => rw [thenEmpty, hN] at h; cases h; rfl
    | true => rw [thenEmpty, hN] at h; cases h; exact (ng_head m M (ok_min hok) t w).symm
  | cat l r ihl ihr =>
    intro q h w
    have hs : LeafNonempty (fun _ : α => (0 : Language UInt8)) := fun _ h => h
    obtain ⟨p, hp, -⟩ := thenEmpty_places _ hs l hok.1 hn.1 hf.1
    obtain ⟨r', hr, -⟩ := thenEmpty_places _ hs r hok.2 hn.2 hf.2
    obtain ⟨b, hb⟩ := hasZero_some r hn.2
    have hr' := ihr hok.2 hf.2 hn.2 r' hr
    cases b with
    | false =>
      have : q = (r'.1, .cat l r'.2) := by
        simp [thenEmpty, hb, hr] at h
        exact h.symm
      rw [this]
      exact head_flatMap fun x _ => hr' x
    | true =>
      have done : ∀ l', (∀ w, preferred leaf l' w = preferred leaf l w) →
          preferred leaf (.cat l' r'.2) w = preferred leaf (.cat l r) w := by
        intro l' hl'
        refine head_total (hl' w) hr' (fun x hx => ?_)
        exact zero_ne r hb x ((head_nil (hr' x)).1 hx)
      have key : (∃ ng m M t, l = .rep ng m M t ∧ ng = true) ∨
          thenEmpty (.cat l r) = some (p.1 || r'.1, .cat p.2 r'.2) := by
        cases l with
        | rep ng m M t =>
          cases ng with
          | true => exact Or.inl ⟨_, _, _, _, rfl, rfl⟩
          | false => right; simp [thenEmpty, hb, hr] at hp ⊢; simp [hp]
        | leaf a => right; simp [thenEmpty, hb, hr] at hp ⊢; subst hp; simp
        | _ => right; simp [thenEmpty, hb, hr] at hp ⊢; simp [hp]
      rcases key with ⟨ng, m, M, t, rfl, rfl⟩ | key
      · have : q = (true, .cat (.rep false m m t) r'.2) := by
          simp [thenEmpty, hb, hr] at h
          exact h.symm
        rw [this]
        exact done _ fun w => (ng_head m M (ok_min hok.1) t w).symm
      · rw [key] at h
        cases h
        exact done _ fun w => ihl hok.1 hf.1 hn.1 p hp w

/-! ## A trailing non-greedy repetition before the same greedy one -/

theorem times_add (f : List UInt8 → List (List UInt8)) (a c : Nat) (w : List UInt8) :
    times f (a + c) w = (times f a w).flatMap (times f c) := by
  induction a generalizing w with
  | zero => simp [times]
  | succ a ih =>
    rw [Nat.succ_add, times, times, List.flatMap_assoc]
    exact List.flatMap_congr fun x _ => ih x

theorem upto_times (f : List UInt8 → List (List UInt8)) (ng : Bool) (n : Nat) (w y : List UInt8) (h : y ∈ upto f ng n w) :
    ∃ j, y ∈ times f j w := by
  induction n generalizing w with
  | zero => exact ⟨0, h⟩
  | succ n ih =>
    rw [upto, mem_either] at h
    rcases h with h | h
    · obtain ⟨x, hx, hy⟩ := List.mem_flatMap.1 h
      obtain ⟨j, hj⟩ := ih x hy
      exact ⟨j + 1, List.mem_flatMap.2 ⟨x, hx, hj⟩⟩
    · exact ⟨0, h⟩

theorem star_times (f : List UInt8 → List (List UInt8)) (ng : Bool) (n : Nat) (w y : List UInt8) (h : y ∈ star f ng n w) :
    ∃ j, y ∈ times f j w := by
  induction n generalizing w with
  | zero => exact ⟨0, h⟩
  | succ n ih =>
    rw [star, mem_either] at h
    rcases h with h | h
    · obtain ⟨x, hx, hy⟩ := List.mem_flatMap.1 h
      obtain ⟨j, hj⟩ := ih x hy
      exact ⟨j + 1, List.mem_flatMap.2 ⟨x, (List.mem_filter.1 hx).1, hj⟩⟩
    · exact ⟨0, h⟩

/-- After more rounds there is no more hope for `c` rounds than before. -/
theorem times_stuck {f : List UInt8 → List (List UInt8)} {c j : Nat} {x y : List UInt8} (hy : y ∈ times f j x)
    (h : times f c x = []) : times f c y = [] := by
  by_contra hne
  obtain ⟨z, hz⟩ := List.exists_mem_of_ne_nil _ hne
  have : z ∈ times f (c + j) x := by
    rw [Nat.add_comm, times_add]
    exact List.mem_flatMap.2 ⟨y, hy, hz⟩
  rw [times_add, h] at this
  cases this

theorem rep_nil {ng : Bool} {c d : Nat} {s : Tree α} {x : List UInt8} :
    rests leaf (.rep ng c d s) x = [] ↔ times (rests leaf s) c x = [] := by
  rw [rests, List.flatMap_eq_nil_iff]
  constructor
  · intro h
    by_contra hne
    obtain ⟨z, hz⟩ := List.exists_mem_of_ne_nil _ hne
    have := h z hz
    split at this
    · exact List.ne_nil_of_mem (star_self _ _ _ _) this
    · exact List.ne_nil_of_mem (upto_self _ _ _ _) this
  · intro h x hx
    rw [h] at hx
    cases hx

theorem head_skip {β : Type} {a b : List β} (h : a = [] → b = []) : (a ++ b).head? = a.head? := by
  cases a with
  | nil => rw [h rfl]; rfl
  | cons x a => rfl

/-- `S{a,b}?S{c,d}` and `S{a+c,a+d}` prefer the same. -/
theorem ng_then_greedy (a b c d : Nat) (s : Tree α) (hac : a + c ≠ UNB)
    (had : d ≠ UNB → a + d ≠ UNB) (w : List UInt8) :
    preferred leaf (.cat (.rep true a b s) (.rep false c d s)) w =
      preferred leaf (.rep false (a + c) (if d = UNB then UNB else a + d) s) w := by
  have e : rests leaf (.rep false (a + c) (if d = UNB then UNB else a + d) s) w =
      (times (rests leaf s) a w).flatMap (rests leaf (.rep false c d s)) := by
    rw [rests_rep, times_add, List.flatMap_assoc]
    refine List.flatMap_congr fun x _ => ?_
    rw [rests_rep]
    refine List.flatMap_congr fun y _ => ?_
    by_cases hd : d = UNB
    · rw [if_pos hd, if_pos rfl, if_pos hd]
    · rw [if_neg hd, if_neg (had hd), if_neg hd, Nat.add_sub_add_left]
  unfold preferred
  rw [e, rests_cat, rests_rep, List.flatMap_assoc]
  refine head_flatMap fun x _ => ?_
  have key : ∀ l : List (List UInt8), (∀ y ∈ l, ∃ j, y ∈ times (rests leaf s) j x) →
      rests leaf (.rep false c d s) x = [] → l.flatMap (rests leaf (.rep false c d s)) = [] := by
    intro l hl h
    rw [List.flatMap_eq_nil_iff]
    intro y hy
    obtain ⟨j, hj⟩ := hl y hy
    rw [rep_nil] at h ⊢
    exact times_stuck hj h
  have cut : ∀ l : List (List UInt8), (∀ y ∈ l, ∃ j, y ∈ times (rests leaf s) j x) → l.head? = some x →
      (l.flatMap (rests leaf (.rep false c d s))).head? = (rests leaf (.rep false c d s) x).head? := by
    intro l hl h
    cases l with
    | nil => cases h
    | cons y l =>
      cases h
      rw [List.flatMap_cons]
      exact head_skip (key l fun y hy => hl y (by simp [hy]))
  split
  · exact cut _ (fun y hy => star_times _ _ _ _ _ hy) (star_head _ _ _)
  · exact cut _ (fun y hy => upto_times _ _ _ _ _ hy) (upto_head _ _ _)

theorem rests_once (ng : Bool) (s : Tree α) (w : List UInt8) : rests leaf (.rep ng 1 1 s) w = rests leaf s w := by
  rw [rests_exact _ _ (by unfold UNB; omega)]
  have : times (rests leaf s) 0 = fun w => [w] := rfl
  rw [times, this]
  simp

/-! ## The ways are those of the language -/

/-- `f` gives what is left after a string of `A`. -/
def Splits (f : List UInt8 → List (List UInt8)) (A : Language UInt8) : Prop :=
  ∀ w r, r ∈ f w ↔ ∃ u ∈ A, w = u ++ r

theorem splits_times {f : List UInt8 → List (List UInt8)} {A : Language UInt8} (h : Splits f A) (n : Nat) :
    Splits (times f n) (A ^ n) := by
  induction n with
  | zero =>
    intro w r
    rw [times, pow_zero]
    constructor
    · intro hr
      exact ⟨[], rfl, (List.mem_singleton.1 hr).symm⟩
    · rintro ⟨u, hu, rfl⟩
      rw [show u = [] from hu]
      simp
  | succ n ih =>
    intro w r
    rw [times, List.mem_flatMap, pow_succ']
    constructor
    · rintro ⟨x, hx, hr⟩
      obtain ⟨u, hu, rfl⟩ := (h w x).1 hx
      obtain ⟨v, hv, rfl⟩ := (ih x r).1 hr
      exact ⟨u ++ v, Language.append_mem_mul hu hv, by simp⟩
    · rintro ⟨u, hu, rfl⟩
      rw [Language.mem_mul] at hu
      obtain ⟨x, hx, y, hy, rfl⟩ := hu
      exact ⟨y ++ r, (h _ _).2 ⟨x, hx, by simp⟩, (ih _ _).2 ⟨y, hy, rfl⟩⟩

theorem splits_upto {f : List UInt8 → List (List UInt8)} {A : Language UInt8} (h : Splits f A) (ng : Bool) (n : Nat)
    (w r : List UInt8) : r ∈ upto f ng n w ↔ ∃ k, k ≤ n ∧ ∃ u ∈ A ^ k, w = u ++ r := by
  induction n generalizing w with
  | zero =>
    constructor
    · intro hr
      exact ⟨0, Nat.le_refl _, [], rfl, (List.mem_singleton.1 hr).symm⟩
    · rintro ⟨k, hk, u, hu, rfl⟩
      obtain rfl : k = 0 := by omega
      rw [pow_zero] at hu
      rw [show u = [] from hu]
      simp [upto]
  | succ n ih =>
    rw [upto, mem_either, List.mem_flatMap]
    constructor
    · rintro (⟨x, hx, hr⟩ | hr)
      · obtain ⟨u, hu, rfl⟩ := (h w x).1 hx
        obtain ⟨k, hk, v, hv, rfl⟩ := (ih x).1 hr
        refine ⟨k + 1, by omega, u ++ v, ?_, by simp⟩
        rw [pow_succ']
        exact Language.append_mem_mul hu hv
      · exact ⟨0, Nat.zero_le _, [], rfl, (List.mem_singleton.1 hr).symm⟩
    · rintro ⟨k, hk, u, hu, rfl⟩
      cases k with
      | zero =>
        rw [pow_zero] at hu
        rw [show u = [] from hu]
        simp
      | succ k =>
        rw [pow_succ', Language.mem_mul] at hu
        obtain ⟨x, hx, y, hy, rfl⟩ := hu
        exact Or.inl ⟨y ++ r, (h _ _).2 ⟨x, hx, by simp⟩, (ih _).2 ⟨k, by omega, y, hy, rfl⟩⟩

theorem splits_star {f : List UInt8 → List (List UInt8)} {A : Language UInt8} (h : Splits f A) (ng : Bool)
    (w r : List UInt8) : r ∈ star f ng w.length w ↔ ∃ k, ∃ u ∈ A ^ k, w = u ++ r := by
  constructor
  · intro hr
    obtain ⟨j, hj⟩ := star_times _ _ _ _ _ hr
    exact ⟨j, (splits_times h j _ _).1 hj⟩
  · rintro ⟨k, u, hu, rfl⟩
    have key : ∀ k n u, u ∈ A ^ k → (u ++ r).length ≤ n → r ∈ star f ng n (u ++ r) := by
      clear u hu k
      intro k
      induction k with
      | zero =>
        intro n u hu _
        rw [pow_zero] at hu
        rw [show u = [] from hu]
        exact star_self _ _ _ _
      | succ k ih =>
        intro n u hu hn
        rw [pow_succ', Language.mem_mul] at hu
        obtain ⟨x, hx, y, hy, rfl⟩ := hu
        cases x with
        | nil => exact ih n y hy hn
        | cons a x =>
          cases n with
          | zero => simp at hn
          | succ n =>
            rw [star, mem_either, List.mem_flatMap]
            refine Or.inl ⟨y ++ r, List.mem_filter.2 ⟨(h _ _).2 ⟨a :: x, hx, by simp⟩, ?_⟩, ih n y hy ?_⟩
            · simp
              omega
            · simp at hn ⊢
              omega
    exact key k _ u hu (Nat.le_refl _)

/-- What is left in some way is what is left after a string of the language: the order adds
no match and loses none. -/
theorem mem_rests (sem : α → Language UInt8) (hl : ∀ a, Splits (leaf a) (sem a)) (t : Tree α) (hok : Ok t)
    (hn : NoLook t) (w r : List UInt8) : r ∈ rests leaf t w ↔ ∃ u ∈ lang sem t, w = u ++ r := by
  suffices h : Splits (rests leaf t) (lang sem t) from h w r
  clear w r
  induction t with
  | leaf a => exact hl a
  | look k t => exact hn.elim
  | alt l r ihl ihr =>
    intro w x
    show x ∈ rests leaf l w ++ rests leaf r w ↔ ∃ u ∈ lang sem l + lang sem r, w = u ++ x
    rw [List.mem_append, ihl hok.1 hn.1 w x, ihr hok.2 hn.2 w x]
    constructor
    · rintro (⟨u, hu, e⟩ | ⟨u, hu, e⟩)
      · exact ⟨u, (Language.mem_add _ _ _).2 (Or.inl hu), e⟩
      · exact ⟨u, (Language.mem_add _ _ _).2 (Or.inr hu), e⟩
    · rintro ⟨u, hu, e⟩
      rw [Language.mem_add] at hu
      rcases hu with hu | hu
      · exact Or.inl ⟨u, hu, e⟩
      · exact Or.inr ⟨u, hu, e⟩
  | cat l r ihl ihr =>
    intro w x
    show x ∈ (rests leaf l w).flatMap (rests leaf r) ↔ ∃ u ∈ lang sem l * lang sem r, w = u ++ x
    rw [List.mem_flatMap]
    constructor
    · rintro ⟨y, hy, hx⟩
      obtain ⟨u, hu, rfl⟩ := (ihl hok.1 hn.1 w y).1 hy
      obtain ⟨v, hv, rfl⟩ := (ihr hok.2 hn.2 y x).1 hx
      exact ⟨u ++ v, Language.append_mem_mul hu hv, by simp⟩
    · rintro ⟨u, hu, rfl⟩
      rw [Language.mem_mul] at hu
      obtain ⟨p, hp, q, hq, rfl⟩ := hu
      exact ⟨q ++ x, (ihl hok.1 hn.1 _ _).2 ⟨p, hp, by simp⟩, (ihr hok.2 hn.2 _ _).2 ⟨q, hq, rfl⟩⟩
  | rep ng m M t ih =>
    have ih := ih hok.2.2.2 hn
    intro w x
    rw [rests_rep, List.mem_flatMap]
    constructor
    · rintro ⟨y, hy, hx⟩
      obtain ⟨u, hu, rfl⟩ := (splits_times ih m w y).1 hy
      have join : ∀ k, (M = UNB ∨ m + k ≤ M) → (∃ v ∈ lang sem t ^ k, y = v ++ x) →
          ∃ z ∈ lang sem (.rep ng m M t), u ++ y = z ++ x := by
        rintro k hk ⟨v, hv, rfl⟩
        refine ⟨u ++ v, ⟨m + k, by omega, hk, ?_⟩, by simp⟩
        rw [pow_add]
        exact Language.append_mem_mul hu hv
      split at hx
      · next hM =>
        obtain ⟨k, hk⟩ := (splits_star ih ng y x).1 hx
        exact join k (Or.inl hM) hk
      · next hM =>
        obtain ⟨k, hkM, hk⟩ := (splits_upto ih ng _ y x).1 hx
        have := hok.1
        exact join k (Or.inr (by omega)) hk
    · rintro ⟨u, ⟨k, hk, hkM, hu⟩, rfl⟩
      obtain ⟨j, rfl⟩ : ∃ j, k = m + j := ⟨k - m, by omega⟩
      rw [pow_add, Language.mem_mul] at hu
      obtain ⟨p, hp, q, hq, rfl⟩ := hu
      refine ⟨q ++ x, (splits_times ih m _ _).2 ⟨p, hp, by simp⟩, ?_⟩
      split
      · exact (splits_star ih ng _ _).2 ⟨j, q, hq, rfl⟩
      · next hM =>
        refine (splits_upto ih ng _ _ _).2 ⟨j, ?_, q, hq, rfl⟩
        rcases hkM with h | h
        · exact absurd h hM
        · omega

variable [DecidableEq α]

theorem thenGreedy_preferred (t : Tree α) (hok : Ok t) (hn : NoLook t) (hf : NgFlat t) (hw : 2 * weight t < UNB)
    (w : List UInt8) : preferred leaf (thenGreedy t).2 w = preferred leaf t w := by
  induction t generalizing w with
  | leaf a => rfl
  | look k t => exact hn.elim
  | rep ng m M t ih =>
    have hnn : NoNg t := hf
    have e : (thenGreedy (.rep ng m M t)).2 = .rep ng m M t := by
      simp [thenGreedy, thenGreedy_noNg t hnn]
    rw [e]
  | alt l r ihl ihr =>
    simp only [weight] at hw
    exact head_append (ihl hok.1 hn.1 hf.1 (by omega) w) (ihr hok.2 hn.2 hf.2 (by omega) w)
  | cat l r ihl ihr =>
    simp only [weight] at hw
    have hr := ihr hok.2 hn.2 hf.2 (by omega)
    obtain ⟨q1, -, q4, -⟩ := thenGreedy_places (fun _ => 0) r hok.2 hn.2 hf.2 (by omega)
    have right : preferred leaf (.cat l (thenGreedy r).2) w = preferred leaf (.cat l r) w :=
      head_flatMap fun x _ => hr x
    by_cases hl : ∃ a b s, l = .rep true a b s
    · obtain ⟨a, b, s, rfl⟩ := hl
      have hnn : NoNg s := hf.1
      have es : (thenGreedy s).2 = s := by rw [thenGreedy_noNg s hnn]
      have hsp := weight_pos s
      have hrp := weight_pos (thenGreedy r).2
      simp only [weight] at hw
      rcases thenGreedy_cat a b s r with h | ⟨c, d, h1, h⟩ | ⟨h1, h⟩
      · rw [h]
        exact right
      · rw [h, es, ← right, h1]
        rw [h1] at q1 q4
        simp only [weight] at q4
        have hac : a + c < UNB := by omega
        have had : d ≠ UNB → a + d < UNB := by intro hd; rw [if_neg hd] at q4; omega
        rw [ng_then_greedy a b c d s (by omega) (fun hd => Nat.ne_of_lt (had hd)) w]
        have e1 : add32 a c = a + c := by unfold add32; unfold UNB at hac; omega
        rw [e1]
        by_cases hd : d = UNB
        · rw [if_pos hd, if_pos hd]
        · have h2 := had hd
          have e2 : add32 a d = a + d := by unfold add32; unfold UNB at h2; omega
          rw [if_neg hd, if_neg hd, e2]
      · rw [h, es, ← right, h1]
        rw [h1] at q1 q4
        have ha1 : a + 1 < UNB := by omega
        have e1 : add32 a 1 = a + 1 := by unfold add32; unfold UNB at ha1; omega
        rw [e1]
        have h3 := ng_then_greedy (leaf := leaf) a b 1 1 s (by omega) (fun _ => by omega) w
        rw [if_neg (show (1 : Nat) ≠ UNB by simp [UNB])] at h3
        rw [← h3]
        exact head_flatMap fun x _ => by rw [rests_once]
    · rw [thenGreedy_cat' l r (fun a b s e => hl ⟨a, b, s, e⟩)]
      exact right

/-! ## The property -/

/-- **C19**, the end of the match: after the two reductions of trailing non-greedy repetitions
the preferred match at the beginning of any data is the same as before, or there is none
before and after. -/
theorem nongreedy_reduction_preferred (leaf : α → List UInt8 → List (List UInt8)) (t : Tree α) (hok : Ok t)
    (hn : NoLook t) (hf : NgFlat t) (hw : 4 * weight t < UNB) :
    ∃ q, thenEmpty t = some q ∧ ∀ data, preferred leaf (thenGreedy q.2).2 data = preferred leaf t data := by
  have hs : LeafNonempty (fun _ : α => (0 : Language UInt8)) := fun _ h => h
  obtain ⟨q, hq, q1, q2, q3, q4, -⟩ := thenEmpty_places _ hs t hok hn hf
  refine ⟨q, hq, fun data => ?_⟩
  rw [thenGreedy_preferred q.2 q1 q2 q3 (by omega), thenEmpty_preferred t hok hf hn q hq]

/-- The leaves are bytes. -/
def byteLeaf (a : UInt8) : List UInt8 → List (List UInt8)
  | [] => []
  | b :: w => if a = b then [w] else []

theorem byteLeaf_splits (a : UInt8) : Splits (byteLeaf a) (byteSem a) := by
  intro w r
  constructor
  · intro h
    cases w with
    | nil => cases h
    | cons b w =>
      rw [byteLeaf] at h
      split at h
      · next e =>
        rw [List.mem_singleton] at h
        exact ⟨[a], rfl, by rw [e, h]; rfl⟩
      · cases h
  · rintro ⟨u, hu, rfl⟩
    have : u = [a] := hu
    subst this
    simp [byteLeaf]

/-- `xa+?a{2,3}` on "xaaaab": its preferred match leaves "b", and so does that of `xa{3,4}`. -/
example : preferred byteLeaf (.cat (.leaf 120) (.cat (.rep true 1 UNB (.leaf 97)) (.rep false 2 3 (.leaf 97))))
      [120, 97, 97, 97, 97, 98] = some [98] ∧
    preferred byteLeaf (.cat (.leaf 120) (.rep false 3 4 (.leaf 97))) [120, 97, 97, 97, 97, 98] = some [98] := by
  decide +kernel

/-- The order matters: `(a|ab)` prefers "a" and `(ab|a)` prefers "ab"; `a+?` prefers "a" and `a+`
prefers "aa". -/
example : preferred byteLeaf (.alt (.leaf 97) (.cat (.leaf 97) (.leaf 98))) [97, 98] = some [98] ∧
    preferred byteLeaf (.alt (.cat (.leaf 97) (.leaf 98)) (.leaf 97)) [97, 98] = some [] ∧
    preferred byteLeaf (.rep true 1 UNB (.leaf 97)) [97, 97] = some [97] ∧
    preferred byteLeaf (.rep false 1 UNB (.leaf 97)) [97, 97] = some [] := by
  decide +kernel

/-- Merging consecutive repetitions is not so careful: with `s = (x|xy)` the merging of equal
neighbours turns `s{1,2}s{1,2}` into `s{2,4}`.  On "xxyx" the first prefers all of it (its second round
must take "xy" for the second repetition to match) and the second prefers "xx". -/
theorem combine_changes_preferred :
    ∃ s t u : Tree UInt8, s = .alt (.leaf 120) (.cat (.leaf 120) (.leaf 121)) ∧
      t = .cat (.rep false 1 2 s) (.rep false 1 2 s) ∧ u = .rep false 2 4 s ∧
      combine t = some (true, u) ∧
      preferred byteLeaf t [120, 120, 121, 120] ≠ preferred byteLeaf u [120, 120, 121, 120] := by
  refine ⟨_, _, _, rfl, rfl, rfl, by decide +kernel, by decide +kernel⟩

end Verif.Regex
