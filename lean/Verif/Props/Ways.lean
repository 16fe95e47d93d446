import Verif.Props.Backtrack
import Verif.Props.Rewrite
/-!
# The order of preference through all passes of the rewriter (C19)

Two lists of ways are as good as each other if they are the same after every later occurrence
of an element is dropped: a backtracking matcher that fails with some rest fails with it again.
-/
namespace Verif.Regex

/-! ## Lists up to later occurrences -/

section Nub
variable {β γ : Type} [DecidableEq β] [DecidableEq γ]

/-- Without later occurrences. -/
def nub : List β → List β
  | [] => []
  | x :: l => x :: (nub l).filter (· ≠ x)

/-- The same up to later occurrences. -/
def Same (a b : List β) : Prop := nub a = nub b

theorem Same.refl (a : List β) : Same a a := rfl
theorem Same.symm {a b : List β} (h : Same a b) : Same b a := Eq.symm h
theorem Same.trans {a b c : List β} (h : Same a b) (g : Same b c) : Same a c := Eq.trans h g

theorem mem_nub {l : List β} {y : β} : y ∈ nub l ↔ y ∈ l := by
  induction l with
  | nil => rfl
  | cons x l ih =>
    rw [nub, List.mem_cons, List.mem_cons, List.mem_filter, ih]
    by_cases h : y = x
    · simp [h]
    · simp [h]

theorem Same.mem {a b : List β} (h : Same a b) {y : β} : y ∈ a ↔ y ∈ b := by
  rw [← mem_nub, h, mem_nub]

theorem nub_head (l : List β) : (nub l).head? = l.head? := by cases l <;> rfl

theorem Same.head {a b : List β} (h : Same a b) : a.head? = b.head? := by
  rw [← nub_head a, h, nub_head]

theorem Same.nil {a b : List β} (h : Same a b) : a = [] ↔ b = [] := head_nil h.head

theorem nub_filter (p : β → Bool) (l : List β) : nub (l.filter p) = (nub l).filter p := by
  induction l with
  | nil => rfl
  | cons x l ih =>
    rw [nub, List.filter_cons, List.filter_cons]
    split
    · rw [nub, ih, List.filter_filter, List.filter_filter]
      congr 1
      exact List.filter_congr fun y _ => Bool.and_comm _ _
    · next hx =>
      rw [ih, List.filter_filter]
      refine List.filter_congr fun y _ => ?_
      by_cases hy : y = x
      · subst hy; simp at hx; simp [hx]
      · simp [hy]

theorem nub_nub (l : List β) : nub (nub l) = nub l := by
  induction l with
  | nil => rfl
  | cons x l ih =>
    rw [nub, nub, nub_filter, ih, List.filter_filter]
    simp

theorem nub_append (a b : List β) : nub (a ++ b) = nub a ++ (nub b).filter (· ∉ a) := by
  induction a with
  | nil => simp [nub]
  | cons x a ih =>
    rw [List.cons_append, nub, ih, nub, List.filter_append, List.filter_filter, List.cons_append]
    congr 2
    refine List.filter_congr fun y _ => ?_
    by_cases hy : y = x <;> simp [hy]

theorem Same.append {a b a' b' : List β} (ha : Same a a') (hb : Same b b') : Same (a ++ b) (a' ++ b') := by
  unfold Same
  rw [nub_append, nub_append, ha, hb]
  congr 1
  exact List.filter_congr fun y _ => by simp [ha.mem]

theorem Same.filter {a b : List β} (h : Same a b) (p : β → Bool) : Same (a.filter p) (b.filter p) := by
  unfold Same
  rw [nub_filter, nub_filter, h]

/-- What comes again is of no use. -/
theorem same_drop {a b : List β} (h : ∀ y ∈ b, y ∈ a) : Same (a ++ b) a := by
  unfold Same
  rw [nub_append]
  have : (nub b).filter (· ∉ a) = [] := by
    rw [List.filter_eq_nil_iff]
    intro y hy
    simp [h y (mem_nub.1 hy)]
  rw [this, List.append_nil]

theorem flatMap_fun {l : List β} {f g : β → List γ} (h : ∀ x ∈ l, Same (f x) (g x)) :
    Same (l.flatMap f) (l.flatMap g) := by
  induction l with
  | nil => rfl
  | cons x l ih =>
    rw [List.flatMap_cons, List.flatMap_cons]
    exact (h x (by simp)).append (ih fun y hy => h y (by simp [hy]))

/-- Dropping an element that was there before. -/
theorem same_seen (x : β) (l : List β) (f : β → List γ) (a : List γ) (h : ∀ y ∈ f x, y ∈ a) :
    Same (a ++ l.flatMap f) (a ++ (l.filter (· ≠ x)).flatMap f) := by
  induction l generalizing a with
  | nil => rfl
  | cons z l ih =>
    rw [List.filter_cons]
    by_cases hz : z = x
    · subst hz
      rw [List.flatMap_cons, ← List.append_assoc]
      have e1 : Same (a ++ f z ++ l.flatMap f) (a ++ l.flatMap f) := (same_drop h).append rfl
      refine e1.trans ?_
      simp only [ne_eq, not_true_eq_false, decide_false, Bool.false_eq_true, if_false]
      exact ih a h
    · simp only [ne_eq, hz, not_false_eq_true, decide_true, if_true]
      rw [List.flatMap_cons, List.flatMap_cons, ← List.append_assoc, ← List.append_assoc]
      exact ih (a ++ f z) fun y hy => List.mem_append_left _ (h y hy)

theorem flatMap_nub (l : List β) (f : β → List γ) : Same (l.flatMap f) ((nub l).flatMap f) := by
  induction l with
  | nil => rfl
  | cons x l ih =>
    rw [nub, List.flatMap_cons, List.flatMap_cons]
    refine (Same.append (Same.refl (f x)) ih).trans ?_
    exact same_seen x _ f (f x) fun y hy => hy

theorem Same.flatMap {l l' : List β} {f g : β → List γ} (h : Same l l') (hf : ∀ x, Same (f x) (g x)) :
    Same (l.flatMap f) (l'.flatMap g) := by
  refine (flatMap_nub l f).trans ?_
  rw [h]
  refine Same.trans ?_ (flatMap_nub l' g).symm
  exact flatMap_fun fun x _ => hf x

end Nub

variable {α : Type} {leaf : α → List UInt8 → List (List UInt8)}

theorem Same.either {ng : Bool} {a b a' b' : List (List UInt8)} (ha : Same a a') (hb : Same b b') :
    Same (either ng a b) (either ng a' b') := by
  unfold Regex.either
  split
  · exact hb.append ha
  · exact ha.append hb

theorem Same.times {f g : List UInt8 → List (List UInt8)} (h : ∀ w, Same (f w) (g w)) (n : Nat) (w : List UInt8) :
    Same (times f n w) (times g n w) := by
  induction n generalizing w with
  | zero => rfl
  | succ n ih => exact (h w).flatMap ih

theorem Same.upto {f g : List UInt8 → List (List UInt8)} (h : ∀ w, Same (f w) (g w)) (ng : Bool) (n : Nat)
    (w : List UInt8) : Same (upto f ng n w) (upto g ng n w) := by
  induction n generalizing w with
  | zero => rfl
  | succ n ih => exact Same.either ((h w).flatMap ih) rfl

theorem Same.star {f g : List UInt8 → List (List UInt8)} (h : ∀ w, Same (f w) (g w)) (ng : Bool) (n : Nat)
    (w : List UInt8) : Same (star f ng n w) (star g ng n w) := by
  induction n generalizing w with
  | zero => rfl
  | succ n ih => exact Same.either (((h w).filter _).flatMap ih) rfl

theorem Same.rep {t t' : Tree α} (h : ∀ w, Same (rests leaf t w) (rests leaf t' w)) (ng : Bool) (m M : Nat)
    (w : List UInt8) : Same (rests leaf (.rep ng m M t) w) (rests leaf (.rep ng m M t') w) := by
  rw [rests_rep, rests_rep]
  refine (Same.times h m w).flatMap fun x => ?_
  split
  · exact Same.star h _ _ _
  · exact Same.upto h _ _ _

/-! ## Reassociation and useless repetitions -/

theorem assoc_rests (t : Tree α) (w : List UInt8) : rests leaf (assoc t).2 w = rests leaf t w := by
  suffices h : rests leaf (assoc t).2 = rests leaf t by rw [h]
  clear w
  induction t with
  | leaf a => rfl
  | look k t ih => rfl
  | rep ng m M t ih =>
    show rests leaf (.rep ng m M (assoc t).2) = _
    rw [rests, rests, ih]
  | alt l r ihl ihr =>
    unfold assoc
    dsimp only
    split
    · next e f h =>
      rw [rests, rests, rests, ← ihl, ← ihr, h, rests]
      funext w
      simp
    · next t h =>
      rw [rests, rests, ihl, ihr]
  | cat l r ihl ihr =>
    unfold assoc
    dsimp only
    split
    · next e f h =>
      rw [rests, rests, rests, ← ihl, ← ihr, h, rests]
      funext w
      rw [List.flatMap_assoc]
    · next t h =>
      rw [rests, rests, ihl, ihr]

theorem prune_rests (t : Tree α) (hok : Ok t) : rests leaf (prune t) = rests leaf t := by
  induction t with
  | rep ng m M t ih =>
    unfold prune
    split
    · next h =>
      obtain ⟨rfl, rfl⟩ := h
      rw [ih hok.2.2.2]
      funext w
      rw [rests_once]
    · split
      · next h =>
        obtain ⟨-, rfl⟩ := h
        funext w
        rw [rests_exact _ _ (ok_min hok), rests_exact _ _ (ok_min hok)]
      · rfl
  | _ => rfl

theorem useless_rests (t t' : Tree α) (hok : Ok t) (hn : NoLook t) (h : useless t = some t') :
    rests leaf t' = rests leaf t := by
  induction t using useless.induct generalizing t' with
  | case1 a => simp only [useless, Option.some.injEq] at h; subst h; rfl
  | case2 k t => simp [useless] at h
  | case3 ng m M t ih =>
    simp only [useless, bind, Option.bind] at h
    split at h
    · cases h
    · next s hs =>
      simp only [Option.some.injEq] at h; subst h
      obtain ⟨p1, p2, -⟩ := prune_keeps t hok.2.2.2 hn
      rw [rests, rests, ih s p1 p2 hs, prune_rests t hok.2.2.2]
  | case4 l r ihl ihr =>
    simp only [useless, Option.bind_eq_bind, Option.bind_eq_some_iff] at h
    obtain ⟨s, hs, u, hu, h⟩ := h
    simp only [Option.some.injEq] at h; subst h
    obtain ⟨p1, p2, -⟩ := prune_keeps l hok.1 hn.1
    obtain ⟨q1, q2, -⟩ := prune_keeps r hok.2 hn.2
    rw [rests, rests, ihl s p1 p2 hs, ihr u q1 q2 hu, prune_rests l hok.1, prune_rests r hok.2]
  | case5 l r ihl ihr =>
    simp only [useless, Option.bind_eq_bind, Option.bind_eq_some_iff] at h
    obtain ⟨s, hs, u, hu, h⟩ := h
    simp only [Option.some.injEq] at h; subst h
    obtain ⟨p1, p2, -⟩ := prune_keeps l hok.1 hn.1
    obtain ⟨q1, q2, -⟩ := prune_keeps r hok.2 hn.2
    rw [rests, rests, ihl s p1 p2 hs, ihr u q1 q2 hu, prune_rests l hok.1, prune_rests r hok.2]

/-! ## Empty subtrees -/

theorem same_self {a : List (List UInt8)} {w : List UInt8} (h : ∀ y ∈ a, y = w) (hne : a ≠ []) : Same a [w] := by
  cases a with
  | nil => exact absurd rfl hne
  | cons x a =>
    have hx := h x (by simp)
    subst hx
    have := same_drop (a := [x]) (b := a) fun y hy => by simp [h y (by simp [hy])]
    exact this

theorem flatMap_only {a : List (List UInt8)} {w : List UInt8} (h : Same a [w]) (f : List UInt8 → List (List UInt8)) :
    Same (a.flatMap f) (f w) := by
  have := Same.flatMap h (f := f) (g := f) fun _ => rfl
  simpa using this

/-- A subtree that the code takes to match only the empty string does so. -/
theorem onlyZero_rests (t : Tree α) (hn : NoLook t) (ha : AltOk t) (h : onlyZero t = some true) (w : List UInt8) :
    Same (rests leaf t w) [w] := by
  induction t generalizing w with
  | leaf a => simp [onlyZero] at h
  | look k t => simp [onlyZero] at h
  | alt l r ihl ihr =>
    exact ((ihl hn.1 ha.2.1 h w).append (ihr hn.2 ha.2.2 (ha.1 h) w)).trans (by simp [Same, nub])
  | cat l r ihl ihr =>
    obtain ⟨h1, h2⟩ := onlyZero_cat_true.1 h
    exact (flatMap_only (ihl hn.1 ha.1 h1 w) _).trans (ihr hn.2 ha.2 h2 w)
  | rep ng m M t ih =>
    rcases onlyZero_rep_true.1 h with ⟨rfl, rfl⟩ | h
    · rw [rests_exact _ _ (by simp [UNB])]; rfl
    · have hf : ∀ w, Same (rests leaf t w) ((fun w => [w]) w) := ih hn ha h
      have e1 : ∀ n w, times (fun w : List UInt8 => [w]) n w = [w] := by
        intro n w
        induction n with
        | zero => rfl
        | succ n ih => simp [times, ih]
      have e2 : ∀ n w, Same (upto (fun w : List UInt8 => [w]) ng n w) [w] := by
        intro n w
        induction n with
        | zero => rfl
        | succ n ih =>
          rw [upto, List.flatMap_cons, List.flatMap_nil, List.append_nil]
          refine (Same.either ih rfl).trans ?_
          unfold either
          split <;> simp [Same, nub]
      have e3 : ∀ n w, star (fun w : List UInt8 => [w]) ng n w = [w] := by
        intro n w
        cases n with
        | zero => rfl
        | succ n =>
          simp [star, either]
      rw [rests_rep]
      have := Same.times hf m w
      rw [e1] at this
      refine (flatMap_only this _).trans ?_
      split
      · exact (Same.star hf ng _ w).trans (by rw [e3]; exact Same.refl _)
      · exact (Same.upto hf ng _ w).trans (e2 _ _)

theorem rests_opt (t : Tree α) (w : List UInt8) : rests leaf (.rep false 0 1 t) w = rests leaf t w ++ [w] := by
  rw [rests_rep]
  simp [times, UNB, upto, either]

theorem dead_rests (x : α) (w : List UInt8) : rests leaf (.rep false 0 0 (.leaf x)) w = [w] := by
  rw [rests_exact _ _ (by simp [UNB])]; rfl

/-- Removing empty subtrees leaves the ways to match unchanged. -/
theorem reduceEmpty_rests (x : α) (t : Tree α) (hok : Ok t) (hn : NoLook t) (ha : AltOk t) :
    ∀ u, reduceEmpty x t = some u → ∀ w, Same (rests leaf u w) (rests leaf t w) := by
  induction t with
  | leaf a => intro u h w; cases h; rfl
  | look k t => exact hn.elim
  | rep ng m M t ih =>
    intro u h w
    by_cases hz : onlyZero (.rep ng m M t) = some true
    · simp only [reduceEmpty, hz, Option.bind_eq_bind, Option.bind_some, if_true, Option.some.injEq] at h
      subst h
      rw [dead_rests]
      exact (onlyZero_rests (.rep ng m M t) hn ha hz w).symm
    · have hzf := onlyZero_ne_true (t := .rep ng m M t) hn hz
      obtain ⟨t', e, -⟩ := reduceEmpty_spec (fun _ => 0) x t hok.2.2.2 hn
      simp only [reduceEmpty, hzf, e, Option.bind_eq_bind, Option.bind_some, Bool.false_eq_true, if_false,
        Option.some.injEq] at h
      subst h
      exact Same.rep (ih hok.2.2.2 hn ha t' e) ng m M w
  | alt l r ihl ihr =>
    intro u h w
    by_cases hz : onlyZero (.alt l r) = some true
    · simp only [reduceEmpty, hz, Option.bind_eq_bind, Option.bind_some, if_true, Option.some.injEq] at h
      subst h
      rw [dead_rests]
      exact (onlyZero_rests (.alt l r) hn ha hz w).symm
    · have hzf := onlyZero_ne_true (t := .alt l r) hn hz
      obtain ⟨l', el, -, -, zl, -, -⟩ := reduceEmpty_spec (fun _ => 0) x l hok.1 hn.1
      obtain ⟨r', er, -, -, zr, -, -⟩ := reduceEmpty_spec (fun _ => 0) x r hok.2 hn.2
      have hl := ihl hok.1 hn.1 ha.2.1 l' el w
      have hr := ihr hok.2 hn.2 ha.2.2 r' er w
      simp only [reduceEmpty, hzf, el, er, Option.bind_eq_bind, Option.bind_some, Bool.false_eq_true, if_false] at h
      by_cases hzr : onlyZero r = some true
      · simp only [fixDead, zr, hzr, Option.bind_eq_bind, Option.bind_some, if_true, Option.some.injEq] at h
        subst h
        rw [rests_opt]
        exact hl.append (onlyZero_rests r hn.2 ha.2.2 hzr w).symm
      · have hzrf := onlyZero_ne_true hn.2 hzr
        simp only [fixDead, zr, hzrf, Option.bind_eq_bind, Option.bind_some, Bool.false_eq_true, if_false,
          Option.some.injEq] at h
        subst h
        exact hl.append hr
  | cat l r ihl ihr =>
    intro u h w
    by_cases hz : onlyZero (.cat l r) = some true
    · simp only [reduceEmpty, hz, Option.bind_eq_bind, Option.bind_some, if_true, Option.some.injEq] at h
      subst h
      rw [dead_rests]
      exact (onlyZero_rests (.cat l r) hn ha hz w).symm
    · have hzf := onlyZero_ne_true (t := .cat l r) hn hz
      obtain ⟨l', el, -, -, zl, -, ll⟩ := reduceEmpty_spec (fun _ => 0) x l hok.1 hn.1
      obtain ⟨r', er, -, -, zr, -, -⟩ := reduceEmpty_spec (fun _ => 0) x r hok.2 hn.2
      have hl := ihl hok.1 hn.1 ha.1 l' el w
      have hr := ihr hok.2 hn.2 ha.2 r' er
      simp only [reduceEmpty, hzf, el, er, Option.bind_eq_bind, Option.bind_some, Bool.false_eq_true, if_false] at h
      by_cases hzl : onlyZero l = some true
      · simp only [fixDead, zl, hzl, Option.bind_eq_bind, Option.bind_some, if_true, Option.some.injEq] at h
        subst h
        exact (hr w).trans (flatMap_only (onlyZero_rests l hn.1 ha.1 hzl w) _).symm
      · have hzlf := onlyZero_ne_true hn.1 hzl
        by_cases hzr : onlyZero r = some true
        · simp only [fixDead, zl, hzlf, zr, hzr, Option.bind_eq_bind, Option.bind_some, Bool.false_eq_true, if_false,
            if_true, Option.some.injEq] at h
          subst h
          have := Same.flatMap hl (f := fun y => [y]) (g := rests leaf r)
            fun y => (onlyZero_rests r hn.2 ha.2 hzr y).symm
          rw [rests_cat]
          simpa using this
        · have hzrf := onlyZero_ne_true hn.2 hzr
          simp only [fixDead, zl, hzlf, zr, hzrf, Option.bind_eq_bind, Option.bind_some, Bool.false_eq_true, if_false,
            Option.some.injEq] at h
          subst h
          exact hl.flatMap hr

/-- At the end of a pattern an alternation with an empty left side is preferred empty. -/
theorem onlyZero_preferred (sem : α → Language UInt8) (t : Tree α) (hn : NoLook t) (ha : TrailOk sem t)
    (h : onlyZero t = some true) (w : List UInt8) : preferred leaf t w = some w := by
  induction t generalizing w with
  | leaf a => simp [onlyZero] at h
  | look k t => simp [onlyZero] at h
  | alt l r ihl ihr =>
    have := ihl hn.1 ha.1 h w
    unfold preferred at this ⊢
    rw [rests, List.head?_append, this]
    rfl
  | cat l r ihl ihr =>
    obtain ⟨h1, h2⟩ := onlyZero_cat_true.1 h
    have hr := ihr hn.2 ha.1 h2
    have hl : preferred leaf l w = some w := by
      rcases ha.2 with a | ⟨-, a⟩
      · exact (onlyZero_rests l hn.1 a h1 w).head
      · exact ihl hn.1 a h1 w
    have := head_total (l := rests leaf l w) (l' := [w]) (f := rests leaf r) (g := rests leaf r) hl (fun _ => rfl)
      (fun x hx => by have := hr x; unfold preferred at this; rw [hx] at this; cases this)
    unfold preferred
    rw [rests_cat, this]
    simpa [preferred] using hr w
  | rep ng m M t ih => exact (onlyZero_rests (.rep ng m M t) hn ha h w).head

/-- Removing empty subtrees keeps the preferred match. -/
theorem reduceEmpty_preferred (sem : α → Language UInt8) (hl : ∀ a, Splits (leaf a) (sem a)) (x : α) (t : Tree α)
    (hok : Ok t) (hn : NoLook t) (ha : TrailOk sem t) :
    ∀ u, reduceEmpty x t = some u → ∀ w, preferred leaf u w = preferred leaf t w := by
  induction t with
  | leaf a => intro u h w; cases h; rfl
  | look k t => exact hn.elim
  | rep ng m M t ih =>
    intro u h w
    exact (reduceEmpty_rests x (.rep ng m M t) hok hn ha u h w).head
  | alt l r ihl ihr =>
    intro u h w
    by_cases hz : onlyZero (.alt l r) = some true
    · simp only [reduceEmpty, hz, Option.bind_eq_bind, Option.bind_some, if_true, Option.some.injEq] at h
      subst h
      rw [onlyZero_preferred sem (.alt l r) hn ha hz, preferred, dead_rests]
      rfl
    · have hzf := onlyZero_ne_true (t := .alt l r) hn hz
      obtain ⟨l', el, -, -, zl, -, -⟩ := reduceEmpty_spec (fun _ => 0) x l hok.1 hn.1
      obtain ⟨r', er, -, -, zr, -, -⟩ := reduceEmpty_spec (fun _ => 0) x r hok.2 hn.2
      have hl := ihl hok.1 hn.1 ha.1 l' el w
      have hr := ihr hok.2 hn.2 ha.2 r' er w
      simp only [reduceEmpty, hzf, el, er, Option.bind_eq_bind, Option.bind_some, Bool.false_eq_true, if_false] at h
      by_cases hzr : onlyZero r = some true
      · simp only [fixDead, zr, hzr, Option.bind_eq_bind, Option.bind_some, if_true, Option.some.injEq] at h
        subst h
        unfold preferred
        rw [rests_opt]
        exact head_append hl (onlyZero_preferred sem r hn.2 ha.2 hzr w).symm
      · have hzrf := onlyZero_ne_true hn.2 hzr
        simp only [fixDead, zr, hzrf, Option.bind_eq_bind, Option.bind_some, Bool.false_eq_true, if_false,
          Option.some.injEq] at h
        subst h
        exact head_append hl hr
  | cat l r ihl ihr =>
    intro u h w
    by_cases hz : onlyZero (.cat l r) = some true
    · simp only [reduceEmpty, hz, Option.bind_eq_bind, Option.bind_some, if_true, Option.some.injEq] at h
      subst h
      rw [onlyZero_preferred sem (.cat l r) hn ha hz, preferred, dead_rests]
      rfl
    · have hzf := onlyZero_ne_true (t := .cat l r) hn hz
      obtain ⟨l', el, -, -, zl, -, ll⟩ := reduceEmpty_spec (fun _ => 0) x l hok.1 hn.1
      obtain ⟨r', er, -, -, zr, -, -⟩ := reduceEmpty_spec (fun _ => 0) x r hok.2 hn.2
      have hr := ihr hok.2 hn.2 ha.1 r' er
      have total : [] ∈ lang sem r → ∀ y, rests leaf r y ≠ [] := by
        intro h0 y
        exact List.ne_nil_of_mem ((mem_rests sem hl r hok.2 hn.2 y y).2 ⟨[], h0, rfl⟩)
      simp only [reduceEmpty, hzf, el, er, Option.bind_eq_bind, Option.bind_some, Bool.false_eq_true, if_false] at h
      by_cases hzl : onlyZero l = some true
      · simp only [fixDead, zl, hzl, Option.bind_eq_bind, Option.bind_some, if_true, Option.some.injEq] at h
        subst h
        rw [hr w]
        rcases ha.2 with a | ⟨a, b⟩
        · exact (flatMap_only (onlyZero_rests l hn.1 a hzl w) _).head.symm
        · have := head_total (l := rests leaf l w) (l' := [w]) (f := rests leaf r) (g := rests leaf r)
            (onlyZero_preferred sem l hn.1 b hzl w) (fun _ => rfl) (total a)
          unfold preferred
          rw [rests_cat, this]
          simp
      · have hzlf := onlyZero_ne_true hn.1 hzl
        by_cases hzr : onlyZero r = some true
        · simp only [fixDead, zl, hzlf, zr, hzr, Option.bind_eq_bind, Option.bind_some, Bool.false_eq_true, if_false,
            if_true, Option.some.injEq] at h
          subst h
          have htl : TrailOk sem l := ha.2.elim (·.trail sem) (·.2)
          have := head_total (l := rests leaf l' w) (l' := rests leaf l w) (f := fun y => [y]) (g := rests leaf r)
            (ihl hok.1 hn.1 htl l' el w) (fun y => (onlyZero_preferred sem r hn.2 ha.1 hzr y).symm) (by simp)
          unfold preferred
          rw [rests_cat, ← this]
          simp
        · have hzrf := onlyZero_ne_true hn.2 hzr
          simp only [fixDead, zl, hzlf, zr, hzrf, Option.bind_eq_bind, Option.bind_some, Bool.false_eq_true, if_false,
            Option.some.injEq] at h
          subst h
          rcases ha.2 with a | ⟨a, b⟩
          · have h1 := Same.flatMap (reduceEmpty_rests (leaf := leaf) x l hok.1 hn.1 a l' el w)
              (f := rests leaf r') (g := rests leaf r') fun _ => rfl
            exact h1.head.trans (head_flatMap fun y _ => hr y)
          · exact head_total (ihl hok.1 hn.1 b l' el w) hr fun y hy => total a y ((head_nil (hr y)).1 hy)

variable [DecidableEq α]

/-- What is left after the preferred match of a whole pattern; the pattern may have been
reduced to nothing. -/
def preferredRoot (leaf : α → List UInt8 → List (List UInt8)) : Option (Tree α) → List UInt8 → Option (List UInt8)
  | none, w => some w
  | some t, w => preferred leaf t w

/-- **C19** for all passes of the rewriter together: the preferred match of the pattern, at the
beginning of any data, ends where the preferred match of what the rewriter made of it ends,
provided no consecutive repetitions were merged (`combine_changes_preferred`). -/
theorem reduce_preferred_partial (sem : α → Language UInt8) (hs : LeafNonempty sem) (leaf : α → List UInt8 → List (List UInt8))
    (hl : ∀ a, Splits (leaf a) (sem a)) (x : α) {t : Tree α} (hok : Ok t) (hn : NoLook t) (hf : NgFlat t) (hd : NoBlank t)
    (hw : 4 * weight t < UNB) {c : Tree α} (hc : combine (assoc t).2 = some (false, c)) :
    ∃ u, reduce x true true t = some u ∧ ∀ w, preferredRoot leaf u w = preferred leaf t w := by
  have hcc := combine_flag _ _ hc rfl
  dsimp only at hcc
  subst hcc
  have h2 := assoc_ok t hok
  have hnc := assoc_noLook t hn
  have hfc := assoc_flat t hf
  have h3 := assoc_weight t
  have hac : AltOk (assoc t).2 := (assoc_noBlank t hd).altOk
  obtain ⟨e, he, e1, e2, e3, e4, -⟩ := thenEmpty_places sem hs _ h2 hnc hfc
  have hte := thenEmpty_trail sem hs _ h2 hnc hfc hac e he
  obtain ⟨g1, g2, -, -⟩ := thenGreedy_places sem e.2 e1 e2 e3 (by omega)
  have htg := thenGreedy_trail sem e.2 e1 e2 e3 (by omega) hte
  have hp : ∀ w, preferred leaf (thenGreedy e.2).2 w = preferred leaf t w := by
    intro w
    rw [thenGreedy_preferred e.2 e1 e2 e3 (by omega), thenEmpty_preferred _ h2 hfc hnc e he]
    unfold preferred
    rw [assoc_rests]
  simp only [reduce, hc, he, Option.bind_eq_bind, Option.bind_some, if_true, Bool.or_true]
  by_cases hz : onlyZero (thenGreedy e.2).2 = some true
  · refine ⟨none, by simp [reduceEmptyRoot, hz, uselessRoot], fun w => ?_⟩
    rw [← hp w, onlyZero_preferred sem _ g2 htg hz]
    rfl
  · have hzf := onlyZero_ne_true g2 hz
    obtain ⟨d, hdd, od, nd, -, -, -⟩ := reduceEmpty_spec sem x _ g1 g2
    obtain ⟨p1, p2, p3⟩ := prune_keeps d od nd
    obtain ⟨v, hv, -⟩ := useless_keeps _ p1 p2
    refine ⟨some v, by simp [reduceEmptyRoot, hzf, hdd, uselessRoot, hv], fun w => ?_⟩
    rw [← hp w]
    show preferred leaf v w = _
    unfold preferred
    rw [useless_rests _ v p1 p2 hv, prune_rests d od]
    exact reduceEmpty_preferred sem hl x _ g1 g2 htg d hdd w

/-- `a(b|c*?)` is reduced to `ab?`; on "abc" both prefer "ab". -/
example : ∃ t u : Tree UInt8, t = .cat (.leaf 97) (.alt (.leaf 98) (.rep true 0 UNB (.leaf 99))) ∧
    u = .cat (.leaf 97) (.rep false 0 1 (.leaf 98)) ∧ Ok t ∧ NoLook t ∧ NgFlat t ∧ NoDead t ∧ 4 * weight t < UNB ∧
    combine (assoc t).2 = some (false, (assoc t).2) ∧ reduce 120 true true t = some (some u) ∧
    preferred byteLeaf t [97, 98, 99] = some [99] ∧ preferred byteLeaf u [97, 98, 99] = some [99] := by
  refine ⟨_, _, rfl, rfl, ?_, ?_, ?_, ?_, ?_, by decide +kernel, ?_, by decide +kernel, by decide +kernel⟩
  · simp [Ok, UNB]
  · simp [NoLook]
  · simp [NgFlat, NoNg]
  · simp [NoDead, UNB]
  · simp [weight, UNB]
  · simp [reduce, assoc, combine, thenEmpty, thenGreedy, reduceEmptyRoot, reduceEmpty, onlyZero, fixDead,
      uselessRoot, prune, useless, hasZero]

end Verif.Regex
