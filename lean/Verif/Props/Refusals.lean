import Verif.Props.Session
/-!
# C97: which patterns are refused

Specification.  `Acceptable` says which requests a caller can expect to get a keyword number.
-/
namespace Verif.Regex
variable {α : Type}

/-! ## The rewriter keeps the leaves of greedy patterns -/

theorem assoc_leaves' (P : α → Prop) (t : Tree α) : AllLeaves P (assoc t).2 → AllLeaves P t := by
  induction t with
  | leaf a => exact id
  | look k t ih => exact ih
  | rep ng m M t ih => exact ih
  | alt l r ihl ihr =>
    intro h
    unfold assoc at h
    dsimp only at h
    split at h
    · next e f he => rw [he] at ihl; exact ⟨ihl ⟨h.1, h.2.1⟩, ihr h.2.2⟩
    · exact ⟨ihl h.1, ihr h.2⟩
  | cat l r ihl ihr =>
    intro h
    unfold assoc at h
    dsimp only at h
    split at h
    · next e f he => rw [he] at ihl; exact ⟨ihl ⟨h.1, h.2.1⟩, ihr h.2.2⟩
    · exact ⟨ihl h.1, ihr h.2⟩

theorem prune_leaves' (P : α → Prop) (t : Tree α) : AllLeaves P (prune t) → AllLeaves P t := by
  induction t with
  | rep ng m M t ih =>
    intro h
    unfold prune at h
    split at h
    · exact ih h
    · split at h <;> exact h
  | _ => exact id

theorem useless_leaves' (P : α → Prop) (n : Nat) : ∀ t : Tree α, sizeOf t ≤ n → ∀ u, useless t = some u → AllLeaves P u →
    AllLeaves P t := by
  induction n with
  | zero => intro t ht; cases t <;> simp at ht
  | succ n ih =>
    intro t ht u hu h
    cases t with
    | leaf a => simp only [useless, Option.some.injEq] at hu; subst hu; exact h
    | look k t => simp [useless] at hu
    | rep ng m M t =>
      simp only [useless, Option.bind_eq_bind, Option.bind_eq_some_iff, Option.some.injEq] at hu
      obtain ⟨r, hr, rfl⟩ := hu
      have := prune_size t
      simp only [Tree.rep.sizeOf_spec] at ht
      exact prune_leaves' P t (ih _ (by omega) r hr h)
    | alt l r =>
      simp only [useless, Option.bind_eq_bind, Option.bind_eq_some_iff, Option.some.injEq] at hu
      obtain ⟨a, ha, b, hb, rfl⟩ := hu
      have := prune_size l
      have := prune_size r
      simp only [Tree.alt.sizeOf_spec] at ht
      exact ⟨prune_leaves' P l (ih _ (by omega) a ha h.1), prune_leaves' P r (ih _ (by omega) b hb h.2)⟩
    | cat l r =>
      simp only [useless, Option.bind_eq_bind, Option.bind_eq_some_iff, Option.some.injEq] at hu
      obtain ⟨a, ha, b, hb, rfl⟩ := hu
      have := prune_size l
      have := prune_size r
      simp only [Tree.cat.sizeOf_spec] at ht
      exact ⟨prune_leaves' P l (ih _ (by omega) a ha h.1), prune_leaves' P r (ih _ (by omega) b hb h.2)⟩

variable [DecidableEq α]

theorem combine_leaves' (P : α → Prop) (t : Tree α) : ∀ c, combine t = some c → AllLeaves P c.2 → AllLeaves P t := by
  induction t with
  | leaf a => intro c hc h; simp only [combine, Option.some.injEq] at hc; subst hc; exact h
  | look k t ih => intro c hc h; simp [combine] at hc
  | rep ng m M t ih =>
    intro c hc h
    simp only [combine, Option.bind_eq_bind, Option.bind_eq_some_iff, Option.some.injEq] at hc
    obtain ⟨r, hr, rfl⟩ := hc
    exact ih r hr h
  | alt l r ihl ihr =>
    intro c hc h
    simp only [combine, Option.bind_eq_bind, Option.bind_eq_some_iff, Option.some.injEq] at hc
    obtain ⟨a, ha, b, hb, rfl⟩ := hc
    exact ⟨ihl a ha h.1, ihr b hb h.2⟩
  | cat l r ihl ihr =>
    intro c hc h
    have hc' := hc
    simp only [combine, Option.bind_eq_bind, Option.bind_eq_some_iff] at hc'
    obtain ⟨a, ha, b, hb, -⟩ := hc'
    rcases combine_cat ha hb hc with rfl | ⟨ng, m, M, s, e1, e2, rfl⟩ | ⟨ng, m, M, s, s', e1, e2, rfl⟩
    · exact ⟨ihl a ha h.1, ihr b hb h.2⟩
    · exact ⟨ihl a ha (by rw [e1]; exact h), ihr b hb (by rw [e2]; exact h)⟩
    · exact ⟨ihl a ha (by rw [e1]; exact h.1), ihr b hb (by rw [e2]; exact h)⟩

theorem combine_noDead (t : Tree α) (hok : Ok t) (hw : 4 * weight t < UNB) (hd : NoDead t) :
    ∀ c, combine t = some c → NoDead c.2 := by
  induction t with
  | leaf a => intro c hc; simp only [combine, Option.some.injEq] at hc; subst hc; exact hd
  | look k t ih => intro c hc; simp [combine] at hc
  | rep ng m M t ih =>
    intro c hc
    simp only [combine, Option.bind_eq_bind, Option.bind_eq_some_iff, Option.some.injEq] at hc
    obtain ⟨r, hr, rfl⟩ := hc
    simp only [weight] at hw
    exact ⟨hd.1, ih hok.2.2.2 (by omega) hd.2 r hr⟩
  | alt l r ihl ihr =>
    intro c hc
    simp only [combine, Option.bind_eq_bind, Option.bind_eq_some_iff, Option.some.injEq] at hc
    obtain ⟨a, ha, b, hb, rfl⟩ := hc
    simp only [weight] at hw
    exact ⟨ihl hok.1 (by omega) hd.1 a ha, ihr hok.2 (by omega) hd.2 b hb⟩
  | cat l r ihl ihr =>
    intro c hc
    have hc' := hc
    simp only [combine, Option.bind_eq_bind, Option.bind_eq_some_iff] at hc'
    obtain ⟨a, ha, b, hb, -⟩ := hc'
    simp only [weight] at hw
    have h1 := ihl hok.1 (by omega) hd.1 a ha
    have h2 := ihr hok.2 (by omega) hd.2 b hb
    obtain ⟨-, -, w1⟩ := combine_spec (fun _ => 0) l hok.1 (by omega) a ha
    have key : ∀ {ng m M} {s : Tree α}, a.2 = .rep ng m M s → ¬ (add32 m m = 0 ∧ sumMax M M = 0) := by
      intro ng m M s e
      rw [e] at w1 h1
      have hne := h1.1
      simp only [weight] at w1
      unfold sumMax
      simp only [or_self]
      unfold add32
      by_cases hM : M = UNB
      · rw [if_pos hM]; unfold UNB; omega
      · rw [if_neg hM] at w1 ⊢
        unfold UNB at hw
        omega
    rcases combine_cat ha hb hc with rfl | ⟨ng, m, M, s, e1, e2, rfl⟩ | ⟨ng, m, M, s, s', e1, e2, rfl⟩
    · exact ⟨h1, h2⟩
    · refine ⟨key e1, ?_⟩
      rw [e1] at h1; exact h1.2
    · rw [e2] at h2
      refine ⟨⟨key e1, ?_⟩, h2.2⟩
      rw [e1] at h1; exact h1.2

/-- What the rewriter makes of a greedy pattern without `{0}` has the leaves of the pattern. -/
theorem reduce_keeps (P : α → Prop) (x : α) {t : Tree α} (hok : Ok t) (hn : NoLook t) (hg : NoNg t) (hd : NoDead t)
    (hw : 4 * weight t < UNB) : ∃ u, reduce x true true t = some (some u) ∧ (AllLeaves P u ↔ AllLeaves P t) := by
  obtain ⟨c, hcc, hnc⟩ := combine_some _ (assoc_noLook t hn)
  have hgc := combine_noNg _ (assoc_noNg t hg) c hcc
  have hdc := combine_noDead _ (assoc_ok t hok) (by rw [assoc_weight]; exact hw) (assoc_noDead t hd) c hcc
  obtain ⟨-, hokc, -⟩ := combine_spec (fun _ => 0) _ (assoc_ok t hok) (by rw [assoc_weight]; omega) c hcc
  obtain ⟨p1, p2, -⟩ := prune_keeps c.2 hokc hnc
  obtain ⟨u, hu, -⟩ := useless_keeps _ p1 p2
  refine ⟨u, ?_, ?_⟩
  · simp [reduce, hcc, thenEmpty_noNg _ hgc hnc, thenGreedy_noNg _ hgc, reduceEmptyRoot, hdc.onlyZero hnc,
      reduceEmpty_noDead x _ hdc hnc, uselessRoot, hu]
  · constructor
    · intro h
      exact assoc_leaves' P t (combine_leaves' P _ c hcc (prune_leaves' P _ (useless_leaves' P _ _ (Nat.le_refl _) u hu h)))
    · intro h
      exact useless_leaves P _ _ (Nat.le_refl _) u (prune_leaves P _ (combine_leaves P _ c (assoc_leaves P t h) hcc)) hu

/-! ## The rewriter adds no leaves -/

/-- As `AllLeaves`, but not below `{0}`. -/
def LiveLeaves (P : α → Prop) : Tree α → Prop
  | .leaf a => P a
  | .alt l r => LiveLeaves P l ∧ LiveLeaves P r
  | .cat l r => LiveLeaves P l ∧ LiveLeaves P r
  | .rep _ m M t => m = 0 ∧ M = 0 ∨ LiveLeaves P t
  | .look _ t => LiveLeaves P t

theorem LiveLeaves.all {P : α → Prop} {t : Tree α} (h : LiveLeaves P t) (hd : NoDead t) : AllLeaves P t := by
  induction t with
  | leaf a => exact h
  | alt l r ihl ihr => exact ⟨ihl h.1 hd.1, ihr h.2 hd.2⟩
  | cat l r ihl ihr => exact ⟨ihl h.1 hd.1, ihr h.2 hd.2⟩
  | rep ng m M t ih => exact ih (h.resolve_left hd.1) hd.2
  | look k t ih => exact ih h hd

theorem fixDead_live (P : α → Prop) (t u : Tree α) (h : LiveLeaves P t) (hu : fixDead t = some u) : LiveLeaves P u := by
  unfold fixDead at hu
  split at hu
  · simp only [Option.bind_eq_bind, Option.bind_eq_some_iff] at hu
    obtain ⟨z, -, hu⟩ := hu
    split at hu
    · cases hu; exact h.2
    · simp only [Option.bind_eq_some_iff] at hu
      obtain ⟨z, -, hu⟩ := hu
      split at hu
      · cases hu; exact h.1
      · cases hu; exact h
  · simp only [Option.bind_eq_bind, Option.bind_eq_some_iff] at hu
    obtain ⟨z, -, hu⟩ := hu
    split at hu
    · cases hu; exact .inr h.1
    · cases hu; exact h
  · cases hu; exact h

theorem reduceEmpty_live (P : α → Prop) (x : α) (t : Tree α) : ∀ u, AllLeaves P t →
    reduceEmpty x t = some u → LiveLeaves P u := by
  induction t with
  | leaf a => intro u h hu; simp only [reduceEmpty, Option.some.injEq] at hu; subst hu; exact h
  | look k t ih => intro u h hu; simp [reduceEmpty] at hu
  | rep ng m M t ih =>
    intro u h hu
    simp only [reduceEmpty, Option.bind_eq_bind, Option.bind_eq_some_iff] at hu
    obtain ⟨z, -, hu⟩ := hu
    split at hu
    · simp only [Option.some.injEq] at hu; subst hu; exact .inl ⟨rfl, rfl⟩
    · simp only [Option.bind_eq_some_iff, Option.some.injEq] at hu
      obtain ⟨r, hr, rfl⟩ := hu
      exact .inr (ih r h hr)
  | alt l r ihl ihr =>
    intro u h hu
    simp only [reduceEmpty, Option.bind_eq_bind, Option.bind_eq_some_iff] at hu
    obtain ⟨z, -, hu⟩ := hu
    split at hu
    · simp only [Option.some.injEq] at hu; subst hu; exact .inl ⟨rfl, rfl⟩
    · simp only [Option.bind_eq_some_iff] at hu
      obtain ⟨a, ha, b, hb, hu⟩ := hu
      exact fixDead_live P _ _ (show LiveLeaves P (.alt a b) from ⟨ihl a h.1 ha, ihr b h.2 hb⟩) hu
  | cat l r ihl ihr =>
    intro u h hu
    simp only [reduceEmpty, Option.bind_eq_bind, Option.bind_eq_some_iff] at hu
    obtain ⟨z, -, hu⟩ := hu
    split at hu
    · simp only [Option.some.injEq] at hu; subst hu; exact .inl ⟨rfl, rfl⟩
    · simp only [Option.bind_eq_some_iff] at hu
      obtain ⟨a, ha, b, hb, hu⟩ := hu
      exact fixDead_live P _ _ (show LiveLeaves P (.cat a b) from ⟨ihl a h.1 ha, ihr b h.2 hb⟩) hu

/-- Every leaf of the rewritten tree is a leaf of the original: the dummy does not stay. -/
theorem reduce_leaves_all (P : α → Prop) (x : α) {t u : Tree α} (hok : Ok t) (hw : 4 * weight t < UNB)
    (hl : AllLeaves P t) (h : reduce x true true t = some (some u)) : AllLeaves P u := by
  cases hcc : combine (assoc t).2 with
  | none => simp [reduce, hcc] at h
  | some c =>
    obtain ⟨-, hnc⟩ := combine_noLook _ c hcc
    have hw' : weight (assoc t).2 < UNB := by rw [assoc_weight]; omega
    obtain ⟨-, h2, h3⟩ := combine_spec (fun _ => 0) _ (assoc_ok t hok) hw' c hcc
    rw [assoc_weight] at h3
    have hlc := combine_leaves P _ c (assoc_leaves P t hl) hcc
    obtain ⟨e, he, e1, e2, e3⟩ := thenEmpty_keeps c.2 h2 hnc
    have hle := thenEmpty_leaves P _ hlc e he
    obtain ⟨g1, g2, -⟩ := thenGreedy_keeps e.2 e1 e2 (by omega)
    have hlg := thenGreedy_leaves P _ hle
    simp only [reduce, hcc, he, Option.bind_eq_bind, Option.bind_some, if_true, Bool.or_true] at h
    by_cases hz : onlyZero (thenGreedy e.2).2 = some true
    · simp [reduceEmptyRoot, hz, uselessRoot] at h
    · have hzf := onlyZero_ne_true g2 hz
      obtain ⟨d, hd, od, nd, -, dd, -⟩ := reduceEmpty_spec (fun _ => 0) x _ g1 g2
      obtain ⟨p1, p2, p3⟩ := prune_keeps d od nd
      obtain ⟨v, hv, k1, k2, k3⟩ := useless_keeps _ p1 p2
      simp [reduceEmptyRoot, hzf, hd, uselessRoot, hv] at h
      subst h
      exact useless_leaves P _ _ (Nat.le_refl _) v
        (prune_leaves P d ((reduceEmpty_live P x _ d hlg hd).all (dd hzf))) hv

/-- The rewriter is defined for patterns without lookaround. -/
theorem reduce_some (x : α) {t : Tree α} (hok : Ok t) (hn : NoLook t) (hw : 4 * weight t < UNB) :
    ∃ u, reduce x true true t = some u := by
  obtain ⟨c, hcc, hnc⟩ := combine_some _ (assoc_noLook t hn)
  have hw' : weight (assoc t).2 < UNB := by rw [assoc_weight]; omega
  obtain ⟨-, h2, h3⟩ := combine_spec (fun _ => 0) _ (assoc_ok t hok) hw' c hcc
  rw [assoc_weight] at h3
  obtain ⟨e, he, e1, e2, e3⟩ := thenEmpty_keeps c.2 h2 hnc
  obtain ⟨g1, g2, -⟩ := thenGreedy_keeps e.2 e1 e2 (by omega)
  simp only [reduce, hcc, he, Option.bind_eq_bind, Option.bind_some, if_true, Bool.or_true]
  by_cases hz : onlyZero (thenGreedy e.2).2 = some true
  · exact ⟨none, by simp [reduceEmptyRoot, hz, uselessRoot]⟩
  · have hzf := onlyZero_ne_true g2 hz
    obtain ⟨d, hd, od, nd, -, dd, -⟩ := reduceEmpty_spec (fun _ => 0) x _ g1 g2
    obtain ⟨p1, p2, p3⟩ := prune_keeps d od nd
    obtain ⟨v, hv, k1, k2, k3⟩ := useless_keeps _ p1 p2
    exact ⟨some v, by simp [reduceEmptyRoot, hzf, hd, uselessRoot, hv]⟩

/-! ## The rewriter keeps the empty match -/

theorem nil_rep (sem : α → Language UInt8) {ng : Bool} {m M : Nat} {t : Tree α} (h : m ≤ M) :
    [] ∈ lang sem (.rep ng m M t) ↔ m = 0 ∨ [] ∈ lang sem t := by
  rw [mem_rep]
  constructor
  · rintro ⟨k, h1, -, h2⟩
    rcases nil_mem_pow.1 h2 with rfl | h3
    · exact .inl (by omega)
    · exact .inr h3
  · intro h0
    exact ⟨m, Nat.le_refl _, .inr h, nil_mem_pow.2 h0⟩

theorem thenEmpty_nil (sem : α → Language UInt8) (t : Tree α) (hok : Ok t) (hn : NoLook t) :
    ∀ q, thenEmpty t = some q → [] ∈ lang sem t → [] ∈ lang sem q.2 := by
  induction t with
  | leaf a => intro q hq; cases hq; exact id
  | look k t => exact hn.elim
  | rep ng m M t ih =>
    intro q hq h
    rw [nil_rep sem hok.1] at h
    cases ng <;>
    · simp only [thenEmpty, Option.bind_eq_bind, Option.bind_eq_some_iff, Option.some.injEq] at hq
      obtain ⟨p, hp, rfl⟩ := hq
      have := ih hok.2.2.2 hn p hp
      rw [nil_rep sem (by first | exact hok.1 | exact Nat.le_refl _)]
      exact h.imp id this
  | alt l r ihl ihr =>
    intro q hq h
    simp only [thenEmpty, Option.bind_eq_bind, Option.bind_eq_some_iff, Option.some.injEq] at hq
    obtain ⟨p, hp, u, hu, rfl⟩ := hq
    exact (Language.mem_add _ _ _).2 (((Language.mem_add _ _ _).1 h).imp (ihl hok.1 hn.1 p hp) (ihr hok.2 hn.2 u hu))
  | cat l r ihl ihr =>
    intro q hq h
    unfold thenEmpty at hq
    simp only [Option.bind_eq_bind, Option.bind_eq_some_iff, Option.some.injEq] at hq
    obtain ⟨p, ⟨z, hz, hp⟩, u, hu, rfl⟩ := hq
    obtain ⟨h1, h2⟩ := nil_mem_mul.1 h
    refine nil_mem_mul.2 ⟨?_, ihr hok.2 hn.2 u hu h2⟩
    split at hp
    · split at hp
      · cases hp
        rw [nil_rep sem hok.1.1] at h1
        exact (nil_rep sem (Nat.le_refl _)).2 h1
      · exact ihl hok.1 hn.1 p hp h1
    · cases hp; exact h1

theorem thenGreedy_nil (sem : α → Language UInt8) (t : Tree α) (hok : Ok t) (hn : NoLook t) (hw : 2 * weight t < UNB) :
    ([] ∈ lang sem t → [] ∈ lang sem (thenGreedy t).2) ∧
      ∀ ng a b s, t = .rep ng a b s → [] ∈ lang sem s → [] ∈ lang sem (thenGreedy s).2 := by
  induction t with
  | leaf a => exact ⟨id, by simp⟩
  | look k t => exact hn.elim
  | rep ng m M t ih =>
    simp only [weight] at hw
    have i := (ih hok.2.2.2 hn (by omega)).1
    refine ⟨?_, by rintro _ _ _ _ ⟨⟩; exact i⟩
    intro h
    rw [nil_rep sem hok.1] at h
    exact (nil_rep sem hok.1).2 (h.imp id i)
  | alt l r ihl ihr =>
    simp only [weight] at hw
    refine ⟨fun h => ?_, by simp⟩
    exact (Language.mem_add _ _ _).2 (((Language.mem_add _ _ _).1 h).imp (ihl hok.1 hn.1 (by omega)).1 (ihr hok.2 hn.2 (by omega)).1)
  | cat l r ihl ihr =>
    simp only [weight] at hw
    have hr := (ihr hok.2 hn.2 (by omega)).1
    refine ⟨fun h => ?_, by simp⟩
    obtain ⟨hl0, hr0⟩ := nil_mem_mul.1 h
    replace hr0 := hr hr0
    by_cases hl : ∃ a b s, l = .rep true a b s
    · obtain ⟨a, b, s, rfl⟩ := hl
      have hs := (ihl hok.1 hn.1 (by omega)).2 _ _ _ _ rfl
      obtain ⟨q1, q2, q4⟩ := thenGreedy_keeps r hok.2 hn.2 (by omega)
      simp only [weight] at hw
      have hsp := weight_pos s
      have hrp := weight_pos r
      have hl1 := (nil_rep sem hok.1.1).1 hl0
      rcases thenGreedy_cat a b s r with h | ⟨c, d, h1, h⟩ | ⟨h1, h⟩
      · rw [h]; exact nil_mem_mul.2 ⟨hl0, hr0⟩
      · rw [h]
        rw [h1] at q1 q4 hr0
        simp only [weight] at q4
        rw [nil_rep sem q1.1] at hr0
        have h0 : a + c = 0 ∨ [] ∈ lang sem (thenGreedy s).2 := by
          rcases hl1 with h1 | h1
          · rcases hr0 with h2 | h2
            · exact .inl (by omega)
            · exact .inr (hs h2)
          · exact .inr (hs h1)
        have hac : a + c < UNB := by omega
        have had : d ≠ UNB → a + d < UNB := by intro hd; rw [if_neg hd] at q4; omega
        have hadd : add32 a c = a + c := Nat.mod_eq_of_lt (by unfold UNB at hac; omega)
        rw [hadd]
        refine (nil_rep sem ?_).2 h0
        split
        · omega
        · next hd =>
          have hadd' : add32 a d = a + d := Nat.mod_eq_of_lt (by have := had hd; unfold UNB at this; omega)
          have := q1.1
          omega
      · rw [h]
        rw [h1] at hr0
        exact (nil_rep sem (Nat.le_refl _)).2 (.inr (hs hr0))
    · rw [thenGreedy_cat' l r (fun a b s e => hl ⟨a, b, s, e⟩)]
      exact nil_mem_mul.2 ⟨hl0, hr0⟩

theorem reduceEmpty_nil (sem : α → Language UInt8) (x : α) (t : Tree α) (hok : Ok t) :
    ∀ u, reduceEmpty x t = some u → [] ∈ lang sem t → [] ∈ lang sem u := by
  have dead : [] ∈ lang sem (.rep false 0 0 (.leaf x)) := by rw [dead_lang]; rfl
  induction t with
  | leaf a => intro u h; cases h; exact id
  | look k t => intro u h; simp [reduceEmpty] at h
  | rep ng m M t ih =>
    intro u hu h
    simp only [reduceEmpty, Option.bind_eq_bind, Option.bind_eq_some_iff] at hu
    obtain ⟨z, -, hu⟩ := hu
    split at hu
    · cases hu; exact dead
    · simp only [Option.bind_eq_some_iff, Option.some.injEq] at hu
      obtain ⟨r, hr, rfl⟩ := hu
      rw [nil_rep sem hok.1] at h
      exact (nil_rep sem hok.1).2 (h.imp id (ih hok.2.2.2 r hr))
  | alt l r ihl ihr =>
    intro u hu h
    simp only [reduceEmpty, Option.bind_eq_bind, Option.bind_eq_some_iff] at hu
    obtain ⟨z, -, hu⟩ := hu
    split at hu
    · cases hu; exact dead
    · simp only [Option.bind_eq_some_iff] at hu
      obtain ⟨a, ha, b, hb, hu⟩ := hu
      simp only [fixDead, Option.bind_eq_bind, Option.bind_eq_some_iff] at hu
      obtain ⟨z, -, hu⟩ := hu
      split at hu
      · cases hu; exact (nil_rep sem (by omega)).2 (.inl rfl)
      · cases hu
        exact (Language.mem_add _ _ _).2 (((Language.mem_add _ _ _).1 h).imp (ihl hok.1 a ha) (ihr hok.2 b hb))
  | cat l r ihl ihr =>
    intro u hu h
    simp only [reduceEmpty, Option.bind_eq_bind, Option.bind_eq_some_iff] at hu
    obtain ⟨z, -, hu⟩ := hu
    obtain ⟨h1, h2⟩ := nil_mem_mul.1 h
    split at hu
    · cases hu; exact dead
    · simp only [Option.bind_eq_some_iff] at hu
      obtain ⟨a, ha, b, hb, hu⟩ := hu
      replace h1 := ihl hok.1 a ha h1
      replace h2 := ihr hok.2 b hb h2
      simp only [fixDead, Option.bind_eq_bind, Option.bind_eq_some_iff] at hu
      obtain ⟨z, -, hu⟩ := hu
      split at hu
      · cases hu; exact h2
      · simp only [Option.bind_eq_some_iff] at hu
        obtain ⟨z, -, hu⟩ := hu
        split at hu
        · cases hu; exact h1
        · cases hu; exact nil_mem_mul.2 ⟨h1, h2⟩

/-- A pattern that matches the empty string still does after rewriting. -/
theorem reduce_nil (sem : α → Language UInt8) (x : α) {t : Tree α} (hok : Ok t) (hw : 4 * weight t < UNB)
    {u : Option (Tree α)} (h : reduce x true true t = some u) : [] ∈ lang sem t → [] ∈ langRoot sem u := by
  intro hn
  cases hcc : combine (assoc t).2 with
  | none => simp [reduce, hcc] at h
  | some c =>
    obtain ⟨-, hnc⟩ := combine_noLook _ c hcc
    have hw' : weight (assoc t).2 < UNB := by rw [assoc_weight]; omega
    obtain ⟨h1, h2, h3⟩ := combine_spec sem _ (assoc_ok t hok) hw' c hcc
    rw [assoc_lang] at h1
    rw [assoc_weight] at h3
    rw [← h1] at hn
    obtain ⟨e, he, e1, e2, e3⟩ := thenEmpty_keeps c.2 h2 hnc
    obtain ⟨g1, g2, -⟩ := thenGreedy_keeps e.2 e1 e2 (by omega)
    replace hn := (thenGreedy_nil sem e.2 e1 e2 (by omega)).1 (thenEmpty_nil sem c.2 h2 hnc e he hn)
    simp only [reduce, hcc, he, Option.bind_eq_bind, Option.bind_some, if_true, Bool.or_true] at h
    by_cases hz : onlyZero (thenGreedy e.2).2 = some true
    · simp [reduceEmptyRoot, hz, uselessRoot] at h
      subst h
      rfl
    · have hzf := onlyZero_ne_true g2 hz
      obtain ⟨d, hd, od, nd, -, dd, -⟩ := reduceEmpty_spec sem x _ g1 g2
      obtain ⟨p1, p2, p3⟩ := prune_keeps d od nd
      obtain ⟨v, hv, k1, k2, k3⟩ := useless_keeps _ p1 p2
      simp [reduceEmptyRoot, hzf, hd, uselessRoot, hv] at h
      subst h
      show [] ∈ lang sem v
      rw [useless_lang sem _ _ hv, prune_lang]
      exact reduceEmpty_nil sem x _ g1 d hd hn

end Verif.Regex

namespace Verif.Session
open Verif.Encoders Verif.Chain Verif.Nfa Verif.NfaBuilder Verif.Fsm Verif.Subset
open Verif.Regex (Tree lang NoLook NoDead NgFlat NoNg AllLeaves weight UNB SamePlaces langRoot)
open Verif.Parser (Env PatternOpts)

/-! ## Specification -/

/-- The leaf stands for something in the encoding: a character that the encoding has, or a class
with at least one member in it. -/
def Present (enc : Nat → List Nat) (n : Node) : Prop := ∃ w, w ∈ textSem enc n

/-- The text can be read and has no lookaround, the chain names an encoding (by the name `ASCII` if
it is ASCII and there is no ICU), the encoding has something for every character and every class,
and the pattern does not match the empty string. -/
def Acceptable [Build] (env : Env) (r : Request) : Prop :=
  ∃ t j k ts, Text.parseText env r.opts r.expr = .ok (t, j) ∧ NoLook t ∧ Reads r.chain k ts ∧
    (k = .std .ascii → r.chain = name "ASCII" ∨ Build.converter (name "US-ASCII") ≠ none) ∧
    AllLeaves (Present (charBytes k ts)) t ∧ [] ∉ lang (textSem (charBytes k ts)) t

/-- The same without the condition on the characters and classes. -/
def Sensible [Build] (env : Env) (r : Request) : Prop :=
  ∃ t j k ts, Text.parseText env r.opts r.expr = .ok (t, j) ∧ NoLook t ∧ Reads r.chain k ts ∧
    (k = .std .ascii → r.chain = name "ASCII" ∨ Build.converter (name "US-ASCII") ≠ none) ∧
    [] ∉ lang (textSem (charBytes k ts)) t

/-! ## Proofs -/

/-- The builder makes something of the leaf. -/
def Makes : Leaf → Prop
  | .lit bs => bs ≠ []
  | .cls encs brk additive => breakout encs brk additive ≠ none

theorem fits_some : ∀ {e : List BSet}, (∀ s ∈ e, s ≠ 0) → ∃ w, Fits e w
  | [], _ => ⟨[], .nil⟩
  | s :: e, h => by
    obtain ⟨b, hb⟩ := exists_byte (h s (by simp))
    obtain ⟨w, hw⟩ := fits_some (e := e) fun s hs => h s (by simp [hs])
    exact ⟨b :: w, .cons hb hw⟩

theorem has_andNot {s t : BSet} {b : UInt8} : (s &&& ~~~t).has b = (s.has b && !t.has b) := by
  unfold BSet.has
  have : b.toNat < 256 := b.toNat_lt
  simp [this]

theorem makes_iff {l : Leaf} (h : LeafOk l) : Makes l ↔ ∃ w, w ∈ leafSem l := by
  cases l with
  | lit bs => exact ⟨fun _ => ⟨bs, rfl⟩, fun _ => h⟩
  | cls encs brk additive =>
    obtain ⟨h1, h2, h3⟩ := h
    show breakout encs brk additive ≠ none ↔ _
    have long : ∀ {e : List BSet}, e ∈ encs → e.length ≠ 1 → ∃ w, w ∈ leafSem (.cls encs brk false) := by
      intro e he hl
      obtain ⟨w, hw⟩ := fits_some (h3 e he)
      refine ⟨w, ⟨e, he, hw⟩, ?_⟩
      rintro ⟨b, -, rfl⟩
      exact hl (fits_length hw)
    unfold breakout
    cases encs with
    | nil =>
      cases additive with
      | false =>
        simp only [true_or, if_true, ne_eq, not_true, false_iff]
        rintro ⟨w, ⟨e, he, -⟩, -⟩
        cases he
      | true =>
        simp only [Bool.true_eq_false, false_or]
        by_cases hb : brk = 0
        · simp only [hb, if_true, ne_eq, not_true, false_iff]
          rintro ⟨w, ⟨e, he, -⟩ | ⟨b, hb', -⟩⟩
          · cases he
          · rw [has_zero] at hb'; cases hb'
        · simp only [hb, if_false, ne_eq, reduceCtorEq, not_false_iff, true_iff]
          obtain ⟨b, hb'⟩ := exists_byte hb
          exact ⟨[b], .inr ⟨b, hb', rfl⟩⟩
    | cons e es =>
      obtain ⟨w, hw⟩ := fits_some (h3 e (by simp))
      by_cases hb : brk = 0
      · simp only [hb, if_true, ne_eq, reduceCtorEq, not_false_iff, true_iff]
        refine ⟨w, ?_⟩
        cases additive with
        | true => exact .inl ⟨e, by simp, hw⟩
        | false =>
          refine ⟨⟨e, by simp, hw⟩, ?_⟩
          rintro ⟨b, hb', -⟩
          rw [has_zero] at hb'; cases hb'
      · simp only [if_neg hb]
        cases additive with
        | true =>
          have hr : ∃ w, w ∈ leafSem (.cls (e :: es) brk true) := ⟨w, .inl ⟨e, by simp, hw⟩⟩
          simp only [if_true, hr, iff_true]
          split <;> simp
        | false =>
          simp only [Bool.false_eq_true, if_false]
          split
          · next s =>
            split
            · next hz =>
              split
              · next hes =>
                subst hes
                simp only [ne_eq, not_true, false_iff]
                rintro ⟨w, ⟨e, he, hf⟩, hn⟩
                simp only [List.mem_singleton] at he
                subst he
                obtain ⟨b, hb', rfl⟩ := fits_single.1 hf
                refine hn ⟨b, ?_, rfl⟩
                have := has_andNot (s := s) (t := brk) (b := b)
                rw [hz, has_zero, hb'] at this
                simpa using this.symm
              · next hes =>
                obtain ⟨e', es', rfl⟩ := List.exists_cons_of_ne_nil hes
                have := long (e := e') (by simp) (h2 e' (by simp))
                simp [this]
            · next hz =>
              obtain ⟨b, hb'⟩ := exists_byte hz
              rw [has_andNot, Bool.and_eq_true, Bool.not_eq_true'] at hb'
              have : ∃ w, w ∈ leafSem (.cls ([s] :: es) brk false) :=
                ⟨[b], ⟨[s], by simp, fits_single.2 ⟨b, hb'.1, rfl⟩⟩, by
                  rintro ⟨b', hb2, e⟩
                  cases e
                  rw [hb'.2] at hb2; cases hb2⟩
              simp [this]
          · next hne =>
            have := long (e := e) (by simp) (by
              intro hl
              obtain ⟨s, hs⟩ := List.length_eq_one_iff.1 hl
              exact hne s hs)
            simp [this]

theorem fragment_makes : ∀ (t : Tree Leaf) (g : Graph), AllLeaves Makes t → NoLook t → fragment g t ≠ none
  | .leaf (.lit bs), g, h, _ => by
    cases bs with
    | nil => exact absurd rfl h
    | cons b bs => simp [fragment, literal]
  | .leaf (.cls encs brk additive), g, h, _ => by
    have h : breakout encs brk additive ≠ none := h
    cases hb : breakout encs brk additive with
    | none => exact absurd hb h
    | some es => simp [fragment, charClass, hb]
  | .alt l r, g, h, hn => by
    cases hl : fragment g l with
    | none => exact absurd hl (fragment_makes l g h.1 hn.1)
    | some a =>
      cases hr : fragment a.1 r with
      | none => exact absurd hr (fragment_makes r a.1 h.2 hn.2)
      | some b => simp [fragment, hl, hr]
  | .cat l r, g, h, hn => by
    cases hl : fragment g l with
    | none => exact absurd hl (fragment_makes l g h.1 hn.1)
    | some a =>
      cases hr : fragment a.1 r with
      | none => exact absurd hr (fragment_makes r a.1 h.2 hn.2)
      | some b => simp [fragment, hl, hr]
  | .rep ng m M t, g, h, hn => by
    cases hl : fragment g t with
    | none => exact absurd hl (fragment_makes t g h hn)
    | some a => simp [fragment, hl]
  | .look _ _, g, _, hn => hn.elim

theorem makes_fragment : ∀ (t : Tree Leaf) (g : Graph), fragment g t ≠ none → AllLeaves Makes t
  | .leaf (.lit bs), g, h => by
    cases bs with
    | nil => exact absurd rfl h
    | cons b bs => exact fun e => by cases e
  | .leaf (.cls encs brk additive), g, h => by
    show breakout encs brk additive ≠ none
    intro hb
    simp [fragment, charClass, hb] at h
  | .alt l r, g, h => by
    simp only [fragment, Option.bind_eq_bind] at h
    cases hl : fragment g l with
    | none => simp [hl] at h
    | some a =>
      cases hr : fragment a.1 r with
      | none => simp [hl, hr] at h
      | some b => exact ⟨makes_fragment l g (by simp [hl]), makes_fragment r a.1 (by simp [hr])⟩
  | .cat l r, g, h => by
    simp only [fragment, Option.bind_eq_bind] at h
    cases hl : fragment g l with
    | none => simp [hl] at h
    | some a =>
      cases hr : fragment a.1 r with
      | none => simp [hl, hr] at h
      | some b => exact ⟨makes_fragment l g (by simp [hl]), makes_fragment r a.1 (by simp [hr])⟩
  | .rep ng m M t, g, h => by
    simp only [fragment, Option.bind_eq_bind] at h
    cases hl : fragment g t with
    | none => simp [hl] at h
    | some a => exact makes_fragment t g (by simp [hl])
  | .look _ _, g, h => absurd rfl h

theorem copies_both {P : Leaf → Prop} {t s : Tree Leaf} (ht : AllLeaves P t ∧ NoLook t) (hs : AllLeaves P s ∧ NoLook s) :
    ∀ k, AllLeaves P (copies t s k) ∧ NoLook (copies t s k)
  | 0 => hs
  | k + 1 => ⟨⟨ht.1, (copies_both ht hs k).1⟩, ht.2, (copies_both ht hs k).2⟩

theorem optional_both {P : Leaf → Prop} {ng : Bool} {t : Tree Leaf} (ht : AllLeaves P t ∧ NoLook t) :
    ∀ k, AllLeaves P (optional ng t k) ∧ NoLook (optional ng t k)
  | 0 => ht
  | k + 1 => ⟨⟨ht.1, (optional_both ht k).1⟩, ht.2, (optional_both ht k).2⟩

theorem expand_both {P : Leaf → Prop} (t : Tree Leaf) : AllLeaves P t ∧ NoLook t → AllLeaves P (expand t) ∧ NoLook (expand t) := by
  induction t with
  | leaf a => exact id
  | alt l r ihl ihr =>
    rintro ⟨h, hn⟩
    exact ⟨⟨(ihl ⟨h.1, hn.1⟩).1, (ihr ⟨h.2, hn.2⟩).1⟩, (ihl ⟨h.1, hn.1⟩).2, (ihr ⟨h.2, hn.2⟩).2⟩
  | cat l r ihl ihr =>
    rintro ⟨h, hn⟩
    exact ⟨⟨(ihl ⟨h.1, hn.1⟩).1, (ihr ⟨h.2, hn.2⟩).1⟩, (ihl ⟨h.1, hn.1⟩).2, (ihr ⟨h.2, hn.2⟩).2⟩
  | look k t ih => exact id
  | rep ng m M t ih =>
    intro h
    have h := ih h
    unfold expand expandRep
    split
    · exact h
    · split
      · exact copies_both h h _
      · split
        · exact copies_both (s := .rep ng 1 Regex.UNB (expand t)) h ⟨h.1, h.2⟩ _
        · exact copies_both h (optional_both h _) _

theorem build_threw {l : Nat} {t : Tree Leaf} (hn : NoLook t) : build l (some t) ≠ .threw ↔ AllLeaves Makes t := by
  constructor
  · intro h
    apply expand_leaves
    apply makes_fragment _ .init
    intro hf
    simp [build, hf] at h
  · intro h hb
    obtain ⟨a, b⟩ := expand_both t ⟨h, hn⟩
    have := fragment_makes _ .init a b
    unfold build at hb
    cases hf : fragment .init (expand t) with
    | none => exact this hf
    | some x =>
      simp only [hf, finish] at hb
      split at hb <;> cases hb

theorem textSem_leaf {e : Encoder} (hok : e.Ok) {n : Node} (hn : ∀ c, n ≠ .lit c) : textSem e.spec n = nodeSem e n := by
  cases n with
  | lit c => exact absurd rfl (hn c)
  | byte b => rfl
  | dot => simp only [textSem, nodeSem, has_iff e hok]; rfl
  | cls _ _ a => cases a <;> simp only [textSem, nodeSem, has_iff e hok] <;> rfl

theorem leaf_present {e : Encoder} (hok : e.Ok) {c : Cache} (hc : e.CacheOk c) {n : Node} (hn : n.Ok) :
    ∃ c' l, e.leaf c n = some (c', l) ∧ e.CacheOk c' ∧ (Makes l ↔ Present e.spec n) := by
  obtain ⟨c', l, h1, h2, h3, h4⟩ := leaf_exact hok hc hn
  refine ⟨c', l, h1, h2, ?_⟩
  by_cases hl : ∃ x, n = .lit x
  · obtain ⟨x, rfl⟩ := hl
    simp only [Encoder.leaf, Option.some.injEq, Prod.mk.injEq] at h1
    obtain ⟨-, rfl⟩ := h1
    show (e.write x).map UInt8.ofNat ≠ [] ↔ ∃ w, e.spec x ≠ [] ∧ w = toBytes (e.spec x)
    rw [write_spec]
    simp
  · have hl : ∀ x, n ≠ .lit x := fun x e => hl ⟨x, e⟩
    rw [makes_iff (h4 fun x e => absurd e (hl x)), h3]
    unfold Present
    rw [textSem_leaf hok hl]

theorem leaves_present {e : Encoder} (hok : e.Ok) : ∀ (t : Tree Node) {c c' : Cache} {t' : Tree Leaf}, e.CacheOk c → AllLeaves Node.Ok t →
    e.leaves c t = some (c', t') → e.CacheOk c' ∧ (AllLeaves Makes t' ↔ AllLeaves (Present e.spec) t) := by
  intro t
  induction t with
  | leaf n =>
    intro c c' t' hc hn h
    obtain ⟨c1, l, h1, h2, h3⟩ := leaf_present hok hc hn
    simp only [Encoder.leaves, h1, Option.map_some, Option.some.injEq, Prod.mk.injEq] at h
    obtain ⟨rfl, rfl⟩ := h
    exact ⟨h2, h3⟩
  | alt l r ihl ihr =>
    intro c c' t' hc hn h
    simp only [Encoder.leaves, Option.bind_eq_bind, Option.bind_eq_some_iff, Option.some.injEq, Prod.mk.injEq] at h
    obtain ⟨a, h1, b, h2, rfl, rfl⟩ := h
    obtain ⟨p1, p2⟩ := ihl hc hn.1 h1
    obtain ⟨q1, q2⟩ := ihr p1 hn.2 h2
    exact ⟨q1, and_congr p2 q2⟩
  | cat l r ihl ihr =>
    intro c c' t' hc hn h
    simp only [Encoder.leaves, Option.bind_eq_bind, Option.bind_eq_some_iff, Option.some.injEq, Prod.mk.injEq] at h
    obtain ⟨a, h1, b, h2, rfl, rfl⟩ := h
    obtain ⟨p1, p2⟩ := ihl hc hn.1 h1
    obtain ⟨q1, q2⟩ := ihr p1 hn.2 h2
    exact ⟨q1, and_congr p2 q2⟩
  | rep ng m M t ih =>
    intro c c' t' hc hn h
    simp only [Encoder.leaves, Option.bind_eq_bind, Option.bind_eq_some_iff, Option.some.injEq, Prod.mk.injEq] at h
    obtain ⟨a, h1, rfl, rfl⟩ := h
    exact ih (t' := a.2) hc hn h1
  | look k t ih =>
    intro c c' t' hc hn h
    simp only [Encoder.leaves, Option.bind_eq_bind, Option.bind_eq_some_iff, Option.some.injEq, Prod.mk.injEq] at h
    obtain ⟨a, h1, rfl, rfl⟩ := h
    exact ih (t' := a.2) hc hn h1

theorem allLeaves_mono {α : Type} {P Q : α → Prop} (h : ∀ a, P a → Q a) : ∀ {t : Tree α}, AllLeaves P t → AllLeaves Q t := by
  intro t
  induction t with
  | leaf a => exact h a
  | alt l r ihl ihr => exact fun x => ⟨ihl x.1, ihr x.2⟩
  | cat l r ihl ihr => exact fun x => ⟨ihl x.1, ihr x.2⟩
  | rep ng m M t ih => exact ih
  | look k t ih => exact ih

theorem present_writable {e : Encoder} {t : Tree Node} (h : AllLeaves (Present e.spec) t) : AllLeaves e.Writable t := by
  refine allLeaves_mono ?_ h
  rintro n ⟨w, hw⟩ x rfl
  exact hw.1

/-- What the program decides by: the leaves and the language of what the rewriter makes of the
pattern. -/
def Decided [Build] (env : Env) (r : Request) : Prop :=
  ∃ t j k ts u, Text.parseText env r.opts r.expr = .ok (t, j) ∧ NoLook t ∧ Reads r.chain k ts ∧
    (k = .std .ascii → r.chain = name "ASCII" ∨ Build.converter (name "US-ASCII") ≠ none) ∧
    Regex.reduce (.lit 120) true true t = some (some u) ∧
    AllLeaves (Present (charBytes k ts)) u ∧ [] ∉ lang (textSem (charBytes k ts)) u

theorem request_decided [Build] {env : Env} (he : env.Sound) {r : Request} (hm : Modest env r) {fuel : Nat} {s s' : State}
    {o : Option Nat} (hf : FactoryOk s.factory) (h : request fuel env s r = some (s', o)) : o ≠ none ↔ Decided env r := by
  unfold request at h
  unfold Text.parseAndReduce at h
  cases hpt : Text.parseText env r.opts r.expr with
  | error e =>
    rw [hpt] at h
    have ho : o = none := by
      dsimp only at h
      cases e <;> simp at h <;> exact h.2.symm
    refine ⟨fun hn => absurd ho hn, ?_⟩
    rintro ⟨t, j, k, ts, u, h1, -⟩
    rw [hpt] at h1; cases h1
  | ok tk =>
    obtain ⟨t, j⟩ := tk
    rw [hpt] at h
    dsimp only at h
    rw [Text.shortcuts_are_sound he hm.2 hpt] at h
    obtain ⟨hok, hlv⟩ := parseText_ok he hpt
    have hw := hm.1 t j hpt
    by_cases hnl : NoLook t
    · obtain ⟨ou, hu⟩ := Regex.reduce_some (.lit 120) hok hnl hw
      rw [hu] at h
      dsimp only at h
      cases ou with
      | none =>
        have ho : o = none := by
          unfold addTree at h
          split at h
          · cases h; rfl
          · cases h; rfl
        refine ⟨fun hn => absurd ho hn, ?_⟩
        rintro ⟨t0, j0, k, ts, u, h1, -, -, -, h5, -⟩
        rw [hpt] at h1; cases h1
        rw [hu] at h5; cases h5
      | some u =>
      unfold addTree at h
      have hcm := chain_meaning hf r.chain
      cases hget : s.factory.get r.chain with
      | none =>
        rw [hget] at h
        cases h
        refine ⟨fun h => absurd rfl h, ?_⟩
        rintro ⟨t0, j0, k, ts, u0, -, -, h3, h4, -⟩
        exact absurd hget (hcm.2.2 ⟨k, ts, h3, h4⟩)
      | some ec =>
        obtain ⟨e, c⟩ := ec
        obtain ⟨heo, hco, k, ts, hrd, hsp⟩ := hcm.1 e c hget
        have hsp : e.spec = charBytes k ts := funext hsp
        obtain ⟨k1, ts1, hrd1, hsa⟩ := hcm.2.1 (by rw [hget]; simp)
        obtain ⟨rfl, rfl⟩ := reads_unique hrd hrd1
        rw [hget] at h
        simp only [Option.bind_eq_bind, Option.bind_eq_some_iff, Option.some.injEq] at h
        obtain ⟨⟨c', t'⟩, hl, ⟨g', o'⟩, ha, h⟩ := h
        obtain ⟨s1, s2, s3, s4⟩ := Regex.reduce_sane Node.Ok (.lit 120) trivial hok hw hlv hu
        obtain ⟨c2, t2, e1, e2, e3, e4, e5, e6, e7⟩ := leaves_exact heo u hco s4
        rw [hl] at e1
        cases e1
        have hacc : o ≠ none ↔ o' = .added := by
          by_cases h0 : o' = .added
          · rw [if_pos h0] at h; cases h; simp [h0]
          · rw [if_neg h0] at h; cases h; simp [h0]
        have hbld : o' = .added ↔ build s.count (some t') ≠ .threw ∧ build s.count (some t') ≠ .empty := by
          unfold Fsm.addPattern at ha
          split at ha
          · next p hp =>
            simp only [Option.bind_eq_bind, Option.bind_eq_some_iff, Option.some.injEq, Prod.mk.injEq] at ha
            obtain ⟨_, _, _, _, _, e⟩ := ha
            simp [hp, ← e]
          · next hp =>
            simp only [Option.some.injEq, Prod.mk.injEq] at ha
            simp [hp, ← ha.2]
          · next hp =>
            simp only [Option.some.injEq, Prod.mk.injEq] at ha
            simp [hp, ← ha.2]
        have hmk := (leaves_present heo u hco s4 hl).2
        have hnil : AllLeaves (Present e.spec) u → ([] ∈ lang leafSem t' ↔ [] ∈ lang (textSem (charBytes k ts)) u) := by
          intro hp
          rw [e3, ← lang_textSem heo (present_writable hp), hsp]
        rw [hacc, hbld, build_threw (e5 s2), hmk]
        constructor
        · rintro ⟨hp, hne⟩
          refine ⟨t, j, k, ts, u, hpt, hnl, hrd, hsa, hu, hsp ▸ hp, ?_⟩
          rw [← hnil hp]
          intro hn
          exact hne ((refused_iff_empty s.count t' (e4 s3) (e5 s2) (e6 s1) (e7 (present_writable hp))
            ((build_threw (e5 s2)).2 (hmk.2 hp))).1.2 hn)
        · rintro ⟨t0, j0, k0, ts0, u0, h1, -, h3, -, h4, h5, h6⟩
          rw [hpt] at h1
          cases h1
          rw [hu] at h4
          cases h4
          obtain ⟨rfl, rfl⟩ := reads_unique hrd h3
          rw [← hsp] at h5
          refine ⟨h5, ?_⟩
          rw [← hnil h5] at h6
          intro hb
          exact h6 ((refused_iff_empty s.count t' (e4 s3) (e5 s2) (e6 s1) (e7 (present_writable h5))
            ((build_threw (e5 s2)).2 (hmk.2 h5))).1.1 hb)
    · have ho : o = none := by
        have hr : Regex.reduce (.lit 120) true true t = none := by
          cases hc : Regex.combine (Regex.assoc t).2 with
          | none => simp [Regex.reduce, hc]
          | some q => exact absurd (assoc_noLook' t (Regex.combine_noLook _ q hc).1) hnl
        rw [hr] at h
        simp at h
        exact h.2.symm
      refine ⟨fun hn => absurd ho hn, ?_⟩
      rintro ⟨t0, j0, k, ts, u, h1, h2, -⟩
      rw [hpt] at h1; cases h1
      exact absurd h2 hnl

/-- An acceptable request is decided for. -/
theorem decided_of_acceptable [Build] {env : Env} (he : env.Sound) {r : Request} (hm : Modest env r) (h : Acceptable env r) :
    Decided env r := by
  obtain ⟨t, j, k, ts, hpt, hnl, hrd, hsa, hp, hn⟩ := h
  obtain ⟨hok, hlv⟩ := parseText_ok he hpt
  have hw := hm.1 t j hpt
  obtain ⟨ou, hu⟩ := Regex.reduce_some (.lit 120) hok hnl hw
  have hsub := Regex.reduce_sub (textSem (charBytes k ts)) (.lit 120) hok hw hu
  cases ou with
  | none => exact absurd (hsub [] rfl) hn
  | some u =>
    exact ⟨t, j, k, ts, u, hpt, hnl, hrd, hsa, hu, Regex.reduce_leaves_all _ _ hok hw hp hu, fun h => hn (hsub [] h)⟩

/-- What holds of every request that is decided for. -/
theorem sensible_of_decided [Build] {env : Env} (he : env.Sound) {r : Request} (hm : Modest env r) (h : Decided env r) :
    Sensible env r := by
  obtain ⟨t, j, k, ts, u, hpt, hnl, hrd, hsa, hu, hp, hn⟩ := h
  obtain ⟨hok, hlv⟩ := parseText_ok he hpt
  exact ⟨t, j, k, ts, hpt, hnl, hrd, hsa, fun h => hn (Regex.reduce_nil _ _ hok (hm.1 t j hpt) hu h)⟩

/-- A greedy pattern without `{0}` that is decided for is acceptable. -/
theorem acceptable_of_decided [Build] {env : Env} (he : env.Sound) {r : Request} (hm : Modest env r) (hg : Parsed env r NoNg)
    (hd : Parsed env r NoDead) (h : Decided env r) : Acceptable env r := by
  obtain ⟨t, j, k, ts, u, hpt, hnl, hrd, hsa, hu, hp, hn⟩ := h
  obtain ⟨hok, hlv⟩ := parseText_ok he hpt
  have hw := hm.1 t j hpt
  have hg := hg t j hpt
  have hd := hd t j hpt
  obtain ⟨u1, hu1, hk⟩ := Regex.reduce_keeps (Present (charBytes k ts)) (.lit 120) hok hnl hg hd hw
  rw [hu] at hu1
  cases hu1
  exact ⟨t, j, k, ts, hpt, hnl, hrd, hsa, hk.1 hp, fun h => hn (Regex.reduce_nil _ _ hok hw hu h)⟩

theorem requests_decided [Build] {env : Env} (he : env.Sound) {fuel : Nat} : ∀ (rs : List Request) {s s' : State} {os : List (Option Nat)},
    (∀ r ∈ rs, Modest env r) → FactoryOk s.factory → requests fuel env s rs = some (s', os) →
    os.length = rs.length ∧ ∀ (i : Nat) (r : Request), rs[i]? = some r → ((∃ l, os[i]? = some (some l)) ↔ Decided env r)
  | [], s, s', os, _, _, h => by
    cases h
    exact ⟨rfl, by simp⟩
  | r :: rs, s, s', os, hm, hf, h => by
    simp only [requests, Option.bind_eq_bind, Option.bind_eq_some_iff, Option.some.injEq, Prod.mk.injEq] at h
    obtain ⟨⟨s1, o⟩, h1, ⟨s2, os'⟩, h2, rfl, rfl⟩ := h
    obtain ⟨hf1, -⟩ := request_step he (hm r (by simp)) hf h1
    obtain ⟨q1, q2⟩ := requests_decided he rs (fun r hr => hm r (by simp [hr])) hf1 h2
    refine ⟨by simp [q1], fun i r' hi => ?_⟩
    cases i with
    | zero =>
      simp only [List.getElem?_cons_zero, Option.some.injEq] at hi
      subst hi
      rw [← request_decided he (hm r (by simp)) hf h1, Option.ne_none_iff_exists']
      simp
    | succ i =>
      simp only [List.getElem?_cons_succ] at hi ⊢
      exact q2 i r' hi

/-- **C97 (partial)** Requests are answered one by one, the accepted ones with the numbers from 0
on.  Every acceptable request is accepted, and every accepted one is sensible, whatever the
pattern.  The accepted ones are the acceptable ones for patterns without non-greedy
repetitions and without `{0}` only: there the program drops parts of the pattern and then does not
look at their characters. -/
theorem accepted_iff_partial [Build] {env : Env} (he : env.Sound) {fuel : Nat} {rs : List Request} {s : State} {os : List (Option Nat)}
    (hm : ∀ r ∈ rs, Modest env r) (h : requests fuel env .init rs = some (s, os)) :
    os.length = rs.length ∧ os.filterMap id = List.range (os.filterMap id).length ∧
    ∀ (i : Nat) (r : Request), rs[i]? = some r →
      (Acceptable env r → ∃ l, os[i]? = some (some l)) ∧
      ((∃ l, os[i]? = some (some l)) → Sensible env r) ∧
      (Parsed env r NoNg → Parsed env r NoDead → ((∃ l, os[i]? = some (some l)) ↔ Acceptable env r)) := by
  obtain ⟨h1, h2⟩ := requests_decided he rs hm factory_init h
  obtain ⟨ps, -, h3, -⟩ := requests_spec he rs hm factory_init h
  refine ⟨h1, ?_, fun i r hi => ?_⟩
  · rw [h3, List.length_range', List.range_eq_range']
    rfl
  · have hmr := hm r (List.mem_of_getElem? hi)
    have hiff := h2 i r hi
    exact ⟨fun ha => hiff.2 (decided_of_acceptable he hmr ha), fun ha => sensible_of_decided he hmr (hiff.1 ha),
      fun hg hd => ⟨fun ha => acceptable_of_decided he hmr hg hd (hiff.1 ha), fun ha => hiff.2 (decided_of_acceptable he hmr ha)⟩⟩

/-! ## Example -/

attribute [local instance] Build.plain

/-- `ab`, `é` in ASCII, `é` in UTF-8, a lookaround, an unknown encoding, a text that cannot be read
and one that matches the empty string. -/
def asked : List Request := [
  ⟨name "ab", ⟨false, false, false⟩, name "ASCII"⟩,
  ⟨[0xC3, 0xA9], ⟨false, false, false⟩, name "ASCII"⟩,
  ⟨[0xC3, 0xA9], ⟨false, false, false⟩, name "UTF-8"⟩,
  ⟨name "(?<=a)b", ⟨false, false, false⟩, name "ASCII"⟩,
  ⟨name "ab", ⟨false, false, false⟩, name "EBCDIC"⟩,
  ⟨name "(ab", ⟨false, false, false⟩, name "ASCII"⟩,
  ⟨name "x*", ⟨false, false, false⟩, name "ASCII"⟩]

/-- Whether a text has a small tree with the properties, or none. -/
def plainly (env : Env) (r : Request) : Bool :=
  match Text.parseText env r.opts r.expr with
  | .ok (t, _) => decide (weight t ≤ 4) && greedy t
  | .error _ => true
where
  greedy : Tree Node → Bool
    | .leaf _ => true
    | .alt l r => greedy l && greedy r
    | .cat l r => greedy l && greedy r
    | .rep ng _ M t => !ng && decide (M ≠ 0) && greedy t
    | .look _ t => greedy t

theorem greedy_iff : ∀ {t : Tree Node}, plainly.greedy t = true → NoNg t ∧ NoDead t := by
  intro t
  induction t with
  | leaf a => exact fun _ => ⟨trivial, trivial⟩
  | alt l r ihl ihr =>
    intro h
    simp only [plainly.greedy, Bool.and_eq_true] at h
    exact ⟨⟨(ihl h.1).1, (ihr h.2).1⟩, (ihl h.1).2, (ihr h.2).2⟩
  | cat l r ihl ihr =>
    intro h
    simp only [plainly.greedy, Bool.and_eq_true] at h
    exact ⟨⟨(ihl h.1).1, (ihr h.2).1⟩, (ihl h.1).2, (ihr h.2).2⟩
  | rep ng m M t ih =>
    intro h
    simp only [plainly.greedy, Bool.and_eq_true, Bool.not_eq_true', decide_eq_true_eq] at h
    exact ⟨⟨h.1.1, (ih h.2).1⟩, fun e => h.1.2 e.2, (ih h.2).2⟩
  | look k t ih => exact ih

theorem asked_plainly : ∀ r ∈ asked, plainly Parser.plain r = true := by decide +kernel

theorem asked_modest : ∀ r ∈ asked, Modest Parser.plain r ∧ Parsed Parser.plain r NoNg ∧ Parsed Parser.plain r NoDead := by
  intro r hr
  have h := asked_plainly r hr
  have hp : ∀ t j, Text.parseText Parser.plain r.opts r.expr = .ok (t, j) → weight t ≤ 4 ∧ NoNg t ∧ NoDead t := by
    intro t j e
    unfold plainly at h
    rw [e] at h
    simp only [Bool.and_eq_true, decide_eq_true_eq] at h
    exact ⟨h.1, greedy_iff h.2⟩
  refine ⟨⟨fun t j e => ?_, ?_⟩, fun t j e => (hp t j e).2.1, fun t j e => (hp t j e).2.2⟩
  · have := (hp t j e).1
    simp only [UNB]; omega
  · have : ∀ r ∈ asked, r.expr.length < 2 ^ 64 := by decide
    exact this r hr

theorem asked_answers : ∃ s, requests 60 Parser.plain .init asked = some (s, [some 0, none, some 1, none, none, none, none]) := by
  have h : (match requests 60 Parser.plain .init asked with
      | some (_, os) => decide (os = [some 0, none, some 1, none, none, none, none])
      | none => false) = true := by decide +kernel
  cases h1 : requests 60 Parser.plain .init asked with
  | none => rw [h1] at h; cases h
  | some x =>
    obtain ⟨s, os⟩ := x
    simp only [h1, decide_eq_true_eq] at h
    exact ⟨s, by rw [h]⟩

-- `é` is acceptable in UTF-8 and not in ASCII.
example : Acceptable Parser.plain ⟨[0xC3, 0xA9], ⟨false, false, false⟩, name "UTF-8"⟩ ∧
    ¬ Acceptable Parser.plain ⟨[0xC3, 0xA9], ⟨false, false, false⟩, name "ASCII"⟩ := by
  obtain ⟨s, h⟩ := asked_answers
  obtain ⟨-, -, h⟩ := accepted_iff_partial Parser.plain_sound (fun r hr => (asked_modest r hr).1) h
  constructor
  · exact ((h 2 _ rfl).2.2 (asked_modest _ (by simp [asked])).2.1 (asked_modest _ (by simp [asked])).2.2).1 ⟨1, rfl⟩
  · intro ha
    obtain ⟨l, hl⟩ := (h 1 _ rfl).1 ha
    simp at hl

/-- Why greedy patterns: `aé*?` and `é{0}a` are accepted in ASCII although it has no `é`. -/
theorem dropped_unchecked : ∃ s, requests 60 Parser.plain .init
    [⟨[97, 0xC3, 0xA9] ++ name "*?", ⟨false, false, false⟩, name "ASCII"⟩,
     ⟨[0xC3, 0xA9] ++ name "{0}a", ⟨false, false, false⟩, name "ASCII"⟩] = some (s, [some 0, some 1]) := by
  have h : (match requests 60 Parser.plain .init
      [⟨[97, 0xC3, 0xA9] ++ name "*?", ⟨false, false, false⟩, name "ASCII"⟩,
       ⟨[0xC3, 0xA9] ++ name "{0}a", ⟨false, false, false⟩, name "ASCII"⟩] with
      | some (_, os) => decide (os = [some 0, some 1])
      | none => false) = true := by decide +kernel
  split at h
  · next s os h1 => rw [h1]; exact ⟨s, by rw [of_decide_eq_true h]⟩
  · cases h

end Verif.Session
