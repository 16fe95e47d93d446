import Verif.Props.Shortcuts
/-!
# All passes of the rewriter together (C18, C19)

`SamePlaces A B`: the strings of `B` are among those of `A`, and data that begins with a
string of `A` begins with one of `B`.
-/
namespace Verif.Regex
variable {α : Type}

/-! ## What the passes keep -/

theorem thenEmpty_keeps (t : Tree α) (hok : Ok t) (hn : NoLook t) :
    ∃ q, thenEmpty t = some q ∧ Ok q.2 ∧ NoLook q.2 ∧ weight q.2 ≤ 2 * weight t := by
  induction t with
  | leaf a => exact ⟨_, rfl, trivial, trivial, by simp [weight]⟩
  | look k t => exact hn.elim
  | rep ng m M t ih =>
    obtain ⟨p, hp, p1, p2, p4⟩ := ih hok.2.2.2 hn
    cases ng with
    | false =>
      exact ⟨(p.1, .rep false m M p.2), by simp [thenEmpty, hp], ⟨hok.1, hok.2.1, hok.2.2.1, p1⟩, p2,
        by simp only [weight]; omega⟩
    | true =>
      refine ⟨(true, .rep false m m p.2), by simp [thenEmpty, hp],
        ⟨Nat.le_refl _, Nat.le_of_lt hok.2.2.1, hok.2.2.1, p1⟩, p2, ?_⟩
      simp only [weight, if_neg (Nat.ne_of_lt hok.2.2.1)]
      omega
  | alt l r ihl ihr =>
    obtain ⟨p, hp, p1, p2, p4⟩ := ihl hok.1 hn.1
    obtain ⟨q, hq, q1, q2, q4⟩ := ihr hok.2 hn.2
    exact ⟨(p.1 || q.1, .alt p.2 q.2), by simp [thenEmpty, hp, hq], ⟨p1, q1⟩, ⟨p2, q2⟩, by simp only [weight]; omega⟩
  | cat l r ihl ihr =>
    obtain ⟨p, hp, p1, p2, p4⟩ := ihl hok.1 hn.1
    obtain ⟨q, hq, q1, q2, q4⟩ := ihr hok.2 hn.2
    obtain ⟨b, hb⟩ := hasZero_some r hn.2
    cases b with
    | false =>
      refine ⟨(q.1, .cat l q.2), by simp [thenEmpty, hb, hq], ⟨hok.1, q1⟩, ⟨hn.1, q2⟩, ?_⟩
      simp only [weight]; omega
    | true =>
      by_cases hl : ∃ m M t, l = .rep true m M t
      · obtain ⟨m, M, t, rfl⟩ := hl
        refine ⟨(true, .cat (.rep false m m t) q.2), by simp [thenEmpty, hb, hq],
          ⟨⟨Nat.le_refl _, Nat.le_of_lt hok.1.2.2.1, hok.1.2.2.1, hok.1.2.2.2⟩, q1⟩, ⟨hn.1, q2⟩, ?_⟩
        simp only [weight, if_neg (Nat.ne_of_lt hok.1.2.2.1)]; omega
      · refine ⟨(p.1 || q.1, .cat p.2 q.2), ?_, ⟨p1, q1⟩, ⟨p2, q2⟩, by simp only [weight]; omega⟩
        rw [thenEmpty]
        simp only [hb, hq, Option.bind_eq_bind, Option.bind_some, if_true]
        · rw [hp]; rfl
        · exact fun m M t e => hl ⟨m, M, t, e⟩

theorem thenEmpty_leaves (P : α → Prop) (t : Tree α) (h : AllLeaves P t) :
    ∀ q, thenEmpty t = some q → AllLeaves P q.2 := by
  induction t with
  | leaf a => intro q hq; cases hq; exact h
  | look k t ih =>
    intro q hq
    simp only [thenEmpty, Option.bind_eq_bind, Option.bind_eq_some_iff, Option.some.injEq] at hq
    obtain ⟨p, hp, rfl⟩ := hq
    exact ih h p hp
  | rep ng m M t ih =>
    intro q hq
    cases ng with
    | false =>
      simp only [thenEmpty, Option.bind_eq_bind, Option.bind_eq_some_iff, Option.some.injEq] at hq
      obtain ⟨p, hp, rfl⟩ := hq
      exact ih h p hp
    | true =>
      simp only [thenEmpty, Option.bind_eq_bind, Option.bind_eq_some_iff, Option.some.injEq] at hq
      obtain ⟨p, hp, rfl⟩ := hq
      exact ih h p hp
  | alt l r ihl ihr =>
    intro q hq
    simp only [thenEmpty, Option.bind_eq_bind, Option.bind_eq_some_iff, Option.some.injEq] at hq
    obtain ⟨p, hp, u, hu, rfl⟩ := hq
    exact ⟨ihl h.1 p hp, ihr h.2 u hu⟩
  | cat l r ihl ihr =>
    intro q hq
    unfold thenEmpty at hq
    simp only [Option.bind_eq_bind, Option.bind_eq_some_iff, Option.some.injEq] at hq
    obtain ⟨p, ⟨z, hz, hp⟩, u, hu, rfl⟩ := hq
    refine ⟨?_, ihr h.2 u hu⟩
    split at hp
    · split at hp
      · cases hp; exact h.1
      · exact ihl h.1 p hp
    · cases hp; exact h.1

variable [DecidableEq α]

theorem thenGreedy_keeps' (t : Tree α) (hok : Ok t) (hn : NoLook t) (hw : 2 * weight t < UNB) :
    Ok (thenGreedy t).2 ∧ NoLook (thenGreedy t).2 ∧ weight (thenGreedy t).2 ≤ 2 * weight t ∧
      ∀ ng a b s, t = .rep ng a b s → weight (thenGreedy s).2 ≤ 2 * weight s := by
  induction t with
  | leaf a => exact ⟨trivial, trivial, by simp [thenGreedy, weight], by simp⟩
  | look k t => exact hn.elim
  | rep ng m M t ih =>
    simp only [weight] at hw
    obtain ⟨p1, p2, p4, -⟩ := ih hok.2.2.2 hn (by omega)
    refine ⟨⟨hok.1, hok.2.1, hok.2.2.1, p1⟩, p2, ?_, ?_⟩
    · simp only [thenGreedy, weight]; omega
    · rintro _ _ _ _ ⟨⟩; exact p4
  | alt l r ihl ihr =>
    simp only [weight] at hw
    obtain ⟨p1, p2, p4, -⟩ := ihl hok.1 hn.1 (by omega)
    obtain ⟨q1, q2, q4, -⟩ := ihr hok.2 hn.2 (by omega)
    refine ⟨⟨p1, q1⟩, ⟨p2, q2⟩, ?_, by simp⟩
    simp only [thenGreedy, weight]; omega
  | cat l r ihl ihr =>
    simp only [weight] at hw
    obtain ⟨q1, q2, q4, -⟩ := ihr hok.2 hn.2 (by omega)
    by_cases hl : ∃ a b s, l = .rep true a b s
    · obtain ⟨a, b, s, rfl⟩ := hl
      simp only [weight] at hw
      obtain ⟨s1, s2, -, s4⟩ := ihl hok.1 hn.1 (by simp only [weight]; omega)
      have s1' : Ok (thenGreedy s).2 := s1.2.2.2
      have s2' : NoLook (thenGreedy s).2 := s2
      have s4' := s4 _ _ _ _ rfl
      have hsp := weight_pos s
      have hrp := weight_pos r
      rcases thenGreedy_cat a b s r with h | ⟨c, d, h1, h⟩ | ⟨h1, h⟩
      · rw [h]
        refine ⟨⟨hok.1, q1⟩, ⟨hn.1, q2⟩, ?_, by simp⟩
        simp only [weight]; omega
      · rw [h]
        rw [h1] at q1 q2 q4
        simp only [weight] at q4
        have hac : a + c < UNB := by omega
        have had : d ≠ UNB → a + d < UNB := by intro hd; rw [if_neg hd] at q4; omega
        have e1 : add32 a c = a + c := by unfold add32; unfold UNB at hac; omega
        have hle := q1.1
        refine ⟨?_, s2', ?_, by simp⟩
        · rw [e1]
          by_cases hd : d = UNB
          · rw [if_pos hd]; exact ⟨by omega, Nat.le_refl _, hac, s1'⟩
          · have h2 := had hd
            have e2 : add32 a d = a + d := by unfold add32; unfold UNB at h2; omega
            rw [if_neg hd, e2]
            exact ⟨by omega, by omega, hac, s1'⟩
        · rw [e1]
          by_cases hd : d = UNB
          · rw [if_pos hd] at *
            simp only [weight, if_true]; omega
          · have h2 := had hd
            have e2 : add32 a d = a + d := by unfold add32; unfold UNB at h2; omega
            rw [if_neg hd] at *
            rw [e2]
            simp only [weight, if_neg (Nat.ne_of_lt h2)]
            omega
      · rw [h]
        rw [h1] at q1 q2 q4
        have ha1 : a + 1 < UNB := by omega
        have e1 : add32 a 1 = a + 1 := by unfold add32; unfold UNB at ha1; omega
        refine ⟨?_, s2', ?_, by simp⟩
        · rw [e1]; exact ⟨Nat.le_refl _, by omega, ha1, s1'⟩
        · rw [e1]; simp only [weight, if_neg (Nat.ne_of_lt ha1)]; omega
    · have h := thenGreedy_cat' l r (fun a b s e => hl ⟨a, b, s, e⟩)
      rw [h]
      refine ⟨⟨hok.1, q1⟩, ⟨hn.1, q2⟩, ?_, by simp⟩
      simp only [weight]; omega

theorem thenGreedy_keeps (t : Tree α) (hok : Ok t) (hn : NoLook t) (hw : 2 * weight t < UNB) :
    Ok (thenGreedy t).2 ∧ NoLook (thenGreedy t).2 ∧ weight (thenGreedy t).2 ≤ 2 * weight t :=
  let ⟨a, b, c, _⟩ := thenGreedy_keeps' t hok hn hw
  ⟨a, b, c⟩

theorem thenGreedy_leaves (P : α → Prop) (t : Tree α) (h : AllLeaves P t) : AllLeaves P (thenGreedy t).2 := by
  induction t with
  | leaf a => exact h
  | look k t ih => exact ih h
  | rep ng m M t ih => exact ih h
  | alt l r ihl ihr => exact ⟨ihl h.1, ihr h.2⟩
  | cat l r ihl ihr =>
    by_cases hl : ∃ a b s, l = .rep true a b s
    · obtain ⟨a, b, s, rfl⟩ := hl
      have hs : AllLeaves P (thenGreedy s).2 := ihl h.1
      rcases thenGreedy_cat a b s r with e | ⟨c, d, h1, e⟩ | ⟨h1, e⟩
      · rw [e]; exact ⟨h.1, ihr h.2⟩
      · rw [e]; exact hs
      · rw [e]; exact hs
    · rw [thenGreedy_cat' l r (fun a b s e => hl ⟨a, b, s, e⟩)]
      exact ⟨h.1, ihr h.2⟩

/-- What all passes together leave is fit for the builder: no lookarounds, no `{0}`, proper
bounds, and leaves of the pattern. -/
theorem reduce_sane (P : α → Prop) (x : α) (hx : P x) {t u : Tree α} (hok : Ok t) (hw : 4 * weight t < UNB)
    (hl : AllLeaves P t) (h : reduce x true true t = some (some u)) :
    NoDead u ∧ NoLook u ∧ Ok u ∧ AllLeaves P u := by
  cases hcc : combine (assoc t).2 with
  | none => simp [reduce, hcc] at h
  | some c =>
    obtain ⟨-, hnc⟩ := combine_noLook _ c hcc
    have hw' : weight (assoc t).2 < UNB := by rw [assoc_weight]; omega
    obtain ⟨-, h2, h3⟩ := combine_spec (fun _ => 0) _ (assoc_ok t hok) hw' c hcc
    rw [assoc_weight] at h3
    have hlc := combine_leaves P _ c (assoc_leaves P t hl) hcc
    obtain ⟨e, he, e1, e2, e3⟩ := thenEmpty_keeps c.2 h2 hnc
    have hle := thenEmpty_leaves P _ hlc e he
    obtain ⟨g1, g2, -⟩ := thenGreedy_keeps e.2 e1 e2 (by omega)
    have hlg := thenGreedy_leaves P _ hle
    simp only [reduce, hcc, he, Option.bind_eq_bind, Option.bind_some, if_true, Bool.or_true] at h
    by_cases hz : onlyZero (thenGreedy e.2).2 = some true
    · simp [reduceEmptyRoot, hz, uselessRoot] at h
    · have hzf := onlyZero_ne_true g2 hz
      obtain ⟨d, hd, od, nd, -, dd, -⟩ := reduceEmpty_spec (fun _ => 0) x _ g1 g2
      obtain ⟨p1, p2, p3⟩ := prune_keeps d od nd
      obtain ⟨v, hv, k1, k2, k3⟩ := useless_keeps _ p1 p2
      simp [reduceEmptyRoot, hzf, hd, uselessRoot, hv] at h
      subst h
      exact ⟨k3 (p3 (dd hzf)), k2, k1,
        useless_leaves P _ _ (Nat.le_refl _) v (prune_leaves P d (reduceEmpty_leaves P x hx _ d hlg hd)) hv⟩

/-! ## The places of a pattern -/

omit [DecidableEq α] in
theorem onlyZero_nil (sem : α → Language UInt8) (t : Tree α) (hok : Ok t) (h : onlyZero t = some true) :
    [] ∈ lang sem t := by
  induction t with
  | leaf a => simp [onlyZero] at h
  | look k t => simp [onlyZero] at h
  | alt l r ihl ihr => exact (Language.mem_add _ _ _).2 (.inl (ihl hok.1 h))
  | cat l r ihl ihr =>
    obtain ⟨h1, h2⟩ := onlyZero_cat_true.1 h
    exact Language.append_mem_mul (ihl hok.1 h1) (ihr hok.2 h2)
  | rep ng m M t ih =>
    rcases onlyZero_rep_true.1 h with ⟨rfl, rfl⟩ | h
    · exact ⟨0, Nat.le_refl _, .inr (Nat.le_refl _), by simp⟩
    · exact ⟨m, Nat.le_refl _, .inr hok.1, nil_mem_pow.2 (.inr (ih hok.2.2.2 h))⟩

omit [DecidableEq α] in
theorem SamePlaces.one {A : Language UInt8} (h : [] ∈ A) : SamePlaces A 1 :=
  ⟨fun w hw => by rw [Language.mem_one] at hw; rw [hw]; exact h, fun w _ => ⟨[], List.nil_prefix, rfl⟩⟩

omit [DecidableEq α] in
theorem SamePlaces.nil {A B : Language UInt8} (h : SamePlaces A B) (hn : [] ∈ A) : [] ∈ B := by
  obtain ⟨p, hp, hb⟩ := h.2 [] hn
  rw [List.prefix_nil] at hp
  rwa [hp] at hb

/-- Alternations as in `AltOk`, except at the end of the pattern, where what follows can be
empty. -/
def TrailOk (sem : α → Language UInt8) : Tree α → Prop
  | .leaf _ => True
  | .look _ _ => True
  | .alt l r => TrailOk sem l ∧ TrailOk sem r
  | .cat l r => TrailOk sem r ∧ (AltOk l ∨ ([] ∈ lang sem r ∧ TrailOk sem l))
  | .rep _ _ _ t => AltOk t

omit [DecidableEq α] in
theorem AltOk.trail (sem : α → Language UInt8) {t : Tree α} (h : AltOk t) : TrailOk sem t := by
  induction t with
  | leaf a => trivial
  | look k t => trivial
  | rep ng m M t ih => exact h
  | alt l r ihl ihr => exact ⟨ihl h.2.1, ihr h.2.2⟩
  | cat l r ihl ihr => exact ⟨ihr h.2, .inl h.1⟩

omit [DecidableEq α] in
theorem thenEmpty_trail (sem : α → Language UInt8) (hs : LeafNonempty sem) (t : Tree α) (hok : Ok t) (hn : NoLook t)
    (hf : NgFlat t) (ha : AltOk t) : ∀ q, thenEmpty t = some q → TrailOk sem q.2 := by
  induction t with
  | leaf a => intro q hq; cases hq; trivial
  | look k t => exact hn.elim
  | rep ng m M t ih =>
    intro q hq
    have e := thenEmpty_noNg t hf hn
    cases ng with
    | false => simp [thenEmpty, e] at hq; subst hq; exact ha
    | true => simp [thenEmpty, e] at hq; subst hq; exact ha
  | alt l r ihl ihr =>
    intro q hq
    simp only [thenEmpty, Option.bind_eq_bind, Option.bind_eq_some_iff, Option.some.injEq] at hq
    obtain ⟨p, hp, u, hu, rfl⟩ := hq
    exact ⟨ihl hok.1 hn.1 hf.1 ha.2.1 p hp, ihr hok.2 hn.2 hf.2 ha.2.2 u hu⟩
  | cat l r ihl ihr =>
    intro q hq
    unfold thenEmpty at hq
    simp only [Option.bind_eq_bind, Option.bind_eq_some_iff, Option.some.injEq] at hq
    obtain ⟨p, ⟨z, hz, hp⟩, u, hu, rfl⟩ := hq
    obtain ⟨u', hu', -, -, -, -, hpl⟩ := thenEmpty_places sem hs r hok.2 hn.2 hf.2
    rw [hu] at hu'; cases hu'
    refine ⟨ihr hok.2 hn.2 hf.2 ha.2 u hu, ?_⟩
    have hzl := zero_length_test sem hs r hok.2 z hz
    split at hp
    · next hzt =>
      right
      refine ⟨hpl.nil (hzl.1 hzt), ?_⟩
      split at hp
      · cases hp; exact ha.1
      · exact ihl hok.1 hn.1 hf.1 ha.1 p hp
    · cases hp; exact .inl ha.1

theorem thenGreedy_trail (sem : α → Language UInt8) (t : Tree α) (hok : Ok t) (hn : NoLook t) (hf : NgFlat t)
    (hw : 2 * weight t < UNB) (ha : TrailOk sem t) : TrailOk sem (thenGreedy t).2 := by
  induction t with
  | leaf a => trivial
  | look k t => exact hn.elim
  | rep ng m M t ih =>
    have e : (thenGreedy (.rep ng m M t)).2 = .rep ng m M t := by simp [thenGreedy, thenGreedy_noNg t hf]
    rw [e]; exact ha
  | alt l r ihl ihr =>
    simp only [weight] at hw
    exact ⟨ihl hok.1 hn.1 hf.1 (by omega) ha.1, ihr hok.2 hn.2 hf.2 (by omega) ha.2⟩
  | cat l r ihl ihr =>
    simp only [weight] at hw
    have hr := ihr hok.2 hn.2 hf.2 (by omega) ha.1
    obtain ⟨-, -, -, hpl⟩ := thenGreedy_places sem r hok.2 hn.2 hf.2 (by omega)
    have hl2 : AltOk l ∨ ([] ∈ lang sem (thenGreedy r).2 ∧ TrailOk sem l) := ha.2.imp id fun h => ⟨hpl.nil h.1, h.2⟩
    by_cases hl : ∃ a b s, l = .rep true a b s
    · obtain ⟨a, b, s, rfl⟩ := hl
      have es : (thenGreedy s).2 = s := by rw [thenGreedy_noNg s hf.1]
      have hs : AltOk s := by rcases ha.2 with h | h; exact h; exact h.2
      rcases thenGreedy_cat a b s r with e | ⟨c, d, h1, e⟩ | ⟨h1, e⟩
      · rw [e]; exact ⟨hr, hl2⟩
      · rw [e, es]; exact hs
      · rw [e, es]; exact hs
    · rw [thenGreedy_cat' l r (fun a b s e => hl ⟨a, b, s, e⟩)]
      exact ⟨hr, hl2⟩

omit [DecidableEq α] in
theorem lang_opt (sem : α → Language UInt8) (t : Tree α) : lang sem (.rep false 0 1 t) = lang sem t + 1 := by
  ext w
  rw [mem_rep, Language.mem_add]
  constructor
  · rintro ⟨k, -, hk, hw⟩
    have : k = 0 ∨ k = 1 := by
      rcases hk with h | h
      · simp [UNB] at h
      · omega
    rcases this with rfl | rfl
    · right; simpa using hw
    · left; simpa using hw
  · rintro (h | h)
    · exact ⟨1, by omega, Or.inr (by omega), by simpa using h⟩
    · exact ⟨0, by omega, Or.inr (by omega), by simpa using h⟩

omit [DecidableEq α] in
theorem reduceEmpty_places (sem : α → Language UInt8) (x : α) (t : Tree α) (hok : Ok t) (hn : NoLook t)
    (ha : TrailOk sem t) : ∀ u, reduceEmpty x t = some u → SamePlaces (lang sem t) (lang sem u) := by
  induction t with
  | leaf a => intro u h; cases h; exact .refl _
  | look k t => exact hn.elim
  | rep ng m M t ih =>
    intro u h
    by_cases hz : onlyZero (.rep ng m M t) = some true
    · simp only [reduceEmpty, hz, Option.bind_eq_bind, Option.bind_some, if_true, Option.some.injEq] at h
      subst h
      rw [dead_lang]
      exact .one (onlyZero_nil sem _ hok hz)
    · have hzf := onlyZero_ne_true (t := .rep ng m M t) hn hz
      obtain ⟨t', e, -, -, -, -, l1⟩ := reduceEmpty_spec sem x t hok.2.2.2 hn
      simp only [reduceEmpty, hzf, e, Option.bind_eq_bind, Option.bind_some, Bool.false_eq_true, if_false,
        Option.some.injEq] at h
      subst h
      rw [lang_rep_congr sem (l1 ha).2]
      exact .refl _
  | alt l r ihl ihr =>
    intro u h
    by_cases hz : onlyZero (.alt l r) = some true
    · simp only [reduceEmpty, hz, Option.bind_eq_bind, Option.bind_some, if_true, Option.some.injEq] at h
      subst h
      rw [dead_lang]
      exact .one (onlyZero_nil sem _ hok hz)
    · have hzf := onlyZero_ne_true (t := .alt l r) hn hz
      obtain ⟨l', el, -, -, zl, -, -⟩ := reduceEmpty_spec sem x l hok.1 hn.1
      obtain ⟨r', er, -, -, zr, -, -⟩ := reduceEmpty_spec sem x r hok.2 hn.2
      have hl := ihl hok.1 hn.1 ha.1 l' el
      have hr := ihr hok.2 hn.2 ha.2 r' er
      simp only [reduceEmpty, hzf, el, er, Option.bind_eq_bind, Option.bind_some, Bool.false_eq_true, if_false] at h
      by_cases hzr : onlyZero r = some true
      · simp only [fixDead, zr, hzr, Option.bind_eq_bind, Option.bind_some, if_true, Option.some.injEq] at h
        subst h
        rw [lang_opt]
        exact hl.add (.one (onlyZero_nil sem _ hok.2 hzr))
      · have hzrf := onlyZero_ne_true hn.2 hzr
        simp only [fixDead, zr, hzrf, Option.bind_eq_bind, Option.bind_some, Bool.false_eq_true, if_false,
          Option.some.injEq] at h
        subst h
        exact hl.add hr
  | cat l r ihl ihr =>
    intro u h
    by_cases hz : onlyZero (.cat l r) = some true
    · simp only [reduceEmpty, hz, Option.bind_eq_bind, Option.bind_some, if_true, Option.some.injEq] at h
      subst h
      rw [dead_lang]
      exact .one (onlyZero_nil sem _ hok hz)
    · have hzf := onlyZero_ne_true (t := .cat l r) hn hz
      obtain ⟨l', el, -, -, zl, -, ll⟩ := reduceEmpty_spec sem x l hok.1 hn.1
      obtain ⟨r', er, -, -, zr, -, -⟩ := reduceEmpty_spec sem x r hok.2 hn.2
      have hr := ihr hok.2 hn.2 ha.1 r' er
      simp only [reduceEmpty, hzf, el, er, Option.bind_eq_bind, Option.bind_some, Bool.false_eq_true, if_false] at h
      by_cases hzl : onlyZero l = some true
      · simp only [fixDead, zl, hzl, Option.bind_eq_bind, Option.bind_some, if_true, Option.some.injEq] at h
        subst h
        show SamePlaces (lang sem l * lang sem r) _
        rcases ha.2 with a | ⟨a, -⟩
        · rw [onlyZero_lang sem l hok.1 a hzl, one_mul]; exact hr
        · have := (SamePlaces.one (onlyZero_nil sem l hok.1 hzl)).mul_nullable hr a
          rwa [one_mul] at this
      · have hzlf := onlyZero_ne_true hn.1 hzl
        by_cases hzr : onlyZero r = some true
        · simp only [fixDead, zl, hzlf, zr, hzr, Option.bind_eq_bind, Option.bind_some, Bool.false_eq_true, if_false,
            if_true, Option.some.injEq] at h
          subst h
          have htl : TrailOk sem l := ha.2.elim (·.trail sem) (·.2)
          have := (ihl hok.1 hn.1 htl l' el).mul_nullable (SamePlaces.one (onlyZero_nil sem r hok.2 hzr))
            (onlyZero_nil sem r hok.2 hzr)
          rwa [mul_one] at this
        · have hzrf := onlyZero_ne_true hn.2 hzr
          simp only [fixDead, zl, hzlf, zr, hzrf, Option.bind_eq_bind, Option.bind_some, Bool.false_eq_true, if_false,
            Option.some.injEq] at h
          subst h
          show SamePlaces (lang sem l * lang sem r) (lang sem l' * lang sem r')
          rcases ha.2 with a | ⟨a, b⟩
          · rw [(ll a).2]; exact hr.mul_right
          · exact (ihl hok.1 hn.1 b l' el).mul_nullable hr a

omit [DecidableEq α] in
theorem assoc_flat (t : Tree α) (h : NgFlat t) : NgFlat (assoc t).2 := by
  induction t with
  | leaf a => trivial
  | look k t ih => exact ih h
  | rep ng m M t ih => exact assoc_noNg t h
  | alt l r ihl ihr =>
    have a := ihl h.1
    have b := ihr h.2
    unfold assoc
    dsimp only
    split
    · next e f he => rw [he] at a; exact ⟨a.1, a.2, b⟩
    · exact ⟨a, b⟩
  | cat l r ihl ihr =>
    have a := ihl h.1
    have b := ihr h.2
    unfold assoc
    dsimp only
    split
    · next e f he => rw [he] at a; exact ⟨a.1, a.2, b⟩
    · exact ⟨a, b⟩

theorem combine_flat (t : Tree α) (hn : NgFlat t) : ∀ q, combine t = some q → NgFlat q.2 := by
  induction t with
  | leaf a => intro q h; simp only [combine, Option.some.injEq] at h; subst h; trivial
  | look k t => intro q h; simp [combine] at h
  | rep ng m M t ih =>
    intro q h
    simp only [combine, Option.bind_eq_bind, Option.bind_eq_some_iff, Option.some.injEq] at h
    obtain ⟨p, hp, rfl⟩ := h
    exact combine_noNg t hn p hp
  | alt l r ihl ihr =>
    intro q h
    simp only [combine, Option.bind_eq_bind, Option.bind_eq_some_iff, Option.some.injEq] at h
    obtain ⟨p, hp, u, hu, rfl⟩ := h
    exact ⟨ihl hn.1 p hp, ihr hn.2 u hu⟩
  | cat l r ihl ihr =>
    intro q h
    have h' := h
    simp only [combine, Option.bind_eq_bind, Option.bind_eq_some_iff] at h'
    obtain ⟨p, hp, u, hu, -⟩ := h'
    have a := ihl hn.1 p hp
    have b := ihr hn.2 u hu
    rcases combine_cat hp hu h with rfl | ⟨ng, m, M, t, e1, e2, rfl⟩ | ⟨ng, m, M, t, s, e1, e2, rfl⟩
    · exact ⟨a, b⟩
    · rw [e1] at a; exact a
    · rw [e1] at a; rw [e2] at b; exact ⟨a, b.2⟩

/-! ## `{0}` to the left of a bar -/

section
variable {α : Type}

/-- Some choice of branches leaves nothing but things repeated `{0}` times. -/
def Blank : Tree α → Prop
  | .leaf _ => False
  | .alt l r => Blank l ∨ Blank r
  | .cat l r => Blank l ∧ Blank r
  | .rep _ m M t => (m = 0 ∧ M = 0) ∨ Blank t
  | .look _ _ => False

/-- No branch of an alternation but its last consists of nothing but things repeated `{0}`
times.  (`{0}` is allowed anywhere else.) -/
def NoBlank : Tree α → Prop
  | .leaf _ => True
  | .alt l r => ¬ Blank l ∧ NoBlank l ∧ NoBlank r
  | .cat l r => NoBlank l ∧ NoBlank r
  | .rep _ _ _ t => NoBlank t
  | .look _ t => NoBlank t

theorem NoDead.not_blank {t : Tree α} (h : NoDead t) : ¬ Blank t := by
  induction t with
  | leaf a => exact id
  | alt l r ihl ihr => rintro (a | a); exacts [ihl h.1 a, ihr h.2 a]
  | cat l r ihl ihr => exact fun a => ihl h.1 a.1
  | rep ng m M t ih => rintro (a | a); exacts [h.1 a, ih h.2 a]
  | look k t ih => exact id

/-- Without any `{0}` there is none to the left of a bar. -/
theorem NoDead.noBlank {t : Tree α} (h : NoDead t) : NoBlank t := by
  induction t with
  | leaf a => trivial
  | alt l r ihl ihr => exact ⟨h.1.not_blank, ihl h.1, ihr h.2⟩
  | cat l r ihl ihr => exact ⟨ihl h.1, ihr h.2⟩
  | rep ng m M t ih => exact ih h.2
  | look k t ih => exact ih h

theorem onlyZero_blank (t : Tree α) (h : onlyZero t = some true) : Blank t := by
  induction t with
  | leaf a => simp [onlyZero] at h
  | alt l r ihl ihr => exact .inl (ihl h)
  | cat l r ihl ihr =>
    have h := onlyZero_cat_true.1 h
    exact ⟨ihl h.1, ihr h.2⟩
  | rep ng m M t ih => exact (onlyZero_rep_true.1 h).imp_right ih
  | look k t ih => simp [onlyZero] at h

theorem NoBlank.altOk {t : Tree α} (h : NoBlank t) : AltOk t := by
  induction t with
  | leaf a => trivial
  | alt l r ihl ihr => exact ⟨fun a => absurd (onlyZero_blank l a) h.1, ihl h.2.1, ihr h.2.2⟩
  | cat l r ihl ihr => exact ⟨ihl h.1, ihr h.2⟩
  | rep ng m M t ih => exact ih h
  | look k t ih => exact ih h

theorem assoc_blank (t : Tree α) : Blank (assoc t).2 ↔ Blank t := by
  induction t with
  | leaf a => rfl
  | look k t ih => rfl
  | rep ng m M t ih => simp only [assoc, Blank, ih]
  | alt l r ihl ihr =>
    unfold assoc
    dsimp only
    split
    · next e f he => rw [he] at ihl; simp only [Blank] at ihl ⊢; rw [← ihl, ← ihr, or_assoc]
    · simp only [Blank, ihl, ihr]
  | cat l r ihl ihr =>
    unfold assoc
    dsimp only
    split
    · next e f he => rw [he] at ihl; simp only [Blank] at ihl ⊢; rw [← ihl, ← ihr, and_assoc]
    · simp only [Blank, ihl, ihr]

theorem assoc_noBlank (t : Tree α) (h : NoBlank t) : NoBlank (assoc t).2 := by
  induction t with
  | leaf a => trivial
  | look k t ih => exact ih h
  | rep ng m M t ih => exact ih h
  | alt l r ihl ihr =>
    have a := ihl h.2.1
    have b := ihr h.2.2
    have c := mt (assoc_blank l).1 h.1
    unfold assoc
    dsimp only
    split
    · next e f he =>
      rw [he] at a c
      exact ⟨fun x => c (.inl x), a.2.1, fun x => c (.inr x), a.2.2, b⟩
    · exact ⟨c, a, b⟩
  | cat l r ihl ihr =>
    have a := ihl h.1
    have b := ihr h.2
    unfold assoc
    dsimp only
    split
    · next e f he => rw [he] at a; exact ⟨a.1, a.2, b⟩
    · exact ⟨a, b⟩

/-- `ax{0}(b|c|d{0})` has `{0}`, but not to the left of a bar. -/
example : NoBlank (.cat (.leaf 0) (.cat (.rep false 0 0 (.leaf 1)) (.alt (.leaf 2) (.alt (.leaf 3) (.rep false 0 0 (.leaf 4)))))) := by
  simp [NoBlank, Blank]

end

/-- **C18, C19** for every pattern without lookarounds, without a branch that is only `{0}` to
the left of a bar, without non-greedy
repetitions inside other repetitions and with not too large bounds: what all passes of the
rewriter make of the pattern matches at exactly the same places, and only what the pattern
matches. -/
theorem reduce_places_partial (sem : α → Language UInt8) (hs : LeafNonempty sem) (x : α) {t : Tree α} (hok : Ok t)
    (hn : NoLook t) (hf : NgFlat t) (hd : NoBlank t) (hw : 4 * weight t < UNB) :
    ∃ u, reduce x true true t = some u ∧ SamePlaces (lang sem t) (langRoot sem u) := by
  obtain ⟨c, hcc, hnc⟩ := combine_some _ (assoc_noLook t hn)
  have hw' : weight (assoc t).2 < UNB := by rw [assoc_weight]; omega
  obtain ⟨h1, h2, h3⟩ := combine_spec sem _ (assoc_ok t hok) hw' c hcc
  rw [assoc_lang] at h1
  rw [assoc_weight] at h3
  have hac := (combine_onlyZero _ (assoc_ok t hok) (assoc_noLook t hn) hw' c hcc).2
    (assoc_noBlank t hd).altOk
  have hfc := combine_flat _ (assoc_flat t hf) c hcc
  obtain ⟨e, he, e1, e2, e3, e4, e5⟩ := thenEmpty_places sem hs c.2 h2 hnc hfc
  have hte := thenEmpty_trail sem hs c.2 h2 hnc hfc hac e he
  obtain ⟨g1, g2, -, g5⟩ := thenGreedy_places sem e.2 e1 e2 e3 (by omega)
  have htg := thenGreedy_trail sem e.2 e1 e2 e3 (by omega) hte
  rw [h1] at e5
  have hp := e5.trans g5
  simp only [reduce, hcc, he, Option.bind_eq_bind, Option.bind_some, if_true, Bool.or_true]
  by_cases hz : onlyZero (thenGreedy e.2).2 = some true
  · exact ⟨none, by simp [reduceEmptyRoot, hz, uselessRoot], hp.trans (.one (onlyZero_nil sem _ g1 hz))⟩
  · have hzf := onlyZero_ne_true g2 hz
    obtain ⟨d, hdd, od, nd, -, -, -⟩ := reduceEmpty_spec sem x _ g1 g2
    obtain ⟨p1, p2, p3⟩ := prune_keeps d od nd
    obtain ⟨v, hv, -⟩ := useless_keeps _ p1 p2
    refine ⟨some v, by simp [reduceEmptyRoot, hzf, hdd, uselessRoot, hv], ?_⟩
    show SamePlaces _ (lang sem v)
    rw [useless_lang sem _ _ hv, prune_lang]
    exact hp.trans (reduceEmpty_places sem x _ g1 g2 htg d hdd)

/-! ## Nothing new is matched -/

omit [DecidableEq α] in
theorem Sub.mul {A B C D : Language UInt8} (h : ∀ w ∈ A, w ∈ B) (g : ∀ w ∈ C, w ∈ D) : ∀ w ∈ A * C, w ∈ B * D := by
  rintro w hw
  obtain ⟨x, hx, y, hy, rfl⟩ := Language.mem_mul.1 hw
  exact Language.append_mem_mul (h x hx) (g y hy)

omit [DecidableEq α] in
theorem Sub.add {A B C D : Language UInt8} (h : ∀ w ∈ A, w ∈ B) (g : ∀ w ∈ C, w ∈ D) : ∀ w ∈ A + C, w ∈ B + D :=
  fun w hw => (Language.mem_add _ _ _).2 (((Language.mem_add _ _ _).1 hw).imp (h w) (g w))

omit [DecidableEq α] in
theorem Sub.pow {A B : Language UInt8} (h : ∀ w ∈ A, w ∈ B) : ∀ k, ∀ w ∈ A ^ k, w ∈ B ^ k
  | 0 => by simp
  | k + 1 => by rw [pow_succ, pow_succ]; exact Sub.mul (Sub.pow h k) h

omit [DecidableEq α] in
theorem Sub.rep (sem : α → Language UInt8) {t t' : Tree α} (h : ∀ w ∈ lang sem t', w ∈ lang sem t) (ng ng' : Bool)
    (m M : Nat) : ∀ w ∈ lang sem (.rep ng m M t'), w ∈ lang sem (.rep ng' m M t) := by
  rintro w ⟨k, h1, h2, h3⟩
  exact ⟨k, h1, h2, Sub.pow h k w h3⟩

omit [DecidableEq α] in
theorem thenEmpty_sub (sem : α → Language UInt8) (t : Tree α) (hok : Ok t) (hn : NoLook t) :
    ∀ q, thenEmpty t = some q → ∀ w ∈ lang sem q.2, w ∈ lang sem t := by
  induction t with
  | leaf a => intro q hq; cases hq; exact fun _ h => h
  | look k t => exact hn.elim
  | rep ng m M t ih =>
    intro q hq
    cases ng with
    | false =>
      simp only [thenEmpty, Option.bind_eq_bind, Option.bind_eq_some_iff, Option.some.injEq] at hq
      obtain ⟨p, hp, rfl⟩ := hq
      exact Sub.rep sem (ih hok.2.2.2 hn p hp) _ _ _ _
    | true =>
      simp only [thenEmpty, Option.bind_eq_bind, Option.bind_eq_some_iff, Option.some.injEq] at hq
      obtain ⟨p, hp, rfl⟩ := hq
      intro w hw
      exact (cut_rep sem true false m M t hok.1 hok.2.2.1).1 w (Sub.rep sem (ih hok.2.2.2 hn p hp) _ _ _ _ w hw)
  | alt l r ihl ihr =>
    intro q hq
    simp only [thenEmpty, Option.bind_eq_bind, Option.bind_eq_some_iff, Option.some.injEq] at hq
    obtain ⟨p, hp, u, hu, rfl⟩ := hq
    exact Sub.add (ihl hok.1 hn.1 p hp) (ihr hok.2 hn.2 u hu)
  | cat l r ihl ihr =>
    intro q hq
    unfold thenEmpty at hq
    simp only [Option.bind_eq_bind, Option.bind_eq_some_iff, Option.some.injEq] at hq
    obtain ⟨p, ⟨z, hz, hp⟩, u, hu, rfl⟩ := hq
    refine Sub.mul ?_ (ihr hok.2 hn.2 u hu)
    split at hp
    · split at hp
      · cases hp; exact (cut_rep sem true false _ _ _ hok.1.1 hok.1.2.2.1).1
      · exact ihl hok.1 hn.1 p hp
    · cases hp; exact fun _ h => h

theorem thenGreedy_sub (sem : α → Language UInt8) (t : Tree α) (hok : Ok t) (hn : NoLook t) (hw : 2 * weight t < UNB) :
    (∀ w ∈ lang sem (thenGreedy t).2, w ∈ lang sem t) ∧
      ∀ ng a b s, t = .rep ng a b s → ∀ w ∈ lang sem (thenGreedy s).2, w ∈ lang sem s := by
  induction t with
  | leaf a => exact ⟨fun _ h => h, by simp⟩
  | look k t => exact hn.elim
  | rep ng m M t ih =>
    simp only [weight] at hw
    have i := (ih hok.2.2.2 hn (by omega)).1
    refine ⟨Sub.rep sem i _ _ _ _, ?_⟩
    rintro _ _ _ _ ⟨⟩; exact i
  | alt l r ihl ihr =>
    simp only [weight] at hw
    exact ⟨Sub.add (ihl hok.1 hn.1 (by omega)).1 (ihr hok.2 hn.2 (by omega)).1, by simp⟩
  | cat l r ihl ihr =>
    simp only [weight] at hw
    have hr := (ihr hok.2 hn.2 (by omega)).1
    refine ⟨?_, by simp⟩
    by_cases hl : ∃ a b s, l = .rep true a b s
    · obtain ⟨a, b, s, rfl⟩ := hl
      have hs := (ihl hok.1 hn.1 (by omega)).2 _ _ _ _ rfl
      obtain ⟨q1, q2, q4⟩ := thenGreedy_keeps r hok.2 hn.2 (by omega)
      simp only [weight] at hw
      have hsp := weight_pos s
      have hrp := weight_pos r
      rcases thenGreedy_cat a b s r with h | ⟨c, d, h1, h⟩ | ⟨h1, h⟩
      · rw [h]; exact Sub.mul (fun _ h => h) hr
      · rw [h]
        rw [h1] at q1 q2 q4 hr
        simp only [weight] at q4
        have hac : a + c < UNB := by omega
        have had : d ≠ UNB → a + d < UNB := by intro hd; rw [if_neg hd] at q4; omega
        intro w hw
        exact Sub.mul (fun _ h => h) hr w ((ng_merge sem true false a b c d s hok.1.1 hac had).1 w (Sub.rep sem hs _ _ _ _ w hw))
      · rw [h]
        rw [h1] at hr
        intro w hw
        have := (ng_merge sem true false a b 1 1 s hok.1.1 (by omega) (by omega)).1 w
        rw [if_neg (by decide), lang_once] at this
        exact Sub.mul (fun _ h => h) hr w (this (Sub.rep sem hs _ _ _ _ w hw))
    · rw [thenGreedy_cat' l r (fun a b s e => hl ⟨a, b, s, e⟩)]
      exact Sub.mul (fun _ h => h) hr

omit [DecidableEq α] in
theorem reduceEmpty_sub (sem : α → Language UInt8) (x : α) (t : Tree α) (hok : Ok t) (hn : NoLook t) :
    ∀ u, reduceEmpty x t = some u → ∀ w ∈ lang sem u, w ∈ lang sem t := by
  have one : ∀ {t : Tree α}, Ok t → onlyZero t = some true → ∀ w ∈ (1 : Language UInt8), w ∈ lang sem t :=
    fun hok hz => (SamePlaces.one (onlyZero_nil sem _ hok hz)).1
  induction t with
  | leaf a => intro u h; cases h; exact fun _ h => h
  | look k t => exact hn.elim
  | rep ng m M t ih =>
    intro u h
    by_cases hz : onlyZero (.rep ng m M t) = some true
    · simp only [reduceEmpty, hz, Option.bind_eq_bind, Option.bind_some, if_true, Option.some.injEq] at h
      subst h
      rw [dead_lang]
      exact one hok hz
    · have hzf := onlyZero_ne_true (t := .rep ng m M t) hn hz
      obtain ⟨t', e, -⟩ := reduceEmpty_spec sem x t hok.2.2.2 hn
      simp only [reduceEmpty, hzf, e, Option.bind_eq_bind, Option.bind_some, Bool.false_eq_true, if_false,
        Option.some.injEq] at h
      subst h
      exact Sub.rep sem (ih hok.2.2.2 hn t' e) _ _ _ _
  | alt l r ihl ihr =>
    intro u h
    by_cases hz : onlyZero (.alt l r) = some true
    · simp only [reduceEmpty, hz, Option.bind_eq_bind, Option.bind_some, if_true, Option.some.injEq] at h
      subst h
      rw [dead_lang]
      exact one hok hz
    · have hzf := onlyZero_ne_true (t := .alt l r) hn hz
      obtain ⟨l', el, -, -, zl, -, -⟩ := reduceEmpty_spec sem x l hok.1 hn.1
      obtain ⟨r', er, -, -, zr, -, -⟩ := reduceEmpty_spec sem x r hok.2 hn.2
      have hl := ihl hok.1 hn.1 l' el
      have hr := ihr hok.2 hn.2 r' er
      simp only [reduceEmpty, hzf, el, er, Option.bind_eq_bind, Option.bind_some, Bool.false_eq_true, if_false] at h
      by_cases hzr : onlyZero r = some true
      · simp only [fixDead, zr, hzr, Option.bind_eq_bind, Option.bind_some, if_true, Option.some.injEq] at h
        subst h
        rw [lang_opt]
        exact Sub.add hl (one hok.2 hzr)
      · have hzrf := onlyZero_ne_true hn.2 hzr
        simp only [fixDead, zr, hzrf, Option.bind_eq_bind, Option.bind_some, Bool.false_eq_true, if_false,
          Option.some.injEq] at h
        subst h
        exact Sub.add hl hr
  | cat l r ihl ihr =>
    intro u h
    by_cases hz : onlyZero (.cat l r) = some true
    · simp only [reduceEmpty, hz, Option.bind_eq_bind, Option.bind_some, if_true, Option.some.injEq] at h
      subst h
      rw [dead_lang]
      exact one hok hz
    · have hzf := onlyZero_ne_true (t := .cat l r) hn hz
      obtain ⟨l', el, -, -, zl, -, ll⟩ := reduceEmpty_spec sem x l hok.1 hn.1
      obtain ⟨r', er, -, -, zr, -, -⟩ := reduceEmpty_spec sem x r hok.2 hn.2
      have hl := ihl hok.1 hn.1 l' el
      have hr := ihr hok.2 hn.2 r' er
      simp only [reduceEmpty, hzf, el, er, Option.bind_eq_bind, Option.bind_some, Bool.false_eq_true, if_false] at h
      by_cases hzl : onlyZero l = some true
      · simp only [fixDead, zl, hzl, Option.bind_eq_bind, Option.bind_some, if_true, Option.some.injEq] at h
        subst h
        have := Sub.mul (one hok.1 hzl) hr
        rwa [one_mul] at this
      · have hzlf := onlyZero_ne_true hn.1 hzl
        by_cases hzr : onlyZero r = some true
        · simp only [fixDead, zl, hzlf, zr, hzr, Option.bind_eq_bind, Option.bind_some, Bool.false_eq_true, if_false,
            if_true, Option.some.injEq] at h
          subst h
          have := Sub.mul hl (one hok.2 hzr)
          rwa [mul_one] at this
        · have hzrf := onlyZero_ne_true hn.2 hzr
          simp only [fixDead, zl, hzlf, zr, hzrf, Option.bind_eq_bind, Option.bind_some, Bool.false_eq_true, if_false,
            Option.some.injEq] at h
          subst h
          exact Sub.mul hl hr

/-- **C18, C19**, one direction, for every pattern with not too large bounds: what all passes
of the rewriter make of it matches nothing that the pattern does not match. -/
theorem reduce_sub (sem : α → Language UInt8) (x : α) {t : Tree α} (hok : Ok t) (hw : 4 * weight t < UNB)
    {u : Option (Tree α)} (h : reduce x true true t = some u) : ∀ w ∈ langRoot sem u, w ∈ lang sem t := by
  cases hcc : combine (assoc t).2 with
  | none => simp [reduce, hcc] at h
  | some c =>
    obtain ⟨-, hnc⟩ := combine_noLook _ c hcc
    have hw' : weight (assoc t).2 < UNB := by rw [assoc_weight]; omega
    obtain ⟨h1, h2, h3⟩ := combine_spec sem _ (assoc_ok t hok) hw' c hcc
    rw [assoc_lang] at h1
    rw [assoc_weight] at h3
    obtain ⟨e, he, e1, e2, e3⟩ := thenEmpty_keeps c.2 h2 hnc
    obtain ⟨g1, g2, -⟩ := thenGreedy_keeps e.2 e1 e2 (by omega)
    have sub : ∀ w ∈ lang sem (thenGreedy e.2).2, w ∈ lang sem t := by
      rw [← h1]
      exact fun w hw => thenEmpty_sub sem c.2 h2 hnc e he w ((thenGreedy_sub sem e.2 e1 e2 (by omega)).1 w hw)
    simp only [reduce, hcc, he, Option.bind_eq_bind, Option.bind_some, if_true, Bool.or_true] at h
    by_cases hz : onlyZero (thenGreedy e.2).2 = some true
    · simp [reduceEmptyRoot, hz, uselessRoot] at h
      subst h
      intro w hw
      exact sub w ((SamePlaces.one (onlyZero_nil sem _ g1 hz)).1 w hw)
    · have hzf := onlyZero_ne_true g2 hz
      obtain ⟨d, hd, od, nd, -, dd, -⟩ := reduceEmpty_spec sem x _ g1 g2
      obtain ⟨p1, p2, p3⟩ := prune_keeps d od nd
      obtain ⟨v, hv, k1, k2, k3⟩ := useless_keeps _ p1 p2
      simp [reduceEmptyRoot, hzf, hd, uselessRoot, hv] at h
      subst h
      show ∀ w ∈ lang sem v, _
      rw [useless_lang sem _ _ hv, prune_lang]
      exact fun w hw => sub w (reduceEmpty_sub sem x _ g1 g2 d hd w hw)

-- `x(?:a??|b)`: it becomes `x`, which matches at the same places.
example : reduce (α := UInt8) 120 true true (.cat (.leaf 120) (.alt (.rep true 0 1 (.leaf 97)) (.leaf 98))) =
    some (some (.leaf 120)) := by
  simp [reduce, assoc, combine, thenEmpty, thenGreedy, reduceEmptyRoot, reduceEmpty, onlyZero, hasZero, fixDead,
    uselessRoot, prune, useless]

end Verif.Regex
