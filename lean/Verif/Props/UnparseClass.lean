import Verif.Props.UnparseLex
/-!
# What is written for a class (for C108)
-/
namespace Verif.Unparse

/-! ## Pieces -/

/-- A character, or two with a `-` between them; `e` says that the first has a backslash. -/
inductive Piece where
  | one (e : Bool) (c : Nat)
  | span (e : Bool) (a b : Nat)

namespace Piece

def lo : Piece → Nat
  | one _ c => c
  | span _ a _ => a

def hi : Piece → Nat
  | one _ c => c
  | span _ _ b => b

def text : Piece → List Nat
  | one e c => (if e then [92] else []) ++ escaped true c
  | span e a b => (if e then [92] else []) ++ escaped true a ++ [45] ++ (if b = 93 then [92] else []) ++ escaped true b

end Piece

/-- The character may stand there. -/
def CharOk (first e : Bool) (c : Nat) : Prop :=
  c < 256 ∧ c ≠ 91 ∧ c ≠ 45 ∧ (e = true → c = 93 ∨ c = 94) ∧ (if first then c = 94 → e = true else c = 93 → e = true)

def PieceOk (first : Bool) : Piece → Prop
  | .one e c => CharOk first e c
  | .span e a b => CharOk first e a ∧ a < b ∧ b < 256 ∧ b ≠ 91 ∧ b ≠ 45

theorem PieceOk.le {first : Bool} {q : Piece} (h : PieceOk first q) : q.lo ≤ q.hi ∧ q.hi < 256 := by
  cases q with
  | one e c => exact ⟨Nat.le_refl _, h.1⟩
  | span e a b => exact ⟨Nat.le_of_lt h.2.1, h.2.2.1⟩

/-- The first piece may stand first, unless a `^` stands there, and the others may stand elsewhere. -/
def Fit (inv : Bool) : List Piece → Prop
  | [] => True
  | q :: ps => PieceOk (!inv) q ∧ ∀ r ∈ ps, PieceOk false r

theorem Fit.append {inv : Bool} {ps qs : List Piece} (h : Fit inv ps) (hq : ps ≠ [] → ∀ r ∈ qs, PieceOk false r)
    (hq' : ps = [] → Fit inv qs) : Fit inv (ps ++ qs) := by
  cases ps with
  | nil => exact hq' rfl
  | cons p ps =>
    refine ⟨h.1, fun r hr => ?_⟩
    rcases List.mem_append.1 hr with hr | hr
    · exact h.2 r hr
    · exact hq (by simp) r hr

/-- The characters of the pieces. -/
def Covers (ps : List Piece) (x : Nat) : Prop := ∃ q ∈ ps, q.lo ≤ x ∧ x ≤ q.hi

theorem covers_append {ps qs : List Piece} {x : Nat} : Covers (ps ++ qs) x ↔ Covers ps x ∨ Covers qs x := by
  simp only [Covers, List.mem_append]
  constructor
  · rintro ⟨q, hq | hq, h⟩
    · exact .inl ⟨q, hq, h⟩
    · exact .inr ⟨q, hq, h⟩
  · rintro (⟨q, hq, h⟩ | ⟨q, hq, h⟩)
    · exact ⟨q, .inl hq, h⟩
    · exact ⟨q, .inr hq, h⟩

theorem escaped_ne (k : Bool) (c : Nat) : escaped k c ≠ [] := by
  unfold escaped
  repeat' split
  all_goals simp

theorem piece_ne (q : Piece) : q.text ≠ [] := by
  cases q <;> simp [Piece.text, escaped_ne]

abbrev texts (ps : List Piece) : List Nat := ps.flatMap Piece.text

theorem escaped_bracket : escaped true 93 = [93] := by decide

/-! ## A range -/

theorem enumerate_plain : ∀ (n j : Nat) (first : Bool) (out : List Nat), (first = true → ¬ (j ≤ 93 ∧ 93 < j + n)) →
    enumerate n j first out = out ++ texts ((List.range' j n).map fun x => .one (decide (x = 93)) x)
  | 0, j, first, out, _ => by simp [enumerate, texts]
  | n + 1, j, first, out, h => by
    rw [enumerate]
    by_cases hj : j = 93
    · subst hj
      have hf : first = false := by
        cases first with
        | false => rfl
        | true => exact absurd ⟨by omega, by omega⟩ (h rfl)
      subst hf
      rw [if_pos rfl, enumerate_plain n _ _ _ (fun h => by cases h)]
      simp [texts, Piece.text, List.range'_succ]
    · rw [if_neg hj, enumerate_plain n _ _ _ (fun hf hh => h hf ⟨by omega, by omega⟩)]
      simp [texts, Piece.text, List.range'_succ, hj]

/-- Writing a range writes pieces that make it up. -/
theorem writeRange_pieces {inv : Bool} {ps : List Piece} {a b : Nat} {first : Bool} (out : List Nat) (hf : Fit inv ps)
    (hab : a ≤ b) (hb : b < 256) (ha45 : a ≠ 45) (hb45 : b ≠ 45)
    (h91 : a ≤ 91 → 91 ≤ b → a < 91 ∧ 91 < b ∧ a + 3 ≤ b)
    (h93 : first = true → a ≤ 93 → 93 ≤ b → (a < 93 ∧ a + 3 ≤ b) ∨ (a = 93 ∧ inv = false ∧ ps = []))
    (h94 : ps = [] → inv = false → a ≠ 94) :
    ∃ qs, writeRange a b first out = out ++ texts qs ∧ qs ≠ [] ∧ (∀ x, Covers qs x ↔ a ≤ x ∧ x ≤ b) ∧ Fit inv (ps ++ qs) := by
  unfold writeRange
  by_cases hs : b - a + 1 < 4
  · rw [if_pos hs]
    by_cases hm : a = 44 ∧ b = 46
    · obtain ⟨rfl, rfl⟩ := hm
      refine ⟨[.span false 44 46], ?_, by simp, fun x => by simp [Covers, Piece.lo, Piece.hi], ?_⟩
      · have e1 : escaped true 44 = [44] := by decide
        have e2 : escaped true 45 = [45] := by decide
        have e3 : escaped true 46 = [46] := by decide
        simp [enumerate, texts, Piece.text, e1, e2, e3]
      · refine hf.append (fun _ r hr => ?_) fun _ => ⟨?_, by simp⟩
        · rw [List.mem_singleton.1 hr]
          exact ⟨⟨by omega, by omega, by omega, by simp, by simp⟩, by omega, by omega, by omega, by omega⟩
        · exact ⟨⟨by omega, by omega, by omega, by simp, by split <;> simp⟩, by omega, by omega, by omega, by omega⟩
    by_cases h9 : first = true ∧ a = 93
    · obtain ⟨rfl, rfl⟩ := h9
      have hi : inv = false ∧ ps = [] := by
        rcases h93 rfl (by omega) (by omega) with h | h
        · omega
        · exact h.2
      refine ⟨.one false 93 :: (List.range' 94 (b - 93)).map fun x => .one (decide (x = 93)) x, ?_, by simp, fun x => ?_, ?_⟩
      · rw [enumerate, if_pos rfl, if_pos rfl, enumerate_plain _ _ _ _ (fun h => by cases h)]
        simp [texts, Piece.text]
      · simp only [Covers, List.mem_cons, List.mem_map, List.mem_range'_1]
        constructor
        · rintro ⟨q, rfl | ⟨y, hy, rfl⟩, h1, h2⟩ <;> simp only [Piece.lo, Piece.hi] at h1 h2 <;> omega
        · intro hx
          by_cases hx9 : x = 93
          · exact ⟨_, .inl rfl, by simp [Piece.lo, hx9], by simp [Piece.hi, hx9]⟩
          · exact ⟨_, .inr ⟨x, by omega, rfl⟩, Nat.le_refl _, Nat.le_refl _⟩
      · rw [hi.1, hi.2]
        refine ⟨⟨by omega, by omega, by omega, by simp, by simp⟩, fun r hr => ?_⟩
        obtain ⟨y, hy, rfl⟩ := List.mem_map.1 hr
        rw [List.mem_range'_1] at hy
        exact ⟨by omega, by omega, by omega, by simp; omega, by simp⟩
    · have h93' : first = true → ¬ (a ≤ 93 ∧ 93 < a + (b - a + 1)) := by
        intro h1 h2
        rcases h93 h1 h2.1 (by omega) with h | h
        · omega
        · exact h9 ⟨h1, h.1⟩
      rw [enumerate_plain _ _ _ _ h93']
      have hone : ∀ x, a ≤ x → x ≤ b → x ≠ 45 ∧ x ≠ 91 := by
        intro x h1 h2
        refine ⟨?_, ?_⟩
        · rintro rfl
          omega
        · rintro rfl
          have := h91 h1 h2
          omega
      refine ⟨_, rfl, by simp, fun x => ?_, hf.append (fun _ r hr => ?_) fun hp => ?_⟩
      · simp only [Covers, List.mem_map, List.mem_range'_1]
        constructor
        · rintro ⟨q, ⟨y, hy, rfl⟩, h1, h2⟩
          simp only [Piece.lo, Piece.hi] at h1 h2
          omega
        · intro hx
          exact ⟨_, ⟨x, by omega, rfl⟩, Nat.le_refl _, Nat.le_refl _⟩
      · obtain ⟨y, hy, rfl⟩ := List.mem_map.1 hr
        rw [List.mem_range'_1] at hy
        have := hone y hy.1 (by omega)
        exact ⟨by omega, this.2, this.1, by simp; omega, by simp⟩
      · rw [List.range'_succ, List.map_cons]
        have := hone a (Nat.le_refl _) hab
        refine ⟨⟨by omega, this.2, this.1, by simp; omega, ?_⟩, fun r hr => ?_⟩
        · cases inv with
          | false =>
            have := h94 hp rfl
            simp only [Bool.not_false, if_true]
            intro e
            exact absurd e this
          | true => simp
        · obtain ⟨y, hy, rfl⟩ := List.mem_map.1 hr
          rw [List.mem_range'_1] at hy
          have := hone y (by omega) (by omega)
          exact ⟨by omega, this.2, this.1, by simp; omega, by simp⟩
  · rw [if_neg hs]
    refine ⟨[.span (decide (a = 93 ∧ first = false)) a b], ?_, by simp, fun x => by simp [Covers, Piece.lo, Piece.hi], ?_⟩
    · by_cases hc : a = 93 ∧ first = false <;> simp [hc, texts, Piece.text]
    · have h91a : a ≠ 91 := by
        rintro rfl
        have := h91 (by omega) (by omega)
        omega
      have h91b : b ≠ 91 := by
        rintro rfl
        have := h91 (by omega) (by omega)
        omega
      refine hf.append (fun hp r hr => ?_) fun hp => ⟨?_, by simp⟩
      · rw [List.mem_singleton.1 hr]
        refine ⟨⟨by omega, h91a, ha45, by simp; omega, ?_⟩, by omega, hb, h91b, hb45⟩
        simp only [Bool.false_eq_true, if_false, decide_eq_true_eq]
        rintro rfl
        refine ⟨rfl, ?_⟩
        cases hfi : first with
        | false => rfl
        | true =>
          rcases h93 hfi (by omega) (by omega) with h | h
          · omega
          · exact absurd h.2.2 hp
      · refine ⟨⟨by omega, h91a, ha45, by simp; omega, ?_⟩, by omega, hb, h91b, hb45⟩
        cases hinv : inv with
        | false =>
          have := h94 hp hinv
          simp only [Bool.not_false, if_true]
          intro e
          exact absurd e this
        | true =>
          simp only [Bool.not_true, Bool.false_eq_true, if_false, decide_eq_true_eq]
          rintro rfl
          refine ⟨rfl, ?_⟩
          cases hfi : first with
          | false => rfl
          | true =>
            rcases h93 hfi (by omega) (by omega) with h | h
            · omega
            · rw [hinv] at h
              exact absurd h.2.1 (by simp)

/-! ## The loop -/

/-- The characters to be written can be written: a `[` only inside a range that is written with a `-`; and a `]` only
inside or at the end of such a range, or after another range, or as the very first character. -/
structure Legible (inv : Bool) (T : Nat → Bool) : Prop where
  opening : T 91 = true → T 90 = true ∧ T 92 = true ∧ (T 89 = true ∨ T 93 = true)
  closing : T 93 = true → (T 92 = true ∧ T 94 = true ∧ (T 91 = true ∨ T 95 = true)) ∨
    (T 90 = true ∧ T 91 = true ∧ T 92 = true) ∨ (∃ c < 92, T c = true ∧ T (c + 1) = false) ∨
    (inv = false ∧ ∀ c < 93, T c = false)

/-- Where the next range begins, or the next character. -/
def cut (s : St) (i : Nat) : Nat := if s.left ≤ 255 then s.left else i

structure Inv (inv : Bool) (T : Nat → Bool) (pre : List Nat) (s : St) (i : Nat) (ps : List Piece) : Prop where
  out : s.out = pre ++ texts ps
  fit : Fit inv ps
  covers : ∀ x, Covers ps x ↔ T x = true ∧ x < cut s i ∧ ¬ (x = 45 ∧ s.hyphen = true) ∧ ¬ (x = 94 ∧ s.caret = true)
  hyphen : s.hyphen = true → T 45 = true ∧ 45 < cut s i ∧ s.first = false
  caret : s.caret = true → T 94 = true ∧ 94 < cut s i ∧ s.first = false
  first : s.first = true → ps = [] ∧ ∀ x < cut s i, T x = false
  later : s.first = false → ps ≠ [] ∨ s.hyphen = true ∨ s.caret = true
  run : s.left ≤ 255 → s.left < i ∧ (∀ x, s.left ≤ x → x < i → T x = true) ∧ (s.left = 0 ∨ T (s.left - 1) = false)
  gap : 255 < s.left → i = 0 ∨ T (i - 1) = false

theorem inv_complete {inv : Bool} {T : Nat → Bool} (hT : ∀ x, 256 ≤ x → T x = false) (hl : Legible inv T) {pre : List Nat} {s : St} {i : Nat}
    {ps : List Piece} (h : Inv inv T pre s i ps) (hi : T i = false) (hs : s.left ≤ 255) :
    ∃ qs, Inv inv T pre (complete s (i - 1)) (i + 1) qs := by
  have hcut : cut s i = s.left := by rw [cut, if_pos hs]
  obtain ⟨hlt, hrun, hstart⟩ := h.run hs
  have hTl : T s.left = true := hrun _ (Nat.le_refl _) hlt
  have hTr : T (i - 1) = true := hrun _ (by omega) (by omega)
  have hi256 : i ≤ 256 := by
    by_cases hx : i ≤ 256
    · exact hx
    · rw [hT (i - 1) (by omega)] at hTr
      cases hTr
  -- facts on the run
  have hbefore : ∀ x, T x = true → x + 1 = s.left → False := by
    intro x hx he
    rcases hstart with h0 | h0
    · omega
    · rw [← he] at h0
      simp only [Nat.add_sub_cancel] at h0
      rw [hx] at h0
      cases h0
  have hafter : ∀ x, T x = true → x = i → False := by
    rintro x hx rfl
    rw [hx] at hi
    cases hi
  have h91 : s.left ≤ 91 → 91 < i → s.left < 91 ∧ 92 < i ∧ s.left + 3 < i := by
    intro h1 h2
    obtain ⟨a, b, c⟩ := hl.opening (hrun 91 h1 h2)
    have e1 : s.left < 91 := by
      by_cases e : s.left = 91
      · exact (hbefore 90 a (by omega)).elim
      · omega
    have e2 : 92 < i := by
      by_cases e : i = 92
      · exact (hafter 92 b e.symm).elim
      · omega
    refine ⟨e1, e2, ?_⟩
    rcases c with c | c
    · by_cases e : s.left = 90
      · exact (hbefore 89 c (by omega)).elim
      · omega
    · by_cases e : i = 93
      · exact (hafter 93 c e.symm).elim
      · omega
  have h93 : s.first = true → s.left ≤ 93 → 93 < i → (s.left < 93 ∧ s.left + 3 < i ∧ (s.left = 45 → s.left + 4 < i)) ∨
      (s.left = 93 ∧ inv = false ∧ ps = []) := by
    intro hf h1 h2
    have hno := (h.first hf).2
    rw [hcut] at hno
    rcases hl.closing (hrun 93 h1 h2) with ⟨a, b, c⟩ | ⟨a, b, c⟩ | ⟨c, hc, a, b⟩ | ⟨a, b⟩
    · have e1 : s.left < 93 := by
        by_cases e : s.left = 93
        · exact (hbefore 92 a (by omega)).elim
        · omega
      have e2 : 94 < i := by
        by_cases e : i = 94
        · exact (hafter 94 b e.symm).elim
        · omega
      left
      refine ⟨e1, ?_, by omega⟩
      rcases c with c | c
      · by_cases e : s.left = 92
        · exact (hbefore 91 c (by omega)).elim
        · omega
      · by_cases e : i = 95
        · exact (hafter 95 c e.symm).elim
        · omega
    · left
      have e1 : s.left ≤ 92 := by
        by_cases e : s.left = 93
        · exact (hbefore 92 c (by omega)).elim
        · omega
      have e2 : s.left ≤ 91 := by
        by_cases e : s.left = 92
        · exact (hbefore 91 b (by omega)).elim
        · omega
      have e3 : s.left ≤ 90 := by
        by_cases e : s.left = 91
        · exact (hbefore 90 a (by omega)).elim
        · omega
      omega
    · exfalso
      by_cases e : c < s.left
      · rw [hno c e] at a
        cases a
      · rw [hrun (c + 1) (by omega) (by omega)] at b
        cases b
    · right
      have e : s.left = 93 := by
        by_cases e : s.left < 93
        · rw [b _ e] at hTl
          cases hTl
        · omega
      exact ⟨e, a, (h.first hf).1⟩
  have hps94 : ps = [] → inv = false → s.first = false → s.hyphen = false → s.left ≠ 94 := by
    intro h1 _ h2 h3 h4
    rcases h.later h2 with h5 | h5 | h5
    · exact h5 h1
    · rw [h3] at h5
      cases h5
    · have := (h.caret h5).2.1
      omega
  have fin : ∀ (hy ca : Bool) (qs : List Piece), (hy = true → T 45 = true ∧ 45 < i) → (s.hyphen = true → hy = true) →
      (hy = true → s.hyphen = true ∨ s.left ≤ 45) → (ca = true → T 94 = true ∧ 94 < i) → (s.caret = true → ca = true) →
      (ca = true → s.caret = true ∨ s.left ≤ 94) → Fit inv (ps ++ qs) →
      (∀ x, Covers qs x ↔ s.left ≤ x ∧ x < i ∧ ¬ (x = 45 ∧ hy = true) ∧ ¬ (x = 94 ∧ ca = true)) →
      (qs ≠ [] ∨ hy = true ∨ ca = true) →
      Inv inv T pre ⟨256, false, ca, hy, s.out ++ texts qs⟩ (i + 1) (ps ++ qs) := by
    intro hy ca qs h1 h2 h3 h4 h5 h6 hf hc hne
    have hcut' : cut ⟨256, false, ca, hy, s.out ++ texts qs⟩ (i + 1) = i + 1 := by simp [cut]
    refine ⟨?_, hf, fun x => ?_, fun e => ?_, fun e => ?_, fun e => (by cases e), fun _ => ?_, fun e => absurd e (by simp), fun _ => .inr ?_⟩
    · show s.out ++ texts qs = _
      rw [h.out]
      simp [texts]
    · rw [covers_append, h.covers x, hc x, hcut', hcut]
      dsimp only
      by_cases hx : x < s.left
      · constructor
        · rintro (⟨a, b, c, d⟩ | ⟨a, b, c⟩)
          · refine ⟨a, by omega, ?_, ?_⟩
            · rintro ⟨rfl, e⟩
              rcases h3 e with e | e
              · exact c ⟨rfl, e⟩
              · omega
            · rintro ⟨rfl, e⟩
              rcases h6 e with e | e
              · exact d ⟨rfl, e⟩
              · omega
          · omega
        · rintro ⟨a, b, c, d⟩
          exact .inl ⟨a, hx, fun e => c ⟨e.1, h2 e.2⟩, fun e => d ⟨e.1, h5 e.2⟩⟩
      · constructor
        · rintro (⟨a, b, -⟩ | ⟨a, b, c⟩)
          · omega
          · exact ⟨hrun x a b, by omega, c⟩
        · rintro ⟨a, b, c⟩
          refine .inr ⟨by omega, ?_, c⟩
          by_cases e : x = i
          · rw [e, hi] at a
            cases a
          · omega
    · rw [hcut']
      have := h1 e
      exact ⟨this.1, by omega, rfl⟩
    · rw [hcut']
      have := h4 e
      exact ⟨this.1, by omega, rfl⟩
    · rcases hne with e | e | e
      · exact .inl (by simp [e])
      · exact .inr (.inl e)
      · exact .inr (.inr e)
    · simpa using hi
  -- writing what is left of the run
  have key : ∀ (a b : Nat) (hy : Bool), a ≤ b → a ≠ 45 → b ≠ 45 →
      (∀ x, (a ≤ x ∧ x ≤ b) ↔ (s.left ≤ x ∧ x < i ∧ ¬ (x = 45 ∧ hy = true))) →
      (hy = true → T 45 = true ∧ 45 < i) → (s.hyphen = true → hy = true) → (hy = true → s.hyphen = true ∨ s.left ≤ 45) →
      (a = s.left ∨ a = 46 ∧ s.left = 45) → (b + 1 = i ∨ b = 44 ∧ i = 46) →
      ∃ qs, Inv inv T pre (completeCaret s a b hy) (i + 1) qs := by
    intro a b hy hab ha hb hx h1 h2 h3 haL hbi
    have hca : s.caret = true → 94 < s.left := fun e => by have := (h.caret e).2.1; omega
    unfold completeCaret
    by_cases hc : (s.first || hy) = true ∧ a = 94
    · rw [if_pos hc]
      obtain ⟨hc, rfl⟩ := hc
      have hL : s.left = 94 := by omega
      have h94 : T 94 = true ∧ 94 < i := ⟨hL ▸ hTl, by omega⟩
      by_cases hab' : 94 = b
      · rw [if_pos hab']
        refine ⟨ps ++ [], ?_⟩
        have := fin hy true [] h1 h2 h3 (fun _ => h94) (fun _ => rfl) (fun _ => .inr (by omega)) (by simpa using h.fit)
          (fun x => ?_) (.inr (.inr rfl))
        · simpa [texts] using this
        · have hh := (hx x)
          simp only [Covers, List.not_mem_nil, false_and, exists_false, false_iff, and_true]
          rintro ⟨g1, g2, g3, g4⟩
          have := hh.2 ⟨g1, g2, g3⟩
          omega
      · rw [if_neg hab']
        obtain ⟨qs, e1, e2, e3, e4⟩ := writeRange_pieces (first := s.first) (a := 95) (b := b) s.out h.fit (by omega) (by omega) (by omega) hb
          (by omega) (by omega) (by omega)
        rw [e1]
        exact ⟨_, fin hy true qs h1 h2 h3 (fun _ => h94) (fun _ => rfl) (fun _ => .inr (by omega)) e4
          (fun x => by rw [e3]; have := hx x; simp only [and_true]; omega) (.inl e2)⟩
    · rw [if_neg hc]
      obtain ⟨qs, e1, e2, e3, e4⟩ := writeRange_pieces (inv := inv) (ps := ps) (first := s.first) (a := a) (b := b) s.out h.fit hab (by omega) ha hb
        (by
          intro g1 g2
          have := h91 (by omega) (by omega)
          omega)
        (by
          intro g1 g2 g3
          rcases h93 g1 (by omega) (by omega) with g | g
          · left; omega
          · right
            exact ⟨by omega, g.2⟩)
        (by
          intro g1 g2 g3
          have hL : s.left = 94 := by omega
          have hf : (s.first || hy) = false := by
            cases hq : (s.first || hy) with
            | false => rfl
            | true => exact absurd ⟨hq, g3⟩ hc
          rw [Bool.or_eq_false_iff] at hf
          refine hps94 g1 g2 hf.1 ?_ hL
          cases hq : s.hyphen with
          | false => rfl
          | true => rw [h2 hq] at hf; exact absurd hf.2 (by simp))
      rw [e1]
      refine ⟨_, fin hy s.caret qs h1 h2 h3 (fun e => ?_) id (fun e => .inl e) e4 (fun x => ?_) (.inl e2)⟩
      · have := h.caret e
        exact ⟨this.1, by omega⟩
      · rw [e3, hx x]
        constructor
        · rintro ⟨a1, a2, a3⟩
          exact ⟨a1, a2, a3, fun e => by have := hca e.2; omega⟩
        · rintro ⟨a1, a2, a3, -⟩
          exact ⟨a1, a2, a3⟩
  unfold complete
  by_cases hA : s.left = 45
  · rw [if_pos hA]
    have h45 : T 45 = true ∧ 45 < i := ⟨hA ▸ hTl, by omega⟩
    by_cases hB : s.left = i - 1
    · rw [if_pos hB]
      refine ⟨ps ++ [], ?_⟩
      have := fin true s.caret [] (fun _ => h45) (fun _ => rfl) (fun _ => .inr (by omega)) (fun e => ?_) id (fun e => .inl e)
        (by simpa using h.fit) (fun x => ?_) (.inr (.inl rfl))
      · simpa [texts] using this
      · have := h.caret e
        exact ⟨this.1, by omega⟩
      · simp only [Covers, List.not_mem_nil, false_and, exists_false, false_iff, and_true]
        omega
    · rw [if_neg hB]
      exact key (s.left + 1) (i - 1) true (by omega) (by omega) (by omega) (fun x => by simp only [and_true]; omega) (fun _ => h45) (fun _ => rfl)
        (fun _ => .inr (by omega)) (by omega) (by omega)
  · rw [if_neg hA]
    by_cases hB : i - 1 = 45
    · rw [if_pos hB]
      exact key s.left (i - 1 - 1) true (by omega) (by omega) (by omega) (fun x => by simp only [and_true]; omega)
        (fun _ => ⟨hB ▸ hTr, by omega⟩) (fun _ => rfl) (fun _ => .inr (by omega)) (by omega) (by omega)
    · rw [if_neg hB]
      refine key s.left (i - 1) s.hyphen (by omega) hA hB (fun x => ?_) (fun e => ?_) id (fun e => .inl e) (.inl rfl) (by omega)
      · constructor
        · intro g
          refine ⟨g.1, by omega, fun e => ?_⟩
          have := (h.hyphen e.2).2.1
          omega
        · intro g
          omega
      · have := h.hyphen e
        exact ⟨this.1, by omega⟩

theorem inv_step {inv : Bool} {T on : Nat → Bool} (hon : ∀ x, T x = (decide (x < 256) && on x)) (hl : Legible inv T)
    {pre : List Nat} {s : St} {i : Nat} {ps : List Piece} (h : Inv inv T pre s i ps) :
    ∃ qs, Inv inv T pre (step on s i) (i + 1) qs := by
  unfold step
  by_cases hi : T i = true
  · have hi' : i < 256 ∧ on i = true := by
      rw [hon, Bool.and_eq_true, decide_eq_true_eq] at hi
      exact hi
    rw [if_pos hi']
    by_cases hs : s.left > 255
    · rw [if_pos hs]
      have hc : cut s i = i := by rw [cut, if_neg (by omega)]
      have hc' : cut { s with left := i } (i + 1) = i := by simp only [cut]; rw [if_pos (by omega)]
      refine ⟨ps, h.out, h.fit, fun x => ?_, fun e => ?_, fun e => ?_, fun e => ?_, h.later, fun _ => ⟨?_, fun x h1 h2 => ?_, h.gap hs⟩, fun e => ?_⟩
      · rw [hc', h.covers x, hc]
      · have := h.hyphen e
        rwa [hc', ← hc]
      · have := h.caret e
        rwa [hc', ← hc]
      · have := h.first e
        rwa [hc', ← hc]
      · show i < i + 1
        omega
      · rw [show x = i by dsimp only at h1; omega]
        exact hi
      · dsimp only at e
        omega
    · rw [if_neg hs]
      have hc : cut s i = cut s (i + 1) := by rw [cut, if_pos (by omega), cut, if_pos (by omega)]
      obtain ⟨r1, r2, r3⟩ := h.run (by omega)
      refine ⟨ps, h.out, h.fit, fun x => ?_, fun e => ?_, fun e => ?_, fun e => ?_, h.later, fun _ => ⟨?_, fun x h1 h2 => ?_, r3⟩, fun e => ?_⟩
      · rw [← hc, h.covers x]
      · rw [← hc]; exact h.hyphen e
      · rw [← hc]; exact h.caret e
      · rw [← hc]; exact h.first e
      · omega
      · by_cases e : x = i
        · rw [e]; exact hi
        · exact r2 x h1 (by omega)
      · omega
  · have hi' : ¬ (i < 256 ∧ on i = true) := by
      rw [hon, Bool.and_eq_true, decide_eq_true_eq] at hi
      exact hi
    rw [if_neg hi']
    have hT : T i = false := by simpa using hi
    by_cases hs : s.left ≤ 255
    · rw [if_pos hs]
      exact inv_complete (fun x hx => by rw [hon]; simp; omega) hl h hT hs
    · rw [if_neg hs]
      have hc : cut s i = i := by rw [cut, if_neg hs]
      have hc' : cut s (i + 1) = i + 1 := by rw [cut, if_neg hs]
      refine ⟨ps, h.out, h.fit, fun x => ?_, fun e => ?_, fun e => ?_, fun e => ⟨(h.first e).1, fun x hx => ?_⟩, h.later, fun e => ?_, fun _ => .inr ?_⟩
      · rw [hc', h.covers x, hc]
        constructor
        · rintro ⟨a, b, c⟩
          exact ⟨a, by omega, c⟩
        · rintro ⟨a, b, c⟩
          refine ⟨a, ?_, c⟩
          by_cases e : x = i
          · rw [e, hT] at a
            cases a
          · omega
      · have := h.hyphen e
        rw [hc'] ; rw [hc] at this
        exact ⟨this.1, by omega, this.2.2⟩
      · have := h.caret e
        rw [hc'] ; rw [hc] at this
        exact ⟨this.1, by omega, this.2.2⟩
      · rw [hc'] at hx
        by_cases hxi : x = i
        · rw [hxi, hT]
        · exact (h.first e).2 x (by omega)
      · omega
      · simpa using hT

theorem inv_fold {inv : Bool} {T on : Nat → Bool} (hon : ∀ x, T x = (decide (x < 256) && on x)) (hl : Legible inv T)
    {pre : List Nat} : ∀ (n i : Nat) (s : St) (ps : List Piece), Inv inv T pre s i ps →
    ∃ qs, Inv inv T pre ((List.range' i n).foldl (step on) s) (i + n) qs
  | 0, i, s, ps, h => ⟨ps, h⟩
  | n + 1, i, s, ps, h => by
    rw [List.range'_succ, List.foldl_cons]
    obtain ⟨qs, hq⟩ := inv_step hon hl h
    rw [show i + (n + 1) = i + 1 + n by omega]
    exact inv_fold hon hl n (i + 1) _ qs hq

/-! ## The whole text -/

theorem sizes_both (bs : Nat → Bool) : ∀ (l : List Nat) (s : Sizes),
    (l.foldl (sizeStep bs) s).both = (s.both || l.any fun i => decide (i < 256) && (bs i ^^ bs 0))
  | [], s => by simp
  | i :: l, s => by
    rw [List.foldl_cons, sizes_both bs l, List.any_cons]
    have : (sizeStep bs s i).both = (s.both || (decide (i < 256) && (bs i ^^ bs 0))) := by
      unfold sizeStep
      by_cases h : i < 256 ∧ (bs i ^^ bs 0) = true
      · rw [if_pos h]
        dsimp only
        split <;> simp [h]
      · rw [if_neg h]
        have : (decide (i < 256) && (bs i ^^ bs 0)) = false := by
          rw [Bool.eq_false_iff]
          simpa using h
        rw [this, Bool.or_false]
        split <;> rfl
    rw [this, Bool.or_assoc]

/-- Whether the class is written with a `^`, unparser.cpp 147, 151. -/
def inverted (bs : Nat → Bool) : Bool := if (sizes bs).both = false then !bs 0 else decide ((sizes bs).diff > 0)

/-- The characters that are listed. -/
def listedIn (bs : Nat → Bool) (x : Nat) : Bool := decide (x < 256) && (inverted bs ^^ bs x)

/-- The text of a class is a list of pieces that make up what is to be listed, with `-` at the end if need be; or `-^`. -/
theorem classText_pieces (bs : Nat → Bool) (hl : Legible (inverted bs) (listedIn bs)) :
    (∃ ps hy, classText bs = (if inverted bs then [94] else []) ++ texts ps ++ (if hy then [45] else []) ∧
      Fit (inverted bs) ps ∧ (∀ x, listedIn bs x = true ↔ Covers ps x ∨ (hy = true ∧ x = 45)) ∧ (ps ≠ [] ∨ hy = true)) ∨
    (classText bs = [45, 94] ∧ inverted bs = false ∧ ∀ x, listedIn bs x = true ↔ x = 45 ∨ x = 94) := by
  cases hb : (sizes bs).both with
  | false =>
    have hinv : inverted bs = !bs 0 := by rw [inverted, if_pos hb]
    have hall : ∀ x < 256, bs x = bs 0 := by
      intro x hx
      have h := sizes_both bs (List.range' 1 256) ⟨-1, 0, false⟩
      unfold sizes at hb
      rw [hb, Bool.false_or] at h
      have h := List.any_eq_false.1 h.symm
      by_cases h0 : x = 0
      · rw [h0]
      · have := h x (by rw [List.mem_range'_1]; omega)
        simp only [hx, decide_true, Bool.true_and, Bool.not_eq_true] at this
        revert this
        cases bs x <;> cases bs 0 <;> simp
    left
    refine ⟨[.span false 0 255], false, ?_, ?_, fun x => ?_, by simp⟩
    · unfold classText
      dsimp only
      rw [if_pos hb, hinv]
      have e1 : escaped true 0 = [92, 120, 48, 48] := by decide
      have e2 : escaped true 255 = [92, 120, 70, 70] := by decide
      cases bs 0 <;> simp [texts, Piece.text, e1, e2]
    · exact ⟨⟨⟨by omega, by omega, by omega, by simp, by generalize (!inverted bs) = b; cases b <;> simp⟩, by omega, by omega, by omega, by omega⟩, by simp⟩
    · rw [listedIn, hinv]
      simp only [Covers, List.mem_singleton, exists_eq_left, Piece.lo, Piece.hi, Bool.false_eq_true, false_and, or_false,
        Bool.and_eq_true, decide_eq_true_eq]
      constructor
      · rintro ⟨h, -⟩
        omega
      · intro h
        refine ⟨by omega, ?_⟩
        rw [hall x (by omega)]
        cases bs 0 <;> rfl
  | true =>
    have hinv : inverted bs = decide ((sizes bs).diff > 0) := by rw [inverted, if_neg (by rw [hb]; simp)]
    have hex : ∃ x, listedIn bs x = true := by
      have h := sizes_both bs (List.range' 1 256) ⟨-1, 0, false⟩
      unfold sizes at hb
      rw [hb, Bool.false_or] at h
      obtain ⟨x, -, hx⟩ := List.any_eq_true.1 h.symm
      simp only [Bool.and_eq_true, decide_eq_true_eq] at hx
      by_cases h0 : (inverted bs ^^ bs 0) = true
      · exact ⟨0, by simp [listedIn, h0]⟩
      · refine ⟨x, ?_⟩
        unfold listedIn
        rw [Bool.and_eq_true, decide_eq_true_eq]
        refine ⟨hx.1, ?_⟩
        have := hx.2
        revert this h0
        cases bs x <;> cases bs 0 <;> cases inverted bs <;> simp
    have htext : classText bs = tail ((List.range 257).foldl (step fun i => inverted bs ^^ bs i)
        ⟨256, true, false, false, if inverted bs then [94] else []⟩) := by
      unfold classText
      dsimp only
      rw [if_neg (by rw [hb]; simp), ← hinv]
    have h0 : Inv (inverted bs) (listedIn bs) (if inverted bs then [94] else [])
        ⟨256, true, false, false, if inverted bs then [94] else []⟩ 0 [] := by
      refine ⟨by simp [texts], trivial, fun x => ?_, fun e => (by cases e), fun e => (by cases e), fun _ => ⟨rfl, fun x hx => ?_⟩,
        fun e => (by cases e), fun e => absurd e (by simp), fun _ => .inl rfl⟩
      · simp [Covers, cut]
      · simp [cut] at hx
    obtain ⟨ps, hps⟩ := inv_fold (on := fun i => inverted bs ^^ bs i) (fun x => rfl) hl 257 0 _ _ h0
    rw [← List.range_eq_range', Nat.zero_add] at hps
    rw [htext]
    generalize hs : (List.range 257).foldl (step fun i => inverted bs ^^ bs i)
        ⟨256, true, false, false, if inverted bs then [94] else []⟩ = s at hps ⊢
    have hleft : ¬ s.left ≤ 255 := by
      intro e
      have := (hps.run e).2.1 256 (by omega) (by omega)
      simp at this
    have hcut : cut s 257 = 257 := by rw [cut, if_neg hleft]
    have hcov : ∀ x, listedIn bs x = true ↔ Covers ps x ∨ (x = 45 ∧ s.hyphen = true) ∨ (x = 94 ∧ s.caret = true) := by
      intro x
      rw [hps.covers x, hcut]
      constructor
      · intro hx
        by_cases a : x = 45 ∧ s.hyphen = true
        · exact .inr (.inl a)
        by_cases b : x = 94 ∧ s.caret = true
        · exact .inr (.inr b)
        refine .inl ⟨hx, ?_, a, b⟩
        rw [listedIn, Bool.and_eq_true, decide_eq_true_eq] at hx
        omega
      · rintro (⟨h, -⟩ | ⟨rfl, h⟩ | ⟨rfl, h⟩)
        · exact h
        · exact (hps.hyphen h).1
        · exact (hps.caret h).1
    have hout : s.out = [] ↔ inverted bs = false ∧ ps = [] := by
      rw [hps.out]
      cases ps with
      | nil => cases inverted bs <;> simp [texts]
      | cons q ps => simp [texts, piece_ne]
    have hcar : Fit (inverted bs) ps → s.out ≠ [] → Fit (inverted bs) (ps ++ [.one false 94]) := by
      intro hf hne
      refine hf.append (fun _ r hr => ?_) fun hp => ⟨?_, by simp⟩
      · rw [List.mem_singleton.1 hr]
        exact ⟨by omega, by omega, by omega, by simp, by simp⟩
      · have : inverted bs = true := by
          cases e : inverted bs with
          | true => rfl
          | false => exact absurd (hout.2 ⟨e, hp⟩) hne
        rw [this]
        exact ⟨by omega, by omega, by omega, by simp, by simp⟩
    have e94 : escaped true 94 = [94] := by decide
    have hc94 : ∀ (e : Bool) (x : Nat), Covers [.one e 94] x ↔ x = 94 := by
      intro e x
      simp only [Covers, List.mem_singleton, exists_eq_left, Piece.lo, Piece.hi]
      omega
    unfold tail
    cases hh : s.hyphen with
    | true =>
      rw [if_pos rfl]
      cases hc : s.caret with
      | true =>
        rw [if_pos rfl]
        by_cases ho : s.out = []
        · rw [if_pos ho]
          right
          obtain ⟨hi, rfl⟩ := hout.1 ho
          refine ⟨rfl, hi, fun x => ?_⟩
          rw [hcov, hh, hc]
          simp [Covers]
        · rw [if_neg ho]
          left
          refine ⟨ps ++ [.one false 94], true, ?_, hcar hps.fit ho, fun x => ?_, .inr rfl⟩
          · rw [hps.out]
            simp [texts, Piece.text, e94]
          · rw [hcov, hh, hc, covers_append, hc94]
            constructor
            · rintro (h | ⟨h, -⟩ | ⟨h, -⟩)
              · exact .inl (.inl h)
              · exact .inr ⟨rfl, h⟩
              · exact .inl (.inr h)
            · rintro ((h | h) | ⟨-, h⟩)
              · exact .inl h
              · exact .inr (.inr ⟨h, rfl⟩)
              · exact .inr (.inl ⟨h, rfl⟩)
      | false =>
        rw [if_neg (by simp)]
        left
        refine ⟨ps, true, by rw [hps.out]; simp, hps.fit, fun x => ?_, .inr rfl⟩
        rw [hcov, hh, hc]
        simp
    | false =>
      rw [if_neg (by simp)]
      cases hc : s.caret with
      | true =>
        rw [if_pos rfl]
        left
        by_cases ho : s.out = []
        · rw [if_pos ho]
          obtain ⟨hi, rfl⟩ := hout.1 ho
          refine ⟨[.one true 94], false, ?_, ?_, fun x => ?_, .inl (by simp)⟩
          · rw [hi]
            simp [texts, Piece.text, e94]
          · exact ⟨⟨by omega, by omega, by omega, by simp, by generalize (!inverted bs) = b; cases b <;> simp⟩, by simp⟩
          · rw [hcov, hh, hc, hc94]
            simp [Covers]
        · rw [if_neg ho]
          refine ⟨ps ++ [.one false 94], false, ?_, hcar hps.fit ho, fun x => ?_, .inl (by simp)⟩
          · rw [hps.out]
            simp [texts, Piece.text, e94]
          · rw [hcov, hh, hc, covers_append, hc94]
            simp
      | false =>
        rw [if_neg (by simp)]
        left
        refine ⟨ps, false, by rw [hps.out]; simp, hps.fit, fun x => ?_, .inl ?_⟩
        · rw [hcov, hh, hc]
          simp
        · rintro rfl
          obtain ⟨x, hx⟩ := hex
          rw [hcov, hh, hc] at hx
          simp [Covers] at hx

end Verif.Unparse
