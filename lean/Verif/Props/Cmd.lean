import Verif.Cmd
/-!
# C44, C45, C46, C50: the command-line tool
-/
namespace Verif.Cmd

/-! ## C44: context lines -/

/-- The number of newlines at positions `a ≤ p < b`. -/
def newlines (buf : List Nat) (a b : Nat) : Nat :=
  (List.range' a (b - a)).countP (fun p => decide (buf.getD p 0 = 10))

theorem newlines_self (buf : List Nat) (a : Nat) : newlines buf a a = 0 := by simp [newlines]

theorem newlines_add (buf : List Nat) {a b c : Nat} (h1 : a ≤ b) (h2 : b ≤ c) :
    newlines buf a c = newlines buf a b + newlines buf b c := by
  unfold newlines
  rw [← List.countP_append]
  congr 1
  have := List.range'_append (s := a) (m := b - a) (n := c - b) (step := 1)
  rw [show a + 1 * (b - a) = b by omega] at this
  rw [this]
  congr 1; omega

theorem newlines_one (buf : List Nat) (a : Nat) :
    newlines buf a (a + 1) = if buf.getD a 0 = 10 then 1 else 0 := by
  unfold newlines
  rw [show a + 1 - a = 1 by omega]
  simp only [List.range'_one, List.countP_singleton, decide_eq_true_eq]

theorem rfind_spec (buf : List Nat) (b : Nat) :
    rfind buf b ≤ b ∧ newlines buf (rfind buf b) b = 0 ∧
      (rfind buf b = 0 ∨ buf.getD (rfind buf b - 1) 0 = 10) := by
  induction b with
  | zero => simp [rfind, newlines_self]
  | succ b ih =>
    unfold rfind
    split
    · next h => exact ⟨by omega, newlines_self _ _, Or.inr (by simpa using h)⟩
    · next h =>
      refine ⟨by omega, ?_, ih.2.2⟩
      rw [newlines_add buf ih.1 (Nat.le_succ b), ih.2.1, newlines_one, if_neg h]

theorem leadLoop_spec (buf : List Nat) (i : Nat) : ∀ b : Nat,
    leadLoop buf (i + 1) (b + 1) ≤ b ∧
      ((leadLoop buf (i + 1) (b + 1) = 0 ∧ newlines buf 0 b ≤ i) ∨
       (0 < leadLoop buf (i + 1) (b + 1) ∧ buf.getD (leadLoop buf (i + 1) (b + 1) - 1) 0 = 10 ∧
          newlines buf (leadLoop buf (i + 1) (b + 1)) b = i)) := by
  induction i with
  | zero =>
    intro b
    obtain ⟨h1, h2, h3⟩ := rfind_spec buf b
    unfold leadLoop
    rw [if_neg (by omega), Nat.add_sub_cancel]
    unfold leadLoop
    refine ⟨h1, ?_⟩
    rcases Nat.eq_zero_or_pos (rfind buf b) with h0 | h0
    · left; refine ⟨h0, ?_⟩; rw [h0] at h2; omega
    · right; exact ⟨h0, h3.resolve_left (by omega), h2⟩
  | succ i ih =>
    intro b
    obtain ⟨h1, h2, h3⟩ := rfind_spec buf b
    rw [show leadLoop buf (i + 1 + 1) (b + 1) = leadLoop buf (i + 1) (rfind buf b) by
      rw [leadLoop, if_neg (by omega), Nat.add_sub_cancel]]
    rcases Nat.eq_zero_or_pos (rfind buf b) with h0 | h0
    · have : leadLoop buf (i + 1) (rfind buf b) = 0 := by rw [h0]; simp [leadLoop]
      rw [this]
      refine ⟨by omega, Or.inl ⟨rfl, ?_⟩⟩
      rw [h0] at h2; omega
    · have hnl := h3.resolve_left (by omega)
      obtain ⟨r, hr⟩ : ∃ r, rfind buf b = r + 1 := ⟨rfind buf b - 1, by omega⟩
      rw [hr] at h1 h2 hnl ⊢
      rw [Nat.add_sub_cancel] at hnl
      obtain ⟨i1, i2⟩ := ih r
      refine ⟨by omega, ?_⟩
      have e : ∀ a, a ≤ r → newlines buf a b = newlines buf a r + 1 := by
        intro a ha
        rw [newlines_add buf (show a ≤ r + 1 by omega) h1, h2,
          newlines_add buf ha (Nat.le_succ r), newlines_one, if_pos hnl]
      rcases i2 with ⟨j1, j2⟩ | ⟨j1, j2, j3⟩
      · left; refine ⟨j1, ?_⟩; rw [e 0 (by omega)]; omega
      · right; refine ⟨j1, j2, ?_⟩; rw [e _ i1, j3]

theorem ffind_spec (buf : List Nat) (p : Nat) (hp : p ≤ buf.length) :
    p ≤ ffind buf p ∧ ffind buf p ≤ buf.length ∧ newlines buf p (ffind buf p) = 0 ∧
      (ffind buf p = buf.length ∨ buf.getD (ffind buf p) 0 = 10) := by
  have key : ∀ (n p : Nat), p + n = buf.length →
      p ≤ ffind buf p ∧ ffind buf p ≤ buf.length ∧ newlines buf p (ffind buf p) = 0 ∧
      (ffind buf p = buf.length ∨ buf.getD (ffind buf p) 0 = 10) := by
    intro n
    induction n with
    | zero =>
      intro p hp
      have : ffind buf p = p := by unfold ffind; rw [List.drop_of_length_le (by omega)]; rfl
      rw [this]
      exact ⟨Nat.le_refl _, by omega, newlines_self _ _, Or.inl (by omega)⟩
    | succ n ih =>
      intro p hp
      have hlt : p < buf.length := by omega
      have hd : buf.drop p = buf.getD p 0 :: buf.drop (p + 1) := by
        rw [List.drop_eq_getElem_cons hlt, List.getD_eq_getElem?_getD, List.getElem?_eq_getElem hlt]
        rfl
      by_cases h : buf.getD p 0 = 10
      · have : ffind buf p = p := by
          unfold ffind
          rw [hd, List.takeWhile_cons, if_neg (by simp only [h, ne_eq, not_true_eq_false, decide_false, Bool.false_eq_true, not_false_eq_true])]; rfl
        rw [this]
        exact ⟨Nat.le_refl _, by omega, newlines_self _ _, Or.inr h⟩
      · have : ffind buf p = ffind buf (p + 1) := by
          unfold ffind
          rw [hd, List.takeWhile_cons, if_pos (by simp only [ne_eq, h, not_false_eq_true, decide_true])]
          simp only [List.length_cons]
          omega
        rw [this]
        obtain ⟨i1, i2, i3, i4⟩ := ih (p + 1) (by omega)
        refine ⟨by omega, i2, ?_, i4⟩
        rw [newlines_add buf (Nat.le_succ p) i1, newlines_one, if_neg h, i3]
  exact key (buf.length - p) p (by omega)

theorem trailLoop_spec (buf : List Nat) (i : Nat) : ∀ p : Nat, p ≤ buf.length →
    ∃ e, trailLoop buf (i + 1) p = e + 1 ∧ p ≤ e ∧
      ((e = buf.length ∧ newlines buf p e ≤ i) ∨
       (e < buf.length ∧ buf.getD e 0 = 10 ∧ newlines buf p e = i)) := by
  induction i with
  | zero =>
    intro p hp
    obtain ⟨h1, h2, h3, h4⟩ := ffind_spec buf p hp
    refine ⟨ffind buf p, ?_, h1, ?_⟩
    · unfold trailLoop
      rw [if_neg (by omega)]; rfl
    · rcases Nat.lt_or_ge (ffind buf p) buf.length with h | h
      · right; exact ⟨h, h4.resolve_left (by omega), h3⟩
      · left; exact ⟨by omega, by omega⟩
  | succ i ih =>
    intro p hp
    obtain ⟨h1, h2, h3, h4⟩ := ffind_spec buf p hp
    rw [show trailLoop buf (i + 1 + 1) p = trailLoop buf (i + 1) (ffind buf p + 1) by
      rw [trailLoop, if_neg (by omega)]]
    rcases Nat.lt_or_ge (ffind buf p) buf.length with h | h
    · obtain ⟨e, i1, i2, i3⟩ := ih (ffind buf p + 1) (by omega)
      have hnl := h4.resolve_left (by omega)
      have ec : newlines buf p e = newlines buf (ffind buf p + 1) e + 1 := by
        rw [newlines_add buf h1 (show ffind buf p ≤ e by omega), h3,
          newlines_add buf (show ffind buf p ≤ ffind buf p + 1 by omega) i2, newlines_one, if_pos hnl]
        omega
      refine ⟨e, i1, by omega, ?_⟩
      rw [ec]
      rcases i3 with ⟨j1, j2⟩ | ⟨j1, j2, j3⟩
      · left; exact ⟨j1, by omega⟩
      · right; exact ⟨j1, j2, by omega⟩
    · have he : ffind buf p = buf.length := by omega
      refine ⟨buf.length, ?_, hp, Or.inl ⟨rfl, ?_⟩⟩
      · rw [he, trailLoop, if_pos rfl]
      · rw [he] at h3; omega

/-- **C44** The context of a hit with `n` lines before it starts at or before the
hit, right after a newline with exactly `n` newlines between, or at the start of
the buffer when there are at most `n` newlines; with `n` lines after it, it ends at
or after the hit, right before a newline (or its carriage return, if that is not
part of the hit) with exactly `n` newlines between, or at the end of the buffer.
For `n + 1 < 2^31`. -/
theorem context_lines_partial (buf : List Nat) (hbeg hend n : Nat) (hn : n + 1 < 2 ^ 31)
    (hend_le : hend ≤ buf.length) :
    (let s := leadingContext buf hbeg n
     s ≤ hbeg ∧ ((s = 0 ∧ newlines buf 0 hbeg ≤ n) ∨
       (0 < s ∧ buf.getD (s - 1) 0 = 10 ∧ newlines buf s hbeg = n))) ∧
    (let t := trailingContext buf hend n
     hend ≤ t ∧ ((t = buf.length ∧ newlines buf hend t ≤ n) ∨
       ∃ e, buf.getD e 0 = 10 ∧ e < buf.length ∧ newlines buf hend e = n ∧
         t = if hend < e ∧ buf.getD (e - 1) 0 = 13 then e - 1 else e)) := by
  have hit : iterations (n + 1) = n + 1 := by
    unfold iterations
    have : (n + 1) % 2 ^ 32 = n + 1 := Nat.mod_eq_of_lt (by omega)
    rw [this, if_pos hn]
  constructor
  · unfold leadingContext
    rw [hit]
    exact leadLoop_spec buf n hbeg
  · obtain ⟨e, h1, h2, h3⟩ := trailLoop_spec buf n hend hend_le
    unfold trailingContext
    rw [hit, h1]
    simp only [Nat.add_sub_cancel]
    rcases h3 with ⟨j1, j2⟩ | ⟨j1, j2, j3⟩
    · rw [if_neg (by omega)]
      exact ⟨h2, Or.inl ⟨j1, j2⟩⟩
    · constructor
      · split <;> omega
      · right
        refine ⟨e, j2, j1, j3, ?_⟩
        by_cases hc : hend < e ∧ buf.getD (e - 1) 0 = 13
        · rw [if_pos ⟨hc.1, by omega, hc.2⟩, if_pos hc]
        · rw [if_neg (fun h => hc ⟨h.1, h.2.2⟩), if_neg hc]

/-- "one\ntwo\r\nthree": one line around the hit "w". -/
example : leadingContext [111, 110, 101, 10, 116, 119, 111, 13, 10, 116, 104] 5 0 = 4 ∧
    leadingContext [111, 110, 101, 10, 116, 119, 111, 13, 10, 116, 104] 5 1 = 0 ∧
    trailingContext [111, 110, 101, 10, 116, 119, 111, 13, 10, 116, 104] 6 0 = 7 ∧
    trailingContext [111, 110, 101, 10, 116, 119, 111, 13, 10, 116, 104] 6 1 = 11 := by decide

/-- The bound in `context_lines_partial` is needed: with the largest line count the options
accept, the loop counter overflows and the context starts after the first byte of
the hit and ends before its last. -/
theorem context_lines_overflow (buf : List Nat) (hbeg hend : Nat) (h0 : 0 < hend)
    (h1 : hend ≤ buf.length) :
    leadingContext buf hbeg (2 ^ 31 - 1) = hbeg + 1 ∧
    trailingContext buf hend (2 ^ 31 - 1) = hend - 1 := by
  have hit : iterations (2 ^ 31 - 1 + 1) = 0 := by decide
  unfold leadingContext trailingContext
  rw [hit]
  refine ⟨rfl, ?_⟩
  show (if hend - 1 > hend ∧ _ then _ else hend - 1) = hend - 1
  exact if_neg (by omega)

/-! ## C50: printed text keeps the line format -/

/-- **C50** Escaped text contains no tab, newline or carriage return (and, in the
histogram, no other escaped control character), so every printed record is one
line with a fixed number of tab-separated columns; text without control characters
is printed unchanged. -/
theorem printed_text (s : List Nat) :
    (∀ c ∈ writeContext s, c ≠ 9 ∧ c ≠ 10 ∧ c ≠ 13) ∧
    (∀ c ∈ escapeControlChars s, ¬ (7 ≤ c ∧ c ≤ 13)) ∧
    ((∀ c ∈ s, ¬ (7 ≤ c ∧ c ≤ 13)) → writeContext s = s ∧ escapeControlChars s = s) := by
  refine ⟨?_, ?_, ?_⟩
  · intro c hc
    simp only [writeContext, List.mem_flatMap] at hc
    obtain ⟨x, -, hx⟩ := hc
    split at hx
    · simp at hx; omega
    · split at hx
      · simp at hx; omega
      · split at hx
        · simp at hx; omega
        · simp at hx; omega
  · intro c hc
    simp only [escapeControlChars, List.mem_flatMap] at hc
    obtain ⟨x, -, hx⟩ := hc
    unfold escapeChar at hx
    split at hx
    case h_8 h1 h2 h3 h4 h5 h6 h7 =>
      simp at hx
      subst hx
      intro hc
      have : c = 7 ∨ c = 8 ∨ c = 9 ∨ c = 10 ∨ c = 11 ∨ c = 12 ∨ c = 13 := by omega
      rcases this with h | h | h | h | h | h | h <;> contradiction
    all_goals (simp at hx; omega)
  · intro h
    induction s with
    | nil => exact ⟨rfl, rfl⟩
    | cons a s ih =>
      obtain ⟨i1, i2⟩ := ih fun c hc => h c (by simp [hc])
      have ha := h a (by simp)
      constructor
      · unfold writeContext at i1 ⊢
        rw [List.flatMap_cons, i1, if_neg (by omega), if_neg (by omega), if_neg (by omega)]; rfl
      · unfold escapeControlChars at i2 ⊢
        rw [List.flatMap_cons, i2]
        have : escapeChar a = [a] := by
          unfold escapeChar
          split
          any_goals omega
          rfl
        rw [this]; rfl

/-! ## C46: histogram -/

/-- A strict weak ordering, as `std::sort` needs it. -/
structure StrictWeak {α : Type} (lt : α → α → Bool) : Prop where
  irrefl : ∀ a, lt a a = false
  trans : ∀ a b c, lt a b = true → lt b c = true → lt a c = true
  incomp : ∀ a b c, lt a b = false → lt b a = false → lt b c = false → lt c b = false →
    lt a c = false ∧ lt c a = false

theorem comp_iff (a b : Key × Nat) : histogramKeyComp a b = true ↔
    a.2 > b.2 ∨ (a.2 = b.2 ∧ (a.1.idx < b.1.idx ∨ (a.1.idx = b.1.idx ∧ a.1.text < b.1.text))) := by
  simp [histogramKeyComp]

theorem lt_tri (s t : List Nat) : s < t ∨ s = t ∨ t < s := by
  by_cases h : s < t
  · exact Or.inl h
  · by_cases h' : t < s
    · exact Or.inr (Or.inr h')
    · exact Or.inr (Or.inl (List.le_antisymm h' h))

/-- **C46** (order) The histogram's sorting order is a strict weak ordering. -/
theorem histogram_order : StrictWeak histogramKeyComp := by
  have ff : ∀ a b, histogramKeyComp a b = false ↔ ¬ (histogramKeyComp a b = true) := by
    intro a b; cases histogramKeyComp a b <;> simp
  constructor
  · intro a
    rw [ff, comp_iff]
    have := List.lt_irrefl a.1.text
    simp [this]
  · intro a b c h1 h2
    rw [comp_iff] at h1 h2 ⊢
    rcases h1 with h1 | ⟨h1, h1'⟩
    · rcases h2 with h2 | ⟨h2, -⟩ <;> left <;> omega
    · rcases h2 with h2 | ⟨h2, h2'⟩
      · left; omega
      · right
        refine ⟨by omega, ?_⟩
        rcases h1' with h1' | ⟨h1', h1''⟩
        · rcases h2' with h2' | ⟨h2', -⟩ <;> left <;> omega
        · rcases h2' with h2' | ⟨h2', h2''⟩
          · left; omega
          · right; exact ⟨by omega, List.lt_trans h1'' h2''⟩
  · intro a b c h1 h2 h3 h4
    rw [ff, comp_iff] at h1 h2 h3 h4
    have key : ∀ a b : Key × Nat,
        ¬ (a.2 > b.2 ∨ (a.2 = b.2 ∧ (a.1.idx < b.1.idx ∨ (a.1.idx = b.1.idx ∧ a.1.text < b.1.text)))) →
        ¬ (b.2 > a.2 ∨ (b.2 = a.2 ∧ (b.1.idx < a.1.idx ∨ (b.1.idx = a.1.idx ∧ b.1.text < a.1.text)))) →
        a.2 = b.2 ∧ a.1.idx = b.1.idx ∧ a.1.text = b.1.text := by
      intro a b h1 h2
      have e1 : a.2 = b.2 := by
        rcases Nat.lt_trichotomy a.2 b.2 with h | h | h
        · exact absurd (Or.inl h) h2
        · exact h
        · exact absurd (Or.inl h) h1
      have e2 : a.1.idx = b.1.idx := by
        rcases Nat.lt_trichotomy a.1.idx b.1.idx with h | h | h
        · exact absurd (Or.inr ⟨e1, Or.inl h⟩) h1
        · exact h
        · exact absurd (Or.inr ⟨e1.symm, Or.inl h⟩) h2
      refine ⟨e1, e2, ?_⟩
      rcases lt_tri a.1.text b.1.text with h | h | h
      · exact absurd (Or.inr ⟨e1, Or.inr ⟨e2, h⟩⟩) h1
      · exact h
      · exact absurd (Or.inr ⟨e1.symm, Or.inr ⟨e2.symm, h⟩⟩) h2
    obtain ⟨a1, a2, a3⟩ := key a b h1 h2
    obtain ⟨b1, b2, b3⟩ := key b c h3 h4
    have irr := List.lt_irrefl c.1.text
    constructor
    · rw [ff, comp_iff, a1, a2, a3, b1, b2, b3]; simp [irr]
    · rw [ff, comp_iff, a1, a2, a3, b1, b2, b3]; simp [irr]

theorem countOf_bump (k k' : Key) (l : List (Key × Nat)) :
    countOf k (bump k' l) = countOf k l + if k' = k then 1 else 0 := by
  induction l with
  | nil =>
    unfold bump countOf
    by_cases h : k' = k <;> simp [h]
  | cons x l ih =>
    obtain ⟨y, n⟩ := x
    unfold bump
    by_cases h1 : y = k'
    · subst h1
      simp only [if_true]
      unfold countOf
      by_cases h2 : y = k <;> simp [h2]
    · simp only [h1, if_false]
      by_cases h2 : y = k
      · have : ¬ k' = k := fun e => h1 (h2.trans e.symm)
        simp [countOf, h2, this]
      · have e1 : ∀ m : List (Key × Nat), countOf k ((y, n) :: m) = countOf k m := by
          intro m; simp [countOf, h2]
        rw [e1, e1, ih]

/-- The key of a hit: its text decoded from the buffer it was found in (empty when
it cannot be decoded), its pattern and its user index. -/
def keyOf (T : Tables) (b : Buf) (h : SHit) : Key :=
  ⟨((T.decode b h).getD ⟨[], 0, 0⟩).hit, (T.info h.kw).1, (T.info h.kw).2⟩

/-- The keys of the hits in a sequence of events, each decoded from the buffer set
last before it. -/
def keysOf (T : Tables) : Buf → List Event → List Key
  | _, [] => []
  | _, .buffer b :: es => keysOf T b es
  | b, .hit h _ :: es => keyOf T b h :: keysOf T b es

/-- The cache, if used, holds what decoding would give. -/
def CacheOk (T : Tables) (s : HistSt) : Prop :=
  s.cache.context ≠ [] → T.decode s.buf s.cacheHit = some s.cache

theorem writeHit_spec (T : Tables) (s : HistSt) (h : SHit) (hc : CacheOk T s) :
    (writeHitToHistogram T s h).buf = s.buf ∧ CacheOk T (writeHitToHistogram T s h) ∧
      (writeHitToHistogram T s h).hist = bump (keyOf T s.buf h) s.hist := by
  unfold writeHitToHistogram
  by_cases hh : h = s.cacheHit ∧ s.cache.context ≠ []
  · simp only [hh, ne_eq, not_false_eq_true, and_self, if_true]
    refine ⟨trivial, hc, ?_⟩
    have := hc hh.2
    simp [keyOf, this]
  · simp only [if_neg hh]
    unfold decodeContext
    cases hd : T.decode s.buf h with
    | none => exact ⟨rfl, hc, by simp [keyOf, hd]⟩
    | some b => exact ⟨rfl, fun _ => hd, by simp [keyOf, hd]⟩

theorem decodeContext_spec (T : Tables) (s : HistSt) (h : SHit) (hc : CacheOk T s) :
    (decodeContext T s h).2.buf = s.buf ∧ CacheOk T (decodeContext T s h).2 ∧
      (decodeContext T s h).2.hist = s.hist := by
  unfold decodeContext
  cases hd : T.decode s.buf h with
  | none => exact ⟨rfl, hc, rfl⟩
  | some b => exact ⟨rfl, fun _ => hd, rfl⟩

theorem histRun_spec (T : Tables) (es : List Event) : ∀ (s : HistSt), CacheOk T s → ∀ k,
    countOf k (histRun T s es).hist = countOf k s.hist + (keysOf T s.buf es).count k := by
  induction es with
  | nil => intro s _ k; simp [histRun, keysOf]
  | cons e es ih =>
    intro s hc k
    cases e with
    | buffer b =>
      have := ih { s with buf := b, cache := ⟨[], 0, 0⟩ } (by intro h; simp at h) k
      exact this
    | hit h ctx =>
      obtain ⟨s1, hs1, hb, hco, hh⟩ : ∃ s1, s1 = (if ctx then (decodeContext T s h).2 else s) ∧
          s1.buf = s.buf ∧ CacheOk T s1 ∧ s1.hist = s.hist := by
        refine ⟨_, rfl, ?_⟩
        cases ctx
        · exact ⟨rfl, hc, rfl⟩
        · exact decodeContext_spec T s h hc
      obtain ⟨w1, w2, w3⟩ := writeHit_spec T s1 h hco
      have := ih (writeHitToHistogram T s1 h) w2 k
      rw [show histRun T s (.hit h ctx :: es) = histRun T (writeHitToHistogram T s1 h) es by
        rw [hs1]; rfl]
      rw [this, w3, countOf_bump, hh, w1, hb]
      simp only [keysOf, List.count_cons, beq_iff_eq]
      omega

/-- **C46** (counts) Whatever buffers and hits come, in whatever order, with or
without printed context, the count stored under a key is the number of hits with
that key. -/
theorem histogram_counts (T : Tables) (es : List Event) (b : Buf) (h0 : SHit) (k : Key) :
    countOf k (histRun T ⟨b, h0, ⟨[], 0, 0⟩, []⟩ es).hist = (keysOf T b es).count k := by
  have := histRun_spec T es ⟨b, h0, ⟨[], 0, 0⟩, []⟩ (by intro h; simp at h) k
  simpa [countOf] using this

example : countOf ⟨[98], [46], 7⟩ (histRun ⟨fun b h => some ⟨b.1, h.start - b.2, h.stop - b.2⟩, fun _ => ([46], 7)⟩
    ⟨([], 0), ⟨0, 0, 0⟩, ⟨[], 0, 0⟩, []⟩
    [.buffer ([97, 98, 99], 0), .hit ⟨1, 2, 0⟩ true, .hit ⟨0, 1, 0⟩ false, .buffer ([98], 3),
      .hit ⟨3, 4, 0⟩ false]).hist = 2 := by decide

/-! ## C45: feeding the file -/

/-- The blocks given to the search: consecutive offsets, and together the file. -/
def Feeds (file : List Nat) (log : List (Nat × List Nat)) : Prop :=
  log.flatMap Prod.snd = file ∧
  ∀ pre c post, log = pre ++ c :: post → c.1 = (pre.flatMap Prod.snd).length

/-- Consecutive offsets and a prefix of the file. -/
def FeedsPrefix (file : List Nat) (off : Nat) (log : List (Nat × List Nat)) : Prop :=
  off ≤ file.length ∧ Feeds (file.take off) log

theorem feeds_snoc {file : List Nat} {off : Nat} {log : List (Nat × List Nat)} {blk : List Nat}
    (h : FeedsPrefix file off log) (hb : blk = (file.drop off).take blk.length) :
    FeedsPrefix file (off + blk.length) (log ++ [(off, blk)]) := by
  obtain ⟨h0, h1, h2⟩ := h
  have hl : blk.length ≤ file.length - off := by
    have := congrArg List.length hb
    rw [List.length_take, List.length_drop] at this
    omega
  refine ⟨by omega, ?_, ?_⟩
  · rw [List.flatMap_append, h1]
    simp only [List.flatMap_cons, List.flatMap_nil, List.append_nil]
    rw [List.take_add]
    congr 1
  · intro pre c post hp
    rcases List.eq_nil_or_concat post with rfl | ⟨post', x, rfl⟩
    · obtain ⟨rfl, rfl⟩ : log = pre ∧ (off, blk) = c := by
        have := List.append_inj' hp rfl
        simpa using this
      rw [h1, List.length_take]
      simp only
      omega
    · rw [List.concat_eq_append, ← List.cons_append, ← List.append_assoc] at hp
      obtain ⟨hp, -⟩ := List.append_inj' hp rfl
      exact h2 pre c post' hp

/-- The reading task is transferring the block after the one being searched into
the other buffer. -/
structure FileInv (file : List Nat) (bs : Nat) (s : FileSt) : Prop where
  cur : s.task.start + s.task.len = s.cursor
  curle : s.cursor ≤ file.length
  len : s.task.len = min bs (file.length - s.task.start)
  put : s.task.put ≤ s.task.len
  nx : s.next = s.task.b
  mem : ∀ i, i < s.task.put → s.mem s.task.b i = file.getD (s.task.start + i) 0
  ph : match s.phase with
    | .waiting => s.offset = s.task.start ∧ FeedsPrefix file s.offset s.log
    | .searching b len seen => b ≠ s.task.b ∧ s.offset + len = s.task.start ∧
        seen.length ≤ len ∧ (∀ i, i < len → s.mem b i = file.getD (s.offset + i) 0) ∧
        seen = (file.drop s.offset).take seen.length ∧ FeedsPrefix file s.offset s.log
    | .done => Feeds file s.log

theorem take_getD (l : List Nat) (n : Nat) (h : n < l.length) :
    l.take (n + 1) = l.take n ++ [l.getD n 0] := by
  rw [List.take_succ_eq_append_getElem h, List.getD_eq_getElem?_getD, List.getElem?_eq_getElem h]
  rfl

theorem fileInv_init (file : List Nat) (bs : Nat) (mem : Bool → Nat → Nat) :
    FileInv file bs (fileInit file bs mem) := by
  constructor
  · simp [fileInit, readAsync]
  · simp [fileInit, readAsync]; omega
  · simp [fileInit, readAsync]
  · simp [fileInit, readAsync]
  · rfl
  · intro i hi; simp [fileInit, readAsync] at hi
  · refine ⟨rfl, Nat.zero_le _, rfl, ?_⟩
    intro pre c post h
    cases pre <;> simp [fileInit, readAsync] at h

theorem fileInv_step (file : List Nat) (bs : Nat) (hbs : 0 < bs) (s t : FileSt) (hi : FileInv file bs s)
    (h : FileStep file bs s t) : FileInv file bs t := by
  obtain ⟨i1, i2, i3, i4, i5, i6, i7⟩ := hi
  cases h with
  | transfer hlt =>
    refine ⟨i1, i2, i3, by simp only; omega, i5, ?_, ?_⟩
    · intro i hi
      simp only at hi ⊢
      by_cases he : i = s.task.put
      · simp [he]
      · simp only [he, and_false, if_false]
        exact i6 i (by omega)
    · cases hp : s.phase with
      | waiting => rw [hp] at i7; simp only [hp]; exact i7
      | searching b len seen =>
        rw [hp] at i7
        simp only [hp]
        obtain ⟨j1, j2, j3, j4, j5, j6⟩ := i7
        refine ⟨j1, j2, j3, ?_, j5, j6⟩
        intro i hi
        rw [if_neg (fun hh => j1 hh.1)]
        exact j4 i hi
      | done => rw [hp] at i7; simp only [hp]; exact i7
  | get hp hput h0 =>
    rw [hp] at i7
    obtain ⟨j1, j2⟩ := i7
    refine ⟨?_, ?_, ?_, ?_, rfl, ?_, ?_⟩
    · rfl
    · simp only [readAsync]; omega
    · rfl
    · simp [readAsync]
    · intro i hi; simp [readAsync] at hi
    · simp only [readAsync]
      refine ⟨?_, by omega, by simp, ?_, by simp, j2⟩
      · rw [i5]; cases s.task.b <;> simp
      · intro i hi
        rw [i6 i (by omega), j1]
  | look b len seen hp hlt =>
    rw [hp] at i7
    obtain ⟨j1, j2, j3, j4, j5, j6⟩ := i7
    refine ⟨i1, i2, i3, i4, i5, i6, ?_⟩
    refine ⟨j1, j2, by simp; omega, j4, ?_, j6⟩
    simp only [List.length_append, List.length_singleton]
    rw [j4 _ hlt, take_getD _ _ (by rw [List.length_drop]; omega), ← j5]
    congr 2
    simp [List.getD_eq_getElem?_getD]
  | finish b len seen hp hl =>
    rw [hp] at i7
    obtain ⟨j1, j2, j3, j4, j5, j6⟩ := i7
    refine ⟨i1, i2, i3, i4, i5, i6, j2, ?_⟩
    simp only
    rw [← hl]
    exact feeds_snoc j6 j5
  | last hp hput h0 =>
    rw [hp] at i7
    obtain ⟨j1, j2⟩ := i7
    refine ⟨i1, i2, i3, i4, i5, i6, ?_⟩
    have hoff : s.offset = file.length := by omega
    have := feeds_snoc (blk := []) j2 (by simp)
    simp only [List.length_nil, Nat.add_zero] at this
    have := this.2
    rw [hoff, List.take_length] at this
    simp only
    rw [hoff]
    exact this

theorem reach_inv (file : List Nat) (bs : Nat) (hbs : 0 < bs) (mem : Bool → Nat → Nat) (s : FileSt)
    (h : Reach file bs mem s) : FileInv file bs s := by
  induction h with
  | init => exact fileInv_init file bs mem
  | step s t _ hs ih => exact fileInv_step file bs hbs s t ih hs

/-- What is left to do. -/
def work (file : List Nat) (s : FileSt) : Nat :=
  match s.phase with
  | .waiting => (file.length - (s.task.start + s.task.put)) + (file.length - s.offset) +
      2 * (file.length - s.offset) + 1
  | .searching _ len seen => (file.length - (s.task.start + s.task.put)) +
      (file.length - (s.offset + seen.length)) + 2 * (file.length - (s.offset + len)) + 2
  | .done => file.length - (s.task.start + s.task.put)

theorem work_step (file : List Nat) (bs : Nat) (s t : FileSt) (hi : FileInv file bs s)
    (h : FileStep file bs s t) : work file t < work file s := by
  obtain ⟨i1, i2, i3, i4, i5, i6, i7⟩ := hi
  cases h with
  | transfer hlt =>
    unfold work
    cases hp : s.phase <;> simp only [hp] <;> omega
  | get hp hput h0 =>
    rw [hp] at i7
    obtain ⟨j1, j2⟩ := i7
    unfold work
    simp only [hp, readAsync, List.length_nil]
    omega
  | look b len seen hp hlt =>
    rw [hp] at i7
    obtain ⟨j1, j2, j3, -⟩ := i7
    unfold work
    simp only [hp, List.length_append, List.length_singleton]
    omega
  | finish b len seen hp hl =>
    rw [hp] at i7
    obtain ⟨j1, j2, j3, -⟩ := i7
    unfold work
    simp only [hp]
    omega
  | last hp hput h0 =>
    unfold work
    simp only [hp]
    omega

/-- **C45** For every file, every positive block size and every interleaving of the
searching and the reading thread: the block being searched is never the buffer
being filled; the run never gets stuck before the end and every step brings it
closer to the end; and at the end the blocks searched had consecutive offsets and
are together exactly the file. -/
theorem search_file (file : List Nat) (bs : Nat) (hbs : 0 < bs) (mem : Bool → Nat → Nat) (s : FileSt)
    (h : Reach file bs mem s) :
    (∀ b len seen, s.phase = .searching b len seen → s.task.b ≠ b) ∧
    (s.phase ≠ .done → ∃ t, FileStep file bs s t) ∧
    (∀ t, FileStep file bs s t → work file t < work file s) ∧
    (s.phase = .done → Feeds file s.log) := by
  have hi := reach_inv file bs hbs mem s h
  refine ⟨?_, ?_, ?_, ?_⟩
  · intro b len seen hp
    have := hi.ph
    rw [hp] at this
    exact fun e => this.1 e.symm
  · intro hnd
    rcases Nat.lt_or_ge s.task.put s.task.len with hl | hl
    · exact ⟨_, .transfer s hl⟩
    have hput : s.task.put = s.task.len := by have := hi.put; omega
    cases hp : s.phase with
    | waiting =>
      by_cases h0 : s.task.len = 0
      · exact ⟨_, .last s hp hput h0⟩
      · exact ⟨_, .get s hp hput h0⟩
    | searching b len seen =>
      have := hi.ph
      rw [hp] at this
      rcases Nat.lt_or_ge seen.length len with h1 | h1
      · exact ⟨_, .look s b len seen hp h1⟩
      · exact ⟨_, .finish s b len seen hp (by have := this.2.2.1; omega)⟩
    | done => exact absurd hp hnd
  · intro t ht
    exact work_step file bs s t hi ht
  · intro hp
    have := hi.ph
    rw [hp] at this
    exact this

/-- Every run of the search comes to an end, whatever the interleaving so far. -/
theorem search_file_ends (file : List Nat) (bs : Nat) (hbs : 0 < bs) (mem : Bool → Nat → Nat)
    (s : FileSt) (h : Reach file bs mem s) : ∃ t, Reach file bs mem t ∧ t.phase = .done := by
  generalize hw : work file s = w
  induction w using Nat.strongRecOn generalizing s with
  | _ w ih =>
    cases hp : s.phase with
    | done => exact ⟨s, h, hp⟩
    | _ =>
      obtain ⟨t, ht⟩ := (search_file file bs hbs mem s h).2.1 (by rw [hp]; simp)
      exact ih (work file t) (by rw [← hw]; exact (search_file file bs hbs mem s h).2.2.1 t ht) t
        (.step s t h ht) rfl

theorem mapped_spec (file : List Nat) (bs : Nat) (hbs : 0 < bs) (n : Nat) :
    ∀ (pos : Nat) (log : List (Nat × List Nat)), FeedsPrefix file pos log → file.length - pos < n →
      Feeds file (log ++ mappedSearch file bs n pos) := by
  induction n with
  | zero => intro pos log _ h; omega
  | succ n ih =>
    intro pos log hf hn
    have hle := hf.1
    unfold mappedSearch
    simp only
    split
    · next h0 =>
      have hp : pos = file.length := by omega
      have := (feeds_snoc (blk := []) hf (by simp)).2
      simp only [List.length_nil, Nat.add_zero] at this
      rw [hp, List.take_length] at this
      rw [hp]
      exact this
    · next h0 =>
      have hlen : ((file.drop pos).take (min bs (file.length - pos))).length = min bs (file.length - pos) := by
        rw [List.length_take, List.length_drop]; omega
      have := feeds_snoc (blk := (file.drop pos).take (min bs (file.length - pos))) hf (by rw [hlen])
      rw [hlen] at this
      have := ih _ _ this (by omega)
      simpa using this

/-- **C45** (memory-mapped files) -/
theorem search_mapped_file (file : List Nat) (bs : Nat) (hbs : 0 < bs) :
    Feeds file (mappedSearch file bs (file.length + 1) 0) := by
  have := mapped_spec file bs hbs (file.length + 1) 0 [] ⟨Nat.zero_le _, rfl, by intro p c q h; cases p <;> simp at h⟩
    (by omega)
  simpa using this

/-- A block size of zero, which the options accept, searches nothing. -/
theorem block_size_zero (file : List Nat) (n : Nat) : mappedSearch file 0 (n + 1) 0 = [(0, [])] := by
  simp [mappedSearch]

example : mappedSearch [1, 2, 3, 4, 5] 2 6 0 = [(0, [1, 2]), (2, [3, 4]), (4, [5]), (5, [])] := by decide

end Verif.Cmd
