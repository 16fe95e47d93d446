import Verif.CmdLine
import Verif.Props.PatternList
/-!
# Patterns on the command line

**C76**.  Patterns given on the command line are added as they are given, one after the other, each
with every encoding and with the options of the command line.  They pass through the text of a
pattern list, so this holds only for patterns without tabs and line breaks which are not empty
(`command_line_partial`): a pattern with a tab makes all patterns be ignored
(`tab_ignores_all`), one with a line break is taken for two (`break_splits`), and for an empty one
the encoding is taken for the pattern (`empty_shifts`).
-/
namespace Verif.Handles

variable {Tree Graph : Type}

/-- Characters with a meaning in pattern lists, and the end of a string. -/
def Plain (p : List Nat) : Prop := p ≠ [] ∧ ∀ c ∈ p, c ≠ 0 ∧ c ≠ 9 ∧ c ≠ 10 ∧ c ≠ 13

/-- What the command line asks for. -/
def cmdCalls (F : Front Tree) (f : Nat) (o : CmdOptions) : Nat → List (List Nat) → List (Call Tree)
  | _, [] => []
  | n, p :: ps =>
    (match F.parse p ⟨o.literal, o.caseInsensitive, o.unicode⟩ with
      | none => []
      | some t => o.encodings.map fun enc => .add f t p enc n) ++ cmdCalls F f o (n + 1) ps

/-- How many of the patterns do not parse. -/
def cmdBad (F : Front Tree) (o : CmdOptions) (ps : List (List Nat)) : Nat :=
  ps.countP fun p => (F.parse p ⟨o.literal, o.caseInsensitive, o.unicode⟩).isNone

theorem tokGo_piece {sep : Nat → Bool} {s : Nat} (hs : sep s = true) (rest : List Nat) : ∀ (a cur : List Nat),
    (∀ c ∈ a, sep c = false) → cur ++ a ≠ [] → tokGo sep (a ++ s :: rest) cur = (cur ++ a) :: tokGo sep rest []
  | [], cur, _, h => by
    have hc : cur.isEmpty = false := by cases cur <;> simp_all
    simp [tokGo, hs, hc]
  | c :: a, cur, ha, _ => by
    have h := tokGo_piece hs rest a (cur ++ [c]) (fun x hx => ha x (by simp [hx])) (by simp)
    rw [List.cons_append, tokGo, ha c (by simp)]
    simp only [Bool.false_eq_true, if_false]
    rw [h]
    simp

theorem tokGo_last {sep : Nat → Bool} : ∀ (a cur : List Nat),
    (∀ c ∈ a, sep c = false) → cur ++ a ≠ [] → tokGo sep a cur = [cur ++ a]
  | [], cur, _, h => by
    have hc : cur.isEmpty = false := by cases cur <;> simp_all
    simp [tokGo, hc]
  | c :: a, cur, ha, _ => by
    have h := tokGo_last a (cur ++ [c]) (fun x hx => ha x (by simp [hx])) (by simp)
    rw [tokGo, ha c (by simp)]
    simp only [Bool.false_eq_true, if_false]
    rw [h]
    simp

/-- Pieces ended by a separator each. -/
theorem tokens_ended {sep : Nat → Bool} {s : Nat} (hs : sep s = true) : ∀ (l : List (List Nat)),
    (∀ a ∈ l, a ≠ [] ∧ ∀ c ∈ a, sep c = false) → tokens sep (l.flatMap fun a => a ++ [s]) = l
  | [], _ => by simp [tokens, tokGo]
  | a :: l, h => by
    have ih := tokens_ended hs l fun x hx => h x (by simp [hx])
    unfold tokens at ih ⊢
    rw [List.flatMap_cons, List.append_assoc, List.singleton_append,
      tokGo_piece hs _ a [] (h a (by simp)).2 (by simpa using (h a (by simp)).1), ih]
    simp

/-- The hypotheses on the options: at least one encoding, and names without commas. -/
structure Sensible (F : Front Tree) (o : CmdOptions) : Prop where
  patterns : ∀ p ∈ o.patterns, Plain p
  some : o.encodings ≠ []
  encodings : ∀ e ∈ o.encodings, Plain e ∧ 44 ∉ e
  zero : F.castBool [48] = .some false
  one : F.castBool [49] = .some true

theorem castBool_digit {F : Front Tree} {o : CmdOptions} (h : Sensible F o) (b : Bool) : F.castBool (digit b) = .some b := by
  cases b
  · exact h.zero
  · exact h.one

theorem digit_plain (b : Bool) : Plain (digit b) := by cases b <;> simp [digit, Plain]

theorem encs_plain {F : Front Tree} {o : CmdOptions} (h : Sensible F o) : Plain (o.encodings.flatMap fun e => e ++ [44]) := by
  constructor
  · obtain ⟨e, he⟩ := List.exists_mem_of_ne_nil _ h.some
    intro hc
    have := List.flatMap_eq_nil_iff.1 hc e he
    simp at this
  · intro c hc
    obtain ⟨e, he, hce⟩ := List.mem_flatMap.1 hc
    rcases List.mem_append.1 hce with h1 | h1
    · exact (h.encodings e he).1.2 c h1
    · rw [List.mem_singleton] at h1; subst h1; decide

theorem line_columns {F : Front Tree} {o : CmdOptions} (h : Sensible F o) {p : List Nat} (hp : Plain p) :
    tokens (· == 9) (patternLine o p) =
      [p, o.encodings.flatMap (fun e => e ++ [44]), digit o.literal, digit o.caseInsensitive] := by
  have nine : ∀ {a : List Nat}, Plain a → ∀ c ∈ a, (c == 9) = false := by
    intro a ha c hc
    have := (ha.2 c hc).2.1
    simpa using this
  have e := encs_plain h
  unfold tokens patternLine
  simp only [List.append_assoc, List.singleton_append, List.cons_append, List.nil_append]
  rw [tokGo_piece (by rfl) _ p [] (nine hp) (by simpa using hp.1),
    tokGo_piece (by rfl) _ _ [] (nine e) (by simpa using e.1),
    tokGo_piece (by rfl) _ _ [] (nine (digit_plain _)) (by simpa using (digit_plain _).1),
    tokGo_last _ [] (nine (digit_plain _)) (by simpa using (digit_plain _).1)]
  simp

theorem line_calls {F : Front Tree} {o : CmdOptions} (h : Sensible F o) {p : List Nat} (hp : Plain p) (f n : Nat) :
    lineCalls F f o.encodings ⟨o.literal, o.caseInsensitive, o.unicode⟩ n (patternLine o p) =
      .some (match F.parse p ⟨o.literal, o.caseInsensitive, o.unicode⟩ with
        | none => []
        | some t => o.encodings.map fun enc => .add f t p enc n) ∧
    lineBad F o.encodings ⟨o.literal, o.caseInsensitive, o.unicode⟩ (patternLine o p) =
      (F.parse p ⟨o.literal, o.caseInsensitive, o.unicode⟩).isNone := by
  have hcols := line_columns h hp
  rw [tokens_eq] at hcols
  have hencs : pieces (· == 44) (o.encodings.flatMap fun e => e ++ [44]) = o.encodings := by
    rw [← tokens_eq]
    refine tokens_ended (by rfl) _ fun e he => ⟨(h.encodings e he).1.1, fun c hc => ?_⟩
    have : c ≠ 44 := fun hc' => (h.encodings e he).2 (hc' ▸ hc)
    simpa using this
  have hle : lineEncs o.encodings [p, o.encodings.flatMap (fun e => e ++ [44]), digit o.literal, digit o.caseInsensitive] =
      o.encodings := by
    simp [lineEncs, hencs]
  have hb : lineBlank o.encodings [p, o.encodings.flatMap (fun e => e ++ [44]), digit o.literal, digit o.caseInsensitive] = false := by
    have := h.some
    simp [lineBlank, hle, this]
  have ho : lineOpts F ⟨o.literal, o.caseInsensitive, o.unicode⟩ [digit o.literal, digit o.caseInsensitive] =
      .some ⟨o.literal, o.caseInsensitive, o.unicode⟩ := by
    simp [lineOpts, castBool_digit h]
  constructor
  · unfold lineCalls
    simp only [hcols, hb, hle, Bool.false_eq_true, if_false, List.drop_succ_cons, List.drop_zero, ho, Option.map_some,
      List.getD_cons_zero]
    rfl
  · unfold lineBad
    simp only [hcols, hb, List.drop_succ_cons, List.drop_zero, ho, List.getD_cons_zero, Bool.false_or]

theorem text_lines {F : Front Tree} {o : CmdOptions} (h : Sensible F o) :
    textLines (o.patterns.flatMap fun p => patternLine o p ++ [10]) = o.patterns.map (patternLine o) := by
  have hl : ∀ p ∈ o.patterns, patternLine o p ≠ [] ∧ ∀ c ∈ patternLine o p, c ≠ 0 ∧ c ≠ 10 ∧ c ≠ 13 := by
    intro p hp
    refine ⟨by simp [patternLine], fun c hc => ?_⟩
    have h1 := h.patterns p hp
    have h2 := encs_plain h
    have h3 := digit_plain o.literal
    have h4 := digit_plain o.caseInsensitive
    unfold patternLine at hc
    simp only [List.mem_append, List.mem_singleton] at hc
    rcases hc with ((((((hc | rfl) | hc) | rfl) | hc) | rfl) | hc)
    · exact ⟨(h1.2 c hc).1, (h1.2 c hc).2.2⟩
    · decide
    · exact ⟨(h2.2 c hc).1, (h2.2 c hc).2.2⟩
    · decide
    · exact ⟨(h3.2 c hc).1, (h3.2 c hc).2.2⟩
    · decide
    · exact ⟨(h4.2 c hc).1, (h4.2 c hc).2.2⟩
  unfold textLines
  have hz : cstr (o.patterns.flatMap fun p => patternLine o p ++ [10]) = o.patterns.flatMap fun p => patternLine o p ++ [10] := by
    unfold cstr
    have key : ∀ l : List Nat, (∀ c ∈ l, decide (c ≠ 0) = true) → l.takeWhile (fun b => decide (b ≠ 0)) = l := by
      intro l
      induction l with
      | nil => intro _; rfl
      | cons a l ih => intro hl; rw [List.takeWhile_cons_of_pos (p := fun b => decide (b ≠ 0)) (hl a (by simp)), ih fun c hc => hl c (by simp [hc])]
    apply key
    intro c hc
    obtain ⟨p, hp, hc⟩ := List.mem_flatMap.1 hc
    rcases List.mem_append.1 hc with hc | hc
    · simpa using ((hl p hp).2 c hc).1
    · rw [List.mem_singleton] at hc; subst hc; decide
  rw [hz, ← tokens_eq]
  have := tokens_ended (sep := fun c => c == 10 || c == 13) (s := 10) (by rfl) (o.patterns.map (patternLine o)) ?_
  · rw [List.flatMap_map] at this
    exact this
  · intro a ha
    obtain ⟨p, hp, rfl⟩ := List.mem_map.1 ha
    refine ⟨(hl p hp).1, fun c hc => ?_⟩
    have := (hl p hp).2 c hc
    simp [this.2.1, this.2.2]

theorem list_calls {F : Front Tree} {o : CmdOptions} (h : Sensible F o) (f : Nat) : ∀ (ps : List (List Nat)) (n : Nat),
    (∀ p ∈ ps, Plain p) →
    listCalls F f o.encodings ⟨o.literal, o.caseInsensitive, o.unicode⟩ n (ps.map (patternLine o)) = cmdCalls F f o n ps ∧
    badLines F f o.encodings ⟨o.literal, o.caseInsensitive, o.unicode⟩ n (ps.map (patternLine o)) = cmdBad F o ps ∧
    badOption F f o.encodings ⟨o.literal, o.caseInsensitive, o.unicode⟩ (ps.map (patternLine o)) = false
  | [], n, _ => by simp [listCalls, cmdCalls, badLines, cmdBad, badOption]
  | p :: ps, n, hp => by
    obtain ⟨i1, i2, i3⟩ := list_calls h f ps (n + 1) fun q hq => hp q (by simp [hq])
    obtain ⟨h1, h2⟩ := line_calls h (hp p (by simp)) f n
    obtain ⟨h3, -⟩ := line_calls h (hp p (by simp)) f 0
    refine ⟨?_, ?_, ?_⟩
    · rw [List.map_cons, listCalls, h1, cmdCalls, i1]
    · rw [List.map_cons, badLines, h1]
      simp only [h2, i2, cmdBad, List.countP_cons]
      cases (F.parse p ⟨o.literal, o.caseInsensitive, o.unicode⟩).isNone <;> simp <;> omega
    · unfold badOption at i3 ⊢
      rw [List.map_cons, List.any_cons, i3, h3]
      rfl

/-- **C76**, proved part: patterns given on the command line that are not empty and contain no
tab, line break or NUL.  They are added as if by calls of `lg_add_pattern`, in the order given,
each once for every encoding in the order given, parsed with the options given; and there is one
error for each call refused and each pattern that does not parse. -/
theorem command_line_partial (E : Engine Tree Graph) (F : Front Tree) (w : World Graph) (f : Nat) {o : CmdOptions}
    (h : Sensible F o) (hn : o.patterns ≠ []) :
    (parsePatterns E F f o w).1 = (runCalls E w (cmdCalls F f o 0 o.patterns)).1 ∧
    (parsePatterns E F f o w).2 = cmdBad F o o.patterns + refused (runCalls E w (cmdCalls F f o 0 o.patterns)).2 := by
  have hg : getPatternLines o = [o.patterns.flatMap fun p => patternLine o p ++ [10]] := by
    unfold getPatternLines
    cases hp : o.patterns with
    | nil => exact absurd hp hn
    | cons a b => rfl
  obtain ⟨h1, h2⟩ := pattern_list_partial E F w f (o.patterns.flatMap fun p => patternLine o p ++ [10]) o.encodings
    ⟨o.literal, o.caseInsensitive, o.unicode⟩
  obtain ⟨c1, c2, c3⟩ := list_calls h f o.patterns 0 h.patterns
  rw [text_lines h] at h1 h2
  rw [c1] at h1 h2
  rw [c2, c3] at h2
  unfold parsePatterns
  rw [hg]
  simp only [parseTexts, Nat.add_zero]
  exact ⟨h1, by simpa using h2⟩

/-- Without patterns on the command line the files are read, as pattern lists, in order; those
that cannot be opened are passed over. -/
theorem files_in_order (E : Engine Tree Graph) (F : Front Tree) (f : Nat) {o : CmdOptions} (h : o.patterns = []) (w : World Graph) :
    (parsePatterns E F f o w).1 = (runCalls E w ((o.files.filterMap id).flatMap fun text =>
      listCalls F f o.encodings ⟨o.literal, o.caseInsensitive, o.unicode⟩ 0 (textLines text))).1 := by
  have hg : getPatternLines o = o.files.filterMap id := by
    unfold getPatternLines; rw [h]; rfl
  unfold parsePatterns
  rw [hg]
  generalize o.files.filterMap id = texts
  induction texts generalizing w with
  | nil => rfl
  | cons t ts ih =>
    simp only [parseTexts, List.flatMap_cons]
    rw [ih, runCalls_append, (pattern_list_partial E F w f t o.encodings ⟨o.literal, o.caseInsensitive, o.unicode⟩).1]

/-! ## Where it fails -/

/-- A front end that takes every pattern, and one FSM. -/
def anyFront : Front (List Nat) :=
  ⟨fun p _ => some p, fun c => if c = [49] then some true else if c = [48] then some false else none⟩

def anyEngine : Engine (List Nat) Unit := ⟨(), fun _ _ _ _ => ((), true), fun _ => ((), true)⟩

/-- The patterns in the FSM after `-p` with each of the patterns, with the encoding `A`. -/
def after (ps : List (List Nat)) : List (List Marshal.Info) :=
  (parsePatterns anyEngine anyFront 0 ⟨ps, [], [[65]], true, false, false⟩ (step anyEngine World.init .createFsm).1).1.maps

/-- **C76** fails: a pattern with a tab, here `a<tab>b`, makes it and all that follow be ignored,
even as a fixed string. -/
theorem tab_ignores_all : after [[97, 9, 98], [99]] = [[]] := by decide +kernel

/-- A pattern with a line break is taken for two. -/
theorem break_splits : after [[97, 10, 98]] = [[⟨[97], [65], 0⟩, ⟨[98], [65], 1⟩]] := by decide +kernel

/-- For an empty pattern the encodings are taken for the pattern, and the option for the
encoding. -/
theorem empty_shifts : after [[]] = [[⟨[65, 44], [49], 0⟩]] := by decide +kernel

/-! ## Example -/

/-- `-p 'a,b' -p c -e A -e B -F` -/
example : Sensible anyFront ⟨[[97, 44, 98], [99]], [], [[65], [66]], true, false, false⟩ := by
  refine ⟨?_, by simp, ?_, rfl, rfl⟩
  · intro p hp
    simp only [List.mem_cons, List.not_mem_nil, or_false] at hp
    rcases hp with rfl | rfl <;> simp [Plain]
  · intro p hp
    simp only [List.mem_cons, List.not_mem_nil, or_false] at hp
    rcases hp with rfl | rfl <;> simp [Plain]

example : after [[97, 44, 98], [99]] = [[⟨[97, 44, 98], [65], 0⟩, ⟨[99], [65], 1⟩]] := by decide +kernel

end Verif.Handles
