import Verif.PatternList
import Verif.Props.Handles
/-!
# C41: pattern lists

Specification: the text is cut at line breaks, each non-empty piece is a line; a
line's columns are the non-empty pieces between tabs: pattern, encodings (comma
separated), and the options as 0/1; missing columns take the defaults.
-/
namespace Verif.Handles

open Verif.Marshal (Info)

variable {Tree Graph : Type}

/-- The non-empty pieces between separators. -/
noncomputable def pieces (sep : Nat → Bool) (l : List Nat) : List (List Nat) :=
  (l.splitOnP sep).filter (fun p => !p.isEmpty)

/-- The options a line asks for: the first three option columns over the defaults. -/
def lineOpts (F : Front Tree) (o : Opts) (cols : List (List Nat)) : Option Opts :=
  let get (i : Nat) (d : Bool) : Option Bool :=
    match cols[i]? with
    | none => some d
    | some c => F.castBool c
  match get 0 o.fixed, get 1 o.caseInsensitive, get 2 o.unicode with
  | some a, some b, some c => some ⟨a, b, c⟩
  | _, _, _ => none

/-- The encodings a line asks for. -/
noncomputable def lineEncs (defEncs : List (List Nat)) (cols : List (List Nat)) : List (List Nat) :=
  match cols[1]? with
  | none => defEncs
  | some el => pieces (· == 44) el

/-- A line that gives nothing to add: no pattern, or an empty list of encodings. -/
noncomputable def lineBlank (defEncs : List (List Nat)) (cols : List (List Nat)) : Bool :=
  cols.isEmpty || (decide (2 ≤ cols.length) && (lineEncs defEncs cols).isEmpty)

/-- The `lg_add_pattern` calls a line asks for: one for each encoding; none if the
pattern does not parse or the list of encodings is empty.  `none` if an option is
not a truth value. -/
noncomputable def lineCalls (F : Front Tree) (f : Nat) (defEncs : List (List Nat)) (o : Opts)
    (n : Nat) (line : List Nat) : Option (List (Call Tree)) :=
  let cols := pieces (· == 9) line
  if lineBlank defEncs cols = true then some []
  else (lineOpts F o (cols.drop 2)).map fun o' =>
    match F.parse (cols.getD 0 []) o' with
    | none => []
    | some t => (lineEncs defEncs cols).map fun enc => .add f t (cols.getD 0 []) enc n

/-- A line that is itself an error: blank, or a pattern that does not parse. -/
noncomputable def lineBad (F : Front Tree) (defEncs : List (List Nat)) (o : Opts) (line : List Nat) : Bool :=
  let cols := pieces (· == 9) line
  lineBlank defEncs cols ||
    match lineOpts F o (cols.drop 2) with
    | none => false
    | some o' => (F.parse (cols.getD 0 []) o').isNone

/-- The calls asked for by the lines, up to the first line with a bad option. -/
noncomputable def listCalls (F : Front Tree) (f : Nat) (defEncs : List (List Nat)) (o : Opts) :
    Nat → List (List Nat) → List (Call Tree)
  | _, [] => []
  | n, line :: lines =>
    match lineCalls F f defEncs o n line with
    | none => []
    | some cs => cs ++ listCalls F f defEncs o (n + 1) lines

theorem tokGo_eq (sep : Nat → Bool) (l : List Nat) : ∀ acc : List Nat,
    tokGo sep l acc.reverse = (List.splitOnPPrepend sep l acc).filter (fun p => !p.isEmpty) := by
  induction l with
  | nil =>
    intro acc
    cases acc with
    | nil => simp [tokGo, List.splitOnPPrepend]
    | cons a acc => simp [tokGo, List.splitOnPPrepend]
  | cons c l ih =>
    intro acc
    unfold tokGo List.splitOnPPrepend
    by_cases hc : sep c
    · simp only [hc, if_true]
      have h0 := ih []
      simp only [List.reverse_nil] at h0
      cases acc with
      | nil => simp [h0]
      | cons a acc => simp [h0]
    · simp only [hc, Bool.false_eq_true, if_false]
      have := ih (c :: acc)
      rw [List.reverse_cons] at this
      exact this

theorem tokens_eq (sep : Nat → Bool) (l : List Nat) : tokens sep l = pieces sep l := by
  have := tokGo_eq sep l []
  simp only [List.reverse_nil] at this
  exact this

theorem runCalls_append (E : Engine Tree Graph) (a b : List (Call Tree)) (w : World Graph) :
    (runCalls E w (a ++ b)).1 = (runCalls E (runCalls E w a).1 b).1 := by
  induction a generalizing w with
  | nil => rfl
  | cons c a ih => simp [runCalls, ih]

/-- How many calls of a history were refused. -/
def refused (tr : List (Call Tree × Int)) : Nat := tr.countP (fun x => x.2 == -1)

theorem runCalls_append_tr (E : Engine Tree Graph) (a b : List (Call Tree)) (w : World Graph) :
    (runCalls E w (a ++ b)).2 = (runCalls E w a).2 ++ (runCalls E (runCalls E w a).1 b).2 := by
  induction a generalizing w with
  | nil => rfl
  | cons c a ih => simp [runCalls, ih]

theorem addEncodings_eq (E : Engine Tree Graph) (f : Nat) (t : Tree) (pat : List Nat) (n : Nat)
    (encs : List (List Nat)) (s : ImpSt Graph) :
    (addEncodings E f t pat n encs s).world =
      (runCalls E s.world (encs.map fun enc => .add f t pat enc n)).1 ∧
    (addEncodings E f t pat n encs s).errs.length =
      s.errs.length + refused (runCalls E s.world (encs.map fun enc => .add f t pat enc n)).2 := by
  induction encs generalizing s with
  | nil => simp [addEncodings, runCalls, refused]
  | cons e encs ih =>
    simp only [addEncodings, List.map_cons, runCalls, step]
    refine ⟨(ih _).1, ?_⟩
    rw [(ih _).2]
    unfold refused
    rw [List.countP_cons]
    by_cases h : (addPattern E s.world f t pat e n).2 = -1
    · simp only [h, if_true, List.length_append, List.length_singleton, beq_self_eq_true]; omega
    · simp only [h, if_false, beq_iff_eq]; omega

theorem readOpts_eq (F : Front Tree) (o : Opts) (cols : List (List Nat)) :
    readOpts F o cols = lineOpts F o cols := by
  match cols with
  | [] => rfl
  | [c1] => unfold readOpts lineOpts; simp; cases F.castBool c1 <;> rfl
  | [c1, c2] =>
    unfold readOpts lineOpts; simp
    cases F.castBool c1 <;> cases F.castBool c2 <;> rfl
  | c1 :: c2 :: c3 :: cs =>
    unfold readOpts lineOpts; simp
    cases F.castBool c1 <;> cases F.castBool c2 <;> cases F.castBool c3 <;> rfl

theorem addLine_eq (E : Engine Tree Graph) (F : Front Tree) (f : Nat) (defEncs : List (List Nat))
    (o : Opts) (n : Nat) (line : List Nat) (s : ImpSt Graph) :
    match lineCalls F f defEncs o n line with
    | none => addLine E F f defEncs o n line s = none
    | some cs => ∃ s', addLine E F f defEncs o n line s = some s' ∧
        s'.world = (runCalls E s.world cs).1 ∧
        s'.errs.length = s.errs.length + (lineBad F defEncs o line).toNat +
          refused (runCalls E s.world cs).2 := by
  unfold lineCalls addLine lineBad
  rw [tokens_eq]
  match hc : pieces (· == 9) line with
  | [] =>
    simp [lineBlank, runCalls, refused]
  | [pat] =>
    simp [lineOpts, lineBlank, lineEncs]
    unfold addPatternHelper
    cases F.parse pat o with
    | none => simp [runCalls, refused]
    | some t => simpa using addEncodings_eq E f t pat n defEncs s
  | pat :: el :: rest =>
    simp only [tokens_eq, List.length_cons, List.getElem?_cons_succ, List.getElem?_cons_zero,
      List.drop_succ_cons, List.drop_zero, List.getD_cons_zero, lineBlank, lineEncs]
    cases he : pieces (· == 44) el with
    | nil =>
      simp [runCalls, refused]
    | cons e encs =>
      rw [readOpts_eq]
      cases lineOpts F o rest with
      | none => simp
      | some o' =>
        simp
        unfold addPatternHelper
        cases F.parse pat o' with
        | none => simp [runCalls, refused]
        | some t => simpa using addEncodings_eq E f t pat n (e :: encs) s

/-- Lines that are themselves errors, up to the first line with a bad option. -/
noncomputable def badLines (F : Front Tree) (f : Nat) (defEncs : List (List Nat)) (o : Opts) :
    Nat → List (List Nat) → Nat
  | _, [] => 0
  | n, line :: lines =>
    match lineCalls F f defEncs o n line with
    | none => 0
    | some _ => (lineBad F defEncs o line).toNat + badLines F f defEncs o (n + 1) lines

/-- Is there a line whose options cannot be read? -/
noncomputable def badOption (F : Front Tree) (f : Nat) (defEncs : List (List Nat)) (o : Opts) (lines : List (List Nat)) :
    Bool := lines.any fun line => (lineCalls F f defEncs o 0 line).isNone

theorem lineCalls_isNone (F : Front Tree) (f : Nat) (defEncs : List (List Nat)) (o : Opts)
    (n m : Nat) (line : List Nat) :
    (lineCalls F f defEncs o n line).isNone = (lineCalls F f defEncs o m line).isNone := by
  unfold lineCalls
  simp only
  split
  · rfl
  · simp

theorem addLines_eq (E : Engine Tree Graph) (F : Front Tree) (f : Nat) (defEncs : List (List Nat))
    (o : Opts) (lines : List (List Nat)) :
    ∀ (n : Nat) (s : ImpSt Graph),
      (addLines E F f defEncs o n lines s).1.world =
        (runCalls E s.world (listCalls F f defEncs o n lines)).1 ∧
      (addLines E F f defEncs o n lines s).2 = badOption F f defEncs o lines ∧
      (addLines E F f defEncs o n lines s).1.errs.length = s.errs.length +
        badLines F f defEncs o n lines +
        refused (runCalls E s.world (listCalls F f defEncs o n lines)).2 := by
  induction lines with
  | nil => intro n s; simp [addLines, listCalls, runCalls, badOption, badLines, refused]
  | cons line lines ih =>
    intro n s
    have := addLine_eq E F f defEncs o n line s
    have hn := lineCalls_isNone F f defEncs o 0 n line
    unfold addLines listCalls badLines
    cases h : lineCalls F f defEncs o n line with
    | none =>
      rw [h] at this hn
      simp only at this
      rw [this]
      simp [runCalls, refused, badOption, hn]
    | some cs =>
      rw [h] at this hn
      obtain ⟨s', h1, h2, h3⟩ := this
      rw [h1]
      simp only
      obtain ⟨i1, i2, i3⟩ := ih (n + 1) s'
      refine ⟨?_, ?_, ?_⟩
      · rw [i1, runCalls_append, h2]
      · rw [i2]; simp [badOption, hn]
      · rw [i3, runCalls_append_tr, h2, h3]
        simp only [refused, List.countP_append]
        omega

/-- The lines of the text. -/
noncomputable def textLines (patterns : List Nat) : List (List Nat) :=
  pieces (fun c => c == 10 || c == 13) (cstr patterns)

/-- **C41** (part) With a non-null error argument, a pattern list has exactly the
effect of the `lg_add_pattern` calls its lines ask for, in order, each with the
number of its line (blank lines are not numbered).  If all options can be read, the
error chain has one entry for each refused call, each pattern that does not parse
and each line without pattern or encodings; otherwise the calls are those of the
lines before the first bad option and the chain has one entry.

Not as claimed in C41: the return value, see `pattern_list_never_reports_success`
and `pattern_list_needs_error_argument`. -/
theorem pattern_list_partial (E : Engine Tree Graph) (F : Front Tree) (w : World Graph) (f : Nat)
    (patterns : List Nat) (defEncs : List (List Nat)) (o : Opts) :
    (addPatternList E F w f patterns defEncs o).1 =
      (runCalls E w (listCalls F f defEncs o 0 (textLines patterns))).1 ∧
    (addPatternList E F w f patterns defEncs o).2.1 =
      if badOption F f defEncs o (textLines patterns) then 1
      else badLines F f defEncs o 0 (textLines patterns) +
        refused (runCalls E w (listCalls F f defEncs o 0 (textLines patterns))).2 := by
  obtain ⟨h1, h2, h3⟩ := addLines_eq E F f defEncs o (textLines patterns) 0 ⟨w, []⟩
  unfold addPatternList
  rw [tokens_eq]
  rw [show pieces (fun c => c == 10 || c == 13) (cstr patterns) = textLines patterns from rfl]
  simp only
  rw [h2]
  cases badOption F f defEncs o (textLines patterns) with
  | true => exact ⟨h1, rfl⟩
  | false => exact ⟨h1, by simpa using h3⟩

/-- The other half of C41 fails: with a non-null error argument the return value is
-1 whatever happened. -/
theorem pattern_list_never_reports_success (E : Engine Tree Graph) (F : Front Tree) (w : World Graph)
    (f : Nat) (patterns : List Nat) (defEncs : List (List Nat)) (o : Opts) :
    (addPatternList E F w f patterns defEncs o).2.2 = -1 := by
  unfold addPatternList
  simp only
  split <;> rfl

/-- And with a null one, a list whose first line is a pattern alone dereferences a
null pointer. -/
theorem pattern_list_needs_error_argument (F : Front Tree) (o : Opts) (line : List Nat)
    (lines : List (List Nat)) (h : (pieces (· == 9) line).length = 1) :
    addPatternListNullErr F o (line :: lines) = none := by
  unfold addPatternListNullErr reachesHelper
  rw [tokens_eq]
  match hc : pieces (· == 9) line with
  | [] => rw [hc] at h; simp at h
  | [p] => rfl
  | _ :: _ :: _ => rw [hc] at h; simp at h

/-- A list of three lines, with a blank one between: "ab", "", "c\tA,U\t1". -/
example : (addPatternList (⟨(), fun _ _ _ _ => ((), true), fun _ => ((), true)⟩ : Engine Unit Unit)
    ⟨fun _ _ => some (), fun c => if c = [49] then some true else if c = [48] then some false else none⟩
    (step (⟨(), fun _ _ _ _ => ((), true), fun _ => ((), true)⟩ : Engine Unit Unit) World.init .createFsm).1 0
    [97, 98, 10, 10, 99, 9, 65, 44, 85, 9, 49] [[68]] ⟨false, false, false⟩).1.maps =
    [[⟨[97, 98], [68], 0⟩, ⟨[99], [65], 1⟩, ⟨[99], [85], 1⟩]] := by decide +kernel

end Verif.Handles
