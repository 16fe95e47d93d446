import Verif.SearchCmd
import Verif.Props.HitText
/-!
# C80, C81: the search command
-/
namespace Verif.Cmd

open Verif.Vm

/-! ## Blocks of a file that is not mapped -/

/-- The blocks from `pos` on. -/
def blocksFrom (file : List Nat) (bs pos : Nat) : List (Nat × List Nat) :=
  mappedSearch file bs (file.length - pos + 1) pos

theorem mappedSearch_more (file : List Nat) {bs : Nat} (hbs : 0 < bs) : ∀ n pos, file.length - pos < n →
    mappedSearch file bs (n + 1) pos = mappedSearch file bs n pos := by
  intro n
  induction n with
  | zero => intro pos h; omega
  | succ n ih =>
    intro pos h
    have key : ∀ n, mappedSearch file bs (n + 1) pos = if min bs (file.length - pos) = 0 then [(pos, [])]
        else (pos, (file.drop pos).take (min bs (file.length - pos))) ::
          mappedSearch file bs n (pos + min bs (file.length - pos)) := fun _ => rfl
    rw [key, key]
    split
    · rfl
    · next h0 => rw [ih _ (by omega)]

theorem mappedSearch_enough (file : List Nat) {bs : Nat} (hbs : 0 < bs) (pos : Nat) : ∀ n, file.length - pos < n →
    mappedSearch file bs n pos = blocksFrom file bs pos := by
  intro n h
  obtain ⟨k, rfl⟩ : ∃ k, n = file.length - pos + 1 + k := ⟨n - (file.length - pos + 1), by omega⟩
  clear h
  induction k with
  | zero => rfl
  | succ k ih => rw [← Nat.add_assoc, mappedSearch_more file hbs _ _ (by omega), ih]

theorem blocksFrom_eq (file : List Nat) {bs : Nat} (hbs : 0 < bs) (pos : Nat) :
    blocksFrom file bs pos = if min bs (file.length - pos) = 0 then [(pos, [])]
      else (pos, (file.drop pos).take (min bs (file.length - pos))) ::
        blocksFrom file bs (pos + min bs (file.length - pos)) := by
  conv => lhs; unfold blocksFrom mappedSearch
  simp only
  split
  · rfl
  · next h0 => rw [mappedSearch_enough file hbs _ _ (by omega)]

/-- A file read into a buffer is searched in the same blocks as a mapped one, however the reading
and the searching thread interleave. -/
theorem file_blocks (file : List Nat) {bs : Nat} (hbs : 0 < bs) (mem : Bool → Nat → Nat) {s : FileSt}
    (h : Reach file bs mem s) (hd : s.phase = .done) : s.log = mappedSearch file bs (file.length + 1) 0 := by
  have key : match s.phase with
      | .waiting => s.log ++ blocksFrom file bs s.offset = blocksFrom file bs 0
      | .searching _ len _ => s.log ++ blocksFrom file bs s.offset = blocksFrom file bs 0 ∧
          len = min bs (file.length - s.offset) ∧ len ≠ 0
      | .done => s.log = blocksFrom file bs 0 := by
    clear hd
    induction h with
    | init => simp [fileInit, readAsync]
    | step s t hr ht ih =>
      have hi := reach_inv file bs hbs mem s hr
      cases ht with
      | transfer h => exact ih
      | get hp h h0 =>
        have hph := hi.ph
        rw [hp] at ih hph
        simp only [readAsync]
        refine ⟨ih, ?_, h0⟩
        rw [hi.len, hph.1]
      | look b len seen hp h =>
        rw [hp] at ih
        exact ih
      | finish b len seen hp h =>
        have hph := hi.ph
        rw [hp] at ih hph
        obtain ⟨i1, i2, i3⟩ := ih
        rw [blocksFrom_eq file hbs, if_neg (by omega), ← i2] at i1
        obtain ⟨-, -, -, -, h5, -⟩ := hph
        rw [h] at h5
        simp only
        rw [List.append_assoc]
        rw [← h5] at i1
        exact i1
      | last hp h h0 =>
        have hph := hi.ph
        rw [hp] at ih hph
        have hl := hi.len
        rw [blocksFrom_eq file hbs, if_pos (by rw [hph.1, ← hl, h0])] at ih
        exact ih
  rw [hd] at key
  rw [key, mappedSearch_enough file hbs 0 _ (by omega)]

/-! ## Specification: what is searched -/

/-- An input that is searched. -/
structure Visit where
  /-- the path printed -/
  shown : Str
  stdin : Bool
  mapped : Bool
  content : List UInt8

/-- A file found at a path: `none` if it cannot be opened, or mapped when files are to be
mapped. -/
def fileVisit (mm : Bool) (p : Str) (r m : Option (List UInt8)) : Option Visit :=
  (if mm then m else r).map fun c => ⟨p, false, mm, c⟩

/-- What an input stands for: all files in or below a directory if directories are traversed,
nothing for a directory otherwise, standard input for `-`, else the file itself.  `none`: an
input that cannot be opened. -/
def visitsOf (w : World) (mm recursive : Bool) (i : Str) : List (Option Visit) :=
  match w.node i with
  | some (.dir es) => if recursive then (walk i es).map fun f => fileVisit mm f.1 f.2.1 f.2.2 else []
  | some (.file r m) => [if i = dash then some ⟨stdinName, true, false, w.stdin⟩ else fileVisit mm i r m]
  | none => [if i = dash then some ⟨stdinName, true, false, w.stdin⟩ else none]

/-- Only the first `-`, and none if standard input has been used. -/
def onceDash : Bool → List Str → List Str
  | _, [] => []
  | used, i :: is => if i = dash then (if used then onceDash true is else i :: onceDash true is)
      else i :: onceDash used is

/-- Everything the inputs stand for. -/
def inputVisits (w : World) (mm recursive used : Bool) (is : List Str) : List (Option Visit) :=
  (onceDash used is).flatMap (visitsOf w mm recursive)

/-- Everything the lists of inputs stand for: the lines of each list are inputs. -/
def listVisits (w : World) (mm recursive : Bool) : Bool → List Str → List (Option Visit)
  | _, [] => []
  | used, l :: ls =>
    if l = dash then
      (if used then [] else inputVisits w mm recursive true (getLines [] w.stdin)) ++ listVisits w mm recursive true ls
    else
      match w.node l with
      | some (.file (some c) _) =>
        inputVisits w mm recursive used (getLines [] c) ++
          listVisits w mm recursive (used || decide (dash ∈ getLines [] c)) ls
      | some (.dir _) => listVisits w mm recursive used ls
      | _ => none :: listVisits w mm recursive used ls

/-- Whether the lists use standard input. -/
def listsUse (w : World) (lists : List Str) : Bool :=
  lists.any fun l => decide (l = dash) ||
    match w.node l with
    | some (.file (some c) _) => decide (dash ∈ getLines [] c)
    | _ => false

/-- Everything a command is to search. -/
def allVisits (w : World) (mm recursive : Bool) (lists inputs : List Str) : List (Option Visit) :=
  listVisits w mm recursive false lists ++ inputVisits w mm recursive (listsUse w lists) inputs

/-- Those before the first that cannot be opened. -/
def opened : List (Option Visit) → List Visit
  | some v :: vs => v :: opened vs
  | _ => []

/-! ## Specification: what is printed -/

/-- The hits in a sequence of events, each with the buffer it is reported in. -/
def reported : Buf → List Event → List (Buf × SHit)
  | _, [] => []
  | _, .buffer b :: es => reported b es
  | b, .hit h _ :: es => (b, h) :: reported b es

/-- The line for a hit. -/
def line (F : Fmt) (D : Display) (path : Str) (b : Buf) (h : SHit) : Str :=
  (if F.style.path then path ++ [9] else []) ++ hitColumns (D.info h.kw) h ++
    (if F.style.context then contextColumns ((D.decode b h).getD (⟨[], 0, 0⟩, 0)) else []) ++ [10]

/-- What is printed: nothing, or the lines, with a separating line between any two when context is
shown. -/
def printed (F : Fmt) (ls : List Str) : Str :=
  if F.style.output then
    if F.style.context then (ls.intersperse (F.groupSep ++ [10])).flatten else ls.flatten
  else []

/-! ## What the helpers of the specification are -/

/-- A list of inputs is read line by line: lines without the newline, and a last line that no
newline ends counts unless it is empty. -/
theorem list_lines (ls : List (List UInt8)) (last : List UInt8) (h : ∀ l ∈ ls, (10 : UInt8) ∉ l) (hl : (10 : UInt8) ∉ last) :
    getLines [] ((ls.flatMap fun l => l ++ [10]) ++ last) =
      (ls ++ if last = [] then [] else [last]).map fun l => l.map UInt8.toNat := by
  have key : ∀ (l : List UInt8) (cur : Str) (rest : List UInt8), (10 : UInt8) ∉ l →
      getLines cur (l ++ 10 :: rest) = (cur ++ l.map UInt8.toNat) :: getLines [] rest := by
    intro l
    induction l with
    | nil => intro cur rest _; simp [getLines]
    | cons c l ih =>
      intro cur rest hl
      simp only [List.mem_cons, not_or] at hl
      rw [List.cons_append, getLines, if_neg (Ne.symm hl.1), ih _ _ hl.2]
      simp
  have end' : ∀ (l : List UInt8) (cur : Str), (10 : UInt8) ∉ l →
      getLines cur l = if cur ++ l.map UInt8.toNat = [] then [] else [cur ++ l.map UInt8.toNat] := by
    intro l
    induction l with
    | nil => intro cur _; simp [getLines]
    | cons c l ih =>
      intro cur hl
      simp only [List.mem_cons, not_or] at hl
      rw [getLines, if_neg (Ne.symm hl.1), ih _ hl.2]
      simp
  induction ls with
  | nil =>
    rw [List.flatMap_nil, List.nil_append, end' _ _ hl]
    cases last <;> simp
  | cons l ls ih =>
    have := key l [] ((ls.flatMap fun l => l ++ [10]) ++ last) (h l (by simp))
    simp only [List.flatMap_cons, List.append_assoc, List.cons_append, List.nil_append] at this ⊢
    rw [this, ih (fun l hl => h l (by simp [hl]))]
    simp

-- Every content of a file is of this form: here two lines, the second not ended.
example : getLines [] [97, 98, 10, 99] = [[97, 98], [99]] :=
  list_lines [[97, 98]] [99] (by decide) (by decide)

/-- The number that digits denote. -/
def number (ds : Str) : Nat := ds.foldl (fun n d => 10 * n + (d - 48)) 0

theorem decimal_spec (n : Nat) : number (decimal n) = n ∧ ∀ d ∈ decimal n, 48 ≤ d ∧ d ≤ 57 := by
  constructor
  · unfold number decimal
    rw [List.foldl_map]
    have := Nat.ofDigitChars_toDigits (b := 10) (n := n) (by decide) (by decide)
    rw [Nat.ofDigitChars_eq_foldl] at this
    exact this
  · intro d hd
    obtain ⟨c, hc, rfl⟩ := List.mem_map.1 hd
    have := Nat.isDigit_of_mem_toDigits (by decide) (by decide) hc
    simp only [Char.isDigit, Bool.and_eq_true, decide_eq_true_eq] at this
    obtain ⟨h1, h2⟩ := this
    have h1 := UInt32.le_iff_toNat_le.1 h1
    have h2 := UInt32.le_iff_toNat_le.1 h2
    exact ⟨h1, h2⟩

/-- The columns of a hit, separated by tabs: where it starts and where it ends, the number of the
pattern's line, the pattern and its encoding chain. -/
theorem hit_columns (i : Info) (h : SHit) : ∃ a b c, hitColumns i h = a ++ 9 :: b ++ 9 :: c ++ 9 :: i.pattern ++ 9 :: i.chain ∧
    (∀ d ∈ a ++ b ++ c, 48 ≤ d ∧ d ≤ 57) ∧ number a = h.start ∧ number b = h.stop ∧ number c = i.idx := by
  refine ⟨decimal h.start, decimal h.stop, decimal i.idx, by simp [hitColumns], ?_, (decimal_spec _).1, (decimal_spec _).1,
    (decimal_spec _).1⟩
  intro d hd
  simp only [List.mem_append] at hd
  rcases hd with (hd | hd) | hd <;> exact (decimal_spec _).2 d hd

/-- And those of its context: the offset of its first byte and the text. -/
theorem context_columns (r : HBuf × Nat) : ∃ a, contextColumns r = 9 :: a ++ 9 :: writeContext r.1.context ∧
    (∀ d ∈ a, 48 ≤ d ∧ d ≤ 57) ∧ number a = r.2 :=
  ⟨decimal r.2, by simp [contextColumns], (decimal_spec _).2, (decimal_spec _).1⟩

/-! ## Printing -/

/-- What is written for lines when `n` hits have been written. -/
def more (F : Fmt) : Nat → List Str → Str
  | _, [] => []
  | n, l :: ls => (if F.style.output then (if n > 0 ∧ F.style.context then F.groupSep ++ [10] else []) ++ l else []) ++
      more F (n + 1) ls

theorem more_append (F : Fmt) (a b : List Str) : ∀ n, more F n (a ++ b) = more F n a ++ more F (n + a.length) b := by
  induction a with
  | nil => intro n; simp [more]
  | cons l a ih =>
    intro n
    simp only [List.cons_append, more, ih, List.append_assoc, List.length_cons]
    rw [show n + 1 + a.length = n + (a.length + 1) by omega]

theorem more_printed (F : Fmt) (ls : List Str) : more F 0 ls = printed F ls := by
  have h1 : ∀ ls n, more F (n + 1) ls =
      if F.style.output then (if F.style.context then ls.flatMap fun l => F.groupSep ++ [10] ++ l else ls.flatten)
      else [] := by
    intro ls
    induction ls with
    | nil => intro n; simp [more]
    | cons l ls ih =>
      intro n
      rw [more, ih]
      by_cases ho : F.style.output <;> by_cases hc : F.style.context <;> simp [ho, hc]
  cases ls with
  | nil => simp [more, printed]
  | cons l ls =>
    rw [more, h1]
    unfold printed
    by_cases ho : F.style.output
    · by_cases hc : F.style.context
      · simp only [ho, hc, if_true, Nat.lt_irrefl, false_and, if_false, List.nil_append]
        have : ∀ (ls : List Str) (l : Str), (List.intersperse (F.groupSep ++ [10]) (l :: ls)).flatten =
            l ++ ls.flatMap fun l => F.groupSep ++ [10] ++ l := by
          intro ls
          induction ls with
          | nil => intro l; simp
          | cons x ls ih =>
            intro l
            rw [List.intersperse_cons_cons, List.flatten_cons, List.flatten_cons, ih]
            simp
        simpa using (this ls l).symm
      · simp [ho, hc]
    · simp [ho]

/-- What the events of a file do to the output. -/
theorem outRun_spec (F : Fmt) (D : Display) (es : List Event) : ∀ (s : Out), CacheOk D.tables s.hist →
    (outRun F D s es).text = s.text ++ more F s.hits ((reported s.hist.buf es).map fun x => line F D s.path x.1 x.2) ∧
    (outRun F D s es).hits = s.hits + (reported s.hist.buf es).length ∧
    (∀ k, countOf k (outRun F D s es).hist.hist = countOf k s.hist.hist +
      (if F.histogram then ((reported s.hist.buf es).map fun x => keyOf D.tables x.1 x.2).count k else 0)) ∧
    (outRun F D s es).hist.hist = if F.histogram then
      ((reported s.hist.buf es).map fun x => keyOf D.tables x.1 x.2).foldl (fun l k => bump k l) s.hist.hist
      else s.hist.hist := by
  induction es with
  | nil => intro s _; simp [outRun, reported, more]
  | cons e es ih =>
    intro s hc
    cases e with
    | buffer b =>
      exact ih { s with hist := { s.hist with buf := b, cache := ⟨[], 0, 0⟩ } } (by intro h; simp at h)
    | hit h ctx =>
      obtain ⟨s1, e1, p1, h1, b1, c1, t1, k1⟩ : ∃ s1, s1 = callback F D s h ∧ s1.path = s.path ∧ s1.hits = s.hits + 1 ∧
          s1.hist.buf = s.hist.buf ∧ CacheOk D.tables s1.hist ∧
          s1.text = s.text ++ more F s.hits [line F D s.path s.hist.buf h] ∧
          s1.hist.hist = if F.histogram then bump (keyOf D.tables s.hist.buf h) s.hist.hist else s.hist.hist := by
        refine ⟨_, rfl, ?_⟩
        obtain ⟨d1, d2, d3⟩ := decodeContext_spec D.tables s.hist h hc
        obtain ⟨hs, eh, q1, q2, q3⟩ : ∃ hs, hs = (if F.style.output then
            (if F.style.context then (decodeContext D.tables s.hist h).2 else s.hist) else s.hist) ∧
            hs.buf = s.hist.buf ∧ CacheOk D.tables hs ∧ hs.hist = s.hist.hist := by
          refine ⟨_, rfl, ?_⟩
          by_cases ho : F.style.output <;> by_cases hx : F.style.context <;> simp [ho, hx, d1, d2, d3, hc]
        obtain ⟨w1, w2, w3⟩ := writeHit_spec D.tables hs h q2
        by_cases ho : F.style.output
        · rw [if_pos ho] at eh
          unfold callback
          simp only [ho, if_true, ← eh]
          by_cases hh : F.histogram
          · simp only [hh, if_true, w1, w3, q1, q3]
            refine ⟨trivial, trivial, trivial, w2, ?_, trivial⟩
            simp [more, line, ho, List.append_assoc]
          · simp only [hh]
            refine ⟨rfl, rfl, by simpa using q1, by simpa using q2, ?_, by simpa using q3⟩
            simp [more, line, ho, List.append_assoc]
        · rw [if_neg ho] at eh
          subst eh
          unfold callback
          simp only [ho]
          by_cases hh : F.histogram
          · simp only [hh, if_true]
            refine ⟨rfl, rfl, by simpa using w1, by simpa using w2, ?_, by simpa using w3⟩
            simp [more, ho]
          · simp only [hh]
            refine ⟨rfl, rfl, rfl, hc, ?_, rfl⟩
            simp [more, ho]
      obtain ⟨i1, i2, i3, i4⟩ := ih s1 c1
      have er : outRun F D s (.hit h ctx :: es) = outRun F D s1 es := by rw [e1]; rfl
      rw [er]
      simp only [reported, List.map_cons, List.length_cons]
      refine ⟨?_, ?_, ?_, ?_⟩
      · rw [i1, t1, b1, p1, h1]
        simp [more, List.append_assoc]
      · rw [i2, h1, b1]; omega
      · intro k
        rw [i3, k1, b1]
        by_cases hh : F.histogram
        · simp only [hh, if_true, countOf_bump, List.count_cons, beq_iff_eq]
          omega
        · simp [hh]
      · rw [i4, k1, b1]
        by_cases hh : F.histogram <;> simp [hh]

/-! ## Searching -/

/-- The events of the search of a file in a context that was just made. -/
def eventsOf (C : Conf) (σ₀ : St) (v : Visit) : List Event :=
  match fileEvents C.P C.first C.fuel C.fmt.style.context (mappedBlocks v.content C.blockSize) σ₀ with
  | .ok (es, _) => es
  | _ => []

/-- The hits reported by that search. -/
def reportsOf (C : Conf) (σ₀ : St) (v : Visit) : List (Buf × SHit) := reported ([], 0) (eventsOf C σ₀ v)

/-- The lines for it. -/
def linesOf (C : Conf) (σ₀ : St) (v : Visit) : List Str :=
  (reportsOf C σ₀ v).map fun x => line C.fmt (C.display v.mapped v.content) v.shown x.1 x.2

/-- What its hits are counted under. -/
def keysFor (C : Conf) (σ₀ : St) (v : Visit) : List Key :=
  (reportsOf C σ₀ v).map fun x => keyOf (C.display v.mapped v.content).tables x.1 x.2

theorem newHits_relog (L : List Hit) (σ σ' : St) : newHits (relog true L σ) (relog true L σ') = newHits σ σ' := by
  unfold newHits
  simp [relog, List.drop_append]

theorem searchEvents_prefix (P : Program) (first : List Thread) (fuel : Nat) (ctx : Bool) (L : List Hit)
    (bs : List (Nat × List UInt8)) : ∀ σ, searchEvents P first fuel ctx bs (relog true L σ) =
      (searchEvents P first fuel ctx bs σ).map fun r => (r.1, relog true L r.2) := by
  induction bs with
  | nil => intro σ; rfl
  | cons b bs ih =>
    intro σ
    obtain ⟨off, blk⟩ := b
    simp only [searchEvents, step_prefix]
    cases step P first fuel (.search blk off true) σ with
    | ub => rfl
    | fuel => rfl
    | ok r =>
      simp only [map_okk, bind_ok, ih]
      cases searchEvents P first fuel ctx bs r.2 with
      | ub => rfl
      | fuel => rfl
      | ok x => simp only [map_okk, bind_ok, newHits_relog]

theorem fileEvents_prefix (P : Program) (first : List Thread) (fuel : Nat) (ctx : Bool) (L : List Hit)
    (bs : List (Nat × List UInt8)) (σ : St) : fileEvents P first fuel ctx bs (relog true L σ) =
      (fileEvents P first fuel ctx bs σ).map fun r => (r.1, relog true L r.2) := by
  simp only [fileEvents, searchEvents_prefix]
  cases searchEvents P first fuel ctx bs σ with
  | ub => rfl
  | fuel => rfl
  | ok r =>
    simp only [map_okk, bind_ok, step_prefix]
    cases step P first fuel (.closeOut true) r.2 with
    | ub => rfl
    | fuel => rfl
    | ok x => simp only [map_okk, bind_ok, newHits_relog]

theorem searchEvents_run {P : Program} {first : List Thread} {fuel : Nat} {ctx : Bool}
    (bs : List (Nat × List UInt8)) : ∀ {σ σ' : St} {es : List Event},
      searchEvents P first fuel ctx bs σ = .ok (es, σ') → ∃ rs, run P first fuel (blockCalls bs) σ = .ok (rs, σ') := by
  induction bs with
  | nil => intro σ σ' es h; simp only [searchEvents, Res.ok.injEq, Prod.mk.injEq] at h; exact ⟨[], by rw [h.2.symm]; rfl⟩
  | cons b bs ih =>
    intro σ σ' es h
    obtain ⟨off, blk⟩ := b
    simp only [searchEvents] at h
    obtain ⟨⟨r, σ1⟩, h1, h⟩ := bind_eq_ok.1 h
    obtain ⟨⟨es2, σ2⟩, h2, h⟩ := bind_eq_ok.1 h
    simp only [Res.ok.injEq, Prod.mk.injEq] at h
    obtain ⟨-, rfl⟩ := h
    obtain ⟨rs, hr⟩ := ih h2
    refine ⟨r :: rs, ?_⟩
    show run P first fuel (.search blk off true :: blockCalls bs) σ = _
    simp only [run, h1, bind_ok, hr]

theorem fileEvents_run {P : Program} {first : List Thread} {fuel : Nat} {ctx : Bool}
    {bs : List (Nat × List UInt8)} {σ σ' : St} {es : List Event}
    (h : fileEvents P first fuel ctx bs σ = .ok (es, σ')) :
    ∃ rs, run P first fuel (blockCalls bs ++ [.closeOut true]) σ = .ok (rs, σ') := by
  simp only [fileEvents] at h
  obtain ⟨⟨es1, σ1⟩, h1, h⟩ := bind_eq_ok.1 h
  obtain ⟨⟨r, σ2⟩, h2, h⟩ := bind_eq_ok.1 h
  simp only [Res.ok.injEq, Prod.mk.injEq] at h
  obtain ⟨-, rfl⟩ := h
  obtain ⟨rs, hr⟩ := searchEvents_run bs h1
  exact ⟨rs ++ [r], by rw [run_append, hr]; simp [run, h2]⟩

theorem fileEvents_head {P : Program} {first : List Thread} {fuel : Nat} {ctx : Bool}
    {bs : List (Nat × List UInt8)} (hne : bs ≠ []) {σ σ' : St} {es : List Event}
    (h : fileEvents P first fuel ctx bs σ = .ok (es, σ')) : ∃ b es', es = .buffer b :: es' := by
  obtain ⟨⟨off, blk⟩, bs, rfl⟩ := List.exists_cons_of_ne_nil hne
  simp only [fileEvents] at h
  obtain ⟨⟨es1, σ1⟩, h1, h⟩ := bind_eq_ok.1 h
  obtain ⟨⟨r, σ2⟩, h2, h⟩ := bind_eq_ok.1 h
  simp only [Res.ok.injEq, Prod.mk.injEq] at h
  obtain ⟨rfl, -⟩ := h
  simp only [searchEvents] at h1
  obtain ⟨⟨r, σ3⟩, h3, h1⟩ := bind_eq_ok.1 h1
  obtain ⟨⟨es2, σ4⟩, h4, h1⟩ := bind_eq_ok.1 h1
  simp only [Res.ok.injEq, Prod.mk.injEq] at h1
  obtain ⟨rfl, -⟩ := h1
  exact ⟨_, _, rfl⟩

theorem reported_hits (hs : List SHit) (ctx : Bool) (es : List Event) (b : Buf) :
    reported b (hs.map (.hit · ctx) ++ es) = hs.map (fun h => (b, h)) ++ reported b es := by
  induction hs with
  | nil => rfl
  | cons h hs ih => simp [reported, ih]

theorem reported_search {P : Program} {first : List Thread} {fuel : Nat} {ctx : Bool}
    (bs : List (Nat × List UInt8)) : ∀ {σ σ' : St} {es : List Event} (b : Buf),
      searchEvents P first fuel ctx bs σ = .ok (es, σ') → ∃ new b', σ'.log = σ.log ++ new ∧
        ∀ tail, (reported b (es ++ tail)).map Prod.snd =
          (new.map fun h => (⟨h.start, h.end, h.label⟩ : SHit)) ++ (reported b' tail).map Prod.snd := by
  induction bs with
  | nil =>
    intro σ σ' es b h
    simp only [searchEvents, Res.ok.injEq, Prod.mk.injEq] at h
    obtain ⟨rfl, rfl⟩ := h
    exact ⟨[], b, by simp, by simp⟩
  | cons x bs ih =>
    intro σ σ' es b h
    obtain ⟨off, blk⟩ := x
    simp only [searchEvents] at h
    obtain ⟨⟨r, σ1⟩, h1, h⟩ := bind_eq_ok.1 h
    obtain ⟨⟨es2, σ2⟩, h2, h⟩ := bind_eq_ok.1 h
    simp only [Res.ok.injEq, Prod.mk.injEq] at h
    obtain ⟨rfl, rfl⟩ := h
    obtain ⟨new1, hn1⟩ := step_log h1
    obtain ⟨new, b', g1, g2⟩ := ih (blk.map UInt8.toNat, off) h2
    refine ⟨new1 ++ new, b', by rw [g1, hn1, List.append_assoc], fun tail => ?_⟩
    rw [List.cons_append, List.cons_append, List.append_assoc]
    show (reported (blk.map UInt8.toNat, off) _).map Prod.snd = _
    rw [reported_hits, newHits_append hn1, List.map_append, g2]
    simp

/-- The hits reported while a file is searched are those of the log. -/
theorem reported_log {P : Program} {first : List Thread} {fuel : Nat} {ctx : Bool} {bs : List (Nat × List UInt8)}
    {σ σ' : St} {es : List Event} (h : fileEvents P first fuel ctx bs σ = .ok (es, σ')) (h0 : σ.log = []) (b : Buf) :
    (reported b es).map Prod.snd = σ'.log.map fun h => ⟨h.start, h.end, h.label⟩ := by
  simp only [fileEvents] at h
  obtain ⟨⟨es1, σ1⟩, h1, h⟩ := bind_eq_ok.1 h
  obtain ⟨⟨r, σ2⟩, h2, h⟩ := bind_eq_ok.1 h
  simp only [Res.ok.injEq, Prod.mk.injEq] at h
  obtain ⟨rfl, rfl⟩ := h
  obtain ⟨new1, hn1⟩ := step_log h2
  obtain ⟨new, b', g1, g2⟩ := reported_search bs b h1
  rw [g2, newHits_append hn1]
  have := reported_hits (new1.map fun h => (⟨h.start, h.end, h.label⟩ : SHit)) ctx [] b'
  rw [List.append_nil] at this
  rw [this, hn1, g1, h0]
  simp [reported]

theorem mappedBlocks_ne (c : List UInt8) (bs : Nat) : mappedBlocks c bs ≠ [] := by
  unfold mappedBlocks mappedSearch
  simp only
  split <;> simp

/-- The state after some inputs have been searched. -/
structure After (C : Conf) (σ₀ : St) (vs : List Visit) (s : CmdSt) : Prop where
  vm : ∃ pre rs, run C.P C.first C.fuel pre σ₀ = .ok (rs, s.vm)
  fresh : ∀ v ∈ vs, ∃ σ, fileEvents C.P C.first C.fuel C.fmt.style.context (mappedBlocks v.content C.blockSize) σ₀ =
    .ok (eventsOf C σ₀ v, σ)
  text : s.out.text = more C.fmt 0 (vs.flatMap (linesOf C σ₀))
  hits : s.out.hits = (vs.flatMap (reportsOf C σ₀)).length
  hist : ∀ k, countOf k s.out.hist.hist = if C.fmt.histogram then (vs.flatMap (keysFor C σ₀)).count k else 0
  built : s.out.hist.hist =
    if C.fmt.histogram then (vs.flatMap (keysFor C σ₀)).foldl (fun l k => bump k l) [] else []

theorem lines_length (C : Conf) (σ₀ : St) (vs : List Visit) :
    (vs.flatMap (linesOf C σ₀)).length = (vs.flatMap (reportsOf C σ₀)).length := by
  simp [List.length_flatMap, linesOf]

theorem after_search {C : Conf} {σ₀ : St} (hnew : create C.P C.fuel = .ok (C.first, σ₀)) {vs : List Visit} {s : CmdSt}
    (hs : After C σ₀ vs s) (hd : s.dead = false) {v : Visit} {s' : CmdSt}
    (h : searchContent C v.mapped v.shown (some v.content) s = .ok s') :
    After C σ₀ (vs ++ [v]) s' ∧ s'.dead = false ∧ s'.stdinUsed = s.stdinUsed := by
  unfold searchContent at h
  rw [if_neg (by simp [hd])] at h
  simp only at h
  obtain ⟨⟨r, v1⟩, h1, h⟩ := bind_eq_ok.1 h
  obtain ⟨⟨es, v2⟩, h2, h⟩ := bind_eq_ok.1 h
  simp only [Res.ok.injEq] at h
  simp only [step, Res.ok.injEq, Prod.mk.injEq] at h1
  obtain ⟨-, rfl⟩ := h1
  obtain ⟨pre, rs, hpre⟩ := hs.vm
  have hrel : reset s.vm = relog true s.vm.log σ₀ := by
    have hfresh := create_state hnew (create_log hnew)
    have hlen := run_len pre hpre
    rw [hfresh] at hlen ⊢
    simp only [preInit, List.length_replicate] at hlen
    simp [reset, relog, preInit, hlen]
  obtain ⟨rs', hrun⟩ := fileEvents_run h2
  have h2' := h2
  rw [hrel, fileEvents_prefix] at h2'
  obtain ⟨σ, hσ⟩ : ∃ σ, fileEvents C.P C.first C.fuel C.fmt.style.context (mappedBlocks v.content C.blockSize) σ₀ =
      .ok (es, σ) := by
    cases hf : fileEvents C.P C.first C.fuel C.fmt.style.context (mappedBlocks v.content C.blockSize) σ₀ with
    | ub => rw [hf] at h2'; cases h2'
    | fuel => rw [hf] at h2'; cases h2'
    | ok x =>
      rw [hf] at h2'
      simp only [map_okk, Res.ok.injEq, Prod.mk.injEq] at h2'
      exact ⟨x.2, by rw [← h2'.1]⟩
  have hev : eventsOf C σ₀ v = es := by unfold eventsOf; rw [hσ]
  obtain ⟨b, es', rfl⟩ := fileEvents_head (mappedBlocks_ne _ _) hσ
  obtain ⟨o1, o2, o3, o4⟩ := outRun_spec C.fmt (C.display v.mapped v.content) es'
    { s.out with path := v.shown, hist := { s.out.hist with buf := b, cache := ⟨[], 0, 0⟩ } } (by intro h; simp at h)
  have hrep : reportsOf C σ₀ v = reported b es' := by unfold reportsOf; rw [hev]; rfl
  simp only at o1 o2 o3 o4
  rw [← hrep] at o1 o2 o3 o4
  subst h
  refine ⟨⟨⟨pre ++ .reset :: (blockCalls (mappedBlocks v.content C.blockSize) ++ [.closeOut true]), rs ++ none :: rs', ?_⟩,
    ?_, ?_, ?_, ?_, ?_⟩, hd, rfl⟩
  · rw [run_append, hpre]
    simp only [bind_ok, run, step, hrun]
  · intro u hu
    rcases List.mem_append.1 hu with hu | hu
    · exact hs.fresh u hu
    · rw [List.mem_singleton.1 hu, hev]; exact ⟨σ, hσ⟩
  · rw [List.flatMap_append, more_append, lines_length, ← hs.hits, ← hs.text, Nat.zero_add]
    simp only [List.flatMap_cons, List.flatMap_nil, List.append_nil]
    exact o1
  · rw [List.flatMap_append, List.length_append, ← hs.hits]
    simp only [List.flatMap_cons, List.flatMap_nil, List.append_nil]
    exact o2
  · intro k
    have := o3 k
    rw [hs.hist k] at this
    rw [List.flatMap_append, List.count_append]
    simp only [List.flatMap_cons, List.flatMap_nil, List.append_nil]
    refine this.trans ?_
    split <;> rfl
  · refine Eq.trans o4 ?_
    rw [hs.built]
    split
    · rw [List.flatMap_append, List.foldl_append]
      simp only [List.flatMap_cons, List.flatMap_nil, List.append_nil]
      rfl
    · rfl

/-- What has been done, and whether an input could not be opened. -/
def Sofar (C : Conf) (σ₀ : St) (done : List (Option Visit)) (s : CmdSt) : Prop :=
  After C σ₀ (opened done) s ∧ (s.dead = true ↔ none ∈ done)

theorem opened_append {a : List (Option Visit)} (b : List (Option Visit)) :
    (none ∈ a → opened (a ++ b) = opened a) ∧ (none ∉ a → opened (a ++ b) = opened a ++ opened b) := by
  induction a with
  | nil => simp [opened]
  | cons x a ih => cases x <;> simp_all [opened]

theorem sofar_dead {C : Conf} {σ₀ : St} {done : List (Option Visit)} {s : CmdSt} (h : Sofar C σ₀ done s)
    (hd : s.dead = true) (b : List (Option Visit)) : Sofar C σ₀ (done ++ b) s := by
  have hn := h.2.1 hd
  refine ⟨?_, by simp [hd, hn]⟩
  rw [(opened_append b).1 hn]
  exact h.1

theorem sofar_content {C : Conf} {σ₀ : St} (hnew : create C.P C.fuel = .ok (C.first, σ₀)) {done : List (Option Visit)}
    {s : CmdSt} (h : Sofar C σ₀ done s) {shown : Str} {stdin mapped : Bool} {content : Option (List UInt8)} {s' : CmdSt}
    (hs : searchContent C mapped shown content s = .ok s') :
    Sofar C σ₀ (done ++ [content.map fun c => ⟨shown, stdin, mapped, c⟩]) s' ∧
      s'.stdinUsed = s.stdinUsed := by
  by_cases hd : s.dead = true
  · unfold searchContent at hs
    rw [if_pos hd, Res.ok.injEq] at hs
    subst hs
    exact ⟨sofar_dead h hd _, rfl⟩
  · have hn : none ∉ done := fun hn => hd (h.2.2 hn)
    cases content with
    | none =>
      unfold searchContent at hs
      rw [if_neg hd] at hs
      simp only [Res.ok.injEq] at hs
      subst hs
      refine ⟨⟨?_, by simp⟩, rfl⟩
      rw [(opened_append _).2 hn]
      simp only [Option.map_none, opened, List.append_nil]
      exact ⟨h.1.vm, h.1.fresh, h.1.text, h.1.hits, h.1.hist, h.1.built⟩
    | some c =>
      obtain ⟨a1, a2, a3⟩ := after_search hnew h.1 (by simpa using hd) (v := ⟨shown, stdin, mapped, c⟩) hs
      refine ⟨⟨?_, by simp [a2, hn]⟩, a3⟩
      rw [(opened_append _).2 hn]
      exact a1

theorem sofar_walk {C : Conf} {σ₀ : St} (hnew : create C.P C.fuel = .ok (C.first, σ₀))
    (fs : List (Str × Option (List UInt8) × Option (List UInt8))) : ∀ {done : List (Option Visit)} {s s' : CmdSt},
      Sofar C σ₀ done s → searchWalk C fs s = .ok s' →
      Sofar C σ₀ (done ++ fs.map fun f => fileVisit C.mmap f.1 f.2.1 f.2.2) s' ∧ s'.stdinUsed = s.stdinUsed := by
  induction fs with
  | nil =>
    intro done s s' h hs
    simp only [searchWalk, Res.ok.injEq] at hs
    subst hs
    simpa using h
  | cons f fs ih =>
    intro done s s' h hs
    obtain ⟨p, r, m⟩ := f
    simp only [searchWalk] at hs
    obtain ⟨s1, h1, hs⟩ := bind_eq_ok.1 hs
    obtain ⟨a1, a2⟩ := sofar_content hnew h (stdin := false) h1
    obtain ⟨b1, b2⟩ := ih a1 hs
    refine ⟨?_, b2.trans a2⟩
    rw [List.append_assoc] at b1
    exact b1

theorem sofar_path {C : Conf} {σ₀ : St} (hnew : create C.P C.fuel = .ok (C.first, σ₀)) {w : World} {i : Str}
    {done : List (Option Visit)} {s s' : CmdSt} (h : Sofar C σ₀ done s) (hs : searchPath C w i s = .ok s') :
    Sofar C σ₀ (done ++ visitsOf w C.mmap C.recursive i) s' ∧ s'.stdinUsed = s.stdinUsed := by
  unfold searchPath at hs
  unfold visitsOf
  cases hn : w.node i with
  | none =>
    rw [hn] at hs
    simp only [search1, hn] at hs
    by_cases hi : i = dash
    · rw [if_pos hi] at hs
      simp only [hi, if_true]
      exact sofar_content hnew h (stdin := true) hs
    · rw [if_neg hi] at hs
      simp only [hi, if_false]
      exact sofar_content hnew h (stdin := false) hs
  | some n =>
    cases n with
    | dir es =>
      rw [hn] at hs
      simp only at hs ⊢
      by_cases hr : C.recursive
      · rw [if_pos hr] at hs ⊢
        exact sofar_walk hnew _ h hs
      · rw [if_neg hr] at hs ⊢
        simp only [Res.ok.injEq] at hs
        subst hs
        simpa using h
    | file r m =>
      rw [hn] at hs
      simp only [search1, hn] at hs
      by_cases hi : i = dash
      · rw [if_pos hi] at hs
        simp only [hi, if_true]
        exact sofar_content hnew h (stdin := true) hs
      · rw [if_neg hi] at hs
        simp only [hi, if_false]
        exact sofar_content hnew h (stdin := false) hs

theorem sofar_used {C : Conf} {σ₀ : St} {done : List (Option Visit)} {s : CmdSt} (h : Sofar C σ₀ done s) (u : Bool) :
    Sofar C σ₀ done { s with stdinUsed := u } :=
  ⟨⟨h.1.vm, h.1.fresh, h.1.text, h.1.hits, h.1.hist, h.1.built⟩, h.2⟩

theorem sofar_inputs {C : Conf} {σ₀ : St} (hnew : create C.P C.fuel = .ok (C.first, σ₀)) {w : World}
    (is : List Str) : ∀ {done : List (Option Visit)} {s s' : CmdSt} {used : Bool}, Sofar C σ₀ done s →
      (s.dead = false → s.stdinUsed = used) → searchInputs C w is s = .ok s' →
      Sofar C σ₀ (done ++ inputVisits w C.mmap C.recursive used is) s' ∧
        (s'.dead = false → s'.stdinUsed = (used || decide (dash ∈ is))) := by
  induction is with
  | nil =>
    intro done s s' used h hu hs
    simp only [searchInputs, Res.ok.injEq] at hs
    subst hs
    simpa [inputVisits, onceDash] using ⟨h, hu⟩
  | cons i is ih =>
    intro done s s' used h hu hs
    simp only [searchInputs] at hs
    obtain ⟨s1, h1, hs⟩ := bind_eq_ok.1 hs
    unfold searchInput at h1
    by_cases hd : s.dead = true
    · rw [if_pos hd, Res.ok.injEq] at h1
      subst h1
      have hk : ∀ (is : List Str) (s' : CmdSt), searchInputs C w is s = .ok s' → s' = s := by
        intro is
        induction is with
        | nil => intro s' h; simp only [searchInputs, Res.ok.injEq] at h; exact h.symm
        | cons j js ihj =>
          intro s' h
          simp only [searchInputs, searchInput, if_pos hd, bind_ok] at h
          exact ihj s' h
      rw [hk is s' hs]
      exact ⟨sofar_dead h hd _, fun h0 => by rw [hd] at h0; cases h0⟩
    · rw [if_neg hd] at h1
      have hu := hu (by simpa using hd)
      by_cases hi : i = dash
      · rw [if_pos hi] at h1
        by_cases hus : used = true
        · rw [if_pos (hu.trans hus), Res.ok.injEq] at h1
          subst h1
          obtain ⟨b1, b2⟩ := ih h (used := used) (fun _ => hu) hs
          simp only [inputVisits, onceDash, hi, hus, if_true] at b1 b2 ⊢
          exact ⟨b1, fun h0 => by rw [b2 h0]; simp⟩
        · rw [if_neg (by rw [hu]; exact hus)] at h1
          obtain ⟨a1, a2⟩ := sofar_path hnew (sofar_used h true) h1
          obtain ⟨b1, b2⟩ := ih a1 (used := true) (fun _ => a2) hs
          simp only [inputVisits, onceDash, hi, hus, if_true, List.flatMap_cons] at b1 b2 ⊢
          refine ⟨?_, fun h0 => by rw [b2 h0]; simp⟩
          rw [List.append_assoc] at b1
          simpa using b1
      · rw [if_neg hi] at h1
        obtain ⟨a1, a2⟩ := sofar_path hnew h h1
        obtain ⟨b1, b2⟩ := ih a1 (used := used) (fun _ => a2.trans hu) hs
        simp only [inputVisits, onceDash, hi, if_false, List.flatMap_cons] at b1 b2 ⊢
        refine ⟨?_, fun h0 => by rw [b2 h0]; simp [Ne.symm hi]⟩
        rw [List.append_assoc] at b1
        exact b1

theorem sofar_lists {C : Conf} {σ₀ : St} (hnew : create C.P C.fuel = .ok (C.first, σ₀)) {w : World}
    (ls : List Str) : ∀ {done : List (Option Visit)} {s s' : CmdSt} {used : Bool}, Sofar C σ₀ done s →
      (s.dead = false → s.stdinUsed = used) → searchLists C w ls s = .ok s' →
      Sofar C σ₀ (done ++ listVisits w C.mmap C.recursive used ls) s' ∧
        (s'.dead = false → s'.stdinUsed = (used || listsUse w ls)) := by
  induction ls with
  | nil =>
    intro done s s' used h hu hs
    simp only [searchLists, Res.ok.injEq] at hs
    subst hs
    simpa [listVisits, listsUse] using ⟨h, hu⟩
  | cons l ls ih =>
    intro done s s' used h hu hs
    simp only [searchLists] at hs
    obtain ⟨s1, h1, hs⟩ := bind_eq_ok.1 hs
    unfold searchList at h1
    have huse : listsUse w (l :: ls) = ((decide (l = dash) ||
        match w.node l with
        | some (.file (some c) _) => decide (dash ∈ getLines [] c)
        | _ => false) || listsUse w ls) := rfl
    by_cases hd : s.dead = true
    · rw [if_pos hd, Res.ok.injEq] at h1
      subst h1
      have hk : ∀ (is : List Str) (s' : CmdSt), searchLists C w is s = .ok s' → s' = s := by
        intro is
        induction is with
        | nil => intro s' h; simp only [searchLists, Res.ok.injEq] at h; exact h.symm
        | cons j js ihj =>
          intro s' h
          simp only [searchLists, searchList, if_pos hd, bind_ok] at h
          exact ihj s' h
      rw [hk ls s' hs]
      exact ⟨sofar_dead h hd _, fun h0 => by rw [hd] at h0; cases h0⟩
    · rw [if_neg hd] at h1
      have hu := hu (by simpa using hd)
      by_cases hi : l = dash
      · rw [if_pos hi] at h1
        rw [listVisits, if_pos hi, huse]
        by_cases hus : used = true
        · rw [if_pos (hu.trans hus), Res.ok.injEq] at h1
          subst h1
          obtain ⟨b1, b2⟩ := ih h (used := true) (fun _ => hu.trans hus) hs
          rw [if_pos hus, List.nil_append]
          exact ⟨b1, fun h0 => by rw [b2 h0, hus]; simp⟩
        · rw [if_neg (by rw [hu]; exact hus)] at h1
          obtain ⟨a1, a2⟩ := sofar_inputs hnew _ (sofar_used h true) (used := true) (fun _ => rfl) h1
          obtain ⟨b1, b2⟩ := ih a1 (used := true) (fun h0 => by rw [a2 h0]; simp) hs
          rw [if_neg hus]
          refine ⟨?_, fun h0 => by rw [b2 h0]; simp [hi]⟩
          rw [List.append_assoc] at b1
          exact b1
      · rw [if_neg hi] at h1
        rw [listVisits, if_neg hi, huse]
        cases hn : w.node l with
        | none =>
          rw [hn] at h1
          simp only [Res.ok.injEq] at h1
          subst h1
          have a1 : Sofar C σ₀ (done ++ [none]) { s with dead := true } := by
            refine ⟨?_, by simp⟩
            rw [(opened_append _).2 (fun hn => hd (h.2.2 hn))]
            simp only [opened, List.append_nil]
            exact ⟨h.1.vm, h.1.fresh, h.1.text, h.1.hits, h.1.hist, h.1.built⟩
          obtain ⟨b1, b2⟩ := ih a1 (used := used) (fun h0 => by cases h0) hs
          simp only
          refine ⟨?_, fun h0 => by rw [b2 h0]; simp [hi]⟩
          rw [List.append_assoc] at b1
          exact b1
        | some n =>
          cases n with
          | dir es =>
            rw [hn] at h1
            simp only [Res.ok.injEq] at h1
            subst h1
            obtain ⟨b1, b2⟩ := ih h (used := used) (fun _ => hu) hs
            exact ⟨b1, fun h0 => by rw [b2 h0]; simp [hi]⟩
          | file r m =>
            cases r with
            | none =>
              rw [hn] at h1
              simp only [Res.ok.injEq] at h1
              subst h1
              have a1 : Sofar C σ₀ (done ++ [none]) { s with dead := true } := by
                refine ⟨?_, by simp⟩
                rw [(opened_append _).2 (fun hn => hd (h.2.2 hn))]
                simp only [opened, List.append_nil]
                exact ⟨h.1.vm, h.1.fresh, h.1.text, h.1.hits, h.1.hist, h.1.built⟩
              obtain ⟨b1, b2⟩ := ih a1 (used := used) (fun h0 => by cases h0) hs
              simp only
              refine ⟨?_, fun h0 => by rw [b2 h0]; simp [hi]⟩
              rw [List.append_assoc] at b1
              exact b1
            | some c =>
              rw [hn] at h1
              simp only at h1 ⊢
              obtain ⟨a1, a2⟩ := sofar_inputs hnew _ h (used := used) (fun _ => hu) h1
              obtain ⟨b1, b2⟩ := ih a1 (used := used || decide (dash ∈ getLines [] c)) a2 hs
              refine ⟨?_, fun h0 => by rw [b2 h0]; simp [hi, Bool.or_assoc]⟩
              rw [List.append_assoc] at b1
              exact b1

/-- The command as a whole. -/
theorem command_after {C : Conf} {σ₀ : St} (hnew : create C.P C.fuel = .ok (C.first, σ₀)) {w : World}
    {lists inputs : List Str} {s : CmdSt} (h : searchCommand C w lists inputs σ₀ = .ok s) :
    Sofar C σ₀ (allVisits w C.mmap C.recursive lists inputs) s := by
  simp only [searchCommand] at h
  obtain ⟨s1, h1, h⟩ := bind_eq_ok.1 h
  have h0 : Sofar C σ₀ [] ⟨σ₀, Out.init, false, false⟩ :=
    ⟨⟨⟨[], [], rfl⟩, by simp [opened], rfl, rfl, fun k => by simp [Out.init, countOf, opened],
      by simp [Out.init, opened]⟩, by simp⟩
  obtain ⟨a1, a2⟩ := sofar_lists hnew lists h0 (used := false) (fun _ => rfl) h1
  obtain ⟨b1, -⟩ := sofar_inputs hnew inputs a1 (used := listsUse w lists) (fun h => by rw [a2 h]; simp) h
  rw [List.nil_append] at b1
  exact b1

/-- **C80.** The command searches what its lists of inputs and its inputs stand for, in that
order, up to the first that cannot be opened.  What it prints is, for each input that is
searched, one line per hit that a search of the whole content in a new context reports, with the
path of that input; `NumHits` and the counts of the histogram are those of all these hits. -/
theorem inputs_searched_alone {C : Conf} {σ₀ : St} (hnew : create C.P C.fuel = .ok (C.first, σ₀)) {w : World}
    {lists inputs : List Str} {s : CmdSt} (h : searchCommand C w lists inputs σ₀ = .ok s) :
    let vs := opened (allVisits w C.mmap C.recursive lists inputs)
    (s.dead = true ↔ none ∈ allVisits w C.mmap C.recursive lists inputs) ∧
    (∀ v ∈ vs, ∃ rs σ, run C.P C.first C.fuel (blockCalls (mappedBlocks v.content C.blockSize) ++ [.closeOut true]) σ₀ =
        .ok (rs, σ) ∧ (reportsOf C σ₀ v).map Prod.snd = σ.log.map fun h => ⟨h.start, h.end, h.label⟩) ∧
    s.out.text = printed C.fmt (vs.flatMap (linesOf C σ₀)) ∧
    s.out.hits = (vs.flatMap (reportsOf C σ₀)).length ∧
    ∀ k, countOf k s.out.hist.hist = if C.fmt.histogram then (vs.flatMap (keysFor C σ₀)).count k else 0 := by
  have b1 := command_after hnew h
  refine ⟨b1.2, ?_, ?_, b1.1.hits, b1.1.hist⟩
  · intro v hv
    obtain ⟨σ, hσ⟩ := b1.1.fresh v hv
    obtain ⟨rs, hrs⟩ := fileEvents_run hσ
    exact ⟨rs, σ, hrs, reported_log hσ (create_log hnew) _⟩
  · exact b1.1.text.trans (more_printed _ _)

/-! ## What the inputs stand for -/

/-- The file reached from a directory by these names. -/
inductive FileAt : Entries → List Str → Option (List UInt8) → Option (List UInt8) → Prop
  | here {name r m rest} : FileAt (.cons name (.file r m) rest) [name] r m
  | down {name es rest path r m} : FileAt es path r m → FileAt (.cons name (.dir es) rest) (name :: path) r m
  | next {name n rest path r m} : FileAt rest path r m → FileAt (.cons name n rest) path r m

mutual
theorem mem_walkNode (p : Str) : (n : Node) → ∀ {q r m}, (q, r, m) ∈ walkNode p n →
    (n = .file r m ∧ q = p) ∨ ∃ es path, n = .dir es ∧ FileAt es path r m ∧ q = path.foldl joinPath p
  | .file r' m', q, r, m, h => by
    simp only [walkNode, List.mem_singleton, Prod.mk.injEq] at h
    obtain ⟨rfl, rfl, rfl⟩ := h
    exact .inl ⟨rfl, rfl⟩
  | .dir es, q, r, m, h => by
    obtain ⟨path, h1, h2⟩ := mem_walk p es h
    exact .inr ⟨es, path, rfl, h1, h2⟩
theorem mem_walk (p : Str) : (es : Entries) → ∀ {q r m}, (q, r, m) ∈ walk p es →
    ∃ path, FileAt es path r m ∧ q = path.foldl joinPath p
  | .nil, q, r, m, h => by cases h
  | .cons name n rest, q, r, m, h => by
    rw [walk] at h
    rcases List.mem_append.1 h with h | h
    · rcases mem_walkNode (joinPath p name) n h with ⟨rfl, rfl⟩ | ⟨es, path, rfl, h1, rfl⟩
      · exact ⟨[name], .here, rfl⟩
      · exact ⟨name :: path, .down h1, rfl⟩
    · obtain ⟨path, h1, h2⟩ := mem_walk p rest h
      exact ⟨path, .next h1, h2⟩
end

theorem fileAt_mem {es : Entries} {path : List Str} {r m : Option (List UInt8)} (h : FileAt es path r m) :
    ∀ p, (path.foldl joinPath p, r, m) ∈ walk p es := by
  induction h with
  | here => intro p; rw [walk, walkNode]; simp
  | down h ih =>
    intro p
    rw [walk, walkNode]
    exact List.mem_append.2 (.inl (ih _))
  | next h ih => intro p; rw [walk]; exact List.mem_append.2 (.inr (ih p))

/-- **C80, directories.** Traversing a directory visits exactly the files in and below it, at
whatever depth. -/
theorem walk_visits_all (p : Str) (es : Entries) (q : Str) (r m : Option (List UInt8)) :
    (q, r, m) ∈ walk p es ↔ ∃ path, FileAt es path r m ∧ q = path.foldl joinPath p :=
  ⟨mem_walk p es, fun ⟨_, h, e⟩ => e ▸ fileAt_mem h p⟩

/-- Whether an input is standard input. -/
def fromStdin : Option Visit → Bool
  | some v => v.stdin
  | none => false

theorem fileVisit_stdin (mm : Bool) (p : Str) (r m : Option (List UInt8)) : fromStdin (fileVisit mm p r m) = false := by
  unfold fileVisit
  cases (if mm then m else r) <;> rfl

theorem count_visitsOf (w : World) (mm rc : Bool) (i : Str) :
    (visitsOf w mm rc i).countP fromStdin ≤ (decide (i = dash)).toNat := by
  unfold visitsOf
  split
  · split
    · rw [List.countP_eq_zero.2]
      · exact Nat.zero_le _
      · intro x hx
        obtain ⟨f, -, rfl⟩ := List.mem_map.1 hx
        rw [fileVisit_stdin]; simp
    · simp
  · by_cases hi : i = dash
    · simp [hi, fromStdin]
    · simp [hi, fileVisit_stdin]
  · by_cases hi : i = dash
    · simp [hi, fromStdin]
    · simp [hi, fromStdin]

theorem count_inputs (w : World) (mm rc : Bool) (is : List Str) : ∀ used,
    (inputVisits w mm rc used is).countP fromStdin ≤ (!used && decide (dash ∈ is)).toNat := by
  induction is with
  | nil => intro used; simp [inputVisits, onceDash]
  | cons i is ih =>
    intro used
    unfold inputVisits at ih ⊢
    by_cases hi : i = dash
    · cases used with
      | true => simpa [onceDash, hi] using ih true
      | false =>
        have h1 := count_visitsOf w mm rc i
        have h2 := ih true
        simp only [hi, decide_true, Bool.toNat_true, Bool.not_true, Bool.false_and, Bool.toNat_false] at h1 h2
        simp only [onceDash, hi, if_true, Bool.false_eq_true, if_false, List.flatMap_cons, List.countP_append,
          List.mem_cons, true_or, decide_true, Bool.not_false, Bool.and_self, Bool.toNat_true]
        omega
    · have h1 := count_visitsOf w mm rc i
      have h2 := ih used
      simp [hi] at h1
      simp only [onceDash, hi, if_false, List.flatMap_cons, List.countP_append, List.mem_cons, Ne.symm hi, false_or]
      rw [List.countP_eq_zero.2 (by simpa using h1), Nat.zero_add]
      exact h2

theorem use_add {used d u : Bool} {a b : Nat} (h1 : a ≤ (!used && d).toNat) (h2 : b ≤ (!(used || d) && u).toNat) :
    a + b ≤ (!used && (d || u)).toNat := by
  revert h1 h2
  cases used <;> cases d <;> cases u <;> simp only [Bool.not_true, Bool.not_false, Bool.true_and, Bool.false_and,
    Bool.or_true, Bool.true_or, Bool.or_false, Bool.toNat_true, Bool.toNat_false] <;>
    intros <;> omega

theorem count_lists (w : World) (mm rc : Bool) (ls : List Str) : ∀ used,
    (listVisits w mm rc used ls).countP fromStdin ≤ (!used && listsUse w ls).toNat := by
  induction ls with
  | nil => intro used; simp [listVisits]
  | cons l ls ih =>
    intro used
    have huse : listsUse w (l :: ls) = ((decide (l = dash) ||
        match w.node l with
        | some (.file (some c) _) => decide (dash ∈ getLines [] c)
        | _ => false) || listsUse w ls) := rfl
    rw [listVisits, huse]
    by_cases hl : l = dash
    · rw [if_pos hl, List.countP_append]
      have h2 := ih true
      have h1 := count_inputs w mm rc (getLines [] w.stdin) true
      simp only [Bool.not_true, Bool.false_and, Bool.toNat_false, Nat.le_zero] at h1 h2
      rw [h2]
      split
      · simp
      · rw [h1]; simp
    · rw [if_neg hl]
      have h2 := ih used
      cases hn : w.node l with
      | none => simpa [hl, fromStdin] using h2
      | some n =>
        cases n with
        | dir es => simpa [hl] using h2
        | file r m =>
          cases r with
          | none => simpa [hl, fromStdin] using h2
          | some c =>
            simp only [List.countP_append, hl, decide_false, Bool.false_or]
            have h1 := count_inputs w mm rc (getLines [] c) used
            have h3 := ih (used || decide (dash ∈ getLines [] c))
            exact use_add h1 h3

/-- **C81.** Standard input is searched at most once, however often `-` is given as an input or as
a line of a list; and not at all when a list of inputs has been read from it. -/
theorem stdin_once (w : World) (mm rc : Bool) (lists inputs : List Str) :
    (allVisits w mm rc lists inputs).countP fromStdin ≤ 1 ∧
    ∀ pre post, lists = pre ++ dash :: post → listsUse w pre = false →
      (allVisits w mm rc lists inputs).countP fromStdin = 0 := by
  have h1 := count_lists w mm rc lists false
  have h2 := count_inputs w mm rc inputs (listsUse w lists)
  constructor
  · unfold allVisits
    rw [List.countP_append]
    have h3 := use_add (used := false) (d := listsUse w lists) (u := decide (dash ∈ inputs)) h1 (by simpa using h2)
    exact Nat.le_trans h3 (Bool.toNat_le _)
  · rintro pre post rfl hp
    have hu : listsUse w (pre ++ dash :: post) = true := by simp [listsUse]
    rw [hu] at h2
    simp at h2
    unfold allVisits
    rw [List.countP_append, hu]
    have h3 : ∀ pre used, listsUse w pre = false →
        (listVisits w mm rc used (pre ++ dash :: post)).countP fromStdin = 0 := by
      intro pre
      induction pre with
      | nil =>
        intro used _
        have h1 := count_inputs w mm rc (getLines [] w.stdin) true
        have h2 := count_lists w mm rc post true
        simp only [Bool.not_true, Bool.false_and, Bool.toNat_false, Nat.le_zero] at h1 h2
        rw [List.nil_append, listVisits, if_pos rfl, List.countP_append, h2]
        split
        · simp
        · rw [h1]
      | cons l pre ih =>
        intro used h
        have huse : listsUse w (l :: pre) = ((decide (l = dash) ||
            match w.node l with
            | some (.file (some c) _) => decide (dash ∈ getLines [] c)
            | _ => false) || listsUse w pre) := rfl
        rw [huse] at h
        simp only [Bool.or_eq_false_iff, decide_eq_false_iff_not] at h
        rw [List.cons_append, listVisits, if_neg h.1.1]
        cases hn : w.node l with
        | none => simpa [fromStdin] using ih used h.2
        | some n =>
          cases n with
          | dir es => simpa using ih used h.2
          | file r m =>
            cases r with
            | none => simpa [fromStdin] using ih used h.2
            | some c =>
              have hc := h.1.2
              rw [hn] at hc
              simp only [decide_eq_false_iff_not] at hc
              have h1 := count_inputs w mm rc (getLines [] c) used
              simp only [hc, decide_false, Bool.and_false, Bool.toNat_false, Nat.le_zero] at h1
              simp only [List.countP_append, h1, Nat.zero_add]
              exact ih _ h.2
    rw [h3 pre false hp]
    simpa using h2

/-- **C81, the first.** If nothing in the lists names standard input, the first `-` among the
inputs is searched. -/
theorem stdin_searched (w : World) (mm rc : Bool) {lists inputs : List Str} (hl : listsUse w lists = false)
    (hi : dash ∈ inputs) (hn : ∀ es, w.node dash ≠ some (.dir es)) :
    some ⟨stdinName, true, false, w.stdin⟩ ∈ allVisits w mm rc lists inputs := by
  unfold allVisits
  rw [hl]
  refine List.mem_append.2 (.inr (List.mem_flatMap.2 ⟨dash, ?_, ?_⟩))
  · clear hl
    induction inputs with
    | nil => cases hi
    | cons i is ih =>
      unfold onceDash
      by_cases h : i = dash
      · simp [h]
      · rw [if_neg h]
        exact List.mem_cons_of_mem _ (ih (by simpa [Ne.symm h] using hi))
  · unfold visitsOf
    cases h : w.node dash with
    | none => simp
    | some n =>
      cases n with
      | dir es => exact absurd h (hn es)
      | file r m => simp

/-! ## Compiled programs -/

open Verif.Nfa Verif.Compiler

theorem blockCalls_searches (raw : List Nat) (bs : Nat) : ∀ n pos, ∃ bufs : List (List UInt8),
    blockCalls ((mappedSearch raw bs n pos).map fun x => (x.1, x.2.map UInt8.ofNat)) ++ [.closeOut true] =
      searches pos bufs ∧ bufs = (mappedSearch raw bs n pos).map fun x => x.2.map UInt8.ofNat := by
  intro n
  induction n with
  | zero => intro pos; exact ⟨[], rfl, rfl⟩
  | succ n ih =>
    intro pos
    unfold mappedSearch
    simp only
    split
    · exact ⟨[[]], rfl, rfl⟩
    · next h0 =>
      obtain ⟨bufs, h1, h2⟩ := ih (pos + min bs (raw.length - pos))
      refine ⟨((raw.drop pos).take (min bs (raw.length - pos))).map UInt8.ofNat :: bufs, ?_, by simp [h2]⟩
      simp only [List.map_cons, blockCalls, List.cons_append, searches] at h1 ⊢
      rw [h1]
      congr 2
      rw [List.length_map, List.length_take, List.length_drop]
      omega

/-- Blocks of a file are the pieces of its content. -/
theorem fileCalls (c : List UInt8) {bs : Nat} (hbs : 0 < bs) : ∃ bufs : List (List UInt8),
    blockCalls (mappedBlocks c bs) ++ [.closeOut true] = searches 0 bufs ∧ bufs.flatten = c := by
  obtain ⟨bufs, h1, h2⟩ := blockCalls_searches (c.map UInt8.toNat) bs (c.length + 1) 0
  refine ⟨bufs, h1, ?_⟩
  have h := (search_mapped_file (c.map UInt8.toNat) bs hbs).1
  rw [List.length_map] at h
  rw [h2]
  have e : ((mappedSearch (c.map UInt8.toNat) bs (c.length + 1) 0).map fun x => x.2.map UInt8.ofNat).flatten =
      ((mappedSearch (c.map UInt8.toNat) bs (c.length + 1) 0).flatMap Prod.snd).map UInt8.ofNat := by
    rw [List.map_flatMap, List.flatMap_def]
  rw [e, h, List.map_map]
  conv => rhs; rw [← List.map_id c]
  apply List.map_congr_left
  intro x _
  simp

theorem run_searchEvents {P : Program} {first : List Thread} {fuel : Nat} (ctx : Bool)
    (bs : List (Nat × List UInt8)) : ∀ {σ σ' : St} {rs : List (Option Nat)},
      run P first fuel (blockCalls bs) σ = .ok (rs, σ') → ∃ es, searchEvents P first fuel ctx bs σ = .ok (es, σ') := by
  induction bs with
  | nil =>
    intro σ σ' rs h
    simp only [blockCalls, List.map_nil, run, Res.ok.injEq, Prod.mk.injEq] at h
    exact ⟨[], by rw [← h.2]; rfl⟩
  | cons b bs ih =>
    intro σ σ' rs h
    obtain ⟨off, blk⟩ := b
    have h : run P first fuel (.search blk off true :: blockCalls bs) σ = .ok (rs, σ') := h
    simp only [run] at h
    obtain ⟨⟨r, σ1⟩, h1, h⟩ := bind_eq_ok.1 h
    obtain ⟨⟨rs2, σ2⟩, h2, h⟩ := bind_eq_ok.1 h
    simp only [Res.ok.injEq, Prod.mk.injEq] at h
    obtain ⟨-, rfl⟩ := h
    obtain ⟨es, he⟩ := ih h2
    simp only [searchEvents, h1, bind_ok, he]
    exact ⟨_, rfl⟩

theorem run_fileEvents {P : Program} {first : List Thread} {fuel : Nat} (ctx : Bool)
    {bs : List (Nat × List UInt8)} {σ σ' : St} {rs : List (Option Nat)}
    (h : run P first fuel (blockCalls bs ++ [.closeOut true]) σ = .ok (rs, σ')) :
    ∃ es, fileEvents P first fuel ctx bs σ = .ok (es, σ') := by
  rw [run_append] at h
  obtain ⟨⟨r, σ1⟩, h1, h⟩ := bind_eq_ok.1 h
  obtain ⟨es, he⟩ := run_searchEvents ctx bs h1
  simp only [run] at h
  obtain ⟨⟨rs2, σ3⟩, h2, h⟩ := bind_eq_ok.1 h
  obtain ⟨⟨r2, σ2⟩, h3, h2⟩ := bind_eq_ok.1 h2
  simp only [bind_ok, Res.ok.injEq, Prod.mk.injEq] at h h2
  obtain ⟨-, rfl⟩ := h
  obtain ⟨-, rfl⟩ := h2
  simp only [fileEvents, he, bind_ok, h3]
  exact ⟨_, rfl⟩

/-- The context has been used in some way. -/
def Used (C : Conf) (σ₀ : St) (s : CmdSt) : Prop := ∃ pre rs, run C.P C.first C.fuel pre σ₀ = .ok (rs, s.vm)

section ends
variable {C : Conf} {σ₀ : St} (hall : ∀ cs, ∃ rs σ, run C.P C.first C.fuel cs σ₀ = .ok (rs, σ))
include hall

theorem content_ends (mapped : Bool) (shown : Str) (content : Option (List UInt8)) {s : CmdSt} (hs : Used C σ₀ s) :
    ∃ s', searchContent C mapped shown content s = .ok s' ∧ Used C σ₀ s' := by
  unfold searchContent
  split
  · exact ⟨s, rfl, hs⟩
  · cases content with
    | none => exact ⟨_, rfl, hs⟩
    | some c =>
      obtain ⟨pre, rs, hp⟩ := hs
      obtain ⟨rs', σ, h⟩ := hall (pre ++ .reset :: (blockCalls (mappedBlocks c C.blockSize) ++ [.closeOut true]))
      have h' := h
      rw [run_append, hp] at h
      simp only [bind_ok, run, step] at h
      obtain ⟨⟨r2, σ2⟩, h2, h⟩ := bind_eq_ok.1 h
      obtain ⟨⟨r3, σ3⟩, h3, h2⟩ := bind_eq_ok.1 h2
      simp only [Res.ok.injEq, Prod.mk.injEq] at h h2
      obtain ⟨-, rfl⟩ := h2
      obtain ⟨-, rfl⟩ := h
      obtain ⟨es, he⟩ := run_fileEvents C.fmt.style.context h3
      simp only [step, bind_ok, he]
      exact ⟨_, rfl, _, rs', h'⟩

theorem walk_ends (fs : List (Str × Option (List UInt8) × Option (List UInt8))) : ∀ {s : CmdSt}, Used C σ₀ s →
    ∃ s', searchWalk C fs s = .ok s' ∧ Used C σ₀ s' := by
  induction fs with
  | nil => intro s hs; exact ⟨s, rfl, hs⟩
  | cons f fs ih =>
    intro s hs
    obtain ⟨p, r, m⟩ := f
    obtain ⟨s1, h1, u1⟩ := content_ends hall C.mmap p (if C.mmap then m else r) hs
    obtain ⟨s2, h2, u2⟩ := ih u1
    exact ⟨s2, by simp only [searchWalk, h1, bind_ok, h2], u2⟩

theorem path_ends (w : World) (i : Str) {s : CmdSt} (hs : Used C σ₀ s) :
    ∃ s', searchPath C w i s = .ok s' ∧ Used C σ₀ s' := by
  have h1 : ∃ s', search1 C w i s = .ok s' ∧ Used C σ₀ s' := by
    unfold search1
    split
    · exact content_ends hall _ _ _ hs
    · exact content_ends hall _ _ _ hs
  unfold searchPath
  split
  · split
    · exact walk_ends hall _ hs
    · exact ⟨s, rfl, hs⟩
  · exact h1

theorem inputs_end (w : World) (is : List Str) : ∀ {s : CmdSt}, Used C σ₀ s →
    ∃ s', searchInputs C w is s = .ok s' ∧ Used C σ₀ s' := by
  induction is with
  | nil => intro s hs; exact ⟨s, rfl, hs⟩
  | cons i is ih =>
    intro s hs
    obtain ⟨s1, h1, u1⟩ : ∃ s', searchInput C w i s = .ok s' ∧ Used C σ₀ s' := by
      unfold searchInput
      split
      · exact ⟨s, rfl, hs⟩
      · split
        · split
          · exact ⟨s, rfl, hs⟩
          · exact path_ends hall w i (s := { s with stdinUsed := true }) hs
        · exact path_ends hall w i hs
    obtain ⟨s2, h2, u2⟩ := ih u1
    exact ⟨s2, by simp only [searchInputs, h1, bind_ok, h2], u2⟩

theorem lists_end (w : World) (ls : List Str) : ∀ {s : CmdSt}, Used C σ₀ s →
    ∃ s', searchLists C w ls s = .ok s' ∧ Used C σ₀ s' := by
  induction ls with
  | nil => intro s hs; exact ⟨s, rfl, hs⟩
  | cons l ls ih =>
    intro s hs
    obtain ⟨s1, h1, u1⟩ : ∃ s', searchList C w l s = .ok s' ∧ Used C σ₀ s' := by
      unfold searchList
      split
      · exact ⟨s, rfl, hs⟩
      · split
        · split
          · exact ⟨s, rfl, hs⟩
          · exact inputs_end hall w _ (s := { s with stdinUsed := true }) hs
        · split
          · exact inputs_end hall w _ hs
          · exact ⟨s, rfl, hs⟩
          · exact ⟨_, rfl, hs⟩
    obtain ⟨s2, h2, u2⟩ := ih u1
    exact ⟨s2, by simp only [searchLists, h1, bind_ok, h2], u2⟩

end ends

/-- A hit as the engine reports it. -/
def asHit (h : Hit) : SHit := ⟨h.start, h.end, h.label⟩

/-- **C80, compiled programs.** For a program made from patterns the command always ends, and the
hits printed for an input are those found when its whole content is searched in one buffer. -/
theorem command_ends {C : Conf} {g : Graph} (hg : Live g) (hG : Guards g) {fuel' : Nat}
    (hc : createProgram fuel' g = some (.ok C.P)) (hf : 2 * g.n + 9 ≤ C.fuel) {σ₀ : St}
    (hnew : create C.P C.fuel = .ok (C.first, σ₀)) (hbs : 0 < C.blockSize) (w : World) (lists inputs : List Str) :
    ∃ s, searchCommand C w lists inputs σ₀ = .ok s ∧
      ∀ v ∈ opened (allVisits w C.mmap C.recursive lists inputs), ∃ rs σ,
        run C.P C.first C.fuel [.search v.content 0 true, .closeOut true] σ₀ = .ok (rs, σ) ∧
        ((reportsOf C σ₀ v).map Prod.snd).Perm (σ.log.map asHit) ∧
        ∀ l, ((reportsOf C σ₀ v).map Prod.snd).filter (fun h => h.kw == l) = (σ.log.map asHit).filter fun h => h.kw == l := by
  have hall : ∀ cs, ∃ rs σ, run C.P C.first C.fuel cs σ₀ = .ok (rs, σ) := by
    intro cs
    obtain ⟨first, σ, rs, σ', h1, h2⟩ := compiled_never_out_of_bounds hg hG.labelled hc hf cs
    rw [hnew] at h1
    cases h1
    exact ⟨rs, σ', h2⟩
  obtain ⟨s1, h1, u1⟩ := lists_end hall w lists (s := ⟨σ₀, Out.init, false, false⟩) ⟨[], [], rfl⟩
  obtain ⟨s, h2, -⟩ := inputs_end hall w inputs u1
  have hcmd : searchCommand C w lists inputs σ₀ = .ok s := by simp only [searchCommand, h1, bind_ok, h2]
  refine ⟨s, hcmd, fun v hv => ?_⟩
  obtain ⟨rs, σ, g1, g2⟩ := (inputs_searched_alone hnew hcmd).2.1 v hv
  obtain ⟨bufs, b1, b2⟩ := fileCalls v.content hbs
  rw [b1] at g1
  obtain ⟨first, σ', rs1, σ1, rs2, σ2, c1, c2, c3, c4, c5⟩ := cuts_agree hg hG hc hf 0 (bufs := bufs)
    (bufs' := [v.content]) (by simpa using b2)
  rw [hnew] at c1
  cases c1
  rw [g1] at c2
  cases c2
  refine ⟨rs2, σ2, c3, by rw [g2]; exact c5.map _, fun l => ?_⟩
  rw [g2]
  have hf : ∀ log : List Hit, (log.map asHit).filter (fun h => h.kw == l) =
      (hitsOf l log).map fun x => ⟨x.1, x.2, l⟩ := by
    intro log
    unfold hitsOf
    rw [List.filter_map, List.map_map]
    have : (log.filter ((fun h : SHit => h.kw == l) ∘ asHit)) = log.filter fun h => h.label == l := rfl
    rw [this]
    apply List.map_congr_left
    intro h hh
    have := (List.mem_filter.1 hh).2
    simp only [beq_iff_eq] at this
    simp [asHit, this]
  show (σ.log.map asHit).filter _ = _
  rw [hf, hf, c4]

/-! ## The hypotheses can be met -/

/-- The pattern table and decoder of the examples. -/
def exDisplay : Display := ⟨fun b h => some (⟨(b.1.drop (h.start - b.2)).take (h.stop - h.start), 0, h.stop - h.start⟩, h.start),
  fun _ => ⟨[97, 98], [65], 7⟩⟩

/-- Blocks of two bytes; paths are printed, directories traversed. -/
def exConf (first : List Thread) : Conf :=
  ⟨abProgram, first, 10, ⟨⟨true, false, true⟩, [45, 45], true⟩, fun _ _ => exDisplay, 2, false, true⟩

/-- The file `f` holds `ab`, the directory `d` a file `g` with `xab`; standard input is `abab`. -/
def exWorld : World :=
  ⟨fun p => if p = [102] then some (.file (some [97, 98]) (some [97, 98]))
    else if p = [100] then some (.dir (.cons [103] (.file (some [120, 97, 98]) none) .nil)) else none,
   [97, 98, 97, 98]⟩

/-- `f d - f -`: four inputs are searched, the second `-` is skipped. -/
example : ∃ first σ₀ s, create abProgram 10 = .ok (first, σ₀) ∧
    searchCommand (exConf first) exWorld [] [[102], [100], dash, [102], dash] σ₀ = .ok s ∧ s.dead = false ∧
    s.out.hits = 5 ∧ (opened (allVisits exWorld false true [] [[102], [100], dash, [102], dash])).map Visit.shown =
      [[102], [100, 47, 103], stdinName, [102]] :=
  ⟨_, _, _, rfl, rfl, rfl, rfl, by decide⟩

/-- An input that cannot be opened ends the command: the rest is not searched. -/
example : ∃ first σ₀ s, create abProgram 10 = .ok (first, σ₀) ∧
    searchCommand (exConf first) exWorld [] [[102], [104], [102]] σ₀ = .ok s ∧ s.dead = true ∧ s.out.hits = 1 :=
  ⟨_, _, _, rfl, rfl, rfl, rfl⟩

example : ∃ F C σ₀ s, createProgram F abc = some (.ok C.P) ∧ create C.P C.fuel = .ok (C.first, σ₀) ∧
    searchCommand C exWorld [] [[102], [100], dash] σ₀ = .ok s ∧ s.dead = false := by
  obtain ⟨F, P, hP⟩ := abc_program
  obtain ⟨first, σ₀, -, -, h0, -⟩ := compiled_never_out_of_bounds abc_live abc_guards.labelled hP (fuel := 17) (by decide) []
  obtain ⟨s, h1, -⟩ := command_ends (C := { exConf first with P := P, fuel := 17 }) abc_live abc_guards hP (show 2 * abc.n + 9 ≤ 17 by decide)
    h0 (show (0 : Nat) < 2 by decide) exWorld [] [[102], [100], dash]
  refine ⟨F, { exConf first with P := P, fuel := 17 }, σ₀, s, hP, h0, h1, ?_⟩
  have := (inputs_searched_alone h0 h1).1
  have h2 : none ∉ allVisits exWorld false true [] [[102], [100], dash] := by
    simp [allVisits, listVisits, listsUse, inputVisits, onceDash, visitsOf, exWorld, dash, walk, walkNode, fileVisit]
  cases hd : s.dead with
  | false => rfl
  | true => exact absurd (this.1 hd) h2

/-- A list from standard input; its line `-` is not searched. -/
example : (allVisits ⟨exWorld.node, [102, 10, 45, 10]⟩ false true [dash] [dash]).countP fromStdin = 0 :=
  (stdin_once _ _ _ _ _).2 [] [] rfl rfl

end Verif.Cmd
