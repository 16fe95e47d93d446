import Verif.Props.WholeListing
import Verif.Props.WholeFile
/-!
# C115: the program that the command writes for a keyword file
-/
namespace Verif.Whole
open Verif.Cmd (Args Opts OptErr Str)
open Verif.Marshal (Info)
open Verif.Chain (Build)
open Verif.Session (Request KeyOf Searchable occurrences)
open Verif.Parser (Env)
open Verif.Handles (commandProgram Item fileItems)

/-! ## Specification -/

/-- `lightgrep -c program KEYWORDFILE` or `lightgrep -c program -k KEYWORDFILE`, with options that go together. -/
structure Given.ProgramOf (g : Given) (f : Str) : Prop where
  command : g.is "program"
  agree : Agree g.toArgs
  alone : g.toArgs.files = []
  patterns : g.patterns = []
  programFile : g.programFile = none
  file : g.keywords = [f] ∨ g.keywords = [] ∧ g.pargs.head? = some f
  encodings : ∀ e ∈ g.encodings, ∀ b ∈ e, b ≠ 0 ∧ b < 256

/-- The same with `--binary`. -/
structure Given.WritesProgramOf (g : Given) (f : Str) : Prop extends g.ProgramOf f where
  binary : g.binary = true

/-! ## Proofs -/

theorem Given.ProgramOf.source {g : Given} {f : Str} (h : g.ProgramOf f) (X : Outside) :
    g.keywordSource X = cmdOf g [X.keyFile f] := by
  have : (if g.toArgs.keyed then g.toArgs.keywords else g.toArgs.pargs.take 1) = [f] := by
    rcases h.file with hk | ⟨hk, hp⟩
    · rw [if_pos (.inr (.inr (by rw [hk]; simp))), hk]
    · rw [if_neg (by
        rintro (a | a | a)
        · exact a h.programFile
        · exact a h.patterns
        · exact a hk)]
      cases hq : g.pargs with
      | nil => rw [hq] at hp; cases hp
      | cons x xs => rw [hq] at hp; cases hp; rfl
  unfold Given.keywordSource cmdOf
  rw [this]
  rfl

theorem splitOnP_short (sep : Nat → Bool) : ∀ l : List Nat, (l.splitOnP sep).length ≤ l.length + 1
  | [] => by simp
  | x :: xs => by
    have := splitOnP_short sep xs
    rw [List.splitOnP_cons_eq_if_modifyHead]
    split <;> simp <;> omega

theorem listItems_storable {F : Handles.Front Handles.ParsedTree} {defEncs : List (List Nat)}
    (hd : ∀ e ∈ defEncs, ∀ b ∈ e, b ≠ 0 ∧ b < 256) {o : Handles.Opts} : ∀ (lines : List (List Nat)) (n : Nat),
    (∀ l ∈ lines, ∀ b ∈ l, b ≠ 0 ∧ b < 256) → n + lines.length ≤ 2 ^ 64 → ∀ x ∈ Handles.listItems F defEncs o n lines, x.1.Storable
  | [], n, _, _, x, hx => by cases hx
  | line :: lines, n, hl, hn, x, hx => by
    rw [Handles.listItems] at hx
    rw [List.length_cons] at hn
    cases h : Handles.lineItems F defEncs o n line with
    | none => rw [h] at hx; cases hx
    | some xs =>
      rw [h] at hx
      rcases List.mem_append.1 hx with hx | hx
      · have col : ∀ p ∈ Handles.pieces (· == 9) line, ∀ b ∈ p, b ≠ 0 ∧ b < 256 :=
          fun p hp b h0 => hl line (by simp) b (Handles.piece_subset hp h0)
        unfold Handles.lineItems at h
        simp only at h
        split at h
        · cases h; cases hx
        · simp only [Option.map_eq_some_iff] at h
          obtain ⟨o', -, rfl⟩ := h
          obtain ⟨e, he, rfl⟩ := List.mem_map.1 hx
          refine ⟨?_, ?_, by show n < 2 ^ 64; omega⟩
          · cases hp : Handles.pieces (· == 9) line with
            | nil => simp
            | cons p ps => exact col p (by rw [hp]; simp)
          · show ∀ b ∈ e, _
            unfold Handles.lineEncs at he
            split at he
            · exact hd e he
            · next el hel => exact fun b h0 => col el (List.mem_of_getElem? hel) b (Handles.piece_subset he h0)
      · exact listItems_storable hd lines (n + 1) (fun l h => hl l (by simp [h])) (by omega) x hx

theorem items_storable {g : Given} {f : Str} (hg : g.WritesProgramOf f) {env : Env} {cast : List Nat → Option Bool} {text : List Nat}
    (hb : ∀ b ∈ text, b < 256) (hlen : text.length < 2 ^ 64) : ∀ y ∈ g.items env cast text, y.1.Storable := by
  refine listItems_storable (fun e' he' => ?_) _ 0 (fun l hl b hbl => ?_) ?_
  · obtain ⟨e, h1, rfl⟩ := List.mem_map.1 he'
    intro b hb'
    obtain ⟨c, hc, rfl⟩ := List.mem_map.1 hb'
    have := hg.encodings e h1 c hc
    unfold upper
    split <;> omega
  · have hc : b ∈ Handles.cstr text := Handles.piece_subset hl hbl
    unfold Handles.cstr at hc
    have h0 := List.all_eq_true.1 (List.all_takeWhile (p := fun b => decide (b ≠ 0)) (l := text)) b hc
    exact ⟨by simpa using h0, hb b ((List.takeWhile_sublist _).subset hc)⟩
  · have h1 := splitOnP_short (fun c => c == 10 || c == 13) (Handles.cstr text)
    have h2 : (Handles.cstr text).length ≤ text.length := (List.takeWhile_sublist _).length_le
    have h3 : (Handles.textLines text).length ≤ _ := List.length_filter_le _ _
    omega

theorem main_file_program [Build] {L : Library} {X : Outside} {g : Given} {f : Str} (hg : g.ProgramOf f) (hX : CanWrite X g.output)
    {G : Nfa.Graph} {P : Vm.Program} {infos : List Info}
    (hP : commandProgram L.fuel g.depth L.env L.castBool (g.keywordSource X) = some (G, P, infos))
    {w : Str} (hw : written g.binary infos P = some w) : main L X g = .ok (0, w) := by
  rcases parse_other (c := .program) ((is_command hg.command).trans (by decide)) (by simp) L X with ⟨h1, h2, s, hp, e1, e2, e3, e4⟩ | ⟨h1, e, hp⟩
  · have ho : opens X s = true := by rw [opens_iff, e3]; exact hX
    have hfiles : (keysOf X s).files.length ≤ 1 := by
      have := congrArg Handles.CmdOptions.files e4
      rw [hg.source] at this
      have := congrArg List.length this
      simp only [Handles.Keys.cmd, List.length_map, cmdOf, List.length_cons, List.length_nil] at this
      omega
    obtain ⟨t, ht⟩ := reports_defined L (k := keysOf X s) (.inr hfiles) g.depth
    unfold main
    rw [hp]
    simp only [e1, e2, e4, ho, ht, hP, hw]
    rfl
  · exact absurd ⟨hg.agree, hg.alone⟩ h1

theorem file_program_made [Build] {env : Env} (he : env.Sound) {cast : List Nat → Option Bool} {g : Given} {f : Str} (hg : g.ProgramOf f)
    {text : List Nat} {xs : List Item} (hxs : g.items env cast text = xs) (hne : xs ≠ [])
    (hk : ∀ y ∈ xs, Session.Modest env y.req ∧ Text.parseAndReduce env y.req.opts y.req.expr ≠ .error .ub ∧
      Session.Acceptable env y.req)
    (hmany : xs.length < 16777216) :
    ∃ G : Nfa.Graph, Session.States env (xs.map Item.req) g.depth G.n ∧ ∀ _ : g.depth = 0 ∨ G.n ≤ g.depth, G.n < 16777216 →
      ∃ P F, Session.Compiled env (xs.map Item.req) ((List.range xs.length).map some) G P ∧
        ∀ (L : Library) (X : Outside), X.keyFile f = some text → L.Makes env cast F →
          commandProgram L.fuel g.depth L.env L.castBool (g.keywordSource X) = some (G, P, xs.map Prod.fst) := by
  have hit := items_cmdOf g env cast text
  rw [hxs] at hit
  obtain ⟨G, hS, hG⟩ := Handles.files_work he (cast := cast) (o := cmdOf g [some text]) hg.patterns
    (fun e' he' => by
      obtain ⟨e, h1, rfl⟩ := List.mem_map.1 he'
      exact upper_zero fun h0 => (hg.encodings e h1 0 h0).1 rfl) (by rw [hit]; exact hne) (by
    rw [hit]
    intro r hr
    obtain ⟨y, h', rfl⟩ := List.mem_map.1 hr
    exact hk y h') (by rw [hit]; exact hmany) g.depth
  rw [hit] at hS hG
  refine ⟨G, hS, fun hd hN => ?_⟩
  obtain ⟨P, F, h1, hC, -⟩ := hG hd hN
  refine ⟨P, F, hC, fun L X hf hL => ?_⟩
  rw [hg.source, hf, hL.env, hL.cast]
  exact h1 _ hL.fuel

/-- **C114** for keyword files.  `lightgrep -c program KEYWORDFILE`, with acceptable keywords whose automaton is small enough, ends with
status 0 and writes the listing of the program made of what the lines of the file ask for. -/
theorem listing_file_works [Build] {env : Env} (he : env.Sound) {cast : List Nat → Option Bool} {g : Given} {f : Str} (hg : g.ProgramOf f)
    (hb : g.binary = false) {text : List Nat} {xs : List Item} (hxs : g.items env cast text = xs) (hne : xs ≠ [])
    (hk : ∀ y ∈ xs, Session.Modest env y.req ∧ Text.parseAndReduce env y.req.opts y.req.expr ≠ .error .ub ∧
      Session.Acceptable env y.req)
    (hmany : xs.length < 16777216) :
    ∃ G : Nfa.Graph, Session.States env (xs.map Item.req) g.depth G.n ∧ ∀ _ : g.depth = 0 ∨ G.n ≤ g.depth, G.n < 16777216 →
      ∃ P F, Session.Compiled env (xs.map Item.req) ((List.range xs.length).map some) G P ∧
        ∀ (L : Library) (X : Outside), X.keyFile f = some text → L.Makes env cast F → CanWrite X g.output →
          ∃ t, main L X g = .ok (0, t) ∧ Listing.listing P.code = some t := by
  obtain ⟨G, hS, hG⟩ := file_program_made he hg hxs hne hk hmany
  refine ⟨G, hS, fun hd hN => ?_⟩
  obtain ⟨P, F, hC, h1⟩ := hG hd hN
  refine ⟨P, F, hC, fun L X hf hL hX => ?_⟩
  have hl := compiled_laid he hC
  obtain ⟨⟨t, ht⟩, -⟩ := Listing.listing_read hl hl
  exact ⟨t, main_file_program hg hX (h1 L X hf hL) (by unfold written; rw [hb]; exact ht), ht⟩

/-- **C115** and **C96**, proved part.  `lightgrep -c program --binary KEYWORDFILE`, where all keywords in the file are acceptable in their
encodings and their automaton is small enough, ends with status 0.  `lg_read_program` makes of the bytes that it writes, wherever
they are in memory, a program with a list of the keywords, their encodings and the numbers of their lines, and every search with it
ends.  Each hit is a match of the keyword in the encoding that its number stands for.  The hits for a fixed string in an encoding are
its occurrences; those for a fixed string that is to be found without regard to case are the leftmost non-overlapping places with a
text that stands for it; and those for another keyword, without a branch that is only `{0}` before a bar and without non-greedy
repetitions in repetitions, are its leftmost matches, unless a string could be repeated before all keywords. -/
theorem program_file_hits_partial [Build] {env : Env} (he : env.Sound) {V : Bool → Nat → Nat → Prop} (hV : Session.FoldsAs env V)
    {cast : List Nat → Option Bool} {g : Given} {f : Str} (hg : g.WritesProgramOf f) {text : List Nat} {xs : List Item}
    (hxs : g.items env cast text = xs) (hne : xs ≠ []) (hb : ∀ b ∈ text, b < 256) (hlen : text.length < 2 ^ 64)
    (hk : ∀ y ∈ xs, Session.Modest env y.req ∧ Text.parseAndReduce env y.req.opts y.req.expr ≠ .error .ub ∧
      Session.Acceptable env y.req)
    (hmany : xs.length < 16777216) :
    ∃ n, Session.States env (xs.map Item.req) g.depth n ∧ ∀ _ : g.depth = 0 ∨ n ≤ g.depth, n < 16777216 →
      ∃ F, ∀ (L : Library) (X : Outside), X.keyFile f = some text → L.Makes env cast F → CanWrite X g.output →
        ∃ t, main L X g = .ok (0, t) ∧ ∀ base, t.length < 2 ^ 31 → base + t.length < 2 ^ 64 →
          ∃ P, Marshal.readProgram base t = .ok (xs.map Prod.fst) P ∧ Marshal.programSize (xs.map Prod.fst) P = t.length ∧
            ∀ fuel ≥ 2 * n + 9, ∀ off bufs, ∃ first σ₀ replies σ,
              Vm.create P fuel = .ok (first, σ₀) ∧ Vm.run P first fuel (Vm.searches off bufs) σ₀ = .ok (replies, σ) ∧
              (∀ x ∈ σ.log, ∃ y, xs[x.label]? = some y ∧ Session.MatchAt env y.req off bufs.flatten x.start x.end) ∧
              ∀ (i : Nat) (y : Item), xs[i]? = some y →
                (y.2.fixed = true → y.2.caseInsensitive = false →
                  ∃ key, KeyOf y.req key ∧ key ≠ [] ∧ Vm.hitsOf i σ.log = occurrences key off 0 bufs.flatten) ∧
                (y.2.fixed = true → y.2.caseInsensitive = true →
                  ∃ cs k ts, Session.Caselessly y.req cs ∧ cs ≠ [] ∧ Chain.Reads y.req.chain k ts ∧
                    ∀ hits, Compiler.Leftmost (Session.CaselessAt (V (!y.2.unicode)) k ts cs off bufs.flatten) 0 hits ↔
                      hits = Vm.hitsOf i σ.log) ∧
                (¬ Session.Pumped env (xs.map Item.req) ((List.range xs.length).map some) → Session.Parsed env y.req Regex.NgFlat →
                  Session.Parsed env y.req Regex.NoBlank →
                  Compiler.Leftmost (Session.MatchAt env y.req off bufs.flatten) 0 (Vm.hitsOf i σ.log)) := by
  obtain ⟨G, hS, hG⟩ := file_program_made he hg.toProgramOf hxs hne hk hmany
  refine ⟨G.n, hS, fun hd hN => ?_⟩
  obtain ⟨P, F, hC, h1⟩ := hG hd hN
  refine ⟨F, fun L X hf hL hX => ⟨Marshal.writeProgram (xs.map Prod.fst) P, ?_, fun base hs hr => ?_⟩⟩
  · exact main_file_program hg.toProgramOf hX (h1 L X hf hL) (by unfold written; rw [hg.binary]; rfl)
  obtain ⟨r1, r2⟩ := Loaded.session_write_read he hC (ps := xs.map Prod.fst) (base := base) ⟨fun p hp => by
    obtain ⟨y, hy, rfl⟩ := List.mem_map.1 hp
    exact items_storable hg hb hlen y (hxs ▸ hy), hs, hr⟩
  refine ⟨P, r1, r2, fun fuel hfu off bufs => ?_⟩
  obtain ⟨ps, hM, -⟩ := hC.made' he
  obtain ⟨a, b, ⟨f', c⟩, -⟩ := hM.facts
  obtain ⟨first, σ₀, replies, σ, c1, c2⟩ := Compiler.compiled_never_out_of_bounds a b.labelled c hfu (Vm.searches off bufs)
  refine ⟨first, σ₀, replies, σ, c1, c2, fun x hx => ?_, fun i y hy => ?_⟩
  · obtain ⟨i, r, a1, a3, a5⟩ := Session.text_hits_at he hC c1 c2 x hx
    rw [List.getElem?_map] at a1 a3
    obtain ⟨r', hr', rfl⟩ := Option.map_eq_some_iff.1 a1
    obtain ⟨y, hy, hyl⟩ := Option.map_eq_some_iff.1 a3
    obtain ⟨hlt, hy'⟩ := List.getElem?_eq_some_iff.1 hy
    rw [List.getElem_range] at hy'
    have hxi : x.label = i := by
      rw [hy']
      exact (Option.some.inj hyl).symm
    rw [hxi]
    exact ⟨r', hr', a5⟩
  · have hlt : i < xs.length := (List.getElem?_eq_some_iff.1 hy).1
    have hr' : (xs.map Item.req)[i]? = some y.req := by rw [List.getElem?_map, hy]; rfl
    have ho : ((List.range xs.length).map some)[i]? = some (some i) := by simp [hlt]
    refine ⟨fun hfx hc => ?_, fun hfx hc => ?_, fun hu h3 h4 => Session.unpumped_text_hits he hC hu c1 c2 hr' ho h3 h4⟩
    · obtain ⟨key, k1, k2, k3⟩ := Session.fixed_hits he hC hr' ho hfx hc
      exact ⟨key, k1, k2, k3 c1 c2⟩
    · obtain ⟨cs, k, ts, k1, k2, k3, k4⟩ := Session.caseless_hits he hV hC hr' ho hfx hc
      exact ⟨cs, k, ts, k1, k2, k3, k4 c1 c2⟩

/-- **C115.** `lightgrep -c program --binary KEYWORDFILE`, where all lines of the file are for fixed strings that can be searched for in
their encodings and their automaton is small enough, ends with status 0.  `lg_read_program` makes of the bytes that it writes a program
with a list of the keywords, their encodings and the numbers of their lines.  Every search with it ends, and the hits for a string in
an encoding are its occurrences, or the leftmost non-overlapping places with a text that stands for it if it is to be found
without regard to case. -/
theorem program_file_fixed [Build] {env : Env} (he : env.Sound) {V : Bool → Nat → Nat → Prop} (hV : Session.FoldsAs env V)
    {cast : List Nat → Option Bool} {g : Given} {f : Str} (hg : g.WritesProgramOf f) {text : List Nat} {xs : List Item}
    (hxs : g.items env cast text = xs) (hne : xs ≠ []) (hb : ∀ b ∈ text, b < 256) (hlen : text.length < 2 ^ 64)
    (hk : ∀ y ∈ xs, if y.2.caseInsensitive then Session.CaselesslySearchable V y.req else Searchable y.req)
    (hmany : xs.length < 16777216) :
    ∃ n, Session.States env (xs.map Item.req) g.depth n ∧ ∀ _ : g.depth = 0 ∨ n ≤ g.depth, n < 16777216 →
      ∃ F, ∀ (L : Library) (X : Outside), X.keyFile f = some text → L.Makes env cast F → CanWrite X g.output →
        ∃ t, main L X g = .ok (0, t) ∧ ∀ base, t.length < 2 ^ 31 → base + t.length < 2 ^ 64 →
          ∃ P, Marshal.readProgram base t = .ok (xs.map Prod.fst) P ∧ Marshal.programSize (xs.map Prod.fst) P = t.length ∧
            ∀ fuel ≥ 2 * n + 9, ∀ off bufs, ∃ first σ₀ replies σ,
              Vm.create P fuel = .ok (first, σ₀) ∧ Vm.run P first fuel (Vm.searches off bufs) σ₀ = .ok (replies, σ) ∧
              ∀ (i : Nat) (y : Item), xs[i]? = some y →
                if y.2.caseInsensitive then
                  ∃ cs k ts, Session.Caselessly y.req cs ∧ cs ≠ [] ∧ Chain.Reads y.req.chain k ts ∧
                    ∀ hits, Compiler.Leftmost (Session.CaselessAt (V (!y.2.unicode)) k ts cs off bufs.flatten) 0 hits ↔
                      hits = Vm.hitsOf i σ.log
                else ∃ key, KeyOf y.req key ∧ key ≠ [] ∧ Vm.hitsOf i σ.log = occurrences key off 0 bufs.flatten := by
  obtain ⟨n, hS, h⟩ := program_file_hits_partial he hV hg hxs hne hb hlen (fun y hy => item_searchable hV (hk y hy)) hmany
  refine ⟨n, hS, fun h1 h2 => ?_⟩
  obtain ⟨F, h3⟩ := h h1 h2
  refine ⟨F, fun L X a b c => ?_⟩
  obtain ⟨t, ht, h4⟩ := h3 L X a b c
  refine ⟨t, ht, fun base hs hr => ?_⟩
  obtain ⟨P, r1, r2, h5⟩ := h4 base hs hr
  refine ⟨P, r1, r2, fun fuel hf off bufs => ?_⟩
  obtain ⟨first, σ₀, replies, σ, c1, c2, -, h6⟩ := h5 fuel hf off bufs
  refine ⟨first, σ₀, replies, σ, c1, c2, fun i y hy => ?_⟩
  obtain ⟨q1, q2, -⟩ := h6 i y hy
  have hs := hk y (List.mem_of_getElem? hy)
  cases hi : y.2.caseInsensitive with
  | false =>
    rw [hi] at hs
    obtain ⟨cs, -, -, hL, -⟩ := hs
    simpa using q1 hL.fixed hi
  | true =>
    rw [hi] at hs
    obtain ⟨cs, -, -, hL, -⟩ := hs
    simpa using q2 hL.fixed hi

/-! ## Example -/

section
attribute [local instance] Chain.Build.plain

/-- `lightgrep -c program --binary -e ascii -k k` -/
def exFileProgram : Given := { command := word "program", binary := true, encoding := [word "ascii"], keywords := [[107]] }

theorem exFileProgram_writes : exFileProgram.WritesProgramOf [107] := by
  have hb : ∀ e ∈ exFileProgram.encodings, ∀ b ∈ e, b ≠ 0 ∧ b < 256 := by decide +kernel
  exact ⟨⟨⟨rfl, rfl, rfl, rfl⟩, ⟨by simp [exFileProgram], by simp [exFileProgram], .inl (.inr (.inr (by simp [exFileProgram]))),
    by simp [exFileProgram], by simp [exFileProgram], by simp [exFileProgram], by simp [exFileProgram]⟩, by decide +kernel, rfl, rfl, .inl rfl, hb⟩, rfl⟩

theorem exFileProgram_items : exFileProgram.items Parser.plain Handles.exCast exKeywords =
    [(⟨[97, 42], [65, 83, 67, 73, 73], 0⟩, ⟨true, false, false⟩),
      (⟨[98], [85, 84, 70, 45, 49, 54, 76, 69], 1⟩, ⟨true, true, false⟩)] := exFileGiven_items

theorem exFileProgram_searchable : ∀ y ∈ ([(⟨[97, 42], [65, 83, 67, 73, 73], 0⟩, ⟨true, false, false⟩),
      (⟨[98], [85, 84, 70, 45, 49, 54, 76, 69], 1⟩, ⟨true, true, false⟩)] : List Item),
    if y.2.caseInsensitive then Session.CaselesslySearchable (fun _ => Session.SameLetter) y.req else Searchable y.req := by
    intro y hy
    simp only [List.mem_cons, List.not_mem_nil, or_false] at hy
    rcases hy with rfl | rfl
    · refine ⟨[97, 42], .std .ascii, [], ⟨rfl, rfl, by simp [Utf.Scalar], by decide⟩, by simp, by simp, by simp, Session.ascii_reads,
        fun _ => .inl rfl, ?_⟩
      simp [Session.charBytes, Chain.Coding.spec, Decoders.Charset.spec]
    · refine ⟨[98], .std (.utf16 true), [], ⟨rfl, rfl, by simp [Utf.Scalar], by decide⟩, by simp, by simp, by simp,
        Chain.exact_reads (Chain.name "UTF-16LE", _) (by simp [Chain.exact]), by simp, fun c hc => ⟨c, .inl rfl, ?_⟩⟩
      revert c
      simp [Session.charBytes, Chain.Coding.spec, Decoders.Charset.spec, Utf.Scalar, Utf.spec16, Utf.unit16]

-- The hypotheses of `program_file_fixed` are met.
example : ∃ n, Session.States Parser.plain ((exFileProgram.items Parser.plain Handles.exCast exKeywords).map Item.req) 4294967295 n ∧ ∀ _ : n ≤ 4294967295, n < 16777216 → ∃ F, ∀ (L : Library) (X : Outside), X.keyFile [107] = some exKeywords →
    L.Makes Parser.plain Handles.exCast F → CanWrite X exFileProgram.output → ∃ t, main L X exFileProgram = .ok (0, t) := by
  obtain ⟨n, hS, h⟩ := program_file_fixed Parser.plain_sound Session.folds_plain exFileProgram_writes exFileProgram_items (by simp) (by decide +kernel) (by decide +kernel)
    exFileProgram_searchable (by simp)
  refine ⟨n, hS, fun h1 h2 => ?_⟩
  obtain ⟨F, h3⟩ := h (.inr h1) h2
  exact ⟨F, fun L X a b c => let ⟨t, ht, _⟩ := h3 L X a b c; ⟨t, ht⟩⟩

/-- Without `--binary`. -/
def exFileListing : Given := { exFileProgram with binary := false }

-- The hypotheses of `listing_file_works` are met.
example : ∃ G : Nfa.Graph, Session.States Parser.plain ((exFileListing.items Parser.plain Handles.exCast exKeywords).map Item.req) 4294967295 G.n ∧ ∀ _ : G.n ≤ 4294967295, G.n < 16777216 → ∃ F, ∀ (L : Library) (X : Outside), X.keyFile [107] = some exKeywords →
    L.Makes Parser.plain Handles.exCast F → CanWrite X exFileListing.output → ∃ t, main L X exFileListing = .ok (0, t) := by
  have hg : exFileListing.ProgramOf [107] :=
    ⟨exFileProgram_writes.command, ⟨by simp [exFileListing, exFileProgram], by simp [exFileListing, exFileProgram],
      .inl (.inr (.inr (by simp [exFileListing, exFileProgram]))), by simp [exFileListing, exFileProgram],
      by simp [exFileListing, exFileProgram], by simp [exFileListing, exFileProgram], by simp [exFileListing, exFileProgram]⟩,
      by decide +kernel, rfl, rfl, .inl rfl, exFileProgram_writes.encodings⟩
  obtain ⟨G, hS, h⟩ := listing_file_works Parser.plain_sound hg rfl (text := exKeywords) (cast := Handles.exCast) exFileProgram_items (by simp)
    (fun y hy => item_searchable Session.folds_plain (exFileProgram_searchable y hy)) (by simp)
  refine ⟨G, hS, fun h1 h2 => ?_⟩
  obtain ⟨P, F, -, h3⟩ := h (.inr h1) h2
  exact ⟨F, fun L X a b c => let ⟨t, ht, _⟩ := h3 L X a b c; ⟨t, ht⟩⟩

end

end Verif.Whole
