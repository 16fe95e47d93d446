import Verif.Props.Status
/-!
# C111: the command with a keyword file
-/
namespace Verif.Whole
open Verif.Cmd (Args Opts OptErr Str)
open Verif.Marshal (Info)
open Verif.Chain (Build)
open Verif.Session (Request KeyOf Searchable occurrences)
open Verif.Parser (Env)
open Verif.Handles (hitsFor Item fileItems)

/-! ## Specification -/

/-- The command is to search for the lines of the keyword file `f`: it is named by `-k`, or it is the first
argument, and there are no other keywords. -/
structure Given.SearchesFor (g : Given) (f : Str) : Prop where
  searches : g.searches
  consistent : Cmd.Consistent g.toArgs
  patterns : g.patterns = []
  programFile : g.programFile = none
  file : g.keywords = [f] ∨ g.keywords = [] ∧ g.pargs.head? = some f
  encodings : ∀ e ∈ g.encodings, 0 ∉ e
  block : 0 < g.blockSize

/-- What the keyword file asks for: its keywords in order, each in each of its encodings, with its options.
Encodings, in capitals, and options that a line does not give are those of the command line (C76). -/
noncomputable def Given.items (g : Given) (env : Env) (cast : List Nat → Option Bool) (text : List Nat) : List Item :=
  Handles.listItems (Handles.realFront env cast) (g.encodings.map (·.map upper)) ⟨g.fixedStrings, g.ignoreCase, false⟩ 0
    (Handles.textLines text)

/-- What a run of the command does: it ends with this status, and prints a line for each hit.  The hits for a
keyword in an encoding are shown with that keyword, that encoding and the number of the line. -/
structure RanFile [Build] (L : Library) (X : Outside) (g : Given) (xs : List Item) (C : Cmd.Conf) (σ₀ : Vm.St) : Prop where
  style : ∃ o, Cmd.validate g.toArgs = .ok o ∧ C.fmt = ⟨Cmd.selectCallbackFn o, g.groupSeparator, decide (g.histogramFile ≠ [])⟩
  ends : main L X g = .ok (if (g.visits X).all Option.isSome then 0 else 1,
    Cmd.printed C.fmt ((Cmd.opened (g.visits X)).flatMap (Cmd.linesOf C σ₀)))
  labels : ∀ (i : Nat) x, xs[i]? = some x → ∀ m c, (C.display m c).info i = ⟨x.1.pattern, x.1.chain, x.1.idx⟩
  known : ∀ v ∈ Cmd.opened (g.visits X), ∀ x ∈ Cmd.reportsOf C σ₀ v, x.2.kw < xs.length

/-! ## Proofs -/

theorem Given.SearchesFor.keyFiles {g : Given} {f : Str} (h : g.SearchesFor f) {o : Opts} (ho : Cmd.validate g.toArgs = .ok o) :
    o.keyFiles = [f] := by
  obtain ⟨-, rfl⟩ := (Cmd.options_meaning _ _).1 ho
  show (if g.toArgs.keyed then g.toArgs.keywords else g.toArgs.pargs.take 1) = [f]
  rcases h.file with hk | ⟨hk, hp⟩
  · rw [if_pos (.inr (.inr (by rw [hk]; simp))), hk]
  · rw [if_neg (by
      rintro (a | a | a)
      · exact a h.programFile
      · exact a h.patterns
      · exact a hk)]
    cases hq : g.pargs with
    | nil => rw [hq] at hp; cases hp
    | cons x xs => rw [hq] at hp; cases hp; rfl

theorem items_cmdOf (g : Given) (env : Env) (cast : List Nat → Option Bool) (text : List Nat) :
    fileItems env cast (cmdOf g [some text]) = g.items env cast text := by
  simp [fileItems, Given.items, cmdOf]

theorem upper_zero {e : Str} (h : 0 ∉ e) : 0 ∉ e.map upper := by
  intro hc
  obtain ⟨b, hb, hbc⟩ := List.mem_map.1 hc
  unfold upper at hbc
  split at hbc
  · omega
  · exact h (hbc ▸ hb)

/-- A command with a file of acceptable keywords, and what its hits are found with. -/
theorem lightgrep_file_runs [Build] {env : Env} (he : env.Sound) {cast : List Nat → Option Bool} {g : Given} {f : Str}
    (hg : g.SearchesFor f) {text : List Nat} (hne : g.items env cast text ≠ [])
    (hk : ∀ y ∈ g.items env cast text, Session.Modest env y.req ∧ Text.parseAndReduce env y.req.opts y.req.expr ≠ .error .ub ∧
      Session.Acceptable env y.req)
    (hmany : (g.items env cast text).length < 16777216) :
    ∃ G : Nfa.Graph, Session.States env ((g.items env cast text).map Item.req) g.depth G.n ∧ ∀ _ : g.depth = 0 ∨ G.n ≤ g.depth, G.n < 16777216 →
      ∃ P F, Session.Compiled env ((g.items env cast text).map Item.req) ((List.range (g.items env cast text).length).map some) G P ∧
        ∀ (L : Library) (X : Outside), X.keyFile f = some text → L.Runs env cast F (2 * G.n + 9) → X.Writes g →
          ∃ (C : Cmd.Conf) (σ₀ : Vm.St) (st : Cmd.CmdSt), RanFile L X g (g.items env cast text) C σ₀ ∧ C.P = P ∧ 0 < C.blockSize ∧
            Vm.create C.P C.fuel = .ok (C.first, σ₀) ∧ Cmd.searchCommand C X.world g.argFiles g.toArgs.inputs σ₀ = .ok st ∧
            Cmd.allVisits X.world C.mmap C.recursive g.argFiles g.toArgs.inputs = g.visits X := by
  obtain ⟨o, ho, -, e1, e2, e3, e4, e5, e6⟩ := parse_search hg.searches hg.consistent (fun _ => none)
  have hkf := hg.keyFiles ho
  have hit := items_cmdOf g env cast text
  obtain ⟨G, hS, hG⟩ := Handles.files_work he (cast := cast) (o := cmdOf g [some text]) hg.patterns
    (fun e' he' => by
      obtain ⟨e, h1, rfl⟩ := List.mem_map.1 he'
      exact upper_zero (hg.encodings e h1)) (by rw [hit]; exact hne) (by
    rw [hit]
    intro r hr
    obtain ⟨y, h', rfl⟩ := List.mem_map.1 hr
    exact hk y h') (by rw [hit]; exact hmany) g.depth
  rw [hit] at hS hG
  generalize g.items env cast text = xs at *
  refine ⟨G, hS, fun hd hN => ?_⟩
  obtain ⟨P, F, h1, hC, h2⟩ := hG hd hN
  refine ⟨P, F, hC, fun L X hX ⟨hLe, hLc, hF, hfl, hdis⟩ ⟨hh, hout⟩ => ?_⟩
  obtain ⟨first, σ₀, h3, -⟩ := h2 (confOf L (settingsOf g o) P [] (xs.map Prod.fst)) rfl hg.block hfl
    (fun m c k i hi => hdis _ _ _ _ _ _ hi)
  let C := confOf L (settingsOf g o) P first (xs.map Prod.fst)
  obtain ⟨first', σ₀', h3', h4'⟩ := h2 C rfl hg.block hfl (fun m c k i hi => hdis _ _ _ _ _ _ hi)
  have heq : first' = first ∧ σ₀' = σ₀ := by
    have := h3'.symm.trans h3
    cases this
    exact ⟨rfl, rfl⟩
  obtain ⟨rfl, rfl⟩ := heq
  obtain ⟨st, hs, r1, r2⟩ := h4' rfl X.world o.inputLists o.inputs
  have hm : C.mmap = (g.mmap || decide g.toArgs.contextAsked) := e6
  have hr : C.recursive = g.recursive := e5
  have hmain := main_searches (L := L) (X := X) hg.searches hg.consistent hg.programFile ho (.inr (by rw [hkf]; simp)) (P := P) (G := G)
    (infos := xs.map Prod.fst) (by
      rw [hkf, hLe, hLc]
      show Handles.commandProgram L.fuel g.depth env cast (cmdOf g [X.keyFile f]) = _
      rw [hX]
      exact h1 _ hF) hh hout h3' hs
  have hdead := (Cmd.inputs_searched_alone (C := C) h3' hs).1
  have hvis : Cmd.allVisits X.world C.mmap C.recursive g.argFiles g.toArgs.inputs = g.visits X := by
    rw [hm, hr]
    rfl
  rw [e3, e4] at hdead r1 r2 hs
  rw [hvis] at hdead r1 r2
  refine ⟨C, σ₀', st, ⟨⟨o, ho, rfl⟩, ?_, fun i x hE m c => hdis _ _ _ _ _ x.1 (by rw [List.getElem?_map, hE]; rfl), r2⟩,
    rfl, hg.block, h3', hs, hvis⟩
  rw [hmain, r1]
  congr 2
  by_cases hd' : st.dead = true
  · have := hdead.1 hd'
    rw [if_pos hd', if_neg]
    intro hall
    exact absurd (List.all_eq_true.1 hall _ this) (by simp)
  · rw [if_neg hd', if_pos]
    rw [List.all_eq_true]
    intro x hx
    cases x with
    | none => exact absurd (hdead.2 hx) hd'
    | some x => rfl

/-- **C111.** `lightgrep KEYWORDFILE FILE…` or `lightgrep -k KEYWORDFILE FILE…`, where all keywords in the file are acceptable in
their encodings and their automaton is small enough, ends with status 0, or with 1 if some input cannot be opened,
and prints a line for each hit in the inputs up to then.  Each hit is a match of the keyword in the encoding that it is
shown with.  The hits in an input for a fixed string in an encoding are its occurrences; those for a fixed string that is
to be found without regard to case are the leftmost non-overlapping places with a text that stands for it; and those for
another keyword, without a branch that is only `{0}` before a bar and without non-greedy repetitions in repetitions, are
its leftmost matches, unless a string could be repeated before all keywords. -/
theorem lightgrep_file_hits_partial [Build] {env : Env} (he : env.Sound) {V : Bool → Nat → Nat → Prop} (hV : Session.FoldsAs env V)
    {cast : List Nat → Option Bool} {g : Given} {f : Str} (hg : g.SearchesFor f) {text : List Nat} {xs : List Item}
    (hxs : g.items env cast text = xs) (hne : xs ≠ [])
    (hk : ∀ y ∈ xs, Session.Modest env y.req ∧ Text.parseAndReduce env y.req.opts y.req.expr ≠ .error .ub ∧
      Session.Acceptable env y.req)
    (hmany : xs.length < 16777216) :
    ∃ n, Session.States env (xs.map Item.req) g.depth n ∧ ∀ _ : g.depth = 0 ∨ n ≤ g.depth, n < 16777216 →
      ∃ F, ∀ (L : Library) (X : Outside), X.keyFile f = some text → L.Runs env cast F (2 * n + 9) → X.Writes g →
        ∃ C σ₀, RanFile L X g xs C σ₀ ∧ ∀ v ∈ Cmd.opened (g.visits X),
          (∀ x ∈ Cmd.reportsOf C σ₀ v, ∃ y, xs[x.2.kw]? = some y ∧ Session.MatchAt env y.req 0 v.content x.2.start x.2.stop) ∧
          ∀ (i : Nat) (y : Item), xs[i]? = some y →
            (y.2.fixed = true → y.2.caseInsensitive = false →
              ∃ key, KeyOf y.req key ∧ key ≠ [] ∧ hitsFor i ((Cmd.reportsOf C σ₀ v).map Prod.snd) = occurrences key 0 0 v.content) ∧
            (y.2.fixed = true → y.2.caseInsensitive = true →
              ∃ cs k ts, Session.Caselessly y.req cs ∧ cs ≠ [] ∧ Chain.Reads y.req.chain k ts ∧
                ∀ hits, Compiler.Leftmost (Session.CaselessAt (V (!y.2.unicode)) k ts cs 0 v.content) 0 hits ↔
                  hits = hitsFor i ((Cmd.reportsOf C σ₀ v).map Prod.snd)) ∧
            (¬ Session.Pumped env (xs.map Item.req) ((List.range xs.length).map some) → Session.Parsed env y.req Regex.NgFlat →
              Session.Parsed env y.req Regex.NoBlank →
              Compiler.Leftmost (Session.MatchAt env y.req 0 v.content) 0 (hitsFor i ((Cmd.reportsOf C σ₀ v).map Prod.snd))) := by
  subst hxs
  obtain ⟨G, hS, hG⟩ := lightgrep_file_runs he hg hne hk hmany
  generalize g.items env cast text = xs at *
  refine ⟨G.n, hS, fun hd hN => ?_⟩
  obtain ⟨P, F, hC, h2⟩ := hG hd hN
  refine ⟨F, fun L X hXf hL hX => ?_⟩
  obtain ⟨C, σ₀, st, hR, hP, hbs, h0, hs, hv⟩ := h2 L X hXf hL hX
  refine ⟨C, σ₀, hR, ?_⟩
  have hcore := Handles.compiled_hits he (es := xs.map Prod.fst) (infos := xs.map Prod.fst) (by simp) hC
    (fun i l hi => by
      rw [List.getElem?_map] at hi
      obtain ⟨y, hy, hyl⟩ := Option.map_eq_some_iff.1 hi
      cases hyl
      obtain ⟨hlt, hy'⟩ := List.getElem?_eq_some_iff.1 hy
      rw [List.getElem_range] at hy'
      rw [hy']) hP hbs (fun m c k i hi => by
        rw [List.getElem?_map] at hi
        obtain ⟨y, hy, rfl⟩ := Option.map_eq_some_iff.1 hi
        exact hR.labels k y hy m c) h0 hs
  rw [hv] at hcore
  intro v hvm
  obtain ⟨q1, q2⟩ := hcore.2 v hvm
  constructor
  · intro x hx
    obtain ⟨i, r, e, a1, -, a3, -, a5⟩ := q1 x hx
    rw [List.getElem?_map] at a1 a3
    obtain ⟨r', hr', rfl⟩ := Option.map_eq_some_iff.1 a1
    obtain ⟨y, hy, hyl⟩ := Option.map_eq_some_iff.1 a3
    obtain ⟨hlt, hy'⟩ := List.getElem?_eq_some_iff.1 hy
    rw [List.getElem_range] at hy'
    cases hyl
    subst hy'
    exact ⟨r', hr', a5⟩
  · intro i y hy
    have hlt : i < xs.length := (List.getElem?_eq_some_iff.1 hy).1
    have hr : (xs.map Item.req)[i]? = some y.req := by rw [List.getElem?_map, hy]; rfl
    have ho : ((List.range xs.length).map some)[i]? = some (some i) := by simp [hlt]
    refine ⟨fun hf hc => ?_, fun hf hc => ?_, fun hu h3 h4 => q2 hu i i y.req hr ho h3 h4⟩
    · obtain ⟨key, k1, k2, k3⟩ := Handles.compiled_fixed he hC hP hbs h0 hs hr ho hf hc
      rw [hv] at k3
      exact ⟨key, k1, k2, k3 v hvm⟩
    · obtain ⟨cs, k, ts, k1, k2, k3, k4⟩ := Handles.compiled_caseless he hV hC hP hbs h0 hs hr ho hf hc
      rw [hv] at k4
      exact ⟨cs, k, ts, k1, k2, k3, k4 v hvm⟩

theorem item_searchable [Build] {env : Env} {V : Bool → Nat → Nat → Prop} (hV : Session.FoldsAs env V) {y : Item}
    (h : if y.2.caseInsensitive then Session.CaselesslySearchable V y.req else Searchable y.req) :
    Session.Modest env y.req ∧ Text.parseAndReduce env y.req.opts y.req.expr ≠ .error .ub ∧ Session.Acceptable env y.req := by
  cases hi : y.2.caseInsensitive with
  | false => rw [hi] at h; exact Session.searchable_parsed h
  | true => rw [hi] at h; exact Session.caseless_parsed hV h

/-- **C111.** `lightgrep KEYWORDFILE FILE…` or `lightgrep -k KEYWORDFILE FILE…`, where all lines of the file are for fixed
strings that can be searched for in their encodings and their automaton is small enough, ends with status 0, or with 1 if
some input cannot be opened, and prints a line for each hit in the inputs up to then.  The hits in an input for a string in an
encoding are its occurrences, or the leftmost non-overlapping places with a text that stands for it if it is to be found without
regard to case. -/
theorem lightgrep_file_fixed [Build] {env : Env} (he : env.Sound) {V : Bool → Nat → Nat → Prop} (hV : Session.FoldsAs env V)
    {cast : List Nat → Option Bool} {g : Given} {f : Str} (hg : g.SearchesFor f) {text : List Nat} {xs : List Item}
    (hxs : g.items env cast text = xs) (hne : xs ≠ [])
    (hk : ∀ y ∈ xs, if y.2.caseInsensitive then Session.CaselesslySearchable V y.req else Searchable y.req)
    (hmany : xs.length < 16777216) :
    ∃ n, Session.States env (xs.map Item.req) g.depth n ∧ ∀ _ : g.depth = 0 ∨ n ≤ g.depth, n < 16777216 →
      ∃ F, ∀ (L : Library) (X : Outside), X.keyFile f = some text → L.Runs env cast F (2 * n + 9) → X.Writes g →
        ∃ C σ₀, RanFile L X g xs C σ₀ ∧ ∀ v ∈ Cmd.opened (g.visits X), ∀ (i : Nat) (y : Item), xs[i]? = some y →
          if y.2.caseInsensitive then
            ∃ cs k ts, Session.Caselessly y.req cs ∧ cs ≠ [] ∧ Chain.Reads y.req.chain k ts ∧
              ∀ hits, Compiler.Leftmost (Session.CaselessAt (V (!y.2.unicode)) k ts cs 0 v.content) 0 hits ↔
                hits = hitsFor i ((Cmd.reportsOf C σ₀ v).map Prod.snd)
          else
            ∃ key, KeyOf y.req key ∧ key ≠ [] ∧ hitsFor i ((Cmd.reportsOf C σ₀ v).map Prod.snd) = occurrences key 0 0 v.content := by
  obtain ⟨n, hS, h⟩ := lightgrep_file_hits_partial he hV hg hxs hne (fun y hy => item_searchable hV (hk y hy)) hmany
  refine ⟨n, hS, fun h1 h2 => ?_⟩
  obtain ⟨F, h3⟩ := h h1 h2
  refine ⟨F, fun L X a b c => ?_⟩
  obtain ⟨C, σ₀, h4, h5⟩ := h3 L X a b c
  refine ⟨C, σ₀, h4, fun v hv i y hy => ?_⟩
  obtain ⟨q1, q2, -⟩ := (h5 v hv).2 i y hy
  have hs := hk y (List.mem_of_getElem? hy)
  cases hi : y.2.caseInsensitive with
  | false =>
    rw [hi] at hs
    obtain ⟨cs, -, -, hL, -⟩ := hs
    simpa using q1 hL.fixed hi
  | true =>
    rw [hi] at hs
    obtain ⟨cs, -, -, hL, -⟩ := hs
    simpa using q2 hL.fixed hi

/-! ## Example -/

section
attribute [local instance] Chain.Build.plain

/-- `lightgrep -e ascii k f` -/
def exFileGiven : Given := { encoding := [word "ascii"], pargs := [[107], [102]] }

/-- `a*<tab>ASCII<tab>1` and `b<tab>UTF-16LE<tab>1<tab>1` -/
def exKeywords : List Nat :=
  [97, 42, 9, 65, 83, 67, 73, 73, 9, 49, 10] ++ [98, 9, 85, 84, 70, 45, 49, 54, 76, 69, 9, 49, 9, 49]

theorem exFileGiven_for : exFileGiven.SearchesFor [107] := by
  have hb : ∀ e ∈ exFileGiven.encodings, 0 ∉ e := by decide +kernel
  exact ⟨⟨rfl, rfl, rfl, rfl⟩, ⟨by simp [exFileGiven], by simp [exFileGiven], .inr (by simp [exFileGiven]), by simp [exFileGiven],
    by simp [exFileGiven], by simp [exFileGiven], by simp [exFileGiven], by simp [exFileGiven, Cmd.Args.contextAsked]⟩, rfl, rfl,
    .inr ⟨rfl, rfl⟩, hb, by decide⟩

theorem exFileGiven_items : exFileGiven.items Parser.plain Handles.exCast exKeywords =
    [(⟨[97, 42], [65, 83, 67, 73, 73], 0⟩, ⟨true, false, false⟩),
      (⟨[98], [85, 84, 70, 45, 49, 54, 76, 69], 1⟩, ⟨true, true, false⟩)] := by
  rw [← items_cmdOf, ← Handles.exFixedFile_items]
  have h1 : exFileGiven.encodings.map (·.map upper) = Handles.exFixedFile.encodings := by decide +kernel
  unfold cmdOf
  rw [h1]
  rfl

-- The hypotheses of `lightgrep_file_fixed` are met.
example : ∃ n, Session.States Parser.plain ((exFileGiven.items Parser.plain Handles.exCast exKeywords).map Item.req) 4294967295 n ∧ ∀ _ : n ≤ 4294967295, n < 16777216 → ∃ F, ∀ (L : Library) (X : Outside), X.keyFile [107] = some exKeywords →
    L.Runs Parser.plain Handles.exCast F (2 * n + 9) → X.Writes exFileGiven → ∃ C σ₀, RanFile L X exFileGiven
      [(⟨[97, 42], [65, 83, 67, 73, 73], 0⟩, ⟨true, false, false⟩), (⟨[98], [85, 84, 70, 45, 49, 54, 76, 69], 1⟩, ⟨true, true, false⟩)] C σ₀ := by
  obtain ⟨n, hS, h⟩ := lightgrep_file_fixed Parser.plain_sound Session.folds_plain exFileGiven_for exFileGiven_items (by simp) (by
    intro y hy
    simp only [List.mem_cons, List.not_mem_nil, or_false] at hy
    rcases hy with rfl | rfl
    · refine ⟨[97, 42], .std .ascii, [], ⟨rfl, rfl, by simp [Utf.Scalar], by decide⟩, by simp, by simp, by simp, Session.ascii_reads,
        fun _ => .inl rfl, ?_⟩
      simp [Session.charBytes, Chain.Coding.spec, Decoders.Charset.spec]
    · refine ⟨[98], .std (.utf16 true), [], ⟨rfl, rfl, by simp [Utf.Scalar], by decide⟩, by simp, by simp, by simp,
        Chain.exact_reads (Chain.name "UTF-16LE", _) (by simp [Chain.exact]), by simp, fun c hc => ⟨c, .inl rfl, ?_⟩⟩
      revert c
      simp [Session.charBytes, Chain.Coding.spec, Decoders.Charset.spec, Utf.Scalar, Utf.spec16, Utf.unit16]) (by simp)
  refine ⟨n, hS, fun h1 h2 => ?_⟩
  obtain ⟨F, h3⟩ := h (.inr h1) h2
  refine ⟨F, fun L X a b c => ?_⟩
  obtain ⟨C, σ₀, h4, -⟩ := h3 L X a b c
  exact ⟨C, σ₀, h4⟩

set_option maxRecDepth 10000 in
-- A run of the command: it ends with status 0.
example : (match main exLibrary { exOutside with keyFile := fun f => if f = [107] then some exKeywords else none } exFileGiven with
    | .ok (0, _) => true
    | _ => false) = true := by decide +kernel

end

end Verif.Whole
