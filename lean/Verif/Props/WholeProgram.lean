import Verif.Props.Status
import Verif.Props.Loaded
/-!
# C113: a program written by the command, read through the API
-/
namespace Verif.Whole
open Verif.Cmd (Args Opts OptErr Str)
open Verif.Marshal (Info)
open Verif.Chain (Build capital)
open Verif.Session (Request KeyOf Searchable occurrences)
open Verif.Parser (Env)
open Verif.Handles (ofBytes commandRequests commandEntries commandProgram hitsFor Plain)

/-! ## Specification -/

/-- `lightgrep -c program -p KEYWORD… -e ENCODING…`, with options that go together.  Keywords and names of encodings are
not empty, are made of bytes and have no tabs, line ends and null characters, and the latter no commas. -/
structure Given.ForProgram (g : Given) : Prop where
  command : g.is "program"
  agree : Agree g.toArgs
  alone : g.toArgs.files = []
  some : g.patterns ≠ []
  patterns : ∀ p ∈ g.patterns, Plain p ∧ ∀ b ∈ p, b < 256
  encodings : ∀ e ∈ g.encodings, Plain e ∧ 44 ∉ e ∧ ∀ b ∈ e, b < 256

/-- The same with `--binary`. -/
structure Given.WritesProgram (g : Given) : Prop extends g.ForProgram where
  binary : g.binary = true

/-- The library, with fuel enough. -/
structure Library.Makes (L : Library) (env : Env) (cast : List Nat → Option Bool) (fuel : Nat) : Prop where
  env : L.env = env
  cast : L.castBool = cast
  fuel : fuel ≤ L.fuel

/-! ## Proofs -/

/-- The command, when a program is made of the keywords. -/
theorem main_program [Build] {L : Library} {X : Outside} {g : Given} (hg : g.ForProgram) (hX : CanWrite X g.output)
    {G : Nfa.Graph} {P : Vm.Program} {infos : List Info}
    (hP : commandProgram L.fuel g.depth L.env L.castBool (g.keywordSource X) = some (G, P, infos)) {w : Str} (hw : written g.binary infos P = some w) :
    main L X g = .ok (0, w) := by
  rcases parse_other (c := .program) ((is_command hg.command).trans (by decide)) (by simp) L X with ⟨h1, h2, s, hp, e1, e2, e3, e4⟩ | ⟨h1, e, hp⟩
  · have ho : opens X s = true := by rw [opens_iff, e3]; exact hX
    have hpat : (keysOf X s).patterns = g.patterns := by
      have := congrArg Handles.CmdOptions.patterns e4
      exact this
    obtain ⟨t, ht⟩ := reports_defined L (k := keysOf X s) (.inl (by rw [hpat]; exact hg.some)) g.depth
    unfold main
    rw [hp]
    simp only [e1, e2, e4, ho, ht, hP, hw]
    rfl
  · exact absurd ⟨hg.agree, hg.alone⟩ h1

theorem labels_storable {g : Given} (hg : g.WritesProgram) (hmany : g.requests.length < 16777216) : ∀ p ∈ g.labels, p.Storable := by
  intro i hi
  obtain ⟨⟨p, k⟩, hp, hi⟩ := List.mem_flatMap.1 hi
  obtain ⟨e, he, rfl⟩ := List.mem_map.1 hi
  have hp' := List.mem_zipIdx hp
  have hpm : p ∈ g.patterns := by
    have := hp'.2.2
    rw [this]
    exact List.getElem_mem _
  obtain ⟨⟨-, h1⟩, h1'⟩ := hg.patterns p hpm
  obtain ⟨⟨-, h2⟩, -, h2'⟩ := hg.encodings e he
  refine ⟨fun b hb => ⟨(h1 b hb).1, h1' b hb⟩, fun b hb => ?_, ?_⟩
  · obtain ⟨c, hc, rfl⟩ := List.mem_map.1 hb
    have a := (h2 c hc).1
    have b := h2' c hc
    unfold upper
    split <;> omega
  · have hlen : g.patterns.length ≤ g.requests.length := by
      unfold Given.requests
      rw [List.length_flatMap]
      simp only [List.length_map]
      have : 1 ≤ g.encodings.length := List.length_pos_of_mem he
      generalize g.patterns = ps
      induction ps with
      | nil => simp
      | cons q qs ih =>
        rw [List.map_cons, List.sum_cons, List.length_cons]
        omega
    show k < 2 ^ 64
    have := hp'.2.1
    omega

/-- The command with acceptable keywords makes a program of them. -/
theorem program_made [Build] {env : Env} (he : env.Sound) {cast : List Nat → Option Bool} (h48 : cast [48] = some false)
    (h49 : cast [49] = some true) {g : Given} (hg : g.ForProgram)
    (hk : ∀ r ∈ g.requests, Session.Modest env (inCapitals r) ∧ Text.parseAndReduce env r.opts r.expr ≠ .error .ub ∧
      Session.Acceptable env (inCapitals r))
    (hmany : g.requests.length < 16777216) :
    ∃ G : Nfa.Graph, Session.States env (g.requests.map inCapitals) g.depth G.n ∧ ∀ _ : g.depth = 0 ∨ G.n ≤ g.depth, G.n < 16777216 →
      ∃ P F, Session.Compiled env (g.requests.map inCapitals) ((List.range g.requests.length).map some) G P ∧
        ∀ (L : Library) (X : Outside), L.Makes env cast F →
          commandProgram L.fuel g.depth L.env L.castBool (g.keywordSource X) = some (G, P, g.labels) := by
  have hkw : ∀ X : Outside, g.keywordSource X = cmdOf g [] := by
    intro X
    unfold Given.keywordSource cmdOf
    have : (if g.toArgs.keyed then g.toArgs.keywords else g.toArgs.pargs.take 1) = [] := by
      rw [if_pos (.inr (.inl hg.some))]
      rcases hg.agree.one with h | h
      · exact absurd h hg.some
      · exact h
    rw [this]
    rfl
  have hsens : Handles.Sensible (Handles.realFront env cast) (cmdOf g []) :=
    ⟨fun p hp => (hg.patterns p hp).1, by
        have : g.encodings ≠ [] := by
          unfold Given.encodings
          split <;> simp_all
        simpa [cmdOf] using this,
      fun e' he' => by
        obtain ⟨e, h1, rfl⟩ := List.mem_map.1 he'
        exact upper_plain ⟨(hg.encodings e h1).1, (hg.encodings e h1).2.1⟩, h48, h49⟩
  have hreq := requests_cmdOf g [] fun e h => (hg.encodings e h).2.2
  have hlen : (commandRequests (cmdOf g [])).length = g.requests.length := by rw [hreq, List.length_map]
  have hent : commandEntries (cmdOf g []) = g.labels := by
    unfold commandEntries cmdOf Given.labels
    simp only [List.map_map]
    rfl
  obtain ⟨G, hS, hG⟩ := Handles.command_works he hsens hg.some (by
    rw [hreq]
    intro r hr
    obtain ⟨r', h', rfl⟩ := List.mem_map.1 hr
    exact hk r' h') (by rw [hlen]; exact hmany) g.depth
  refine ⟨G, hreq ▸ hS, fun hd hN => ?_⟩
  obtain ⟨P, F, h1, hC, -⟩ := hG hd hN
  rw [hreq, List.length_map] at hC
  refine ⟨P, F, hC, fun L X hL => ?_⟩
  rw [hkw, hL.env, hL.cast, h1 _ hL.fuel, hent]

/-- The command with acceptable keywords, and what it writes. -/
theorem program_runs [Build] {env : Env} (he : env.Sound) {cast : List Nat → Option Bool} (h48 : cast [48] = some false)
    (h49 : cast [49] = some true) {g : Given} (hg : g.WritesProgram)
    (hk : ∀ r ∈ g.requests, Session.Modest env (inCapitals r) ∧ Text.parseAndReduce env r.opts r.expr ≠ .error .ub ∧
      Session.Acceptable env (inCapitals r))
    (hmany : g.requests.length < 16777216) :
    ∃ G : Nfa.Graph, Session.States env (g.requests.map inCapitals) g.depth G.n ∧ ∀ _ : g.depth = 0 ∨ G.n ≤ g.depth, G.n < 16777216 →
      ∃ P F, Session.Compiled env (g.requests.map inCapitals) ((List.range g.requests.length).map some) G P ∧
        ∀ (L : Library) (X : Outside), L.Makes env cast F → CanWrite X g.output → main L X g = .ok (0, Marshal.writeProgram g.labels P) := by
  obtain ⟨G, hS, hG⟩ := program_made he h48 h49 hg.toForProgram hk hmany
  refine ⟨G, hS, fun hd hN => ?_⟩
  obtain ⟨P, F, hC, h1⟩ := hG hd hN
  exact ⟨P, F, hC, fun L X hL hX => main_program hg.toForProgram hX (h1 L X hL) (by unfold written; rw [hg.binary]; rfl)⟩

/-- What is read back of what the command writes, and searches with it. -/
theorem program_read [Build] {env : Env} (he : env.Sound) {cast : List Nat → Option Bool} (h48 : cast [48] = some false)
    (h49 : cast [49] = some true) {g : Given} (hg : g.WritesProgram)
    (hk : ∀ r ∈ g.requests, Session.Modest env (inCapitals r) ∧ Text.parseAndReduce env r.opts r.expr ≠ .error .ub ∧
      Session.Acceptable env (inCapitals r))
    (hmany : g.requests.length < 16777216) :
    ∃ G : Nfa.Graph, Session.States env (g.requests.map inCapitals) g.depth G.n ∧ ∀ _ : g.depth = 0 ∨ G.n ≤ g.depth, G.n < 16777216 →
      ∃ F, ∀ (L : Library) (X : Outside), L.Makes env cast F → CanWrite X g.output →
        ∃ t, main L X g = .ok (0, t) ∧ ∀ base, t.length < 2 ^ 31 → base + t.length < 2 ^ 64 →
          ∃ P, Marshal.readProgram base t = .ok g.labels P ∧ Marshal.programSize g.labels P = t.length ∧
            Session.Compiled env (g.requests.map inCapitals) ((List.range g.requests.length).map some) G P ∧
            ∀ fuel ≥ 2 * G.n + 9, ∀ off bufs, ∃ first σ₀ replies σ,
              Vm.create P fuel = .ok (first, σ₀) ∧ Vm.run P first fuel (Vm.searches off bufs) σ₀ = .ok (replies, σ) := by
  obtain ⟨G, hS, hG⟩ := program_runs he h48 h49 hg hk hmany
  refine ⟨G, hS, fun hd hN => ?_⟩
  obtain ⟨P, F, hC, h2⟩ := hG hd hN
  refine ⟨F, fun L X hL hX => ⟨_, h2 L X hL hX, fun base hs hr => ?_⟩⟩
  obtain ⟨r1, r2⟩ := Loaded.session_write_read he hC (ps := g.labels) (base := base) ⟨labels_storable hg hmany, hs, hr⟩
  refine ⟨P, r1, r2, hC, fun fuel hf off bufs => ?_⟩
  obtain ⟨ps, hM, -⟩ := hC.made' he
  obtain ⟨a, b, ⟨f, c⟩, -⟩ := hM.facts
  exact Compiler.compiled_never_out_of_bounds a b.labelled c hf (Vm.searches off bufs)

/-- **C113.** `lightgrep -c program --binary -F -p KEYWORD… -e ENCODING…`, with keywords that can be searched for in the
encodings and whose automaton is small enough, ends with status 0.  `lg_read_program` makes of the bytes that it writes,
wherever they are in memory, a program with a list of the keywords with the names of the encodings in capitals and the numbers of the keywords,
and `lg_program_size` of that is their number.  Every search of a stream with this program, in whatever buffers, ends, and the hits
for a keyword in an encoding are its occurrences. -/
theorem program_fixed [Build] {env : Env} (he : env.Sound) {cast : List Nat → Option Bool} (h48 : cast [48] = some false)
    (h49 : cast [49] = some true) {g : Given} (hg : g.WritesProgram) (hk : ∀ r ∈ g.requests, Searchable (inCapitals r))
    (hmany : g.requests.length < 16777216) :
    ∃ n, Session.States env (g.requests.map inCapitals) g.depth n ∧ ∀ _ : g.depth = 0 ∨ n ≤ g.depth, n < 16777216 →
      ∃ F, ∀ (L : Library) (X : Outside), L.Makes env cast F → CanWrite X g.output →
        ∃ t, main L X g = .ok (0, t) ∧ ∀ base, t.length < 2 ^ 31 → base + t.length < 2 ^ 64 →
          ∃ P, Marshal.readProgram base t = .ok g.labels P ∧ Marshal.programSize g.labels P = t.length ∧
            ∀ fuel ≥ 2 * n + 9, ∀ off bufs, ∃ first σ₀ replies σ,
              Vm.create P fuel = .ok (first, σ₀) ∧ Vm.run P first fuel (Vm.searches off bufs) σ₀ = .ok (replies, σ) ∧
              ∀ (i : Nat) r, g.requests[i]? = some r → ∃ key, KeyOf r key ∧ Vm.hitsOf i σ.log = occurrences key off 0 bufs.flatten := by
  obtain ⟨G, hS, hG⟩ := program_read he h48 h49 hg (fun r hr => Session.searchable_parsed (hk r hr)) hmany
  refine ⟨G.n, hS, fun hd hN => ?_⟩
  obtain ⟨F, h2⟩ := hG hd hN
  refine ⟨F, fun L X hL hX => ?_⟩
  obtain ⟨t, ht, h3⟩ := h2 L X hL hX
  refine ⟨t, ht, fun base hs hr => ?_⟩
  obtain ⟨P, r1, r2, hC, h4⟩ := h3 base hs hr
  refine ⟨P, r1, r2, fun fuel hf off bufs => ?_⟩
  obtain ⟨first, σ₀, replies, σ, c1, c2⟩ := h4 fuel hf off bufs
  refine ⟨first, σ₀, replies, σ, c1, c2, fun i r hr => ?_⟩
  obtain ⟨cs, -, -, hL', -⟩ := hk r (List.mem_of_getElem? hr)
  have hlt : i < g.requests.length := (List.getElem?_eq_some_iff.1 hr).1
  obtain ⟨key, k1, -, k3⟩ := Session.fixed_hits he hC (i := i) (l := i) (r := inCapitals r)
    (by rw [List.getElem?_map, hr]; rfl) (by simp [hlt]) hL'.fixed hL'.cased
  exact ⟨key, capitals_key.1 k1, k3 c1 c2⟩

/-- **C113.** The same with `-i`: the hits for a keyword in an encoding are the leftmost non-overlapping places with a text that
stands for the keyword. -/
theorem program_caseless [Build] {env : Env} (he : env.Sound) {V : Bool → Nat → Nat → Prop} (hV : Session.FoldsAs env V)
    {cast : List Nat → Option Bool} (h48 : cast [48] = some false) (h49 : cast [49] = some true) {g : Given} (hg : g.WritesProgram)
    (hk : ∀ r ∈ g.requests, Session.CaselesslySearchable V (inCapitals r)) (hmany : g.requests.length < 16777216) :
    ∃ n, Session.States env (g.requests.map inCapitals) g.depth n ∧ ∀ _ : g.depth = 0 ∨ n ≤ g.depth, n < 16777216 →
      ∃ F, ∀ (L : Library) (X : Outside), L.Makes env cast F → CanWrite X g.output →
        ∃ t, main L X g = .ok (0, t) ∧ ∀ base, t.length < 2 ^ 31 → base + t.length < 2 ^ 64 →
          ∃ P, Marshal.readProgram base t = .ok g.labels P ∧ Marshal.programSize g.labels P = t.length ∧
            ∀ fuel ≥ 2 * n + 9, ∀ off bufs, ∃ first σ₀ replies σ,
              Vm.create P fuel = .ok (first, σ₀) ∧ Vm.run P first fuel (Vm.searches off bufs) σ₀ = .ok (replies, σ) ∧
              ∀ (i : Nat) r, g.requests[i]? = some r → ∃ cs k ts, Session.Caselessly r cs ∧ cs ≠ [] ∧ Chain.Reads r.chain k ts ∧
                ∀ hits, Compiler.Leftmost (Session.CaselessAt (V true) k ts cs off bufs.flatten) 0 hits ↔ hits = Vm.hitsOf i σ.log := by
  obtain ⟨G, hS, hG⟩ := program_read he h48 h49 hg (fun r hr => Session.caseless_parsed hV (hk r hr)) hmany
  refine ⟨G.n, hS, fun hd hN => ?_⟩
  obtain ⟨F, h2⟩ := hG hd hN
  refine ⟨F, fun L X hL hX => ?_⟩
  obtain ⟨t, ht, h3⟩ := h2 L X hL hX
  refine ⟨t, ht, fun base hs hr => ?_⟩
  obtain ⟨P, r1, r2, hC, h4⟩ := h3 base hs hr
  refine ⟨P, r1, r2, fun fuel hf off bufs => ?_⟩
  obtain ⟨first, σ₀, replies, σ, c1, c2⟩ := h4 fuel hf off bufs
  refine ⟨first, σ₀, replies, σ, c1, c2, fun i r hr => ?_⟩
  obtain ⟨cs, -, -, hL', -⟩ := hk r (List.mem_of_getElem? hr)
  have hlt : i < g.requests.length := (List.getElem?_eq_some_iff.1 hr).1
  obtain ⟨cs, k, ts, k1, k2, k3, k4⟩ := Session.caseless_hits he hV hC (i := i) (l := i) (r := inCapitals r)
    (by rw [List.getElem?_map, hr]; rfl) (by simp [hlt]) hL'.fixed hL'.caseless
  have hu : r.opts.unicode = false := by
    have := List.mem_of_getElem? hr
    unfold Given.requests at this
    obtain ⟨p, -, hp⟩ := List.mem_flatMap.1 this
    obtain ⟨e, -, rfl⟩ := List.mem_map.1 hp
    rfl
  refine ⟨cs, k, ts, ⟨k1.fixed, k1.caseless, k1.scalar, k1.text⟩, k2, (Chain.capitals_read _ _ _).1 k3, fun hits => ?_⟩
  have := k4 c1 c2 hits
  rwa [show (inCapitals r).opts.unicode = false from hu] at this

/-- **C96** for programs written by the command and read through the API: each hit is a match of the keyword in the encoding that its
number stands for in the list, and for each keyword in an encoding the hits are its leftmost matches, for keywords without a branch that is
only `{0}` before a bar and without non-greedy repetitions in repetitions, unless a string could be repeated before all of them. -/
theorem program_hits_partial [Build] {env : Env} (he : env.Sound) {cast : List Nat → Option Bool} (h48 : cast [48] = some false)
    (h49 : cast [49] = some true) {g : Given} (hg : g.WritesProgram)
    (hk : ∀ r ∈ g.requests, Session.Modest env r ∧ Text.parseAndReduce env r.opts r.expr ≠ .error .ub ∧
      Session.Acceptable env (inCapitals r))
    (hmany : g.requests.length < 16777216) :
    ∃ n, Session.States env (g.requests.map inCapitals) g.depth n ∧ ∀ _ : g.depth = 0 ∨ n ≤ g.depth, n < 16777216 →
      ∃ F, ∀ (L : Library) (X : Outside), L.Makes env cast F → CanWrite X g.output →
        ∃ t, main L X g = .ok (0, t) ∧ ∀ base, t.length < 2 ^ 31 → base + t.length < 2 ^ 64 →
          ∃ P, Marshal.readProgram base t = .ok g.labels P ∧ Marshal.programSize g.labels P = t.length ∧
            ∀ fuel ≥ 2 * n + 9, ∀ off bufs, ∃ first σ₀ replies σ,
              Vm.create P fuel = .ok (first, σ₀) ∧ Vm.run P first fuel (Vm.searches off bufs) σ₀ = .ok (replies, σ) ∧
              (∀ x ∈ σ.log, ∃ r, g.requests[x.label]? = some r ∧ Session.MatchAt env r off bufs.flatten x.start x.end) ∧
              (¬ Session.Pumped env g.requests ((List.range g.requests.length).map some) →
                ∀ (i : Nat) (r : Request), g.requests[i]? = some r → Session.Parsed env r Regex.NgFlat → Session.Parsed env r Regex.NoBlank →
                Compiler.Leftmost (Session.MatchAt env r off bufs.flatten) 0 (Vm.hitsOf i σ.log)) := by
  obtain ⟨G, hS, hG⟩ := program_read he h48 h49 hg hk hmany
  refine ⟨G.n, hS, fun hd hN => ?_⟩
  obtain ⟨F, h2⟩ := hG hd hN
  refine ⟨F, fun L X hL hX => ?_⟩
  obtain ⟨t, ht, h3⟩ := h2 L X hL hX
  refine ⟨t, ht, fun base hs hr => ?_⟩
  obtain ⟨P, r1, r2, hC, h4⟩ := h3 base hs hr
  refine ⟨P, r1, r2, fun fuel hf off bufs => ?_⟩
  obtain ⟨first, σ₀, replies, σ, c1, c2⟩ := h4 fuel hf off bufs
  refine ⟨first, σ₀, replies, σ, c1, c2, fun x hx => ?_, fun hu i r hr h3 h4 => ?_⟩
  · obtain ⟨i, r, a1, a3, a5⟩ := Session.text_hits_at he hC c1 c2 x hx
    rw [List.getElem?_map] at a1 a3
    obtain ⟨r', hr', rfl⟩ := Option.map_eq_some_iff.1 a1
    obtain ⟨y, hy, hyl⟩ := Option.map_eq_some_iff.1 a3
    obtain ⟨hlt, hy'⟩ := List.getElem?_eq_some_iff.1 hy
    rw [List.getElem_range] at hy'
    have hxi : x.label = i := by
      rw [hy']
      exact (Option.some.inj hyl).symm
    rw [hxi]
    exact ⟨r', hr', capitals_matchAt ▸ a5⟩
  · have hlt : i < g.requests.length := (List.getElem?_eq_some_iff.1 hr).1
    have := Session.unpumped_text_hits he hC (fun h => hu (capitals_pumped h)) c1 c2 (i := i) (l := i) (r := inCapitals r)
      (by rw [List.getElem?_map, hr]; rfl) (by simp [hlt]) h3 h4
    rwa [capitals_matchAt] at this

/-- **C113.** The program that the command writes is the one with which `search` searches for the same keywords, and it has the
same patterns: what `search` does is what a search with them does. -/
theorem program_searched [Build] {L : Library} {X : Outside} {g s : Given} (hg : g.WritesProgram) {t : Str} (h : main L X g = .ok (0, t))
    (hs : s.searches) (hcon : Cmd.Consistent s.toArgs)
    (hsame : s.patterns = g.patterns ∧ s.encodings = g.encodings ∧ s.fixedStrings = g.fixedStrings ∧ s.ignoreCase = g.ignoreCase ∧ s.depth = g.depth) :
    ∃ P infos o, t = Marshal.writeProgram infos P ∧ Cmd.validate s.toArgs = .ok o ∧ main L X s = searchWith L X (settingsOf s o) P infos := by
  obtain ⟨e1, e2, e3, e4, e5⟩ := hsame
  obtain ⟨-, -, hM, hW⟩ := (made_status (.inr hg.command) h).2.1 rfl
  unfold MakesProgram at hM
  obtain ⟨⟨G, P, infos⟩, hP⟩ := Option.ne_none_iff_exists'.1 hM
  have ht := h.symm.trans (main_program hg.toForProgram hW hP (w := Marshal.writeProgram infos P) (by unfold written; rw [hg.binary]; rfl))
  cases ht
  obtain ⟨o, ho, hp, o1, o2, -⟩ := parse_search hs hcon L.number
  refine ⟨P, infos, o, rfl, ho, ?_⟩
  have hn : s.patterns ≠ [] := by rw [e1]; exact hg.some
  have hpf : (settingsOf s o).opts.programFile = [] := by
    show o.programFile = []
    rw [o1]
    cases hpf : s.programFile with
    | none => rfl
    | some x => exact absurd (hcon.program (by simp [hpf])).1 hn
  have hkf : o.keyFiles = [] := by
    obtain ⟨-, rfl⟩ := (Cmd.options_meaning _ _).1 ho
    show (if s.toArgs.keyed then s.toArgs.keywords else s.toArgs.pargs.take 1) = []
    rw [if_pos (.inr (.inl hn))]
    rcases hcon.one with h | h
    · exact absurd h hn
    · exact h
  have hk : (keysOf X (settingsOf s o)).cmd = g.keywordSource X := by
    unfold keysOf Handles.Keys.cmd settingsOf Given.keywordSource
    have : (if g.toArgs.keyed then g.toArgs.keywords else g.toArgs.pargs.take 1) = [] := by
      rw [if_pos (.inr (.inl hg.some))]
      rcases hg.agree.one with h | h
      · exact absurd h hg.some
      · exact h
    simp only [o2, hkf, e1, e3, e4, this, List.map_nil]
    rw [show encodingsOf s = g.encodings.map (·.map upper) by rw [← e2]; rfl]
  obtain ⟨r, hr⟩ := reports_defined L (k := keysOf X (settingsOf s o)) (.inl (show o.patterns ≠ [] by rw [o2]; exact hn)) s.depth
  unfold main
  rw [hp]
  show search L X (settingsOf s o) = _
  unfold search
  rw [if_neg (by simp [hpf])]
  rw [show (settingsOf s o).depth = s.depth from rfl, hr]
  simp only
  rw [hk, e5, hP]

/-! ## Examples -/

section
attribute [local instance] Build.plain

/-- `-c program --binary -F -p 'a*' -e ascii -e utf-16le` -/
def exProgram : Given := { exGiven with command := word "program", binary := true, pargs := [] }

theorem exProgram_writes : exProgram.WritesProgram :=
  ⟨⟨⟨rfl, rfl, rfl, rfl⟩, ⟨by simp [exProgram, exGiven], by simp [exProgram, exGiven], .inl (.inr (.inl (by simp [exProgram, exGiven]))),
    by simp [exProgram, exGiven], by simp [exProgram, exGiven], by simp [exProgram, exGiven], by simp [exProgram, exGiven]⟩,
    by decide +kernel, by simp [exProgram, exGiven], fun p hp => ⟨Handles.exFixed_sensible.patterns p hp, by
      simp only [exProgram, exGiven, List.mem_singleton] at hp
      subst hp
      decide⟩, exGiven_sound.encodings⟩, rfl⟩

-- The hypotheses of `program_fixed` are met.
example : ∃ n, Session.States Parser.plain (exProgram.requests.map inCapitals) 4294967295 n ∧ ∀ _ : n ≤ 4294967295, n < 16777216 → ∃ F, ∀ (L : Library) (X : Outside), L.Makes Parser.plain Handles.exCast F →
    CanWrite X exProgram.output → ∃ t, main L X exProgram = .ok (0, t) := by
  obtain ⟨n, hS, h⟩ := program_fixed Parser.plain_sound (cast := Handles.exCast) rfl rfl exProgram_writes exGiven_searchable (by decide)
  refine ⟨n, hS, fun h1 h2 => ?_⟩
  obtain ⟨F, h3⟩ := h (.inr h1) h2
  exact ⟨F, fun L X hL hX => let ⟨t, ht, _⟩ := h3 L X hL hX; ⟨t, ht⟩⟩

-- Those of `program_hits_partial` are met.
example : ∃ n, Session.States Parser.plain (exProgram.requests.map inCapitals) 4294967295 n ∧ ∀ _ : n ≤ 4294967295, n < 16777216 → ∃ F, ∀ (L : Library) (X : Outside), L.Makes Parser.plain Handles.exCast F →
    CanWrite X exProgram.output → ∃ t, main L X exProgram = .ok (0, t) := by
  obtain ⟨n, hS, h⟩ := program_hits_partial Parser.plain_sound (cast := Handles.exCast) rfl rfl exProgram_writes
    (fun r hr => Session.searchable_parsed (r := inCapitals r) (exGiven_searchable r hr)) (by decide)
  refine ⟨n, hS, fun h1 h2 => ?_⟩
  obtain ⟨F, h3⟩ := h (.inr h1) h2
  exact ⟨F, fun L X hL hX => let ⟨t, ht, _⟩ := h3 L X hL hX; ⟨t, ht⟩⟩

/-- `-c program --binary -F -i -p 'a*' -e ascii -e utf-16le` -/
def exCaselessProgram : Given := { exProgram with ignoreCase := true }

theorem exCaselessProgram_writes : exCaselessProgram.WritesProgram :=
  ⟨⟨exProgram_writes.command, ⟨by simp [exCaselessProgram, exProgram, exGiven], by simp [exCaselessProgram, exProgram, exGiven],
    .inl (.inr (.inl (by simp [exCaselessProgram, exProgram, exGiven]))),
    by simp [exCaselessProgram, exProgram, exGiven], by simp [exCaselessProgram, exProgram, exGiven],
    by simp [exCaselessProgram, exProgram, exGiven], by simp [exCaselessProgram, exProgram, exGiven]⟩,
    by decide +kernel, by simp [exCaselessProgram, exProgram, exGiven], exProgram_writes.patterns, exProgram_writes.encodings⟩, rfl⟩

-- Those of `program_caseless` are met.
example : ∃ n, Session.States Parser.plain (exCaselessProgram.requests.map inCapitals) 4294967295 n ∧ ∀ _ : n ≤ 4294967295, n < 16777216 → ∃ F, ∀ (L : Library) (X : Outside), L.Makes Parser.plain Handles.exCast F →
    CanWrite X exCaselessProgram.output → ∃ t, main L X exCaselessProgram = .ok (0, t) := by
  have hc : cmdOf exCaselessProgram [] = Handles.exCaseless := by
    have h1 : exCaselessProgram.encodings.map (·.map upper) = Handles.exCaseless.encodings := by decide +kernel
    unfold cmdOf
    rw [h1]
    rfl
  obtain ⟨n, hS, h⟩ := program_caseless Parser.plain_sound Session.folds_plain (cast := Handles.exCast) rfl rfl exCaselessProgram_writes
    (fun r hr => by
      apply Handles.exCaseless_searchable
      rw [← hc, requests_cmdOf exCaselessProgram [] fun e h => (exGiven_sound.encodings e h).2.2]
      exact List.mem_map_of_mem hr) (by decide)
  refine ⟨n, hS, fun h1 h2 => ?_⟩
  obtain ⟨F, h3⟩ := h (.inr h1) h2
  exact ⟨F, fun L X hL hX => let ⟨t, ht, _⟩ := h3 L X hL hX; ⟨t, ht⟩⟩

set_option maxRecDepth 10000 in
-- The command ends with status 0, and those of `program_searched` are met by the search for the same keywords.
example : (match main exLibrary exOutside exProgram with
    | .ok (0, _) => true
    | _ => false) = true := by decide +kernel

example : exGiven.searches ∧ Cmd.Consistent exGiven.toArgs ∧ exGiven.patterns = exProgram.patterns ∧ exGiven.encodings = exProgram.encodings ∧
    exGiven.fixedStrings = exProgram.fixedStrings ∧ exGiven.ignoreCase = exProgram.ignoreCase ∧ exGiven.depth = exProgram.depth :=
  ⟨exGiven_sound.searches, exGiven_sound.consistent, rfl, rfl, rfl, rfl, rfl⟩

end

end Verif.Whole
