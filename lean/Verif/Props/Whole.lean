import Verif.Whole
import Verif.Props.Options
import Verif.Props.Report
import Verif.Props.CommandFixed
/-!
# C109, C110: the command as a whole
-/
namespace Verif.Chain
open Verif.Transforms (ByteT)

/-! ## Names of encodings in capitals -/

/-- The capital letter of a small one. -/
def capital (b : UInt8) : UInt8 :=
  match (List.zip (name "abcdefghijklmnopqrstuvwxyz") (name "ABCDEFGHIJKLMNOPQRSTUVWXYZ")).lookup b with
  | some c => c
  | none => b

theorem upper_capital {n : Nat} (h : n < 256) : UInt8.ofNat (Whole.upper n) = capital (UInt8.ofNat n) := by
  have h' : ∀ n : Fin 256, UInt8.ofNat (Whole.upper n.1) = capital (UInt8.ofNat n.1) := by decide +kernel
  exact h' ⟨n, h⟩

theorem small_capital (b : UInt8) : small (capital b) = small b := by
  have h : ∀ n : Fin 256, small (capital (UInt8.ofNat n.1)) = small (UInt8.ofNat n.1) := by decide +kernel
  have := h ⟨b.toNat, b.toNat_lt⟩
  simpa using this

theorem capital_bar (b : UInt8) : (capital b == 124) = (b == 124) := by
  have h : ∀ n : Fin 256, (capital (UInt8.ofNat n.1) == 124) = (UInt8.ofNat n.1 == 124) := by decide +kernel
  have := h ⟨b.toNat, b.toNat_lt⟩
  simpa using this

theorem splitOn_capital (l acc : List UInt8) :
    List.splitOnPPrepend (· == 124) (l.map capital) (acc.map capital) = (List.splitOnPPrepend (· == 124) l acc).map (·.map capital) := by
  induction l generalizing acc with
  | nil => simp [List.splitOnPPrepend]
  | cons b l ih =>
    simp only [List.map_cons, List.splitOnPPrepend, capital_bar]
    by_cases h : (b == 124) = true
    · rw [if_pos h, if_pos h, List.map_cons, List.map_reverse, ← ih []]
      rfl
    · rw [if_neg h, if_neg h, ← ih (b :: acc)]
      rfl

theorem parts_capital (l : List UInt8) :
    ((l.map capital).splitOn 124).filter (· ≠ []) = ((l.splitOn 124).filter (· ≠ [])).map (·.map capital) := by
  have h := splitOn_capital l []
  simp only [List.map_nil] at h
  have e : ∀ l : List UInt8, l.splitOn 124 = List.splitOnPPrepend (· == 124) l [] := fun _ => rfl
  rw [e, e, h, List.filter_map]
  congr 1
  apply List.filter_congr
  intro x _
  cases x <;> simp

theorem map_small_capital (n : List UInt8) : (n.map capital).map small = n.map small := by
  rw [List.map_map]
  exact List.map_congr_left fun b _ => small_capital b

theorem same_capital (n : List UInt8) (s : String) : Same (n.map capital) s ↔ Same n s := by
  unfold Same
  rw [map_small_capital]

theorem known_capital [Build] (n x : List UInt8) : Known (n.map capital) x ↔ Known n x := by
  unfold Known
  rw [map_small_capital]

theorem namesByte_capital (n : List UInt8) (t : ByteT) : NamesByte (n.map capital) t ↔ NamesByte n t := by
  cases t <;> simp [NamesByte, same_capital]

/-- **C110.** The names in a chain of encodings may be written in capitals. -/
theorem capitals_read [Build] (chain : List UInt8) (k : Coding) (ts : List ByteT) :
    Reads (chain.map capital) k ts ↔ Reads chain k ts := by
  unfold Reads Spells
  rw [parts_capital]
  refine exists_congr fun x => and_congr_left fun _ => ?_
  constructor
  · rintro ⟨cs, n, bs, h1, h2, h3, h4, h5⟩
    obtain ⟨cs', r, e1, e2, e3⟩ := List.map_eq_append_iff.1 h1
    obtain ⟨n', bs', rfl, e5, e6⟩ := List.map_eq_cons_iff.1 e3
    subst e2 e5 e6
    refine ⟨cs', n', bs', e1, fun m hm => (same_capital m _).1 (h2 _ (List.mem_map_of_mem hm)), fun h => h3 ((same_capital _ _).2 h),
      (known_capital _ _).1 h4, ?_⟩
    rw [List.forall₂_map_left_iff] at h5
    exact h5.imp fun a b h => (namesByte_capital a b).1 h
  · rintro ⟨cs, n, bs, h1, h2, h3, h4, h5⟩
    refine ⟨cs.map (·.map capital), n.map capital, bs.map (·.map capital), by rw [h1]; simp, ?_, fun h => h3 ((same_capital _ _).1 h),
      (known_capital _ _).2 h4, ?_⟩
    · intro m hm
      obtain ⟨m', hm', rfl⟩ := List.mem_map.1 hm
      exact (same_capital _ _).2 (h2 _ hm')
    · rw [List.forall₂_map_left_iff]
      exact h5.imp fun a b h => (namesByte_capital a b).2 h

end Verif.Chain

namespace Verif.Whole
open Verif.Cmd (Args Opts OptErr Str)
open Verif.Marshal (Info)
open Verif.Chain (Build capital)
open Verif.Session (Request KeyOf Searchable occurrences)
open Verif.Parser (Env)
open Verif.Handles (ofBytes commandRequests commandEntries commandProgram hitsFor Plain)

/-! ## Specification -/

/-- The encodings asked for; `US-ASCII` if none is. -/
def Given.encodings (g : Given) : List Str := if g.encoding = [] then [word "US-ASCII"] else g.encoding

/-- The searches asked for on the command line: each keyword in each encoding. -/
def Given.requests (g : Given) : List Request :=
  g.patterns.flatMap fun p => g.encodings.map fun e => ⟨ofBytes p, ⟨g.fixedStrings, g.ignoreCase, false⟩, ofBytes e⟩

/-- The same search with the encoding named in capitals. -/
def inCapitals (r : Request) : Request := { r with chain := r.chain.map capital }

/-- The command is to search. -/
def Given.searches (g : Given) : Prop :=
  g.help = false ∧ g.version = false ∧ g.listEncodings = false ∧ g.command = word "search"

/-! ## Proofs -/

theorem capitals_searchable [Build] {r : Request} (h : Searchable r) : Searchable (inCapitals r) := by
  obtain ⟨cs, k, ts, h1, h2, h3, h4, h5, h6, h7⟩ := h
  refine ⟨cs, k, ts, ⟨h1.fixed, h1.cased, h1.scalar, h1.text⟩, h2, h3, h4, (Chain.capitals_read _ _ _).2 h5, fun hk => ?_, h7⟩
  rcases h6 hk with h | h
  · left
    show r.chain.map capital = _
    rw [h]
    decide +kernel
  · exact .inr h

theorem capitals_key [Build] {r : Request} {key : List UInt8} : KeyOf (inCapitals r) key ↔ KeyOf r key := by
  constructor
  · rintro ⟨cs, k, ts, h1, h2, h3⟩
    exact ⟨cs, k, ts, ⟨h1.fixed, h1.cased, h1.scalar, h1.text⟩, (Chain.capitals_read _ _ _).1 h2, h3⟩
  · rintro ⟨cs, k, ts, h1, h2, h3⟩
    exact ⟨cs, k, ts, ⟨h1.fixed, h1.cased, h1.scalar, h1.text⟩, (Chain.capitals_read _ _ _).2 h2, h3⟩

/-- A name in small letters that without ICU is not taken in as it stands can be used in a command. -/
example : ofBytes ((word "ascii").map upper) = Chain.name "ASCII" := by decide +kernel

theorem ofBytes_upper {l : Str} (h : ∀ b ∈ l, b < 256) : ofBytes (l.map upper) = (ofBytes l).map capital := by
  unfold ofBytes
  rw [List.map_map, List.map_map]
  exact List.map_congr_left fun b hb => Chain.upper_capital (h b hb)

/-- What the options that choose the keywords become. -/
def cmdOf (g : Given) (files : List (Option (List Nat))) : Handles.CmdOptions :=
  ⟨g.patterns, files, g.encodings.map (·.map upper), g.fixedStrings, g.ignoreCase, false⟩

theorem requests_cmdOf (g : Given) (files : List (Option (List Nat))) (h : ∀ e ∈ g.encodings, ∀ b ∈ e, b < 256) :
    commandRequests (cmdOf g files) = g.requests.map inCapitals := by
  unfold commandRequests Given.requests cmdOf
  simp only [List.map_flatMap, List.map_map]
  apply List.flatMap_congr
  intro p _
  apply List.map_congr_left
  intro e he
  simp only [Function.comp, inCapitals, ofBytes_upper (h e he)]

theorem searches_command {g : Given} (h : g.searches) : commandOf g = some .search := by
  obtain ⟨h1, h2, h3, h4⟩ := h
  unfold commandOf
  rw [h1, h2, h3, h4]
  decide

theorem upper_plain {e : Str} (h : Plain e ∧ 44 ∉ e) : Plain (e.map upper) ∧ 44 ∉ e.map upper := by
  have hu : ∀ b c, c < 65 → upper b = c → b = c := by
    intro b c hc hb
    unfold upper at hb
    split at hb <;> omega
  obtain ⟨⟨h1, h2⟩, h3⟩ := h
  refine ⟨⟨by simpa using h1, fun c hc => ?_⟩, fun hc => ?_⟩
  · obtain ⟨b, hb, rfl⟩ := List.mem_map.1 hc
    have := h2 b hb
    exact ⟨fun h => this.1 (hu _ _ (by omega) h), fun h => this.2.1 (hu _ _ (by omega) h), fun h => this.2.2.1 (hu _ _ (by omega) h),
      fun h => this.2.2.2 (hu _ _ (by omega) h)⟩
  · obtain ⟨b, hb, hbc⟩ := List.mem_map.1 hc
    exact h3 (hu _ _ (by omega) hbc ▸ hb)

/-- What the options of a search command say, `o` being what `options_meaning` says. -/
def settingsOf (g : Given) (o : Opts) : Settings :=
  ⟨.search, o, encodingsOf g, g.ignoreCase, g.fixedStrings, g.output, g.histogramFile, g.groupSeparator, g.blockSize, g.depth, 0, 0⟩

/-- The options of a search, with the patterns on the command line. -/
theorem parse_search {g : Given} (hc : g.searches) (hg : Cmd.Consistent g.toArgs) (number : Str → Option Nat) :
    ∃ o, Cmd.validate g.toArgs = .ok o ∧ parseOpts number g = .ok (settingsOf g o) ∧
      o.programFile = g.programFile.getD [] ∧ o.patterns = g.patterns ∧ o.inputs = g.toArgs.inputs ∧ o.inputLists = g.argFiles ∧
      o.recursive = g.recursive ∧ o.mmap = (g.mmap || decide g.toArgs.contextAsked) := by
  have h := (Cmd.options_meaning g.toArgs _).2 ⟨hg, rfl⟩
  refine ⟨_, h, ?_, rfl, rfl, rfl, rfl, rfl, rfl⟩
  unfold parseOpts
  rw [searches_command hc]
  simp only [h]
  rfl

theorem reports_defined [Build] (L : Library) {k : Handles.Keys} (hk : k.patterns ≠ [] ∨ k.files.length ≤ 1) (depth : Nat) :
    ∃ t, reports L k depth = some t := by
  obtain ⟨h, d, h1, -⟩ := Handles.report_partial (Handles.realEngine L.fuel depth) (Handles.realFront L.env L.castBool) L.messages k
    (Handles.step (Handles.realEngine L.fuel depth) Handles.World.init .createFsm).1 hk
  unfold reports
  simp only [h1]
  exact ⟨_, rfl⟩

/-- A search whose program is made, and that ends. -/
theorem main_searches [Build] {L : Library} {X : Outside} {g : Given} (hc : g.searches) (hg : Cmd.Consistent g.toArgs) (hnone : g.programFile = none)
    {o : Opts} (ho : Cmd.validate g.toArgs = .ok o) (hrep : g.patterns ≠ [] ∨ o.keyFiles.length ≤ 1)
    {G : Nfa.Graph} {P : Vm.Program} {infos : List Info}
    (hP : commandProgram L.fuel g.depth L.env L.castBool (cmdOf g (o.keyFiles.map X.keyFile)) = some (G, P, infos))
    (hh : g.histogramFile = [] ∨ X.writable g.histogramFile = true) (hout : g.output = Cmd.dash ∨ X.writable g.output = true)
    {first : List Vm.Thread} {σ₀ : Vm.St} (h0 : Vm.create P L.vmFuel = .ok (first, σ₀)) {st : Cmd.CmdSt}
    (hs : Cmd.searchCommand (confOf L (settingsOf g o) P first infos) X.world o.inputLists o.inputs σ₀ = .ok st) :
    main L X g = .ok (if st.dead then 1 else 0, st.out.text) := by
  obtain ⟨o', ho', hp, e1, e2, e3, e4, e5, e6⟩ := parse_search hc hg L.number
  rw [ho] at ho'
  cases ho'
  have hpf : (settingsOf g o).opts.programFile = [] := by
    show o.programFile = []
    rw [e1, hnone]
    rfl
  obtain ⟨t, ht⟩ := reports_defined L (k := keysOf X (settingsOf g o)) (by
    rcases hrep with h | h
    · exact .inl (show o.patterns ≠ [] by rw [e2]; exact h)
    · exact .inr (by simpa [keysOf, settingsOf] using h)) g.depth
  have hk : (keysOf X (settingsOf g o)).cmd = cmdOf g (o.keyFiles.map X.keyFile) := by
    unfold keysOf Handles.Keys.cmd cmdOf settingsOf
    simp only [e2, List.map_map]
    rfl
  unfold main
  rw [hp]
  show search L X (settingsOf g o) = _
  unfold search
  rw [if_neg (by simp [hpf])]
  rw [show (settingsOf g o).depth = g.depth from rfl, ht]
  simp only
  rw [hk, hP]
  simp only
  unfold searchWith
  rw [if_neg (by
      show ¬ (g.histogramFile ≠ [] ∧ X.writable g.histogramFile = false)
      rintro ⟨h1, h2⟩
      rcases hh with h | h
      · exact h1 h
      · rw [h] at h2; cases h2),
    if_neg (by
      unfold opens
      show ¬ ((decide (g.output = Cmd.dash) || X.writable g.output) = false)
      rcases hout with h | h <;> simp [h])]
  rw [h0]
  simp only
  rw [show (settingsOf g o).opts = o from rfl, hs]

/-- The same with keywords on the command line. -/
theorem main_search [Build] {L : Library} {X : Outside} {g : Given} (hc : g.searches) (hg : Cmd.Consistent g.toArgs) (hn : g.patterns ≠ [])
    {o : Opts} (ho : Cmd.validate g.toArgs = .ok o)
    {G : Nfa.Graph} {P : Vm.Program} {infos : List Info}
    (hP : commandProgram L.fuel g.depth L.env L.castBool (cmdOf g (o.keyFiles.map X.keyFile)) = some (G, P, infos))
    (hh : g.histogramFile = [] ∨ X.writable g.histogramFile = true) (hout : g.output = Cmd.dash ∨ X.writable g.output = true)
    {first : List Vm.Thread} {σ₀ : Vm.St} (h0 : Vm.create P L.vmFuel = .ok (first, σ₀)) {st : Cmd.CmdSt}
    (hs : Cmd.searchCommand (confOf L (settingsOf g o) P first infos) X.world o.inputLists o.inputs σ₀ = .ok st) :
    main L X g = .ok (if st.dead then 1 else 0, st.out.text) := by
  refine main_searches hc hg ?_ ho (.inl hn) hP hh hout h0 hs
  cases hpf : g.programFile with
  | none => rfl
  | some x => exact absurd (hg.program (by simp [hpf])).1 hn

theorem capitals_caseless [Build] {V : Bool → Nat → Nat → Prop} {r : Request} (h : Session.CaselesslySearchable V r) :
    Session.CaselesslySearchable V (inCapitals r) := by
  obtain ⟨cs, k, ts, h1, h2, h3, h4, h5, h6, h7⟩ := h
  refine ⟨cs, k, ts, ⟨h1.fixed, h1.caseless, h1.scalar, h1.text⟩, h2, h3, h4, (Chain.capitals_read _ _ _).2 h5, fun hk => ?_, h7⟩
  rcases h6 hk with h | h
  · left
    show r.chain.map capital = _
    rw [h]
    decide +kernel
  · exact .inr h

theorem capitals_acceptable [Build] {env : Env} {r : Request} (h : Session.Acceptable env r) : Session.Acceptable env (inCapitals r) := by
  obtain ⟨t, j, k, ts, h1, h2, h3, h4, h5⟩ := h
  refine ⟨t, j, k, ts, h1, h2, (Chain.capitals_read _ _ _).2 h3, fun hk => ?_, h5⟩
  rcases h4 hk with h | h
  · left
    show r.chain.map capital = _
    rw [h]
    decide +kernel
  · exact .inr h

theorem capitals_matches [Build] {env : Env} {r : Request} {w : List UInt8} : Session.Matches env (inCapitals r) w ↔ Session.Matches env r w := by
  unfold Session.Matches
  simp only [show (inCapitals r).chain = r.chain.map capital from rfl, Chain.capitals_read]
  rfl

theorem capitals_matchAt [Build] {env : Env} {r : Request} : Session.MatchAt env (inCapitals r) = Session.MatchAt env r := by
  funext off data s f
  unfold Session.MatchAt
  rw [capitals_matches]

theorem capitals_pumped [Build] {env : Env} {rs : List Request} {os : List (Option Nat)} :
    Session.Pumped env (rs.map inCapitals) os → Session.Pumped env rs os := by
  rintro ⟨p, hp, h⟩
  refine ⟨p, hp, fun i r l hr ho h1 h2 w hw => ?_⟩
  obtain ⟨w', h3, h4⟩ := h i (inCapitals r) l (by rw [List.getElem?_map, hr]; rfl) ho h1 h2 w (capitals_matches.2 hw)
  exact ⟨w', h3, fun k => capitals_matches.1 (h4 k)⟩

/-- What the hits of each of the searches asked for are to be labelled with. -/
def Given.labels (g : Given) : List Info := g.patterns.zipIdx.flatMap fun p => g.encodings.map fun e => ⟨p.1, e.map upper, p.2⟩

/-- The command line gives keywords, and these and the names of the encodings are not empty and have no
tabs, line ends and null characters, and the latter no commas. -/
structure Given.Sound (g : Given) : Prop where
  searches : g.searches
  consistent : Cmd.Consistent g.toArgs
  some : g.patterns ≠ []
  patterns : ∀ p ∈ g.patterns, Plain p
  encodings : ∀ e ∈ g.encodings, Plain e ∧ 44 ∉ e ∧ ∀ b ∈ e, b < 256
  block : 0 < g.blockSize

/-- The library decodes and names hits with the patterns of the program, and has fuel enough. -/
structure Library.Runs (L : Library) (env : Env) (cast : List Nat → Option Bool) (fuel vmFuel : Nat) : Prop where
  env : L.env = env
  cast : L.castBool = cast
  fuel : fuel ≤ L.fuel
  vmFuel : vmFuel ≤ L.vmFuel
  info : ∀ infos o m c k i, infos[k]? = some i → (L.display infos o m c).info k = ⟨i.pattern, i.chain, i.idx⟩

/-- The histogram and the output can be written. -/
def Outside.Writes (X : Outside) (g : Given) : Prop :=
  (g.histogramFile = [] ∨ X.writable g.histogramFile = true) ∧ (g.output = Cmd.dash ∨ X.writable g.output = true)

/-- The inputs of the command, `none` for one that cannot be opened. -/
def Given.visits (g : Given) (X : Outside) : List (Option Cmd.Visit) :=
  Cmd.allVisits X.world (g.mmap || decide g.toArgs.contextAsked) g.recursive g.argFiles g.toArgs.inputs

/-- What a run of the command does: it ends with this status, and prints a line for each hit. -/
structure Ran [Build] (L : Library) (X : Outside) (g : Given) (C : Cmd.Conf) (σ₀ : Vm.St) : Prop where
  style : ∃ o, Cmd.validate g.toArgs = .ok o ∧ C.fmt = ⟨Cmd.selectCallbackFn o, g.groupSeparator, decide (g.histogramFile ≠ [])⟩
  ends : main L X g = .ok (if (g.visits X).all Option.isSome then 0 else 1,
    Cmd.printed C.fmt ((Cmd.opened (g.visits X)).flatMap (Cmd.linesOf C σ₀)))
  labels : ∀ (i : Nat) e, g.labels[i]? = some e → ∀ m c, (C.display m c).info i = ⟨e.pattern, e.chain, e.idx⟩
  known : ∀ v ∈ Cmd.opened (g.visits X), ∀ x ∈ Cmd.reportsOf C σ₀ v, x.2.kw < g.requests.length

/-- A command with acceptable keywords, and what its hits are found with. -/
theorem lightgrep_runs [Build] {env : Env} (he : env.Sound) {cast : List Nat → Option Bool} (h48 : cast [48] = some false)
    (h49 : cast [49] = some true) {g : Given} (hg : g.Sound)
    (hk : ∀ r ∈ g.requests, Session.Modest env (inCapitals r) ∧ Text.parseAndReduce env r.opts r.expr ≠ .error .ub ∧
      Session.Acceptable env (inCapitals r))
    (hmany : g.requests.length < 16777216) :
    ∃ G : Nfa.Graph, Session.States env (g.requests.map inCapitals) g.depth G.n ∧ ∀ _ : g.depth = 0 ∨ G.n ≤ g.depth, G.n < 16777216 →
      ∃ P F, Session.Compiled env (g.requests.map inCapitals) ((List.range g.requests.length).map some) G P ∧
        ∀ (L : Library) (X : Outside), L.Runs env cast F (2 * G.n + 9) → X.Writes g →
          ∃ (C : Cmd.Conf) (σ₀ : Vm.St) (st : Cmd.CmdSt), Ran L X g C σ₀ ∧ C.P = P ∧ 0 < C.blockSize ∧
            Vm.create C.P C.fuel = .ok (C.first, σ₀) ∧ Cmd.searchCommand C X.world g.argFiles g.toArgs.inputs σ₀ = .ok st ∧
            Cmd.allVisits X.world C.mmap C.recursive g.argFiles g.toArgs.inputs = g.visits X := by
  obtain ⟨hc, hcon, hn, hp, hen, hbs⟩ := hg
  obtain ⟨o, ho, -, e1, e2, e3, e4, e5, e6⟩ := parse_search hc hcon (fun _ => none)
  have hsens : Handles.Sensible (Handles.realFront env cast) (cmdOf g []) :=
    ⟨hp, by
        have : g.encodings ≠ [] := by
          unfold Given.encodings
          split <;> simp_all
        simpa [cmdOf] using this,
      fun e' he' => by
        obtain ⟨e, h1, rfl⟩ := List.mem_map.1 he'
        exact upper_plain ⟨(hen e h1).1, (hen e h1).2.1⟩, h48, h49⟩
  have hreq := requests_cmdOf g [] fun e h => (hen e h).2.2
  have hlen : (commandRequests (cmdOf g [])).length = g.requests.length := by rw [hreq, List.length_map]
  have hent : commandEntries (cmdOf g []) = g.labels := by
    unfold commandEntries cmdOf Given.labels
    simp only [List.map_map]
    rfl
  obtain ⟨G, hS, hG⟩ := Handles.command_works he hsens hn (by
    rw [hreq]
    intro r hr
    obtain ⟨r', h', rfl⟩ := List.mem_map.1 hr
    exact hk r' h') (by rw [hlen]; exact hmany) g.depth
  refine ⟨G, hreq ▸ hS, fun hd hN => ?_⟩
  obtain ⟨P, F, h1, hC, h2⟩ := hG hd hN
  rw [hreq, List.length_map] at hC
  refine ⟨P, F, hC, fun L X ⟨hLe, hLc, hF, hfl, hdis⟩ ⟨hh, hout⟩ => ?_⟩
  have hkf : o.keyFiles = [] := by
    obtain ⟨-, rfl⟩ := (Cmd.options_meaning _ _).1 ho
    show (if g.toArgs.keyed then g.toArgs.keywords else g.toArgs.pargs.take 1) = []
    rw [if_pos (.inr (.inl hn))]
    rcases hcon.one with h | h
    · exact absurd h hn
    · exact h
  obtain ⟨first, σ₀, h3, -⟩ := h2 (confOf L (settingsOf g o) P [] (commandEntries (cmdOf g []))) rfl hbs hfl
    (fun m c k i hi => hdis _ _ _ _ _ _ hi)
  let C := confOf L (settingsOf g o) P first (commandEntries (cmdOf g []))
  obtain ⟨first', σ₀', h3', h4'⟩ := h2 C rfl hbs hfl (fun m c k i hi => hdis _ _ _ _ _ _ hi)
  have heq : first' = first ∧ σ₀' = σ₀ := by
    have := h3'.symm.trans h3
    cases this
    exact ⟨rfl, rfl⟩
  obtain ⟨rfl, rfl⟩ := heq
  obtain ⟨st, hs, r1, r2⟩ := h4' rfl X.world o.inputLists o.inputs
  have hm : C.mmap = (g.mmap || decide g.toArgs.contextAsked) := e6
  have hr : C.recursive = g.recursive := e5
  have hmain := main_search (L := L) (X := X) hc hcon hn ho (P := P) (G := G) (infos := commandEntries (cmdOf g []))
    (by rw [hkf, hLe, hLc]; exact h1 _ hF) hh hout h3' hs
  have hdead := (Cmd.inputs_searched_alone (C := C) h3' hs).1
  have hvis : Cmd.allVisits X.world C.mmap C.recursive g.argFiles g.toArgs.inputs = g.visits X := by
    rw [hm, hr]
    rfl
  rw [e3, e4] at hdead r1 r2 hs
  rw [hvis] at hdead r1 r2
  refine ⟨C, σ₀', st, ⟨⟨o, ho, rfl⟩, ?_, fun i e hE m c => hdis _ _ _ _ _ _ (hent ▸ hE), fun v hv x hx => hlen ▸ r2 v hv x hx⟩,
    rfl, hbs, h3', hs, hvis⟩
  rw [hmain, r1]
  congr 2
  by_cases hd' : st.dead = true
  · have := hdead.1 hd'
    rw [if_pos hd', if_neg]
    intro hall
    exact absurd (List.all_eq_true.1 hall _ this) (by simp)
  · rw [if_neg hd', if_pos]
    rw [List.all_eq_true]
    intro x hx
    cases x with
    | none => exact absurd (hdead.2 hx) hd'
    | some x => rfl

/-- **C110**, proved part.  `lightgrep -p KEYWORD… -e ENCODING… FILE…`, with encodings named in any case and keywords that are
acceptable in them and whose automaton is small enough, ends with status 0, or with 1 if some input cannot be opened, and
prints a line for each hit in the inputs up to then.  Each hit is a match of the keyword in the encoding that it is shown with, and
for each keyword in an encoding the hits are its leftmost matches, for keywords without a branch that is only `{0}` before a bar and without non-greedy
repetitions in repetitions, unless a string could be repeated before all of them. -/
theorem lightgrep_hits_partial [Build] {env : Env} (he : env.Sound) {cast : List Nat → Option Bool} (h48 : cast [48] = some false)
    (h49 : cast [49] = some true) {g : Given} (hg : g.Sound)
    (hk : ∀ r ∈ g.requests, Session.Modest env r ∧ Text.parseAndReduce env r.opts r.expr ≠ .error .ub ∧
      Session.Acceptable env (inCapitals r))
    (hmany : g.requests.length < 16777216) :
    ∃ n, Session.States env (g.requests.map inCapitals) g.depth n ∧ ∀ _ : g.depth = 0 ∨ n ≤ g.depth, n < 16777216 →
      ∃ F, ∀ (L : Library) (X : Outside), L.Runs env cast F (2 * n + 9) → X.Writes g →
        ∃ C σ₀, Ran L X g C σ₀ ∧ ∀ v ∈ Cmd.opened (g.visits X),
          (∀ x ∈ Cmd.reportsOf C σ₀ v, ∃ r, g.requests[x.2.kw]? = some r ∧ Session.MatchAt env r 0 v.content x.2.start x.2.stop) ∧
          (¬ Session.Pumped env g.requests ((List.range g.requests.length).map some) →
            ∀ (i : Nat) (r : Request), g.requests[i]? = some r → Session.Parsed env r Regex.NgFlat → Session.Parsed env r Regex.NoBlank →
            Compiler.Leftmost (Session.MatchAt env r 0 v.content) 0 (hitsFor i ((Cmd.reportsOf C σ₀ v).map Prod.snd))) := by
  obtain ⟨G, hS, hG⟩ := lightgrep_runs he h48 h49 hg hk hmany
  refine ⟨G.n, hS, fun hd hN => ?_⟩
  obtain ⟨P, F, hC, h2⟩ := hG hd hN
  refine ⟨F, fun L X hL hX => ?_⟩
  obtain ⟨C, σ₀, st, hR, hP, hbs, h0, hs, hv⟩ := h2 L X hL hX
  refine ⟨C, σ₀, hR, ?_⟩
  have hll : g.labels.length = g.requests.length := by
    have hreq := requests_cmdOf g [] fun e h => (hg.encodings e h).2.2
    have hent : commandEntries (cmdOf g []) = g.labels := by
      unfold commandEntries cmdOf Given.labels
      simp only [List.map_map]
      rfl
    rw [← hent, Handles.commandEntries_length, hreq, List.length_map]
  have hcore := Handles.compiled_hits he (es := g.labels) (infos := g.labels) (by rw [List.length_map]; exact hll) hC
    (fun i l hi => by
      rw [List.getElem?_map] at hi
      obtain ⟨y, hy, hyl⟩ := Option.map_eq_some_iff.1 hi
      cases hyl
      obtain ⟨hlt, hy'⟩ := List.getElem?_eq_some_iff.1 hy
      rw [List.getElem_range] at hy'
      rw [hy']) hP hbs (fun m c k i hi => hR.labels k i hi m c) h0 hs
  rw [hv] at hcore
  intro v hvm
  obtain ⟨q1, q2⟩ := hcore.2 v hvm
  constructor
  · intro x hx
    obtain ⟨i, r, e, a1, -, a3, -, a5⟩ := q1 x hx
    rw [List.getElem?_map] at a1 a3
    obtain ⟨r', hr', rfl⟩ := Option.map_eq_some_iff.1 a1
    obtain ⟨y, hy, hyl⟩ := Option.map_eq_some_iff.1 a3
    obtain ⟨hlt, hy'⟩ := List.getElem?_eq_some_iff.1 hy
    rw [List.getElem_range] at hy'
    cases hyl
    subst hy'
    exact ⟨r', hr', capitals_matchAt ▸ a5⟩
  · intro hu i r hr h3 h4
    have hlt : i < g.requests.length := (List.getElem?_eq_some_iff.1 hr).1
    have := q2 (fun h => hu (capitals_pumped h)) i i (inCapitals r) (by rw [List.getElem?_map, hr]; rfl) (by simp [hlt]) h3 h4
    rwa [capitals_matchAt] at this

/-- **C110.** `lightgrep -F -p KEYWORD… -e ENCODING… FILE…`, with encodings named in any case, with
keywords that can be searched for in them and whose automaton is small enough, ends with status 0, or with
1 if some input cannot be opened.  It prints a line for each hit in the inputs up to then, and the hits in an
input for a keyword in an encoding are its occurrences, shown with that keyword, the name of the encoding in
capitals, and the number of the keyword. -/
theorem lightgrep_fixed [Build] {env : Env} (he : env.Sound) {cast : List Nat → Option Bool} (h48 : cast [48] = some false)
    (h49 : cast [49] = some true) {g : Given} (hg : g.Sound) (hk : ∀ r ∈ g.requests, Searchable (inCapitals r))
    (hmany : g.requests.length < 16777216) :
    ∃ n, Session.States env (g.requests.map inCapitals) g.depth n ∧ ∀ _ : g.depth = 0 ∨ n ≤ g.depth, n < 16777216 →
      ∃ F, ∀ (L : Library) (X : Outside), L.Runs env cast F (2 * n + 9) → X.Writes g →
        ∃ C σ₀, Ran L X g C σ₀ ∧ ∀ v ∈ Cmd.opened (g.visits X), ∀ (i : Nat) (r : Request), g.requests[i]? = some r →
          ∃ key, KeyOf r key ∧ hitsFor i ((Cmd.reportsOf C σ₀ v).map Prod.snd) = occurrences key 0 0 v.content := by
  obtain ⟨G, hS, hG⟩ := lightgrep_runs he h48 h49 hg (fun r hr => Session.searchable_parsed (hk r hr)) hmany
  refine ⟨G.n, hS, fun hd hN => ?_⟩
  obtain ⟨P, F, hC, h2⟩ := hG hd hN
  refine ⟨F, fun L X hL hX => ?_⟩
  obtain ⟨C, σ₀, st, hR, hP, hbs, h0, hs, hv⟩ := h2 L X hL hX
  refine ⟨C, σ₀, hR, fun v hvm i r hr => ?_⟩
  obtain ⟨cs, -, -, hL', -⟩ := hk r (List.mem_of_getElem? hr)
  have hlt : i < g.requests.length := (List.getElem?_eq_some_iff.1 hr).1
  obtain ⟨key, k1, -, k3⟩ := Handles.compiled_fixed he hC hP hbs h0 hs (i := i) (l := i) (r := inCapitals r)
    (by rw [List.getElem?_map, hr]; rfl) (by simp [hlt]) hL'.fixed hL'.cased
  rw [hv] at k3
  exact ⟨key, capitals_key.1 k1, k3 v hvm⟩

/-- **C110.** The same with `-i`: the hits in an input for a keyword in an encoding are the leftmost
non-overlapping places where it has a text that stands for the keyword. -/
theorem lightgrep_caseless [Build] {env : Env} (he : env.Sound) {V : Bool → Nat → Nat → Prop} (hV : Session.FoldsAs env V)
    {cast : List Nat → Option Bool} (h48 : cast [48] = some false) (h49 : cast [49] = some true) {g : Given} (hg : g.Sound)
    (hk : ∀ r ∈ g.requests, Session.CaselesslySearchable V (inCapitals r)) (hmany : g.requests.length < 16777216) :
    ∃ n, Session.States env (g.requests.map inCapitals) g.depth n ∧ ∀ _ : g.depth = 0 ∨ n ≤ g.depth, n < 16777216 →
      ∃ F, ∀ (L : Library) (X : Outside), L.Runs env cast F (2 * n + 9) → X.Writes g →
        ∃ C σ₀, Ran L X g C σ₀ ∧ ∀ v ∈ Cmd.opened (g.visits X), ∀ (i : Nat) (r : Request), g.requests[i]? = some r →
          ∃ cs k ts, Session.Caselessly r cs ∧ cs ≠ [] ∧ Chain.Reads r.chain k ts ∧
            ∀ hits, Compiler.Leftmost (Session.CaselessAt (V true) k ts cs 0 v.content) 0 hits ↔
              hits = hitsFor i ((Cmd.reportsOf C σ₀ v).map Prod.snd) := by
  obtain ⟨G, hS, hG⟩ := lightgrep_runs he h48 h49 hg (fun r hr => Session.caseless_parsed hV (hk r hr)) hmany
  refine ⟨G.n, hS, fun hd hN => ?_⟩
  obtain ⟨P, F, hC, h2⟩ := hG hd hN
  refine ⟨F, fun L X hL hX => ?_⟩
  obtain ⟨C, σ₀, st, hR, hP, hbs, h0, hs, hv⟩ := h2 L X hL hX
  refine ⟨C, σ₀, hR, fun v hvm i r hr => ?_⟩
  obtain ⟨cs, -, -, hL', -⟩ := hk r (List.mem_of_getElem? hr)
  have hlt : i < g.requests.length := (List.getElem?_eq_some_iff.1 hr).1
  obtain ⟨cs, k, ts, k1, k2, k3, k4⟩ := Handles.compiled_caseless he hV hC hP hbs h0 hs (i := i) (l := i) (r := inCapitals r)
    (by rw [List.getElem?_map, hr]; rfl) (by simp [hlt]) hL'.fixed hL'.caseless
  rw [hv] at k4
  have hu : r.opts.unicode = false := by
    have := List.mem_of_getElem? hr
    unfold Given.requests at this
    obtain ⟨p, -, hp⟩ := List.mem_flatMap.1 this
    obtain ⟨e, -, rfl⟩ := List.mem_map.1 hp
    rfl
  refine ⟨cs, k, ts, ⟨k1.fixed, k1.caseless, k1.scalar, k1.text⟩, k2, (Chain.capitals_read _ _ _).1 k3, fun hits => ?_⟩
  have := k4 v hvm hits
  rwa [show (inCapitals r).opts.unicode = false from hu] at this

end Verif.Whole
