import Verif.Props.Whole
/-!
# C109: the exit status
-/
namespace Verif.Whole
open Verif.Cmd (Args Opts OptErr Str)
open Verif.Marshal (Info)
open Verif.Chain (Build)
open Verif.Handles (commandProgram commandFsm)

/-! ## Specification -/

/-- A command other than help and the like, and which. -/
def Given.is (g : Given) (w : String) : Prop :=
  g.help = false ∧ g.version = false ∧ g.listEncodings = false ∧ g.command = word w

/-- The options go together, but for those about inputs. -/
structure Agree (a : Args) : Prop where
  program : a.programFile ≠ none → a.patterns = [] ∧ a.keywords = []
  one : a.patterns = [] ∨ a.keywords = []
  source : a.keyed ∨ a.pargs ≠ []
  after : ∀ n, a.after = some n → 0 ≤ n
  around : ∀ n, a.around = some n → 0 ≤ n
  before : ∀ n, a.before = some n → a.around = none → 0 ≤ n
  filename : ¬ (a.withFilename = true ∧ a.noFilename = true)

/-- What the options say about the keywords, with the content of the files. -/
def Given.keywordSource (g : Given) (X : Outside) : Handles.CmdOptions :=
  ⟨g.patterns, (if g.toArgs.keyed then g.toArgs.keywords else g.toArgs.pargs.take 1).map X.keyFile,
    g.encodings.map (·.map upper), g.fixedStrings, g.ignoreCase, false⟩

/-- The output can be written to. -/
def CanWrite (X : Outside) (f : Str) : Prop := f = Cmd.dash ∨ X.writable f = true

/-- A program is made of the keywords. -/
def MakesProgram [Build] (L : Library) (X : Outside) (g : Given) : Prop :=
  commandProgram L.fuel g.depth L.env L.castBool (g.keywordSource X) ≠ none

/-! ## Proofs -/

theorem is_command {g : Given} {w : String} (h : g.is w) : commandOf g = commands.lookup (word w) := by
  obtain ⟨h1, h2, h3, h4⟩ := h
  unfold commandOf
  rw [h1, h2, h3, h4]
  rfl

theorem opens_iff (X : Outside) (s : Settings) : opens X s = true ↔ CanWrite X s.output := by
  unfold opens CanWrite
  simp

/-- **C109.** A search command that comes to a defined end exits with status 0 or 1: with 0 exactly if its options
go together, no program file is named, a program is made of the keywords, the histogram and the output can be written, and all inputs can be
opened. -/
theorem search_status [Build] {L : Library} {X : Outside} {g : Given} (hc : g.is "search") {n : Nat} {t : Str}
    (h : main L X g = .ok (n, t)) :
    (n = 0 ∨ n = 1) ∧
    (n = 0 ↔ Cmd.Consistent g.toArgs ∧ g.programFile.getD [] = [] ∧ MakesProgram L X g ∧
      (g.histogramFile = [] ∨ X.writable g.histogramFile = true) ∧ CanWrite X g.output ∧
      none ∉ Cmd.allVisits X.world (g.mmap || decide g.toArgs.contextAsked) g.recursive g.argFiles g.toArgs.inputs) := by
  unfold main at h
  cases hv : Cmd.validate g.toArgs with
  | error e =>
    have hno : ¬ Cmd.Consistent g.toArgs := fun hcon => by
      rw [(Cmd.options_meaning _ _).2 ⟨hcon, rfl⟩] at hv
      cases hv
    have hp : parseOpts L.number g = .error (.option e) := by
      unfold parseOpts
      rw [is_command hc]
      show (match Cmd.validate g.toArgs with | .error e => _ | .ok o => _) = _
      rw [hv]
    rw [hp] at h
    cases h
    exact ⟨.inr rfl, by simp [hno]⟩
  | ok o =>
    obtain ⟨hcon, ho⟩ := (Cmd.options_meaning _ _).1 hv
    obtain ⟨o', hv', hp, e1, e2, e3, e4, e5, e6⟩ := parse_search (show g.searches from hc) hcon L.number
    rw [hv] at hv'
    cases hv'
    rw [hp] at h
    change search L X (settingsOf g o) = _ at h
    unfold search at h
    by_cases hpf : g.programFile.getD [] = []
    · rw [if_neg (by show ¬ (o.programFile ≠ []); rw [e1]; simpa using hpf)] at h
      have hk : (keysOf X (settingsOf g o)).cmd = g.keywordSource X := by
        subst ho
        unfold keysOf Handles.Keys.cmd Given.keywordSource settingsOf
        simp only [List.map_map]
        rfl
      rw [hk] at h
      cases hr : reports L (keysOf X (settingsOf g o)) (settingsOf g o).depth with
      | none => rw [hr] at h; cases h
      | some r =>
        rw [hr] at h
        simp only at h
        unfold MakesProgram
        cases hP : commandProgram L.fuel (settingsOf g o).depth L.env L.castBool (g.keywordSource X) with
        | none =>
          rw [hP] at h
          cases h
          exact ⟨.inr rfl, by simp [show commandProgram L.fuel g.depth L.env L.castBool (g.keywordSource X) = none from hP]⟩
        | some x =>
          obtain ⟨G, P, infos⟩ := x
          rw [hP] at h
          simp only at h
          have hP' : commandProgram L.fuel g.depth L.env L.castBool (g.keywordSource X) ≠ none := by
            intro hn
            cases hn.symm.trans (show commandProgram L.fuel g.depth L.env L.castBool (g.keywordSource X) = _ from hP)
          unfold searchWith at h
          rw [show (settingsOf g o).histogramFile = g.histogramFile from rfl] at h
          by_cases hh : g.histogramFile ≠ [] ∧ X.writable g.histogramFile = false
          · rw [if_pos hh] at h
            cases h
            refine ⟨.inr rfl, ?_⟩
            simp [hh.1, hh.2]
          · rw [if_neg hh] at h
            have hh' : g.histogramFile = [] ∨ X.writable g.histogramFile = true := by
              by_cases h1 : g.histogramFile = []
              · exact .inl h1
              · right
                cases hw : X.writable g.histogramFile with
                | true => rfl
                | false => exact absurd ⟨h1, hw⟩ hh
            by_cases ho' : CanWrite X g.output
            · rw [if_neg (by rw [(opens_iff X (settingsOf g o)).2 ho']; simp)] at h
              cases h0 : Vm.create P L.vmFuel with
              | ub => rw [h0] at h; cases h
              | fuel => rw [h0] at h; cases h
              | ok z =>
                obtain ⟨first, σ₀⟩ := z
                rw [h0] at h
                simp only at h
                cases hs : Cmd.searchCommand (confOf L (settingsOf g o) P first infos) X.world (settingsOf g o).opts.inputLists
                    (settingsOf g o).opts.inputs σ₀ with
                | ub => rw [hs] at h; cases h
                | fuel => rw [hs] at h; cases h
                | ok st =>
                  rw [hs] at h
                  simp only [Except.ok.injEq, Prod.mk.injEq] at h
                  obtain ⟨rfl, -⟩ := h
                  have hd := (Cmd.inputs_searched_alone (C := confOf L (settingsOf g o) P first infos) h0 hs).1
                  have hd' : st.dead = true ↔ none ∈ Cmd.allVisits X.world (g.mmap || decide g.toArgs.contextAsked) g.recursive
                      g.argFiles g.toArgs.inputs := by
                    rw [← e6, ← e5, ← e3, ← e4]
                    exact hd
                  rw [← hd']
                  cases st.dead <;> simp [hcon, hpf, hP', hh', ho']
            · rw [if_pos (by
                cases hx : opens X (settingsOf g o) with
                | false => rfl
                | true => exact absurd ((opens_iff X (settingsOf g o)).1 hx) ho')] at h
              cases h
              exact ⟨.inr rfl, by simp [ho']⟩
    · rw [if_pos (by show o.programFile ≠ []; rw [e1]; exact hpf)] at h
      split at h
      · cases h
      · cases h
        exact ⟨.inr rfl, by simp [hpf]⟩

theorem otherOptions_spec (number : Str → Option Nat) (a : Args) (o : Opts) (n m : Nat) :
    otherOptions number false a = .ok (o, n, m) ↔ Agree a ∧ a.files = [] ∧ n = 0 ∧ m = 0 ∧ o = {
      programFile := a.programFile.getD []
      keyFiles := if a.keyed then a.keywords else a.pargs.take 1
      patterns := a.patterns
      before := (a.around.or a.before).getD (-1)
      after := (a.around.or a.after).getD (-1)
      inputs := []
      inputLists := a.argFiles
      printPath := false
      recursive := a.recursive
      mmap := a.mmap || decide a.contextAsked
      noOutput := a.noOutput } := by
  unfold otherOptions
  constructor
  · intro h
    cases h1 : Cmd.keyFilesOf a with
    | error e => rw [h1] at h; cases h
    | ok r1 =>
      obtain ⟨⟨k1, k2, k3⟩, rfl⟩ := (Cmd.keyFilesOf_spec a r1).1 h1
      rw [h1] at h
      cases h2 : Cmd.contextOptions a with
      | error e => rw [h2] at h; cases h
      | ok r2 =>
        obtain ⟨⟨c1, c2, c3⟩, rfl⟩ := (Cmd.contextOptions_spec a r2).1 h2
        rw [h2] at h
        simp only [Bool.false_eq_true, if_false] at h
        split at h
        · cases h
        next hf =>
        split at h
        · cases h
        next hfl =>
        cases h
        exact ⟨⟨k1, k2, k3, c1, c2, c3, hf⟩, by simpa using hfl, rfl, rfl, rfl⟩
  · rintro ⟨⟨k1, k2, k3, c1, c2, c3, hf⟩, hfl, rfl, rfl, rfl⟩
    rw [(Cmd.keyFilesOf_spec a _).2 ⟨⟨k1, k2, k3⟩, rfl⟩, (Cmd.contextOptions_spec a _).2 ⟨⟨c1, c2, c3⟩, rfl⟩]
    simp only [Bool.false_eq_true, if_false]
    rw [if_neg hf, if_neg (by simpa using hfl)]

/-- The options of `graph`, `program` and `validate`. -/
theorem parse_other {g : Given} {c : Command} (hc : commandOf g = some c) (hk : c = .graph ∨ c = .program ∨ c = .validate)
    (L : Library) (X : Outside) :
    (Agree g.toArgs ∧ g.toArgs.files = [] ∧ ∃ s, parseOpts L.number g = .ok s ∧ s.command = c ∧ s.depth = g.depth ∧
      s.output = g.output ∧ (keysOf X s).cmd = g.keywordSource X) ∨
    (¬ (Agree g.toArgs ∧ g.toArgs.files = []) ∧ ∃ e, parseOpts L.number g = .error e) := by
  have hp : parseOpts L.number g = match otherOptions L.number false g.toArgs with
      | .error e => .error e
      | .ok (o, n, m) =>
        .ok ⟨c, o, encodingsOf g, g.ignoreCase, g.fixedStrings, g.output, g.histogramFile, g.groupSeparator, g.blockSize, g.depth, n, m⟩ := by
    unfold parseOpts
    rw [hc]
    rcases hk with rfl | rfl | rfl <;> rfl
  cases h : otherOptions L.number false g.toArgs with
  | error e =>
    rw [h] at hp
    refine .inr ⟨fun ⟨h1, h2⟩ => ?_, e, hp⟩
    rw [(otherOptions_spec L.number g.toArgs _ 0 0).2 ⟨h1, h2, rfl, rfl, rfl⟩] at h
    cases h
  | ok x =>
    obtain ⟨o, n, m⟩ := x
    obtain ⟨h1, h2, -, -, ho⟩ := (otherOptions_spec L.number g.toArgs o n m).1 h
    rw [h] at hp
    refine .inl ⟨h1, h2, _, hp, rfl, rfl, rfl, ?_⟩
    subst ho
    unfold keysOf Handles.Keys.cmd Given.keywordSource
    simp only [List.map_map]
    rfl

/-- **C109.** `graph` and `program`, when they come to a defined end, exit with 0 exactly if their options go together, no inputs are
named, a program is made of the keywords, and the output can be written. -/
theorem made_status [Build] {L : Library} {X : Outside} {g : Given} (hc : g.is "graph" ∨ g.is "program") {n : Nat} {t : Str}
    (h : main L X g = .ok (n, t)) :
    (n = 0 ∨ n = 1) ∧ (n = 0 ↔ Agree g.toArgs ∧ g.toArgs.files = [] ∧ MakesProgram L X g ∧ CanWrite X g.output) := by
  unfold main at h
  have hcmd : ∃ c, commandOf g = some c ∧ (c = .graph ∨ c = .program) := by
    rcases hc with hc | hc
    · exact ⟨.graph, (is_command hc).trans (by decide), .inl rfl⟩
    · exact ⟨.program, (is_command hc).trans (by decide), .inr rfl⟩
  obtain ⟨c, hc, hcc⟩ := hcmd
  have hopen : ∀ s : Settings, s.output = g.output → (opens X s = true ↔ CanWrite X g.output) := fun s hs => by
    rw [opens_iff, hs]
  rcases parse_other hc (by rcases hcc with h | h <;> simp [h]) L X with ⟨h1, h2, s, hp, e1, e2, e3, e4⟩ | ⟨h1, e, hp⟩
  · rw [hp] at h
    simp only [e1] at h
    have hm : ((commandProgram L.fuel g.depth L.env L.castBool (g.keywordSource X)).isNone = true) ↔ ¬ MakesProgram L X g := by
      unfold MakesProgram
      cases commandProgram L.fuel g.depth L.env L.castBool (g.keywordSource X) <;> simp
    rcases hcc with rfl | rfl
    · simp only [e2, e4] at h
      cases hr : reports L (keysOf X s) g.depth with
      | none => rw [hr] at h; cases h
      | some r =>
        rw [hr] at h
        simp only at h
        cases hM : commandProgram L.fuel g.depth L.env L.castBool (g.keywordSource X) with
        | none =>
          rw [hM] at h
          cases h
          have hM : ¬ MakesProgram L X g := hm.1 (by rw [hM]; rfl)
          simp [hM]
        | some x =>
          rw [hM] at h
          have hM : MakesProgram L X g := Classical.byContradiction fun c => by
            have := hm.2 c
            rw [hM] at this
            cases this
          simp only at h
          have := hopen s e3
          by_cases ho : CanWrite X g.output
          · rw [if_pos (this.2 ho)] at h
            cases h
            simp [h1, h2, hM, ho]
          · rw [if_neg (fun h => ho (this.1 h))] at h
            cases h
            simp [ho]
    · simp only [e2, e4] at h
      by_cases ho : CanWrite X g.output
      · rw [if_neg (by rw [(hopen s e3).2 ho]; simp)] at h
        cases hr : reports L (keysOf X s) g.depth with
        | none => rw [hr] at h; cases h
        | some r =>
          rw [hr] at h
          simp only at h
          cases hM : commandProgram L.fuel g.depth L.env L.castBool (g.keywordSource X) with
          | none =>
            rw [hM] at h
            cases h
            have hM : ¬ MakesProgram L X g := hm.1 (by rw [hM]; rfl)
            simp [hM]
          | some x =>
            rw [hM] at h
            simp only at h
            split at h
            · cases h
            cases h
            have hM : MakesProgram L X g := Classical.byContradiction fun c => by
              have := hm.2 c
              rw [hM] at this
              cases this
            simp [h1, h2, hM, ho]
      · rw [if_pos (by
          cases hx : opens X s with
          | false => rfl
          | true => exact absurd ((hopen s e3).1 hx) ho)] at h
        cases h
        simp [ho]
  · rw [hp] at h
    cases h
    refine ⟨.inr rfl, ?_⟩
    simp only [Nat.one_ne_zero, false_iff]
    rintro ⟨a, b, -⟩
    exact h1 ⟨a, b⟩

/-- **C109** does not hold for `validate`: its status says only that the options go together and no inputs are named, nothing of the keywords. -/
theorem validate_status [Build] {L : Library} {X : Outside} {g : Given} (hc : g.is "validate") {n : Nat} {t : Str}
    (h : main L X g = .ok (n, t)) :
    (n = 0 ∨ n = 1) ∧ (n = 0 ↔ Agree g.toArgs ∧ g.toArgs.files = []) := by
  unfold main at h
  rcases parse_other (c := .validate) ((is_command hc).trans (by decide)) (by simp) L X with ⟨h1, h2, s, hp, e1, e2, e3, e4⟩ | ⟨h1, e, hp⟩
  · rw [hp] at h
    simp only [e1] at h
    cases hr : reports L (keysOf X s) s.depth with
    | none => rw [hr] at h; cases h
    | some r =>
      rw [hr] at h
      cases h
      simp [h1, h2]
  · rw [hp] at h
    cases h
    refine ⟨.inr rfl, ?_⟩
    simp only [Nat.one_ne_zero, false_iff]
    exact h1

/-- `sample` exits with 0 exactly if its options are accepted and the output can be written; a search for no keyword or an error
is not told by it. -/
theorem sample_status [Build] {L : Library} {X : Outside} {g : Given} (hc : g.is "sample") {n : Nat} {t : Str}
    (h : main L X g = .ok (n, t)) :
    n = 0 ↔ (∃ s, parseOpts L.number g = .ok s) ∧ CanWrite X g.output := by
  unfold main at h
  have hcmd : commandOf g = some .samples := (is_command hc).trans (by decide)
  cases hp : parseOpts L.number g with
  | error e =>
    rw [hp] at h
    cases h
    simp
  | ok s =>
    have hs : s.command = .samples ∧ s.output = g.output := by
      unfold parseOpts at hp
      rw [hcmd] at hp
      simp only at hp
      split at hp
      · cases hp
      · cases hp
        exact ⟨rfl, rfl⟩
    rw [hp] at h
    simp only [hs.1, Except.ok.injEq, Prod.mk.injEq] at h
    obtain ⟨rfl, -⟩ := h
    have := opens_iff X s
    rw [hs.2] at this
    by_cases ho : CanWrite X g.output
    · rw [if_pos (this.2 ho)]; simp [ho]
    · rw [if_neg (fun h => ho (this.1 h))]; simp [ho]

/-- With keywords on the command line or in one file, what `validate` can be asked for is whether it writes nothing: then, and only then, every file could be opened and every
keyword was accepted in all its encodings. -/
theorem validate_silent [Build] (L : Library) (k : Handles.Keys) (depth : Nat) (hone : k.patterns ≠ [] ∨ k.files.length ≤ 1) :
    reports L k depth = some [] ↔
      (k.patterns = [] → ∀ x ∈ k.files, x.2 ≠ none) ∧ (commandFsm L.fuel depth L.env L.castBool k.cmd).2 = 0 := by
  have := Handles.silent_iff (Handles.realEngine L.fuel depth) (Handles.realFront L.env L.castBool) L.messages k
    (Handles.step (Handles.realEngine L.fuel depth) Handles.World.init .createFsm).1 hone
  unfold commandFsm
  simp only
  rw [← this]
  unfold reports
  simp only [Option.map_eq_some_iff]
  constructor
  · rintro ⟨⟨a, b, c⟩, h, rfl⟩
    exact ⟨b, c, h⟩
  · rintro ⟨b, c, h⟩
    exact ⟨_, h, rfl⟩

/-- An unknown command is refused. -/
theorem unknown_command [Build] (L : Library) (X : Outside) {g : Given} (h : g.help = false ∧ g.version = false ∧ g.listEncodings = false)
    (hc : g.command ∉ [word "search", word "graph", word "program", word "sample", word "validate"]) : main L X g = .ok (1, []) := by
  have : commandOf g = none := by
    obtain ⟨h1, h2, h3⟩ := h
    unfold commandOf
    rw [h1, h2, h3]
    simp only [List.mem_cons, List.not_mem_nil, or_false, not_or] at hc
    obtain ⟨c1, c2, c3, c4, c5⟩ := hc
    simp only [commands, List.lookup, beq_false_of_ne c1, beq_false_of_ne c2, beq_false_of_ne c3, beq_false_of_ne c4, beq_false_of_ne c5]
    rfl
  unfold main parseOpts
  rw [this]

/-! ## Examples -/

section
attribute [local instance] Build.plain

/-- No ICU; files can be written and there is nothing else. -/
def exLibrary : Library :=
  ⟨Parser.plain, Handles.exCast, fun _ => none, ⟨fun _ _ => [120], fun _ _ => [121], [122]⟩,
    fun infos _ _ _ => ⟨fun _ _ => none, fun k => match infos[k]? with | some i => ⟨i.pattern, i.chain, i.idx⟩ | none => ⟨[], [], 0⟩⟩, 40, 500⟩

def exOutside : Outside := ⟨fun _ => none, fun _ => false, fun _ => true, Cmd.exWorld⟩

/-- `-c validate -p '(' -e ASCII` -/
def exValidate : Given := { patterns := [[40]], encoding := [word "ASCII"], command := word "validate" }

set_option maxRecDepth 10000 in
/-- **C109** is false of `validate` (README.md says that it returns nonzero if some pattern cannot be parsed): one
cannot, and the status is 0. -/
theorem validate_status_wrong : ∃ (L : Library) (X : Outside) (g : Given), g.is "validate" ∧
    (commandFsm L.fuel g.depth L.env L.castBool (g.keywordSource X)).2 = 1 ∧ main L X g = .ok (0, []) := by
  refine ⟨exLibrary, exOutside, exValidate, ⟨rfl, rfl, rfl, rfl⟩, by decide +kernel, ?_⟩
  have h : (match main exLibrary exOutside exValidate with
    | .ok (0, []) => true
    | _ => false) = true := by decide +kernel
  revert h
  generalize main exLibrary exOutside exValidate = x
  intro h
  split at h
  · rfl
  · cases h

-- The hypotheses of `search_status` and `made_status` are met: with the keyword `(` nothing can be searched for.
set_option maxRecDepth 10000 in
example : ∀ w ∈ ["search", "graph", "program"], (match main exLibrary exOutside { exValidate with command := word w } with
    | .ok (1, []) => true
    | _ => false) = true := by decide +kernel

/-- `-F -p 'a*' -e ascii -e utf-16le f` -/
def exGiven : Given :=
  { patterns := [[97, 42]], encoding := [word "ascii", word "utf-16le"], fixedStrings := true, pargs := [[102]] }

set_option maxRecDepth 10000 in
-- It ends with status 0 and prints something.
example : (match main exLibrary exOutside exGiven with
    | .ok (0, _) => true
    | _ => false) = true := by decide +kernel

theorem exGiven_cmd : cmdOf exGiven [] = Handles.exFixed := by
  have h1 : exGiven.encodings.map (·.map upper) = Handles.exFixed.encodings := by decide +kernel
  unfold cmdOf
  rw [h1]
  rfl

-- The hypotheses of `lightgrep_fixed` are met.
theorem exGiven_sound : exGiven.Sound := by
  have hb : ∀ e ∈ exGiven.encodings, e ≠ [] ∧ (∀ c ∈ e, c ≠ 0 ∧ c ≠ 9 ∧ c ≠ 10 ∧ c ≠ 13) ∧ 44 ∉ e ∧ ∀ b ∈ e, b < 256 := by decide +kernel
  exact ⟨⟨rfl, rfl, rfl, rfl⟩, ⟨by simp [exGiven], by simp [exGiven], .inl (.inr (.inl (by simp [exGiven]))), by simp [exGiven], by simp [exGiven],
    by simp [exGiven], by simp [exGiven], by simp [exGiven, Cmd.Args.contextAsked]⟩, by simp [exGiven], Handles.exFixed_sensible.patterns,
    fun e h => ⟨⟨(hb e h).1, (hb e h).2.1⟩, (hb e h).2.2⟩, by decide⟩

theorem exGiven_searchable : ∀ r ∈ exGiven.requests, Session.Searchable (inCapitals r) := fun r hr => by
  apply Handles.exFixed_searchable
  rw [← exGiven_cmd, requests_cmdOf exGiven [] fun e h => (exGiven_sound.encodings e h).2.2]
  exact List.mem_map_of_mem hr

example : exOutside.Writes exGiven ∧ (Cmd.opened (exGiven.visits exOutside)).length = 1 ∧ exLibrary.Runs Parser.plain Handles.exCast 40 500 :=
  ⟨⟨.inl rfl, .inl rfl⟩, by decide +kernel, rfl, rfl, Nat.le_refl _, Nat.le_refl _, fun infos _ _ _ k i h => by
    simp only [exLibrary, h]⟩

example : ∃ n, Session.States Parser.plain (exGiven.requests.map inCapitals) 4294967295 n ∧ ∀ _ : n ≤ 4294967295, n < 16777216 → ∃ F, ∀ (L : Library) (X : Outside), L.Runs Parser.plain Handles.exCast F (2 * n + 9) →
    X.Writes exGiven → ∃ C σ₀, Ran L X exGiven C σ₀ := by
  obtain ⟨n, hS, h⟩ := lightgrep_fixed Parser.plain_sound (cast := Handles.exCast) rfl rfl exGiven_sound exGiven_searchable (by decide)
  refine ⟨n, hS, fun h1 h2 => ?_⟩
  obtain ⟨F, h3⟩ := h (.inr h1) h2
  refine ⟨F, fun L X hL hX => ?_⟩
  obtain ⟨C, σ₀, h4, -⟩ := h3 L X hL hX
  exact ⟨C, σ₀, h4⟩

end

end Verif.Whole
