import Verif.Props.SearchCmd
/-!
# C82: the options of the search command
-/
namespace Verif.Cmd

/-! ## Specification -/

/-- Keywords are given by an option. -/
def Args.keyed (a : Args) : Prop := a.programFile ≠ none ∨ a.patterns ≠ [] ∨ a.keywords ≠ []

instance (a : Args) : Decidable a.keyed := by unfold Args.keyed; infer_instance

/-- The positional arguments that name inputs: all, or all but the first, which then names the
file of keywords. -/
def Args.files (a : Args) : List Str := if a.keyed then a.pargs else a.pargs.tail

/-- The inputs: those named; standard input if none is named and there is no list. -/
def Args.inputs (a : Args) : List Str :=
  if a.files = [] ∧ a.argFiles = [] then [dash] else a.files

/-- Some context is asked for. -/
def Args.contextAsked (a : Args) : Prop := a.before ≠ none ∨ a.after ≠ none ∨ a.around ≠ none

instance (a : Args) : Decidable a.contextAsked := by unfold Args.contextAsked; infer_instance

/-- The options go together. -/
structure Consistent (a : Args) : Prop where
  program : a.programFile ≠ none → a.patterns = [] ∧ a.keywords = []
  one : a.patterns = [] ∨ a.keywords = []
  source : a.keyed ∨ a.pargs ≠ []
  after : ∀ n, a.after = some n → 0 ≤ n
  around : ∀ n, a.around = some n → 0 ≤ n
  before : ∀ n, a.before = some n → a.around = none → 0 ≤ n
  filename : ¬ (a.withFilename = true ∧ a.noFilename = true)
  stdin : a.mmap = true ∨ a.contextAsked → dash ∉ a.inputs

/-! ## Proofs -/

theorem keyFilesOf_spec (a : Args) (r : List Str × List Str) : keyFilesOf a = .ok r ↔
    ((a.programFile ≠ none → a.patterns = [] ∧ a.keywords = []) ∧ (a.patterns = [] ∨ a.keywords = []) ∧
      (a.keyed ∨ a.pargs ≠ [])) ∧ r = (if a.keyed then a.keywords else a.pargs.take 1, a.files) := by
  obtain ⟨pf, pats, kws, bf, af, ar, afs, wf, nf, rc, mm, no, ps⟩ := a
  unfold keyFilesOf Args.files Args.keyed
  rcases pf with _ | pf <;> rcases pats with _ | ⟨x, pats⟩ <;> rcases kws with _ | ⟨y, kws⟩ <;>
    rcases ps with _ | ⟨z, ps⟩ <;> simp [eq_comm]

theorem contextOptions_spec (a : Args) (r : Int × Int × Bool) : contextOptions a = .ok r ↔
    ((∀ n, a.after = some n → 0 ≤ n) ∧ (∀ n, a.around = some n → 0 ≤ n) ∧
      (∀ n, a.before = some n → a.around = none → 0 ≤ n)) ∧
    r = ((a.around.or a.before).getD (-1), (a.around.or a.after).getD (-1), a.mmap || decide a.contextAsked) := by
  obtain ⟨pf, pats, kws, bf, af, ar, afs, wf, nf, rc, mm, no, ps⟩ := a
  unfold contextOptions beforeVar Args.contextAsked
  rcases ar with _ | x <;> rcases bf with _ | y <;> rcases af with _ | z <;>
    simp only [Option.or_none, Option.none_or, Option.or_some, Option.some_or, Option.getD_none, Option.getD_some,
      Option.isSome_none, Option.isSome_some] <;>
    (constructor
     · intro h
       split at h
       · cases h
       · next hn =>
         simp only [Except.ok.injEq] at h
         subst h
         simp at hn ⊢
         try omega
     · rintro ⟨⟨h1, h2, h3⟩, rfl⟩
       rw [if_neg (by simp at h1 h2 h3 ⊢; try omega)]
       simp at h1 h2 h3 ⊢
       try omega)

theorem searchOptions_spec (a : Args) (mmap : Bool) (hf : ¬ (a.withFilename = true ∧ a.noFilename = true))
    (r : List Str × Bool) : searchOptions a a.files mmap = .ok r ↔
      (mmap = true → dash ∉ a.inputs) ∧
        r = (a.inputs, a.withFilename || (!a.noFilename && decide (a.files ≠ [] ∨ a.argFiles ≠ []))) := by
  unfold searchOptions Args.inputs
  have hwf : ∀ {w n : Bool}, ¬ (w = true ∧ n = true) → (w || !n) = !n := by decide
  by_cases h1 : a.files = [] <;> by_cases h2 : a.argFiles = []
  · simp only [h1, h2, ne_eq, not_true_eq_false, if_false, if_true, and_self, or_self, decide_false, Bool.and_false,
      Bool.or_false, List.mem_singleton]
    cases mmap <;> simp [eq_comm]
  · simp only [h1, h2, ne_eq, not_true_eq_false, if_false, if_true, and_false, not_false_eq_true, false_or, or_true,
      decide_true, Bool.and_true, List.not_mem_nil, hwf hf]
    simp [eq_comm]
  · simp only [h1, ne_eq, if_false, if_true, false_and, not_false_eq_true, true_or,
      decide_true, Bool.and_true, hwf hf]
    by_cases h3 : mmap = true ∧ dash ∈ a.files
    · rw [if_pos h3]
      simp [h3.1, h3.2]
    · rw [if_neg h3]
      simp only [Except.ok.injEq, eq_comm, iff_and_self]
      intro _ hm hd
      exact h3 ⟨hm, hd⟩
  · simp only [h1, ne_eq, if_false, if_true, false_and, not_false_eq_true, true_or,
      decide_true, Bool.and_true, hwf hf]
    by_cases h3 : mmap = true ∧ dash ∈ a.files
    · rw [if_pos h3]
      simp [h3.1, h3.2]
    · rw [if_neg h3]
      simp only [Except.ok.injEq, eq_comm, iff_and_self]
      intro _ hm hd
      exact h3 ⟨hm, hd⟩

/-- **C82.** The options are accepted exactly if they go together, and then say: where the
keywords come from, how many lines to show (`-C` stands for both `-B` and `-A`), that files are
mapped when asked for or when context is, the inputs, and whether paths are printed: with `-H`, or
without `-h` when some input is named or listed. -/
theorem options_meaning (a : Args) (o : Opts) : validate a = .ok o ↔
    Consistent a ∧ o = {
      programFile := a.programFile.getD []
      keyFiles := if a.keyed then a.keywords else a.pargs.take 1
      patterns := a.patterns
      before := (a.around.or a.before).getD (-1)
      after := (a.around.or a.after).getD (-1)
      inputs := a.inputs
      inputLists := a.argFiles
      printPath := a.withFilename || (!a.noFilename && decide (a.files ≠ [] ∨ a.argFiles ≠ []))
      recursive := a.recursive
      mmap := a.mmap || decide a.contextAsked
      noOutput := a.noOutput } := by
  constructor
  · intro h
    unfold validate at h
    cases h1 : keyFilesOf a with
    | error e => rw [h1] at h; cases h
    | ok r1 =>
      rw [h1] at h
      cases h2 : contextOptions a with
      | error e => rw [h2] at h; cases h
      | ok r2 =>
        rw [h2] at h
        obtain ⟨⟨k1, k2, k3⟩, rfl⟩ := (keyFilesOf_spec a r1).1 h1
        obtain ⟨⟨c1, c2, c3⟩, rfl⟩ := (contextOptions_spec a r2).1 h2
        simp only [bind, Except.bind] at h
        by_cases hf : a.withFilename = true ∧ a.noFilename = true
        · rw [if_pos hf] at h; cases h
        · rw [if_neg hf] at h
          cases h3 : searchOptions a a.files (a.mmap || decide a.contextAsked) with
          | error e => rw [h3] at h; cases h
          | ok r3 =>
            rw [h3] at h
            obtain ⟨s1, rfl⟩ := (searchOptions_spec a _ hf r3).1 h3
            simp only [Except.ok.injEq] at h
            exact ⟨⟨k1, k2, k3, c1, c2, c3, hf, by simpa using s1⟩, h.symm⟩
  · rintro ⟨⟨k1, k2, k3, c1, c2, c3, hf, s1⟩, rfl⟩
    have h1 := (keyFilesOf_spec a _).2 ⟨⟨k1, k2, k3⟩, rfl⟩
    have h2 := (contextOptions_spec a _).2 ⟨⟨c1, c2, c3⟩, rfl⟩
    have h3 := (searchOptions_spec a (a.mmap || decide a.contextAsked) hf _).2 ⟨by simpa using s1, rfl⟩
    unfold validate
    rw [h1, h2]
    simp only [bind, Except.bind]
    rw [if_neg hf, h3]

/-- **C82, what is printed.** Nothing with `--no-output`; otherwise the path is printed when it is to
be and the context when any is asked for. -/
theorem options_style {a : Args} {o : Opts} (h : validate a = .ok o) : selectCallbackFn o =
    if o.noOutput then ⟨false, false, false⟩ else ⟨o.printPath, decide a.contextAsked, true⟩ := by
  obtain ⟨hc, rfl⟩ := (options_meaning a o).1 h
  have hctx : ((a.around.or a.before).getD (-1) > -1 ∨ (a.around.or a.after).getD (-1) > -1) ↔ a.contextAsked := by
    have h1 := hc.after
    have h2 := hc.around
    have h3 := hc.before
    unfold Args.contextAsked
    clear h hc
    rcases hr : a.around with _ | x <;> rcases ha : a.after with _ | z <;> rcases hb : a.before with _ | y <;>
      simp [hr, ha, hb] at h1 h2 h3 ⊢ <;> omega
  unfold selectCallbackFn
  simp only [hctx]
  cases a.noOutput
  · cases (a.withFilename || (!a.noFilename && decide (a.files ≠ [] ∨ a.argFiles ≠ []))) <;>
      cases decide a.contextAsked <;> rfl
  · rfl

/-- **C82, mapping.** When context is asked for, no named input is standard input, so that all
inputs that are named are mapped; but a line `-` of a list is read without being mapped, and the
context of its hits is looked for in one block (see C79). -/
theorem context_not_mapped : ∃ (a : Args) (o : Opts) (w : World) (v : Visit), validate a = .ok o ∧ a.contextAsked ∧
    some v ∈ allVisits w o.mmap o.recursive o.inputLists o.inputs ∧ v.mapped = false := by
  refine ⟨{ patterns := [[97]], around := some 1, argFiles := [[108]] }, _,
    ⟨fun p => if p = [108] then some (.file (some [45, 10]) none) else none, [97]⟩, ⟨stdinName, true, false, [97]⟩, rfl,
    by decide, ?_, rfl⟩
  refine List.mem_append.2 (.inl ?_)
  simp [listVisits, dash, getLines, inputVisits, onceDash, visitsOf]

/-- `-A` is not looked at when `-C` is given. -/
example : ∃ o, validate { patterns := [[97]], around := some 1, after := some 5, pargs := [[102]] } = .ok o ∧
    o.after = 1 ∧ o.printPath = true ∧ o.mmap = true := ⟨_, rfl, rfl, rfl, rfl⟩

/-- The first positional argument is the file of keywords if there is no option for them. -/
example : ∃ o, validate { pargs := [[107], [102]] } = .ok o ∧ o.keyFiles = [[107]] ∧ o.inputs = [[102]] ∧
    o.printPath = true ∧ selectCallbackFn o = ⟨true, false, true⟩ := ⟨_, rfl, rfl, rfl, rfl, rfl⟩

example : validate { patterns := [[97]], before := some 1 } = .error .mmapStdin := rfl
example : validate { patterns := [[97]], after := some (-1), pargs := [[102]] } = .error .negativeContext := rfl

end Verif.Cmd
