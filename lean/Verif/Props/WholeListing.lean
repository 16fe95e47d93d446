import Verif.Props.Listing
import Verif.Props.WholeProgram
/-!
# C114: what `lightgrep -c program` writes without `--binary`
-/
namespace Verif.Whole
open Verif.Cmd (Str)
open Verif.Chain (Build)
open Verif.Session (Request)
open Verif.Parser (Env)
open Verif.Handles (commandProgram)

/-- **C114.** The programs of the library are instructions with their operands. -/
theorem compiled_laid [Build] {env : Env} (he : env.Sound) {rs : List Request} {os : List (Option Nat)} {G : Nfa.Graph} {P : Vm.Program}
    (hC : Session.Compiled env rs os G P) : Listing.Laid P.code := by
  obtain ⟨ps, hM, -⟩ := hC.made' he
  obtain ⟨hL, -, ⟨f, hc⟩, -⟩ := hM.facts
  unfold Compiler.createProgram at hc
  split at hc
  · cases hc
  · split at hc
    · next code hcode =>
      cases hc
      exact Listing.codegen_laid hL.toWF hcode
    · cases hc
    · cases hc

/-- **C114.** What `program` writes without `--binary` when it ends with status 0 is the listing of the program made of the keywords. -/
theorem listing_command [Build] {L : Library} {X : Outside} {g : Given} (hc : g.is "program") (hb : g.binary = false) {t : Str}
    (h : main L X g = .ok (0, t)) :
    ∃ G P infos, commandProgram L.fuel g.depth L.env L.castBool (g.keywordSource X) = some (G, P, infos) ∧ Listing.listing P.code = some t := by
  unfold main at h
  rcases parse_other (c := .program) ((is_command hc).trans (by decide)) (by simp) L X with ⟨h1, h2, s, hp, e1, e2, e3, e4⟩ | ⟨h1, e, hp⟩
  · rw [hp] at h
    simp only [e1, e2, e4] at h
    split at h
    · cases h
    · split at h
      · cases h
      · split at h
        · cases h
        · next G P infos hm =>
          split at h
          · cases h
          · next w hw =>
            cases h
            unfold written at hw
            rw [hb] at hw
            exact ⟨G, P, infos, hm, hw⟩
  · rw [hp] at h
    cases h

/-- **C114.** `lightgrep -c program -p KEYWORD… -e ENCODING…`, with acceptable keywords whose automaton is small enough, ends with
status 0: nothing is read behind the end of the program. -/
theorem listing_works [Build] {env : Env} (he : env.Sound) {cast : List Nat → Option Bool} (h48 : cast [48] = some false)
    (h49 : cast [49] = some true) {g : Given} (hg : g.ForProgram) (hb : g.binary = false)
    (hk : ∀ r ∈ g.requests, Session.Modest env r ∧ Text.parseAndReduce env r.opts r.expr ≠ .error .ub ∧
      Session.Acceptable env (inCapitals r))
    (hmany : g.requests.length < 16777216) :
    ∃ G : Nfa.Graph, Session.States env (g.requests.map inCapitals) g.depth G.n ∧ ∀ _ : g.depth = 0 ∨ G.n ≤ g.depth, G.n < 16777216 →
      ∃ P F, Session.Compiled env (g.requests.map inCapitals) ((List.range g.requests.length).map some) G P ∧
        ∀ (L : Library) (X : Outside), L.Makes env cast F → CanWrite X g.output →
          ∃ t, main L X g = .ok (0, t) ∧ Listing.listing P.code = some t := by
  obtain ⟨G, hS, hG⟩ := program_made he h48 h49 hg hk hmany
  refine ⟨G, hS, fun hd hN => ?_⟩
  obtain ⟨P, F, hC, h1⟩ := hG hd hN
  refine ⟨P, F, hC, fun L X hL hX => ?_⟩
  have hl := compiled_laid he hC
  obtain ⟨⟨t, ht⟩, -⟩ := Listing.listing_read hl hl
  exact ⟨t, main_program hg hX (h1 L X hL) (by unfold written; rw [hb]; exact ht), ht⟩

/-- **C114.** What `program` writes for two lists of keywords is the same exactly if the instructions of the programs made of
them are. -/
theorem listings_alike [Build] {env : Env} (he : env.Sound) {cast : List Nat → Option Bool} (h48 : cast [48] = some false)
    (h49 : cast [49] = some true) {a b : Given} (ha : a.ForProgram) (hb : b.ForProgram) (ha' : a.binary = false) (hb' : b.binary = false)
    (hka : ∀ r ∈ a.requests, Session.Modest env r ∧ Text.parseAndReduce env r.opts r.expr ≠ .error .ub ∧
      Session.Acceptable env (inCapitals r))
    (hkb : ∀ r ∈ b.requests, Session.Modest env r ∧ Text.parseAndReduce env r.opts r.expr ≠ .error .ub ∧
      Session.Acceptable env (inCapitals r))
    (hma : a.requests.length < 16777216) (hmb : b.requests.length < 16777216) :
    ∃ n m, Session.States env (a.requests.map inCapitals) a.depth n ∧ Session.States env (b.requests.map inCapitals) b.depth m ∧
      ∀ _ : a.depth = 0 ∨ n ≤ a.depth, n < 16777216 → (b.depth = 0 ∨ m ≤ b.depth) → m < 16777216 →
      ∃ F, ∀ (L : Library) (X : Outside), L.Makes env cast F → CanWrite X a.output → CanWrite X b.output →
        ∃ t u, main L X a = .ok (0, t) ∧ main L X b = .ok (0, u) ∧
          ∃ G P infos G' P' infos', commandProgram L.fuel a.depth L.env L.castBool (a.keywordSource X) = some (G, P, infos) ∧
            commandProgram L.fuel b.depth L.env L.castBool (b.keywordSource X) = some (G', P', infos') ∧ (t = u ↔ P.code = P'.code) := by
  obtain ⟨G, hS, hG⟩ := program_made he h48 h49 ha hka hma
  obtain ⟨G', hS', hG'⟩ := program_made he h48 h49 hb hkb hmb
  refine ⟨G.n, G'.n, hS, hS', fun hd hN hd' hN' => ?_⟩
  obtain ⟨P, F, hC, h1⟩ := hG hd hN
  obtain ⟨P', F', hC', h1'⟩ := hG' hd' hN'
  refine ⟨max F F', fun L X hL hX hX' => ?_⟩
  have e1 := h1 L X ⟨hL.env, hL.cast, by have := hL.fuel; omega⟩
  have e2 := h1' L X ⟨hL.env, hL.cast, by have := hL.fuel; omega⟩
  have l1 := compiled_laid he hC
  have l2 := compiled_laid he hC'
  obtain ⟨⟨t, ht⟩, hi⟩ := Listing.listing_read l1 l2
  obtain ⟨⟨u, hu⟩, -⟩ := Listing.listing_read l2 l1
  refine ⟨t, u, main_program ha hX e1 (by unfold written; rw [ha']; exact ht), main_program hb hX' e2 (by unfold written; rw [hb']; exact hu),
    G, P, _, G', P', _, e1, e2, fun h => hi (by rw [ht, hu, h]), fun h => ?_⟩
  rw [h] at ht
  exact Option.some.inj (ht.symm.trans hu)

/-! ## Examples -/

section
attribute [local instance] Build.plain

/-- `-c program -F -p 'a*' -e ascii -e utf-16le` -/
def exListing : Given := { exProgram with binary := false }

theorem exListing_for : exListing.ForProgram :=
  ⟨exProgram_writes.command, ⟨by simp [exListing, exProgram, exGiven], by simp [exListing, exProgram, exGiven],
    .inl (.inr (.inl (by simp [exListing, exProgram, exGiven]))), by simp [exListing, exProgram, exGiven], by simp [exListing, exProgram, exGiven],
    by simp [exListing, exProgram, exGiven], by simp [exListing, exProgram, exGiven]⟩,
    by decide +kernel, by simp [exListing, exProgram, exGiven], exProgram_writes.patterns, exProgram_writes.encodings⟩

-- The hypotheses of `listing_works` and `listings_alike` are met.
example : ∃ G : Nfa.Graph, Session.States Parser.plain (exListing.requests.map inCapitals) 4294967295 G.n ∧ ∀ _ : G.n ≤ 4294967295, G.n < 16777216 → ∃ F, ∀ (L : Library) (X : Outside), L.Makes Parser.plain Handles.exCast F →
    CanWrite X exListing.output → ∃ t, main L X exListing = .ok (0, t) := by
  obtain ⟨G, hS, h⟩ := listing_works Parser.plain_sound (cast := Handles.exCast) rfl rfl exListing_for rfl
    (fun r hr => Session.searchable_parsed (r := inCapitals r) (exGiven_searchable r hr)) (by decide)
  refine ⟨G, hS, fun h1 h2 => ?_⟩
  obtain ⟨P, F, -, h3⟩ := h (.inr h1) h2
  exact ⟨F, fun L X hL hX => let ⟨t, ht, _⟩ := h3 L X hL hX; ⟨t, ht⟩⟩

set_option maxRecDepth 10000 in
-- The listing for the keyword `a` in ASCII.
example : (match main exLibrary exOutside { exListing with patterns := [[97]], encoding := [word "ascii"] } with
    | .ok (0, t) => decide (t = Graphviz.str "00000000 Byte 0x61/'a'\n00000001 Label 0\n00000002 Match\n00000003 Finish\n00000004 Halt\n00000005 Finish\n\n")
    | _ => false) = true := by decide +kernel

end

end Verif.Whole
