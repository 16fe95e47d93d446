import Verif.Props.Pumped
import Verif.Props.TextOrder
/-!
# C68 and C78 by what the requested texts match
-/
namespace Verif.Session
open Verif.Encoders Verif.Chain Verif.Nfa Verif.NfaBuilder Verif.Fsm Verif.Subset
open Verif.Regex (Tree lang NoLook NoBlank NgFlat AllLeaves weight UNB preferred rests Splits)
open Verif.Parser (Env PatternOpts)

/-! ## Specification -/

/-- There is a string that can be repeated any number of times before the matches of every accepted
request without non-greedy repetitions inside other repetitions and without a branch that is only `{0}` before a bar, or before the
beginnings of these matches that match too. -/
def Pumped [Build] (env : Env) (rs : List Request) (os : List (Option Nat)) : Prop :=
  ∃ p, p ≠ [] ∧ ∀ (i : Nat) r l, rs[i]? = some r → os[i]? = some (some l) → Parsed env r NgFlat → Parsed env r NoBlank →
    ∀ w, Matches env r w → ∃ w', w' <+: w ∧ ∀ k, Matches env r (times p k ++ w')

/-! ## Proofs -/

/-- A program for requests has the defect of `zero_landing_loses_match` only if they are
`Pumped`. -/
theorem unpumped_noZero [Build] {env : Env} (he : env.Sound) {rs : List Request} {os : List (Option Nat)} {g : Graph}
    {P : Vm.Program} (h : Compiled env rs os g P) (hu : ¬ Pumped env rs os) : Compiler.NoZero g := by
  obtain ⟨ps, hM, -, h4, -⟩ := h.made' he
  refine Fsm.unpumped_noZero hM ?_
  rintro ⟨p, hp, hP⟩
  refine hu ⟨p, hp, fun i r l hr ho hng hnd w hw => ?_⟩
  obtain ⟨t', ht', ha⟩ := h4 i r l hr ho
  obtain ⟨w1, h1, h2⟩ := ha.places hng hnd w hw
  obtain ⟨w', h3, h5⟩ := hP _ ht' ha.takes w1 h2
  exact ⟨w', h3.trans h1, fun k => ha.sub _ (h5 k)⟩

/-- **C68** Patterns are requested in any order, with any options and encodings; some are refused.
If the requests are not `Pumped`, the hits with the number of an accepted request without non-greedy
repetitions inside other repetitions and without a branch that is only `{0}` before a bar are the leftmost non-overlapping matches of its
text in its encoding. -/
theorem unpumped_text_hits [Build] {env : Env} (he : env.Sound) {rs : List Request} {os : List (Option Nat)} {g : Graph}
    {P : Vm.Program} (h : Compiled env rs os g P) (hu : ¬ Pumped env rs os)
    {fuel : Nat} {first : List Vm.Thread} {σ₀ : Vm.St} (hnew : Vm.create P fuel = .ok (first, σ₀))
    {off : Nat} {bufs : List (List UInt8)} {res : List (Option Nat)} {σ : Vm.St}
    (hrun : Vm.run P first fuel (Vm.searches off bufs) σ₀ = .ok (res, σ)) {i l : Nat} {r : Request}
    (hr : rs[i]? = some r) (ho : os[i]? = some (some l)) (hng : Parsed env r NgFlat) (hnd : Parsed env r NoBlank) :
    Compiler.Leftmost (MatchAt env r off bufs.flatten) 0 (Vm.hitsOf l σ.log) :=
  text_hits_partial he h (unpumped_noZero he h hu) hnew hrun hr ho hng hnd

/-- **C78** in the same terms. -/
theorem unpumped_text_backtrack_partial [Build] {env : Env} (he : env.Sound) {rs : List Request} {os : List (Option Nat)} {g : Graph}
    {P : Vm.Program} (h : Compiled env rs os g P) (hu : ¬ Pumped env rs os)
    {fuel : Nat} {first : List Vm.Thread} {σ₀ : Vm.St} (hnew : Vm.create P fuel = .ok (first, σ₀))
    {off : Nat} {bufs : List (List UInt8)} {res : List (Option Nat)} {σ : Vm.St}
    (hrun : Vm.run P first fuel (Vm.searches off bufs) σ₀ = .ok (res, σ)) {i l : Nat} {r : Request}
    (hr : rs[i]? = some r) (ho : os[i]? = some (some l)) {t : Tree Node} {j : Nat}
    (hpt : Text.parseText env r.opts r.expr = .ok (t, j)) {k : Coding} {ts : List Transforms.ByteT}
    (hrd : Reads r.chain k ts) (hb : Plain (charBytes k ts) t) (hs : ∀ t', Handed env r t' → ∀ fuel, Stays fuel l t') :
    Reports (preferred (textRests (charBytes k ts)) t) off bufs.flatten 0 (Vm.hitsOf l σ.log) :=
  text_backtrack_partial he h (unpumped_noZero he h hu) hnew hrun hr ho hpt hrd hb hs

/-- One accepted request without unbounded repetition is enough, whatever the others are. -/
theorem unpumped_of_bounded [Build] {env : Env} {rs : List Request} {os : List (Option Nat)} {i l : Nat} {r : Request}
    (hr : rs[i]? = some r) (ho : os[i]? = some (some l)) (hng : Parsed env r NgFlat) (hnd : Parsed env r NoBlank)
    (hb : Parsed env r NoUnb) {w : List UInt8} (hw : Matches env r w) : ¬ Pumped env rs os := by
  rintro ⟨p, hp, hP⟩
  obtain ⟨w', -, hk⟩ := hP i r l hr ho hng hnd w hw
  obtain ⟨t, j, k, ts, a, b, -⟩ := hw
  obtain ⟨B, hB⟩ := bounded (textSem_bounded b) t (hb t j a)
  obtain ⟨t1, j1, k1, ts1, a1, b1, c1⟩ := hk (B + 1)
  rw [a] at a1
  cases a1
  obtain ⟨rfl, rfl⟩ := reads_unique b b1
  have h1 := hB _ c1
  have h2 := times_length hp (B + 1)
  rw [List.length_append] at h1
  omega

/-- If no byte begins matches of all requests, none is affected. -/
theorem unpumped_of_heads [Build] {env : Env} {rs : List Request} {os : List (Option Nat)}
    (h : ∀ b : UInt8, ∃ (i : Nat) (r : Request) (l : Nat), rs[i]? = some r ∧ os[i]? = some (some l) ∧ Parsed env r NgFlat ∧
      Parsed env r NoBlank ∧ (∃ w, Matches env r w) ∧ ∀ w, ¬ Matches env r (b :: w)) : ¬ Pumped env rs os := by
  rintro ⟨p, hp, hP⟩
  obtain ⟨b, p', rfl⟩ := List.exists_cons_of_ne_nil hp
  obtain ⟨i, r, l, hr, ho, hng, hnd, ⟨w, hw⟩, hno⟩ := h b
  obtain ⟨w', -, hk⟩ := hP i r l hr ho hng hnd w hw
  exact hno _ (by simpa [times] using hk 1)

attribute [local instance] Build.plain in
/-- The requests of `pair`, of which the second has unbounded matches. -/
example : ¬ Pumped Parser.plain pair [some 0, some 1] := by
  obtain ⟨⟨j1, p1⟩, -⟩ := pair_parsed
  refine unpumped_of_bounded (i := 0) (l := 0) rfl rfl (parsed_of p1 ?_) (parsed_of p1 ?_) (parsed_of p1 ?_) (w := [0x66, 0x61]) ?_
  · exact pair_plain.1.flat
  · exact pair_plain.1.noBlank
  · exact ⟨⟨⟨trivial, trivial⟩, trivial⟩, trivial, trivial⟩
  · refine ⟨_, j1, .std .ascii, [], p1, ascii_reads, ?_⟩
    refine (Language.mem_add _ _ _).2 (.inr (Language.mem_mul.2 ⟨[0x66], ?_, [0x61], ?_, rfl⟩))
    · show _ ∈ textSem _ _
      rw [ascii_lit (by decide)]
      rfl
    · show _ ∈ textSem _ _
      rw [ascii_lit (by decide)]
      rfl

/-- The text `ax{0}(b|c{0})` meets the conditions on the text, although it has `{0}`. -/
example : Parsed Parser.plain ⟨name "ax{0}(b|c{0})", ⟨false, false, false⟩, name "ASCII"⟩ NgFlat ∧
    Parsed Parser.plain ⟨name "ax{0}(b|c{0})", ⟨false, false, false⟩, name "ASCII"⟩ NoBlank := by
  obtain ⟨j, h⟩ := parsesTo_iff (env := Parser.plain) (r := ⟨name "ax{0}(b|c{0})", ⟨false, false, false⟩, name "ASCII"⟩)
    (t := .cat (.cat (.leaf (.lit 97)) (.rep false 0 0 (.leaf (.lit 120))))
      (.alt (.leaf (.lit 98)) (.rep false 0 0 (.leaf (.lit 99))))) (by decide +kernel)
  exact ⟨parsed_of h (by simp [NgFlat, Regex.NoNg]), parsed_of h (by simp [NoBlank, Regex.Blank])⟩

end Verif.Session
