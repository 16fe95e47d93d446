import Verif.Props.Lexer
import Verif.Props.Grammar
import Verif.Props.Utf
/-!
# C89: only well-formed UTF-8 is accepted as a pattern

A text that is accepted, as a fixed string or as a regular expression, is the UTF-8 of a
sequence of Unicode scalar values.
-/
namespace Verif.Malformed
open Verif.Parser Verif.Lexer
open Verif.Utf (Scalar spec8 Bytes)
open Verif.Regex (Tree)
open Verif.Encoders (Node)

/-! ## Specification -/

/-- The bytes are well-formed UTF-8. -/
def IsUtf8 (bytes : List UInt8) : Prop :=
  ∃ cs : List Nat, (∀ c ∈ cs, Scalar c) ∧ bytes.map UInt8.toNat = cs.flatMap spec8

/-- A character found by its name has a name of ASCII characters, closed by `}`: what
`prepareStringForICU` makes sure of, parseutil.h 138–155. -/
def NamesAscii (env : Env) : Prop :=
  ∀ t n r, env.byName t = (some n, r) → ∃ name, t = name ++ 125 :: r ∧ ∀ c ∈ name, 0 ≤ c ∧ c < 128

theorem plain_namesAscii : NamesAscii plain := fun t n r h => by simp [plain] at h

/-! ## What the grammar derives has no mistakes -/

theorem ccChar_fine {t : Tok} {c} (h : ccChar t = some c) : ¬ Mistake t := by
  rintro (rfl | rfl) <;> simp [ccChar] at h

theorem ccNotFirst_fine {t : Tok} {c} (h : ccNotFirst t = some c) : ¬ Mistake t := by
  rintro (rfl | rfl) <;> simp [ccNotFirst, ccChar] at h

theorem ccOf_fine {first} {t : Tok} {c} (h : ccOf first t = some c) : ¬ Mistake t := by
  rintro (rfl | rfl) <;> cases first <;> simp [ccOf, ccNotFirst, ccFirst, ccChar] at h

theorem setOp_fine {t : Tok} {s} (h : setOp t = some s) : ¬ Mistake t := by
  rintro (rfl | rfl) <;> simp [setOp] at h

theorem cc_fine {env o nt p c k} (h : CC env o nt p c k) : Fine p := by
  induction h with
  | named h hv => simp [fine_cons, fine_nil, h, Mistake]
  | pos ha hb h hc ih => simp [fine_cons, fine_append, fine_nil, ha, hb, ih, Mistake]
  | neg ha hx hb h hc ih => simp [fine_cons, fine_append, fine_nil, ha, hx, hb, ih, Mistake]
  | start h ih => exact ih
  | union h h' hop hc ih ih' => exact fine_append.2 ⟨ih, ih'⟩
  | binary h hx h' hc ih ih' => exact fine_append.2 ⟨ih, fine_cons.2 ⟨setOp_fine hx, ih'⟩⟩
  | range hx hy hz hab =>
    have := ccOf_fine hx; have := ccNotFirst_fine hz
    simp_all [fine_cons, fine_nil, Mistake]
  | charThenClass hx hy h ih =>
    have := ccOf_fine hx
    simp_all [fine_cons, fine_nil, Mistake]
  | byteRange hx hy hz hab hs => simp [fine_cons, fine_nil, hx, hy, hz, Mistake]
  | byteThenClass hx hy h ih => simp [fine_cons, fine_nil, hx, hy, ih, Mistake]
  | nested h ih => exact ih
  | char hx =>
    have := ccOf_fine hx
    simp [fine_cons, fine_nil, this]
  | hyphen hx => simp [fine_cons, fine_nil, hx, Mistake]
  | byte hx => simp [fine_cons, fine_nil, hx, Mistake]

theorem re_fine {env nt o p t o' k} (h : Re env nt o p t o' k) : Fine p := by
  induction h with
  | concat h ih => exact ih
  | alt h hx h' ih ih' => simp [fine_cons, fine_append, hx, ih, ih', Mistake]
  | switchAlt h h' ih => exact fine_append.2 ⟨switch_fine h, ih⟩
  | rep h ih => exact ih
  | cat h h' hb ih ih' => exact fine_append.2 ⟨ih, ih'⟩
  | kill h hx ih => simp [fine_cons, fine_append, fine_nil, hx, ih, Mistake]
  | catSwitch h h' ih => exact fine_append.2 ⟨ih, switch_fine h'⟩
  | atom h ih => exact ih
  | quant h h' ih => exact fine_append.2 ⟨ih, quant_fine h'⟩
  | group ha h hc ih => simp [fine_cons, fine_append, fine_nil, ha, hc, ih, Mistake]
  | behindPos ha hx hy hz h hc ih => simp [fine_cons, fine_append, fine_nil, ha, hx, hy, hz, hc, ih, Mistake]
  | behindNeg ha hx hy hz h hc ih => simp [fine_cons, fine_append, fine_nil, ha, hx, hy, hz, hc, ih, Mistake]
  | aheadPos ha hx hy h hc ih => simp [fine_cons, fine_append, fine_nil, ha, hx, hy, hc, ih, Mistake]
  | aheadNeg ha hx hy h hc ih => simp [fine_cons, fine_append, fine_nil, ha, hx, hy, hc, ih, Mistake]
  | @simple x o t k h =>
    have : ¬ Mistake x.tok := by
      rintro (e | e) <;> rw [e] at h <;> simp [simpleAtom, character] at h
    simp [fine_cons, fine_nil, this]
  | cls h => exact cc_fine h

/-! ## Texts made of good tokens are readable -/

theorem forall2_readable {P : Int → Nat → Prop} (hP : ∀ c d, P c d → 0 ≤ c) {cs : List Int} {ds : List Nat}
    (h : List.Forall₂ P cs ds) : ∀ c ∈ cs, 0 ≤ c := by
  induction h with
  | nil => simp
  | cons h _ ih =>
    intro c hc
    rcases List.mem_cons.1 hc with rfl | hc
    · exact hP _ _ h
    · exact ih c hc

theorem hexDigit_pos (c : Int) (d : Nat) (h : ParseUtil.HexDigit c d) : 0 ≤ c := by
  have := hexDigit_range h; omega

theorem octDigit_pos (c : Int) (d : Nat) (h : ParseUtil.OctDigit c d) : 0 ≤ c := by
  unfold ParseUtil.OctDigit at h; omega

theorem number_readable {t : List Int} {k : ParseUtil.Tok} {r : List Int} (h : ParseUtil.Escape t k r)
    (hr : ∀ c ∈ r, 0 ≤ c) : ∀ c ∈ t, 0 ≤ c := by
  cases h with
  | hex h1 h2 =>
    have := hexDigit_pos _ _ h1; have := hexDigit_pos _ _ h2
    simp only [List.mem_cons, forall_eq_or_imp]; exact ⟨by omega, by omega, by omega, hr⟩
  | hexBrace h1 =>
    have := forall2_readable hexDigit_pos h1
    simp only [List.mem_cons, List.mem_append, forall_eq_or_imp]
    refine ⟨by omega, by omega, fun c hc => ?_⟩
    rcases hc with hc | rfl | hc
    · exact this c hc
    · omega
    · exact hr c hc
  | byte h1 h2 =>
    have := hexDigit_pos _ _ h1; have := hexDigit_pos _ _ h2
    simp only [List.mem_cons, forall_eq_or_imp]; exact ⟨by omega, by omega, by omega, hr⟩
  | oct h1 =>
    have := forall2_readable octDigit_pos h1
    intro c hc
    exact (List.mem_append.1 hc).elim (this c) (hr c)
  | named h1 =>
    have := forall2_readable hexDigit_pos h1
    simp only [List.mem_cons, List.mem_append, forall_eq_or_imp]
    refine ⟨by omega, by omega, by omega, by omega, fun c hc => ?_⟩
    rcases hc with hc | rfl | hc
    · exact this c hc
    · omega
    · exact hr c hc

theorem escapes_readable {env : Env} (hn : NamesAscii env) {t : List Int} {tok : Tok} {r : List Int}
    (h : Escapes env t tok r) (hr : ∀ c ∈ r, 0 ≤ c) : ∀ c ∈ t, 0 ≤ c := by
  cases h with
  | one h =>
    intro c hc
    rcases List.mem_cons.1 hc with rfl | hc
    · cases h with
      | itself h => simp only [List.mem_cons, List.not_mem_nil, or_false] at h; omega
      | _ => omega
    · exact hr c hc
  | number h => exact number_readable h hr
  | byte h => exact number_readable h hr
  | name h h' =>
    obtain ⟨name, rfl, ha⟩ := hn _ _ _ h'
    simp only [List.mem_cons, List.mem_append, forall_eq_or_imp]
    refine ⟨by omega, by omega, fun c hc => ?_⟩
    rcases hc with hc | rfl | hc
    · exact (ha c hc).1
    · omega
    · exact hr c hc
  | prop hc' h1 h2 h3 =>
    simp only [List.mem_cons, List.mem_append, forall_eq_or_imp]
    refine ⟨by omega, by omega, fun c hc => ?_⟩
    rcases hc with hc | rfl | hc
    · exact (h2 c hc).1
    · omega
    · exact hr c hc

theorem begins_readable {env : Env} (hn : NamesAscii env) {t : List Int} {tok : Tok} {r : List Int}
    (h : Begins env t tok r) (hr : ∀ c ∈ r, 0 ≤ c) : ∀ c ∈ t, 0 ≤ c := by
  cases h with
  | symbol h =>
    simp only [List.mem_cons, List.not_mem_nil, or_false] at h
    simp only [List.mem_cons, forall_eq_or_imp]
    exact ⟨by omega, hr⟩
  | escape h =>
    simp only [List.mem_cons, forall_eq_or_imp]
    exact ⟨by omega, escapes_readable hn h hr⟩
  | amps => simpa using hr
  | tildes => simpa using hr
  | hyphens => simpa using hr
  | amp => simpa using hr
  | tilde => simpa using hr
  | lastHyphen => simpa using hr
  | hyphen => simpa using hr
  | digit h => simp only [List.mem_cons, forall_eq_or_imp]; exact ⟨by omega, hr⟩
  | char h => simp only [List.mem_cons, forall_eq_or_imp]; exact ⟨by omega, hr⟩

theorem made_readable {env : Env} (hn : NamesAscii env) {text : List Int} {toks : List Tok}
    (h : MadeOf env text toks) : ∀ c ∈ text, 0 ≤ c := by
  induction h with
  | nil => simp
  | cons h _ ih => exact begins_readable hn h ih

/-- A text of code points that is accepted contains no mark of malformed UTF-8. -/
theorem accepted_readable {env : Env} (hs : env.Shortens) (hn : NamesAscii env) {p : PatternOpts} {text : List Int}
    {r : Tree Node × Nat} (h : parse env p text = .ok r) : ∀ c ∈ text, 0 ≤ c := by
  obtain ⟨t, k⟩ := r
  obtain ⟨b, o', j, hd, -⟩ := (parse_iff_derives _ _ _ _ _).1 h
  have hf := re_fine hd
  cases hp : p.fixed with
  | false =>
    refine made_readable hn ((tokens_iff hs hp).2 ⟨rfl, ?_⟩)
    intro k hk
    obtain ⟨x, hx, rfl⟩ := List.mem_map.1 hk
    exact hf x hx
  | true =>
    rw [hp] at hf
    intro c hc
    have := (lex_plainly env text.length text.length text (Nat.le_refl _)).1.1 hf c hc
    omega

/-! ## Decoding -/

theorem contU_cont {buf : List Nat} {i cp used : Nat} {k : Nat → Utf.DecU} {k' : Nat → Utf.Dec} {c u : Nat}
    (hk : ∀ x, k x = .ret (some c) u → k' x = .ok c u) (h : Utf.contU buf i cp used k = .ret (some c) u) :
    Utf.cont buf i cp k' = .ok c u := by
  unfold Utf.contU at h
  unfold Utf.cont Utf.rd
  split at h
  · cases h
  · next hi =>
    rw [if_neg hi]
    cases hb : buf[i]? with
    | none => rw [hb] at h; cases h
    | some x =>
      rw [hb] at h
      dsimp only at h ⊢
      split at h
      · cases h
      · next hx => rw [if_neg hx]; exact hk _ h

theorem unicode_cp {buf : List Nat} {c u : Nat} (h : Utf.utf8ToUnicode buf = .ret (some c) u) :
    Utf.utf8ToCp buf = .ok c u := by
  unfold Utf.utf8ToUnicode at h
  unfold Utf.utf8ToCp Utf.rd
  split at h
  · cases h
  · next hl =>
    rw [if_neg hl]
    cases hb : buf[0]? with
    | none => rw [hb] at h; cases h
    | some x =>
      rw [hb] at h
      dsimp only at h ⊢
      split at h
      · next h1 => rw [if_pos h1]; cases h; rfl
      next h1 =>
      rw [if_neg h1]
      split at h
      · next h2 =>
        rw [if_pos h2]
        split at h
        · cases h
        · next h3 =>
          rw [if_neg h3]
          exact contU_cont (fun y hy => by cases hy; rfl) h
      next h2 =>
      rw [if_neg h2]
      split at h
      · next h3 =>
        rw [if_pos h3]
        refine contU_cont (fun y hy => contU_cont (fun z hz => ?_) hy) h
        split at hz
        · cases hz
        · next h4 => rw [if_neg h4]; cases hz; rfl
      next h3 =>
      rw [if_neg h3]
      split at h
      · next h4 =>
        rw [if_pos h4]
        refine contU_cont (fun y hy => contU_cont (fun z hz => contU_cont (fun w hw => ?_) hz) hy) h
        split at hw
        · cases hw
        · next h5 => rw [if_neg h5]; cases hw; rfl
      · cases h

theorem transform_utf8 : ∀ (n : Nat) (bs : List Nat), Bytes bs → ∀ cs : List (Option Nat),
    Utf.transformUtf8 n bs = some cs → (∀ c ∈ cs, c ≠ none) →
    ∃ ds : List Nat, (∀ d ∈ ds, Scalar d) ∧ cs = ds.map some ∧ bs = ds.flatMap spec8
  | 0, _, _, _, h, _ => by cases h
  | n + 1, bs, hb, cs, h, hc => by
    rw [Utf.transformUtf8] at h
    split at h
    · next hl =>
      simp only [Option.some.injEq] at h
      subst h
      exact ⟨[], by simp, rfl, by simpa using List.length_eq_zero_iff.1 hl⟩
    · split at h
      · cases h
      · next r u hu =>
        split at h
        · cases h
        · obtain ⟨cs', hcs, rfl⟩ := Option.map_eq_some_iff.1 h
          cases r with
          | none => exact absurd rfl (hc none (by simp))
          | some c =>
            rcases Utf.utf8ToCp_sound bs hb with hf | ⟨c', m, hm, hsc, hle, ht⟩
            · rw [unicode_cp hu] at hf; cases hf
            · rw [unicode_cp hu] at hm
              cases hm
              obtain ⟨ds, h1, rfl, h3⟩ := transform_utf8 n _ (fun b hm => hb b (List.mem_of_mem_drop hm)) cs' hcs
                (fun x hx => hc x (by simp [hx]))
              refine ⟨c :: ds, ?_, rfl, ?_⟩
              · intro d hd
                rcases List.mem_cons.1 hd with rfl | hd
                · exact hsc
                · exact h1 d hd
              · rw [List.flatMap_cons, ← h3, ← ht, List.take_append_drop]

/-- **C89** A pattern is accepted only if its text is well-formed UTF-8, and what is parsed are
the code points that its bytes spell. -/
theorem accepted_wellformed {env : Env} (hs : env.Shortens) (hn : NamesAscii env) {p : PatternOpts}
    {expr : List UInt8} {r : Tree Node × Nat} (h : Text.parseText env p expr = .ok r) :
    ∃ cs : List Nat, (∀ c ∈ cs, Scalar c) ∧ expr.map UInt8.toNat = cs.flatMap spec8 ∧
      parse env p (cs.map fun c : Nat => (c : Int)) = .ok r := by
  unfold Text.parseText at h
  split at h
  · cases h
  · next cs hcs =>
    have hr := accepted_readable hs hn h
    obtain ⟨ds, hd, rfl⟩ := Option.map_eq_some_iff.1 hcs
    obtain ⟨es, h1, rfl, h3⟩ := transform_utf8 _ _ (by
      intro b hb
      obtain ⟨u, -, rfl⟩ := List.mem_map.1 hb
      exact u.toNat_lt) ds hd (by
        rintro c hc rfl
        have := hr (-1) (List.mem_map.2 ⟨none, hc, rfl⟩)
        omega)
    refine ⟨es, h1, h3, ?_⟩
    rw [List.map_map] at h
    exact h

/-- **C89** Whatever is not well-formed UTF-8 is refused, or (a text that stops in the middle of a
character) read past its end. -/
theorem malformed_refused {env : Env} (hs : env.Shortens) (hn : NamesAscii env) (p : PatternOpts)
    {expr : List UInt8} (hm : ¬ IsUtf8 expr) : ∃ e, Text.parseText env p expr = .error e := by
  cases h : Text.parseText env p expr with
  | error e => exact ⟨e, rfl⟩
  | ok r =>
    obtain ⟨cs, h1, h2, -⟩ := accepted_wellformed hs hn h
    exact absurd ⟨cs, h1, h2⟩ hm

/-- A lone continuation byte is refused, and reported as an invalid escape. -/
example : ∃ b e, Text.parseText plain ⟨true, false, false⟩ [97, 0x80, 98] = .error (.report .invalidEscape b e) :=
  ⟨_, _, rfl⟩

end Verif.Malformed
