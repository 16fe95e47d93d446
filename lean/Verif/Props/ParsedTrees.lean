import Verif.Props.Grammar
import Verif.Props.ParseUtil
import Verif.Props.Leaves
/-!
# What the trees the parser makes are like

Bounds of repetitions, well-formed character classes, and the number of nodes, by induction
over the grammar's derivations.
-/
namespace Verif.Parser

open Verif.Regex (Tree UNB AllLeaves)
open Verif.Encoders (Node)
open Verif.RangeSet (WF)

/-! ## Tokens and environments -/

/-- The values tokens can have. -/
def Tok.Ok : Tok → Prop
  | .char c => c < 0x110000
  | .digit c => 48 ≤ c ∧ c ≤ 57
  | .byte b => b < 256
  | .sym c => c < 128
  | _ => True

/-- What the parser gets from outside is well formed: names give code points, named classes
and case folding give sets of code points. -/
structure Env.Sound (env : Env) : Prop where
  rest : ∀ t, (env.byName t).2 <:+ t
  byName : ∀ t c r, env.byName t = (some c, r) → c < 0x110000
  named : ∀ a i n v, env.named a i n = some v → WF 0x110000 v
  fold : ∀ a s v b, WF 0x110000 s → env.fold a s = some (v, b) → WF 0x110000 v

theorem signed_wf {neg : Bool} {s v : RangeSet.Vec} (h : WF 0x110000 s) (hv : signed neg s = some v) :
    WF 0x110000 v := by
  unfold signed at hv
  cases neg with
  | false => simp only [Bool.false_eq_true, if_false, Option.some.injEq] at hv; subst hv; exact h
  | true =>
    obtain ⟨n, e, w, -⟩ := RangeSet.flip_spec (N := 0x110000) (by omega) h
    simp only [if_true] at hv
    rw [e] at hv; cases hv; exact w

theorem plain_sound : plain.Sound := by
  refine ⟨fun t => List.suffix_refl t, fun t c r h => by simp [plain] at h, fun a i n v h => ?_, fun a s v b hs h => ?_⟩
  · cases n with
    | digit neg => exact signed_wf (ParseUtil.build_spec _ (by simp [ParseUtil.cps])).1 h
    | space neg =>
      refine signed_wf ?_ h
      cases a with
      | true => exact (ParseUtil.build_spec _ (by simp [ParseUtil.cps])).1
      | false => exact (ParseUtil.build_spec _ (by simp [ParseUtil.cps, ParseUtil.hSpaceRanges, ParseUtil.vSpaceRanges])).1
    | hspace neg => exact signed_wf (ParseUtil.build_spec _ (by simp [ParseUtil.cps, ParseUtil.hSpaceRanges])).1 h
    | vspace neg => exact signed_wf (ParseUtil.build_spec _ (by simp [ParseUtil.cps, ParseUtil.vSpaceRanges])).1 h
    | word neg => exact signed_wf (ParseUtil.build_spec _ (by simp [ParseUtil.cps])).1 h
    | prop t => simp [plain] at h
  · obtain ⟨us', added, e, w, -⟩ := ParseUtil.case_folding s hs
    have h : ParseUtil.caseDesensitizeAscii none s = some (v, b) := h
    rw [e] at h; cases h; exact w

/-! ## Classes -/

theorem ccChar_lt {t : Tok} {c : Nat} (ht : t.Ok) (h : ccChar t = some c) : c < 0x110000 := by
  cases t <;> simp only [ccChar, Option.some.injEq, reduceCtorEq] at h
  · subst h; exact ht
  · subst h; unfold Tok.Ok at ht; omega
  · split at h
    · cases h; unfold Tok.Ok at ht; omega
    · cases h
  · omega

theorem ccOf_lt {first : Bool} {t : Tok} {c : Nat} (ht : t.Ok) (h : ccOf first t = some c) : c < 0x110000 := by
  unfold ccOf at h
  split at h
  · unfold ccFirst at h
    split at h
    · cases h; omega
    · cases h; omega
    · exact ccChar_lt ht h
  · unfold ccNotFirst at h
    split at h
    · cases h; omega
    · exact ccChar_lt ht h

theorem nil_wf : WF 0x110000 ([] : RangeSet.Vec) := ⟨by simp, by simp, by simp⟩

theorem chars_wf {a b : Nat} (h : a ≤ b) (hb : b ≤ 0x110000) : WF 0x110000 (chars a b).cps :=
  RangeSet.insert_wf nil_wf h hb

theorem combine_wf {op : SetOp} {a b c : Cls} (ha : WF 0x110000 a.cps) (hb : WF 0x110000 b.cps)
    (h : Cls.combine op a b = some c) : WF 0x110000 c.cps := by
  cases op with
  | union =>
    obtain ⟨v, e, w, -⟩ := RangeSet.union_spec ha hb
    simp only [Cls.combine, e, Option.bind_eq_bind, Option.bind_some, Option.some.injEq] at h
    subst h; exact w
  | inter =>
    obtain ⟨v, e, w, -⟩ := RangeSet.inter_spec (by omega) ha hb
    simp only [Cls.combine, e, Option.bind_eq_bind, Option.bind_some, Option.some.injEq] at h
    subst h; exact w
  | minus =>
    obtain ⟨v, e, w, -⟩ := RangeSet.diff_spec (by omega) ha hb
    simp only [Cls.combine, e, Option.bind_eq_bind, Option.bind_some, Option.some.injEq] at h
    subst h; exact w
  | xor =>
    obtain ⟨v, e, w, -⟩ := RangeSet.symm_spec (by omega) ha hb
    simp only [Cls.combine, e, Option.bind_eq_bind, Option.bind_some, Option.some.injEq] at h
    subst h; exact w

theorem foldCls_wf {env : Env} (he : env.Sound) {o : Opts} {c c' : Cls} (hc : WF 0x110000 c.cps)
    (h : foldCls env o c = .ok c') : WF 0x110000 c'.cps := by
  unfold foldCls at h
  split at h
  · cases h; exact hc
  · split at h
    · next r hr => cases h; exact he.fold _ _ r.1 r.2 hc hr
    · cases h

theorem closePos_wf {env : Env} (he : env.Sound) {o : Opts} {b e : Nat} {c c' : Cls} (hc : WF 0x110000 c.cps)
    (h : closePos env o b e c = .ok c') : WF 0x110000 c'.cps := by
  unfold closePos at h
  cases hf : foldCls env o c with
  | error x => rw [hf] at h; cases h
  | ok x =>
    rw [hf] at h
    simp only [bind, Except.bind] at h
    split at h
    · cases h
    · cases h; exact foldCls_wf he hc hf

theorem closeNeg_wf {env : Env} (he : env.Sound) {o : Opts} {b e : Nat} {c c' : Cls} (hc : WF 0x110000 c.cps)
    (h : closeNeg env o b e c = .ok c') : WF 0x110000 c'.cps := by
  unfold closeNeg at h
  split at h
  · cases hf : foldCls env o c with
    | error x => rw [hf] at h; cases h
    | ok x =>
      obtain ⟨v, ev, w, -⟩ := RangeSet.flip_spec (N := 0x110000) (by omega) (foldCls_wf he hc hf)
      rw [hf] at h
      simp only [bind, Except.bind, ev, orUb] at h
      split at h
      · cases h
      · cases h; exact w
  · split at h
    · split at h
      · cases h
      · cases h; exact hc
    · obtain ⟨v, ev, w, -⟩ := RangeSet.flip_spec (N := 0x110000) (by omega) hc
      simp only [bind, Except.bind, ev, orUb] at h
      cases h; exact w

/-- Every class is a set of code points. -/
theorem cc_wf {env : Env} (he : env.Sound) {o : Opts} {nt : CNT} {p : List LTok} {c : Cls} {k : Nat}
    (h : CC env o nt p c k) (hp : ∀ x ∈ p, x.tok.Ok) : WF 0x110000 c.cps := by
  induction h with
  | named h hv => exact he.named _ _ _ _ hv
  | pos ha hb h hc ih => exact closePos_wf he (ih fun x hx => hp x (by simp [hx])) hc
  | neg ha hx hb h hc ih => exact closeNeg_wf he (ih fun x hx => hp x (by simp [hx])) hc
  | start h ih => exact ih hp
  | union h h' hop hc ih ih' =>
    exact combine_wf (ih fun x hx => hp x (by simp [hx])) (ih' fun x hx => hp x (by simp [hx])) hc
  | binary h hx h' hc ih ih' =>
    exact combine_wf (ih fun x hx => hp x (by simp [hx])) (ih' fun x hx => hp x (by simp [hx])) hc
  | range hx hy hz hab =>
    have := ccOf_lt (first := false) (hp _ (by simp)) hz
    exact chars_wf (by omega) (by omega)
  | charThenClass hx hy h ih =>
    have := ccOf_lt (hp _ (by simp)) hx
    dsimp only
    refine RangeSet.insert_wf (RangeSet.insert_wf (ih fun x hx => hp x (by simp [hx])) ?_ ?_) ?_ ?_ <;> omega
  | byteRange hx hy hz hab hs => exact nil_wf
  | byteThenClass hx hy h ih =>
    dsimp only
    refine RangeSet.insert_wf (ih fun x hx => hp x (by simp [hx])) ?_ ?_ <;> omega
  | nested h ih => exact ih hp
  | char hx =>
    have := ccOf_lt (hp _ (by simp)) hx
    exact chars_wf (by omega) (by omega)
  | hyphen hx => exact chars_wf (by omega) (by omega)
  | byte hx => exact nil_wf

/-! ## Trees -/

theorem number_lt {p : List LTok} {v : Nat} (h : Number p v) (hp : ∀ x ∈ p, x.tok.Ok) : v < 2 ^ 31 := by
  cases h with
  | one hx =>
    next x =>
    have := hp x (by simp)
    cases hx' : x.tok <;> rw [hx'] at hx this <;> simp only [digitTok, Option.some.injEq, reduceCtorEq] at hx
    unfold Tok.Ok at this
    omega
  | more h hx hv => exact hv

theorem quant_ok {q : List LTok} {ng : Bool} {lo hi j : Nat} (h : Quant q ng lo hi j) (hp : ∀ x ∈ q, x.tok.Ok) :
    lo ≤ hi ∧ hi ≤ UNB ∧ lo < UNB := by
  cases h with
  | star => simp [UNB]
  | plus => simp [UNB]
  | opt => simp [UNB]
  | exact hx hn hy h =>
    have := number_lt hn fun x hx => hp x (by simp [hx])
    unfold UNB; omega
  | atLeast hx hn hy hz h =>
    have := number_lt hn fun x hx => hp x (by simp [hx])
    unfold UNB; omega
  | between hx hn hy hr hz hnm h =>
    have := number_lt hr fun x hx => hp x (by simp [hx])
    unfold UNB; omega

theorem literal_node {env : Env} (he : env.Sound) {o : Opts} {c : Nat} {a : Node} (hc : c < 0x110000)
    (h : literal env o c = .ok a) : a.Ok := by
  unfold literal at h
  split at h
  · cases h; trivial
  · split at h
    · next s hs => cases h; exact he.fold _ _ _ _ (RangeSet.insert_wf nil_wf (by omega) (by omega)) hs
    · cases h; trivial
    · cases h

theorem wordSet_wf : WF 0x110000 wordSet := (ParseUtil.build_spec _ (by simp [ParseUtil.cps])).1

theorem lineBreaks_wf : WF 0x110000 lineBreaks := (ParseUtil.build_spec _ (by simp [ParseUtil.cps])).1

theorem character_lt {t : Tok} {c : Nat} (ht : t.Ok) (h : character t = some c) : c < 0x110000 := by
  cases t <;> simp only [character, Option.some.injEq, reduceCtorEq] at h
  · subst h; exact ht
  · subst h; unfold Tok.Ok at ht; omega
  · split at h
    · cases h; unfold Tok.Ok at ht; omega
    · cases h

/-- The atoms that are one token have well-formed leaves and no repetitions. -/
theorem simple_ok {env : Env} (he : env.Sound) {o : Opts} {x : Tok} (hx : x.Ok) {t : Tree Node} {k : Nat}
    (h : simpleAtom env o x = some (.ok (t, k))) : Regex.Ok t ∧ AllLeaves Node.Ok t := by
  have flip : ∃ W, RangeSet.flip 0x110000 wordSet = some W ∧ WF 0x110000 W := by
    obtain ⟨W, e, w, -⟩ := RangeSet.flip_spec (N := 0x110000) (by omega) wordSet_wf
    exact ⟨W, e, w⟩
  obtain ⟨W, eW, wW⟩ := flip
  unfold simpleAtom at h
  split at h
  · simp only [eW, orUb, bind, Except.bind, Option.some.injEq, Except.ok.injEq, Prod.mk.injEq] at h
    obtain ⟨rfl, rfl⟩ := h
    exact ⟨by simp [wordBoundary, Regex.Ok, setTree], ⟨wordSet_wf, wW⟩, wW, wordSet_wf⟩
  · simp only [eW, orUb, bind, Except.bind, Option.some.injEq, Except.ok.injEq, Prod.mk.injEq] at h
    obtain ⟨rfl, rfl⟩ := h
    exact ⟨by simp [notWordBoundary, Regex.Ok, setTree], ⟨wordSet_wf, wordSet_wf⟩, wW, wW⟩
  · cases h; exact ⟨trivial, trivial⟩
  · cases h; exact ⟨trivial, trivial⟩
  · cases h; exact ⟨trivial, lineBreaks_wf⟩
  · cases h; exact ⟨trivial, lineBreaks_wf⟩
  · cases h; exact ⟨trivial, trivial⟩
  · cases h; exact ⟨trivial, trivial⟩
  · cases h; exact ⟨⟨trivial, trivial⟩, trivial, trivial⟩
  · cases h; exact ⟨⟨trivial, trivial⟩, trivial, trivial⟩
  · cases h; exact ⟨⟨trivial, trivial⟩, trivial, trivial⟩
  · split at h
    · next c hc =>
      cases hl : literal env o c with
      | error e => rw [hl] at h; simp [bind, Except.bind] at h
      | ok a =>
        rw [hl] at h
        simp only [bind, Except.bind, Option.some.injEq, Except.ok.injEq, Prod.mk.injEq] at h
        obtain ⟨rfl, rfl⟩ := h
        exact ⟨trivial, literal_node he (character_lt hx hc) hl⟩
    · cases h

/-- The bounds of repetitions are in order, and every class is a set of code points. -/
theorem re_ok {env : Env} (he : env.Sound) {nt : NT} {o : Opts} {p : List LTok} {t : Tree Node} {o' : Opts} {k : Nat}
    (h : Re env nt o p t o' k) (hp : ∀ x ∈ p, x.tok.Ok) : Regex.Ok t ∧ AllLeaves Node.Ok t := by
  induction h with
  | concat h ih => exact ih hp
  | alt h hx h' ih ih' =>
    have a := ih fun x hx => hp x (by simp [hx])
    have b := ih' fun x hx => hp x (by simp [hx])
    exact ⟨⟨a.1, b.1⟩, a.2, b.2⟩
  | switchAlt h h' ih => exact ih fun x hx => hp x (by simp [hx])
  | rep h ih => exact ih hp
  | cat h h' hb ih ih' =>
    have a := ih fun x hx => hp x (by simp [hx])
    have b := ih' fun x hx => hp x (by simp [hx])
    exact ⟨⟨a.1, b.1⟩, a.2, b.2⟩
  | kill h hx ih => exact ih fun x hx => hp x (by simp [hx])
  | catSwitch h h' ih => exact ih fun x hx => hp x (by simp [hx])
  | atom h ih => exact ih hp
  | quant h h' ih =>
    have a := ih fun x hx => hp x (by simp [hx])
    have b := quant_ok h' fun x hx => hp x (by simp [hx])
    exact ⟨⟨b.1, b.2.1, b.2.2, a.1⟩, a.2⟩
  | group ha h hc ih => exact ih fun x hx => hp x (by simp [hx])
  | behindPos ha hx hy hz h hc ih => exact ih fun x hx => hp x (by simp [hx])
  | behindNeg ha hx hy hz h hc ih => exact ih fun x hx => hp x (by simp [hx])
  | aheadPos ha hx hy h hc ih => exact ih fun x hx => hp x (by simp [hx])
  | aheadNeg ha hx hy h hc ih => exact ih fun x hx => hp x (by simp [hx])
  | simple h => exact simple_ok he (hp _ (by simp)) h
  | cls h => exact ⟨trivial, cc_wf he h hp⟩

/-! ## The lexer -/

theorem hexByte_suffix : ∀ t : List Int, (ParseUtil.parseHexByte t).2 <:+ t
  | [] => by simp [ParseUtil.parseHexByte]
  | [c] => by
    cases hc : ParseUtil.parseHexChar c <;> simp [ParseUtil.parseHexByte, hc]
  | c :: d :: r => by
    cases hc : ParseUtil.parseHexChar c <;> cases hd : ParseUtil.parseHexChar d <;>
      simp only [ParseUtil.parseHexByte, hc, hd]
    · exact ⟨[c], rfl⟩
    · exact ⟨[c], rfl⟩
    · exact ⟨[c, d], rfl⟩
    · exact ⟨[c, d], rfl⟩

theorem hexLoop_suffix : ∀ (n v : Nat) (t : List Int), (ParseUtil.hexLoop n v t).2 <:+ t
  | 0, _, t => List.suffix_refl t
  | _ + 1, _, [] => List.suffix_refl _
  | n + 1, v, c :: t => by
    rw [ParseUtil.hexLoop]
    split
    · exact (hexLoop_suffix n _ t).trans (List.suffix_cons c t)
    · split
      · split <;> exact List.suffix_cons c t
      · exact List.suffix_cons c t

theorem hexCodePoint_suffix (t : List Int) : (ParseUtil.parseHexCodePoint t).2 <:+ t := by
  cases t with
  | nil => exact List.suffix_refl _
  | cons c t =>
    rw [ParseUtil.parseHexCodePoint]
    split
    · exact List.suffix_refl _
    · exact hexLoop_suffix _ _ _

theorem octLoop_suffix : ∀ (n v : Nat) (t : List Int), (ParseUtil.octLoop n v t).2 <:+ t
  | 0, _, t => List.suffix_refl t
  | _ + 1, _, [] => List.suffix_refl _
  | n + 1, v, c :: t => by
    rw [ParseUtil.octLoop]
    split
    · exact List.suffix_refl _
    · exact (octLoop_suffix n _ t).trans (List.suffix_cons c t)

/-- What a numeric escape gives. -/
def numOk : ParseUtil.Tok → Prop
  | .char n => n < 0x110000
  | .byte n => n < 256
  | .bad => True

theorem hexByte_lt {t : List Int} {n : Nat} {r : List Int} (h : ParseUtil.parseHexByte t = (some n, r)) : n < 256 := by
  obtain ⟨c, d, v, w, h1, h2, -, rfl⟩ := (ParseUtil.hexByte_spec t n r).1 h
  have := ParseUtil.hexDigit_lt h1
  have := ParseUtil.hexDigit_lt h2
  simp [ParseUtil.value]
  omega

theorem hexCodePoint_lt {t : List Int} {n : Nat} {r : List Int} (h : ParseUtil.parseHexCodePoint t = (some n, r)) :
    n < 0x110000 := by
  obtain ⟨cs, ds, -, -, -, -, -, h⟩ := (ParseUtil.hexCodePoint_spec t n r).1 h
  omega

theorem singleton_char_ok {r : Option Nat × List Int} (h : ∀ n, r.1 = some n → n < 0x110000) :
    numOk (ParseUtil.consumeSingleton r .char).1 := by
  unfold ParseUtil.consumeSingleton
  split
  · trivial
  · next v hv => exact h v hv

theorem singleton_rest (r : Option Nat × List Int) (f : Nat → ParseUtil.Tok) :
    (ParseUtil.consumeSingleton r f).2 = r.2 := by
  unfold ParseUtil.consumeSingleton; split <;> rfl

theorem numeric_ok {env : Env} (he : env.Sound) {t : List Int} {k : ParseUtil.Tok} {r : List Int}
    (h : ParseUtil.consumeNumeric env.byName t = some (k, r)) : numOk k ∧ r <:+ t := by
  have fin : ∀ {q : Option Nat × List Int} {f : Nat → ParseUtil.Tok}, some (ParseUtil.consumeSingleton q f) = some (k, r) →
      numOk (ParseUtil.consumeSingleton q f).1 → q.2 <:+ t → numOk k ∧ r <:+ t := by
    intro q f e h1 h2
    have e := Option.some.inj e
    refine ⟨by rw [e] at h1; exact h1, ?_⟩
    rw [← singleton_rest q f, e] at h2; exact h2
  cases t with
  | nil => cases h
  | cons c t =>
    unfold ParseUtil.consumeNumeric at h
    simp only at h
    split at h
    · split at h
      · cases h; exact ⟨trivial, by simp⟩
      · next d u =>
        split at h
        · exact fin h (singleton_char_ok fun n hn => hexCodePoint_lt (r := (ParseUtil.parseHexCodePoint u).2) (by rw [← hn]))
            ((hexCodePoint_suffix u).trans ⟨[c, d], rfl⟩)
        · exact fin h (singleton_char_ok fun n hn => Nat.lt_trans (hexByte_lt (r := (ParseUtil.parseHexByte (d :: u)).2) (by rw [← hn])) (by omega))
            ((hexByte_suffix _).trans ⟨[c], rfl⟩)
    · split at h
      · refine fin h ?_ ((hexByte_suffix t).trans ⟨[c], rfl⟩)
        unfold ParseUtil.consumeSingleton
        split
        · trivial
        · next v hv => exact hexByte_lt (r := (ParseUtil.parseHexByte t).2) (by rw [← hv])
      · split at h
        · refine fin h (singleton_char_ok fun n hn => ?_) (octLoop_suffix _ _ _)
          simp only [ParseUtil.parseOctByte] at hn
          split at hn
          · cases hn
          · cases hn; omega
        · split at h
          · refine fin h (singleton_char_ok fun n hn => ?_) ?_
            · cases t with
              | nil => simp [ParseUtil.parseNamedCodePoint] at hn
              | cons d t =>
                simp only [ParseUtil.parseNamedCodePoint] at hn
                split at hn
                · cases hn
                · split at hn
                  · next u => exact hexCodePoint_lt (r := (ParseUtil.parseHexCodePoint u).2) (by rw [← hn])
                  · next u _ => exact he.byName t n (env.byName t).2 (by rw [← hn])
            · cases t with
              | nil => simp [ParseUtil.parseNamedCodePoint]
              | cons d t =>
                simp only [ParseUtil.parseNamedCodePoint]
                split
                · exact ⟨[c, d], rfl⟩
                · split
                  · next u => exact (hexCodePoint_suffix u).trans ⟨[c, d, 85, 43], rfl⟩
                  · exact (he.rest t).trans ⟨[c, d], rfl⟩
          · cases h

theorem property_suffix {env : Env} {c : Int} {t : List Int} : (property env c t).2 <:+ t := by
  unfold property
  split
  · simp
  · split
    · exact List.suffix_refl _
    · split
      · simp only
        split <;> exact List.drop_suffix _ _
      · simp

/-- What part of the text a token can stand for. -/
def Fits (chunk : List Int) : Tok → Prop
  | .sym c => chunk = [(c : Int)] ∧ c < 128
  | .digit c => 48 ≤ c ∧ c ≤ 57
  | .char c => c < 0x110000
  | .byte b => b < 256
  | .word => chunk = [92, 98]
  | .notWord => chunk = [92, 66]
  | .hyphens => 2 ≤ chunk.length
  | .amps => 2 ≤ chunk.length
  | .tildes => 2 ≤ chunk.length
  | .textStart => 2 ≤ chunk.length
  | .textEnd => 2 ≤ chunk.length
  | _ => True

theorem Fits.ok {chunk : List Int} {t : Tok} (h : Fits chunk t) : t.Ok := by
  cases t <;> first | exact h.2 | exact h | trivial

/-- The tokens of a text, each with its part of it. -/
inductive Lexed : List Int → List LTok → Prop
  | nil : Lexed [] []
  | cons {chunk rest x ts} (hne : chunk ≠ []) (h : Fits chunk x.tok) (h' : Lexed rest ts) :
      Lexed (chunk ++ rest) (x :: ts)

theorem escape_fits {env : Env} (he : env.Sound) (t : List Int) (ht : ∀ c ∈ t, c < 0x110000) :
    ∃ chunk, 92 :: t = (92 :: chunk) ++ (escape env t).2 ∧ Fits (92 :: chunk) (escape env t).1 := by
  have key : ∀ {r : List Int} {k : Tok}, r <:+ t → (∀ chunk, 92 :: t = (92 :: chunk) ++ r → Fits (92 :: chunk) k) →
      ∃ chunk, 92 :: t = (92 :: chunk) ++ r ∧ Fits (92 :: chunk) k := by
    rintro r k ⟨chunk, rfl⟩ h
    exact ⟨chunk, rfl, h chunk rfl⟩
  cases t with
  | nil => exact ⟨[], by simp [escape], by simp [escape, Fits]⟩
  | cons c t =>
    have hc := ht c (by simp)
    rw [escape]
    split
    · next hm =>
      refine key ⟨[c], rfl⟩ fun _ _ => ?_
      show c.toNat < 0x110000
      omega
    · split
      · next v hv =>
        refine key ⟨[c], rfl⟩ fun _ _ => ?_
        show v < 0x110000
        unfold asciiEscape at hv
        split at hv
        · cases hv; omega
        split at hv
        · cases hv; omega
        split at hv
        · cases hv; omega
        split at hv
        · cases hv; omega
        split at hv
        · cases hv; omega
        split at hv
        · cases hv; omega
        · cases hv
      · split
        · exact key ⟨[c], rfl⟩ fun _ _ => trivial
        · split
          · rename_i n r hn
            exact key (numeric_ok he hn).2 fun _ _ => (numeric_ok he hn).1
          · rename_i n r hn
            exact key (numeric_ok he hn).2 fun _ _ => (numeric_ok he hn).1
          · rename_i r hn
            exact key (numeric_ok he hn).2 fun _ _ => trivial
          · split
            · refine key (property_suffix.trans ⟨[c], rfl⟩) fun _ _ => ?_
              unfold property
              split
              · trivial
              · split
                · trivial
                · split
                  · simp only
                    split
                    · split <;> trivial
                    · trivial
                  · trivial
            · split
              · next k hk =>
                refine key ⟨[c], rfl⟩ fun chunk hch => ?_
                have hch : chunk = [c] := by
                  simp only [List.cons_append, List.cons.injEq, true_and] at hch
                  have : chunk ++ t = [c] ++ t := hch.symm
                  exact List.append_cancel_right this
                subst hch
                unfold assertEscape at hk
                split at hk
                · cases hk; simp [Fits]
                split at hk
                · next h => cases hk; subst h; rfl
                split at hk
                · cases hk; trivial
                split at hk
                · cases hk; simp [Fits]
                split at hk
                · next h => cases hk; subst h; rfl
                · cases hk
              · exact key ⟨[c], rfl⟩ fun _ _ => trivial

theorem symbols_lt {c : Int} (h : c ∈ symbols) : 0 ≤ c ∧ c < 128 := by
  simp only [symbols, List.mem_cons, List.not_mem_nil, or_false] at h
  omega

theorem lexOne_fits {env : Env} (he : env.Sound) (lit : Bool) (c : Int) (t : List Int) (hc : c < 0x110000)
    (ht : ∀ c ∈ t, c < 0x110000) :
    ∃ chunk, c :: t = (c :: chunk) ++ (lexOne env lit c t).2 ∧ Fits (c :: chunk) (lexOne env lit c t).1 := by
  unfold lexOne
  split
  · exact ⟨[], rfl, trivial⟩
  split
  · exact ⟨[], rfl, show c.toNat < 0x110000 by omega⟩
  split
  · next h =>
    have := symbols_lt h
    refine ⟨[], rfl, ?_, ?_⟩
    · simp; omega
    · omega
  split
  · split
    · exact ⟨[38], rfl, by simp [Fits]⟩
    · exact ⟨[], rfl, show 38 < 0x110000 by omega⟩
  split
  · split
    · exact ⟨[126], rfl, by simp [Fits]⟩
    · exact ⟨[], rfl, show 126 < 0x110000 by omega⟩
  split
  · next h =>
    split
    · exact ⟨[], rfl, show 45 < 0x110000 by omega⟩
    · exact ⟨[], rfl, show 45 < 0x110000 by omega⟩
    · exact ⟨[45], rfl, by simp [Fits]⟩
    · exact ⟨[], rfl, by simp [h], by omega⟩
  split
  · next h => subst h; exact escape_fits he t ht
  split
  · exact ⟨[], rfl, show 48 ≤ c.toNat ∧ c.toNat ≤ 57 by omega⟩
  · exact ⟨[], rfl, show c.toNat < 0x110000 by omega⟩

theorem lex_lexed {env : Env} (he : env.Sound) (lit : Bool) (N : Nat) : ∀ (n : Nat) (t : List Int), t.length ≤ n →
    (∀ c ∈ t, c < 0x110000) → Lexed t (lex env lit N n t)
  | 0, t, hn, _ => by
    have : t = [] := List.length_eq_zero_iff.1 (by omega)
    subst this
    exact .nil
  | _ + 1, [], _, _ => .nil
  | n + 1, c :: t, hn, ht => by
    obtain ⟨chunk, h1, h2⟩ := lexOne_fits he lit c t (ht c (by simp)) fun x hx => ht x (by simp [hx])
    rw [lex]
    conv => lhs; rw [h1]
    refine .cons (by simp) h2 (lex_lexed he lit N n _ ?_ fun x hx => ht x ?_)
    · have := congrArg List.length h1
      simp only [List.length_cons, List.length_append] at this hn
      omega
    · rw [h1]; exact List.mem_append_right _ hx

theorem Lexed.ok {text : List Int} {ts : List LTok} (h : Lexed text ts) : ∀ x ∈ ts, x.tok.Ok := by
  induction h with
  | nil => simp
  | cons hne h h' ih =>
    intro x hx
    rcases List.mem_cons.1 hx with rfl | hx
    · exact h.ok
    · exact ih x hx

/-- The tree of a text has ordered bounds of repetitions and well-formed classes. -/
theorem parse_ok {env : Env} (he : env.Sound) {p : PatternOpts} {text : List Int} (ht : ∀ c ∈ text, c < 0x110000)
    {t : Tree Node} {k : Nat} (h : parse env p text = .ok (t, k)) : Regex.Ok t ∧ AllLeaves Node.Ok t := by
  obtain ⟨b, o', k', hr, -⟩ := (parse_iff_derives _ _ _ _ _).1 h
  exact re_ok he hr (lex_lexed he _ _ _ _ (Nat.le_refl _) ht).ok

end Verif.Parser
