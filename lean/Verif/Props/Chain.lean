import Verif.Chain
import Verif.Props.Leaves
import Verif.Props.Decoders
import Verif.Props.IcuDecoder
/-!
# C65, C66: what a chain of encodings means

Specification.  `Reads chain k ts`: the parts of the chain between bars, empty parts left out,
are any number of `identity`, a name of the encoding `k`, and names of the byte transforms `ts`,
all in letters of any case.  The names of encodings are those in the library's table, which
depends on how it was built; `plain_names` says what they are without ICU.
-/
namespace Verif.Chain
open Verif.Encoders Verif.Utf
open Verif.Decoders (Charset)
open Verif.Transforms (ByteT applyAll undoAll)

/-- The small letter of a capital one. -/
def small (b : UInt8) : UInt8 :=
  match (List.zip (name "ABCDEFGHIJKLMNOPQRSTUVWXYZ") (name "abcdefghijklmnopqrstuvwxyz")).lookup b with
  | some c => c
  | none => b

/-- The same name but for the case of letters. -/
def Same (n : List UInt8) (s : String) : Prop := n.map small = (name s).map small

instance (n : List UInt8) (s : String) : Decidable (Same n s) := inferInstanceAs (Decidable (_ = _))

theorem lower_small (b : UInt8) : lower b = small b := by
  have h : ∀ n : Fin 256, lower (UInt8.ofNat n.1) = small (UInt8.ofNat n.1) := by decide +kernel
  have := h ⟨b.toNat, b.toNat_lt⟩
  simpa using this

theorem findTrans_eq (table : List (List UInt8 × Nat)) (n : List UInt8) :
    findTrans table n = (table.find? fun t => n.map small == t.1.map small).map (·.2) := by
  have : lower = small := funext lower_small
  unfold findTrans
  rw [this]

/-- What an encoding writes for a character: one of the Unicode encodings and ASCII, or what one
of ICU's converters does. -/
inductive Coding where
  | std (c : Charset)
  | icu (t : Converter)

/-- The bytes of a character, none if it has no encoding. -/
def Coding.spec : Coding → Nat → List Nat
  | .std c => fun cp => (c.spec cp).getD []
  | .icu t => t.write

/-- The canonical name of a character set. -/
def canonical : Charset → List UInt8
  | .ascii => name "US-ASCII"
  | .utf8 => name "UTF-8"
  | .utf16 true => name "UTF-16LE"
  | .utf16 false => name "UTF-16BE"
  | .utf32 true => name "UTF-32LE"
  | .utf32 false => name "UTF-32BE"

/-- The first name in the table of encodings that is the same but for the case of letters has
the canonical name `x`. -/
def Known [Build] (n x : List UInt8) : Prop :=
  ∃ l m i r, Build.encodings = l ++ (m, i) :: r ∧ n.map small = m.map small ∧
    (∀ y ∈ l, n.map small ≠ y.1.map small) ∧ Build.canonicalEncodings[i]? = some x

/-- What a canonical name stands for. -/
def Stands [Build] (x : List UInt8) : Coding → Prop
  | .std c => x = canonical c
  | .icu t => (∀ c, x ≠ canonical c) ∧ Build.converter x = some t

/-- The names of the byte transforms. -/
def NamesByte (n : List UInt8) : ByteT → Prop
  | .identity => Same n "identity"
  | .oce => Same n "OCE"
  | .xor _ => False

/-- The chain is a way to write the canonical name `x` and byte transforms. -/
def Spells [Build] (chain x : List UInt8) (ts : List ByteT) : Prop :=
  ∃ cs n bs, (chain.splitOn 124).filter (· ≠ []) = cs ++ n :: bs ∧ (∀ n ∈ cs, Same n "identity") ∧
    ¬ Same n "identity" ∧ Known n x ∧ List.Forall₂ NamesByte bs ts

@[inherit_doc Spells]
def Reads [Build] (chain : List UInt8) (k : Coding) (ts : List ByteT) : Prop := ∃ x, Spells chain x ts ∧ Stands x k

/-! ## The tables -/

theorem charLookup (n : List UInt8) : (findTrans charTransforms n).bind (canonicalCharTransforms[·]?) =
    if Same n "identity" then some (name "identity") else none := by
  rw [findTrans_eq]
  unfold charTransforms
  by_cases h : Same n "identity"
  · rw [List.find?_cons_of_pos (by simpa [Same] using h), if_pos h]; rfl
  · rw [List.find?_cons_of_neg (by simpa [Same] using h), if_neg h]; rfl

theorem byteLookup (n : List UInt8) : (findTrans byteTransforms n).bind (canonicalByteTransforms[·]?) =
    if Same n "identity" then some (name "identity") else if Same n "OCE" then some (name "OCE") else none := by
  rw [findTrans_eq]
  unfold byteTransforms
  by_cases h : Same n "identity"
  · rw [List.find?_cons_of_pos (by simpa [Same] using h), if_pos h]; rfl
  · rw [List.find?_cons_of_neg (by simpa [Same] using h), if_neg h]
    by_cases h : Same n "OCE"
    · rw [List.find?_cons_of_pos (by simpa [Same] using h), if_pos h]; rfl
    · rw [List.find?_cons_of_neg (by simpa [Same] using h), if_neg h]; rfl

theorem encLookup [Build] (n x : List UInt8) :
    (findTrans Build.encodings n).bind (Build.canonicalEncodings[·]?) = some x ↔ Known n x := by
  rw [findTrans_eq]
  unfold Known
  generalize Build.encodings = es
  constructor
  · intro h
    obtain ⟨i, hi, hx⟩ := Option.bind_eq_some_iff.1 h
    obtain ⟨⟨m, i'⟩, hm, rfl⟩ := Option.map_eq_some_iff.1 hi
    obtain ⟨h1, l, r, h2, h3⟩ := List.find?_eq_some_iff_append.1 hm
    exact ⟨l, m, i', r, h2, by simpa using h1, fun y hy => by simpa using h3 y hy, hx⟩
  · rintro ⟨l, m, i, r, rfl, h1, h2, h3⟩
    rw [List.find?_append, List.find?_eq_none.2 (fun y hy => by simpa using h2 y hy), Option.none_or,
      List.find?_cons_of_pos (by simpa using h1)]
    exact h3

/-- The names of a character set in a build without ICU. -/
def Names (n : List UInt8) : Charset → Prop
  | .ascii => Same n "ASCII" ∨ Same n "US-ASCII"
  | .utf8 => Same n "UTF-8"
  | .utf16 true => Same n "UTF-16LE"
  | .utf16 false => Same n "UTF-16BE"
  | .utf32 true => Same n "UTF-32LE"
  | .utf32 false => Same n "UTF-32BE"

theorem plainLookup (n c : List UInt8) : (findTrans plainEncodings n).bind (plainCanonical[·]?) = some c ↔
    ∃ k, Names n k ∧ c = canonical k := by
  have hno : ∀ {s t : String}, (name s).map small ≠ (name t).map small → Same n s → ¬ Same n t :=
    fun h h1 h2 => h (h1.symm.trans h2)
  rw [findTrans_eq]
  unfold plainEncodings
  by_cases h : Same n "ASCII"
  · rw [List.find?_cons_of_pos (by simpa [Same] using h)]
    constructor
    · intro e; exact ⟨.ascii, .inl h, by cases e; rfl⟩
    · rintro ⟨k, hk, rfl⟩
      cases k with
      | ascii => rfl
      | utf8 => exact absurd hk (hno (by decide) h)
      | utf16 le => cases le <;> exact absurd hk (hno (by decide) h)
      | utf32 le => cases le <;> exact absurd hk (hno (by decide) h)
  rw [List.find?_cons_of_neg (by simpa [Same] using h)]
  by_cases h1 : Same n "US-ASCII"
  · rw [List.find?_cons_of_pos (by simpa [Same] using h1)]
    constructor
    · intro e; exact ⟨.ascii, .inr h1, by cases e; rfl⟩
    · rintro ⟨k, hk, rfl⟩
      cases k with
      | ascii => rfl
      | utf8 => exact absurd hk (hno (by decide) h1)
      | utf16 le => cases le <;> exact absurd hk (hno (by decide) h1)
      | utf32 le => cases le <;> exact absurd hk (hno (by decide) h1)
  rw [List.find?_cons_of_neg (by simpa [Same] using h1)]
  by_cases h2 : Same n "UTF-16BE"
  · rw [List.find?_cons_of_pos (by simpa [Same] using h2)]
    constructor
    · intro e; exact ⟨.utf16 false, h2, by cases e; rfl⟩
    · rintro ⟨k, hk, rfl⟩
      cases k with
      | ascii => exact (hk.elim h h1).elim
      | utf8 => exact absurd hk (hno (by decide) h2)
      | utf16 le => cases le; rfl; exact absurd hk (hno (by decide) h2)
      | utf32 le => cases le <;> exact absurd hk (hno (by decide) h2)
  rw [List.find?_cons_of_neg (by simpa [Same] using h2)]
  by_cases h3 : Same n "UTF-16LE"
  · rw [List.find?_cons_of_pos (by simpa [Same] using h3)]
    constructor
    · intro e; exact ⟨.utf16 true, h3, by cases e; rfl⟩
    · rintro ⟨k, hk, rfl⟩
      cases k with
      | ascii => exact (hk.elim h h1).elim
      | utf8 => exact absurd hk (hno (by decide) h3)
      | utf16 le => cases le; exact absurd hk (hno (by decide) h3); rfl
      | utf32 le => cases le <;> exact absurd hk (hno (by decide) h3)
  rw [List.find?_cons_of_neg (by simpa [Same] using h3)]
  by_cases h4 : Same n "UTF-32BE"
  · rw [List.find?_cons_of_pos (by simpa [Same] using h4)]
    constructor
    · intro e; exact ⟨.utf32 false, h4, by cases e; rfl⟩
    · rintro ⟨k, hk, rfl⟩
      cases k with
      | ascii => exact (hk.elim h h1).elim
      | utf8 => exact absurd hk (hno (by decide) h4)
      | utf32 le => cases le; rfl; exact absurd hk (hno (by decide) h4)
      | utf16 le => cases le <;> exact absurd hk (hno (by decide) h4)
  rw [List.find?_cons_of_neg (by simpa [Same] using h4)]
  by_cases h5 : Same n "UTF-32LE"
  · rw [List.find?_cons_of_pos (by simpa [Same] using h5)]
    constructor
    · intro e; exact ⟨.utf32 true, h5, by cases e; rfl⟩
    · rintro ⟨k, hk, rfl⟩
      cases k with
      | ascii => exact (hk.elim h h1).elim
      | utf8 => exact absurd hk (hno (by decide) h5)
      | utf32 le => cases le; exact absurd hk (hno (by decide) h5); rfl
      | utf16 le => cases le <;> exact absurd hk (hno (by decide) h5)
  rw [List.find?_cons_of_neg (by simpa [Same] using h5)]
  by_cases h6 : Same n "UTF-8"
  · rw [List.find?_cons_of_pos (by simpa [Same] using h6)]
    constructor
    · intro e; exact ⟨.utf8, h6, by cases e; rfl⟩
    · rintro ⟨k, hk, rfl⟩
      cases k with
      | ascii => exact (hk.elim h h1).elim
      | utf8 => rfl
      | utf32 le => cases le <;> exact absurd hk (hno (by decide) h6)
      | utf16 le => cases le <;> exact absurd hk (hno (by decide) h6)
  rw [List.find?_cons_of_neg (by simpa [Same] using h6)]
  constructor
  · intro e; cases e
  · rintro ⟨k, hk, rfl⟩
    cases k with
    | ascii => exact (hk.elim h h1).elim
    | utf8 => exact (h6 hk).elim
    | utf16 le => cases le; exact (h2 hk).elim; exact (h3 hk).elim
    | utf32 le => cases le; exact (h4 hk).elim; exact (h5 hk).elim

theorem canonical_inj {c k : Charset} (h : canonical c = canonical k) : c = k := by
  revert h
  cases c with
  | ascii => cases k with
    | ascii => simp
    | utf8 => exact fun h => absurd h (by decide)
    | utf16 le => cases le <;> exact fun h => absurd h (by decide)
    | utf32 le => cases le <;> exact fun h => absurd h (by decide)
  | utf8 => cases k with
    | utf8 => simp
    | ascii => exact fun h => absurd h (by decide)
    | utf16 le => cases le <;> exact fun h => absurd h (by decide)
    | utf32 le => cases le <;> exact fun h => absurd h (by decide)
  | utf16 le => cases k with
    | utf16 le' => cases le <;> cases le' <;> first | (simp; done) | exact fun h => absurd h (by decide)
    | ascii => cases le <;> exact fun h => absurd h (by decide)
    | utf8 => cases le <;> exact fun h => absurd h (by decide)
    | utf32 le' => cases le <;> cases le' <;> exact fun h => absurd h (by decide)
  | utf32 le => cases k with
    | utf32 le' => cases le <;> cases le' <;> first | (simp; done) | exact fun h => absurd h (by decide)
    | ascii => cases le <;> exact fun h => absurd h (by decide)
    | utf8 => cases le <;> exact fun h => absurd h (by decide)
    | utf16 le' => cases le <;> cases le' <;> exact fun h => absurd h (by decide)

/-- The encodings there are without ICU, and their names. -/
theorem plain_names (n : List UInt8) (k : Coding) : (∃ x, @Known Build.plain n x ∧ @Stands Build.plain x k) ↔
    match k with
    | .std c => Names n c
    | .icu _ => False := by
  have key := fun x => (@encLookup Build.plain n x).symm.trans (plainLookup n x)
  cases k with
  | icu t => exact ⟨fun ⟨x, _, _, h⟩ => (Option.some_ne_none _ h.symm).elim, False.elim⟩
  | std c =>
    constructor
    · rintro ⟨x, h1, h2⟩
      obtain ⟨k, hk, rfl⟩ := (key x).1 h1
      rw [← canonical_inj h2]; exact hk
    · exact fun h => ⟨_, (key _).2 ⟨c, h, rfl⟩, rfl⟩

theorem stands_unique [Build] {x : List UInt8} {k k' : Coding} (h : Stands x k) (h' : Stands x k') : k = k' := by
  cases k with
  | std c =>
    cases k' with
    | std c' => rw [canonical_inj (h.symm.trans h')]
    | icu t => exact absurd h (h'.1 c)
  | icu t =>
    cases k' with
    | std c => exact absurd h' (h.1 c)
    | icu t' => rw [Option.some.inj (h.2.symm.trans h'.2)]

theorem known_ne [Build] {n x : List UInt8} (h : Known n x) : x ≠ name "ASCII" := by
  rintro rfl
  obtain ⟨_, _, i, _, -, -, -, h⟩ := h
  exact Build.notAscii (List.mem_of_getElem? h)

/-! ## Parsing -/

theorem charLoop_spec : ∀ ns : List (List UInt8), ∃ cs, ns = cs ++ (charLoop ns).2 ∧ (∀ n ∈ cs, Same n "identity") ∧
    ∀ x xs, (charLoop ns).2 = x :: xs → ¬ Same x "identity"
  | [] => ⟨[], rfl, by simp, by simp [charLoop]⟩
  | n :: ns => by
    obtain ⟨cs, h1, h2, h3⟩ := charLoop_spec ns
    unfold charLoop
    rw [charLookup]
    by_cases h : Same n "identity"
    · rw [if_pos h]
      refine ⟨n :: cs, by simp only [List.cons_append]; rw [← h1], ?_, h3⟩
      simpa [h] using h2
    · rw [if_neg h]
      refine ⟨[], rfl, by simp, ?_⟩
      rintro x xs ⟨⟩
      exact h

/-- The canonical name of a byte transform. -/
def byteName : ByteT → List UInt8
  | .oce => name "OCE"
  | _ => name "identity"

theorem byteLoop_spec : ∀ (ns : List (List UInt8)) (bs : List (List UInt8)),
    byteLoop ns = some bs ↔ ∃ ts, List.Forall₂ NamesByte ns ts ∧ bs = ts.map byteName
  | [], bs => by simp [byteLoop, eq_comm]
  | n :: ns, bs => by
    have ih := byteLoop_spec ns
    have hno : Same n "identity" → ¬ Same n "OCE" := fun h1 h2 => absurd (h1.symm.trans h2) (by decide)
    simp only [byteLoop, byteLookup, Option.bind_eq_bind, Option.bind_eq_some_iff, Option.some.injEq]
    constructor
    · rintro ⟨c, hc, r, hr, rfl⟩
      obtain ⟨ts, h1, rfl⟩ := (ih r).1 hr
      by_cases h : Same n "identity"
      · rw [if_pos h] at hc; cases hc
        exact ⟨.identity :: ts, .cons h h1, rfl⟩
      · rw [if_neg h] at hc
        by_cases h' : Same n "OCE"
        · rw [if_pos h'] at hc; cases hc
          exact ⟨.oce :: ts, .cons h' h1, rfl⟩
        · rw [if_neg h'] at hc; cases hc
    · rintro ⟨ts, h, rfl⟩
      cases h with
      | @cons _ t _ ts ht h =>
        refine ⟨byteName t, ?_, _, (ih _).2 ⟨ts, h, rfl⟩, rfl⟩
        cases t with
        | identity => rw [if_pos (show Same n "identity" from ht)]; rfl
        | oce => rw [if_neg (fun h' => hno h' ht), if_pos (show Same n "OCE" from ht)]; rfl
        | xor k => exact ht.elim

/-- What is accepted as a chain, and what is read from it. -/
theorem parseChain_spec [Build] (chain : List UInt8) (c : List UInt8) (bs : List (List UInt8)) :
    (∃ cc, parseChain chain = some (cc, c, bs)) ↔ ∃ ts, Spells chain c ts ∧ bs = ts.map byteName := by
  obtain ⟨cs, h1, h2, h3⟩ := charLoop_spec (tokens chain)
  unfold parseChain
  constructor
  · rintro ⟨cc, h⟩
    dsimp only at h
    split at h
    · cases h
    · next x xs hx =>
      obtain ⟨c', hc, h⟩ := Option.bind_eq_some_iff.1 h
      obtain ⟨bs', hb, h⟩ := Option.bind_eq_some_iff.1 h
      simp only [Option.some.injEq, Prod.mk.injEq] at h
      obtain ⟨-, rfl, rfl⟩ := h
      obtain ⟨ts, ht, rfl⟩ := (byteLoop_spec xs bs').1 hb
      exact ⟨ts, ⟨cs, x, xs, by rw [hx] at h1; exact h1, h2, h3 x xs hx, (encLookup x c').1 hc, ht⟩, rfl⟩
  · rintro ⟨ts, ⟨cs', x, xs, he, hcs, hni, hk, ht⟩, rfl⟩
    have hx : (charLoop (tokens chain)).2 = x :: xs := by
      have : tokens chain = cs' ++ x :: xs := he
      rw [this]
      clear he h1 h2 h3 this
      induction cs' with
      | nil =>
        simp only [List.nil_append]
        unfold charLoop
        rw [charLookup, if_neg hni]
      | cons n cs' ih =>
        simp only [List.cons_append]
        unfold charLoop
        rw [charLookup, if_pos (hcs n (by simp))]
        exact ih (fun n hn => hcs n (by simp [hn]))
    refine ⟨(charLoop (tokens chain)).1, ?_⟩
    dsimp only
    rw [hx]
    dsimp only
    rw [(encLookup x _).2 hk, (byteLoop_spec xs _).2 ⟨ts, ht, rfl⟩]
    rfl

/-! ## Encoders -/

/-- The encoder of a Unicode character set with byte transforms. -/
def plainEncoder : Charset → Encoder
  | .ascii => .ascii
  | .utf8 => .utf .utf8
  | .utf16 le => .utf (.utf16 le)
  | .utf32 le => .utf (.utf32 le)

theorem plain_spec (k : Charset) (cp : Nat) : (plainEncoder k).spec cp = (k.spec cp).getD [] := by
  cases k with
  | ascii => simp only [plainEncoder, Encoder.spec, Charset.spec]; split <;> rfl
  | utf8 => simp only [plainEncoder, Encoder.spec, Charset.spec]; split <;> rfl
  | utf16 le => simp only [plainEncoder, Encoder.spec, Charset.spec]; split <;> rfl
  | utf32 le => simp only [plainEncoder, Encoder.spec, Charset.spec]; split <;> rfl

theorem plain_ok (k : Charset) : (plainEncoder k).Ok := by cases k <;> trivial

theorem base_rest [Build] {x : List UInt8} (hx : x ≠ name "ASCII") (h : ∀ c, x ≠ canonical c) :
    base x = (Build.converter x).map .icu := by
  have h1 : x ≠ name "UTF-8" := h .utf8
  have h2 : x ≠ name "UTF-16LE" := h (.utf16 true)
  have h3 : x ≠ name "UTF-16BE" := h (.utf16 false)
  have h4 : x ≠ name "UTF-32LE" := h (.utf32 true)
  have h5 : x ≠ name "UTF-32BE" := h (.utf32 false)
  unfold base
  rw [if_neg hx, if_neg h1, if_neg h2, if_neg h3, if_neg h4, if_neg h5]

/-- Which base encoder there is for a canonical name. -/
theorem base_spec [Build] {x : List UInt8} {k : Coding} (hx : x ≠ name "ASCII") (h : Stands x k) : base x =
    match k with
    | .std .ascii => (Build.converter (name "US-ASCII")).map .icu
    | .std c => some (plainEncoder c)
    | .icu t => some (.icu t) := by
  cases k with
  | std c =>
    have h : x = canonical c := h
    subst h
    cases c with
    | ascii =>
      unfold base
      rw [if_neg (by decide), if_neg (by decide), if_neg (by decide), if_neg (by decide), if_neg (by decide), if_neg (by decide)]
      rfl
    | utf8 => rfl
    | utf16 le => cases le <;> rfl
    | utf32 le => cases le <;> rfl
  | icu t =>
    rw [base_rest hx h.1, h.2]
    rfl

/-- There is a base encoder only for a name that stands for an encoding, and it is one for that
encoding. -/
theorem base_stands [Build] {x : List UInt8} (hx : x ≠ name "ASCII") {e : Encoder} (h : base x = some e) :
    ∃ k, Stands x k ∧ e.spec = k.spec ∧ e.Ok := by
  by_cases hc : ∃ c, x = canonical c
  · obtain ⟨c, rfl⟩ := hc
    refine ⟨.std c, rfl, ?_⟩
    rw [base_spec hx (k := .std c) rfl] at h
    cases c with
    | ascii =>
      obtain ⟨t, ht, rfl⟩ := Option.map_eq_some_iff.1 h
      refine ⟨?_, Build.ok _ _ ht⟩
      funext cp
      show t.write cp = _
      rw [Build.usAscii t ht]
      exact (write_spec .ascii cp).trans (plain_spec .ascii cp)
    | utf8 => cases h; exact ⟨funext (plain_spec .utf8), plain_ok .utf8⟩
    | utf16 le => cases h; exact ⟨funext (plain_spec (.utf16 le)), plain_ok (.utf16 le)⟩
    | utf32 le => cases h; exact ⟨funext (plain_spec (.utf32 le)), plain_ok (.utf32 le)⟩
  · have hc : ∀ c, x ≠ canonical c := fun c e => hc ⟨c, e⟩
    cases ht : Build.converter x with
    | none =>
      rw [base_rest hx hc, ht] at h
      cases h
    | some t =>
      rw [base_spec hx (k := .icu t) ⟨hc, ht⟩] at h
      cases h
      exact ⟨.icu t, ⟨hc, ht⟩, rfl, Build.ok _ _ ht⟩

theorem wrapBytes_spec : ∀ (ts : List ByteT) (e : Encoder) (cp : Nat), (∀ t ∈ ts, ∀ k, t ≠ .xor k) →
    (wrapBytes e (ts.map byteName)).spec cp = (e.spec cp).map (applyAll ts)
  | [], e, cp, _ => (List.map_id _).symm
  | t :: ts, e, cp, h => by
    have ih := fun e => wrapBytes_spec ts e cp (fun t ht => h t (by simp [ht]))
    cases t with
    | identity =>
      simp only [List.map_cons, byteName, wrapBytes, if_true]
      rw [ih]
      simp [applyAll, ByteT.fwd]
    | oce =>
      simp only [List.map_cons, byteName, wrapBytes]
      rw [if_neg (by decide)]
      simp only [if_true]
      rw [ih]
      simp [applyAll, Encoder.spec]
    | xor k => exact absurd rfl (h _ (by simp) k)

theorem wrapBytes_ok : ∀ (bs : List (List UInt8)) (e : Encoder), e.Ok → (wrapBytes e bs).Ok
  | [], e, h => h
  | b :: bs, e, h => by
    unfold wrapBytes
    split
    · exact wrapBytes_ok bs e h
    · split
      · exact wrapBytes_ok bs _ ⟨trivial, h⟩
      · exact wrapBytes_ok bs e h

theorem spells_bytes [Build] {chain x : List UInt8} {ts : List ByteT} (h : Spells chain x ts) :
    ∀ t ∈ ts, ∀ k, t ≠ .xor k := by
  obtain ⟨cs, x, bs, -, -, -, -, h⟩ := h
  intro t ht k e
  subst e
  induction h with
  | nil => simp at ht
  | cons h _ ih =>
    rcases List.mem_cons.1 ht with rfl | ht
    · exact h
    · exact ih ht

theorem spells_ne [Build] {chain x : List UInt8} {ts : List ByteT} (h : Spells chain x ts) : x ≠ name "ASCII" := by
  obtain ⟨_, _, _, -, -, -, h, -⟩ := h
  exact known_ne h

theorem reads_bytes [Build] {chain : List UInt8} {k : Coding} {ts : List ByteT} (h : Reads chain k ts) :
    ∀ t ∈ ts, ∀ k, t ≠ .xor k := by
  obtain ⟨x, h, -⟩ := h
  exact spells_bytes h

theorem reads_icu [Build] {chain : List UInt8} {t : Converter} {ts : List ByteT} (h : Reads chain (.icu t) ts) : t.Ok ∧ t.Reads := by
  obtain ⟨x, -, -, h⟩ := h
  exact ⟨Build.ok _ _ h, Build.reads _ _ h⟩

/-- Characters are encoded by bytes, a limited number of them. -/
theorem reads_small [Build] {chain : List UInt8} {k : Coding} {ts : List ByteT} (h : Reads chain k ts) :
    (∀ c, Utf.Bytes (k.spec c)) ∧ ∃ B, ∀ c, (k.spec c).length ≤ B := by
  cases k with
  | std k =>
    have := fun c => spec_ok (plainEncoder k) (plain_ok k) c
    simp only [plain_spec] at this
    exact ⟨fun c => (this c).1, _, fun c => (this c).2.1⟩
  | icu t => exact ⟨(reads_icu h).1.bytes, _, (reads_icu h).1.short⟩

/-- What stays so whatever is requested: the encoders of the factory, and that their caches
hold what the encoders would answer. -/
structure FactoryOk (f : Factory) : Prop where
  keys : f.map (fun x => (x.key, x.caching)) = Factory.init.map (fun x => (x.key, x.caching))
  encs : f.map (·.enc) = Factory.init.map (·.enc)
  cached : ∀ x ∈ f, x.enc.CacheOk x.cache

theorem factory_init : FactoryOk Factory.init := by
  refine ⟨rfl, rfl, ?_⟩
  intro x hx
  simp only [Factory.init, prepared, List.mem_cons, List.not_mem_nil, or_false] at hx
  rcases hx with rfl | rfl | rfl | rfl | rfl | rfl
  · exact startCache_ok .ascii
  · exact startCache_ok (.utf .utf8)
  · exact startCache_ok (.utf (.utf16 true))
  · exact startCache_ok (.utf (.utf16 false))
  · exact startCache_ok (.utf (.utf32 true))
  · exact startCache_ok (.utf (.utf32 false))

/-- The encoders there are by name. -/
theorem factory_find {f : Factory} (h : FactoryOk f) (chain : List UInt8) :
    (f.find? (fun x => decide (x.key = chain))).map (·.enc) =
      (Factory.init.find? (fun x => decide (x.key = chain))).map (·.enc) := by
  have key : ∀ (a b : Factory), a.map (fun x => (x.key, x.caching)) = b.map (fun x => (x.key, x.caching)) →
      a.map (·.enc) = b.map (·.enc) →
      (a.find? (fun x => decide (x.key = chain))).map (·.enc) = (b.find? (fun x => decide (x.key = chain))).map (·.enc) := by
    intro a
    induction a with
    | nil => intro b hb _; rw [List.map_nil, eq_comm, List.map_eq_nil_iff] at hb; rw [hb]
    | cons x a ih =>
      intro b hb he
      cases b with
      | nil => simp at hb
      | cons y b =>
        simp only [List.map_cons, List.cons.injEq, Prod.mk.injEq] at hb he
        by_cases hk : x.key = chain
        · rw [List.find?_cons_of_pos (by simpa using hk), List.find?_cons_of_pos (by rw [← hb.1.1]; simpa using hk)]
          simp [he.1]
        · rw [List.find?_cons_of_neg (by simpa using hk), List.find?_cons_of_neg (by rw [← hb.1.1]; simpa using hk)]
          exact ih b hb.2 he.2
  exact key f _ h.keys h.encs

theorem factory_put [Build] {f : Factory} (h : FactoryOk f) {chain : List UInt8} {e : Encoder} {c c' : Cache}
    (hg : f.get chain = some (e, c)) (hc : e.CacheOk c') : FactoryOk (f.put chain c') := by
  have hnd : (f.map (·.key)).Nodup := by
    have : f.map (·.key) = Factory.init.map (·.key) := by
      have := congrArg (List.map Prod.fst) h.keys
      simpa [List.map_map, Function.comp_def] using this
    rw [this]; decide
  refine ⟨?_, ?_, ?_⟩
  · rw [← h.keys, Factory.put, List.map_map]
    apply List.map_congr_left
    intro x _
    simp only [Function.comp_apply]
    split <;> rfl
  · rw [← h.encs, Factory.put, List.map_map]
    apply List.map_congr_left
    intro x _
    simp only [Function.comp_apply]
    split <;> rfl
  · intro y hy
    obtain ⟨x, hx, rfl⟩ := List.mem_map.1 hy
    split
    · next hk =>
      have : x.enc = e := by
        unfold Factory.get at hg
        split at hg
        · next z hz =>
          cases hg
          have hzk : z.key = chain := by simpa using List.find?_some hz
          have hzm := List.mem_of_find?_eq_some hz
          congr 1
          exact List.inj_on_of_nodup_map hnd hx hzm (by rw [hk.1, hzk])
        · next hz =>
          have := List.find?_eq_none.1 hz x hx
          simp [hk.1] at this
      show x.enc.CacheOk c'
      rw [this]; exact hc
    · exact h.cached x hx

/-- The exact names of the prepared encoders. -/
def exact : List (List UInt8 × Charset) :=
  [(name "ASCII", .ascii), (name "UTF-8", .utf8), (name "UTF-16LE", .utf16 true), (name "UTF-16BE", .utf16 false),
   (name "UTF-32LE", .utf32 true), (name "UTF-32BE", .utf32 false)]

theorem exact_reads [Build] : ∀ x ∈ exact, Reads x.1 (.std x.2) [] := by
  have own := fun (u : String) (hu : u ∈ ["UTF-8", "UTF-16LE", "UTF-16BE", "UTF-32LE", "UTF-32BE"]) =>
    (encLookup _ _).1 (Build.own u hu)
  intro x hx
  simp only [exact, List.mem_cons, List.not_mem_nil, or_false] at hx
  rcases hx with rfl | rfl | rfl | rfl | rfl | rfl
  · exact ⟨_, ⟨[], _, [], by decide +kernel, by simp, by decide, (encLookup _ _).1 Build.ascii, .nil⟩, rfl⟩
  · exact ⟨_, ⟨[], _, [], by decide +kernel, by simp, by decide, own "UTF-8" (by simp), .nil⟩, rfl⟩
  · exact ⟨_, ⟨[], _, [], by decide +kernel, by simp, by decide, own "UTF-16LE" (by simp), .nil⟩, rfl⟩
  · exact ⟨_, ⟨[], _, [], by decide +kernel, by simp, by decide, own "UTF-16BE" (by simp), .nil⟩, rfl⟩
  · exact ⟨_, ⟨[], _, [], by decide +kernel, by simp, by decide, own "UTF-32LE" (by simp), .nil⟩, rfl⟩
  · exact ⟨_, ⟨[], _, [], by decide +kernel, by simp, by decide, own "UTF-32BE" (by simp), .nil⟩, rfl⟩

theorem init_find (chain : List UInt8) : (Factory.init.find? (fun x => decide (x.key = chain))).map (·.enc) =
    (exact.find? (fun x => decide (x.1 = chain))).map (fun x => plainEncoder x.2) := by
  unfold Factory.init exact prepared
  simp only [List.find?_cons]
  repeat' split
  all_goals first | rfl | (next h1 h2 => simp_all)

/-- **C65** Whatever was requested before, the encoder for a chain is that of the encoding the
chain names followed by the byte transforms it names, in that order; and a chain is refused
unless it names them, or if there is no ICU and it names ASCII otherwise than by the five letters
`ASCII`. -/
theorem chain_meaning [Build] {f : Factory} (h : FactoryOk f) (chain : List UInt8) :
    (∀ e c, f.get chain = some (e, c) → e.Ok ∧ e.CacheOk c ∧ ∃ k ts, Reads chain k ts ∧
      ∀ cp, e.spec cp = (k.spec cp).map (applyAll ts)) ∧
    (f.get chain ≠ none ↔ ∃ k ts, Reads chain k ts ∧
      (k = .std .ascii → chain = name "ASCII" ∨ Build.converter (name "US-ASCII") ≠ none)) := by
  have hf := factory_find h chain
  rw [init_find] at hf
  unfold Factory.get
  cases hx : f.find? (fun x => decide (x.key = chain)) with
  | some x =>
    rw [hx] at hf
    obtain ⟨y, hy, he⟩ := Option.map_eq_some_iff.1 hf.symm
    have hym := List.mem_of_find?_eq_some hy
    have hyc : y.1 = chain := by simpa using List.find?_some hy
    have hr := exact_reads y hym
    rw [hyc] at hr
    constructor
    · rintro e c ⟨⟩
      refine ⟨?_, h.cached x (List.mem_of_find?_eq_some hx), .std y.2, [], hr, fun cp => ?_⟩
      · rw [← show plainEncoder y.2 = x.enc from he]; exact plain_ok _
      · rw [← show plainEncoder y.2 = x.enc from he, plain_spec]; exact (List.map_id _).symm
    · refine ⟨fun _ => ⟨.std y.2, [], hr, fun hk => .inl ?_⟩, fun _ => by simp⟩
      rw [← hyc]
      simp only [exact, List.mem_cons, List.not_mem_nil, or_false] at hym
      rcases hym with rfl | rfl | rfl | rfl | rfl | rfl <;> first | rfl | (simp at hk)
  | none =>
    rw [hx] at hf
    have hne : chain ≠ name "ASCII" := by
      rintro rfl
      simp [exact] at hf
    dsimp only
    constructor
    · rintro e c hec
      simp only [Option.bind_eq_bind, Option.bind_eq_some_iff, Option.some.injEq, Prod.mk.injEq] at hec
      obtain ⟨⟨cc, cb, bb⟩, hp, e0, hb, rfl, rfl⟩ := hec
      obtain ⟨ts, hr, rfl⟩ := (parseChain_spec chain cb bb).1 ⟨cc, hp⟩
      dsimp only at hb ⊢
      obtain ⟨k, hk, hs, hok⟩ := base_stands (spells_ne hr) hb
      refine ⟨wrapBytes_ok _ _ hok, by simp [Encoder.CacheOk], k, ts, ⟨cb, hr, hk⟩, fun cp => ?_⟩
      rw [wrapBytes_spec _ _ _ (spells_bytes hr), hs]
    · constructor
      · intro hn
        cases hp : parseChain chain with
        | none => simp [hp] at hn
        | some p =>
          obtain ⟨cc, cb, bb⟩ := p
          obtain ⟨ts, hr, rfl⟩ := (parseChain_spec chain cb bb).1 ⟨cc, hp⟩
          cases hb : base cb with
          | none => simp [hp, hb] at hn
          | some e =>
            obtain ⟨k, hk, hs, hok⟩ := base_stands (spells_ne hr) hb
            refine ⟨k, ts, ⟨cb, hr, hk⟩, fun hka => .inr fun hno => ?_⟩
            subst hka
            rw [base_spec (spells_ne hr) hk] at hb
            simp [hno] at hb
      · rintro ⟨k, ts, ⟨x, hr, hk⟩, hka⟩
        obtain ⟨cc, hp⟩ := (parseChain_spec chain _ _).2 ⟨ts, hr, rfl⟩
        have hb : base x ≠ none := by
          rw [base_spec (spells_ne hr) hk]
          cases k with
          | icu t => simp
          | std c =>
            cases c with
            | ascii => simpa using (hka rfl).resolve_left hne
            | utf8 => simp
            | utf16 le => simp
            | utf32 le => simp
        obtain ⟨e, he⟩ := Option.ne_none_iff_exists'.1 hb
        simp [hp, he]

/-- The names in the tables are not all accepted: a library without ICU refuses `ascii` and
`US-ASCII`, which `lg_get_encoding_id` knows. -/
theorem ascii_names_refused : findTrans plainEncodings (name "US-ASCII") = some 5 ∧
    findTrans plainEncodings (name "ascii") = some 5 ∧
    (@Factory.get Build.plain Factory.init (name "US-ASCII")).isNone = true ∧
    (@Factory.get Build.plain Factory.init (name "ascii")).isNone = true ∧
    (@Factory.get Build.plain Factory.init (name "ASCII|identity")).isNone = true := by
  exact ⟨by decide, by decide, by decide +kernel, by decide +kernel, by decide +kernel⟩

theorem plain_known {n : List UInt8} {c : Charset} (h : Names n c) : @Known Build.plain n (canonical c) :=
  (@encLookup Build.plain _ _).1 ((plainLookup _ _).2 ⟨c, h, rfl⟩)

-- A chain that is read: `identity|utf-16le||oce`.
example : @Reads Build.plain (name "identity|utf-16le||oce") (.std (.utf16 true)) [.oce] :=
  ⟨_, ⟨[name "identity"], name "utf-16le", [name "oce"], by decide +kernel, by decide, by decide,
    plain_known (c := .utf16 true) (show Same _ _ by decide), .cons (show Same _ _ by decide) .nil⟩, rfl⟩

/-! ## Decoders -/

theorem reads_unique [Build] {chain : List UInt8} {k k' : Coding} {ts ts' : List ByteT} (h : Reads chain k ts)
    (h' : Reads chain k' ts') : k = k' ∧ ts = ts' := by
  have h1 := reads_bytes h
  have h2 := reads_bytes h'
  obtain ⟨x, h, hs⟩ := h
  obtain ⟨x', h', hs'⟩ := h'
  obtain ⟨c, e⟩ := (parseChain_spec chain _ _).2 ⟨ts, h, rfl⟩
  obtain ⟨c', e'⟩ := (parseChain_spec chain _ _).2 ⟨ts', h', rfl⟩
  rw [e] at e'
  simp only [Option.some.injEq, Prod.mk.injEq] at e'
  obtain ⟨-, rfl, hm⟩ := e'
  refine ⟨stands_unique hs hs', ?_⟩
  clear e h h' hs hs'
  induction ts generalizing ts' with
  | nil => cases ts' with
    | nil => rfl
    | cons _ _ => simp at hm
  | cons t ts ih =>
    cases ts' with
    | nil => simp at hm
    | cons t' ts' =>
      simp only [List.map_cons, List.cons.injEq] at hm
      rw [ih (fun t ht => h1 t (by simp [ht])) (fun t ht => h2 t (by simp [ht])) hm.2]
      congr 1
      have a := h1 t (by simp)
      have b := h2 t' (by simp)
      have hm1 := hm.1
      revert hm1
      cases t with
      | xor k => exact absurd rfl (a k)
      | identity => cases t' with
        | xor k => exact absurd rfl (b k)
        | identity => exact fun _ => rfl
        | oce => exact fun h => absurd h (by decide)
      | oce => cases t' with
        | xor k => exact absurd rfl (b k)
        | oce => exact fun _ => rfl
        | identity => exact fun h => absurd h (by decide)

/-- The decoder for an encoding and byte transforms. -/
def shape : Coding → List ByteT → Decoders.Shape
  | .std c, ts => Decoders.chain [] c ts
  | .icu t, ts => .icu t (Decoders.byteChain ts)

theorem decoder_spec [Build] {chain : List UInt8} {k : Coding} {ts : List ByteT} (h : Reads chain k ts) :
    decoder chain = some (shape k ts) := by
  obtain ⟨x, hsp, hst⟩ := id h
  obtain ⟨cc, e⟩ := (parseChain_spec chain _ _).2 ⟨ts, hsp, rfl⟩
  have hts : (ts.map byteName).map (fun b => if b = name "OCE" then ByteT.oce else ByteT.identity) = ts := by
    rw [List.map_map]
    conv => rhs; rw [← List.map_id ts]
    apply List.map_congr_left
    intro t ht
    cases t with
    | identity => decide
    | oce => decide
    | xor k => exact absurd rfl (reads_bytes h _ ht k)
  unfold decoder
  rw [e]
  simp only [Option.bind_eq_bind, Option.bind_some, hts]
  cases k with
  | std c =>
    have hst : x = canonical c := hst
    subst hst
    cases c with
    | ascii => rfl
    | utf8 => rfl
    | utf16 le => cases le <;> rfl
    | utf32 le => cases le <;> rfl
  | icu t =>
    have h0 : ¬ (x = name "ASCII" ∨ x = name "US-ASCII") := fun hx => hx.elim (spells_ne hsp) (hst.1 .ascii)
    have h1 : x ≠ name "UTF-8" := hst.1 .utf8
    have h2 : x ≠ name "UTF-16LE" := hst.1 (.utf16 true)
    have h3 : x ≠ name "UTF-16BE" := hst.1 (.utf16 false)
    have h4 : x ≠ name "UTF-32LE" := hst.1 (.utf32 true)
    have h5 : x ≠ name "UTF-32BE" := hst.1 (.utf32 false)
    rw [if_neg h0, if_neg h1, if_neg h2, if_neg h3, if_neg h4, if_neg h5, hst.2]
    rfl

theorem decoded_text (k : Charset) : ∀ (cps : List Nat) (off : Nat), (∀ cp ∈ cps, k.spec cp ≠ none) →
    ∃ out, Decoders.Decoded k (cps.flatMap fun cp => (k.spec cp).getD []) off out ∧ out.map (·.1) = cps.map Int.ofNat
  | [], off, _ => ⟨[], .done, rfl⟩
  | cp :: cps, off, h => by
    obtain ⟨enc, he⟩ := Option.ne_none_iff_exists'.1 (h cp (by simp))
    obtain ⟨out, h1, h2⟩ := decoded_text k cps (off + enc.length) (fun c hc => h c (by simp [hc]))
    refine ⟨((cp : Int), off) :: out, ?_, by simp [h2]⟩
    rw [List.flatMap_cons, he]
    exact .char he h1

/-- **C66** What the encoder of a chain writes, the decoder of the same chain reads: wherever
the encoded text stands in a buffer, decoding that range gives the characters of the text, and
then the end, whatever was encoded and decoded before. -/
theorem chain_decodes [Build] {f : Factory} (hf : FactoryOk f) {chain : List UInt8} {e : Encoder} {c : Cache}
    (h : f.get chain = some (e, c)) :
    ∃ s, decoder chain = some s ∧ ∀ (cps : List Nat), (∀ cp ∈ cps, e.spec cp ≠ []) →
      ∀ (buf : List Nat), Bytes buf → ∀ (p q : Nat), p ≤ q → q ≤ buf.length →
      (buf.drop p).take (q - p) = cps.flatMap e.spec → ∀ st : s.State,
      ∃ out : List (Int × Nat), out.map (·.1) = cps.map Int.ofNat ∧
        ∀ n, Decoders.outN buf s n (s.reset st p q) = out.getD n (Decoders.END, q) := by
  obtain ⟨-, -, k, ts, hr, hs⟩ := (chain_meaning hf chain).1 e c h
  refine ⟨_, decoder_spec hr, fun cps hcps buf hb p q hpq hq hsl st => ?_⟩
  have hv : ∀ t ∈ ts, t.Valid := by
    intro t ht
    cases t with
    | xor k => exact absurd rfl (reads_bytes hr _ ht k)
    | identity => trivial
    | oce => trivial
  have he : cps.flatMap e.spec = (cps.flatMap k.spec).map (applyAll ts) := by
    rw [List.map_flatMap]
    congr 1
    funext cp
    exact hs cp
  have hn : ∀ cp ∈ cps, k.spec cp ≠ [] := fun cp hcp hn => hcps cp hcp (by rw [hs, hn]; rfl)
  cases k with
  | std k =>
    obtain ⟨out, h1, h2⟩ := Decoders.decoder_stream [] k ts hv buf hb p q hpq hq st
    have hk : ∀ cp ∈ cps, k.spec cp ≠ none := by
      intro cp hcp hno
      exact hn cp hcp (by show (k.spec cp).getD [] = []; rw [hno]; rfl)
    obtain ⟨out', h3, h4⟩ := decoded_text k cps p hk
    have hbytes : ∀ b ∈ cps.flatMap (fun cp => (k.spec cp).getD []), b < 256 := by
      intro b hb
      obtain ⟨cp, hcp, hb⟩ := List.mem_flatMap.1 hb
      rw [← plain_spec] at hb
      exact (spec_ok (plainEncoder k) (plain_ok k) cp).1 b hb
    have e1 : (Decoders.slice buf p q).map (undoAll ts) = cps.flatMap fun cp => (k.spec cp).getD [] := by
      show ((buf.drop p).take (q - p)).map _ = _
      rw [hsl, he]
      exact Transforms.byteChain_undone ts hv _ hbytes
    rw [e1] at h1
    have := Decoders.decoded_unique h1 h3 hbytes
    subst this
    refine ⟨out, h4, fun n => ?_⟩
    refine (h2 n).trans ?_
    congr 1
    simp [Decoders.unrotAll]
  | icu t =>
    obtain ⟨x, -, -, ht⟩ := hr
    obtain ⟨out, h1, h2⟩ := Decoders.icu_stream (Build.reads _ _ ht) ts hv buf hb p q hpq hq st
    obtain ⟨out', h3, h4⟩ := Decoders.converted_text (Build.reads _ _ ht) cps p hn
    have hbytes : ∀ b ∈ cps.flatMap t.write, b < 256 := by
      intro b hb
      obtain ⟨cp, hcp, hb⟩ := List.mem_flatMap.1 hb
      exact (Build.ok _ _ ht).bytes cp b hb
    have e1 : (Decoders.slice buf p q).map (undoAll ts) = cps.flatMap t.write := by
      show ((buf.drop p).take (q - p)).map _ = _
      rw [hsl, he]
      exact Transforms.byteChain_undone ts hv _ hbytes
    rw [e1] at h1
    have := Decoders.converted_unique (Build.reads _ _ ht) h1 h3
    subst this
    exact ⟨out, h4, h2⟩

-- The text `aé` in UTF-8 with Outlook's byte transform.
example : ∀ cp ∈ [97, 233], (wrapBytes (.utf .utf8) [name "OCE"]).spec cp ≠ [] := by decide +kernel

end Verif.Chain
