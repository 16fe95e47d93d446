import Verif.Props.Session
import Verif.Props.Reported
import Verif.Props.Ways
/-!
# C78: the hits for a text are those a backtracking matcher for the text finds

From the text of a pattern, its options and an encoding to the hits of its keyword, with the
order in which a backtracking matcher for the text would try its choices.

Specification: `textRests` says what is left after a leaf of the parsed text in an encoding,
and `Verif.Regex.preferred` what is left after the match that a backtracking matcher finds
first.
-/
namespace Verif.Session
open Verif.Encoders Verif.Chain Verif.Nfa Verif.NfaBuilder Verif.Fsm Verif.Subset
open Verif.Regex (Tree lang NoLook NoBlank NgFlat AllLeaves weight UNB preferred rests Splits)
open Verif.Parser (Env PatternOpts)

/-! ## Specification -/

open Classical in
/-- What is left after a string that a leaf stands for if `enc` encodes the characters, the
shortest string first. -/
noncomputable def textRests (enc : Nat → List Nat) (n : Node) (w : List UInt8) : List (List UInt8) :=
  ((List.range (w.length + 1)).filter fun i => decide (w.take i ∈ textSem enc n)).map fun i => w.drop i

/-- Not a class that names single bytes beside characters. -/
def Pure : Node → Prop
  | .cls _ brk true => ∀ b, brk.has b = false
  | _ => True

/-- The texts for which the choice of a backtracking matcher is kept up to the automaton: no
lazy repetition within a repetition, no branch that is only `{0}` before a bar, no repetitions of the same thing side by side,
and what the rewriter makes of it repeats greedily what matches nothing only at the last, if
at all, and tries nothing after it could have ended. -/
structure Plain (enc : Nat → List Nat) (t : Tree Node) : Prop where
  pure : AllLeaves Pure t
  flat : NgFlat t
  noBlank : NoBlank t
  apart : ∃ c, Regex.combine (Regex.assoc t).2 = some (false, c)
  reduced : ∀ u, Regex.reduce (.lit 120) true true t = some (some u) → Calm (textSem enc) u ∧ Tail (textSem enc) u

/-! ## Characters are read in one way only -/

/-- The encoding of a character is not the beginning of another's. -/
theorem charset_prefix (k : Decoders.Charset) {c d : Nat} {a b : List Nat} (ha : k.spec c = some a) (hb : k.spec d = some b)
    (h : a <+: b) : c = d := by
  have key : ∀ {enc : Int → List Nat} {dec : List Nat → Utf.Dec} {spec : Nat → List Nat},
      (∀ c : Int, enc c = if 0 ≤ c ∧ Utf.Scalar c.toNat then spec c.toNat else []) →
      (∀ c : Nat, Utf.Scalar c → ∀ rest, dec (enc c ++ rest) = .ok c (enc c).length) →
      Utf.Scalar c → Utf.Scalar d → spec c <+: spec d → c = d := by
    intro enc dec spec hi hi' hc hd hp
    have e : ∀ c : Nat, Utf.Scalar c → enc c = spec c := by
      intro c hc
      rw [hi]
      simp [hc]
    obtain ⟨x, hx⟩ := hp
    have h1 := hi' c hc x
    have h2 := hi' d hd []
    rw [e c hc, hx] at h1
    rw [e d hd, List.append_nil, h1] at h2
    injection h2
  cases k with
  | ascii =>
    simp only [Decoders.Charset.spec, Option.ite_none_right_eq_some, Option.some.injEq] at ha hb
    obtain ⟨-, rfl⟩ := ha
    obtain ⟨-, rfl⟩ := hb
    simpa using h
  | utf8 =>
    simp only [Decoders.Charset.spec, Option.ite_none_right_eq_some, Option.some.injEq] at ha hb
    obtain ⟨hc, rfl⟩ := ha
    obtain ⟨hd, rfl⟩ := hb
    exact key Utf.utf8_inverse.1 Utf.utf8_inverse.2.1 hc hd h
  | utf16 le =>
    simp only [Decoders.Charset.spec, Option.ite_none_right_eq_some, Option.some.injEq] at ha hb
    obtain ⟨hc, rfl⟩ := ha
    obtain ⟨hd, rfl⟩ := hb
    exact key (Utf.utf16_inverse le).1 (Utf.utf16_inverse le).2.1 hc hd h
  | utf32 le =>
    simp only [Decoders.Charset.spec, Option.ite_none_right_eq_some, Option.some.injEq] at ha hb
    obtain ⟨hc, rfl⟩ := ha
    obtain ⟨hd, rfl⟩ := hb
    exact key (Utf.utf32_inverse le).1 (Utf.utf32_inverse le).2.1 hc hd h

theorem toBytes_prefix {a b : List Nat} (ha : Utf.Bytes a) (hb : Utf.Bytes b) (h : toBytes a <+: toBytes b) : a <+: b := by
  have e : ∀ l : List Nat, Utf.Bytes l → (toBytes l).map UInt8.toNat = l := by
    intro l hl
    rw [toBytes, List.map_map]
    conv => rhs; rw [← List.map_id l]
    refine List.map_congr_left fun x hx => ?_
    have := hl x hx
    simp only [Function.comp, UInt8.toNat_ofNat', id]
    omega
  have := h.map UInt8.toNat
  rwa [e a ha, e b hb] at this

/-- Nor is it in one of ICU's encodings, because it is read back whatever follows. -/
theorem coding_prefix [Build] {chain : List UInt8} {k : Coding} {ts : List Transforms.ByteT} (hr : Reads chain k ts) {c d : Nat}
    (hc : k.spec c ≠ []) (hd : k.spec d ≠ []) (h : k.spec c <+: k.spec d) : c = d := by
  cases k with
  | std k =>
    cases ha : k.spec c with
    | none => simp [Coding.spec, ha] at hc
    | some a =>
      cases hb : k.spec d with
      | none => simp [Coding.spec, hb] at hd
      | some b =>
        simp only [Coding.spec, ha, hb, Option.getD_some] at h
        exact charset_prefix k ha hb h
  | icu t =>
    obtain ⟨-, hb⟩ := reads_icu hr
    obtain ⟨x, hx⟩ := h
    have h1 := hb.back c x hc
    have h2 := hb.back d [] hd
    rw [show t.write c ++ x = t.write d from hx] at h1
    rw [List.append_nil, h1] at h2
    simp only [Option.some.injEq, Prod.mk.injEq] at h2
    exact h2.1

/-- **C78** In every encoding that a chain can name, the encoding of a character, as it is
searched for, is not the beginning of another's. -/
theorem chars_prefix [Build] {chain : List UInt8} {k : Coding} {ts : List Transforms.ByteT} (hr : Reads chain k ts) {c d : Nat}
    (hc : charBytes k ts c ≠ []) (hd : charBytes k ts d ≠ []) (h : toBytes (charBytes k ts c) <+: toBytes (charBytes k ts d)) : c = d := by
  have hv : ∀ t ∈ ts, t.Valid := by
    intro t ht
    cases t with
    | xor k => exact absurd rfl (reads_bytes hr _ ht k)
    | identity => trivial
    | oce => trivial
  have hb := (reads_small hr).1
  have hb' : ∀ (ts : List Transforms.ByteT), (∀ t ∈ ts, t.Valid) → ∀ x < 256, Transforms.applyAll ts x < 256 := by
    intro ts
    induction ts with
    | nil => intro _ x hx; exact hx
    | cons t ts ih =>
      intro hv x hx
      exact ih (fun t ht => hv t (by simp [ht])) _ (Transforms.byteTransform_undone t (hv t (by simp)) x hx).1
  have hs : ∀ c, Utf.Bytes (charBytes k ts c) := by
    intro c y hy
    obtain ⟨x, hx, rfl⟩ := List.mem_map.1 hy
    exact hb' ts hv x (hb c x hx)
  have := (toBytes_prefix (hs c) (hs d) h).map (Transforms.undoAll ts)
  simp only [charBytes] at this
  rw [Transforms.byteChain_undone ts hv _ (hb c), Transforms.byteChain_undone ts hv _ (hb d)] at this
  exact coding_prefix hr (by simpa [charBytes] using hc) (by simpa [charBytes] using hd) this

/-- So a leaf that is not a class with single bytes is read in one way. -/
theorem pure_oneWay [Build] {chain : List UInt8} {k : Coding} {ts : List Transforms.ByteT} (hr : Reads chain k ts) {n : Node}
    (hn : Pure n) {u v : List UInt8} (hu : u ∈ textSem (charBytes k ts) n) (hv : v ∈ textSem (charBytes k ts) n) (h : u <+: v) :
    u = v := by
  have key : ∀ {c d : Nat}, charBytes k ts c ≠ [] → charBytes k ts d ≠ [] → u = toBytes (charBytes k ts c) →
      v = toBytes (charBytes k ts d) → u = v := by
    rintro c d hc hd rfl rfl
    rw [chars_prefix hr hc hd h]
  cases n with
  | lit c =>
    obtain ⟨h1, e1⟩ : _ ∧ u = toBytes (charBytes k ts c) := hu
    obtain ⟨h2, e2⟩ : _ ∧ v = toBytes (charBytes k ts c) := hv
    exact key h1 h2 e1 e2
  | byte b =>
    have e1 : u = [b] := hu
    have e2 : v = [b] := hv
    rw [e1, e2]
  | dot =>
    obtain ⟨c, h1, e1⟩ : ∃ c, charBytes k ts c ≠ [] ∧ u = toBytes (charBytes k ts c) := hu
    obtain ⟨d, h2, e2⟩ : ∃ c, charBytes k ts c ≠ [] ∧ v = toBytes (charBytes k ts c) := hv
    exact key h1 h2 e1 e2
  | cls cps brk additive =>
    cases additive with
    | true =>
      have hn : ∀ b, brk.has b = false := hn
      have hu : (∃ c, RangeSet.has cps c = true ∧ charBytes k ts c ≠ [] ∧ u = toBytes (charBytes k ts c)) ∨
        ∃ b, brk.has b = true ∧ u = [b] := hu
      have hv : (∃ c, RangeSet.has cps c = true ∧ charBytes k ts c ≠ [] ∧ v = toBytes (charBytes k ts c)) ∨
        ∃ b, brk.has b = true ∧ v = [b] := hv
      rcases hu with ⟨c, -, h1, e1⟩ | ⟨b, hb, -⟩
      · rcases hv with ⟨d, -, h2, e2⟩ | ⟨b, hb, -⟩
        · exact key h1 h2 e1 e2
        · rw [hn b] at hb; cases hb
      · rw [hn b] at hb; cases hb
    | false =>
      have hu : (∃ c, RangeSet.has cps c = true ∧ charBytes k ts c ≠ [] ∧ u = toBytes (charBytes k ts c)) ∧
        ¬ ∃ b, brk.has b = true ∧ u = [b] := hu
      have hv : (∃ c, RangeSet.has cps c = true ∧ charBytes k ts c ≠ [] ∧ v = toBytes (charBytes k ts c)) ∧
        ¬ ∃ b, brk.has b = true ∧ v = [b] := hv
      obtain ⟨⟨c, -, h1, e1⟩, -⟩ := hu
      obtain ⟨⟨d, -, h2, e2⟩, -⟩ := hv
      exact key h1 h2 e1 e2

/-! ## Trees of the same shape -/

theorem textRests_splits (enc : Nat → List Nat) (n : Node) : Splits (textRests enc n) (textSem enc n) := by
  intro w r
  simp only [textRests, List.mem_map, List.mem_filter, List.mem_range, decide_eq_true_eq]
  constructor
  · rintro ⟨i, ⟨-, h⟩, rfl⟩
    exact ⟨w.take i, h, (List.take_append_drop i w).symm⟩
  · rintro ⟨u, hu, rfl⟩
    exact ⟨u.length, ⟨by simp; omega, by simpa using hu⟩, by simp⟩

/-- The same tree with other leaves for the same strings. -/
inductive Shape (enc : Nat → List Nat) : Tree Node → Tree Leaf → Prop
  | leaf {n a} : textSem enc n = leafSem a → Shape enc (.leaf n) (.leaf a)
  | alt {l r l' r'} : Shape enc l l' → Shape enc r r' → Shape enc (.alt l r) (.alt l' r')
  | cat {l r l' r'} : Shape enc l l' → Shape enc r r' → Shape enc (.cat l r) (.cat l' r')
  | rep {ng m M t t'} : Shape enc t t' → Shape enc (.rep ng m M t) (.rep ng m M t')
  | look {k t t'} : Shape enc t t' → Shape enc (.look k t) (.look k t')

variable {enc : Nat → List Nat}

theorem Shape.lang {t : Tree Node} {t' : Tree Leaf} (h : Shape enc t t') : lang (textSem enc) t = lang leafSem t' := by
  induction h with
  | leaf h => exact h
  | alt _ _ a b => simp only [Regex.lang, a, b]
  | cat _ _ a b => simp only [Regex.lang, a, b]
  | rep _ a => exact lang_rep_congr a _ _ _
  | look _ _ => rfl

theorem Shape.rests {t : Tree Node} {t' : Tree Leaf} (h : Shape enc t t') : rests (textRests enc) t = rests leafRests t' := by
  induction h with
  | @leaf n a h =>
    funext w
    show textRests enc n w = leafRests a w
    unfold textRests leafRests
    congr 1
    refine List.filter_congr fun i _ => ?_
    rw [Bool.eq_iff_iff, leafHas_iff, ← h]
    exact @decide_eq_true_iff _ (Classical.propDecidable _)
  | alt _ _ a b => simp only [Regex.rests, a, b]
  | cat _ _ a b => simp only [Regex.rests, a, b]
  | rep _ a => simp only [Regex.rests, a]
  | look _ _ => rfl

theorem Shape.last {t : Tree Node} {t' : Tree Leaf} (h : Shape enc t t') : Last (textSem enc) t → Last leafSem t' := by
  induction h with
  | leaf h => exact id
  | alt a b iha ihb => rintro ⟨h1, h2⟩; exact ⟨by rwa [← a.lang], ihb h2⟩
  | cat a b iha ihb =>
    intro h h1 h2
    rw [← a.lang] at h1
    rw [← b.lang] at h2
    exact ⟨iha (h h1 h2).1, ihb (h h1 h2).2⟩
  | rep a iha =>
    rintro ⟨h1, h2⟩
    refine ⟨h1, fun h => ?_⟩
    rw [← a.lang] at h
    exact ⟨(h2 h).1, iha (h2 h).2⟩
  | look _ _ => exact id

theorem Shape.calm {t : Tree Node} {t' : Tree Leaf} (h : Shape enc t t') : Calm (textSem enc) t → Calm leafSem t' := by
  induction h with
  | leaf h => exact id
  | alt a b iha ihb => rintro ⟨h1, h2⟩; exact ⟨iha h1, ihb h2⟩
  | cat a b iha ihb => rintro ⟨h1, h2⟩; exact ⟨iha h1, ihb h2⟩
  | rep a iha =>
    rintro ⟨h1, h2⟩
    refine ⟨iha h1, fun e1 e2 h => ?_⟩
    rw [← a.lang] at h
    exact a.last (h2 e1 e2 h)
  | look _ _ => exact id

theorem Shape.tail {t : Tree Node} {t' : Tree Leaf} (h : Shape enc t t') : Tail (textSem enc) t → Tail leafSem t' := by
  induction h with
  | leaf h => exact id
  | alt a b iha ihb => rintro ⟨h1, h2⟩; exact ⟨iha h1, ihb h2⟩
  | cat a b iha ihb =>
    rintro ⟨h1, h2⟩
    refine ⟨ihb h1, fun h => ?_⟩
    rw [← b.lang] at h
    exact ⟨iha (h2 h).1, b.last (h2 h).2⟩
  | rep a iha =>
    rintro ⟨h1, h2, h3⟩
    refine ⟨h1, iha h2, fun h => ?_⟩
    rw [← a.lang] at h
    exact a.last (h3 h)
  | look _ _ => exact id

theorem Shape.oneWay [Build] {chain : List UInt8} {k : Coding} {ts : List Transforms.ByteT} (hr : Reads chain k ts)
    {t : Tree Node} {t' : Tree Leaf} (h : Shape (charBytes k ts) t t') : AllLeaves Pure t → AllLeaves OneWay t' := by
  induction h with
  | leaf h =>
    intro hp u hu v hv e
    rw [← h] at hu hv
    exact pure_oneWay hr hp hu hv e
  | alt a b iha ihb => rintro ⟨h1, h2⟩; exact ⟨iha h1, ihb h2⟩
  | cat a b iha ihb => rintro ⟨h1, h2⟩; exact ⟨iha h1, ihb h2⟩
  | rep a iha => exact iha
  | look a iha => exact iha

/-- Encoding the leaves keeps the shape. -/
theorem leaves_shape {e : Encoder} (hok : e.Ok) : ∀ (t : Tree Node) {c c' : Cache} {t' : Tree Leaf}, e.CacheOk c →
    AllLeaves Node.Ok t → AllLeaves e.Writable t → e.leaves c t = some (c', t') → e.CacheOk c' ∧ Shape e.spec t t' := by
  intro t
  induction t with
  | leaf n =>
    intro c c' t' hc hn hw h
    obtain ⟨c1, l, h1, h2, h3, -⟩ := leaf_exact hok hc hn
    simp only [Encoder.leaves, h1, Option.map_some, Option.some.injEq, Prod.mk.injEq] at h
    obtain ⟨rfl, rfl⟩ := h
    refine ⟨h2, .leaf ?_⟩
    have := lang_textSem hok (t := .leaf n) hw
    exact this.trans h3.symm
  | alt l r ihl ihr =>
    intro c c' t' hc hn hw h
    simp only [Encoder.leaves, Option.bind_eq_bind, Option.bind_eq_some_iff, Option.some.injEq, Prod.mk.injEq] at h
    obtain ⟨a, h1, b, h2, rfl, rfl⟩ := h
    obtain ⟨a1, a2⟩ := ihl hc hn.1 hw.1 h1
    obtain ⟨b1, b2⟩ := ihr a1 hn.2 hw.2 h2
    exact ⟨b1, .alt a2 b2⟩
  | cat l r ihl ihr =>
    intro c c' t' hc hn hw h
    simp only [Encoder.leaves, Option.bind_eq_bind, Option.bind_eq_some_iff, Option.some.injEq, Prod.mk.injEq] at h
    obtain ⟨a, h1, b, h2, rfl, rfl⟩ := h
    obtain ⟨a1, a2⟩ := ihl hc hn.1 hw.1 h1
    obtain ⟨b1, b2⟩ := ihr a1 hn.2 hw.2 h2
    exact ⟨b1, .cat a2 b2⟩
  | rep ng m M t ih =>
    intro c c' t' hc hn hw h
    simp only [Encoder.leaves, Option.bind_eq_bind, Option.bind_eq_some_iff, Option.some.injEq, Prod.mk.injEq] at h
    obtain ⟨a, h1, rfl, rfl⟩ := h
    obtain ⟨a1, a2⟩ := ih hc hn hw h1
    exact ⟨a1, .rep a2⟩
  | look k t ih =>
    intro c c' t' hc hn hw h
    simp only [Encoder.leaves, Option.bind_eq_bind, Option.bind_eq_some_iff, Option.some.injEq, Prod.mk.injEq] at h
    obtain ⟨a, h1, rfl, rfl⟩ := h
    obtain ⟨a1, a2⟩ := ih hc hn hw h1
    exact ⟨a1, .look a2⟩

/-! ## From the text to the hits -/

/-- What an accepted request hands to the builder prefers what the text prefers. -/
theorem accepted_preferred [Build] {env : Env} (he : env.Sound) {r : Request} (hm : Modest env r) {l : Nat} {t' : Tree Leaf}
    (ha : Accepted env r l t') {t : Tree Node} {j : Nat} (hpt : Text.parseText env r.opts r.expr = .ok (t, j))
    {k : Coding} {ts : List Transforms.ByteT} (hrd : Reads r.chain k ts) (hb : Plain (charBytes k ts) t) :
    Backtracks t' ∧ ∀ w, preferred leafRests t' w = preferred (textRests (charBytes k ts)) t w := by
  obtain ⟨f, e, c, u, c', hf, hg, hu, hl⟩ := ha.handed
  obtain ⟨heo, hco, k', ts', hrd', hsp⟩ := (chain_meaning hf r.chain).1 e c hg
  obtain ⟨rfl, rfl⟩ := reads_unique hrd hrd'
  have hsp : e.spec = charBytes k ts := funext hsp
  unfold Text.parseAndReduce at hu
  rw [hpt] at hu
  dsimp only at hu
  rw [Text.shortcuts_are_sound he hm.2 hpt] at hu
  split at hu
  · cases hu
  · next u' hu' =>
    cases hu
    obtain ⟨hok, hlv⟩ := parseText_ok he hpt
    have hw := hm.1 t j hpt
    obtain ⟨-, -, -, s4⟩ := Regex.reduce_sane Node.Ok (.lit 120) trivial hok hw hlv hu'
    obtain ⟨-, -, -, s5⟩ := Regex.reduce_sane Pure (.lit 120) trivial hok hw hb.pure hu'
    have hwr : AllLeaves e.Writable u := leaves_lits u hl (build_lits ha.takes.1)
    obtain ⟨-, hsh⟩ := leaves_shape heo u hco s4 hwr hl
    rw [hsp] at hsh
    obtain ⟨q1, q2⟩ := hb.reduced u hu'
    refine ⟨⟨hsh.oneWay hrd s5, hsh.calm q1, hsh.tail q2⟩, fun w => ?_⟩
    obtain ⟨cc, hcc⟩ := hb.apart
    obtain ⟨u2, hu2, hp⟩ := Regex.reduce_preferred_partial (textSem (charBytes k ts)) (textSem_nonempty _)
      (textRests (charBytes k ts)) (textRests_splits _) (.lit 120) hok (ha.noLook t j hpt) hb.flat hb.noBlank hw hcc
    rw [hu'] at hu2
    cases hu2
    rw [← hp w]
    show _ = preferred _ u w
    unfold preferred
    rw [hsh.rests]

/-- **C78** Patterns are requested in any order, with any options and encodings; some are
refused.  A program is made of the FSM, determinizing to any depth, in which no landing address
is 0, and a stream, given in any consecutive buffers to a fresh context, is searched and closed
out.  Then for every accepted request whose text is as `Plain` says, and whose automaton stays in
order when it is merged, the hits with its number are those a backtracking matcher for the text
finds in its encoding: at each place, left to right, the first match in the order of its
choices, going on after its end. -/
theorem text_backtrack_partial [Build] {env : Env} (he : env.Sound) {rs : List Request} {os : List (Option Nat)} {g : Graph}
    {P : Vm.Program} (h : Compiled env rs os g P) (hz : Compiler.NoZero g)
    {fuel : Nat} {first : List Vm.Thread} {σ₀ : Vm.St} (hnew : Vm.create P fuel = .ok (first, σ₀))
    {off : Nat} {bufs : List (List UInt8)} {res : List (Option Nat)} {σ : Vm.St}
    (hrun : Vm.run P first fuel (Vm.searches off bufs) σ₀ = .ok (res, σ)) {i l : Nat} {r : Request}
    (hr : rs[i]? = some r) (ho : os[i]? = some (some l)) {t : Tree Node} {j : Nat}
    (hpt : Text.parseText env r.opts r.expr = .ok (t, j)) {k : Coding} {ts : List Transforms.ByteT}
    (hrd : Reads r.chain k ts) (hb : Plain (charBytes k ts) t) (hs : ∀ t', Handed env r t' → ∀ fuel, Stays fuel l t') :
    Reports (preferred (textRests (charBytes k ts)) t) off bufs.flatten 0 (Vm.hitsOf l σ.log) := by
  obtain ⟨ps, hM, -, h4, -⟩ := h.made' he
  obtain ⟨t', hp, ha⟩ := h4 i r l hr ho
  obtain ⟨f1, f2, f3, g0, det, depth, m1, m2, m3⟩ := hM.made
  obtain ⟨hb', hpr⟩ := accepted_preferred he (h.modest r (List.mem_of_getElem? hr)) ha hpt hrd hb
  have := hits_backtrack_partial hM.patterns m1 m2 hM.nodup m3 hz hnew hrun hp ha.takes hb' (hs t' ha.handed f1)
  rwa [show preferred leafRests t' = preferred (textRests (charBytes k ts)) t from funext hpr] at this

/-! ## Example -/

section Example
attribute [local instance] Build.plain

/-- `fox|fa` and `x(a|ab)*?c+`, both in ASCII. -/
def pair : List Request := [
  ⟨name "fox|fa", ⟨false, false, false⟩, name "ASCII"⟩,
  ⟨name "x(a|ab)*?c+", ⟨false, false, false⟩, name "ASCII"⟩]

private def lit (c : Nat) : Tree Node := .leaf (.lit c)

/-- The trees of the texts. -/
def foxTree : Tree Node := .alt (.cat (.cat (lit 0x66) (lit 0x6f)) (lit 0x78)) (.cat (lit 0x66) (lit 0x61))
def lazyTree : Tree Node :=
  .cat (.cat (lit 0x78) (.rep true 0 UNB (.alt (lit 0x61) (.cat (lit 0x61) (lit 0x62))))) (.rep false 1 UNB (lit 0x63))

/-- And what the rewriter makes of them. -/
def foxTree' : Tree Node := .alt (.cat (lit 0x66) (.cat (lit 0x6f) (lit 0x78))) (.cat (lit 0x66) (lit 0x61))
def lazyTree' : Tree Node :=
  .cat (lit 0x78) (.cat (.rep true 0 UNB (.alt (lit 0x61) (.cat (lit 0x61) (lit 0x62)))) (.rep false 1 UNB (lit 0x63)))

theorem pair_parsed : (∃ j, Text.parseText Parser.plain (⟨false, false, false⟩) (name "fox|fa") = .ok (foxTree, j)) ∧
    ∃ j, Text.parseText Parser.plain (⟨false, false, false⟩) (name "x(a|ab)*?c+") = .ok (lazyTree, j) :=
  ⟨parsesTo_iff (r := ⟨name "fox|fa", ⟨false, false, false⟩, name "ASCII"⟩) (by decide +kernel),
    parsesTo_iff (r := ⟨name "x(a|ab)*?c+", ⟨false, false, false⟩, name "ASCII"⟩) (by decide +kernel)⟩

theorem pair_reduced : Regex.reduce (.lit 120) true true foxTree = some (some foxTree') ∧
    Regex.reduce (.lit 120) true true lazyTree = some (some lazyTree') := by
  constructor <;> decide +kernel

theorem ascii_lit {c : Nat} (h : c < 128) : textSem (charBytes (.std .ascii) []) (.lit c) = leafSem (.lit [UInt8.ofNat c]) := by
  ext w
  show _ ∧ w = _ ↔ w = _
  simp [charBytes, Coding.spec, Decoders.Charset.spec, h, toBytes, Transforms.applyAll]

theorem pair_shape : Shape (charBytes (.std .ascii) []) foxTree' animals ∧ Shape (charBytes (.std .ascii) []) lazyTree' lazyMiddle := by
  have l : ∀ c, c < 128 → Shape (charBytes (.std .ascii) []) (lit c) (.leaf (.lit [UInt8.ofNat c])) := fun c h => .leaf (ascii_lit h)
  exact ⟨.alt (.cat (l _ (by decide)) (.cat (l _ (by decide)) (l _ (by decide)))) (.cat (l _ (by decide)) (l _ (by decide))),
    .cat (l _ (by decide)) (.cat (.rep (.alt (l _ (by decide)) (.cat (l _ (by decide)) (l _ (by decide))))) (.rep (l _ (by decide))))⟩

theorem pair_plain : Plain (charBytes (.std .ascii) []) foxTree ∧ Plain (charBytes (.std .ascii) []) lazyTree := by
  have n1 : ∀ c, [] ∉ lang (textSem (charBytes (.std .ascii) [])) (lit c) := fun c => textSem_nonempty _ _
  have n2 : ∀ (c : Nat) (t : Tree Node), [] ∉ lang (textSem (charBytes (.std .ascii) [])) (.cat (lit c) t) :=
    fun c t h => n1 c (Regex.nil_mem_mul.1 h).1
  obtain ⟨r1, r2⟩ := pair_reduced
  refine ⟨⟨?_, ?_, ?_, ⟨foxTree', ?_⟩, ?_⟩, ⟨?_, ?_, ?_, ⟨lazyTree', ?_⟩, ?_⟩⟩
  · simp [foxTree, lit, AllLeaves, Pure]
  · simp [foxTree, lit, NgFlat]
  · simp [foxTree, lit, NoBlank, Regex.Blank]
  · decide +kernel
  · intro u hu
    rw [r1] at hu
    cases hu
    refine ⟨by simp [foxTree', lit, Calm], ?_⟩
    have e1 := n1 0x78
    have e2 := n1 0x61
    have e3 := n2 0x6f (lit 0x78)
    simp only [foxTree', Tail, e1, e2, e3, false_implies, and_true]
    exact ⟨trivial, trivial⟩
  · simp [lazyTree, lit, AllLeaves, Pure]
  · simp [lazyTree, lit, NgFlat, Regex.NoNg]
  · simp [lazyTree, lit, NoBlank, Regex.Blank, UNB]
  · decide +kernel
  · intro u hu
    rw [r2] at hu
    cases hu
    have e1 := n1 0x63
    have e2 : [] ∉ lang (textSem (charBytes (.std .ascii) [])) (.rep false 1 UNB (lit 0x63)) := by
      rintro ⟨k, h1, -, h2⟩
      rcases Regex.nil_mem_pow.1 h2 with h | h
      · omega
      · exact n1 0x63 h
    have e3 : [] ∉ lang (textSem (charBytes (.std .ascii) []))
        (.cat (.rep true 0 UNB (.alt (lit 0x61) (.cat (lit 0x61) (lit 0x62)))) (.rep false 1 UNB (lit 0x63))) :=
      fun h => e2 (Regex.nil_mem_mul.1 h).2
    refine ⟨⟨trivial, ⟨⟨trivial, ⟨trivial, trivial⟩⟩, fun h => by cases h⟩, trivial, fun _ _ h => absurd h e1⟩, ?_⟩
    simp only [lazyTree', Tail, e1, e2, e3, false_implies, and_true]
    exact ⟨Or.inl trivial, trivial⟩

theorem pruneLoop_more : ∀ (n : Nat) (s : Optimizer.Prune) (g : Graph), Optimizer.pruneLoop n s = some g →
    ∀ m, n ≤ m → Optimizer.pruneLoop m s = some g
  | 0, s, g, h, m, hm => by cases h
  | n + 1, s, g, h, m, hm => by
    obtain ⟨m, rfl⟩ : ∃ k, m = k + 1 := ⟨m - 1, by omega⟩
    unfold Optimizer.pruneLoop at h ⊢
    split
    · next e => rw [e] at h; exact h
    · next e => rw [e] at h; exact pruneLoop_more n _ g h m (by omega)

/-- With any budget that is enough. -/
theorem stays_any {f l : Nat} {t : Tree Leaf} (ht : ∃ p p', build l (some t) = .good p ∧ Optimizer.pruneBranches f p = some p')
    (h : Stays f l t) (fuel : Nat) : Stays fuel l t := by
  intro p p' h1 h2
  obtain ⟨q, q', e1, e2⟩ := ht
  rw [h1] at e1
  cases e1
  have e : p' = q' := by
    have a := pruneLoop_more _ _ _ h2 (max fuel f) (by omega)
    have b := pruneLoop_more _ _ _ e2 (max fuel f) (by omega)
    rw [a] at b
    exact Option.some.inj b
  exact h p p' h1 (by rw [e]; exact e2)

theorem pair_modest : ∀ r ∈ pair, Modest Parser.plain r := by
  obtain ⟨⟨j1, p1⟩, j2, p2⟩ := pair_parsed
  intro r hr
  simp only [pair, List.mem_cons, List.not_mem_nil, or_false] at hr
  rcases hr with rfl | rfl
  · exact ⟨parsed_of p1 (by simp [foxTree, lit, weight, UNB]), by decide⟩
  · exact ⟨parsed_of p2 (by simp [lazyTree, lit, weight, UNB]), by decide⟩

theorem handed_tree {env : Env} (he : env.Sound) {r : Request} (hm : Modest env r) {t u : Tree Node} {j : Nat}
    (hpt : Text.parseText env r.opts r.expr = .ok (t, j)) (hred : Regex.reduce (.lit 120) true true t = some (some u))
    {t' : Tree Leaf} (h : Handed env r t') :
    ∃ f e c c', FactoryOk f ∧ f.get r.chain = some (e, c) ∧ e.leaves c u = some (c', t') := by
  obtain ⟨f, e, c, u', c', hf, hg, hu, hl⟩ := h
  unfold Text.parseAndReduce at hu
  rw [hpt] at hu
  dsimp only at hu
  rw [Text.shortcuts_are_sound he hm.2 hpt, hred] at hu
  cases hu
  exact ⟨f, e, c, c', hf, hg, hl⟩

/-- What is handed to the builder for them. -/
theorem pair_handed {t' : Tree Leaf} : (Handed Parser.plain ⟨name "fox|fa", ⟨false, false, false⟩, name "ASCII"⟩ t' → t' = animals) ∧
    (Handed Parser.plain ⟨name "x(a|ab)*?c+", ⟨false, false, false⟩, name "ASCII"⟩ t' → t' = lazyMiddle) := by
  have key : ∀ {f : Factory} {e : Encoder} {c : Cache}, FactoryOk f → f.get (name "ASCII") = some (e, c) → ∀ x, x < 128 →
      (e.write x).map UInt8.ofNat = [UInt8.ofNat x] := by
    intro f e c hf hg x hx
    obtain ⟨heo, hco, k, ts, hrd, hsp⟩ := (chain_meaning hf (name "ASCII")).1 e c hg
    obtain ⟨rfl, rfl⟩ := reads_unique hrd ascii_reads
    rw [write_spec, hsp]
    simp [Coding.spec, Decoders.Charset.spec, hx, Transforms.applyAll]
  obtain ⟨⟨j1, p1⟩, j2, p2⟩ := pair_parsed
  obtain ⟨r1, r2⟩ := pair_reduced
  constructor
  · intro h
    obtain ⟨f, e, c, c', hf, hg, hl⟩ := handed_tree Parser.plain_sound (pair_modest _ (List.mem_cons_self ..)) p1 r1 h
    have k := key hf hg
    simp only [foxTree', lit, Encoder.leaves, Encoder.leaf, Option.map_some, Option.bind_eq_bind, Option.bind_some,
      k 0x66 (by decide), k 0x6f (by decide), k 0x78 (by decide), k 0x61 (by decide), Option.some.injEq, Prod.mk.injEq] at hl
    exact hl.2.symm
  · intro h
    obtain ⟨f, e, c, c', hf, hg, hl⟩ := handed_tree Parser.plain_sound
      (pair_modest _ (List.mem_cons_of_mem _ (List.mem_cons_self ..))) p2 r2 h
    have k := key hf hg
    simp only [lazyTree', lit, Encoder.leaves, Encoder.leaf, Option.map_some, Option.bind_eq_bind, Option.bind_some,
      k 0x62 (by decide), k 0x63 (by decide), k 0x78 (by decide), k 0x61 (by decide), Option.some.injEq, Prod.mk.injEq] at hl
    exact hl.2.symm

theorem pair_stay (fuel : Nat) : Stays fuel 0 animals ∧ Stays fuel 1 lazyMiddle := by
  have h1 : (match build 0 (some animals) with
      | .good p => (Optimizer.pruneBranches 60 p).isSome
      | _ => false) = true := by decide +kernel
  have h2 : (match build 1 (some lazyMiddle) with
      | .good p => (Optimizer.pruneBranches 60 p).isSome
      | _ => false) = true := by decide +kernel
  have key : ∀ {l : Nat} {t : Tree Leaf}, (match build l (some t) with
      | .good p => (Optimizer.pruneBranches 60 p).isSome
      | _ => false) = true → ∃ p p', build l (some t) = .good p ∧ Optimizer.pruneBranches 60 p = some p' := by
    intro l t h
    split at h
    · next p hb =>
      obtain ⟨p', hp⟩ := Option.isSome_iff_exists.1 h
      exact ⟨p, p', hb, hp⟩
    · cases h
  exact ⟨stays_any (key h1) two_stay.2.2.1 fuel, stays_any (key h2) two_stay.2.2.2 fuel⟩

theorem pair_runs : ∃ s g', requests 60 Parser.plain .init pair = some (s, [some 0, some 1]) ∧
    finalizeGraph 60 false 4294967295 s.graph = some (.ok g') ∧ g'.n ≤ 20 ∧ Compiler.NoZero g' := by
  have h : (match requests 60 Parser.plain .init pair with
      | some (s, os) => decide (os = [some 0, some 1]) && (match finalizeGraph 60 false 4294967295 s.graph with
          | some (.ok g') => decide (g'.n ≤ 20) && (List.range g'.n).all fun v => decide ((g'.v v).out.length ≤ 3)
          | _ => false)
      | _ => false) = true := by decide +kernel
  cases h1 : requests 60 Parser.plain .init pair with
  | none => rw [h1] at h; cases h
  | some x =>
    obtain ⟨s, os⟩ := x
    simp only [h1, Bool.and_eq_true, decide_eq_true_eq] at h
    obtain ⟨rfl, h⟩ := h
    cases h2 : finalizeGraph 60 false 4294967295 s.graph with
    | none => rw [h2] at h; cases h
    | some r =>
      cases r with
      | error e => rw [h2] at h; cases h
      | ok g' =>
        simp only [h2, Bool.and_eq_true, List.all_eq_true, List.mem_range, decide_eq_true_eq] at h
        refine ⟨s, g', rfl, h2, h.1, ?_⟩
        intro u _ v hv ht
        have := h.2 v (by omega)
        simp only [Compiler.isTable, Bool.and_eq_true, decide_eq_true_eq] at ht
        omega

/-- In "fofoxabaccfa", searched in two pieces, the hits of the first text are "fox" and "fa",
that of the second is "xabacc". -/
example : ∃ g P first σ₀ res σ, Compiled Parser.plain pair [some 0, some 1] g P ∧ Compiler.NoZero g ∧
    Vm.create P 60 = .ok (first, σ₀) ∧
    Vm.run P first 60 (Vm.searches 0 [[0x66, 0x6f, 0x66, 0x6f], [0x78, 0x61, 0x62, 0x61, 0x63, 0x63, 0x66, 0x61]]) σ₀ = .ok (res, σ) ∧
    Vm.hitsOf 0 σ.log = [(2, 5), (10, 12)] ∧ Vm.hitsOf 1 σ.log = [(4, 10)] := by
  obtain ⟨s, g, h1, h2, h3, h4⟩ := pair_runs
  obtain ⟨ps, q1, q2, q3, -, q5⟩ := requests_spec Parser.plain_sound pair pair_modest factory_init h1
  have hps : Patterns ps := by
    refine ⟨by rw [q3]; exact List.nodup_range', fun p hp => ?_⟩
    obtain ⟨i, r, -, -, ha⟩ := q5 p hp
    exact ha.sane
  have hd := finalized_parallel hps q1 h2 (Or.inr (by omega))
  obtain ⟨F, hF⟩ := finalized_search_ends hps q1 h2 hd (by omega) (by
    intro p hp
    have hl : ps.length = 2 := by
      have := congrArg List.length q2
      simpa using this.symm
    have : p.1 ∈ ps.map (·.1) := List.mem_map_of_mem hp
    rw [q3, List.mem_range'_1, hl] at this
    have : State.init.count = 0 := rfl
    omega)
  obtain ⟨P, hP, hrun⟩ := hF F (Nat.le_refl _)
  obtain ⟨first, σ₀, res, σ, r1, r2⟩ := hrun 60 (by omega) 0 [[0x66, 0x6f, 0x66, 0x6f], [0x78, 0x61, 0x62, 0x61, 0x63, 0x63, 0x66, 0x61]]
  have hC : Compiled Parser.plain pair [some 0, some 1] g P := ⟨pair_modest, ⟨_, _, F, s, _, _, h1, h2, hP⟩, hd⟩
  obtain ⟨⟨j1, p1⟩, j2, p2⟩ := pair_parsed
  have e1 := text_backtrack_partial Parser.plain_sound hC h4 r1 r2 (i := 0) (l := 0) rfl rfl p1 ascii_reads pair_plain.1
    (fun t' ht f => by rw [pair_handed.1 ht]; exact (pair_stay f).1)
  have e2 := text_backtrack_partial Parser.plain_sound hC h4 r1 r2 (i := 1) (l := 1) rfl rfl p2 ascii_reads pair_plain.2
    (fun t' ht f => by rw [pair_handed.2 ht]; exact (pair_stay f).2)
  have f1 : preferred (textRests (charBytes (.std .ascii) [])) foxTree = preferred leafRests animals := by
    funext w
    unfold preferred
    rw [← pair_shape.1.rests, ← Regex.assoc_rests, show (Regex.assoc foxTree).2 = foxTree' by decide +kernel]
  have f2 : preferred (textRests (charBytes (.std .ascii) [])) lazyTree = preferred leafRests lazyMiddle := by
    funext w
    unfold preferred
    rw [← pair_shape.2.rests, ← Regex.assoc_rests, show (Regex.assoc lazyTree).2 = lazyTree' by decide +kernel]
  rw [f1] at e1
  rw [f2] at e2
  exact ⟨g, P, first, σ₀, res, σ, hC, h4, r1, r2,
    reports_unique e1 (reports_of_B (by decide +kernel)), reports_unique e2 (reports_of_B (by decide +kernel))⟩

end Example

end Verif.Session
