import Verif.EncTable
import Verif.Props.Chain
/-!
# C95: the table of encodings of a build with ICU

Specification.  `First es n i`: the encoding number `i` is the first of `es` that has the
alias `n`.
-/
namespace Verif.EncTable
open Verif.Chain (name small Same findTrans_eq findTrans Known Build)

/-- The encodings that are not left out. -/
def kept (icu : Icu) : List Enc := icu.available.filter fun e => e.name ∉ skip

/-- The first that has the alias. -/
def First (es : List Enc) (n : Name) (i : Nat) : Prop :=
  (∃ e, es[i]? = some e ∧ n ∈ e.aliases) ∧ ∀ (j : Nat) (e : Enc), j < i → es[j]? = some e → n ∉ e.aliases

/-! ## The map -/

def Sorted (m : IdMap) : Prop := m.Pairwise fun x y => x.1 < y.1

theorem name_lt_trans {a b c : Name} (h : a < b) (h' : b < c) : a < c := List.lt_trans h h'

theorem name_lt_irrefl (a : Name) : ¬ a < a := List.lt_irrefl a

theorem name_lt_of {a b : Name} (h : ¬ a < b) (h' : b ≠ a) : b < a := by
  rcases Nat.lt_or_ge 0 1 with _ | _
  · exact (List.le_iff_lt_or_eq.1 (List.not_lt.1 h)).resolve_right h'
  · omega

theorem insert_spec (n : Name) (i : Nat) : ∀ m : IdMap, Sorted m →
    match m.insert n i with
    | .ok m' => Sorted m' ∧ (∀ x ∈ m, x.1 ≠ n) ∧ ∀ x, x ∈ m' ↔ x = (n, i) ∨ x ∈ m
    | .error x => x ∈ m ∧ x.1 = n
  | [], _ => by simp [IdMap.insert, Sorted]
  | x :: m, h => by
    obtain ⟨h1, h2⟩ := List.pairwise_cons.1 h
    unfold IdMap.insert
    by_cases ha : n < x.1
    · rw [if_pos ha]
      refine ⟨List.pairwise_cons.2 ⟨?_, h⟩, ?_, by simp⟩
      · intro y hy
        rcases List.mem_cons.1 hy with rfl | hy
        · exact ha
        · exact name_lt_trans ha (h1 y hy)
      · intro y hy e
        rcases List.mem_cons.1 hy with rfl | hy
        · rw [e] at ha; exact name_lt_irrefl _ ha
        · have := name_lt_trans ha (h1 y hy)
          rw [e] at this
          exact name_lt_irrefl _ this
    · rw [if_neg ha]
      by_cases hb : x.1 = n
      · rw [if_pos hb]; exact ⟨by simp, hb⟩
      · rw [if_neg hb]
        have ih := insert_spec n i m h2
        cases hm : IdMap.insert n i m with
        | error y =>
          rw [hm] at ih
          exact ⟨by simp [ih.1], ih.2⟩
        | ok m' =>
          rw [hm] at ih
          obtain ⟨i1, i2, i3⟩ := ih
          refine ⟨List.pairwise_cons.2 ⟨?_, i1⟩, ?_, ?_⟩
          · intro y hy
            rcases (i3 y).1 hy with rfl | hy
            · exact name_lt_of ha hb
            · exact h1 y hy
          · intro y hy
            rcases List.mem_cons.1 hy with rfl | hy
            · exact hb
            · exact i2 y hy
          · intro y
            simp only [List.mem_cons, i3]
            constructor <;> rintro (h | h | h) <;> simp [h]

/-- No standard tells two entries of the same name apart, so that the old one always stays. -/
theorem never_replaced (icu : Icu) (n : Name) : ∀ ss, replaces icu n n ss = false
  | [] => rfl
  | s :: ss => by
    unfold replaces
    by_cases h : (icu.standardName n s).isSome = true
    · rw [if_pos h]
    · rw [if_neg h, if_neg h]; exact never_replaced icu n ss

theorem addAlias_spec (icu : Icu) (id i : Nat) {m : IdMap} (h : Sorted m) (a : Name) :
    Sorted (addAlias icu id i m a) ∧ ∀ x, x ∈ addAlias icu id i m a ↔ x ∈ m ∨ (x = (a, id) ∧ ∀ y ∈ m, y.1 ≠ a) := by
  have := insert_spec a id m h
  unfold addAlias
  cases hm : IdMap.insert a id m with
  | ok m' =>
    rw [hm] at this
    obtain ⟨h1, h2, h3⟩ := this
    refine ⟨h1, fun x => ?_⟩
    rw [h3]
    constructor
    · rintro (h | h)
      · exact .inr ⟨h, h2⟩
      · exact .inl h
    · rintro (h | ⟨h, -⟩)
      · exact .inr h
      · exact .inl h
  | error x =>
    rw [hm] at this
    dsimp only
    rw [this.2, never_replaced]
    refine ⟨h, fun y => ⟨.inl, ?_⟩⟩
    rintro (h | ⟨-, h⟩)
    · exact h
    · exact absurd this.2 (h x this.1)

/-! ## The loops -/

/-- The map holds the first encoding of each alias. -/
def Holds (es : List Enc) (m : IdMap) : Prop := Sorted m ∧ ∀ n i, (n, i) ∈ m ↔ First es n i

theorem first_exists {es : List Enc} {n : Name} {e : Enc} (he : e ∈ es) (hn : n ∈ e.aliases) : ∃ i, First es n i := by
  induction es with
  | nil => simp at he
  | cons f es ih =>
    by_cases hf : n ∈ f.aliases
    · exact ⟨0, ⟨f, rfl, hf⟩, fun j _ h => by omega⟩
    · rcases List.mem_cons.1 he with rfl | he
      · exact absurd hn hf
      · obtain ⟨i, h1, h2⟩ := ih he
        refine ⟨i + 1, h1, fun j g hj hg => ?_⟩
        cases j with
        | zero => cases hg; exact hf
        | succ j => exact h2 j g (by omega) hg

theorem first_append {es : List Enc} {n nm : Name} {as : List Name} {i : Nat} : First (es ++ [⟨nm, as⟩]) n i ↔
    First es n i ∨ (i = es.length ∧ n ∈ as ∧ ∀ e ∈ es, n ∉ e.aliases) := by
  constructor
  · rintro ⟨⟨e, he, hn⟩, h⟩
    rcases Nat.lt_trichotomy i es.length with hi | hi | hi
    · rw [List.getElem?_append_left hi] at he
      refine .inl ⟨⟨e, he, hn⟩, fun j f hj hf => h j f hj ?_⟩
      rw [List.getElem?_append_left (by omega)]; exact hf
    · rw [hi, List.getElem?_append_right (Nat.le_refl _)] at he
      simp only [Nat.sub_self, List.getElem?_cons_zero, Option.some.injEq] at he
      subst he
      refine .inr ⟨hi, hn, fun f hf => ?_⟩
      obtain ⟨j, hj, e⟩ := List.getElem_of_mem hf
      refine h j f (by omega) ?_
      rw [List.getElem?_append_left hj, List.getElem?_eq_getElem hj, e]
    · rw [List.getElem?_append_right (by omega), List.getElem?_eq_none (by simp; omega)] at he
      cases he
  · rintro (⟨⟨e, he, hn⟩, h⟩ | ⟨rfl, hn, h⟩)
    · have hi : i < es.length := (List.getElem?_eq_some_iff.1 he).1
      refine ⟨⟨e, by rw [List.getElem?_append_left hi]; exact he, hn⟩, fun j f hj hf => ?_⟩
      rw [List.getElem?_append_left (by omega)] at hf
      exact h j f hj hf
    · refine ⟨⟨⟨nm, as⟩, by rw [List.getElem?_append_right (Nat.le_refl _)]; simp, hn⟩, fun j f hj hf => ?_⟩
      rw [List.getElem?_append_left hj] at hf
      exact h f (List.mem_of_getElem? hf)

theorem holds_aliases (icu : Icu) (i : Nat) (es : List Enc) (nm : Name) : ∀ (rest as : List Name) (m : IdMap),
    Holds (es ++ [⟨nm, as⟩]) m → Holds (es ++ [⟨nm, as ++ rest⟩]) (rest.foldl (addAlias icu es.length i) m)
  | [], as, m, h => by simpa using h
  | a :: rest, as, m, h => by
    have := holds_aliases icu i es nm rest (as ++ [a]) (addAlias icu es.length i m a) ?_
    · simpa using this
    · obtain ⟨h1, h2⟩ := h
      obtain ⟨a1, a2⟩ := addAlias_spec icu es.length i h1 a
      refine ⟨a1, fun n k => ?_⟩
      rw [a2, h2, first_append, first_append]
      have hk : (∀ y ∈ m, y.1 ≠ a) ↔ a ∉ as ∧ ∀ e ∈ es, a ∉ e.aliases := by
        constructor
        · intro h
          have hno : ∀ k, ¬ First (es ++ [⟨nm, as⟩]) a k := fun k hf => h (a, k) ((h2 a k).2 hf) rfl
          refine ⟨fun ha => ?_, fun e he ha => ?_⟩
          · obtain ⟨k, hk⟩ := first_exists (es := es ++ [⟨nm, as⟩]) (e := ⟨nm, as⟩) (by simp) ha
            exact hno k hk
          · obtain ⟨k, hk⟩ := first_exists (es := es ++ [⟨nm, as⟩]) (e := e) (by simp [he]) ha
            exact hno k hk
        · rintro ⟨p, q⟩ ⟨y, j⟩ hy rfl
          rcases first_append.1 ((h2 _ _).1 hy) with hf | ⟨-, hf, -⟩
          · obtain ⟨⟨e, he, hn⟩, -⟩ := hf
            exact q e (List.mem_of_getElem? he) hn
          · exact p hf
      rw [hk]
      simp only [Prod.mk.injEq, List.mem_append, List.mem_singleton]
      constructor
      · rintro ((h | ⟨p, q, r⟩) | ⟨⟨rfl, rfl⟩, p, q⟩)
        · exact .inl h
        · exact .inr ⟨p, .inl q, r⟩
        · exact .inr ⟨rfl, .inr rfl, q⟩
      · rintro (h | ⟨p, q | rfl, r⟩)
        · exact .inl (.inl h)
        · exact .inl (.inr ⟨p, q, r⟩)
        · by_cases hn : n ∈ as
          · exact .inl (.inr ⟨p, hn, r⟩)
          · exact .inr ⟨⟨rfl, p⟩, hn, r⟩

theorem holds_empty {es : List Enc} {m : IdMap} (nm : Name) (h : Holds es m) : Holds (es ++ [⟨nm, []⟩]) m := by
  refine ⟨h.1, fun n i => ?_⟩
  rw [h.2, first_append]
  simp

theorem collect_holds (icu : Icu) : ∀ (av : List Enc) (i : Nat) (es : List Enc) (m : IdMap), Holds es m →
    ∃ m', collect icu i av (es.map (·.name), m) =
        ((es ++ av.filter fun e => e.name ∉ skip).map (·.name), m') ∧ Holds (es ++ av.filter fun e => e.name ∉ skip) m'
  | [], i, es, m, h => ⟨m, by simp [collect], by simpa using h⟩
  | e :: av, i, es, m, h => by
    unfold collect
    by_cases hs : e.name ∈ skip
    · rw [if_pos hs, List.filter_cons_of_neg (by simpa using hs)]
      exact collect_holds icu av (i + 1) es m h
    · rw [if_neg hs, List.filter_cons_of_pos (by simpa using hs)]
      have := holds_aliases icu i es e.name e.aliases [] m (holds_empty _ h)
      obtain ⟨m', h1, h2⟩ := collect_holds icu av (i + 1) (es ++ [e]) _ this
      refine ⟨m', ?_, by simpa using h2⟩
      rw [show es ++ e :: List.filter (fun e => decide (e.name ∉ skip)) av =
        es ++ [e] ++ List.filter (fun e => decide (e.name ∉ skip)) av by simp, ← h1]
      simp

/-- **C95** Whatever encodings, aliases and standards ICU has: the canonical names are those of
the encodings that are not left out, in ICU's order; the table's names are in the order of their
bytes, each once; and a name has the number of the first of those encodings that has it as an
alias.  So every number is that of a canonical name. -/
theorem tables_spec (icu : Icu) : (tables icu).1 = (kept icu).map (·.name) ∧
    (tables icu).2.Pairwise (fun x y => x.1 < y.1) ∧
    (∀ n i, (n, i) ∈ (tables icu).2 ↔ First (kept icu) n i) ∧
    ∀ x ∈ (tables icu).2, x.2 < (tables icu).1.length := by
  obtain ⟨m, h1, h2, h3⟩ := collect_holds icu icu.available 0 [] [] ⟨List.Pairwise.nil, fun n i => by
    simp only [List.not_mem_nil, false_iff]
    rintro ⟨⟨e, he, -⟩, -⟩
    simp at he⟩
  have e : tables icu = ((kept icu).map (·.name), m) := h1
  rw [e]
  refine ⟨rfl, h2, h3, ?_⟩
  rintro ⟨n, i⟩ hx
  obtain ⟨⟨e, he, -⟩, -⟩ := (h3 n i).1 hx
  have := (List.getElem?_eq_some_iff.1 he).1
  simp only [List.length_map]
  exact this

/-- **C95** What a name is taken for: of the aliases that are the same but for the case of letters,
the first in the order of bytes counts. -/
theorem lookup_spec (icu : Icu) (n x : Name) : (findTrans (tables icu).2 n).bind ((tables icu).1[·]?) = some x ↔
    ∃ m i e, n.map small = m.map small ∧ First (kept icu) m i ∧ (kept icu)[i]? = some e ∧ e.name = x ∧
      ∀ f ∈ kept icu, ∀ a ∈ f.aliases, n.map small = a.map small → m = a ∨ m < a := by
  obtain ⟨h1, h2, h3, -⟩ := tables_spec icu
  rw [h1]
  rw [findTrans_eq]
  constructor
  · intro h
    obtain ⟨i, hi, hx⟩ := Option.bind_eq_some_iff.1 h
    obtain ⟨⟨m, i'⟩, hm, rfl⟩ := Option.map_eq_some_iff.1 hi
    obtain ⟨hl, l, r, e, hno⟩ := List.find?_eq_some_iff_append.1 hm
    have hmem := (h3 m i').1 (by rw [e]; simp)
    rw [List.getElem?_map, Option.map_eq_some_iff] at hx
    obtain ⟨c, hc, rfl⟩ := hx
    refine ⟨m, i', c, by simpa using hl, hmem, hc, rfl, fun f hf a ha hs => ?_⟩
    obtain ⟨k, hk⟩ := first_exists hf ha
    have hk := (h3 a k).2 hk
    rw [e, List.mem_append, List.mem_cons] at hk
    rcases hk with hk | hk | hk
    · have := hno _ hk
      simp [hs] at this
    · exact .inl (congrArg Prod.fst hk).symm
    · rw [e, List.pairwise_append, List.pairwise_cons] at h2
      exact .inr (h2.2.1.1 _ hk)
  · rintro ⟨m, i, c, hl, hf, hc, rfl, hmin⟩
    have hm := (h3 m i).2 hf
    obtain ⟨l, r, e⟩ := List.append_of_mem hm
    rw [e, List.find?_append, List.find?_eq_none.2, Option.none_or, List.find?_cons_of_pos (by simpa using hl)]
    · show ((kept icu).map (·.name))[i]? = _
      rw [List.getElem?_map, hc]; rfl
    · rintro ⟨a, k⟩ hy hs
      obtain ⟨⟨f, hf', ha⟩, -⟩ := (h3 a k).1 (by rw [e]; simp [hy])
      have hlt : a < m := by
        rw [e, List.pairwise_append] at h2
        exact h2.2.2 _ hy (m, i) (by simp)
      rcases hmin f (List.mem_of_getElem? hf') a ha (by simpa using hs) with rfl | h
      · exact name_lt_irrefl _ hlt
      · exact name_lt_irrefl _ (name_lt_trans h hlt)

/-! ## A build with ICU -/

/-- The encoding called `x` has the alias, and no other has it but for the case of letters. -/
def Icu.Has (icu : Icu) (s : String) (x : Name) : Prop :=
  (∃ e ∈ kept icu, e.name = x ∧ name s ∈ e.aliases) ∧ ∀ e ∈ kept icu, ∀ a ∈ e.aliases, Same a s → e.name = x

/-- What is assumed of ICU's list: the Unicode encodings and ASCII have their names to
themselves. -/
structure Icu.Regular (icu : Icu) : Prop where
  own : ∀ s ∈ ["UTF-8", "UTF-16LE", "UTF-16BE", "UTF-32LE", "UTF-32BE"], icu.Has s (name s)
  ascii : icu.Has "ASCII" (name "US-ASCII")
  notAscii : ∀ e ∈ kept icu, e.name ≠ name "ASCII"

theorem has_lookup {icu : Icu} {s : String} {x : Name} (h : icu.Has s x) :
    (findTrans (tables icu).2 (name s)).bind ((tables icu).1[·]?) = some x := by
  obtain ⟨h1, -, h3, h4⟩ := tables_spec icu
  obtain ⟨⟨e, he, rfl, ha⟩, hu⟩ := h
  obtain ⟨i, hi⟩ := first_exists he ha
  rw [findTrans_eq]
  cases hf : (tables icu).2.find? fun t => (name s).map small == t.1.map small with
  | none =>
    have := List.find?_eq_none.1 hf (name s, i) ((h3 _ _).2 hi)
    simp at this
  | some y =>
    obtain ⟨m, k⟩ := y
    obtain ⟨⟨f, hf', hm⟩, -⟩ := (h3 m k).1 (List.mem_of_find?_eq_some hf)
    have hs : (name s).map small = m.map small := by simpa using List.find?_some hf
    rw [h1]
    show ((kept icu).map (·.name))[k]? = _
    rw [List.getElem?_map, hf']
    exact congrArg some (hu f (List.mem_of_getElem? hf') m hm hs.symm)

/-- A build with ICU: the generated tables, and converters that keep their promises. -/
@[reducible] def build (icu : Icu) (h : icu.Regular) (converter : Name → Option Converter)
    (ok : ∀ n t, converter n = some t → t.Ok) (reads : ∀ n t, converter n = some t → t.Reads)
    (usAscii : ∀ t, converter (name "US-ASCII") = some t → t.write = Encoders.asciiWrite) : Build where
  encodings := (tables icu).2
  canonicalEncodings := (tables icu).1
  converter := converter
  own s hs := has_lookup (h.own s hs)
  ascii := has_lookup h.ascii
  notAscii hm := by
    rw [(tables_spec icu).1] at hm
    obtain ⟨e, he, hx⟩ := List.mem_map.1 hm
    exact h.notAscii e he hx
  ok := ok
  reads := reads
  usAscii := usAscii

/-! ## Example -/

/-- An ICU with the Unicode encodings, ASCII, one that is left out, and `x-two`, which claims an
alias that ASCII has already. -/
def sample : Icu where
  available := [⟨name "UTF-8", [name "UTF-8", name "utf8"]⟩, ⟨name "UTF-16", [name "UTF-16"]⟩,
    ⟨name "UTF-16BE", [name "UTF-16BE"]⟩, ⟨name "UTF-16LE", [name "UTF-16LE"]⟩, ⟨name "UTF-32BE", [name "UTF-32BE"]⟩,
    ⟨name "UTF-32LE", [name "UTF-32LE"]⟩, ⟨name "US-ASCII", [name "US-ASCII", name "ASCII", name "367"]⟩,
    ⟨name "x-two", [name "x-two", name "367"]⟩]
  standardName _ _ := none

theorem sample_tables : tables sample =
    ([name "UTF-8", name "UTF-16BE", name "UTF-16LE", name "UTF-32BE", name "UTF-32LE", name "US-ASCII", name "x-two"],
     [(name "367", 5), (name "ASCII", 5), (name "US-ASCII", 5), (name "UTF-16BE", 1), (name "UTF-16LE", 2), (name "UTF-32BE", 3),
      (name "UTF-32LE", 4), (name "UTF-8", 0), (name "utf8", 0), (name "x-two", 6)]) := by decide +kernel

theorem sample_regular : sample.Regular := by
  have key : ∀ s x, (∃ e ∈ kept sample, e.name = x ∧ name s ∈ e.aliases) →
      (∀ e ∈ kept sample, ∀ a ∈ e.aliases, a.map small = (name s).map small → e.name = x) → sample.Has s x := fun _ _ h h' => ⟨h, h'⟩
  refine ⟨fun s hs => ?_, key _ _ (by decide +kernel) (by decide +kernel), by decide +kernel⟩
  simp only [List.mem_cons, List.not_mem_nil, or_false] at hs
  rcases hs with rfl | rfl | rfl | rfl | rfl <;> exact key _ _ (by decide +kernel) (by decide +kernel)

/-- With a converter for `x-two`. -/
@[reducible] def sampleBuild : Build :=
  build sample sample_regular (fun n => if n = name "x-two" then some Decoders.twoBytes else none)
    (fun n t h => by split at h <;> cases h; exact Decoders.twoBytes_ok)
    (fun n t h => by split at h <;> cases h; exact Decoders.twoBytes_reads)
    (fun t h => by rw [if_neg (by decide)] at h; cases h)

theorem sample_reads : @Chain.Reads sampleBuild (name "X-Two|oce") (.icu Decoders.twoBytes) [.oce] := by
  refine ⟨name "x-two", ⟨[], name "X-Two", [name "oce"], by decide +kernel, by simp, by decide, ?_,
    .cons (show Same _ _ by decide) .nil⟩, fun c => ?_, rfl⟩
  · rw [← @Chain.encLookup sampleBuild]
    show (findTrans (tables sample).2 _).bind ((tables sample).1[·]?) = _
    rw [sample_tables]
    decide +kernel
  · cases c with
    | ascii => decide
    | utf8 => decide
    | utf16 le => cases le <;> decide
    | utf32 le => cases le <;> decide

/-- So the hypotheses of C65 to C68 are met with an encoding of ICU. -/
theorem sample_encoder : ∃ e c, @Chain.Factory.get sampleBuild Chain.Factory.init (name "X-Two|oce") = some (e, c) ∧
    e.spec 97 ≠ [] := by
  have := ((@Chain.chain_meaning sampleBuild _ Chain.factory_init (name "X-Two|oce")).2).2 ⟨_, _, sample_reads, fun h => by cases h⟩
  obtain ⟨⟨e, c⟩, he⟩ := Option.ne_none_iff_exists'.1 this
  refine ⟨e, c, he, ?_⟩
  obtain ⟨-, -, k, ts, hr, hs⟩ := (@Chain.chain_meaning sampleBuild _ Chain.factory_init _).1 e c he
  obtain ⟨rfl, rfl⟩ := @Chain.reads_unique sampleBuild _ _ _ _ _ hr sample_reads
  rw [hs]
  simp [Chain.Coding.spec, Decoders.twoBytes]

/-! ## A converter that writes more characters than it names -/

/-- A converter with a one-way mapping: it writes U+FF41 as it writes `A`, but does not name it. -/
def oneWay : Converter where
  valid := [0, 128]
  maxLen := 1
  write c := if c < 128 then [c] else if c = 0xFF41 then [65] else []
  read
    | [] => none
    | b :: _ => if b < 128 then some (b, 1) else none

/-- Then a character as a literal and in a class of its own do not match the same: the literal
is encoded without asking whether the character is valid, the class is not. -/
theorem one_way_class : (Encoders.Encoder.icu oneWay).leaf [] (.lit 0xFF41) = some ([], .lit [65]) ∧
    (Encoders.Encoder.icu oneWay).leaf [] (.cls [0xFF41, 0xFF42] 0 true) = some ([], .cls [] 0 true) :=
  ⟨rfl, rfl⟩

end Verif.EncTable
