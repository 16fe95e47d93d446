import Verif.Props.Total
import Verif.Props.PumpedText
import Verif.Props.Quoting
/-!
# C103: fixed strings are found where they occur

A keyword that is asked for as a fixed string, case-sensitively, whatever else is asked for.
-/
namespace Verif.Session
open Verif.Encoders Verif.Chain Verif.Nfa Verif.NfaBuilder Verif.Fsm Verif.Subset Verif.Defined
open Verif.Regex (Tree lang NoLook NoDead NgFlat NoNg AllLeaves weight UNB)
open Verif.Parser (Env PatternOpts)

/-! ## Specification -/

/-- The occurrences of `key` in `data`, which starts at offset `pos`, from left to right, each as
its first offset and the offset behind it; the next `skip` bytes belong to the previous one. -/
def occurrences (key : List UInt8) : Nat → Nat → List UInt8 → List (Nat × Nat)
  | _, _, [] => []
  | pos, skip + 1, _ :: data => occurrences key (pos + 1) skip data
  | pos, 0, b :: data =>
    if key <+: b :: data then (pos, pos + key.length) :: occurrences key (pos + 1) (key.length - 1) data
    else occurrences key (pos + 1) 0 data

/-- The request asks for these characters, in UTF-8, as they stand. -/
structure Literally (r : Request) (cs : List Nat) : Prop where
  fixed : r.opts.fixed = true
  cased : r.opts.caseless = false
  scalar : ∀ c ∈ cs, Utf.Scalar c
  text : r.expr.map UInt8.toNat = cs.flatMap Utf.spec8

/-- The characters in the encoding with the byte transforms. -/
def keyBytes (k : Coding) (ts : List Transforms.ByteT) (cs : List Nat) : List UInt8 := toBytes (cs.flatMap (charBytes k ts))

/-- The bytes that a request for a fixed string asks for. -/
def KeyOf [Build] (r : Request) (key : List UInt8) : Prop :=
  ∃ cs k ts, Literally r cs ∧ Reads r.chain k ts ∧ key = keyBytes k ts cs

/-- A keyword that can be searched for: not empty and without the null character, in an encoding
that has all its characters (and that is named `ASCII` if it is ASCII and there is no ICU). -/
def Searchable [Build] (r : Request) : Prop :=
  ∃ cs k ts, Literally r cs ∧ cs ≠ [] ∧ 0 ∉ cs ∧ cs.length < 2 ^ 30 ∧ Reads r.chain k ts ∧
    (k = .std .ascii → r.chain = name "ASCII" ∨ Build.converter (name "US-ASCII") ≠ none) ∧
    ∀ c ∈ cs, charBytes k ts c ≠ []

/-! ## Occurrences -/

/-- `key` is at the offsets from `s` to `f` of `data`, which starts at `off`. -/
def OccursAt (key : List UInt8) (off : Nat) (data : List UInt8) (s f : Nat) : Prop :=
  off ≤ s ∧ f = s + key.length ∧ key <+: data.drop (s - off)

theorem occurs_cons {key : List UInt8} {off : Nat} {b : UInt8} {data : List UInt8} {s f : Nat} (hs : off + 1 ≤ s) :
    OccursAt key off (b :: data) s f ↔ OccursAt key (off + 1) data s f := by
  unfold OccursAt
  rw [show s - off = (s - (off + 1)) + 1 by omega, List.drop_succ_cons]
  constructor
  · rintro ⟨-, h⟩; exact ⟨hs, h⟩
  · rintro ⟨-, h⟩; exact ⟨by omega, h⟩

theorem leftmost_congr {A B : Nat → Nat → Prop} : ∀ (hs : List (Nat × Nat)) (m : Nat), (∀ s f, m ≤ s → (A s f ↔ B s f)) →
    (∀ s f, A s f → s < f) → Compiler.Leftmost A m hs → Compiler.Leftmost B m hs
  | [], m, h, _, hl => by
    intro s f hb
    by_contra hc
    exact absurd (hl s f ((h s f (by omega)).2 hb)) hc
  | (s, e) :: hs, m, h, hlt, ⟨h1, h2, h3, h4⟩ =>
    ⟨(h s e h2).1 h1, h2, fun s' f' hb hm => h3 s' f' ((h s' f' hm).2 hb) hm,
      leftmost_congr hs e (fun s' f' hm => h s' f' (by have := hlt s e h1; omega)) hlt h4⟩

/-- The leftmost non-overlapping occurrences are found by looking from left to right. -/
theorem leftmost_occurrences {key : List UInt8} (hk : key ≠ []) : ∀ (data : List UInt8) (off skip : Nat) (hs : List (Nat × Nat)),
    Compiler.Leftmost (OccursAt key off data) (off + skip) hs → hs = occurrences key off skip data
  | [], off, skip, hs, h => by
    cases hs with
    | nil => cases skip <;> rfl
    | cons x hs =>
      obtain ⟨s, f⟩ := x
      obtain ⟨⟨-, -, h⟩, -⟩ := h
      simp only [List.drop_nil, List.prefix_nil] at h
      exact absurd h hk
  | b :: data, off, skip + 1, hs, h => by
    rw [occurrences]
    refine leftmost_occurrences hk data (off + 1) skip hs ?_
    rw [show off + (skip + 1) = off + 1 + skip by omega] at h
    refine leftmost_congr hs _ (fun s f hm => occurs_cons (by omega)) ?_ h
    rintro s f ⟨-, rfl, -⟩
    have := List.length_pos_iff.2 hk
    omega
  | b :: data, off, 0, hs, h => by
    have hpos := List.length_pos_iff.2 hk
    have hlt : ∀ s f, OccursAt key off (b :: data) s f → s < f := by
      rintro s f ⟨-, rfl, -⟩; omega
    rw [occurrences]
    by_cases hp : key <+: b :: data
    · rw [if_pos hp]
      have hat : OccursAt key off (b :: data) off (off + key.length) := ⟨Nat.le_refl _, rfl, by simpa using hp⟩
      cases hs with
      | nil =>
        have := h off _ hat
        omega
      | cons x hs =>
        obtain ⟨s, f⟩ := x
        obtain ⟨h1, h2, h3, h4⟩ := h
        have hle := h3 off _ hat (by omega)
        have hs' : s = off := by omega
        subst hs'
        have hf : f = s + key.length := h1.2.1
        subst hf
        congr 1
        refine leftmost_occurrences hk data (s + 1) (key.length - 1) hs ?_
        rw [show s + 1 + (key.length - 1) = s + key.length by omega]
        exact leftmost_congr hs _ (fun s' f' hm => occurs_cons (by omega)) hlt h4
    · rw [if_neg hp]
      refine leftmost_occurrences hk data (off + 1) 0 hs ?_
      have hno : ∀ f, ¬ OccursAt key off (b :: data) off f := by
        rintro f ⟨-, -, h⟩
        exact hp (by simpa using h)
      have hup : Compiler.Leftmost (OccursAt key off (b :: data)) (off + 1) hs := by
        cases hs with
        | nil =>
          intro s f hb
          exact Nat.lt_of_lt_of_le (h s f hb) (by omega)
        | cons x hs =>
          obtain ⟨s, f⟩ := x
          obtain ⟨h1, h2, h3, h4⟩ := h
          have hne : s ≠ off := by rintro rfl; exact hno f h1
          exact ⟨h1, by omega, fun s' f' hb hm => h3 s' f' hb (by omega), h4⟩
      exact leftmost_congr hs _ (fun s' f' hm => occurs_cons (by omega)) hlt hup

/-! ## The tree of a fixed string -/

/-- The tree the parser makes of a fixed string. -/
def fixedTree (t : Tree Node) (cs : List Nat) : Tree Node := cs.foldl (fun t c => .cat t (.leaf (.lit c))) t

theorem spelled_fixed {env : Env} {o : Parser.Opts} (ho : o.cased = true) : ∀ (cs : List Nat) (t : Tree Node) (k : Nat),
    ∃ k', Parser.spelled env o (some t) k (cs.map fun c : Nat => (c : Int)) = .ok (fixedTree t cs, o, k', [])
  | [], t, k => ⟨k, rfl⟩
  | c :: cs, t, k => by
    obtain ⟨k', h⟩ := spelled_fixed ho cs (.cat t (.leaf (.lit c))) (k + 1 + (0 + 1))
    refine ⟨k', ?_⟩
    rw [List.map_cons, Parser.spelled]
    simp only [Parser.literal, ho, if_true, Parser.joinCat, Int.toNat_natCast]
    exact h

theorem parse_fixed {env : Env} {p : PatternOpts} (hf : p.fixed = true) (hc : p.caseless = false) {c : Nat} {cs : List Nat}
    (h0 : 0 ∉ c :: cs) : ∃ j, Parser.parse env p ((c :: cs).map fun c : Nat => (c : Int)) = .ok (fixedTree (.leaf (.lit c)) cs, j) := by
  obtain ⟨f, i, u⟩ := p
  cases hf; cases hc
  unfold Parser.parse
  have h1 : ∀ x ∈ (c :: cs).map (fun c : Nat => (c : Int)), (1 : Int) ≤ x := by
    intro x hx
    obtain ⟨y, hy, rfl⟩ := List.mem_map.1 hx
    have : y ≠ 0 := by rintro rfl; exact h0 hy
    omega
  rw [Parser.parseTokens_means (Parser.lex_fixed env _ _ _ (Nat.le_refl _) h1) (by simp)]
  obtain ⟨k', h⟩ := spelled_fixed (env := env) (o := ⟨true, !u⟩) rfl cs (.leaf (.lit c)) (0 + 1 + (0 + 0))
  refine ⟨k' + 1, ?_⟩
  rw [List.map_cons, Parser.spelled]
  simp only [Parser.literal, Bool.not_false, if_true, Parser.joinCat, Int.toNat_natCast]
  rw [h]

theorem Literally.codePoints {r : Request} {cs : List Nat} (h : Literally r cs) :
    Text.codePoints r.expr = some (cs.map fun c : Nat => (c : Int)) := by
  unfold Text.codePoints
  have enc : ∀ c ∈ cs, Utf.spec8 c = Utf.cpToUtf8 c := by
    intro c hc
    rw [Utf.cpToUtf8_spec, if_pos ⟨by omega, by simpa using h.scalar c hc⟩]; simp
  have hd := Utf.patternText_decodes cs h.scalar
  rw [h.text, List.flatMap_def, List.map_congr_left enc, ← List.flatMap_def, hd]
  simp

theorem Literally.unique {r : Request} {cs cs' : List Nat} (h : Literally r cs) (h' : Literally r cs') : cs = cs' := by
  have := h.codePoints.symm.trans h'.codePoints
  simp only [Option.some.injEq] at this
  exact List.map_injective_iff.2 (fun a b h => by simpa using h) this

/-- A fixed string that can be read is well-formed UTF-8, not empty and without the null character. -/
theorem literally_of_parsed {env : Env} {r : Request} (hf : r.opts.fixed = true) (hc : r.opts.caseless = false) {t : Tree Node} {j : Nat}
    (h : Text.parseText env r.opts r.expr = .ok (t, j)) : ∃ cs, Literally r cs ∧ cs ≠ [] ∧ 0 ∉ cs := by
  unfold Text.parseText at h
  split at h
  · cases h
  · next text ht =>
    have hno : ¬ (text = [] ∨ ∃ c ∈ text, c < 1) := by
      intro hbad
      have e : r.opts = ⟨true, r.opts.caseless, r.opts.unicode⟩ := by rw [← hf]
      rw [e] at h
      exact Parser.fixed_refused env _ _ hbad _ h
    rw [not_or] at hno
    obtain ⟨ds, hd, rfl⟩ := Option.map_eq_some_iff.1 ht
    obtain ⟨es, h1, rfl, h3⟩ := Malformed.transform_utf8 _ _ (by
      intro b hb
      obtain ⟨u, -, rfl⟩ := List.mem_map.1 hb
      exact u.toNat_lt) ds hd (by
        rintro c hc rfl
        exact hno.2 ⟨-1, List.mem_map.2 ⟨none, hc, rfl⟩, by omega⟩)
    refine ⟨es, ⟨hf, hc, h1, h3⟩, ?_, ?_⟩
    · rintro rfl; exact hno.1 rfl
    · intro h0
      exact hno.2 ⟨0, List.mem_map.2 ⟨some 0, List.mem_map.2 ⟨0, h0, rfl⟩, rfl⟩, by omega⟩

theorem Literally.parsed {env : Env} {r : Request} {cs : List Nat} (h : Literally r cs) (hne : cs ≠ []) (h0 : 0 ∉ cs) :
    ∃ c ds j, cs = c :: ds ∧ Text.parseText env r.opts r.expr = .ok (fixedTree (.leaf (.lit c)) ds, j) := by
  obtain ⟨c, ds, rfl⟩ := List.exists_cons_of_ne_nil hne
  obtain ⟨j, hj⟩ := parse_fixed (env := env) h.fixed h.cased h0
  exact ⟨c, ds, j, rfl, by rw [Text.parseText, h.codePoints]; exact hj⟩

theorem fixedTree_plain : ∀ (cs : List Nat) (t : Tree Node), NgFlat t ∧ NoDead t ∧ NoUnb t ∧ NoLook t ∧ NoNg t →
    (NgFlat (fixedTree t cs) ∧ NoDead (fixedTree t cs) ∧ NoUnb (fixedTree t cs) ∧ NoLook (fixedTree t cs) ∧ NoNg (fixedTree t cs)) ∧
      weight (fixedTree t cs) = weight t + cs.length
  | [], t, h => ⟨h, rfl⟩
  | c :: cs, t, ⟨h1, h2, h3, h4, h5⟩ => by
    obtain ⟨a, b⟩ := fixedTree_plain cs (.cat t (.leaf (.lit c))) ⟨⟨h1, trivial⟩, ⟨h2, trivial⟩, ⟨h3, trivial⟩, ⟨h4, trivial⟩, h5, trivial⟩
    exact ⟨a, by rw [fixedTree, List.foldl_cons]; show weight (fixedTree _ cs) = _; rw [b]; simp [weight]; omega⟩

theorem fixedTree_leaves {Q : Node → Prop} : ∀ (cs : List Nat) (t : Tree Node),
    AllLeaves Q (fixedTree t cs) ↔ AllLeaves Q t ∧ ∀ c ∈ cs, Q (.lit c)
  | [], t => by simp [fixedTree]
  | c :: cs, t => by
    rw [fixedTree, List.foldl_cons]
    show AllLeaves Q (fixedTree _ cs) ↔ _
    rw [fixedTree_leaves cs]
    simp [AllLeaves, and_assoc]

theorem fixedTree_lang {enc : Nat → List Nat} : ∀ (cs : List Nat) (t : Tree Node) (w : List UInt8),
    w ∈ lang (textSem enc) (fixedTree t cs) ↔
      ∃ v, v ∈ lang (textSem enc) t ∧ (∀ c ∈ cs, enc c ≠ []) ∧ w = v ++ toBytes (cs.flatMap enc)
  | [], t, w => by simp [fixedTree, toBytes]
  | c :: cs, t, w => by
    rw [fixedTree, List.foldl_cons]
    show w ∈ lang _ (fixedTree _ cs) ↔ _
    rw [fixedTree_lang cs]
    constructor
    · rintro ⟨v, hv, h1, rfl⟩
      obtain ⟨a, ha, b, ⟨hb1, rfl⟩, rfl⟩ := Language.mem_mul.1 hv
      refine ⟨a, ha, ?_, by simp [toBytes]⟩
      intro x hx
      rcases List.mem_cons.1 hx with rfl | hx
      · exact hb1
      · exact h1 x hx
    · rintro ⟨v, hv, h1, rfl⟩
      exact ⟨v ++ toBytes (enc c), Language.mem_mul.2 ⟨v, hv, _, ⟨h1 c (by simp), rfl⟩, rfl⟩,
        fun x hx => h1 x (by simp [hx]), by simp [toBytes]⟩

theorem literal_lang {enc : Nat → List Nat} {c : Nat} {cs : List Nat} (w : List UInt8) :
    w ∈ lang (textSem enc) (fixedTree (.leaf (.lit c)) cs) ↔ (∀ x ∈ c :: cs, enc x ≠ []) ∧ w = toBytes ((c :: cs).flatMap enc) := by
  rw [fixedTree_lang]
  constructor
  · rintro ⟨v, ⟨h1, rfl⟩, h2, rfl⟩
    refine ⟨fun x hx => ?_, by simp [toBytes]⟩
    rcases List.mem_cons.1 hx with rfl | hx
    · exact h1
    · exact h2 x hx
  · rintro ⟨h, rfl⟩
    exact ⟨_, ⟨h c (by simp), rfl⟩, fun x hx => h x (by simp [hx]), by simp [toBytes]⟩

/-! ## The theorems -/

/-- **C103** A keyword is asked for as a fixed string, case-sensitively, and accepted, whatever else is
asked for in the same program, with any options.  Then the hits with its number are exactly the
occurrences of its bytes, from left to right and without overlaps, for every division of the stream
into buffers. -/
theorem fixed_hits [Build] {env : Env} (he : env.Sound) {rs : List Request} {os : List (Option Nat)} {g : Graph}
    {P : Vm.Program} (h : Compiled env rs os g P) {i l : Nat} {r : Request} (hr : rs[i]? = some r) (ho : os[i]? = some (some l))
    (hf : r.opts.fixed = true) (hc : r.opts.caseless = false) :
    ∃ key, KeyOf r key ∧ key ≠ [] ∧
      ∀ {fuel : Nat} {first : List Vm.Thread} {σ₀ : Vm.St}, Vm.create P fuel = .ok (first, σ₀) →
      ∀ {off : Nat} {bufs : List (List UInt8)} {res : List (Option Nat)} {σ : Vm.St},
        Vm.run P first fuel (Vm.searches off bufs) σ₀ = .ok (res, σ) →
        Vm.hitsOf l σ.log = occurrences key off 0 bufs.flatten := by
  obtain ⟨ps, -, -, h4, -⟩ := h.made' he
  obtain ⟨t', -, ha⟩ := h4 i r l hr ho
  obtain ⟨w, hw⟩ := takes_inhabited ha.sane ha.takes
  obtain ⟨t, j, k, ts, hpt, hrd, hwt⟩ := ha.sub w hw
  obtain ⟨cs, hL, hne, h0⟩ := literally_of_parsed hf hc hpt
  obtain ⟨c, ds, j', hcs, hp⟩ := hL.parsed (env := env) hne h0
  rw [hp] at hpt
  cases hpt
  obtain ⟨⟨a1, a2, a3, a4, a5⟩, -⟩ := fixedTree_plain ds (.leaf (.lit c)) (by simp [NgFlat, NoDead, NoUnb, NoLook, NoNg])
  obtain ⟨hall, rfl⟩ := (literal_lang w).1 hwt
  have hM : ∀ v, Matches env r v ↔ v = keyBytes k ts cs := by
    intro v
    constructor
    · rintro ⟨t1, j1, k1, ts1, b1, b2, b3⟩
      rw [hp] at b1
      cases b1
      obtain ⟨rfl, rfl⟩ := reads_unique hrd b2
      rw [hcs]
      exact ((literal_lang v).1 b3).2
    · rintro rfl
      exact ⟨_, _, k, ts, hp, hrd, (literal_lang _).2 ⟨hall, by rw [hcs]; rfl⟩⟩
  have hkne : keyBytes k ts cs ≠ [] := by
    intro e
    have := hall c (by simp)
    rw [hcs] at e
    simp only [keyBytes, toBytes, List.flatMap_cons, List.map_eq_nil_iff, List.append_eq_nil_iff] at e
    exact this e.1
  refine ⟨keyBytes k ts cs, ⟨cs, k, ts, hL, hrd, rfl⟩, hkne, fun hnew off bufs res σ hrun => ?_⟩
  have hu := unpumped_of_bounded hr ho (parsed_of hp a1) (parsed_of hp a2.noBlank) (parsed_of hp a3) ((hM _).2 rfl)
  have hL := unpumped_text_hits he h hu hnew hrun hr ho (parsed_of hp a1) (parsed_of hp a2.noBlank)
  refine leftmost_occurrences hkne _ off 0 _ ?_
  have key : ∀ s f, MatchAt env r off bufs.flatten s f ↔ OccursAt (keyBytes k ts cs) off bufs.flatten s f := by
    intro s f
    unfold MatchAt OccursAt
    rw [hM]
    constructor
    · rintro ⟨h1, h2, h3, h4⟩
      have hlen := congrArg List.length h4
      rw [List.length_take, List.length_drop] at hlen
      refine ⟨h1, by omega, ?_⟩
      rw [← h4]
      exact List.take_prefix _ _
    · rintro ⟨h1, rfl, h3⟩
      have hpos := List.length_pos_iff.2 hkne
      have hle := h3.length_le
      rw [List.length_drop] at hle
      refine ⟨h1, by omega, by omega, ?_⟩
      rw [Nat.add_sub_cancel_left]
      exact (List.prefix_iff_eq_take.1 h3).symm
  have hL0 : Compiler.Leftmost (OccursAt (keyBytes k ts cs) off bufs.flatten) 0 (Vm.hitsOf l σ.log) := by
    refine leftmost_congr _ _ (fun s f _ => key s f) ?_ hL
    rintro s f ⟨-, h, -⟩
    exact h
  cases hh : Vm.hitsOf l σ.log with
  | nil =>
    rw [hh] at hL0
    intro s f hat
    have := hL0 s f hat
    omega
  | cons x hs =>
    rw [hh] at hL0
    obtain ⟨s, f⟩ := x
    obtain ⟨h1, h2, h3, h4⟩ := hL0
    exact ⟨h1, h1.1, fun s' f' hb hm => h3 s' f' hb (Nat.zero_le _), h4⟩

/-- A request asks for one string of bytes. -/
theorem keyOf_unique [Build] {r : Request} {x y : List UInt8} (hx : KeyOf r x) (hy : KeyOf r y) : x = y := by
  obtain ⟨cs, k, ts, h1, h2, rfl⟩ := hx
  obtain ⟨cs', k', ts', h1', h2', rfl⟩ := hy
  obtain ⟨rfl, rfl⟩ := reads_unique h2 h2'
  rw [h1.unique h1']

theorem searchable_parsed [Build] {env : Env} {r : Request} (h : Searchable r) :
    Modest env r ∧ Text.parseAndReduce env r.opts r.expr ≠ .error .ub ∧ Acceptable env r := by
  obtain ⟨cs, k, ts, hL, hne, h0, hlen, hrd, hasc, hall⟩ := h
  obtain ⟨c, ds, j, rfl, hp⟩ := hL.parsed (env := env) hne h0
  obtain ⟨⟨a1, a2, a3, a4, a5⟩, a6⟩ := fixedTree_plain ds (.leaf (.lit c)) (by simp [NgFlat, NoDead, NoUnb, NoLook, NoNg])
  have hw : weight (fixedTree (.leaf (.lit c)) ds) = 1 + ds.length := a6
  simp only [List.length_cons] at hlen
  have hx : r.expr.length < 2 ^ 64 := by
    have h4 : ∀ xs : List Nat, (xs.flatMap Utf.spec8).length ≤ 4 * xs.length := by
      intro xs
      induction xs with
      | nil => simp
      | cons x xs ih =>
        rw [List.flatMap_cons, List.length_append, List.length_cons]
        have : (Utf.spec8 x).length ≤ 4 := by unfold Utf.spec8; repeat' split
                                              all_goals simp
        omega
    have := h4 (c :: ds)
    rw [← hL.text, List.length_map, List.length_cons] at this
    omega
  refine ⟨⟨parsed_of hp (by rw [hw]; simp only [UNB]; omega), hx⟩, ?_, ?_⟩
  · unfold Text.parseAndReduce
    rw [hp]
    dsimp only
    split <;> simp
  · refine ⟨_, j, k, ts, hp, a4, hrd, hasc, ?_, ?_⟩
    · rw [fixedTree_leaves]
      exact ⟨⟨_, hall c (by simp), rfl⟩, fun x hx => ⟨_, hall x (by simp [hx]), rfl⟩⟩
    · intro hnil
      have e := ((literal_lang _).1 hnil).2
      have := hall c (by simp)
      simp only [toBytes, List.flatMap_cons, List.nil_eq, List.map_eq_nil_iff, List.append_eq_nil_iff] at e
      exact this e.1

theorem acceptable_searchable [Build] {env : Env} {r : Request} (hf : r.opts.fixed = true) (hc : r.opts.caseless = false)
    (hlen : r.expr.length < 2 ^ 30) (h : Acceptable env r) : Searchable r := by
  obtain ⟨t, j, k, ts, hpt, -, hrd, hasc, hlv, -⟩ := h
  obtain ⟨cs, hL, hne, h0⟩ := literally_of_parsed hf hc hpt
  obtain ⟨c, ds, j', rfl, hp⟩ := hL.parsed (env := env) hne h0
  rw [hp] at hpt
  cases hpt
  rw [fixedTree_leaves] at hlv
  refine ⟨c :: ds, k, ts, hL, hne, h0, ?_, hrd, hasc, fun x hx => ?_⟩
  · have h1 : ∀ xs : List Nat, xs.length ≤ (xs.flatMap Utf.spec8).length := by
      intro xs
      induction xs with
      | nil => simp
      | cons x xs ih =>
        rw [List.flatMap_cons, List.length_append, List.length_cons]
        have : 1 ≤ (Utf.spec8 x).length := by unfold Utf.spec8; repeat' split
                                              all_goals simp
        omega
    have := h1 (c :: ds)
    rw [← hL.text, List.length_map] at this
    omega
  · rcases List.mem_cons.1 hx with rfl | hx
    · obtain ⟨w, hw, -⟩ := hlv.1; exact hw
    · obtain ⟨w, hw, -⟩ := hlv.2 x hx; exact hw

/-- **C103** A fixed string of less than 2^30 bytes, asked for case-sensitively among other requests, is
accepted if and only if it can be searched for. -/
theorem fixed_accepted [Build] {env : Env} (he : env.Sound) {fuel : Nat} {rs : List Request} {s : State} {os : List (Option Nat)}
    (hm : ∀ r ∈ rs, Modest env r) (h : requests fuel env .init rs = some (s, os)) {i : Nat} {r : Request} (hr : rs[i]? = some r)
    (hf : r.opts.fixed = true) (hc : r.opts.caseless = false) (hlen : r.expr.length < 2 ^ 30) :
    (∃ l, os[i]? = some (some l)) ↔ Searchable r := by
  obtain ⟨-, -, h3⟩ := accepted_iff_partial he hm h
  obtain ⟨h1, h2, h3⟩ := h3 i r hr
  have hp : ∀ {P : Tree Node → Prop}, (∀ c ds, P (fixedTree (.leaf (.lit c)) ds)) → Parsed env r P := by
    intro P hP t j hpt
    obtain ⟨cs, hL, hne, h0⟩ := literally_of_parsed hf hc hpt
    obtain ⟨c, ds, j', -, hp⟩ := hL.parsed (env := env) hne h0
    rw [hp] at hpt
    cases hpt
    exact hP c ds
  have hpl := fun c ds => fixedTree_plain ds (.leaf (.lit c)) (by simp [NgFlat, NoDead, NoUnb, NoLook, NoNg])
  constructor
  · intro ha
    exact acceptable_searchable hf hc hlen ((h3 (hp fun c ds => (hpl c ds).1.2.2.2.2) (hp fun c ds => (hpl c ds).1.2.1)).1 ha)
  · exact fun hs => h1 (searchable_parsed hs).2.2

/-- **C103** Every list of keywords that can be searched for is accepted, in order, and gives an
automaton, at any depth, and, unless it has 2^24 states, a program; every search with it comes to an
end and reports exactly the occurrences of each keyword. -/
theorem keywords_found [Build] {env : Env} (he : env.Sound) {rs : List Request} (hk : ∀ r ∈ rs, Searchable r) (hne : rs ≠ [])
    (hmany : rs.length < 16777216) :
    ∃ s F, (∀ fuel ≥ F, requests fuel env .init rs = some (s, (List.range rs.length).map some)) ∧
      ∀ det depth, ∃ g F, (∀ fuel ≥ F, finalizeGraph fuel det depth s.graph = some (.ok g)) ∧
        (depth = 0 ∨ g.n ≤ depth → g.n < 16777216 →
          ∃ P F, (∀ fuel ≥ F, Compiler.createProgram fuel g = some (.ok P)) ∧
            ∀ fuel ≥ 2 * g.n + 9, ∀ off bufs, ∃ first σ₀ replies σ,
              Vm.create P fuel = .ok (first, σ₀) ∧ Vm.run P first fuel (Vm.searches off bufs) σ₀ = .ok (replies, σ) ∧
              ∀ (i : Nat) r, rs[i]? = some r → ∃ key, KeyOf r key ∧ Vm.hitsOf i σ.log = occurrences key off 0 bufs.flatten) := by
  have hp := fun r hr => searchable_parsed (env := env) (hk r hr)
  obtain ⟨s, os, F, h1, -, h3⟩ := session_ends_of_defined he (fun r hr => (hp r hr).1) (fun r hr => (hp r hr).2.1)
  obtain ⟨q1, q2, q3⟩ := accepted_iff_partial he (fun r hr => (hp r hr).1) (h1 F (Nat.le_refl _))
  have hall : ∀ o ∈ os, ∃ l, o = some l := by
    intro o ho
    obtain ⟨i, hi, rfl⟩ := List.getElem_of_mem ho
    have hi' : i < rs.length := by omega
    obtain ⟨l, hl⟩ := (q3 i rs[i] (List.getElem?_eq_getElem hi')).1 (hp _ (List.getElem_mem hi')).2.2
    rw [List.getElem?_eq_getElem hi] at hl
    exact ⟨l, by simpa using hl⟩
  have hmap : os = (os.filterMap id).map some := by
    clear q1 q2 q3 h1 h3
    induction os with
    | nil => rfl
    | cons o os ih =>
      obtain ⟨l, rfl⟩ := hall o (by simp)
      have := ih (fun o ho => hall o (by simp [ho]))
      show some l :: os = some l :: (os.filterMap id).map some
      rw [← this]
  have hos : os = (List.range rs.length).map some := by
    have hl := congrArg List.length hmap
    rw [List.length_map, q1] at hl
    rw [hmap, q2, ← hl]
  subst hos
  refine ⟨s, F, h1, fun det depth => ?_⟩
  have hsome : ∃ o ∈ (List.range rs.length).map some, o ≠ none := by
    have := List.length_pos_iff.2 hne
    exact ⟨some 0, List.mem_map.2 ⟨0, List.mem_range.2 this, rfl⟩, by simp⟩
  obtain ⟨g, F1, g1, g2⟩ := h3 hsome det depth
  refine ⟨g, F1, g1, fun hd hn => ?_⟩
  obtain ⟨P, F2, p1, p2, p3⟩ := g2 hd hn (by simpa using hmany)
  refine ⟨P, F2, p1, fun fuel hfl off bufs => ?_⟩
  obtain ⟨first, σ₀, replies, σ, c1, c2⟩ := p3 fuel hfl (Vm.searches off bufs)
  refine ⟨first, σ₀, replies, σ, c1, c2, fun i r hr => ?_⟩
  obtain ⟨cs, -, -, hL, -⟩ := hk r (List.mem_of_getElem? hr)
  have hi : i < rs.length := (List.getElem?_eq_some_iff.1 hr).1
  obtain ⟨key, hkey, -, hhits⟩ := fixed_hits he p2 hr (l := i) (by simp [hi]) hL.fixed hL.cased
  exact ⟨key, hkey, hhits c1 c2⟩

/-! ## Example -/

/-- Whether requests have these replies and a small automaton. -/
def compiles [Build] (rs : List Request) (os : List (Option Nat)) : Bool :=
  match requests 60 Parser.plain .init rs with
  | some (s, os') => decide (os' = os) && (match finalizeGraph 60 false 4294967295 s.graph with
      | some (.ok g) => decide (g.n < 16777216)
      | _ => false)
  | _ => false

theorem compiled_of_check [Build] {rs : List Request} {os : List (Option Nat)} (hmod : ∀ r ∈ rs, Modest Parser.plain r)
    (hos : os.length < 16777216) (h : compiles rs os = true) : ∃ g P, Compiled Parser.plain rs os g P := by
  unfold compiles at h
  cases h1 : requests 60 Parser.plain .init rs with
  | none => rw [h1] at h; cases h
  | some x =>
    obtain ⟨s, os'⟩ := x
    simp only [h1, Bool.and_eq_true, decide_eq_true_eq] at h
    obtain ⟨rfl, h⟩ := h
    cases h2 : finalizeGraph 60 false 4294967295 s.graph with
    | none => rw [h2] at h; cases h
    | some r =>
      cases r with
      | error e => rw [h2] at h; cases h
      | ok g =>
        simp only [h2, decide_eq_true_eq] at h
        obtain ⟨ps, p1, p2, p3, -, p5⟩ := requests_spec Parser.plain_sound rs hmod factory_init h1
        have hps : Patterns ps := by
          refine ⟨by rw [p3]; exact List.nodup_range', fun p hp => ?_⟩
          obtain ⟨i, r, -, -, ha⟩ := p5 p hp
          exact ha.sane
        have hd := finalized_parallel hps p1 h2 (Or.inr (by omega))
        obtain ⟨F, hF⟩ := finalized_search_ends hps p1 h2 hd h (by
          intro p hp
          have hl := congrArg List.length p2
          rw [List.length_range'] at hl
          have hle := List.length_filterMap_le (id : Option Nat → Option Nat) os'
          have : p.1 ∈ ps.map (·.1) := List.mem_map_of_mem hp
          rw [p3, List.mem_range'_1] at this
          have : State.init.count = 0 := rfl
          omega)
        obtain ⟨P, hP, -⟩ := hF F (Nat.le_refl _)
        exact ⟨g, P, hmod, ⟨_, _, F, s, _, _, h1, h2, hP⟩, hd⟩

attribute [local instance] Build.plain

/-- `a*` in ASCII and `é` in UTF-8, as they stand. -/
def literalPair : List Request := [
  ⟨name "a*", ⟨true, false, false⟩, name "ASCII"⟩,
  ⟨[0xC3, 0xA9], ⟨true, false, false⟩, name "UTF-8"⟩]

theorem literalPair_searchable : ∀ r ∈ literalPair, Searchable r := by
  intro r hr
  simp only [literalPair, List.mem_cons, List.not_mem_nil, or_false] at hr
  rcases hr with rfl | rfl
  · refine ⟨[97, 42], .std .ascii, [], ⟨rfl, rfl, by simp [Utf.Scalar], by decide⟩, by simp, by simp, by simp, ascii_reads,
      fun _ => .inl rfl, ?_⟩
    simp [charBytes, Coding.spec, Decoders.Charset.spec]
  · refine ⟨[0xE9], .std .utf8, [], ⟨rfl, rfl, by simp [Utf.Scalar], by decide⟩, by simp, by simp, by simp,
      exact_reads (name "UTF-8", _) (by simp [Chain.exact]), by simp, ?_⟩
    simp [charBytes, Coding.spec, Decoders.Charset.spec, Utf.Scalar, Utf.spec8]

/-- The hypotheses of `fixed_hits` are met by the two requests. -/
theorem literalPair_compiled : ∃ g P, Compiled Parser.plain literalPair [some 0, some 1] g P :=
  compiled_of_check (fun r hr => (searchable_parsed (literalPair_searchable r hr)).1) (by decide) (by decide +kernel)

-- So in `xa*éa*`, however it is divided, `a*` is found twice, as it stands.
example : ∃ P, ∀ {fuel first σ₀}, Vm.create P fuel = .ok (first, σ₀) → ∀ {bufs : List (List UInt8)} {res σ},
    bufs.flatten = [120, 97, 42, 0xC3, 0xA9, 97, 42] → Vm.run P first fuel (Vm.searches 0 bufs) σ₀ = .ok (res, σ) →
    Vm.hitsOf 0 σ.log = [(1, 3), (5, 7)] := by
  obtain ⟨g, P, h⟩ := literalPair_compiled
  obtain ⟨key, hk, -, hh⟩ := fixed_hits Parser.plain_sound h (i := 0) (l := 0) rfl rfl rfl rfl
  refine ⟨P, fun hnew bufs res σ hb hrun => ?_⟩
  rw [hh hnew hrun, hb, keyOf_unique hk (y := [97, 42]) ⟨[97, 42], .std .ascii, [], ⟨rfl, rfl, by simp [Utf.Scalar], by decide⟩,
    ascii_reads, by simp [keyBytes, charBytes, Coding.spec, Decoders.Charset.spec, toBytes, Transforms.applyAll]⟩]
  decide

-- Occurrences that overlap.
example : occurrences [97, 97] 10 0 [98, 97, 97, 97, 98, 97, 97] = [(11, 13), (15, 17)] := by decide

end Verif.Session
