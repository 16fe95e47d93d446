import Verif.Props.Fixed
import Verif.Props.TextOrder
/-!
# C104: fixed strings, whatever their case

The same as C103 for a keyword asked for without regard to case.  In a build without ICU that means the
letters of ASCII; with ICU it means what ICU takes for the same letter, except that in ASCII mode the
letters of ASCII stand for each other only.
-/
namespace Verif.Session
open Verif.Encoders Verif.Chain Verif.Nfa Verif.NfaBuilder Verif.Fsm Verif.Subset Verif.Defined
open Verif.Regex (Tree lang NoLook NoDead NgFlat NoNg AllLeaves weight UNB)
open Verif.Parser (Env PatternOpts)

/-! ## Specification -/

/-- The same character, or the same letter of ASCII in the other case. -/
def SameLetter (x y : Nat) : Prop :=
  x = y ∨ (65 ≤ x ∧ x ≤ 90 ∧ y = x + 32) ∨ (97 ≤ x ∧ x ≤ 122 ∧ x = y + 32)

/-- The characters that stand for `c` in a build with ICU, which takes `E` for the same letter. -/
def IcuLetter (E : Nat → Nat → Prop) (ascii : Bool) (c y : Nat) : Prop :=
  if ascii = true ∧ c < 128 then SameLetter c y else E c y

/-- The case folding of the parser is that of a build with ICU whose letters are `E`:
parseutil.cpp 101–113 and 150–156. -/
def FoldsIcu (env : Env) (E : Nat → Nat → Prop) : Prop :=
  ∃ close, ParseUtil.Closes E close ∧ (∀ s, env.fold true s = ParseUtil.caseDesensitizeAscii (some close) s) ∧
    ∀ s, env.fold false s = some (match close s with | some s' => (s', true) | none => (s, false))

/-- A character on its own is taken for those that `V` has for it, in ASCII mode and in Unicode mode. -/
def FoldsAs (env : Env) (V : Bool → Nat → Nat → Prop) : Prop :=
  ∀ a c, c < 0x110000 → ∃ s added, env.fold a (RangeSet.insert [] c (c + 1)) = some (s, added) ∧
    (∀ y, RangeSet.has s y = true ↔ V a c y) ∧ V a c c ∧ (added = false → ∀ y, V a c y → y = c)

/-- The request asks for these characters, in UTF-8, in upper or lower case. -/
structure Caselessly (r : Request) (cs : List Nat) : Prop where
  fixed : r.opts.fixed = true
  caseless : r.opts.caseless = true
  scalar : ∀ c ∈ cs, Utf.Scalar c
  text : r.expr.map UInt8.toNat = cs.flatMap Utf.spec8

/-- From `s` to `f` there are the bytes of a text each character of which stands for that of `cs`,
in an encoding that has all its characters. -/
def CaselessAt (V : Nat → Nat → Prop) (k : Coding) (ts : List Transforms.ByteT) (cs : List Nat) (off : Nat) (data : List UInt8)
    (s f : Nat) : Prop :=
  ∃ ys, List.Forall₂ V cs ys ∧ (∀ y ∈ ys, charBytes k ts y ≠ []) ∧ OccursAt (keyBytes k ts ys) off data s f

/-- A keyword that can be searched for: not empty and without the null character, in an encoding that
has, for each of its characters, one that stands for it (and that is named `ASCII` if it is ASCII and
there is no ICU). -/
def CaselesslySearchable [Build] (V : Bool → Nat → Nat → Prop) (r : Request) : Prop :=
  ∃ cs k ts, Caselessly r cs ∧ cs ≠ [] ∧ 0 ∉ cs ∧ cs.length < 2 ^ 30 ∧ Reads r.chain k ts ∧
    (k = .std .ascii → r.chain = name "ASCII" ∨ Build.converter (name "US-ASCII") ≠ none) ∧
    ∀ c ∈ cs, ∃ y, V (!r.opts.unicode) c y ∧ charBytes k ts y ≠ []

/-! ## Folding -/

theorem one_wf {c : Nat} (hc : c < 0x110000) : RangeSet.WF ParseUtil.cps (RangeSet.insert [] c (c + 1)) :=
  RangeSet.insert_wf ⟨by simp, by simp, by simp⟩ (by omega) (by simp only [ParseUtil.cps]; omega)

theorem one_has (c y : Nat) : RangeSet.has (RangeSet.insert [] c (c + 1)) y = true ↔ y = c := by
  rw [RangeSet.insert_has (N := ParseUtil.cps) ⟨by simp, by simp, by simp⟩ (by omega)]
  simp [RangeSet.has, RangeSet.below]
  omega

theorem sameLetter_iff {c y : Nat} : SameLetter c y ↔ y = c ∨ ParseUtil.OtherCase c y := by
  unfold SameLetter ParseUtil.OtherCase
  omega

/-- A build without ICU takes the letters of ASCII for the same. -/
theorem folds_plain : FoldsAs Parser.plain fun _ => SameLetter := by
  intro a c hc
  have w1 := one_wf hc
  have m1 : ∀ y, RangeSet.test (RangeSet.insert [] c (c + 1)) y = true ↔ y = c := by
    intro y
    rw [RangeSet.test_eq_has w1, one_has]
  obtain ⟨s, added, hs, ws, k1, k2, k3, k4⟩ := ParseUtil.case_folding _ w1
  have ms : ∀ y, RangeSet.has s y = true ↔ SameLetter c y := by
    intro y
    rw [← RangeSet.test_eq_has ws, sameLetter_iff]
    constructor
    · intro h
      refine k3 (fun y => y = c ∨ ParseUtil.OtherCase c y) (fun y hy => Or.inl ((m1 y).1 hy)) ?_ y h
      rintro y z hyz (rfl | h)
      · exact Or.inr hyz
      · left; unfold ParseUtil.OtherCase at hyz h; omega
    · rintro (rfl | h)
      · exact k1 _ ((m1 _).2 rfl)
      · exact k2 _ _ h (k1 _ ((m1 _).2 rfl))
  refine ⟨s, added, hs, ms, .inl rfl, fun ha y hy => ?_⟩
  by_contra hne
  have : added = true := k4.2 ⟨y, by rw [RangeSet.test_eq_has ws]; exact (ms y).2 hy, by
    cases hc : RangeSet.test (RangeSet.insert [] c (c + 1)) y with
    | false => rfl
    | true => exact absurd ((m1 y).1 hc) hne⟩
  rw [ha] at this
  cases this

/-- A build with ICU takes for the same what ICU does, except for the letters of ASCII in ASCII mode. -/
theorem folds_icu {env : Env} {E : Nat → Nat → Prop} (hE : Equivalence E) (hA : ∀ x y, ParseUtil.OtherCase x y → E x y)
    (h : FoldsIcu env E) : FoldsAs env (IcuLetter E) := by
  obtain ⟨close, hcl, h1, h2⟩ := h
  intro a c hc
  have w1 := one_wf hc
  cases a with
  | false =>
    rw [h2]
    have hV : ∀ y, IcuLetter E false c y ↔ E c y := by intro y; simp [IcuLetter]
    cases hs : close (RangeSet.insert [] c (c + 1)) with
    | some s' =>
      obtain ⟨w, hh⟩ := hcl.some _ _ w1 hs
      refine ⟨s', true, rfl, fun y => ?_, (hV c).2 (hE.refl c), by simp⟩
      rw [hh, hV]
      constructor
      · rintro ⟨z, hz, h⟩
        rw [(one_has c z).1 hz] at h
        exact h
      · exact fun h => ⟨c, (one_has c c).2 rfl, h⟩
    | none =>
      have hn := hcl.none _ w1 hs
      have key : ∀ y, E c y → y = c := fun y hy => (one_has c y).1 (hn c y ((one_has c c).2 rfl) hy)
      refine ⟨_, false, rfl, fun y => ?_, (hV c).2 (hE.refl c), fun _ y hy => key y ((hV y).1 hy)⟩
      rw [one_has, hV]
      exact ⟨by rintro rfl; exact hE.refl _, key y⟩
  | true =>
    rw [h1]
    have m1 : ∀ y, RangeSet.test (RangeSet.insert [] c (c + 1)) y = true ↔ y = c := by
      intro y
      rw [RangeSet.test_eq_has w1, one_has]
    obtain ⟨s, added, hs, ws, k1, k2, k3, k4, k5⟩ := ParseUtil.case_folding_icu E hE hA close hcl _ w1
    have hr : IcuLetter E true c c := by
      unfold IcuLetter
      split
      · exact .inl rfl
      · exact hE.refl c
    have ms : ∀ y, RangeSet.has s y = true ↔ IcuLetter E true c y := by
      intro y
      rw [← RangeSet.test_eq_has ws]
      constructor
      · intro h
        refine k4 (fun y => IcuLetter E true c y) (fun y hy => by rw [(m1 y).1 hy]; exact hr) ?_ ?_ y h
        · intro x z hxz
          show IcuLetter E true c x → IcuLetter E true c z
          unfold IcuLetter
          split
          · rw [sameLetter_iff, sameLetter_iff]
            rintro (rfl | h)
            · exact .inr hxz
            · left; unfold ParseUtil.OtherCase at hxz h; omega
          · exact fun h => hE.trans h (hA _ _ hxz)
        · intro x z hx hxc hxz
          have := (m1 x).1 hxc
          subst this
          unfold IcuLetter
          rw [if_neg (by omega)]
          exact hxz
      · intro h
        unfold IcuLetter at h
        split at h
        · rcases sameLetter_iff.1 h with rfl | h
          · exact k1 _ ((m1 _).2 rfl)
          · exact k2 _ _ h (k1 _ ((m1 _).2 rfl))
        · next hlt =>
          have hc128 : 128 ≤ c := by
            by_contra hcon
            exact hlt ⟨rfl, by omega⟩
          exact k3 c y hc128 ((m1 c).2 rfl) h
    refine ⟨s, added, hs, ms, hr, fun ha y hy => ?_⟩
    by_contra hne
    have : added = true := k5.2 ⟨y, by rw [RangeSet.test_eq_has ws]; exact (ms y).2 hy, by
      cases hc : RangeSet.test (RangeSet.insert [] c (c + 1)) y with
      | false => rfl
      | true => exact absurd ((m1 y).1 hc) hne⟩
    rw [ha] at this
    cases this

/-! ## The tree -/

/-- The strings of the characters that stand for a character. -/
def anyCase (V : Nat → Nat → Prop) (enc : Nat → List Nat) (c : Nat) : Language UInt8 :=
  {w | ∃ y, V c y ∧ enc y ≠ [] ∧ w = toBytes (enc y)}

theorem literal_caseless {env : Env} {V : Bool → Nat → Nat → Prop} (hV : FoldsAs env V) (a : Bool) {c : Nat} (hc : c < 0x110000) :
    ∃ n, Parser.literal env ⟨false, a⟩ c = .ok n ∧ ∀ enc, textSem enc n = anyCase (V a) enc c := by
  obtain ⟨s, added, hs, ms, hr, k4⟩ := hV a c hc
  have hl : Parser.literal env ⟨false, a⟩ c = .ok (if added then .cls s 0 true else .lit c) := by
    simp only [Parser.literal, hs]
    cases added <;> rfl
  refine ⟨_, hl, fun enc => ?_⟩
  cases added with
  | true =>
    ext w
    show ((∃ c, RangeSet.has s c = true ∧ enc c ≠ [] ∧ w = toBytes (enc c)) ∨ ∃ b, Nfa.BSet.has 0 b = true ∧ w = [b]) ↔ _
    constructor
    · rintro (⟨y, h1, h2, h3⟩ | ⟨b, hb, -⟩)
      · exact ⟨y, (ms y).1 h1, h2, h3⟩
      · simp [Nfa.BSet.has] at hb
    · rintro ⟨y, h1, h2, h3⟩
      exact Or.inl ⟨y, (ms y).2 h1, h2, h3⟩
  | false =>
    ext w
    show (enc c ≠ [] ∧ w = toBytes (enc c)) ↔ _
    constructor
    · rintro ⟨h1, h2⟩; exact ⟨c, hr, h1, h2⟩
    · rintro ⟨y, h1, h2, h3⟩
      have := k4 rfl y h1
      subst this
      exact ⟨h2, h3⟩

/-- The tree of a sequence of leaves. -/
def nodesTree (t : Tree Node) (ns : List Node) : Tree Node := ns.foldl (fun t n => .cat t (.leaf n)) t

theorem spelled_nodes {env : Env} {o : Parser.Opts} {cs : List Nat} {ns : List Node}
    (h : List.Forall₂ (fun c n => Parser.literal env o c = .ok n) cs ns) : ∀ (t : Tree Node) (k : Nat),
    ∃ k', Parser.spelled env o (some t) k (cs.map fun c : Nat => (c : Int)) = .ok (nodesTree t ns, o, k', []) := by
  induction h with
  | nil => exact fun t k => ⟨k, rfl⟩
  | @cons c n cs ns hc _ ih =>
    intro t k
    obtain ⟨k', h⟩ := ih (.cat t (.leaf n)) (k + 1 + (0 + 1))
    refine ⟨k', ?_⟩
    rw [List.map_cons, Parser.spelled, Int.toNat_natCast, hc]
    exact h

theorem parse_nodes {env : Env} {p : PatternOpts} (hf : p.fixed = true) {c : Nat} {cs : List Nat} {n : Node} {ns : List Node}
    (h0 : 0 ∉ c :: cs)
    (h : List.Forall₂ (fun c n => Parser.literal env ⟨!p.caseless, !p.unicode⟩ c = .ok n) (c :: cs) (n :: ns)) :
    ∃ j, Parser.parse env p ((c :: cs).map fun c : Nat => (c : Int)) = .ok (nodesTree (.leaf n) ns, j) := by
  obtain ⟨f, i, u⟩ := p
  cases hf
  cases h with
  | cons hn hns =>
    unfold Parser.parse
    have h1 : ∀ x ∈ (c :: cs).map (fun c : Nat => (c : Int)), (1 : Int) ≤ x := by
      intro x hx
      obtain ⟨y, hy, rfl⟩ := List.mem_map.1 hx
      have : y ≠ 0 := by rintro rfl; exact h0 hy
      omega
    rw [Parser.parseTokens_means (Parser.lex_fixed env _ _ _ (Nat.le_refl _) h1) (by simp)]
    obtain ⟨k', h⟩ := spelled_nodes hns (.leaf n) (0 + 1 + (0 + 0))
    refine ⟨k' + 1, ?_⟩
    rw [List.map_cons, Parser.spelled, Int.toNat_natCast]
    dsimp only at hn h ⊢
    rw [hn]
    simp only [Parser.joinCat]
    rw [h]

theorem nodesTree_plain : ∀ (ns : List Node) (t : Tree Node), NgFlat t ∧ NoDead t ∧ NoUnb t ∧ NoLook t ∧ NoNg t →
    (NgFlat (nodesTree t ns) ∧ NoDead (nodesTree t ns) ∧ NoUnb (nodesTree t ns) ∧ NoLook (nodesTree t ns) ∧ NoNg (nodesTree t ns)) ∧
      weight (nodesTree t ns) = weight t + ns.length
  | [], t, h => ⟨h, rfl⟩
  | n :: ns, t, ⟨h1, h2, h3, h4, h5⟩ => by
    obtain ⟨a, b⟩ := nodesTree_plain ns (.cat t (.leaf n)) ⟨⟨h1, trivial⟩, ⟨h2, trivial⟩, ⟨h3, trivial⟩, ⟨h4, trivial⟩, h5, trivial⟩
    exact ⟨a, by rw [nodesTree, List.foldl_cons]; show weight (nodesTree _ ns) = _; rw [b]; simp [weight]; omega⟩

theorem nodesTree_leaves {Q : Node → Prop} : ∀ (ns : List Node) (t : Tree Node),
    AllLeaves Q (nodesTree t ns) ↔ AllLeaves Q t ∧ ∀ n ∈ ns, Q n
  | [], t => by simp [nodesTree]
  | n :: ns, t => by
    rw [nodesTree, List.foldl_cons]
    show AllLeaves Q (nodesTree _ ns) ↔ _
    rw [nodesTree_leaves ns]
    simp [AllLeaves, and_assoc]

theorem nodesTree_lang {V : Nat → Nat → Prop} {enc : Nat → List Nat} {cs : List Nat} {ns : List Node}
    (h : List.Forall₂ (fun c n => textSem enc n = anyCase V enc c) cs ns) : ∀ (t : Tree Node) (w : List UInt8),
    w ∈ lang (textSem enc) (nodesTree t ns) ↔ ∃ v, v ∈ lang (textSem enc) t ∧ ∃ ys, List.Forall₂ V cs ys ∧
      (∀ y ∈ ys, enc y ≠ []) ∧ w = v ++ toBytes (ys.flatMap enc) := by
  induction h with
  | nil => intro t w; simp [nodesTree, toBytes]
  | @cons c n cs ns hc _ ih =>
    intro t w
    rw [nodesTree, List.foldl_cons]
    show w ∈ lang _ (nodesTree _ ns) ↔ _
    rw [ih]
    constructor
    · rintro ⟨v, hv, ys, h1, h2, rfl⟩
      obtain ⟨a, ha, b, hb, rfl⟩ := Language.mem_mul.1 hv
      have hb : b ∈ anyCase V enc c := by rw [← hc]; exact hb
      obtain ⟨y, hy1, hy2, rfl⟩ := hb
      refine ⟨a, ha, y :: ys, .cons hy1 h1, ?_, by simp [toBytes]⟩
      intro x hx
      rcases List.mem_cons.1 hx with rfl | hx
      · exact hy2
      · exact h2 x hx
    · rintro ⟨v, hv, _, h1, h2, rfl⟩
      cases h1 with
      | @cons _ y _ ys hy hys =>
        refine ⟨v ++ toBytes (enc y), Language.mem_mul.2 ⟨v, hv, _, ?_, rfl⟩, ys, hys, fun x hx => h2 x (by simp [hx]), by simp [toBytes]⟩
        show _ ∈ textSem enc n
        rw [hc]
        exact ⟨y, hy, h2 y (by simp), rfl⟩

theorem literals {env : Env} {V : Bool → Nat → Nat → Prop} (hV : FoldsAs env V) (a : Bool) : ∀ cs : List Nat, (∀ c ∈ cs, c < 0x110000) →
    ∃ ns, List.Forall₂ (fun c n => Parser.literal env ⟨false, a⟩ c = .ok n) cs ns ∧
      ∀ enc, List.Forall₂ (fun c n => textSem enc n = anyCase (V a) enc c) cs ns
  | [], _ => ⟨[], .nil, fun _ => .nil⟩
  | c :: cs, h => by
    obtain ⟨n, h1, h2⟩ := literal_caseless hV a (h c (by simp))
    obtain ⟨ns, h3, h4⟩ := literals hV a cs (fun c hc => h c (by simp [hc]))
    exact ⟨n :: ns, .cons h1 h3, fun enc => .cons (h2 enc) (h4 enc)⟩

theorem present_iff {V : Nat → Nat → Prop} {enc : Nat → List Nat} {cs : List Nat} {ns : List Node}
    (h : List.Forall₂ (fun c n => textSem enc n = anyCase V enc c) cs ns) :
    (∀ n ∈ ns, Present enc n) ↔ ∀ c ∈ cs, ∃ y, V c y ∧ enc y ≠ [] := by
  induction h with
  | nil => simp
  | @cons c n cs ns hc _ ih =>
    rw [List.forall_mem_cons, List.forall_mem_cons, ih]
    refine and_congr ?_ Iff.rfl
    unfold Present
    rw [hc]
    constructor
    · rintro ⟨w, y, h1, h2, -⟩; exact ⟨y, h1, h2⟩
    · rintro ⟨y, h1, h2⟩; exact ⟨_, y, h1, h2, rfl⟩

/-- The tree of a request for characters in either case. -/
theorem Caselessly.parsed {env : Env} {V : Bool → Nat → Nat → Prop} (hV : FoldsAs env V) {r : Request} {cs : List Nat}
    (h : Caselessly r cs) (hne : cs ≠ []) (h0 : 0 ∉ cs) :
    ∃ t j, Text.parseText env r.opts r.expr = .ok (t, j) ∧ (NgFlat t ∧ NoDead t ∧ NoUnb t ∧ NoLook t ∧ NoNg t) ∧
      weight t = cs.length ∧
      (∀ enc, AllLeaves (Present enc) t ↔ ∀ c ∈ cs, ∃ y, V (!r.opts.unicode) c y ∧ enc y ≠ []) ∧
      ∀ enc w, w ∈ lang (textSem enc) t ↔
        ∃ ys, List.Forall₂ (V (!r.opts.unicode)) cs ys ∧ (∀ y ∈ ys, enc y ≠ []) ∧ w = toBytes (ys.flatMap enc) := by
  obtain ⟨c, cs, rfl⟩ := List.exists_cons_of_ne_nil hne
  obtain ⟨ns', l1, l2⟩ := literals hV (!r.opts.unicode) (c :: cs) (fun x hx => by
    have := h.scalar x hx
    unfold Utf.Scalar at this
    omega)
  have htext : Text.codePoints r.expr = some ((c :: cs).map fun c : Nat => (c : Int)) :=
    Literally.codePoints (r := { r with opts := ⟨true, false, false⟩ }) ⟨rfl, rfl, h.scalar, h.text⟩
  cases ns' with
  | nil => cases l1
  | cons n ns =>
    obtain ⟨j', hp⟩ := parse_nodes (env := env) (p := r.opts) h.fixed h0 (by rw [h.caseless]; exact l1)
    obtain ⟨a1, a2⟩ := nodesTree_plain ns (.leaf n) (by simp [NgFlat, NoDead, NoUnb, NoLook, NoNg])
    refine ⟨nodesTree (.leaf n) ns, j', by rw [Text.parseText, htext]; exact hp, a1, ?_, fun enc => ?_, fun enc w => ?_⟩
    · have := l1.length_eq
      simp only [List.length_cons] at this
      rw [a2, List.length_cons, weight]
      omega
    · rw [nodesTree_leaves, ← present_iff (l2 enc), List.forall_mem_cons]
      rfl
    · have hl := l2 enc
      cases hl with
      | cons hn hns =>
        rw [nodesTree_lang hns]
        constructor
        · rintro ⟨v, hv, ys, b1, b2, rfl⟩
          have hv : v ∈ anyCase (V (!r.opts.unicode)) enc c := by rw [← hn]; exact hv
          obtain ⟨y, hy1, hy2, rfl⟩ := hv
          refine ⟨y :: ys, .cons hy1 b1, ?_, by simp [toBytes]⟩
          intro x hx
          rcases List.mem_cons.1 hx with rfl | hx
          · exact hy2
          · exact b2 x hx
        · rintro ⟨_, b1, b2, rfl⟩
          cases b1 with
          | @cons _ y _ ys hy hys =>
            refine ⟨toBytes (enc y), ?_, ys, hys, fun x hx => b2 x (by simp [hx]), by simp [toBytes]⟩
            show _ ∈ textSem enc n
            rw [hn]
            exact ⟨y, hy, b2 y (by simp), rfl⟩

/-- What a request asks for without regard to case, if it can be read. -/
theorem caselessly_of_parsed {env : Env} {r : Request} (hf : r.opts.fixed = true) (hc : r.opts.caseless = true) {t : Tree Node} {j : Nat}
    (h : Text.parseText env r.opts r.expr = .ok (t, j)) : ∃ cs, Caselessly r cs ∧ cs ≠ [] ∧ 0 ∉ cs := by
  unfold Text.parseText at h
  split at h
  · cases h
  · next text ht =>
    have hno : ¬ (text = [] ∨ ∃ c ∈ text, c < 1) := by
      intro hbad
      have e : r.opts = ⟨true, r.opts.caseless, r.opts.unicode⟩ := by rw [← hf]
      rw [e] at h
      exact Parser.fixed_refused env _ _ hbad _ h
    rw [not_or] at hno
    obtain ⟨ds, hd, rfl⟩ := Option.map_eq_some_iff.1 ht
    obtain ⟨es, h1, rfl, h3⟩ := Malformed.transform_utf8 _ _ (by
      intro b hb
      obtain ⟨u, -, rfl⟩ := List.mem_map.1 hb
      exact u.toNat_lt) ds hd (by
        rintro c hc rfl
        exact hno.2 ⟨-1, List.mem_map.2 ⟨none, hc, rfl⟩, by omega⟩)
    refine ⟨es, ⟨hf, hc, h1, h3⟩, ?_, ?_⟩
    · rintro rfl; exact hno.1 rfl
    · intro h0
      exact hno.2 ⟨0, List.mem_map.2 ⟨some 0, List.mem_map.2 ⟨0, h0, rfl⟩, rfl⟩, by omega⟩

/-! ## One text at a place -/

theorem toBytes_append (a b : List Nat) : toBytes (a ++ b) = toBytes a ++ toBytes b := by simp [toBytes]

/-- Two texts of the same number of characters do not begin at the same place. -/
theorem keyBytes_prefix [Build] {chain : List UInt8} {k : Coding} {ts : List Transforms.ByteT} (hr : Reads chain k ts) :
    ∀ {xs ys : List Nat}, xs.length = ys.length → (∀ x ∈ xs, charBytes k ts x ≠ []) → (∀ y ∈ ys, charBytes k ts y ≠ []) →
    ∀ {data : List UInt8}, keyBytes k ts xs <+: data → keyBytes k ts ys <+: data → xs = ys
  | [], [], _, _, _, _, _, _ => rfl
  | x :: xs, y :: ys, hl, hx, hy, data, h1, h2 => by
    have e : ∀ z zs, keyBytes k ts (z :: zs) = toBytes (charBytes k ts z) ++ keyBytes k ts zs := by
      intro z zs
      rw [keyBytes, List.flatMap_cons, toBytes_append]
      rfl
    rw [e] at h1 h2
    have p1 := (List.prefix_append _ _).trans h1
    have p2 := (List.prefix_append _ _).trans h2
    have hxy : x = y := by
      rcases List.prefix_or_prefix_of_prefix p1 p2 with h | h
      · exact chars_prefix hr (hx x (by simp)) (hy y (by simp)) h
      · exact (chars_prefix hr (hy y (by simp)) (hx x (by simp)) h).symm
    subst hxy
    obtain ⟨r1, rfl⟩ := h1
    obtain ⟨r2, h2⟩ := h2
    rw [List.append_assoc, List.append_assoc, List.append_cancel_left_eq] at h2
    rw [keyBytes_prefix hr (by simpa using hl) (fun z hz => hx z (by simp [hz])) (fun z hz => hy z (by simp [hz]))
      (List.prefix_append (keyBytes k ts xs) r1) (by rw [← h2]; exact List.prefix_append _ _)]

/-- **C104** At one place there is at most one text that stands for the keyword. -/
theorem caselessAt_end [Build] {chain : List UInt8} {k : Coding} {ts : List Transforms.ByteT} (hr : Reads chain k ts) {V : Nat → Nat → Prop}
    {cs : List Nat} {off : Nat} {data : List UInt8} {s f f' : Nat} (h : CaselessAt V k ts cs off data s f)
    (h' : CaselessAt V k ts cs off data s f') : f = f' := by
  obtain ⟨ys, y1, y2, -, rfl, y3⟩ := h
  obtain ⟨zs, z1, z2, -, rfl, z3⟩ := h'
  rw [keyBytes_prefix hr (y1.length_eq.symm.trans z1.length_eq) y2 z2 y3 z3]

/-- If at most one ends for each beginning, the leftmost ones without overlaps are determined. -/
theorem leftmost_unique {A : Nat → Nat → Prop} (hA : ∀ s f f', A s f → A s f' → f = f') : ∀ (hs hs' : List (Nat × Nat)) (m : Nat),
    Compiler.Leftmost A m hs → Compiler.Leftmost A m hs' → hs = hs'
  | [], [], _, _, _ => rfl
  | [], (s, f) :: _, m, h, h' => absurd (h s f h'.1) (by have := h'.2.1; omega)
  | (s, f) :: _, [], m, h, h' => absurd (h' s f h.1) (by have := h.2.1; omega)
  | (s, f) :: hs, (s', f') :: hs', m, ⟨a1, a2, a3, a4⟩, ⟨b1, b2, b3, b4⟩ => by
    have := a3 s' f' b1 b2
    have := b3 s f a1 a2
    obtain rfl : s = s' := by omega
    obtain rfl := hA _ _ _ a1 b1
    rw [leftmost_unique hA hs hs' f a4 b4]

/-! ## The theorems -/

/-- **C104** A keyword is asked for as a fixed string without regard to case, and accepted, whatever else
is asked for in the same program, with any options.  Then the hits with its number are the leftmost
non-overlapping places with the bytes of a text whose characters stand for those of the keyword, and
there is only one such list of hits. -/
theorem caseless_hits [Build] {env : Env} (he : env.Sound) {V : Bool → Nat → Nat → Prop} (hV : FoldsAs env V)
    {rs : List Request} {os : List (Option Nat)} {g : Graph} {P : Vm.Program}
    (h : Compiled env rs os g P) {i l : Nat} {r : Request} (hr : rs[i]? = some r) (ho : os[i]? = some (some l))
    (hf : r.opts.fixed = true) (hc : r.opts.caseless = true) :
    ∃ cs k ts, Caselessly r cs ∧ cs ≠ [] ∧ Reads r.chain k ts ∧
      ∀ {fuel : Nat} {first : List Vm.Thread} {σ₀ : Vm.St}, Vm.create P fuel = .ok (first, σ₀) →
      ∀ {off : Nat} {bufs : List (List UInt8)} {res : List (Option Nat)} {σ : Vm.St},
        Vm.run P first fuel (Vm.searches off bufs) σ₀ = .ok (res, σ) →
        ∀ hits, Compiler.Leftmost (CaselessAt (V (!r.opts.unicode)) k ts cs off bufs.flatten) 0 hits ↔ hits = Vm.hitsOf l σ.log := by
  obtain ⟨ps, -, -, h4, -⟩ := h.made' he
  obtain ⟨t', -, ha⟩ := h4 i r l hr ho
  obtain ⟨w, hw⟩ := takes_inhabited ha.sane ha.takes
  obtain ⟨t, j, k, ts, hp, hrd, hwt⟩ := ha.sub w hw
  obtain ⟨cs, hL, hne, h0⟩ := caselessly_of_parsed hf hc hp
  obtain ⟨t1, j1, hp1, ⟨a1, a2, a3, -⟩, -, -, hlang⟩ := hL.parsed hV hne h0
  rw [hp1] at hp
  cases hp
  have hp := hp1
  refine ⟨cs, k, ts, hL, hne, hrd, fun hnew off bufs res σ hrun => ?_⟩
  have hu := unpumped_of_bounded hr ho (parsed_of hp a1) (parsed_of hp a2.noBlank) (parsed_of hp a3) (ha.sub w hw)
  have hLm := unpumped_text_hits he h hu hnew hrun hr ho (parsed_of hp a1) (parsed_of hp a2.noBlank)
  have hM : ∀ v, Matches env r v ↔
      ∃ ys, List.Forall₂ (V (!r.opts.unicode)) cs ys ∧ (∀ y ∈ ys, charBytes k ts y ≠ []) ∧ v = keyBytes k ts ys := by
    intro v
    rw [show (∃ ys, List.Forall₂ (V (!r.opts.unicode)) cs ys ∧ (∀ y ∈ ys, charBytes k ts y ≠ []) ∧ v = keyBytes k ts ys) ↔
      v ∈ lang (textSem (charBytes k ts)) t from (hlang _ v).symm]
    constructor
    · rintro ⟨t1, j1, k1, ts1, b1, b2, b3⟩
      rw [hp] at b1
      cases b1
      obtain ⟨rfl, rfl⟩ := reads_unique hrd b2
      exact b3
    · exact fun hv => ⟨_, _, k, ts, hp, hrd, hv⟩
  have hfin : Compiler.Leftmost (CaselessAt (V (!r.opts.unicode)) k ts cs off bufs.flatten) 0 (Vm.hitsOf l σ.log) := by
    refine leftmost_congr _ _ (fun s f _ => ?_) (fun s f hat => hat.2.1) hLm
    unfold MatchAt CaselessAt
    rw [hM]
    constructor
    · rintro ⟨h1, h2, h3, ys, y1, y2, h4⟩
      refine ⟨ys, y1, y2, h1, ?_, ?_⟩
      · have hlen := congrArg List.length h4
        rw [List.length_take, List.length_drop] at hlen
        omega
      · rw [← h4]
        exact List.take_prefix _ _
    · rintro ⟨ys, y1, y2, h1, rfl, h3⟩
      have hkne : keyBytes k ts ys ≠ [] := by
        intro e
        cases y1 with
        | nil => exact hne rfl
        | @cons _ y _ ys _ _ =>
          simp only [keyBytes, toBytes, List.flatMap_cons, List.map_eq_nil_iff, List.append_eq_nil_iff] at e
          exact y2 y (by simp) e.1
      have hpos := List.length_pos_iff.2 hkne
      have hle := h3.length_le
      rw [List.length_drop] at hle
      refine ⟨h1, by omega, by omega, ys, y1, y2, ?_⟩
      rw [Nat.add_sub_cancel_left]
      exact (List.prefix_iff_eq_take.1 h3).symm
  exact fun hits => ⟨fun hh => leftmost_unique (A := CaselessAt (V (!r.opts.unicode)) k ts cs off bufs.flatten)
    (fun s f f' h1 h2 => caselessAt_end hrd h1 h2) _ _ 0 hh hfin, fun e => by rw [e]; exact hfin⟩

theorem spec8_length (x : Nat) : 1 ≤ (Utf.spec8 x).length ∧ (Utf.spec8 x).length ≤ 4 := by
  unfold Utf.spec8
  repeat' split
  all_goals simp

theorem utf8_length : ∀ xs : List Nat, xs.length ≤ (xs.flatMap Utf.spec8).length ∧ (xs.flatMap Utf.spec8).length ≤ 4 * xs.length
  | [] => by simp
  | x :: xs => by
    have := utf8_length xs
    have := spec8_length x
    rw [List.flatMap_cons, List.length_append, List.length_cons]
    omega

theorem caseless_modest {env : Env} {V : Bool → Nat → Nat → Prop} (hV : FoldsAs env V) {r : Request} (hf : r.opts.fixed = true)
    (hc : r.opts.caseless = true) (hlen : r.expr.length < 2 ^ 30) : Modest env r := by
  refine ⟨fun t j hpt => ?_, by omega⟩
  obtain ⟨cs, hL, hne, h0⟩ := caselessly_of_parsed hf hc hpt
  obtain ⟨t1, j1, hp, -, hw, -⟩ := hL.parsed hV hne h0
  rw [hp] at hpt
  cases hpt
  have := (utf8_length cs).1
  rw [← hL.text, List.length_map] at this
  rw [hw]
  simp only [UNB]
  omega

theorem caseless_parsed [Build] {env : Env} {V : Bool → Nat → Nat → Prop} (hV : FoldsAs env V) {r : Request}
    (h : CaselesslySearchable V r) :
    Modest env r ∧ Text.parseAndReduce env r.opts r.expr ≠ .error .ub ∧ Acceptable env r := by
  obtain ⟨cs, k, ts, hL, hne, h0, hlen, hrd, hasc, hall⟩ := h
  obtain ⟨t, j, hp, ⟨a1, a2, a3, a4, a5⟩, hw, hlv, hlang⟩ := hL.parsed hV hne h0
  have hx := (utf8_length cs).2
  rw [← hL.text, List.length_map] at hx
  refine ⟨⟨parsed_of hp (by rw [hw]; simp only [UNB]; omega), by omega⟩, ?_, ?_⟩
  · unfold Text.parseAndReduce
    rw [hp]
    dsimp only
    split <;> simp
  · refine ⟨_, j, k, ts, hp, a4, hrd, hasc, (hlv _).2 hall, ?_⟩
    intro hnil
    obtain ⟨ys, b1, b2, e⟩ := (hlang _ _).1 hnil
    cases b1 with
    | nil => exact hne rfl
    | @cons _ y _ ys _ _ =>
      simp only [toBytes, List.flatMap_cons, List.nil_eq, List.map_eq_nil_iff, List.append_eq_nil_iff] at e
      exact b2 y (by simp) e.1

/-- **C104** A fixed string of less than 2^30 bytes, asked for without regard to case among other requests, is
accepted if and only if it can be searched for. -/
theorem caseless_accepted [Build] {env : Env} (he : env.Sound) {V : Bool → Nat → Nat → Prop} (hV : FoldsAs env V) {fuel : Nat}
    {rs : List Request} {s : State} {os : List (Option Nat)}
    (hm : ∀ r ∈ rs, Modest env r) (h : requests fuel env .init rs = some (s, os)) {i : Nat} {r : Request} (hr : rs[i]? = some r)
    (hf : r.opts.fixed = true) (hc : r.opts.caseless = true) (hlen : r.expr.length < 2 ^ 30) :
    (∃ l, os[i]? = some (some l)) ↔ CaselesslySearchable V r := by
  obtain ⟨-, -, h3⟩ := accepted_iff_partial he hm h
  obtain ⟨h1, h2, h3⟩ := h3 i r hr
  have hp : ∀ {P : Tree Node → Prop}, (∀ t, NoDead t ∧ NoNg t → P t) → Parsed env r P := by
    intro P hP t j hpt
    obtain ⟨cs, hL, hne, h0⟩ := caselessly_of_parsed hf hc hpt
    obtain ⟨t1, j1, hp, ⟨-, a2, -, -, a5⟩, -⟩ := hL.parsed hV hne h0
    rw [hp] at hpt
    cases hpt
    exact hP t ⟨a2, a5⟩
  constructor
  · intro ha
    obtain ⟨t, j, k, ts, hpt, -, hrd, hasc, hlv, -⟩ := (h3 (hp fun t h => h.2) (hp fun t h => h.1)).1 ha
    obtain ⟨cs, hL, hne, h0⟩ := caselessly_of_parsed hf hc hpt
    obtain ⟨t1, j1, hp, -, -, hl, -⟩ := hL.parsed hV hne h0
    rw [hp] at hpt
    cases hpt
    refine ⟨cs, k, ts, hL, hne, h0, ?_, hrd, hasc, (hl _).1 hlv⟩
    have := (utf8_length cs).1
    rw [← hL.text, List.length_map] at this
    omega
  · exact fun hs => h1 (caseless_parsed hV hs).2.2

/-! ## Example -/

attribute [local instance] Build.plain

/-- `a1B` without regard to case, and a pattern that matches more. -/
def mixed : List Request := [
  ⟨name "a1B", ⟨true, true, false⟩, name "ASCII"⟩,
  ⟨name "x+y", ⟨false, false, false⟩, name "ASCII"⟩]

theorem mixed_modest : ∀ r ∈ mixed, Modest Parser.plain r := by
  intro r hr
  have h : ∀ r ∈ mixed, plainly Parser.plain r = true ∧ r.expr.length < 2 ^ 64 := by decide +kernel
  refine ⟨fun t j e => ?_, (h r hr).2⟩
  have := (h r hr).1
  unfold plainly at this
  rw [e] at this
  simp only [Bool.and_eq_true, decide_eq_true_eq] at this
  simp only [UNB]
  omega

-- So in `xA1by`, however it is divided, `A1b` is found.
example : ∃ P, ∀ {fuel first σ₀}, Vm.create P fuel = .ok (first, σ₀) → ∀ {bufs : List (List UInt8)} {res σ},
    bufs.flatten = [120, 65, 49, 98, 121] → Vm.run P first fuel (Vm.searches 0 bufs) σ₀ = .ok (res, σ) →
    Vm.hitsOf 0 σ.log ≠ [] := by
  obtain ⟨g, P, h⟩ := compiled_of_check mixed_modest (os := [some 0, some 1]) (by decide) (by decide +kernel)
  obtain ⟨cs, k, ts, hL, -, hrd, hh⟩ := caseless_hits Parser.plain_sound folds_plain h (i := 0) (l := 0) rfl rfl rfl rfl
  refine ⟨P, fun hnew bufs res σ hb hrun hnil => ?_⟩
  have hl := (hh hnew hrun _).2 rfl
  rw [hnil, hb] at hl
  obtain ⟨rfl, rfl⟩ := reads_unique hrd ascii_reads
  have hcs : cs = [97, 49, 66] := by
    have h' : Literally { mixed[0] with opts := ⟨true, false, false⟩ } cs := ⟨rfl, rfl, hL.scalar, hL.text⟩
    exact h'.unique ⟨rfl, rfl, by simp [Utf.Scalar], by decide⟩
  subst hcs
  have := hl 1 4 ⟨[65, 49, 98], .cons (by simp [SameLetter]) (.cons (by simp [SameLetter]) (.cons (by simp [SameLetter]) .nil)),
    by simp [charBytes, Coding.spec, Decoders.Charset.spec], by simp [OccursAt, keyBytes, charBytes, Coding.spec, Decoders.Charset.spec,
      toBytes, Transforms.applyAll]⟩
  omega

/-- `K`, `k` and the sign for kelvin. -/
def KLetter (x : Nat) : Prop := x = 75 ∨ x = 107 ∨ x = 0x212A

/-- The letters of ASCII and the sign for kelvin. -/
def kelvin (x y : Nat) : Prop := SameLetter x y ∨ (KLetter x ∧ KLetter y)

/-- A closure under it, as ICU's would be. -/
def kelvinClose (s : List Nat) : Option (List Nat) :=
  (ParseUtil.caseDesensitizeAscii none s).map fun r =>
    if RangeSet.has s 75 || RangeSet.has s 107 || RangeSet.has s 0x212A then
      RangeSet.insert (RangeSet.insert (RangeSet.insert r.1 75 76) 107 108) 0x212A 0x212B
    else r.1

/-- A build with that ICU. -/
def kelvinEnv : Env := { Parser.plain with
  fold := fun a s => if a then ParseUtil.caseDesensitizeAscii (some kelvinClose) s else
    some (match kelvinClose s with | some s' => (s', true) | none => (s, false)) }

theorem kelvin_closes : ParseUtil.Closes kelvin kelvinClose := by
  have he : ∀ s, RangeSet.WF ParseUtil.cps s → ∃ s2 b, ParseUtil.caseDesensitizeAscii none s = some (s2, b) ∧ RangeSet.WF ParseUtil.cps s2 ∧
      ∀ x, RangeSet.has s2 x = true ↔ ∃ y, RangeSet.has s y = true ∧ SameLetter y x := by
    intro s hs
    obtain ⟨up, us1, lo, us2, e1, e2, e3, e4, w, hh⟩ := ParseUtil.asciiPart_spec s hs
    refine ⟨us2, decide (RangeSet.count s < RangeSet.count us2), ?_, w, fun x => ?_⟩
    · simp only [ParseUtil.caseDesensitizeAscii, e1, Option.bind_eq_bind, Option.bind_some, ← e2, e3, ← e4, ParseUtil.icuPart]
    · rw [hh x]
      simp only [sameLetter_iff]
      constructor
      · rintro (h | ⟨y, h1, h2⟩)
        · exact ⟨x, h, Or.inl rfl⟩
        · exact ⟨y, h2, Or.inr h1⟩
      · rintro ⟨y, h1, rfl | h2⟩
        · exact Or.inl h1
        · exact Or.inr ⟨y, h2, h1⟩
  refine ⟨fun s s' hs h => ?_, fun s hs h => ?_⟩
  · obtain ⟨s2, b, e, w, hh⟩ := he s hs
    unfold kelvinClose at h
    rw [e] at h
    simp only [Option.map_some, Option.some.injEq] at h
    by_cases hk : RangeSet.has s 75 || RangeSet.has s 107 || RangeSet.has s 0x212A
    · rw [if_pos hk] at h
      subst h
      have w1 := RangeSet.insert_wf w (f := 75) (la := 76) (by omega) (by simp [ParseUtil.cps])
      have w2 := RangeSet.insert_wf w1 (f := 107) (la := 108) (by omega) (by simp [ParseUtil.cps])
      refine ⟨RangeSet.insert_wf w2 (by omega) (by simp [ParseUtil.cps]), fun x => ?_⟩
      rw [RangeSet.insert_has w2 (by omega), RangeSet.insert_has w1 (by omega), RangeSet.insert_has w (by omega)]
      simp only [Bool.or_eq_true, Bool.and_eq_true, decide_eq_true_eq, hh]
      have hex : ∃ y, RangeSet.has s y = true ∧ KLetter y := by
        simp only [Bool.or_eq_true] at hk
        rcases hk with (hk | hk) | hk
        · exact ⟨_, hk, .inl rfl⟩
        · exact ⟨_, hk, .inr (.inl rfl)⟩
        · exact ⟨_, hk, .inr (.inr rfl)⟩
      obtain ⟨z, hz1, hz2⟩ := hex
      have hK : ∀ x, KLetter x → ∃ y, RangeSet.has s y = true ∧ kelvin y x := fun x hx => ⟨z, hz1, .inr ⟨hz2, hx⟩⟩
      constructor
      · rintro (((⟨y, h1, h2⟩ | h) | h) | h)
        · exact ⟨y, h1, .inl h2⟩
        · exact hK x (.inl (by omega))
        · exact hK x (.inr (.inl (by omega)))
        · exact hK x (.inr (.inr (by omega)))
      · rintro ⟨y, h1, h2 | ⟨-, h2⟩⟩
        · exact .inl (.inl (.inl ⟨y, h1, h2⟩))
        · rcases h2 with rfl | rfl | rfl
          · exact .inl (.inl (.inr (by omega)))
          · exact .inl (.inr (by omega))
          · exact .inr (by omega)
    · rw [if_neg hk] at h
      subst h
      refine ⟨w, fun x => ?_⟩
      rw [hh]
      simp only [Bool.or_eq_true, not_or] at hk
      constructor
      · rintro ⟨y, h1, h2⟩; exact ⟨y, h1, .inl h2⟩
      · rintro ⟨y, h1, h2 | ⟨h2, -⟩⟩
        · exact ⟨y, h1, h2⟩
        · rcases h2 with rfl | rfl | rfl
          · exact absurd h1 hk.1.1
          · exact absurd h1 hk.1.2
          · exact absurd h1 hk.2
  · obtain ⟨s2, b, e, -⟩ := he s hs
    unfold kelvinClose at h
    rw [e] at h
    cases h

/-- The conditions of `folds_icu` are met. -/
theorem kelvin_folds : FoldsAs kelvinEnv (IcuLetter kelvin) := by
  refine folds_icu ⟨fun x => .inl (.inl rfl), ?_, ?_⟩ ?_ ⟨kelvinClose, kelvin_closes, fun s => rfl, fun s => rfl⟩
  · intro x y h; unfold kelvin SameLetter KLetter at *; omega
  · intro x y z h1 h2; unfold kelvin SameLetter KLetter at *; omega
  · intro x y h; unfold kelvin SameLetter KLetter ParseUtil.OtherCase at *; omega

-- In Unicode mode `k` stands for the sign, in ASCII mode it does not, but the sign stands for `k`.
example : IcuLetter kelvin false 107 0x212A ∧ ¬ IcuLetter kelvin true 107 0x212A ∧ IcuLetter kelvin true 0x212A 107 := by
  simp [IcuLetter, kelvin, SameLetter, KLetter]

end Verif.Session
