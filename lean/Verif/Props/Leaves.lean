import Verif.Props.ClassCache
import Verif.Props.Transforms
/-!
# C32: every leaf of a pattern becomes exactly its encodings

Specification.  `Encoder.spec` is the encoding of a character: the standard's encoding
form, the bytes mapped by the byte transforms, the letters by the rotations.  `nodeSem`
says what a leaf node of a pattern stands for in that encoding.
-/
namespace Verif.Encoders
open Verif.Nfa Verif.NfaBuilder Verif.Utf Verif.Regex

/-- A character's encoding; `[]` if the encoding does not have it. -/
def Encoder.spec : Encoder → Nat → List Nat
  | .ascii, c => if c < 0x80 then [c] else []
  | .utf u, c => if Scalar c then u.spec c else []
  | .icu t, c => t.write c
  | .bytes t e, c => (e.spec c).map t.fwd
  | .rot r e, c => e.spec (Transforms.rotFwd r c).toNat

/-- The characters an encoding has. -/
def Encoder.Has : Encoder → Nat → Prop
  | .ascii, c => c < 0x80
  | .utf _, c => Scalar c
  | .icu t, c => RangeSet.has t.valid c = true
  | .bytes _ e, c => e.Has c
  | .rot _ e, c => e.Has c

/-- The Latin letters. -/
def Letter (c : Nat) : Prop := (65 ≤ c ∧ c ≤ 90) ∨ (97 ≤ c ∧ c ≤ 122)

/-- The encoding has the Latin letters. -/
def Encoder.Letters (e : Encoder) : Prop := ∀ c, Letter c → e.Has c

/-- Usable encoders: a converter keeps its promises, an XOR key is a byte, and what is rotated
are letters of the encoding. -/
def Encoder.Ok : Encoder → Prop
  | .icu t => t.Ok
  | .bytes t e => t.Valid ∧ e.Ok
  | .rot _ e => e.Ok ∧ e.Letters
  | _ => True

/-- What a leaf node stands for. -/
def nodeSem (e : Encoder) : Node → Language UInt8
  | .lit c => {w | w = toBytes (e.spec c)}
  | .byte b => {w | w = [b]}
  | .dot => {w | ∃ c, e.Has c ∧ w = toBytes (e.spec c)}
  | .cls cps brk true => {w | (∃ c, RangeSet.has cps c = true ∧ e.Has c ∧ w = toBytes (e.spec c)) ∨ ∃ b, brk.has b = true ∧ w = [b]}
  | .cls cps brk false => {w | (∃ c, RangeSet.has cps c = true ∧ e.Has c ∧ w = toBytes (e.spec c)) ∧ ¬ ∃ b, brk.has b = true ∧ w = [b]}

theorem write_spec (e : Encoder) (c : Nat) : e.write c = e.spec c := by
  induction e generalizing c with
  | ascii => rfl
  | utf u =>
    simp only [Encoder.write, Encoder.spec]
    by_cases h : Scalar c
    · rw [if_pos h, u.write_spec h]
    · rw [if_neg h]
      cases u with
      | utf8 => show cpToUtf8 (c : Int) = []; rw [cpToUtf8_spec, if_neg (fun h' => h (by simpa using h'.2))]
      | utf16 le => show cpToUtf16 le (c : Int) = []; rw [cpToUtf16_spec, if_neg (fun h' => h (by simpa using h'.2))]
      | utf32 le => show cpToUtf32 le (c : Int) = []; rw [cpToUtf32_spec, if_neg (fun h' => h (by simpa using h'.2))]
  | icu t => rfl
  | bytes t e ih => simp only [Encoder.write, Encoder.spec, ih]
  | rot r e ih => simp only [Encoder.write, Encoder.spec, ih]

/-- Rotating keeps letters letters and leaves the rest alone. -/
theorem rotFwd_cases (r c : Nat) : (Transforms.rotFwd r c).toNat = c ∨ (Letter c ∧ Letter (Transforms.rotFwd r c).toNat) := by
  have hi : ∀ d, Transforms.rotFwdIdx r d < 26 := fun d => by unfold Transforms.rotFwdIdx; omega
  unfold Transforms.rotFwd Transforms.onLetters Letter
  split
  · have := hi (((c : Int) - 0x41).toNat); right; omega
  · split
    · have := hi (((c : Int) - 0x61).toNat); right; omega
    · left; simp

theorem has_rot (r : Nat) {e : Encoder} (hl : e.Letters) (c : Nat) (h : e.Has c) : e.Has (Transforms.rotFwd r c).toNat := by
  rcases rotFwd_cases r c with h' | ⟨-, h'⟩
  · rw [h']; exact h
  · exact hl _ h'

theorem spec_ok (e : Encoder) (hok : e.Ok) (c : Nat) :
    Bytes (e.spec c) ∧ (e.spec c).length ≤ e.maxLen ∧ (e.Has c → e.spec c ≠ []) := by
  induction e generalizing c with
  | ascii =>
    simp only [Encoder.spec, Encoder.maxLen, Encoder.Has]
    split
    · exact ⟨by rw [bytes_cons]; exact ⟨by omega, bytes_nil⟩, by simp, fun _ => by simp⟩
    · exact ⟨bytes_nil, by simp, fun h => absurd h ‹_›⟩
  | utf u =>
    simp only [Encoder.spec, Encoder.maxLen, Encoder.Has]
    by_cases h : Scalar c
    · rw [if_pos h]
      refine ⟨spec_bytes u h, ?_, fun _ => ?_⟩
      · cases u with
        | utf8 => show (spec8 c).length ≤ 4; unfold spec8; repeat' split
                  all_goals simp
        | utf16 le => show (spec16 le c).length ≤ 4; unfold spec16; split <;> cases le <;> simp [unit16_eq]
        | utf32 le => show (spec32 le c).length ≤ 4; rw [spec32_eq]; cases le <;> simp
      · cases u with
        | utf8 => show spec8 c ≠ []; unfold spec8; repeat' split
                  all_goals simp
        | utf16 le => show spec16 le c ≠ []; unfold spec16; split <;> cases le <;> simp [unit16_eq]
        | utf32 le => show spec32 le c ≠ []; rw [spec32_eq]; cases le <;> simp
    · rw [if_neg h]
      exact ⟨bytes_nil, by simp, fun h' => absurd h' h⟩
  | icu t => exact ⟨hok.bytes c, hok.short c, (hok.full c).1⟩
  | bytes t e ih =>
    obtain ⟨i1, i2, i3⟩ := ih hok.2 c
    refine ⟨fun b hb => ?_, by simpa [Encoder.spec, Encoder.maxLen] using i2, fun h => by simpa [Encoder.spec] using i3 h⟩
    obtain ⟨b', hb', rfl⟩ := List.mem_map.1 hb
    exact (Transforms.byteTransform_undone t hok.1 b' (i1 b' hb')).1
  | rot r e ih =>
    obtain ⟨i1, i2, i3⟩ := ih hok.1 (Transforms.rotFwd r c).toNat
    exact ⟨i1, i2, fun h => i3 (has_rot r hok.2 c h)⟩

theorem valid_wf (e : Encoder) (hok : e.Ok) : RangeSet.WF 0x110000 e.valid ∧ ∀ c, RangeSet.has e.valid c = true ↔ e.Has c := by
  induction e with
  | ascii =>
    refine ⟨⟨by simp [Encoder.valid], by simp [Encoder.valid], by simp [Encoder.valid]⟩, fun c => ?_⟩
    have hw : RangeSet.WF 0x110000 [0, 0x80] := ⟨by simp, by simp, by simp⟩
    show RangeSet.has [0, 0x80] c = true ↔ c < 0x80
    rw [RangeSet.mem_ranges hw]
    simp [RangeSet.ranges]
  | utf u =>
    refine ⟨⟨by simp [Encoder.valid], by simp [Encoder.valid], by simp [Encoder.valid]⟩, fun c => ?_⟩
    have hw : RangeSet.WF 0x110000 [0, 0xD800, 0xE000, 0x110000] := ⟨by simp, by simp, by simp⟩
    show RangeSet.has [0, 0xD800, 0xE000, 0x110000] c = true ↔ Scalar c
    rw [RangeSet.mem_ranges hw]
    simp [RangeSet.ranges]
    unfold Scalar; omega
  | icu t => exact ⟨hok.wf, fun _ => Iff.rfl⟩
  | bytes t e ih => exact ih hok.2
  | rot r e ih => exact ih hok.1

/-- `encs` is a right answer of this encoder to a request for the code points in `rs`. -/
def Encoder.Answers (e : Encoder) (rs : List (Nat × Nat)) (encs : List Enc) : Prop :=
  (∀ w, Denotes encs w ↔ ∃ c, InRanges rs c ∧ w = toBytes (e.spec c)) ∧ ∀ brk additive, LeafOk (.cls encs brk additive)

/-- A request the builder can make of this encoder. -/
def Encoder.Request (e : Encoder) (rs : List (Nat × Nat)) : Prop :=
  Apart rs ∧ (∃ c, InRanges rs c) ∧ ∀ c, InRanges rs c → e.Has c

/-- **C32.** Every encoder, plain or chained, answers right. -/
theorem class_exact (e : Encoder) (hok : e.Ok) {rs : List (Nat × Nat)} (h : e.Request rs) :
    ∃ encs, e.writeSet rs = some encs ∧ e.Answers rs encs := by
  obtain ⟨ha, hn, hh⟩ := h
  have base : e.Answers rs (writeBase e.maxLen e.write rs) := by
    have hw : ∀ c, Bytes (e.write c) ∧ (e.write c).length ≤ e.maxLen := fun c => by
      rw [write_spec]; exact ⟨(spec_ok e hok c).1, (spec_ok e hok c).2.1⟩
    refine ⟨fun w => ?_, fun brk additive => base_leafOk hw rs brk additive⟩
    rw [base_class_exact hw]
    constructor
    · rintro ⟨c, h1, h2, h3⟩; exact ⟨c, h1, by rw [h3, write_spec]⟩
    · rintro ⟨c, h1, h2⟩
      refine ⟨c, h1, ?_, by rw [h2, write_spec]⟩
      rw [write_spec]; exact (spec_ok e hok c).2.2 (hh c h1)
  cases e with
  | ascii =>
    obtain ⟨encs, h1, h2, h3⟩ := ascii_class_exact ha
    refine ⟨encs, h1, fun w => ?_, fun brk additive => ?_⟩
    · rw [h2]
      constructor
      · rintro ⟨c, c1, c2, c3⟩; exact ⟨c, c1, by rw [c3]; simp [Encoder.spec, c2, toBytes]⟩
      · rintro ⟨c, c1, c2⟩
        have := hh c c1
        change c < 0x80 at this
        exact ⟨c, c1, this, by rw [c2]; simp [Encoder.spec, this, toBytes]⟩
    · obtain ⟨c, hc⟩ := hn
      exact h3 ⟨c, hc, hh c hc⟩ brk additive
  | utf u =>
    obtain ⟨encs, h1, h2, h3⟩ := utf_class_exact u ha (fun c hc => hh c hc)
    refine ⟨encs, h1, fun w => ?_, h3⟩
    rw [h2]
    constructor <;>
    · rintro ⟨c, c1, c2⟩
      have := hh c c1
      change Scalar c at this
      exact ⟨c, c1, by rw [c2]; simp [Encoder.spec, this]⟩
  | icu t => exact ⟨_, rfl, base⟩
  | bytes t e => exact ⟨_, rfl, base⟩
  | rot r e => exact ⟨_, rfl, base⟩

/-- A cache with right answers only. -/
def Encoder.CacheOk (e : Encoder) (c : Cache) : Prop := ∀ k v, c.lookup k = some v → e.Answers k v

theorem startCache_ok (e : Encoder) : e.CacheOk e.startCache := by
  intro k v hk
  cases e with
  | utf u =>
    simp only [Encoder.startCache, List.lookup_cons] at hk
    by_cases hkr : k = anyKey
    · subst hkr
      simp only [beq_self_eq_true, Option.some.injEq] at hk
      subst hk
      refine ⟨fun w => ?_, (anyEntry_answers u).2⟩
      rw [(anyEntry_answers u).1]
      constructor <;>
      · rintro ⟨c, c1, c2⟩
        exact ⟨c, c1, by rw [c2]; simp [Encoder.spec, inRanges_any.1 c1]⟩
    · rw [beq_false_of_ne hkr] at hk
      simp at hk
  | _ => simp [Encoder.startCache] at hk

theorem cachedWrite_ok {e : Encoder} (hok : e.Ok) {c : Cache} (hc : e.CacheOk c) {rs : List (Nat × Nat)} (h : e.Request rs) :
    ∃ c' encs, cachedWrite e.writeSet c rs = some (c', encs) ∧ e.CacheOk c' ∧ e.Answers rs encs := by
  cases hl : c.lookup rs with
  | some v => exact ⟨c, v, by simp only [cachedWrite, hl], hc, hc _ _ hl⟩
  | none =>
    obtain ⟨encs, he, h1⟩ := class_exact e hok h
    refine ⟨(rs, encs) :: c, encs, by simp only [cachedWrite, hl, he, Option.map_some], fun k v hk => ?_, h1⟩
    rw [List.lookup_cons] at hk
    by_cases hkr : k = rs
    · subst hkr
      simp only [beq_self_eq_true, Option.some.injEq] at hk
      subst hk
      exact h1
    · rw [beq_false_of_ne hkr] at hk
      exact hc k v hk

/-- Class nodes hold proper sets of code points. -/
def Node.Ok : Node → Prop
  | .cls cps _ _ => RangeSet.WF 0x110000 cps
  | _ => True

theorem classLeaf_ok {e : Encoder} (hok : e.Ok) {c : Cache} (hc : e.CacheOk c) {cps : RangeSet.Vec} (hw : RangeSet.WF 0x110000 cps)
    (brk : BSet) (additive : Bool) :
    ∃ c' encs, e.classLeaf c cps brk additive = some (c', .cls encs brk additive) ∧ e.CacheOk c' ∧
      LeafOk (.cls encs brk additive) ∧
      ∀ w, Denotes encs w ↔ ∃ x, RangeSet.has cps x = true ∧ e.Has x ∧ w = toBytes (e.spec x) := by
  obtain ⟨v1, v2⟩ := valid_wf e hok
  obtain ⟨uset, e1, w1, h1⟩ := RangeSet.inter_spec (by omega) hw v1
  have hin : ∀ x, InRanges (RangeSet.ranges uset) x ↔ RangeSet.has cps x = true ∧ e.Has x := by
    intro x
    rw [← v2, ← Bool.and_eq_true, ← h1, RangeSet.mem_ranges w1, List.any_eq_true]
    unfold InRanges
    simp
  by_cases hn : RangeSet.none uset = true
  · have hu : uset = [] := by simpa [RangeSet.none] using hn
    refine ⟨c, [], by simp [Encoder.classLeaf, e1, hn], hc, ⟨by simp, by simp, by simp⟩, fun w => ?_⟩
    rw [denotes_nil]
    refine ⟨False.elim, fun ⟨x, x1, x2, _⟩ => ?_⟩
    obtain ⟨r, hr, -⟩ := (hin x).2 ⟨x1, x2⟩
    rw [hu] at hr
    simp [RangeSet.ranges] at hr
  · obtain ⟨s1, s2⟩ := RangeSet.ranges_sorted w1
    have hreq : e.Request (RangeSet.ranges uset) := by
      refine ⟨⟨s1, fun r hr => (s2 r hr).1⟩, ?_, fun x hx => ((hin x).1 hx).2⟩
      match hu : uset, w1.even with
      | [], _ => simp [RangeSet.none] at hn
      | [_], h => simp at h
      | a :: b :: t, _ =>
        have hab := (s2 (a, b) (by simp [RangeSet.ranges])).1
        exact ⟨a, (a, b), by simp [RangeSet.ranges], Nat.le_refl _, hab⟩
    obtain ⟨c', encs, e2, h2, h3⟩ := cachedWrite_ok hok hc hreq
    refine ⟨c', encs, ?_, h2, h3.2 brk additive, fun w => ?_⟩
    · simp [Encoder.classLeaf, e1, hn, e2]
    · rw [h3.1]
      constructor
      · rintro ⟨x, x1, x2⟩; exact ⟨x, ((hin x).1 x1).1, ((hin x).1 x1).2, x2⟩
      · rintro ⟨x, x1, x2, x3⟩; exact ⟨x, (hin x).2 ⟨x1, x2⟩, x3⟩

/-- **C32.** Whatever an encoder was asked before, a leaf node of a pattern becomes byte
sequences for exactly what it stands for. -/
theorem leaf_exact {e : Encoder} (hok : e.Ok) {c : Cache} (hc : e.CacheOk c) {n : Node} (hn : n.Ok) :
    ∃ c' l, e.leaf c n = some (c', l) ∧ e.CacheOk c' ∧ leafSem l = nodeSem e n ∧
      ((∀ x, n = .lit x → e.spec x ≠ []) → LeafOk l) := by
  cases n with
  | lit x =>
    refine ⟨c, _, rfl, hc, ?_, fun h => ?_⟩
    · ext w; simp only [leafSem, nodeSem, write_spec]; rfl
    · show (e.write x).map UInt8.ofNat ≠ []
      rw [write_spec]; simpa using h x rfl
  | byte b => exact ⟨c, _, rfl, hc, rfl, fun _ => by simp [LeafOk]⟩
  | dot =>
    have hw : RangeSet.WF 0x110000 [0, 0x110000] := ⟨by simp, by simp, by simp⟩
    obtain ⟨c', encs, h1, h2, h3, h4⟩ := classLeaf_ok hok hc hw 0 true
    refine ⟨c', _, h1, h2, ?_, fun _ => h3⟩
    ext w
    change ((∃ s ∈ encs, Fits s w) ∨ ∃ b, BSet.has 0 b = true ∧ w = [b]) ↔ ∃ x, e.Has x ∧ w = toBytes (e.spec x)
    have h4' := h4 w
    unfold Denotes at h4'
    rw [h4']
    constructor
    · rintro (⟨x, _, x2, x3⟩ | ⟨b, hb, _⟩)
      · exact ⟨x, x2, x3⟩
      · rw [has_zero] at hb; simp at hb
    · rintro ⟨x, x2, x3⟩
      refine .inl ⟨x, ?_, x2, x3⟩
      have : x < 0x110000 := by
        have h5 := ((valid_wf e hok).2 x).2 x2
        rw [RangeSet.mem_ranges (valid_wf e hok).1, List.any_eq_true] at h5
        obtain ⟨r, hr, h5⟩ := h5
        have := ((RangeSet.ranges_sorted (valid_wf e hok).1).2 r hr).2
        simp only [Bool.and_eq_true, decide_eq_true_eq] at h5
        omega
      rw [RangeSet.mem_ranges hw]
      simpa [RangeSet.ranges] using this
  | cls cps brk additive =>
    obtain ⟨c', encs, h1, h2, h3, h4⟩ := classLeaf_ok hok hc hn brk additive
    refine ⟨c', _, h1, h2, ?_, fun _ => h3⟩
    ext w
    have h4' := h4 w
    unfold Denotes at h4'
    cases additive with
    | true =>
      change ((∃ s ∈ encs, Fits s w) ∨ ∃ b, brk.has b = true ∧ w = [b]) ↔ _
      rw [h4']; rfl
    | false =>
      change ((∃ s ∈ encs, Fits s w) ∧ ¬ ∃ b, brk.has b = true ∧ w = [b]) ↔ _
      rw [h4']; rfl

-- A rotated, obfuscated encoder, and a class with a breakout byte.
example : (Encoder.rot 13 (.bytes .oce (.utf .utf8))).Ok ∧ (Node.cls [0x61, 0x64, 0xC0, 0x3000] (BSet.single 255) true).Ok :=
  ⟨⟨⟨trivial, trivial⟩, fun c hc => by show Scalar c; unfold Letter at hc; unfold Scalar; omega⟩, ⟨by simp, by simp, by simp⟩⟩

/-! ## Whole patterns -/

theorem lang_rep_congr {α β : Type} {s : α → Language UInt8} {s' : β → Language UInt8} {t : Tree α} {t' : Tree β}
    (h : lang s t = lang s' t') (ng : Bool) (m M : Nat) : lang s (.rep ng m M t) = lang s' (.rep ng m M t') := by
  simp only [lang, h]
  rfl

/-- The literals of a pattern exist in the encoding. -/
def Encoder.Writable (e : Encoder) (n : Node) : Prop := ∀ x, n = .lit x → e.spec x ≠ []

/-- **C32.** Encoding the leaves of a pattern gives a pattern over bytes for exactly the
byte strings the pattern stands for in that encoding. -/
theorem leaves_exact {e : Encoder} (hok : e.Ok) : ∀ (t : Tree Node) {c : Cache}, e.CacheOk c → AllLeaves Node.Ok t →
    ∃ c' t', e.leaves c t = some (c', t') ∧ e.CacheOk c' ∧ lang leafSem t' = lang (nodeSem e) t ∧
      (Regex.Ok t → Regex.Ok t') ∧ (NoLook t → NoLook t') ∧ (NoDead t → NoDead t') ∧
      (AllLeaves e.Writable t → AllLeaves LeafOk t') := by
  intro t
  induction t with
  | leaf n =>
    intro c hc hn
    obtain ⟨c', l, h1, h2, h3, h4⟩ := leaf_exact hok hc hn
    exact ⟨c', .leaf l, by simp [Encoder.leaves, h1], h2, h3, fun _ => trivial, fun _ => trivial, fun _ => trivial, h4⟩
  | alt l r ihl ihr =>
    intro c hc hn
    obtain ⟨c1, t1, a1, a2, a3, a4, a5, a6, a7⟩ := ihl hc hn.1
    obtain ⟨c2, t2, b1, b2, b3, b4, b5, b6, b7⟩ := ihr a2 hn.2
    exact ⟨c2, .alt t1 t2, by simp [Encoder.leaves, a1, b1], b2, by simp only [lang, a3, b3],
      fun h => ⟨a4 h.1, b4 h.2⟩, fun h => ⟨a5 h.1, b5 h.2⟩, fun h => ⟨a6 h.1, b6 h.2⟩, fun h => ⟨a7 h.1, b7 h.2⟩⟩
  | cat l r ihl ihr =>
    intro c hc hn
    obtain ⟨c1, t1, a1, a2, a3, a4, a5, a6, a7⟩ := ihl hc hn.1
    obtain ⟨c2, t2, b1, b2, b3, b4, b5, b6, b7⟩ := ihr a2 hn.2
    exact ⟨c2, .cat t1 t2, by simp [Encoder.leaves, a1, b1], b2, by simp only [lang, a3, b3],
      fun h => ⟨a4 h.1, b4 h.2⟩, fun h => ⟨a5 h.1, b5 h.2⟩, fun h => ⟨a6 h.1, b6 h.2⟩, fun h => ⟨a7 h.1, b7 h.2⟩⟩
  | rep ng m M t ih =>
    intro c hc hn
    obtain ⟨c1, t1, a1, a2, a3, a4, a5, a6, a7⟩ := ih hc hn
    exact ⟨c1, .rep ng m M t1, by simp [Encoder.leaves, a1], a2, lang_rep_congr a3 ng m M,
      fun h => ⟨h.1, h.2.1, h.2.2.1, a4 h.2.2.2⟩, a5, fun h => ⟨h.1, a6 h.2⟩, a7⟩
  | look k t ih =>
    intro c hc hn
    obtain ⟨c1, t1, a1, a2, a3, a4, a5, a6, a7⟩ := ih hc hn
    exact ⟨c1, .look k t1, by simp [Encoder.leaves, a1], a2, rfl, a4, fun h => h.elim, a6, a7⟩

end Verif.Encoders
