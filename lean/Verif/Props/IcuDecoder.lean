import Verif.Props.Decoders
import Verif.Props.RangeSet
/-!
# C94: what the decoders of ICU's encodings deliver

Specification.  `Converted t bs off out`: at each position either the converter finds a
character, which is reported with that position, and reading goes on behind it; or it does not,
and the single byte is reported as an error value.
-/
namespace Verif.Decoders
open Verif.Utf Verif.Transforms

/-- Reading the bytes `bs`, the first of which is at position `off`, with the converter yields
`out`. -/
inductive Converted (t : Converter) : List Nat → Nat → List (Int × Nat) → Prop
  | done {off} : Converted t [] off []
  | char {bs cp n off out} (h : t.read bs = some (cp, n)) (r : Converted t (bs.drop n) (off + n) out) :
      Converted t bs off (((cp : Int), off) :: out)
  | error {b rest off out} (h : t.read (b :: rest) = none) (r : Converted t rest (off + 1) out) :
      Converted t (b :: rest) off ((-(b : Int) - 1, off) :: out)

theorem end_not_byte (e : Nat) : ¬ isByte (END, e) = true := by simp [isByte, END]

theorem tag_isByte {bs : List Nat} (hb : Bytes bs) : ∀ off, ∀ x ∈ tag off bs, isByte x = true := by
  induction bs with
  | nil => simp [tag]
  | cons b bs ih =>
    intro off x hx
    simp only [tag, List.mem_cons] at hx
    rcases hx with rfl | hx
    · have := hb b (by simp)
      simp only [isByte, decide_eq_true_eq]
      omega
    · exact ih (fun b hb' => hb b (by simp [hb'])) _ x hx

theorem pump_spec {buf : List Nat} {s : Shape} {e : Nat} : ∀ (bs : List Nat), Bytes bs → ∀ (n off : Nat) (q : List (Int × Nat))
    (st : s.State), bs.length < n → Produces buf s st (tag off bs) e →
    ∃ st', pump (s.next buf) n q st = (q ++ tag off bs ++ [(END, e)], st') ∧ Produces buf s st' [] e
  | [], _, 0, _, _, _, h, _ => absurd h (by simp)
  | [], _, n + 1, off, q, st, _, h => by
    obtain ⟨h1, h2⟩ := produces_step.1 h
    refine ⟨(s.next buf st).2, ?_, by simpa [tag] using h2⟩
    simp only [tag, List.getD_eq_getElem?_getD, List.getElem?_nil, Option.getD_none] at h1
    simp only [pump, h1, tag, List.append_nil]
    rw [if_neg (end_not_byte e)]
  | b :: bs, hb, 0, _, _, _, h, _ => absurd h (by simp)
  | b :: bs, hb, n + 1, off, q, st, hn, h => by
    obtain ⟨h1, h2⟩ := produces_step.1 h
    simp only [tag, List.getD_eq_getElem?_getD, List.getElem?_cons_zero, Option.getD_some] at h1
    have h2 : Produces buf s (s.next buf st).2 (tag (off + 1) bs) e := by simpa [tag] using h2
    obtain ⟨st', h3, h4⟩ := pump_spec bs (fun x hx => hb x (by simp [hx])) n (off + 1) (q ++ [((b : Int), off)])
      (s.next buf st).2 (by simpa using hn) h2
    refine ⟨st', ?_, h4⟩
    have : isByte ((b : Int), off) = true := tag_isByte hb off _ (by simp [tag])
    simp only [pump, h1, this, if_true]
    rw [h3]
    simp [tag]

/-- An ICU decoder's state from its parts. -/
abbrev icuSt (t : Converter) (s : Shape) (q : List (Int × Nat)) (st : s.State) : (Shape.icu t s).State := (q, st)

/-- What is still to come: either the queue is empty, or it holds everything. -/
def Coming (buf : List Nat) (s : Shape) (q : List (Int × Nat)) (st : s.State) (off : Nat) (bs : List Nat) (e : Nat) : Prop :=
  (q = [] ∧ Produces buf s st (tag off bs) e) ∨ (q = tag off bs ++ [(END, e)] ∧ Produces buf s st [] e)

theorem icu_next {buf : List Nat} {s : Shape} {t : Converter} (ht : t.Reads) {q : List (Int × Nat)} {st : s.State} {off e : Nat}
    {bs : List Nat} (hb : Bytes bs) (hl : bs.length ≤ buf.length) (h : Coming buf s q st off bs e) :
    ∃ q' st',
      match bs with
      | [] => (Shape.icu t s).next buf (icuSt t s q st) = ((END, e), icuSt t s q' st') ∧ Coming buf s q' st' off [] e
      | b :: rest =>
        (∃ cp n, t.read (b :: rest) = some (cp, n) ∧
          (Shape.icu t s).next buf (icuSt t s q st) = (((cp : Int), off), icuSt t s q' st') ∧
          Coming buf s q' st' (off + n) ((b :: rest).drop n) e) ∨
        (t.read (b :: rest) = none ∧
          (Shape.icu t s).next buf (icuSt t s q st) = ((-(b : Int) - 1, off), icuSt t s q' st') ∧
          Coming buf s q' st' (off + 1) rest e) := by
  obtain ⟨st1, h1, h2⟩ : ∃ st1, (if q.all isByte then pump (s.next buf) (buf.length + 1) q st else (q, st)) =
      (tag off bs ++ [(END, e)], st1) ∧ Produces buf s st1 [] e := by
    rcases h with ⟨rfl, h⟩ | ⟨rfl, h⟩
    · obtain ⟨st1, h1, h2⟩ := pump_spec bs hb (buf.length + 1) off [] st (by omega) h
      exact ⟨st1, by simpa using h1, h2⟩
    · refine ⟨st, ?_, h⟩
      rw [if_neg]
      simp only [List.all_append, List.all_cons, List.all_nil, Bool.and_true, Bool.and_eq_true, not_and]
      exact fun _ => end_not_byte e
  have hn : (Shape.icu t s).next buf (icuSt t s q st) =
      ((icuFront t (tag off bs ++ [(END, e)])).1, icuSt t s (icuFront t (tag off bs ++ [(END, e)])).2 st1) := by
    show (let (q, st') := if q.all isByte then pump (s.next buf) (buf.length + 1) q st else (q, st)
          let (r, q) := icuFront t q
          (r, icuSt t s q st')) = _
    rw [h1]
  have hw : (tag off bs ++ [(END, e)]).takeWhile isByte = tag off bs := by
    rw [List.takeWhile_append_of_pos (tag_isByte hb off), List.takeWhile_cons_of_neg (end_not_byte e)]
    simp
  rw [hn]
  cases bs with
  | nil =>
    have e1 : icuFront t (tag off [] ++ [(END, e)]) = ((END, e), []) := by
      unfold icuFront
      rw [hw]
      rfl
    exact ⟨[], st1, by rw [e1], .inl ⟨rfl, by simpa [tag] using h2⟩⟩
  | cons b rest =>
    have hmap : ∀ (l : List Nat) off, (tag off l).map (fun x => x.1.toNat) = l := by
      intro l
      induction l with
      | nil => intro; rfl
      | cons a l ih => intro off; simp [tag, ih]
    have e1 : icuFront t (tag off (b :: rest) ++ [(END, e)]) = match t.read (b :: rest) with
        | some (cp, n) => (((cp : Int), off), (tag off (b :: rest) ++ [(END, e)]).drop n)
        | none => ((-(b : Int) - 1, off), (tag off (b :: rest) ++ [(END, e)]).drop 1) := by
      unfold icuFront
      rw [hw]
      have hne : tag off (b :: rest) = ((b : Int), off) :: tag (off + 1) rest := rfl
      simp only [hne]
      rw [← hne, hmap]
      rfl
    rw [e1]
    cases hr : t.read (b :: rest) with
    | none =>
      refine ⟨_, st1, .inr ⟨hr, rfl, .inr ⟨?_, h2⟩⟩⟩
      simp [tag]
    | some x =>
      obtain ⟨cp, n⟩ := x
      obtain ⟨-, hle⟩ := ht.some _ _ _ hr
      refine ⟨(tag off (b :: rest) ++ [(END, e)]).drop n, st1, .inl ⟨cp, n, hr, rfl, .inr ⟨?_, h2⟩⟩⟩
      rw [List.drop_append_of_le_length (by rw [tag_length]; exact hle), tag_drop]

theorem icu_produces {buf : List Nat} {s : Shape} {t : Converter} (ht : t.Reads) (e : Nat) : ∀ (k : Nat) (bs : List Nat),
    bs.length ≤ k → Bytes bs → bs.length ≤ buf.length → ∀ (off : Nat) (q : List (Int × Nat)) (st : s.State), Coming buf s q st off bs e →
    ∃ out, Converted t bs off out ∧ Produces buf (.icu t s) (icuSt t s q st) out e := by
  intro k
  induction k with
  | zero =>
    intro bs hk hb hl off q st h
    have : bs = [] := List.eq_nil_of_length_eq_zero (by omega)
    subst this
    refine ⟨[], .done, fun n => ?_⟩
    induction n generalizing q st with
    | zero =>
      obtain ⟨q', st', h1, h2⟩ := icu_next ht hb hl h
      simp [outN, h1]
    | succ n ih =>
      obtain ⟨q', st', h1, h2⟩ := icu_next ht hb hl h
      simp only [outN, h1]
      exact ih q' st' h2
  | succ k ih =>
    intro bs hk hb hl off q st h
    cases bs with
    | nil => exact ih [] (by simp) hb hl off q st h
    | cons b rest =>
      obtain ⟨q', st', hcase⟩ := icu_next ht hb hl h
      rcases hcase with ⟨cp, n, hr, hn, hp⟩ | ⟨hr, hn, hp⟩
      · obtain ⟨h0, hle⟩ := ht.some _ _ _ hr
        simp only [List.length_cons] at hk hl hle
        have hdl : ((b :: rest).drop n).length = rest.length + 1 - n := by simp
        obtain ⟨out, hd, hpr⟩ := ih _ (by omega) (fun x hx => hb x (List.mem_of_mem_drop hx)) (by omega) _ q' st' hp
        refine ⟨((cp : Int), off) :: out, .char hr hd, produces_step.mpr ?_⟩
        rw [hn]
        exact ⟨rfl, hpr⟩
      · simp only [List.length_cons] at hk hl
        obtain ⟨out, hd, hpr⟩ := ih rest (by omega) (fun x hx => hb x (by simp [hx])) (by omega) _ q' st' hp
        refine ⟨_ :: out, .error hr hd, produces_step.mpr ?_⟩
        rw [hn]
        exact ⟨rfl, hpr⟩

/-- **C94** What a decoder of one of ICU's encodings delivers.  For every converter and every list
of byte transforms, every buffer and every range in it, whatever was decoded before: after
`reset` the results of `next` are what the converter reads from the range, with the byte
transforms undone, each with the position where it starts; and then END at the end of the range,
forever. -/
theorem icu_stream {t : Converter} (h : t.Reads) (ts : List ByteT) (ht : ∀ t ∈ ts, t.Valid) (buf : List Nat) (hb : Bytes buf)
    (p q : Nat) (hpq : p ≤ q) (hq : q ≤ buf.length) (st : (Shape.icu t (byteChain ts)).State) :
    ∃ out, Converted t ((slice buf p q).map (undoAll ts)) p out ∧
      ∀ n, outN buf (.icu t (byteChain ts)) n ((Shape.icu t (byteChain ts)).reset st p q) = out.getD n (END, q) := by
  have hB : Bytes ((slice buf p q).map (undoAll ts)) := by
    intro x hx
    obtain ⟨b, hb', rfl⟩ := List.mem_map.mp hx
    exact undoAll_lt ht (hb b (List.mem_of_mem_drop (List.mem_of_mem_take hb')))
  refine icu_produces h q _ _ (Nat.le_refl _) hB ?_ p [] _ (.inl ⟨rfl, ?_⟩)
  · simp only [List.length_map, slice, List.length_take, List.length_drop]
    omega
  · exact byteChain_produces ht hb hpq hq st.2

/-- What is read is determined by the bytes. -/
theorem converted_unique {t : Converter} (ht : t.Reads) {bs : List Nat} {off : Nat} {o1 o2 : List (Int × Nat)}
    (h1 : Converted t bs off o1) (h2 : Converted t bs off o2) : o1 = o2 := by
  induction h1 generalizing o2 with
  | done =>
    cases h2 with
    | done => rfl
    | char h _ => have := ht.some _ _ _ h; simp at this; omega
  | @char bs cp n off out h r ih =>
    cases h2 with
    | done => have := ht.some _ _ _ h; simp at this; omega
    | char h' r' =>
      rw [h] at h'
      simp only [Option.some.injEq, Prod.mk.injEq] at h'
      obtain ⟨rfl, rfl⟩ := h'
      rw [ih r']
    | error h' r' => rw [h] at h'; cases h'
  | error h r ih =>
    cases h2 with
    | char h' r' => rw [h] at h'; cases h'
    | error h' r' => rw [ih r']

/-- Text that the converter wrote is read back. -/
theorem converted_text {t : Converter} (ht : t.Reads) : ∀ (cps : List Nat) (off : Nat), (∀ cp ∈ cps, t.write cp ≠ []) →
    ∃ out, Converted t (cps.flatMap t.write) off out ∧ out.map (·.1) = cps.map Int.ofNat
  | [], off, _ => ⟨[], .done, rfl⟩
  | cp :: cps, off, h => by
    obtain ⟨out, h1, h2⟩ := converted_text ht cps (off + (t.write cp).length) (fun c hc => h c (by simp [hc]))
    refine ⟨((cp : Int), off) :: out, ?_, by simp [h2]⟩
    rw [List.flatMap_cons]
    refine .char (ht.back cp _ (h cp (by simp))) ?_
    simpa using h1

/-- A converter that meets the assumptions: two bytes for the characters from U+0100 to U+01FF,
which begin with FF, and one for those below U+00FF. -/
def twoBytes : Converter where
  valid := [0, 255, 256, 512]
  maxLen := 22
  write c := if c < 255 then [c] else if 256 ≤ c ∧ c < 512 then [255, c - 256] else []
  read
    | [] => none
    | b :: bs => if b < 255 then some (b, 1) else match bs with
      | [] => none
      | c :: _ => if b = 255 ∧ c < 256 then some (256 + c, 2) else none

theorem twoBytes_ok : twoBytes.Ok := by
  have hw : RangeSet.WF 0x110000 [0, 255, 256, 512] := ⟨by simp, by simp, by simp⟩
  refine ⟨hw, fun c b hb => ?_, fun c => ?_, fun c => ?_⟩
  · simp only [twoBytes] at hb
    split at hb
    · simp at hb; omega
    · split at hb
      · simp at hb; omega
      · simp at hb
  · simp only [twoBytes]
    split
    · simp
    · split <;> simp
  · show RangeSet.has [0, 255, 256, 512] c = true ↔ _
    rw [RangeSet.mem_ranges hw]
    simp only [RangeSet.ranges, twoBytes, List.any_cons, List.any_nil, Bool.or_false, Bool.or_eq_true, Bool.and_eq_true,
      decide_eq_true_eq]
    split
    · simp; omega
    · split <;> simp <;> omega

theorem twoBytes_reads : twoBytes.Reads := by
  refine ⟨fun bs c n h => ?_, fun c rest h => ?_⟩
  · simp only [twoBytes] at h
    split at h
    · cases h
    · split at h
      · simp only [Option.some.injEq, Prod.mk.injEq] at h
        simp; omega
      · split at h
        · cases h
        · split at h
          · simp only [Option.some.injEq, Prod.mk.injEq] at h
            simp; omega
          · cases h
  · simp only [twoBytes] at h ⊢
    split at h
    · next h1 => simp [h1]
    · split at h
      · next h1 h2 =>
        have e : 256 + (c - 256) = c := by omega
        simp [h1, h2, e]
        omega
      · exact absurd rfl h

-- Its encoding of `aĀb` and a stray byte FF at the end.
example : Converted twoBytes [97, 255, 0, 98, 255] 0 [(97, 0), (256, 1), (98, 3), (-256, 4)] ∧
    (readAll [97, 255, 0, 98, 255] (.icu twoBytes .source) 6 ((Shape.icu twoBytes .source).reset (Shape.init _) 0 5)).1 =
      [(97, 0), (256, 1), (98, 3), (-256, 4)] :=
  ⟨.char (cp := 97) (n := 1) rfl (.char (cp := 256) (n := 2) rfl (.char (cp := 98) (n := 1) rfl (.error rfl .done))),
    by decide +kernel⟩

end Verif.Decoders
