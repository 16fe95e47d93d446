import Verif.Props.IcuDecoder
import Verif.Props.HitText
/-!
# C36, C57 and C79 for ICU's encodings

What is shown of a hit in one of ICU's encodings.  The converter is arbitrary; what is assumed of
it is `Readable`.
-/
namespace Verif.Decoders
open Verif.Utf Verif.Transforms

/-- What is assumed of a converter: it reads back what it writes, a character has a byte, and
what it reads are Unicode characters. -/
structure Readable (t : Converter) : Prop where
  reads : t.Reads
  long : 1 ≤ t.maxLen
  scalar : ∀ bs c n, t.read bs = some (c, n) → Scalar c

theorem converted_bounds {t : Converter} (hrd : Readable t) {bs : List Nat} {off : Nat} {out : List (Int × Nat)}
    (h : Converted t bs off out) :
    (∀ x ∈ out, off ≤ x.2 ∧ x.2 < off + bs.length) ∧ out.Pairwise (fun a b => a.2 < b.2) ∧
    out.length ≤ bs.length ∧ (bs ≠ [] → out ≠ []) := by
  induction h with
  | done => simp
  | @char bs cp n off out h r ih =>
    obtain ⟨h0, hle⟩ := hrd.reads.some _ _ _ h
    have hd : (bs.drop n).length = bs.length - n := List.length_drop
    simp only [List.mem_cons, List.length_cons, List.pairwise_cons]
    refine ⟨?_, ⟨?_, ih.2.1⟩, ?_, by simp⟩
    · rintro x (rfl | hx)
      · simp only; omega
      · have := ih.1 x hx; omega
    · intro x hx; have := ih.1 x hx; omega
    · have := ih.2.2.1; omega
  | @error b rest off out h r ih =>
    simp only [List.mem_cons, List.length_cons, List.pairwise_cons]
    refine ⟨?_, ⟨?_, ih.2.1⟩, ?_, by simp⟩
    · rintro x (rfl | hx)
      · simp only; omega
      · have := ih.1 x hx; omega
    · intro x hx; have := ih.1 x hx; omega
    · have := ih.2.2.1; omega

theorem converted_value {t : Converter} {bs : List Nat} {off : Nat} {out : List (Int × Nat)}
    (h : Converted t bs off out) (hb : Bytes bs) : ∀ x ∈ out, -256 ≤ x.1 := by
  induction h with
  | done => simp
  | @char bs cp n off out h r ih =>
    rintro x hx
    rcases List.mem_cons.mp hx with rfl | hx
    · simp only; omega
    · exact ih (fun b hb' => hb b (List.mem_of_mem_drop hb')) x hx
  | @error b rest off out h t ih =>
    rintro x hx
    rcases List.mem_cons.mp hx with rfl | hx
    · have := hb b (by simp); simp only; omega
    · exact ih (fun b hb' => hb b (by simp [hb'])) x hx

theorem converted_suffix {t : Converter} (hrd : Readable t) {A : List (Int × Nat)} :
    ∀ {bs : List Nat} {off : Nat} {B : List (Int × Nat)}, Converted t bs off (A ++ B) →
    ∃ n, A.length ≤ n ∧ n ≤ bs.length ∧ Converted t (bs.drop n) (off + n) B := by
  induction A with
  | nil => intro bs off B h; exact ⟨0, by simp, by simp, by simpa using h⟩
  | cons a A ih =>
    intro bs off B h
    generalize ho : a :: A ++ B = o at h
    cases h with
    | done => simp at ho
    | @char cp k _ _ out h r =>
      simp only [List.cons_append, List.cons.injEq] at ho
      obtain ⟨-, rfl⟩ := ho
      obtain ⟨n, h1, h2, h3⟩ := ih r
      obtain ⟨h0, hle⟩ := hrd.reads.some _ _ _ h
      rw [List.length_drop] at h2
      rw [List.drop_drop, Nat.add_assoc] at h3
      exact ⟨_, by simp only [List.length_cons]; omega, by omega, h3⟩
    | @error b rest _ out h r =>
      simp only [List.cons_append, List.cons.injEq] at ho
      obtain ⟨-, rfl⟩ := ho
      obtain ⟨n, h1, h2, h3⟩ := ih r
      refine ⟨n + 1, by simp; omega, by simp; omega, ?_⟩
      rw [show off + (n + 1) = off + 1 + n by omega]
      simpa using h3

theorem converted_scalar {t : Converter} (hrd : Readable t) {bs : List Nat} {off : Nat} {out : List (Int × Nat)}
    (h : Converted t bs off out) : ∀ x ∈ out, 0 ≤ x.1 → Scalar x.1.toNat := by
  induction h with
  | done => simp
  | @char bs cp n off out h r ih =>
    intro x hx h0
    rcases List.mem_cons.mp hx with rfl | hx
    · exact hrd.scalar _ _ _ h
    · exact ih x hx h0
  | @error b rest off out h t ih =>
    intro x hx h0
    rcases List.mem_cons.mp hx with rfl | hx
    · simp only at h0; omega
    · exact ih x hx h0

theorem icu_maxLen_pos {t : Converter} (hrd : Readable t) (ts : List ByteT) : 1 ≤ (Shape.icu t (byteChain ts)).maxLen := by
  have h : ∀ ts : List ByteT, (byteChain ts).maxLen = 1 := by
    intro ts
    induction ts with
    | nil => rfl
    | cons t ts ih => cases t <;> exact ih
  have := hrd.long
  simp only [Shape.maxLen, h]
  omega

theorem reads_icu {t : Converter} (hrd : Readable t) (ts : List ByteT) (ht : ∀ t ∈ ts, t.Valid) (buf : List Nat)
    (hb : Bytes buf) :
    ∃ D, Reads buf (Shape.icu t (byteChain ts)) D ∧ ∀ p q, p ≤ q → q ≤ buf.length →
      Converted t ((slice buf p q).map (undoAll ts)) p (D p q) := by
  have hB : ∀ p q, Bytes ((slice buf p q).map (undoAll ts)) := by
    intro p q x hx
    obtain ⟨b, hb', rfl⟩ := List.mem_map.mp hx
    exact undoAll_lt ht (hb b (List.mem_of_mem_drop (List.mem_of_mem_take hb')))
  have ex : ∀ p q, ∃ out, p ≤ q → q ≤ buf.length →
      Converted t ((slice buf p q).map (undoAll ts)) p out := by
    intro p q
    by_cases h : p ≤ q ∧ q ≤ buf.length
    · obtain ⟨o, ho, -⟩ := icu_stream hrd.reads ts ht buf hb p q h.1 h.2 (Shape.init _)
      exact ⟨o, fun _ _ => ho⟩
    · exact ⟨[], fun h1 h2 => absurd ⟨h1, h2⟩ h⟩
  have ⟨D, hD⟩ : ∃ D : Nat → Nat → List (Int × Nat), ∀ p q, p ≤ q → q ≤ buf.length →
      Converted t ((slice buf p q).map (undoAll ts)) p (D p q) :=
    ⟨fun p q => (ex p q).choose, fun p q => (ex p q).choose_spec⟩
  have hlen : ∀ p q, p ≤ q → q ≤ buf.length →
      ((slice buf p q).map (undoAll ts)).length = q - p := by
    intro p q h1 h2
    unfold slice
    rw [List.length_map, List.length_take, List.length_drop]; omega
  refine ⟨D, ⟨?_, ?_, ?_, ?_, ?_, ?_⟩, hD⟩
  · intro p q h1 h2 st n
    obtain ⟨o, ho, hs⟩ := icu_stream hrd.reads ts ht buf hb p q h1 h2 st
    have := converted_unique hrd.reads ho (hD p q h1 h2)
    rw [hs n, this]
  · intro p q h1 h2 x hx
    have := (converted_bounds hrd (hD p q h1 h2)).1 x hx
    rw [hlen p q h1 h2] at this; omega
  · intro p q h1 h2
    exact (converted_bounds hrd (hD p q h1 h2)).2.1
  · intro p q h1 h2
    have := (converted_bounds hrd (hD p q h1 h2)).2.2.1
    rwa [hlen p q h1 h2] at this
  · intro p q h1 h2 x hx
    have := converted_value (hD p q h1 h2) (hB p q) x hx
    unfold END; omega
  · intro p q h1 h2 A x B hAB hne
    have hd := hD p q h1 h2
    rw [hAB, show A ++ x :: B = (A ++ [x]) ++ B by simp] at hd
    obtain ⟨n, hn1, hn2, hn3⟩ := converted_suffix hrd hd
    rw [hlen p q h1 h2] at hn2
    simp only [List.length_append, List.length_singleton] at hn1
    have hdrop : ((slice buf p q).map (undoAll ts)).drop n = (slice buf (p + n) q).map (undoAll ts) := by
      rw [← List.map_drop]
      congr 1
      unfold slice
      rw [List.drop_take, List.drop_drop]
      congr 1; omega
    rw [hdrop] at hn3
    refine ⟨p + n, by omega, ?_, converted_unique hrd.reads (hD _ _ (by omega) h2) hn3⟩
    rcases Nat.lt_or_ge (p + n) q with h | h
    · exact h
    · exfalso
      have : slice buf (p + n) q = [] := by
        unfold slice; rw [show q - (p + n) = 0 by omega]; simp
      rw [this] at hn3
      have := (converted_bounds hrd hn3).2.2.1
      simp at this
      exact hne this

/-- **C36** `lg_read_window` for ICU's encodings, with any byte transforms.  Let `ctx` be the decoding of some range ending where the hit
begins.  The result is: context before the hit, the hit, context after it, and END.

* The hit and what follows are the decoding of the data from the hit's first byte,
  up to the data the trailing context may use; the reported hit range covers
  exactly the entries that start inside the hit.
* There are at most `trailing` entries after the hit, and fewer only if the decoding
  ends; at most `leading` before it, the last ones of `ctx` after padding with
  undecoded bytes, and fewer only if the data ends.
* No other starting position for the leading context gives more good characters
  directly before the hit.

`_partial`: the property also says the return value is the number of entries that
are not characters.  That is the content of `icu_window_bad_count_partial` and is
refuted by `icu_window_bad_count_wrong`. -/
theorem icu_window_decodes_partial {t : Converter} (hrd : Readable t) (ts : List ByteT) (ht : ∀ t ∈ ts, t.Valid)
    (buf : List Nat) (hb : Bytes buf) (st : (Shape.icu t (byteChain ts)).State)
    (hbeg hend leading trailing : Nat) (h1 : hbeg ≤ hend) (h2 : hend ≤ buf.length) :
    let text := fun p q => (slice buf p q).map (undoAll ts)
    let lim := min (hend + trailing * (Shape.icu t (byteChain ts)).maxLen) buf.length
    let w := window buf (Shape.icu t (byteChain ts)) st hbeg hend leading trailing
    ∃ l ctx pad pre hit post rest,
      w.cps = pre ++ hit ++ post ++ [(END, (rest.head?.map (·.2)).getD lim)] ∧
      w.hitBegin = pre.length ∧ w.hitEnd = pre.length + hit.length ∧
      Converted t (text hbeg lim) hbeg (hit ++ post ++ rest) ∧
      (∀ x ∈ hit, x.2 < hend) ∧ (∀ x ∈ post ++ rest, hend ≤ x.2) ∧
      post.length = min trailing (post ++ rest).length ∧
      l ≤ hbeg ∧ Converted t (text l hbeg) l ctx ∧
      pad = rawErrors buf (l - (leading - ctx.length)) l ∧
      pre <:+ pad ++ ctx ∧ pre.length = min leading (pad ++ ctx).length ∧
      (∀ l' ctx', l' < hbeg → hbeg - l' ≤ leading * (Shape.icu t (byteChain ts)).maxLen →
        Converted t (text l' hbeg) l' ctx' → goodRun ctx' ≤ goodRun ctx) := by
  intro text lim w
  obtain ⟨D, R, hD⟩ := reads_icu hrd ts ht buf hb
  have hB : ∀ p q, Bytes ((slice buf p q).map (undoAll ts)) := by
    intro p q x hx
    obtain ⟨b, hb', rfl⟩ := List.mem_map.mp hx
    exact undoAll_lt ht (hb b (List.mem_of_mem_drop (List.mem_of_mem_take hb')))
  obtain ⟨l, pre, hit, post, rest, a1, a2, a3, a4, a5, a6, a7, a8, a9, a10, a11, -⟩ :=
    window_spec R st hbeg hend leading trailing h1 h2 (icu_maxLen_pos hrd ts)
  have hlim1 : hbeg ≤ min (hend + trailing * (Shape.icu t (byteChain ts)).maxLen) buf.length := by
    have : hend ≤ min (hend + trailing * (Shape.icu t (byteChain ts)).maxLen) buf.length :=
      Nat.le_min.mpr ⟨by omega, h2⟩
    omega
  refine ⟨l, D l hbeg, _, pre, hit, post, rest, a1, a2, a3, ?_, a5, a6, a7, a8,
    hD l hbeg a8 (by omega), rfl, a9, a10, ?_⟩
  · rw [← a4]; exact hD _ _ hlim1 (Nat.min_le_right _ _)
  · intro l' ctx' hl' hr hd
    have e := converted_unique hrd.reads hd (hD l' hbeg (by omega) (by omega))
    have := a11 l' hl' hr
    unfold cand at this
    rw [goodRun_append_neg rawErrors_neg, goodRun_append_neg rawErrors_neg] at this
    rw [e]; exact this

/-- **C36, return value (partial).** When leading context is requested and the hit
does not begin at the start of the buffer, the return value is the number of
entries that are not characters (END not counted). -/
theorem icu_window_bad_count_partial {t : Converter} (hrd : Readable t) (ts : List ByteT) (ht : ∀ t ∈ ts, t.Valid)
    (buf : List Nat) (hb : Bytes buf) (hU : buf.length < 2 ^ 32) (st : (Shape.icu t (byteChain ts)).State)
    (hbeg hend leading trailing : Nat) (h1 : hbeg ≤ hend) (h2 : hend ≤ buf.length)
    (h0 : 0 < hbeg) (hl : 0 < leading) :
    let w := window buf (Shape.icu t (byteChain ts)) st hbeg hend leading trailing
    w.bad = errors w.cps.dropLast % 2 ^ 32 := by
  intro w
  obtain ⟨D, R, hD⟩ := reads_icu hrd ts ht buf hb
  obtain ⟨l, pre, hit, post, rest, a1, a2, a3, a4, a5, a6, a7, a8, a9, a10, a11, a12⟩ :=
    window_spec R st hbeg hend leading trailing h1 h2 (icu_maxLen_pos hrd ts)
  have := (a12 (by unfold U32; omega)).1 ⟨h0, hl⟩
  show (window buf (Shape.icu t (byteChain ts)) st hbeg hend leading trailing).bad =
    errors (window buf (Shape.icu t (byteChain ts)) st hbeg hend leading trailing).cps.dropLast % 2 ^ 32
  rw [a1, List.dropLast_concat]
  exact this

/-- **C36, negation.** When no leading context is requested, or the hit begins at the
start of the buffer, the return value is always wrong: one less than the number of
entries that are not characters, modulo 2^32.  In particular data without any bad
byte is reported to have 4294967295 of them. -/
theorem icu_window_bad_count_wrong {t : Converter} (hrd : Readable t) (ts : List ByteT) (ht : ∀ t ∈ ts, t.Valid)
    (buf : List Nat) (hb : Bytes buf) (hU : buf.length < 2 ^ 32) (st : (Shape.icu t (byteChain ts)).State)
    (hbeg hend leading trailing : Nat) (h1 : hbeg ≤ hend) (h2 : hend ≤ buf.length)
    (h0 : hbeg = 0 ∨ leading = 0) :
    let w := window buf (Shape.icu t (byteChain ts)) st hbeg hend leading trailing
    (w.bad + 1) % 2 ^ 32 = errors w.cps.dropLast % 2 ^ 32 ∧ w.bad ≠ errors w.cps.dropLast % 2 ^ 32 := by
  intro w
  obtain ⟨D, R, hD⟩ := reads_icu hrd ts ht buf hb
  obtain ⟨l, pre, hit, post, rest, a1, a2, a3, a4, a5, a6, a7, a8, a9, a10, a11, a12⟩ :=
    window_spec R st hbeg hend leading trailing h1 h2 (icu_maxLen_pos hrd ts)
  obtain ⟨hp, hbad⟩ := (a12 (by unfold U32; omega)).2 h0
  subst hp
  show ((window buf (Shape.icu t (byteChain ts)) st hbeg hend leading trailing).bad + 1) % 2 ^ 32 =
    errors (window buf (Shape.icu t (byteChain ts)) st hbeg hend leading trailing).cps.dropLast % 2 ^ 32 ∧
    (window buf (Shape.icu t (byteChain ts)) st hbeg hend leading trailing).bad ≠
    errors (window buf (Shape.icu t (byteChain ts)) st hbeg hend leading trailing).cps.dropLast % 2 ^ 32
  rw [a1, List.dropLast_concat, hbad]
  simp only [List.nil_append]
  unfold U32
  omega

/-- **C57** `lg_hit_context` for ICU's encodings.  The entries of the window (C36) are shown one by one,
errors and null characters as the replacement: the string returned is the UTF-8 of
the shown characters and a terminating null, and no other byte of it is null; reading
it back gives the shown characters; the reported byte range is exactly the text of
the entries of the hit; the data range is that from the first entry to the END
entry. -/
theorem icu_hit_context_text {t : Converter} (hrd : Readable t) (ts : List ByteT) (ht : ∀ t ∈ ts, t.Valid)
    (buf : List Nat) (hb : Bytes buf) (st : (Shape.icu t (byteChain ts)).State)
    (dataOffset hbeg hend size repl : Nat) (h1 : hbeg ≤ hend) (h2 : hend ≤ buf.length)
    (hr : Scalar repl) (hr0 : 0 < repl) :
    let w := window buf (Shape.icu t (byteChain ts)) st hbeg hend size size
    let r := hitContext buf (Shape.icu t (byteChain ts)) st dataOffset hbeg hend size repl
    let shown := w.cps.dropLast.map (shownAs repl)
    r.utf8 = shown.flatMap spec8 ++ [0] ∧
    (∀ b ∈ shown.flatMap spec8, b ≠ 0) ∧
    patternText r.utf8.dropLast = some (shown.map some) ∧
    r.hit.1 = ((shown.take w.hitBegin).flatMap spec8).length ∧
    r.hit.2 = ((shown.take w.hitEnd).flatMap spec8).length ∧
    (r.utf8.take r.hit.2).drop r.hit.1 =
      ((shown.take w.hitEnd).drop w.hitBegin).flatMap spec8 ∧
    r.outer = (dataOffset + (w.cps.headD (0, 0)).2, dataOffset + (w.cps.getLastD (0, 0)).2) ∧
    r.bad = w.bad := by
  intro w r shown
  obtain ⟨l, ctx, pad, pre, hit, post, rest, a1, a2, a3, a4, -, -, -, -, a9, a10, a11, -⟩ :=
    icu_window_decodes_partial hrd ts ht buf hb st hbeg hend size size h1 h2
  obtain ⟨e, a1⟩ : ∃ e, w.cps = pre ++ hit ++ post ++ [(END, e)] := ⟨_, a1⟩
  change w.hitBegin = _ at a2
  change w.hitEnd = _ at a3
  have hdl : w.cps.dropLast = pre ++ hit ++ post := by rw [a1, List.dropLast_concat]
  have hsc : ∀ x ∈ pre ++ hit ++ post, 0 ≤ x.1 → Scalar x.1.toNat := by
    intro x hx h0
    rw [List.append_assoc] at hx
    rcases List.mem_append.mp hx with hx | hx
    · rcases List.mem_append.mp (a11.subset hx) with h | h
      · rw [a10] at h
        have := rawErrors_neg x h
        omega
      · exact converted_scalar hrd a9 x h h0
    · exact converted_scalar hrd a4 x (by
        rcases List.mem_append.mp hx with h | h <;> simp [h]) h0
  have hA : rangeToUtf8 repl (w.cps.take w.hitBegin) = (pre.map (shownAs repl)).flatMap spec8 := by
    rw [a1, a2, List.append_assoc, List.append_assoc, List.take_left']
    · exact rangeToUtf8_eq hr fun x hx => hsc x (by simp [hx])
    · rfl
  have hBt : w.cps.take w.hitEnd = pre ++ hit := by
    rw [a1, a3, List.append_assoc, List.take_left']
    simp
  have hBe : rangeToUtf8 repl ((w.cps.take w.hitEnd).drop w.hitBegin) =
      (hit.map (shownAs repl)).flatMap spec8 := by
    rw [hBt, a2, List.drop_left']
    · exact rangeToUtf8_eq hr fun x hx => hsc x (by simp [hx])
    · rfl
  have hC : rangeToUtf8 repl ((w.cps.take (w.cps.length - 1)).drop w.hitEnd) =
      (post.map (shownAs repl)).flatMap spec8 := by
    rw [← List.dropLast_eq_take, hdl, a3, List.drop_left']
    · exact rangeToUtf8_eq hr fun x hx => hsc x (by simp [hx])
    · simp
  have hshown : shown = pre.map (shownAs repl) ++ hit.map (shownAs repl) ++
      post.map (shownAs repl) := by
    show w.cps.dropLast.map _ = _
    rw [hdl, List.map_append, List.map_append]
  have hsS : ∀ y ∈ shown, Scalar y ∧ 0 < y := by
    intro y hy
    obtain ⟨x, hx, rfl⟩ := List.mem_map.mp hy
    rw [hdl] at hx
    unfold shownAs
    by_cases h : 0 < x.1
    · rw [if_pos h]; exact ⟨hsc x hx (by omega), by omega⟩
    · rw [if_neg h]; exact ⟨hr, hr0⟩
  have hutf : r.utf8 = shown.flatMap spec8 ++ [0] := by
    show rangeToUtf8 repl (w.cps.take w.hitBegin) ++
      rangeToUtf8 repl ((w.cps.take w.hitEnd).drop w.hitBegin) ++
      rangeToUtf8 repl ((w.cps.take (w.cps.length - 1)).drop w.hitEnd) ++ [0] = _
    rw [hA, hBe, hC, hshown, List.flatMap_append, List.flatMap_append]
  have hb1 : r.hit.1 = ((pre.map (shownAs repl)).flatMap spec8).length := by
    show (rangeToUtf8 repl (w.cps.take w.hitBegin)).length = _
    rw [hA]
  have hb2 : r.hit.2 = ((pre.map (shownAs repl)).flatMap spec8).length +
      ((hit.map (shownAs repl)).flatMap spec8).length := by
    show (rangeToUtf8 repl (w.cps.take w.hitBegin)).length +
      (rangeToUtf8 repl ((w.cps.take w.hitEnd).drop w.hitBegin)).length = _
    rw [hA, hBe]
  have ht1 : shown.take w.hitBegin = pre.map (shownAs repl) := by
    rw [hshown, a2, List.append_assoc, List.take_left']
    simp
  have ht2 : shown.take w.hitEnd = pre.map (shownAs repl) ++ hit.map (shownAs repl) := by
    rw [hshown, a3, List.take_left']
    simp
  refine ⟨hutf, ?_, ?_, by rw [hb1, ht1], ?_, ?_, rfl, rfl⟩
  · intro b hb
    obtain ⟨y, hy, hb⟩ := List.mem_flatMap.mp hb
    exact spec8_ne_zero (hsS y hy).2 b hb
  · rw [hutf, List.dropLast_concat]
    rw [← patternText_decodes shown fun y hy => (hsS y hy).1]
    congr 1
    clear_value shown
    clear hutf hshown ht1 ht2
    induction shown with
    | nil => rfl
    | cons y ys ih =>
      rw [List.flatMap_cons, List.flatMap_cons, ih fun z hz => hsS z (by simp [hz]), cpToUtf8_spec,
        if_pos ⟨by omega, by simpa using (hsS y (by simp)).1⟩]
      simp
  · rw [hb2, ht2, List.flatMap_append, List.length_append]
  · rw [hutf, hb1, hb2, ht2, hshown, a2, List.flatMap_append, List.flatMap_append,
      List.append_assoc, List.take_left' (by simp), List.drop_left' rfl, List.drop_left' (by simp)]

end Verif.Decoders

namespace Verif.Cmd
open Verif.Utf Verif.Transforms Verif.Decoders

/-- The bytes, transforms undone, are what the converter writes for the characters `cs`, one after
the other. -/
def IcuSpells (t : Converter) (ts : List ByteT) (bytes cs : List Nat) : Prop :=
  (∀ x ∈ cs, t.write x ≠ []) ∧ bytes.map (undoAll ts) = cs.flatMap t.write

/-- Where the characters lie. -/
def icuEntries (t : Converter) : Nat → List Nat → List (Int × Nat)
  | _, [] => []
  | off, x :: cs => ((x : Int), off) :: icuEntries t (off + (t.write x).length) cs

theorem icuEntries_shown (t : Converter) (cs : List Nat) :
    ∀ off, ((icuEntries t off cs).map (shownAs 0xFFFD)).flatMap spec8 = display cs := by
  induction cs with
  | nil => intro _; rfl
  | cons x cs ih =>
    intro off
    simp only [icuEntries, List.map_cons, List.flatMap_cons, ih, display]
    congr 2
    unfold shownAs
    by_cases h : x = 0
    · simp [h]
    · rw [if_neg h, if_pos (by simp only; omega)]; simp

theorem converted_entries {t : Converter} (hrd : Readable t) {rest : List Nat} {out : List (Int × Nat)} (cs : List Nat) :
    ∀ {off}, (∀ x ∈ cs, t.write x ≠ []) → Converted t rest (off + (cs.flatMap t.write).length) out →
      Converted t (cs.flatMap t.write ++ rest) off (icuEntries t off cs ++ out) := by
  induction cs with
  | nil => intro off _ h; simpa [icuEntries] using h
  | cons x cs ih =>
    intro off hs h
    rw [List.flatMap_cons, List.append_assoc, icuEntries, List.cons_append]
    refine .char (hrd.reads.back x _ (hs x (by simp))) ?_
    rw [List.drop_left' rfl]
    refine ih (fun y hy => hs y (by simp [hy])) ?_
    rw [List.flatMap_cons, List.length_append, ← Nat.add_assoc] at h
    exact h

theorem icuEntries_lt {t : Converter} (hrd : Readable t) {cs : List Nat} (hs : ∀ x ∈ cs, t.write x ≠ []) {off : Nat} :
    ∀ x ∈ icuEntries t off cs, off ≤ x.2 ∧ x.2 < off + (cs.flatMap t.write).length := by
  have h := converted_entries hrd (rest := []) (out := []) cs (off := off) hs .done
  simp only [List.append_nil] at h
  exact (converted_bounds hrd h).1

/-- The entries of a window that lie in the hit, when the hit spells `cs`. -/
theorem icu_window_hit {t : Converter} (hrd : Readable t) (ts : List ByteT) (ht : ∀ t ∈ ts, t.Valid) (buf : List Nat) (hb : Bytes buf)
    (st : (Shape.icu t (byteChain ts)).State) (hbeg hend leading trailing : Nat) (h1 : hbeg ≤ hend) (h2 : hend ≤ buf.length)
    {cs : List Nat} (hcs : IcuSpells t ts (Decoders.slice buf hbeg hend) cs) :
    let w := window buf (Shape.icu t (byteChain ts)) st hbeg hend leading trailing
    (w.cps.take w.hitEnd).drop w.hitBegin = icuEntries t hbeg cs := by
  intro w
  obtain ⟨l, ctx, pad, pre, hit, post, rest, a1, a2, a3, a4, a5, a6, -⟩ :=
    icu_window_decodes_partial hrd ts ht buf hb st hbeg hend leading trailing h1 h2
  obtain ⟨D, R, hD⟩ := reads_icu hrd ts ht buf hb
  have hlim : hend ≤ min (hend + trailing * (Shape.icu t (byteChain ts)).maxLen) buf.length :=
    Nat.le_min.mpr ⟨by omega, h2⟩
  generalize hl : min (hend + trailing * (Shape.icu t (byteChain ts)).maxLen) buf.length = lim at a1 a4 hlim
  have hlb : lim ≤ buf.length := hl ▸ Nat.min_le_right _ _
  have hlen : (cs.flatMap t.write).length = hend - hbeg := by
    rw [← hcs.2, List.length_map]
    unfold Decoders.slice
    rw [List.length_take, List.length_drop]
    omega
  have h3 : Converted t ((Decoders.slice buf hbeg lim).map (undoAll ts)) hbeg (icuEntries t hbeg cs ++ D hend lim) := by
    rw [← slice_append h1 hlim, List.map_append, hcs.2]
    refine converted_entries hrd cs hcs.1 ?_
    rw [hlen, Nat.add_sub_cancel' h1]
    exact hD hend lim hlim hlb
  have hB : Bytes ((Decoders.slice buf hbeg lim).map (undoAll ts)) := by
    intro x hx
    obtain ⟨b, hb', rfl⟩ := List.mem_map.mp hx
    exact undoAll_lt ht (hb b (List.mem_of_mem_drop (List.mem_of_mem_take hb')))
  have e := converted_unique hrd.reads a4 h3
  rw [List.append_assoc] at e
  have hx := (split_at (hend := hend) e a5 a6 (fun x hx => by
    have := (icuEntries_lt hrd hcs.1 x hx).2; rw [hlen] at this; omega) (fun x hx => (R.bounds hend lim hlim hlb x hx).1)).1
  show (w.cps.take w.hitEnd).drop w.hitBegin = _
  have a1' : w.cps = _ := a1
  have a2' : w.hitBegin = _ := a2
  have a3' : w.hitEnd = _ := a3
  rw [a1', a2', a3', List.append_assoc, List.take_left' (by simp), List.drop_left' rfl, hx]

theorem icu_window_parts {t : Converter} (hrd : Readable t) (ts : List ByteT) (ht : ∀ t ∈ ts, t.Valid) (buf : List Nat) (hb : Bytes buf)
    (st : (Shape.icu t (byteChain ts)).State) (hbeg hend leading trailing : Nat) (h1 : hbeg ≤ hend) (h2 : hend ≤ buf.length) :
    ∃ pre hit post e, (window buf (Shape.icu t (byteChain ts)) st hbeg hend leading trailing).cps = pre ++ hit ++ post ++ [(END, e)] ∧
      (window buf (Shape.icu t (byteChain ts)) st hbeg hend leading trailing).hitBegin = pre.length ∧
      (window buf (Shape.icu t (byteChain ts)) st hbeg hend leading trailing).hitEnd = pre.length + hit.length := by
  obtain ⟨l, ctx, pad, pre, hit, post, rest, a1, a2, a3, -⟩ :=
    icu_window_decodes_partial hrd ts ht buf hb st hbeg hend leading trailing h1 h2
  exact ⟨pre, hit, post, _, a1, a2, a3⟩

theorem icu_shown_inside {t : Converter} (hrd : Readable t) (ts : List ByteT) (ht : ∀ t ∈ ts, t.Valid) (prior : List Nat)
    {before after : Int} (hbf : before + 1 < 2 ^ 31) (haf : after + 1 < 2 ^ 31) (st : (Shape.icu t (byteChain ts)).State)
    {buf : List Nat} (hb : Bytes buf) {off : Nat} (hsz : off + buf.length < 2 ^ 64) {h : SHit}
    (h1 : off ≤ h.start) (h2 : h.start ≤ h.stop) (h3 : h.stop ≤ off + buf.length) :
    let cr := contextRange before after (buf, off) h
    let w := window ((buf.drop cr.1).take (cr.2 - cr.1)) (Shape.icu t (byteChain ts)) st
      (h.start - (off + cr.1)) (h.stop - (off + cr.1)) (cr.2 - cr.1) (cr.2 - cr.1)
    ∃ pre hit post e, w.cps = pre ++ hit ++ post ++ [(END, e)] ∧ w.hitBegin = pre.length ∧
      w.hitEnd = pre.length + hit.length ∧
      shown prior before after (Shape.icu t (byteChain ts)) st (buf, off) h =
        .text ⟨shownText pre ++ shownText hit ++ shownText post, (shownText pre).length,
          (shownText pre).length + (shownText hit).length⟩ (off + cr.1) := by
  obtain ⟨b1, b2, b3⟩ := contextRange_bounds hbf haf h1 h2 h3 hsz
  unfold shown
  generalize hcr : contextRange before after (buf, off) h = cr at b1 b2 b3 ⊢
  simp only
  rw [if_pos ⟨by omega, h2, by omega⟩]
  have hl : ((buf.drop cr.1).take (cr.2 - cr.1)).length = cr.2 - cr.1 := by
    rw [List.length_take, List.length_drop]; omega
  have k1 : h.start - (off + cr.1) ≤ h.stop - (off + cr.1) := by omega
  have k2 : h.stop - (off + cr.1) ≤ ((buf.drop cr.1).take (cr.2 - cr.1)).length := by omega
  obtain ⟨t1, t2, -, t4, t5, t6, -⟩ := icu_hit_context_text hrd ts ht _ (bytes_sub hb _ _) st (off + cr.1) _ _
    (cr.2 - cr.1) 0xFFFD k1 k2 (by decide) (by decide)
  obtain ⟨pre, hit, post, e, s1, s2, s3⟩ := icu_window_parts hrd ts ht _ (bytes_sub hb cr.1 (cr.2 - cr.1)) st _ _ (cr.2 - cr.1)
    (cr.2 - cr.1) k1 k2
  refine ⟨pre, hit, post, e, s1, s2, s3, ?_⟩
  have hdl := congrArg List.dropLast s1
  rw [List.dropLast_concat] at hdl
  rw [hdl] at t1 t2 t4 t5
  rw [s2] at t4
  rw [s3] at t5
  have e1 : List.take pre.length (List.map (shownAs 65533) (pre ++ hit ++ post)) = pre.map (shownAs 0xFFFD) := by
    rw [List.append_assoc, List.map_append, List.take_left' (by simp)]
  have e2 : List.take (pre.length + hit.length) (List.map (shownAs 65533) (pre ++ hit ++ post)) =
      (pre ++ hit).map (shownAs 0xFFFD) := by
    rw [List.map_append, List.take_left' (by simp)]
  have e3 : List.flatMap spec8 (List.map (shownAs 65533) (pre ++ hit ++ post)) =
      shownText pre ++ shownText hit ++ shownText post := by
    rw [List.map_append, List.map_append, List.flatMap_append, List.flatMap_append]
    rfl
  rw [e1] at t4
  rw [e2, List.map_append, List.flatMap_append, List.length_append] at t5
  rw [e3] at t2
  rw [t4, t5, t1, takeWhile_text (by rw [e3]; exact t2), e3]
  rfl

/-- **C79** for ICU's encodings: a hit in the current buffer, with any number of lines of context;
the text of the hit, which the histogram counts and which is marked in the context, is the
characters whose bytes it is. -/
theorem icu_hit_text {t : Converter} (hrd : Readable t) (ts : List ByteT) (ht : ∀ t ∈ ts, t.Valid) (prior : List Nat)
    {before after : Int} (hbf : before + 1 < 2 ^ 31) (haf : after + 1 < 2 ^ 31) (st : (Shape.icu t (byteChain ts)).State)
    {buf : List Nat} (hb : Bytes buf) {off : Nat} (hsz : off + buf.length < 2 ^ 64) {h : SHit}
    (h1 : off ≤ h.start) (h2 : h.start ≤ h.stop) (h3 : h.stop ≤ off + buf.length) {cs : List Nat}
    (hcs : IcuSpells t ts (Decoders.slice buf (h.start - off) (h.stop - off)) cs) :
    ∃ x d, shown prior before after (Shape.icu t (byteChain ts)) st (buf, off) h = .text x d ∧ x.hit = display cs := by
  obtain ⟨pre, hit, post, e, s1, s2, s3, s4⟩ := icu_shown_inside hrd ts ht prior hbf haf st hb hsz h1 h2 h3
  refine ⟨_, _, s4, ?_⟩
  obtain ⟨b1, b2, b3⟩ := contextRange_bounds hbf haf h1 h2 h3 hsz
  generalize contextRange before after (buf, off) h = cr at b1 b2 b3 s1 s2 s3 s4
  have hl : ((buf.drop cr.1).take (cr.2 - cr.1)).length = cr.2 - cr.1 := by
    rw [List.length_take, List.length_drop]; omega
  have hcs' : IcuSpells t ts (Decoders.slice ((buf.drop cr.1).take (cr.2 - cr.1)) (h.start - (off + cr.1))
      (h.stop - (off + cr.1))) cs := by
    rw [slice_slice (by omega) (by omega), show cr.1 + (h.start - (off + cr.1)) = h.start - off by omega,
      show cr.1 + (h.stop - (off + cr.1)) = h.stop - off by omega]
    exact hcs
  have hw := icu_window_hit hrd ts ht _ (bytes_sub hb cr.1 (cr.2 - cr.1)) st _ _ (cr.2 - cr.1) (cr.2 - cr.1)
    (by omega) (by omega) hcs'
  simp only at hw
  rw [s1, s2, s3, List.append_assoc, List.take_left' (by simp), List.drop_left' rfl] at hw
  show ((shownText pre ++ shownText hit ++ shownText post).drop _).take _ = _
  rw [List.append_assoc, List.drop_left' rfl, Nat.add_sub_cancel_left, List.take_left' rfl, hw]
  exact icuEntries_shown t cs _

/-- **C79, memory mapped files, ICU's encodings.** Whatever part of the file is the current buffer when a hit is
reported, the text of the hit is the characters its bytes in the file spell: the hit may have
begun, or even ended, before the buffer. -/
theorem icu_mapped_hit_text {t : Converter} (hrd : Readable t) (ts : List ByteT) (ht : ∀ t ∈ ts, t.Valid) {before after : Int}
    (hbf : before + 1 < 2 ^ 31) (haf : after + 1 < 2 ^ 31) (st : (Shape.icu t (byteChain ts)).State) {file : List Nat}
    (hb : Bytes file) (hsz : file.length < 2 ^ 64) {off len : Nat} (hof : off + len ≤ file.length) {h : SHit}
    (h2 : h.start ≤ h.stop) (h3 : h.stop ≤ off + len) {cs : List Nat}
    (hcs : IcuSpells t ts (Decoders.slice file h.start h.stop) cs) :
    ∃ y d, shown (file.take off) before after (Shape.icu t (byteChain ts)) st ((file.drop off).take len, off) h = .text y d ∧
      y.hit = display cs := by
  have hlen : ((file.drop off).take len).length = len := by
    rw [List.length_take, List.length_drop]; omega
  by_cases h1 : off ≤ h.start
  · refine icu_hit_text hrd ts ht _ hbf haf st (bytes_sub hb _ _) (by omega) h1 h2 (by omega) ?_
    have e := slice_slice (l := file) (a := off) (d := off + len) (p := h.start - off) (q := h.stop - off)
      (by omega) (by omega)
    rw [Nat.add_sub_cancel_left, Nat.add_sub_cancel' h1, Nat.add_sub_cancel' (by omega)] at e
    rw [e]
    exact hcs
  · obtain ⟨b1, b2⟩ := contextRange_end (before := before) haf (buf := (file.drop off).take len) (off := off)
      (h := h) (by omega) (by omega)
    unfold shown
    generalize contextRange before after ((file.drop off).take len, off) h = cr at b1 b2 ⊢
    have hpl : (file.take off).length = off := by rw [List.length_take]; omega
    simp only
    rw [if_neg (by omega), if_pos ⟨by omega, h2, b1⟩]
    refine ⟨_, _, rfl, ?_⟩
    have hall : (file.take off ++ (file.drop off).take len).take ((file.take off).length + cr.2) =
        file.take (off + cr.2) := by
      rw [← List.take_add, List.take_take, hpl]
      congr 1
      omega
    have es : (file.take off).length + h.start - off = h.start := by omega
    have ee : (file.take off).length + h.stop - off = h.stop := by omega
    rw [hall, es, ee]
    have hk2 : h.stop ≤ (file.take (off + cr.2)).length := by rw [List.length_take]; omega
    have hB : Bytes (file.take (off + cr.2)) := fun x hx => hb x (List.mem_of_mem_take hx)
    have hcs' : IcuSpells t ts (Decoders.slice (file.take (off + cr.2)) h.start h.stop) cs := by
      have : Decoders.slice (file.take (off + cr.2)) h.start h.stop = Decoders.slice file h.start h.stop := by
        unfold Decoders.slice
        rw [List.drop_take, List.take_take]
        congr 1
        omega
      rw [this]
      exact hcs
    have hw := icu_window_hit hrd ts ht _ hB st h.start h.stop 0 (cr.2 - cr.1) h2 hk2 hcs'
    obtain ⟨l, ctx, pad, pre, hit, post, rest, a1, a2, a3, a4, -, -, -, -, -, -, -, a12, -⟩ :=
      icu_window_decodes_partial hrd ts ht _ hB st h.start h.stop 0 (cr.2 - cr.1) h2 hk2
    have hpre : pre = [] := List.eq_nil_of_length_eq_zero (by rw [a12]; simp)
    subst hpre
    simp only at a1 a4 hw
    generalize window (file.take (off + cr.2)) (Shape.icu t (byteChain ts)) st h.start h.stop 0 (cr.2 - cr.1) = w
      at a1 a2 a3 hw ⊢
    rw [List.nil_append] at a1
    rw [hw]
    have hhit : hit = icuEntries t h.start cs := by
      rw [a1, a2, a3] at hw
      simpa [List.take_left'] using hw
    have hsc : ∀ x ∈ hit ++ post, 0 ≤ x.1 → Scalar x.1.toNat := fun x hx h0 =>
      converted_scalar hrd a4 x (List.mem_append_left _ hx) h0
    have hr : Scalar 0xFFFD := by decide
    have hdl : w.cps.dropLast = hit ++ post := by rw [a1, List.dropLast_concat]
    rw [hdl, rangeToUtf8_eq hr hsc, rangeToUtf8_eq hr (hhit ▸ fun x hx => hsc x (by simp [hx]))]
    have hnz : ∀ b ∈ ((hit ++ post).map (shownAs 0xFFFD)).flatMap spec8, b ≠ 0 := by
      intro b hb
      obtain ⟨y, hy, hb⟩ := List.mem_flatMap.mp hb
      obtain ⟨x, hx, rfl⟩ := List.mem_map.mp hy
      refine spec8_ne_zero ?_ b hb
      unfold shownAs
      split <;> omega
    have htw := List.takeWhile_append_of_pos (p := fun b : Nat => decide (b ≠ 0)) (l₂ := [])
      (fun b hb => by simpa using hnz b hb)
    simp only [List.append_nil, List.takeWhile_nil] at htw
    show ((List.takeWhile _ _).drop 0).take _ = _
    rw [htw, List.drop_zero, List.map_append, List.flatMap_append, hhit, Nat.sub_zero, List.take_left' rfl]
    exact icuEntries_shown t cs _

/-! ## Example -/

theorem twoBytes_readable : Readable twoBytes := by
  refine ⟨twoBytes_reads, by decide, fun bs c n h => ?_⟩
  unfold twoBytes at h
  simp only at h
  split at h
  · cases h
  · split at h
    · cases h; exact .inl (by omega)
    · split at h
      · cases h
      · split at h
        · cases h; exact .inl (by omega)
        · cases h

-- The hit is the character U+0141 of two bytes, between two others.
example : IcuSpells twoBytes [] (Decoders.slice [97, 255, 65, 98] 1 3) [0x141] ∧
    window [97, 255, 65, 98] (Shape.icu twoBytes (byteChain [])) (Shape.init _) 1 3 1 1 =
      ⟨[(97, 0), (0x141, 1), (98, 3), (END, 4)], 1, 2, 0⟩ :=
  ⟨⟨by decide, by decide⟩, by decide +kernel⟩

end Verif.Cmd
