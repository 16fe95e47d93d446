import Verif.HitWriter
import Verif.Props.Window
import Verif.Props.Cmd
import Verif.Props.Vm
import Verif.Props.Greedy
/-!
# C79: the text shown and counted for a hit

Specification: the bytes of the hit spell some characters in the encoding of its keyword; what
is shown, and what the histogram counts, is these characters in UTF-8 (a null character as
U+FFFD).
-/
namespace Verif.Cmd

open Verif.Utf Verif.Transforms Verif.Decoders

/-- The bytes, transforms undone, are the encodings of the characters `cs`, one after the
other. -/
def Spells (c : Charset) (ts : List ByteT) (bytes cs : List Nat) : Prop :=
  (∀ x ∈ cs, (c.spec x).isSome) ∧ bytes.map (undoAll ts) = cs.flatMap fun x => (c.spec x).getD []

/-- Characters as they are displayed: in UTF-8, null as U+FFFD. -/
def display (cs : List Nat) : List Nat := cs.flatMap fun x => spec8 (if x = 0 then 0xFFFD else x)

theorem display_append (a b : List Nat) : display (a ++ b) = display a ++ display b := List.flatMap_append

/-- Where the characters lie. -/
def entries (c : Charset) : Nat → List Nat → List (Int × Nat)
  | _, [] => []
  | off, x :: cs => ((x : Int), off) :: entries c (off + ((c.spec x).getD []).length) cs

theorem entries_length (c : Charset) (cs : List Nat) : ∀ off, (entries c off cs).length = cs.length := by
  induction cs with
  | nil => intro _; rfl
  | cons x cs ih => intro off; simp [entries, ih]

theorem entries_shown (c : Charset) (cs : List Nat) :
    ∀ off, ((entries c off cs).map (shownAs 0xFFFD)).flatMap spec8 = display cs := by
  induction cs with
  | nil => intro _; rfl
  | cons x cs ih =>
    intro off
    simp only [entries, List.map_cons, List.flatMap_cons, ih, display]
    congr 2
    unfold shownAs
    by_cases h : x = 0
    · simp [h]
    · rw [if_neg h, if_pos (by simp only; omega)]; simp

theorem entries_good (c : Charset) (cs : List Nat) : ∀ off, ∀ x ∈ entries c off cs, 0 ≤ x.1 := by
  induction cs with
  | nil => intro _ x hx; cases hx
  | cons y cs ih =>
    intro off x hx
    rcases List.mem_cons.1 hx with rfl | hx
    · simp
    · exact ih _ x hx

theorem decoded_entries {c : Charset} {rest : List Nat} {out : List (Int × Nat)} (cs : List Nat) :
    ∀ {off}, (∀ x ∈ cs, (c.spec x).isSome) →
      Decoded c rest (off + (cs.flatMap fun x => (c.spec x).getD []).length) out →
      Decoded c ((cs.flatMap fun x => (c.spec x).getD []) ++ rest) off (entries c off cs ++ out) := by
  induction cs with
  | nil => intro off _ h; simpa [entries] using h
  | cons x cs ih =>
    intro off hs h
    obtain ⟨enc, he⟩ := Option.isSome_iff_exists.1 (hs x (by simp))
    rw [List.flatMap_cons, List.append_assoc, entries, List.cons_append]
    have : (c.spec x).getD [] = enc := by rw [he]; rfl
    rw [this]
    refine .char he (ih (fun y hy => hs y (by simp [hy])) ?_)
    rw [List.flatMap_cons, this, List.length_append, ← Nat.add_assoc] at h
    exact h

theorem entries_lt {c : Charset} {cs : List Nat} (hs : ∀ x ∈ cs, (c.spec x).isSome) {off : Nat} :
    ∀ x ∈ entries c off cs, off ≤ x.2 ∧ x.2 < off + (cs.flatMap fun x => (c.spec x).getD []).length := by
  have h := decoded_entries (c := c) (rest := []) (out := []) cs (off := off) hs .done
  simp only [List.append_nil] at h
  exact (decoded_bounds h).1

theorem slice_append {l : List Nat} {a b d : Nat} (h1 : a ≤ b) (h2 : b ≤ d) :
    Decoders.slice l a b ++ Decoders.slice l b d = Decoders.slice l a d := by
  unfold Decoders.slice
  have e : d - a = (b - a) + (d - b) := by omega
  rw [e, List.take_add, List.drop_drop]
  congr 3
  omega

/-- The entries of a window that lie in the hit, when the hit spells `cs`. -/
theorem window_hit (c : Charset) (ts : List ByteT) (ht : ∀ t ∈ ts, t.Valid) (buf : List Nat) (hb : Bytes buf)
    (st : (chain [] c ts).State) (hbeg hend leading trailing : Nat) (h1 : hbeg ≤ hend) (h2 : hend ≤ buf.length)
    {cs : List Nat} (hcs : Spells c ts (Decoders.slice buf hbeg hend) cs) :
    let w := window buf (chain [] c ts) st hbeg hend leading trailing
    (w.cps.take w.hitEnd).drop w.hitBegin = entries c hbeg cs := by
  intro w
  obtain ⟨l, ctx, pad, pre, hit, post, rest, a1, a2, a3, a4, a5, a6, -⟩ :=
    window_decodes_partial c ts ht buf hb st hbeg hend leading trailing h1 h2
  obtain ⟨D, R, hD⟩ := reads_chain c ts ht buf hb
  have hlim : hend ≤ min (hend + trailing * (chain [] c ts).maxLen) buf.length :=
    Nat.le_min.mpr ⟨by omega, h2⟩
  generalize hl : min (hend + trailing * (chain [] c ts).maxLen) buf.length = lim at a1 a4 hlim
  have hlb : lim ≤ buf.length := hl ▸ Nat.min_le_right _ _
  have hlen : (cs.flatMap fun x => (c.spec x).getD []).length = hend - hbeg := by
    rw [← hcs.2, List.length_map]
    unfold Decoders.slice
    rw [List.length_take, List.length_drop]
    omega
  have h3 : Decoded c ((Decoders.slice buf hbeg lim).map (undoAll ts)) hbeg (entries c hbeg cs ++ D hend lim) := by
    rw [← slice_append h1 hlim, List.map_append, hcs.2]
    refine decoded_entries cs hcs.1 ?_
    rw [hlen, Nat.add_sub_cancel' h1]
    exact hD hend lim hlim hlb
  have hB : Bytes ((Decoders.slice buf hbeg lim).map (undoAll ts)) := by
    intro x hx
    obtain ⟨b, hb', rfl⟩ := List.mem_map.mp hx
    exact undoAll_lt ht (hb b (List.mem_of_mem_drop (List.mem_of_mem_take hb')))
  have e := decoded_unique a4 h3 hB
  rw [List.append_assoc] at e
  have hx := (split_at (hend := hend) e a5 a6 (fun x hx => by
    have := (entries_lt hcs.1 x hx).2; rw [hlen] at this; omega) (fun x hx => (R.bounds hend lim hlim hlb x hx).1)).1
  show (w.cps.take w.hitEnd).drop w.hitBegin = _
  have a1' : w.cps = _ := a1
  have a2' : w.hitBegin = _ := a2
  have a3' : w.hitEnd = _ := a3
  rw [a1', a2', a3', List.append_assoc, List.take_left' (by simp), List.drop_left' rfl, hx]

theorem window_parts (c : Charset) (ts : List ByteT) (ht : ∀ t ∈ ts, t.Valid) (buf : List Nat) (hb : Bytes buf)
    (st : (chain [] c ts).State) (hbeg hend leading trailing : Nat) (h1 : hbeg ≤ hend) (h2 : hend ≤ buf.length) :
    ∃ pre hit post e, (window buf (chain [] c ts) st hbeg hend leading trailing).cps = pre ++ hit ++ post ++ [(END, e)] ∧
      (window buf (chain [] c ts) st hbeg hend leading trailing).hitBegin = pre.length ∧
      (window buf (chain [] c ts) st hbeg hend leading trailing).hitEnd = pre.length + hit.length := by
  obtain ⟨l, ctx, pad, pre, hit, post, rest, a1, a2, a3, -⟩ :=
    window_decodes_partial c ts ht buf hb st hbeg hend leading trailing h1 h2
  exact ⟨pre, hit, post, _, a1, a2, a3⟩

theorem sub64_of_le {a b : Nat} (h : b ≤ a) (ha : a < 2 ^ 64) : sub64 a b = a - b := by
  unfold sub64
  rw [Nat.mod_eq_of_lt (by omega : b < 2 ^ 64), show a + (2 ^ 64 - b) = a - b + 2 ^ 64 by omega,
    Nat.add_mod_right, Nat.mod_eq_of_lt (by omega)]

/-- The context contains the hit and lies in the buffer. -/
theorem contextRange_bounds {before after : Int} (hbf : before + 1 < 2 ^ 31) (haf : after + 1 < 2 ^ 31)
    {buf : List Nat} {off : Nat} {h : SHit} (h1 : off ≤ h.start) (h2 : h.start ≤ h.stop)
    (h3 : h.stop ≤ off + buf.length) (hsz : off + buf.length < 2 ^ 64) :
    let c := contextRange before after (buf, off) h
    c.1 ≤ h.start - off ∧ h.stop - off ≤ c.2 ∧ c.2 ≤ buf.length := by
  intro c
  have e1 : (hitRange (buf, off) h).1 = h.start - off := if_neg (by simp only; omega)
  have e2 : (hitRange (buf, off) h).2 = h.stop - off := by
    show min (sub64 h.stop off) buf.length = _
    rw [sub64_of_le (by omega) (by omega)]
    omega
  have ec : c = (if before < 0 then (hitRange (buf, off) h).1
      else leadingContext buf (hitRange (buf, off) h).1 before.toNat,
    if after < 0 then (hitRange (buf, off) h).2
      else trailingContext buf (hitRange (buf, off) h).2 after.toNat) := rfl
  rw [e1, e2] at ec
  rw [ec]
  refine ⟨?_, ?_⟩
  · show (if _ then _ else _) ≤ _
    split
    · exact Nat.le_refl _
    · exact ((context_lines_partial buf (h.start - off) (h.stop - off) before.toNat (by omega) (by omega)).1).1
  · show h.stop - off ≤ (if _ then _ else _) ∧ (if _ then _ else _) ≤ _
    split
    · exact ⟨Nat.le_refl _, by omega⟩
    · obtain ⟨-, x1, x2⟩ := context_lines_partial buf (h.start - off) (h.stop - off) after.toNat (by omega) (by omega)
      refine ⟨x1, ?_⟩
      rcases x2 with ⟨x2, -⟩ | ⟨e, -, x3, -, x4⟩
      · exact Nat.le_of_eq x2
      · rw [x4]; split <;> omega

theorem takeWhile_text {S : List Nat} (h : ∀ b ∈ S, b ≠ 0) : (S ++ [0]).takeWhile (· ≠ 0) = S := by
  rw [List.takeWhile_append_of_pos (by simpa using h)]
  simp

theorem slice_slice {l : List Nat} {a d p q : Nat} (h1 : p ≤ q) (h2 : q ≤ d - a) :
    Decoders.slice ((l.drop a).take (d - a)) p q = Decoders.slice l (a + p) (a + q) := by
  unfold Decoders.slice
  rw [List.drop_take, List.take_take, List.drop_drop]
  congr 1
  omega

theorem bytes_sub {l : List Nat} (h : Bytes l) (a b : Nat) : Bytes ((l.drop a).take b) :=
  fun x hx => h x (List.mem_of_mem_drop (List.mem_of_mem_take hx))

/-- Entries as they are shown. -/
def shownText (l : List (Int × Nat)) : List Nat := (l.map (shownAs 0xFFFD)).flatMap spec8

theorem shown_inside (c : Charset) (ts : List ByteT) (ht : ∀ t ∈ ts, t.Valid) (prior : List Nat)
    {before after : Int} (hbf : before + 1 < 2 ^ 31) (haf : after + 1 < 2 ^ 31) (st : (chain [] c ts).State)
    {buf : List Nat} (hb : Bytes buf) {off : Nat} (hsz : off + buf.length < 2 ^ 64) {h : SHit}
    (h1 : off ≤ h.start) (h2 : h.start ≤ h.stop) (h3 : h.stop ≤ off + buf.length) :
    let cr := contextRange before after (buf, off) h
    let w := window ((buf.drop cr.1).take (cr.2 - cr.1)) (chain [] c ts) st
      (h.start - (off + cr.1)) (h.stop - (off + cr.1)) (cr.2 - cr.1) (cr.2 - cr.1)
    ∃ pre hit post e, w.cps = pre ++ hit ++ post ++ [(END, e)] ∧ w.hitBegin = pre.length ∧
      w.hitEnd = pre.length + hit.length ∧
      shown prior before after (chain [] c ts) st (buf, off) h =
        .text ⟨shownText pre ++ shownText hit ++ shownText post, (shownText pre).length,
          (shownText pre).length + (shownText hit).length⟩ (off + cr.1) := by
  obtain ⟨b1, b2, b3⟩ := contextRange_bounds hbf haf h1 h2 h3 hsz
  unfold shown
  generalize hcr : contextRange before after (buf, off) h = cr at b1 b2 b3 ⊢
  simp only
  rw [if_pos ⟨by omega, h2, by omega⟩]
  have hl : ((buf.drop cr.1).take (cr.2 - cr.1)).length = cr.2 - cr.1 := by
    rw [List.length_take, List.length_drop]; omega
  have k1 : h.start - (off + cr.1) ≤ h.stop - (off + cr.1) := by omega
  have k2 : h.stop - (off + cr.1) ≤ ((buf.drop cr.1).take (cr.2 - cr.1)).length := by omega
  obtain ⟨t1, t2, -, t4, t5, t6, -⟩ := hit_context_text c ts ht _ (bytes_sub hb _ _) st (off + cr.1) _ _
    (cr.2 - cr.1) 0xFFFD k1 k2 (by decide) (by decide)
  obtain ⟨pre, hit, post, e, s1, s2, s3⟩ := window_parts c ts ht _ (bytes_sub hb cr.1 (cr.2 - cr.1)) st _ _ (cr.2 - cr.1)
    (cr.2 - cr.1) k1 k2
  refine ⟨pre, hit, post, e, s1, s2, s3, ?_⟩
  have hdl := congrArg List.dropLast s1
  rw [List.dropLast_concat] at hdl
  rw [hdl] at t1 t2 t4 t5
  rw [s2] at t4
  rw [s3] at t5
  have e1 : List.take pre.length (List.map (shownAs 65533) (pre ++ hit ++ post)) = pre.map (shownAs 0xFFFD) := by
    rw [List.append_assoc, List.map_append, List.take_left' (by simp)]
  have e2 : List.take (pre.length + hit.length) (List.map (shownAs 65533) (pre ++ hit ++ post)) =
      (pre ++ hit).map (shownAs 0xFFFD) := by
    rw [List.map_append, List.take_left' (by simp)]
  have e3 : List.flatMap spec8 (List.map (shownAs 65533) (pre ++ hit ++ post)) =
      shownText pre ++ shownText hit ++ shownText post := by
    rw [List.map_append, List.map_append, List.flatMap_append, List.flatMap_append]
    rfl
  rw [e1] at t4
  rw [e2, List.map_append, List.flatMap_append, List.length_append] at t5
  rw [e3] at t2
  rw [t4, t5, t1, takeWhile_text (by rw [e3]; exact t2), e3]
  rfl

/-- **C79.** A hit that lies in the current buffer, with any number of lines of context: the text
of the hit, which the histogram counts and which is marked in the context, is the characters
its bytes spell.

What is missing: hits that began in an earlier buffer.  `mapped_hit_text` has them for memory
mapped files; for other files see `earlier_hit_outside` and `plus_read_outside`.  The number of
lines must be below `2^31 - 1` (`context_lines_overflow`). -/
theorem hit_text_partial (c : Charset) (ts : List ByteT) (ht : ∀ t ∈ ts, t.Valid) (prior : List Nat)
    {before after : Int} (hbf : before + 1 < 2 ^ 31) (haf : after + 1 < 2 ^ 31) (st : (chain [] c ts).State)
    {buf : List Nat} (hb : Bytes buf) {off : Nat} (hsz : off + buf.length < 2 ^ 64) {h : SHit}
    (h1 : off ≤ h.start) (h2 : h.start ≤ h.stop) (h3 : h.stop ≤ off + buf.length) {cs : List Nat}
    (hcs : Spells c ts (Decoders.slice buf (h.start - off) (h.stop - off)) cs) :
    ∃ t d, shown prior before after (chain [] c ts) st (buf, off) h = .text t d ∧ t.hit = display cs := by
  obtain ⟨pre, hit, post, e, s1, s2, s3, s4⟩ := shown_inside c ts ht prior hbf haf st hb hsz h1 h2 h3
  refine ⟨_, _, s4, ?_⟩
  obtain ⟨b1, b2, b3⟩ := contextRange_bounds hbf haf h1 h2 h3 hsz
  generalize contextRange before after (buf, off) h = cr at b1 b2 b3 s1 s2 s3 s4
  have hl : ((buf.drop cr.1).take (cr.2 - cr.1)).length = cr.2 - cr.1 := by
    rw [List.length_take, List.length_drop]; omega
  have hcs' : Spells c ts (Decoders.slice ((buf.drop cr.1).take (cr.2 - cr.1)) (h.start - (off + cr.1))
      (h.stop - (off + cr.1))) cs := by
    rw [slice_slice (by omega) (by omega), show cr.1 + (h.start - (off + cr.1)) = h.start - off by omega,
      show cr.1 + (h.stop - (off + cr.1)) = h.stop - off by omega]
    exact hcs
  have hw := window_hit c ts ht _ (bytes_sub hb cr.1 (cr.2 - cr.1)) st _ _ (cr.2 - cr.1) (cr.2 - cr.1)
    (by omega) (by omega) hcs'
  simp only at hw
  rw [s1, s2, s3, List.append_assoc, List.take_left' (by simp), List.drop_left' rfl] at hw
  show ((shownText pre ++ shownText hit ++ shownText post).drop _).take _ = _
  rw [List.append_assoc, List.drop_left' rfl, Nat.add_sub_cancel_left, List.take_left' rfl, hw]
  exact entries_shown c cs _

/-! ## The lines around the hit -/

/-- The encodings of characters, one after the other. -/
def encs (c : Charset) (cs : List Nat) : List Nat := cs.flatMap fun x => (c.spec x).getD []

/-- The number of bytes all encodings are multiples of. -/
def unit : Charset → Nat
  | .ascii => 1
  | .utf8 => 1
  | .utf16 _ => 2
  | .utf32 _ => 4

theorem spec_unit {c : Charset} {x : Nat} {e : List Nat} (h : c.spec x = some e) : unit c ∣ e.length ∧ 0 < e.length := by
  cases c with
  | ascii =>
    simp only [Charset.spec] at h
    split at h
    · cases h; simp [unit]
    · cases h
  | utf8 =>
    simp only [Charset.spec] at h
    split at h
    · cases h
      refine ⟨Nat.one_dvd _, ?_⟩
      unfold spec8
      split
      · simp
      · split
        · simp
        · split <;> simp
    · cases h
  | utf16 le =>
    simp only [Charset.spec] at h
    split at h
    · cases h
      unfold spec16 unit16
      split <;> cases le <;> simp [unit]
    · cases h
  | utf32 le =>
    simp only [Charset.spec] at h
    split at h
    · cases h
      unfold spec32
      cases le <;> simp [unit]
    · cases h

theorem encs_unit {c : Charset} {cs : List Nat} (h : ∀ x ∈ cs, (c.spec x).isSome) :
    unit c ∣ (encs c cs).length ∧ cs.length ≤ (encs c cs).length := by
  induction cs with
  | nil => simp [encs]
  | cons x cs ih =>
    obtain ⟨e, he⟩ := Option.isSome_iff_exists.1 (h x (by simp))
    obtain ⟨i1, i2⟩ := ih fun y hy => h y (by simp [hy])
    obtain ⟨j1, j2⟩ := spec_unit he
    have : encs c (x :: cs) = e ++ encs c cs := by simp [encs, he]
    rw [this, List.length_append]
    exact ⟨Nat.dvd_add j1 i1, by simp only [List.length_cons]; omega⟩

/-- No encoding begins inside another one. -/
theorem no_inside {c : Charset} {x y : Nat} {u v e r r' : List Nat} (hx : c.spec x = some (u ++ v))
    (hy : c.spec y = some e) (hu : u ≠ []) (hv : v ≠ []) (hun : unit c ∣ u.length) (he : v ++ r = e ++ r') : False := by
  have hul : 0 < u.length := List.length_pos_iff.2 hu
  have hvl : 0 < v.length := List.length_pos_iff.2 hv
  have hw := spec_width hx
  rw [List.length_append] at hw
  cases c with
  | ascii => simp only [Charset.width] at hw; omega
  | utf32 le =>
    simp only [Charset.width] at hw
    simp only [unit] at hun
    have := Nat.le_of_dvd hul hun
    omega
  | utf16 le =>
    simp only [Charset.spec] at hx hy
    split at hx
    · next hsx =>
      split at hy
      · next hsy =>
        simp only [unit] at hun
        have := Nat.le_of_dvd hul hun
        simp only [Option.some.injEq] at hx hy
        unfold spec16 at hx hy
        split at hx
        · have := congrArg List.length hx
          rw [List.length_append] at this
          unfold unit16 at this
          cases le <;> simp at this <;> omega
        · next hbig =>
          have hl := congrArg List.length hx
          have hu2 : u.length = 2 := by
            rw [List.length_append, List.length_append] at hl
            unfold unit16 at hl
            cases le <;> simp at hl <;> omega
          have hv' : v = unit16 le (0xDC00 + (x - 0x10000) % 1024) := by
            have := (List.append_inj hx (by rw [hu2]; unfold unit16; cases le <;> rfl)).2
            exact this.symm
          subst hv'
          subst hy
          unfold Scalar at hsx hsy
          unfold unit16 at he
          by_cases hy0 : y < 0x10000
          · rw [if_pos hy0] at he
            cases le <;> simp at he <;> omega
          · rw [if_neg hy0] at he
            cases le <;> simp at he <;> omega
      · cases hy
    · cases hx
  | utf8 =>
    simp only [Charset.spec] at hx hy
    split at hx
    · split at hy
      · simp only [Option.some.injEq] at hx hy
        obtain ⟨a, v', rfl⟩ := List.exists_cons_of_ne_nil hv
        have ha : 0x80 ≤ a ∧ a < 0xC0 := by
          obtain ⟨b, u', rfl⟩ := List.exists_cons_of_ne_nil hu
          have hm : a ∈ (spec8 x).tail := by rw [hx]; simp
          unfold spec8 at hm
          split at hm
          · simp at hm
          · split at hm
            · simp at hm; omega
            · split at hm <;> (simp at hm; omega)
        subst hy
        unfold Scalar at *
        unfold spec8 at he
        split at he
        · simp at he; omega
        · split at he
          · simp at he; omega
          · split at he <;> (simp at he; omega)
      · cases hy
    · cases hx

theorem encs_cons {c : Charset} {x : Nat} {e cs : List Nat} (h : c.spec x = some e) :
    encs c (x :: cs) = e ++ encs c cs := by simp [encs, h]

/-- Encodings that end a text are the encodings of its last characters. -/
theorem encs_suffix {c : Charset} : ∀ {cs ds u : List Nat}, (∀ x ∈ cs, (c.spec x).isSome) →
    (∀ x ∈ ds, (c.spec x).isSome) → Bytes (encs c cs) → encs c cs = u ++ encs c ds →
    ∃ cs', cs = cs' ++ ds ∧ encs c cs' = u := by
  intro cs
  induction cs with
  | nil =>
    intro ds u _ hd _ he
    have : encs c ds = [] := by
      have := congrArg List.length he
      simp only [encs, List.flatMap_nil, List.length_nil, List.length_append] at this
      exact List.eq_nil_of_length_eq_zero (by simp only [encs]; omega)
    have h2 := (encs_unit hd).2
    rw [this] at h2
    have : ds = [] := List.eq_nil_of_length_eq_zero (by simpa using h2)
    subst this
    refine ⟨[], rfl, ?_⟩
    simp [encs] at he
    simp [encs, he]
  | cons x cs ih =>
    intro ds u hc hd hB he
    obtain ⟨e, hx⟩ := Option.isSome_iff_exists.1 (hc x (by simp))
    rw [encs_cons hx] at he hB
    rcases List.append_eq_append_iff.1 he with ⟨u', h1, h2⟩ | ⟨v, h1, h2⟩
    · obtain ⟨cs', rfl, h3⟩ := ih (fun y hy => hc y (by simp [hy])) hd
        (fun b hb => hB b (by simp [hb])) h2
      exact ⟨x :: cs', rfl, by rw [encs_cons hx, h3, h1]⟩
    · by_cases hu : u = []
      · subst hu
        refine ⟨[], ?_, rfl⟩
        rw [List.nil_append] at he
        have d1 := decoded_entries (c := c) (rest := []) (out := []) (x :: cs) (off := 0) hc .done
        have d2 := decoded_entries (c := c) (rest := []) (out := []) ds (off := 0) hd .done
        rw [List.append_nil, List.append_nil] at d1 d2
        have he' : encs c (x :: cs) = encs c ds := by rw [encs_cons hx, he]
        have hu := decoded_unique d1 (by
          have : Decoded c (encs c ds) 0 (entries c 0 ds) := d2
          rw [← he'] at this
          exact this) (by rw [← encs_cons hx] at hB; exact hB)
        have key : ∀ {a b : List Nat} {p q}, entries c p a = entries c q b → a = b := by
          intro a
          induction a with
          | nil => intro b p q h; cases b with | nil => rfl | cons => simp [entries] at h
          | cons y a ih =>
            intro b p q h
            cases b with
            | nil => simp [entries] at h
            | cons z b =>
              simp only [entries, List.cons.injEq, Prod.mk.injEq] at h
              rw [ih h.2, Int.natCast_inj.1 h.1.1]
        rw [List.nil_append]
        exact key hu
      · by_cases hv : v = []
        · subst hv
          rw [List.append_nil] at h1
          rw [List.nil_append] at h2
          obtain ⟨cs', rfl, h3⟩ := ih (u := []) (fun y hy => hc y (by simp [hy])) hd
            (fun b hb => hB b (by simp [hb])) (by rw [List.nil_append, h2])
          exact ⟨x :: cs', rfl, by rw [encs_cons hx, h3, h1, List.append_nil]⟩
        · exfalso
          have hun : unit c ∣ u.length := by
            have hl := congrArg List.length he
            rw [List.length_append, List.length_append] at hl
            have h3 := Nat.dvd_add (spec_unit hx).1 (encs_unit (cs := cs) fun y hy => hc y (by simp [hy])).1
            rw [hl] at h3
            exact (Nat.dvd_add_iff_left (encs_unit hd).1).2 h3
          cases ds with
          | nil =>
            have : v = [] := by
              have := congrArg List.length h2
              simp only [encs, List.flatMap_nil, List.length_nil, List.length_append] at this
              exact List.eq_nil_of_length_eq_zero (by omega)
            exact hv this
          | cons y ds =>
            obtain ⟨e', hy⟩ := Option.isSome_iff_exists.1 (hd y (by simp))
            rw [encs_cons hy] at h2
            exact no_inside (by rw [hx, h1]) hy hu hv hun h2.symm

theorem takeWhile_mem {α : Type} {p : α → Bool} {x : α} : ∀ {l : List α}, x ∈ l.takeWhile p → p x = true := by
  intro l
  induction l with
  | nil => intro h; cases h
  | cons y l ih =>
    intro h
    by_cases hy : p y = true
    · rw [List.takeWhile_cons_of_pos hy] at h
      rcases List.mem_cons.1 h with rfl | h
      · exact hy
      · exact ih h
    · rw [List.takeWhile_cons_of_neg hy] at h
      cases h

/-- The entries at the end of a decoding that are characters encode the last bytes. -/
theorem decoded_good {c : Charset} {bs : List Nat} {off : Nat} {out : List (Int × Nat)} (h : Decoded c bs off out) :
    ∃ u ds, bs = u ++ encs c ds ∧ (∀ x ∈ ds, (c.spec x).isSome) ∧ ds.length = goodRun out := by
  have key : ∃ u ds, bs = u ++ encs c ds ∧ (∀ x ∈ ds, (c.spec x).isSome) ∧ ds.length = goodRun out ∧
      (goodRun out = out.length → u = []) := by
    induction h with
    | done => exact ⟨[], [], rfl, by simp, rfl, fun _ => rfl⟩
    | @char cp enc rest off out hcp _ ih =>
      obtain ⟨u, ds, h1, h2, h3, h4⟩ := ih
      by_cases hg : goodRun out = out.length
      · have hu := h4 hg
        subst hu
        have hall : ∀ x ∈ out.reverse, decide (0 ≤ x.1) = true := by
          have : (out.reverse.takeWhile fun x => decide (0 ≤ x.1)) = out.reverse := by
            refine (List.takeWhile_prefix _).eq_of_length ?_
            rw [List.length_reverse]; exact hg
          intro x hx
          rw [← this] at hx
          exact takeWhile_mem (p := fun x : Int × Nat => decide (0 ≤ x.1)) hx
        refine ⟨[], cp :: ds, by rw [encs_cons hcp, h1]; rfl, ?_, ?_, fun _ => rfl⟩
        · intro x hx
          rcases List.mem_cons.1 hx with rfl | hx
          · simp [hcp]
          · exact h2 x hx
        · unfold goodRun
          rw [List.reverse_cons, List.takeWhile_append_of_pos hall]
          simp [h3, hg]
      · have hg' : goodRun ((((cp : Nat) : Int), off) :: out) = goodRun out := by
          unfold goodRun at hg ⊢
          rw [List.reverse_cons, List.takeWhile_append]
          split
          · next h => exact absurd (by rw [h, List.length_reverse]) hg
          · rfl
        refine ⟨enc ++ u, ds, by rw [h1, List.append_assoc], h2, by rw [hg', h3], ?_⟩
        intro h
        rw [hg'] at h
        have : goodRun out ≤ out.length := by
          unfold goodRun
          have := (List.takeWhile_prefix (l := out.reverse) fun x : Int × Nat => decide (0 ≤ x.1)).length_le
          simpa using this
        simp only [List.length_cons] at h
        omega
    | @error b rest off out hb _ ih =>
      obtain ⟨u, ds, h1, h2, h3, h4⟩ := ih
      have hg' : goodRun (((-(b : Int) - 1), off) :: out) = goodRun out := by
        unfold goodRun
        rw [List.reverse_cons, List.takeWhile_append]
        split
        · next h => rw [List.takeWhile_cons_of_neg (by simp only [decide_eq_true_eq]; omega)]; simp [h]
        · rfl
      refine ⟨b :: u, ds, by rw [h1]; rfl, h2, by rw [hg', h3], ?_⟩
      intro h
      rw [hg'] at h
      have : goodRun out ≤ out.length := by
        unfold goodRun
        have := (List.takeWhile_prefix (l := out.reverse) fun x : Int × Nat => decide (0 ≤ x.1)).length_le
        simpa using this
      simp only [List.length_cons] at h
      omega
  obtain ⟨u, ds, h1, h2, h3, -⟩ := key
  exact ⟨u, ds, h1, h2, h3⟩

theorem goodRun_entries (c : Charset) (off : Nat) (cs : List Nat) : goodRun (entries c off cs) = cs.length := by
  unfold goodRun
  have h := List.takeWhile_append_of_pos (p := fun x : Int × Nat => decide (0 ≤ x.1))
    (l₁ := (entries c off cs).reverse) (l₂ := [])
    fun x hx => by simpa using entries_good c cs off x (by simpa using hx)
  simp only [List.append_nil, List.takeWhile_nil] at h
  rw [h, List.length_reverse, entries_length]

theorem entries_append (c : Charset) (a b : List Nat) : ∀ off,
    entries c off (a ++ b) = entries c off a ++ entries c (off + (encs c a).length) b := by
  induction a with
  | nil => intro off; simp [entries, encs]
  | cons x a ih =>
    intro off
    simp only [List.cons_append, entries, ih, encs, List.flatMap_cons, List.length_append, Nat.add_assoc]

/-- When the whole buffer spells characters, with the ends of the hit between them, and the
window is as long as the buffer, all of the buffer is decoded. -/
theorem window_all (c : Charset) (ts : List ByteT) (ht : ∀ t ∈ ts, t.Valid) (buf : List Nat) (hb : Bytes buf)
    (st : (chain [] c ts).State) (hbeg hend size : Nat) (h1 : hbeg ≤ hend) (h2 : hend ≤ buf.length)
    (hsz : buf.length ≤ size) {cp cs cq : List Nat} (hp : Spells c ts (Decoders.slice buf 0 hbeg) cp)
    (hcs : Spells c ts (Decoders.slice buf hbeg hend) cs) (hq : Spells c ts (Decoders.slice buf hend buf.length) cq) :
    ∃ e, (window buf (chain [] c ts) st hbeg hend size size).cps =
        entries c 0 cp ++ entries c hbeg cs ++ entries c hend cq ++ [(END, e)] ∧
      (window buf (chain [] c ts) st hbeg hend size size).hitBegin = cp.length ∧
      (window buf (chain [] c ts) st hbeg hend size size).hitEnd = cp.length + cs.length := by
  obtain ⟨l, ctx, pad, pre, hit, post, rest, a1, a2, a3, a4, a5, a6, a7, a8, a9, a10, a11, a12, a13⟩ :=
    window_decodes_partial c ts ht buf hb st hbeg hend size size h1 h2
  have hm := maxLen_pos c ts
  have hlim : min (hend + size * (chain [] c ts).maxLen) buf.length = buf.length := by
    have : size ≤ size * (chain [] c ts).maxLen := Nat.le_mul_of_pos_right _ hm
    omega
  rw [hlim] at a1 a4
  have hB : ∀ p q, Bytes ((Decoders.slice buf p q).map (undoAll ts)) := by
    intro p q x hx
    obtain ⟨b, hb', rfl⟩ := List.mem_map.mp hx
    exact undoAll_lt ht (hb b (List.mem_of_mem_drop (List.mem_of_mem_take hb')))
  have hsl : ∀ p q, p ≤ q → q ≤ buf.length → (Decoders.slice buf p q).length = q - p := by
    intro p q _ _
    unfold Decoders.slice
    rw [List.length_take, List.length_drop]
    omega
  have hle : ∀ {p q xs}, p ≤ q → q ≤ buf.length → Spells c ts (Decoders.slice buf p q) xs → (encs c xs).length = q - p := by
    intro p q xs i1 i2 hs
    unfold encs
    rw [← hs.2, List.length_map, hsl p q i1 i2]
  -- the hit and what follows
  have d2 : Decoded c ((Decoders.slice buf hbeg buf.length).map (undoAll ts)) hbeg
      (entries c hbeg cs ++ (entries c hend cq ++ [])) := by
    rw [← slice_append h1 h2, List.map_append, hcs.2]
    refine decoded_entries cs hcs.1 ?_
    have : hbeg + (cs.flatMap fun x => (c.spec x).getD []).length = hend := by
      have := hle h1 h2 hcs; unfold encs at this; omega
    rw [this, hq.2]
    have h := decoded_entries (c := c) (rest := []) (out := []) cq (off := hend) hq.1 .done
    rw [List.append_nil] at h
    exact h
  have e2 := decoded_unique a4 d2 (hB _ _)
  rw [List.append_nil, List.append_assoc] at e2
  obtain ⟨f1, f2⟩ := split_at (hend := hend) e2 a5 a6 (fun x hx => by
    have := (entries_lt hcs.1 x hx).2
    have h3 := hle h1 h2 hcs
    unfold encs at h3
    omega) (fun x hx => (entries_lt hq.1 x hx).1)
  have hcq : cq.length ≤ size := by
    have := (encs_unit hq.1).2
    have := hle h2 (Nat.le_refl _) hq
    omega
  have f3 : rest = [] := by
    rw [f2, entries_length, Nat.min_eq_right hcq] at a7
    have := congrArg List.length f2
    rw [List.length_append, entries_length] at this
    exact List.eq_nil_of_length_eq_zero (by omega)
  subst f3
  rw [List.append_nil] at f2
  -- what comes before
  have d0 : Decoded c ((Decoders.slice buf 0 hbeg).map (undoAll ts)) 0 (entries c 0 cp) := by
    have h := decoded_entries (c := c) (rest := []) (out := []) cp (off := 0) hp.1 .done
    rw [List.append_nil, List.append_nil, ← hp.2] at h
    exact h
  have hcp : cp.length ≤ hbeg := by
    have := (encs_unit hp.1).2
    have := hle (Nat.zero_le _) (by omega) hp
    omega
  have hl0 : l = 0 := by
    rcases Nat.eq_zero_or_pos hbeg with h0 | h0
    · omega
    · have hg := a13 0 _ h0 (by
        have : size ≤ size * (chain [] c ts).maxLen := Nat.le_mul_of_pos_right _ hm
        omega) d0
      rw [goodRun_entries] at hg
      obtain ⟨u, ds, g1, g2, g3⟩ := decoded_good a9
      simp only at g1
      have g4 : encs c cp = ((Decoders.slice buf 0 l).map (undoAll ts) ++ u) ++ encs c ds := by
        have := hp.2
        rw [← slice_append (Nat.zero_le l) a8, List.map_append, g1] at this
        unfold encs
        rw [← this, List.append_assoc]
        rfl
      obtain ⟨cs', g5, g6⟩ := encs_suffix hp.1 g2 (by
        have : encs c cp = _ := hp.2.symm
        rw [this]; exact hB _ _) g4
      have : cs'.length = 0 := by
        have := congrArg List.length g5
        rw [List.length_append] at this
        omega
      have hcs' := List.eq_nil_of_length_eq_zero this
      subst hcs'
      have := congrArg List.length g6
      rw [List.length_append, List.length_map, hsl 0 l (Nat.zero_le _) (by omega)] at this
      simp [encs] at this
      omega
  subst hl0
  have hctx := decoded_unique a9 d0 (hB _ _)
  have hpad : pad = [] := by
    rw [a10]
    unfold rawErrors Decoders.slice
    rw [Nat.zero_sub, Nat.zero_sub, List.take_zero]
    rfl
  have hpre : pre = entries c 0 cp := by
    rw [hpad, List.nil_append, hctx] at a11 a12
    refine a11.eq_of_length ?_
    rw [a12, entries_length]
    omega
  refine ⟨_, by rw [a1, hpre, f1, f2], by rw [a2, hpre, entries_length], by rw [a3, hpre, f1, entries_length, entries_length]⟩

/-- **C79, context.** When the lines shown with a hit that lies in the current buffer spell
characters, with the ends of the hit between characters, these characters are what is shown,
the marked part is the hit, and the offset printed is that of the first byte shown.  Which
lines these are is said by `context_lines_partial`. -/
theorem context_text_partial (c : Charset) (ts : List ByteT) (ht : ∀ t ∈ ts, t.Valid) (prior : List Nat)
    {before after : Int} (hbf : before + 1 < 2 ^ 31) (haf : after + 1 < 2 ^ 31) (st : (chain [] c ts).State)
    {buf : List Nat} (hb : Bytes buf) {off : Nat} (hsz : off + buf.length < 2 ^ 64) {h : SHit}
    (h1 : off ≤ h.start) (h2 : h.start ≤ h.stop) (h3 : h.stop ≤ off + buf.length) {cp cs cq : List Nat}
    (hp : Spells c ts (Decoders.slice buf (contextRange before after (buf, off) h).1 (h.start - off)) cp)
    (hcs : Spells c ts (Decoders.slice buf (h.start - off) (h.stop - off)) cs)
    (hq : Spells c ts (Decoders.slice buf (h.stop - off) (contextRange before after (buf, off) h).2) cq) :
    shown prior before after (chain [] c ts) st (buf, off) h =
      .text ⟨display (cp ++ cs ++ cq), (display cp).length, (display (cp ++ cs)).length⟩
        (off + (contextRange before after (buf, off) h).1) := by
  obtain ⟨pre, hit, post, e, s1, s2, s3, s4⟩ := shown_inside c ts ht prior hbf haf st hb hsz h1 h2 h3
  rw [s4]
  obtain ⟨b1, b2, b3⟩ := contextRange_bounds hbf haf h1 h2 h3 hsz
  generalize contextRange before after (buf, off) h = cr at b1 b2 b3 s1 s2 s3 hp hq
  have hl : ((buf.drop cr.1).take (cr.2 - cr.1)).length = cr.2 - cr.1 := by
    rw [List.length_take, List.length_drop]; omega
  obtain ⟨e', w1, w2, w3⟩ := window_all c ts ht _ (bytes_sub hb cr.1 (cr.2 - cr.1)) st (h.start - (off + cr.1))
    (h.stop - (off + cr.1)) (cr.2 - cr.1) (by omega) (by omega) (by omega) (cp := cp) (cs := cs) (cq := cq)
    (by
      rw [slice_slice (by omega) (by omega), show cr.1 + (h.start - (off + cr.1)) = h.start - off by omega]
      exact hp)
    (by
      rw [slice_slice (by omega) (by omega), show cr.1 + (h.start - (off + cr.1)) = h.start - off by omega,
        show cr.1 + (h.stop - (off + cr.1)) = h.stop - off by omega]
      exact hcs)
    (by
      rw [hl, slice_slice (by omega) (by omega), show cr.1 + (h.stop - (off + cr.1)) = h.stop - off by omega,
        show cr.1 + (cr.2 - cr.1) = cr.2 by omega]
      exact hq)
  rw [s1] at w1
  rw [s2] at w2
  rw [s3] at w3
  obtain ⟨w1, -⟩ := List.append_inj' w1 rfl
  rw [List.append_assoc, List.append_assoc] at w1
  obtain ⟨f1, w1⟩ := List.append_inj w1 (by rw [entries_length]; omega)
  obtain ⟨f2, f3⟩ := List.append_inj w1 (by rw [entries_length]; omega)
  subst f1 f2 f3
  have k : ∀ o x, shownText (entries c o x) = display x := fun o x => entries_shown c x o
  rw [k, k, k, display_append, display_append, List.length_append]

/-! ## Hits that began in an earlier buffer -/

/-- In any case the context ends inside the buffer, and not before the hit. -/
theorem contextRange_end {before after : Int} (haf : after + 1 < 2 ^ 31) {buf : List Nat} {off : Nat} {h : SHit}
    (h3 : h.stop ≤ off + buf.length) (hsz : off + buf.length < 2 ^ 64) :
    h.stop ≤ off + (contextRange before after (buf, off) h).2 ∧ (contextRange before after (buf, off) h).2 ≤ buf.length := by
  have hr : (hitRange (buf, off) h).2 ≤ buf.length ∧ h.stop ≤ off + (hitRange (buf, off) h).2 := by
    show min (sub64 h.stop off) buf.length ≤ _ ∧ _ ≤ off + min (sub64 h.stop off) buf.length
    refine ⟨Nat.min_le_right _ _, ?_⟩
    by_cases ho : off ≤ h.stop
    · rw [sub64_of_le ho (by omega)]; omega
    · omega
  have ec : (contextRange before after (buf, off) h).2 = if after < 0 then (hitRange (buf, off) h).2
      else trailingContext buf (hitRange (buf, off) h).2 after.toNat := rfl
  rw [ec]
  split
  · exact ⟨hr.2, hr.1⟩
  · obtain ⟨-, x1, x2⟩ := context_lines_partial buf 0 (hitRange (buf, off) h).2 after.toNat (by omega) hr.1
    refine ⟨by have := hr.2; omega, ?_⟩
    rcases x2 with ⟨x2, -⟩ | ⟨e, -, x3, -, x4⟩
    · exact Nat.le_of_eq x2
    · rw [x4]; split <;> omega

/-- **C79, memory mapped files.** Whatever part of the file is the current buffer when a hit is
reported, the text of the hit is the characters its bytes in the file spell: the hit may have
begun, or even ended, before the buffer. -/
theorem mapped_hit_text (c : Charset) (ts : List ByteT) (ht : ∀ t ∈ ts, t.Valid) {before after : Int}
    (hbf : before + 1 < 2 ^ 31) (haf : after + 1 < 2 ^ 31) (st : (chain [] c ts).State) {file : List Nat}
    (hb : Bytes file) (hsz : file.length < 2 ^ 64) {off len : Nat} (hof : off + len ≤ file.length) {h : SHit}
    (h2 : h.start ≤ h.stop) (h3 : h.stop ≤ off + len) {cs : List Nat}
    (hcs : Spells c ts (Decoders.slice file h.start h.stop) cs) :
    ∃ t d, shown (file.take off) before after (chain [] c ts) st ((file.drop off).take len, off) h = .text t d ∧
      t.hit = display cs := by
  have hlen : ((file.drop off).take len).length = len := by
    rw [List.length_take, List.length_drop]; omega
  by_cases h1 : off ≤ h.start
  · refine hit_text_partial c ts ht _ hbf haf st (bytes_sub hb _ _) (by omega) h1 h2 (by omega) ?_
    have e := slice_slice (l := file) (a := off) (d := off + len) (p := h.start - off) (q := h.stop - off)
      (by omega) (by omega)
    rw [Nat.add_sub_cancel_left, Nat.add_sub_cancel' h1, Nat.add_sub_cancel' (by omega)] at e
    rw [e]
    exact hcs
  · obtain ⟨b1, b2⟩ := contextRange_end (before := before) haf (buf := (file.drop off).take len) (off := off)
      (h := h) (by omega) (by omega)
    unfold shown
    generalize contextRange before after ((file.drop off).take len, off) h = cr at b1 b2 ⊢
    have hpl : (file.take off).length = off := by rw [List.length_take]; omega
    simp only
    rw [if_neg (by omega), if_pos ⟨by omega, h2, b1⟩]
    refine ⟨_, _, rfl, ?_⟩
    have hall : (file.take off ++ (file.drop off).take len).take ((file.take off).length + cr.2) =
        file.take (off + cr.2) := by
      rw [← List.take_add, List.take_take, hpl]
      congr 1
      omega
    have es : (file.take off).length + h.start - off = h.start := by omega
    have ee : (file.take off).length + h.stop - off = h.stop := by omega
    rw [hall, es, ee]
    have hk2 : h.stop ≤ (file.take (off + cr.2)).length := by rw [List.length_take]; omega
    have hB : Bytes (file.take (off + cr.2)) := fun x hx => hb x (List.mem_of_mem_take hx)
    have hcs' : Spells c ts (Decoders.slice (file.take (off + cr.2)) h.start h.stop) cs := by
      have : Decoders.slice (file.take (off + cr.2)) h.start h.stop = Decoders.slice file h.start h.stop := by
        unfold Decoders.slice
        rw [List.drop_take, List.take_take]
        congr 1
        omega
      rw [this]
      exact hcs
    have hw := window_hit c ts ht _ hB st h.start h.stop 0 (cr.2 - cr.1) h2 hk2 hcs'
    obtain ⟨l, ctx, pad, pre, hit, post, rest, a1, a2, a3, a4, -, -, -, -, -, -, -, a12, -⟩ :=
      window_decodes_partial c ts ht _ hB st h.start h.stop 0 (cr.2 - cr.1) h2 hk2
    have hpre : pre = [] := List.eq_nil_of_length_eq_zero (by rw [a12]; simp)
    subst hpre
    simp only at a1 a4 hw
    generalize window (file.take (off + cr.2)) (chain [] c ts) st h.start h.stop 0 (cr.2 - cr.1) = w
      at a1 a2 a3 hw ⊢
    rw [List.nil_append] at a1
    rw [hw]
    have hhit : hit = entries c h.start cs := by
      rw [a1, a2, a3] at hw
      simpa [List.take_left'] using hw
    have hsc : ∀ x ∈ hit ++ post, 0 ≤ x.1 → Scalar x.1.toNat := fun x hx h0 =>
      decoded_scalar a4 x (List.mem_append_left _ hx) h0
    have hr : Scalar 0xFFFD := by decide
    have hdl : w.cps.dropLast = hit ++ post := by rw [a1, List.dropLast_concat]
    rw [hdl, rangeToUtf8_eq hr hsc, rangeToUtf8_eq hr (hhit ▸ fun x hx => hsc x (by simp [hx]))]
    have hnz : ∀ b ∈ ((hit ++ post).map (shownAs 0xFFFD)).flatMap spec8, b ≠ 0 := by
      intro b hb
      obtain ⟨y, hy, hb⟩ := List.mem_flatMap.mp hb
      obtain ⟨x, hx, rfl⟩ := List.mem_map.mp hy
      refine spec8_ne_zero ?_ b hb
      unfold shownAs
      split <;> omega
    have htw := List.takeWhile_append_of_pos (p := fun b : Nat => decide (b ≠ 0)) (l₂ := [])
      (fun b hb => by simpa using hnz b hb)
    simp only [List.append_nil, List.takeWhile_nil] at htw
    show ((List.takeWhile _ _).drop 0).take _ = _
    rw [htw, List.drop_zero, List.map_append, List.flatMap_append, hhit, Nat.sub_zero, List.take_left' rfl]
    exact entries_shown c cs _

/-- **C79, other files.** If the file is read into a buffer, the text of a hit reported later
than its first byte was in the buffer is read from memory that is not part of the buffer. -/
theorem earlier_hit_outside (s : Shape) (st : s.State) (before after : Int) {buf : List Nat} {off : Nat} {h : SHit}
    (h1 : h.start < off) : shown [] before after s st (buf, off) h = .outside := by
  unfold shown
  simp only [List.length_nil, Nat.add_zero]
  rw [if_neg (by omega), if_neg (by omega)]

/-! ## A whole file -/

open Verif.Vm in
theorem step_log {P : Program} {first : List Thread} {fuel : Nat} {c : Call} {σ σ' : St} {r : Option Nat}
    (h : step P first fuel c σ = .ok (r, σ')) : ∃ new, σ'.log = σ.log ++ new := by
  have hp := step_prefix P first fuel σ.log c (clearLog σ)
  rw [relog_clear, h] at hp
  cases hr : step P first fuel c (clearLog σ) with
  | ub => rw [hr] at hp; cases hp
  | fuel => rw [hr] at hp; cases hp
  | ok x =>
    rw [hr] at hp
    have : σ' = relog true σ.log x.2 := by
      have := congrArg (fun y : Res (Option Nat × St) => match y with | .ok z => z.2 | _ => σ') hp
      exact this
    exact ⟨x.2.log, by rw [this]; simp [relog]⟩

/-- The calls made for the blocks. -/
def blockCalls (blocks : List (Nat × List UInt8)) : List Vm.Call := blocks.map fun b => .search b.2 b.1 true

theorem newHits_append {σ σ' : Vm.St} {new : List Vm.Hit} (h : σ'.log = σ.log ++ new) :
    newHits σ σ' = new.map fun h => ⟨h.start, h.end, h.label⟩ := by
  unfold newHits
  rw [h, List.drop_left' rfl]

theorem keysOf_hits (T : Tables) (b : Buf) (ctx : Bool) (hs : List SHit) (es : List Event) :
    keysOf T b (hs.map (.hit · ctx) ++ es) = hs.map (keyOf T b) ++ keysOf T b es := by
  induction hs with
  | nil => rfl
  | cons h hs ih => simp [keysOf, ih]

open Verif.Vm in
theorem searchEvents_keys {P : Program} {S : Nat → Prop} (G : Guarded P S) {fuel : Nat} {first : List Thread}
    (hf : FirstOk S first) (T : Tables) (ctx : Bool) (key : Hit → Key) (last : Buf) {fin : List Hit} :
    ∀ (blocks : List (Nat × List UInt8)) {p : Nat} {σ σ' : St} {es : List Event} {b0 : Buf},
      Inv P S 0 p σ → (∀ x ∈ blocks, p ≤ x.1) → blocks.Pairwise (fun x y => x.1 + x.2.length ≤ y.1) →
      searchEvents P first fuel ctx blocks σ = .ok (es, σ') → (∀ h ∈ σ'.log, h ∈ fin) →
      (∀ x ∈ blocks, ∀ h ∈ fin, h.start < h.end → h.end ≤ x.1 + x.2.length →
        keyOf T (x.2.map UInt8.toNat, x.1) ⟨h.start, h.end, h.label⟩ = key h) →
      (blocks.getLast?.map fun x => (x.2.map UInt8.toNat, x.1)).getD b0 = last →
      ∃ new rs, σ'.log = σ.log ++ new ∧ run P first fuel (blockCalls blocks) σ = .ok (rs, σ') ∧
        (∃ q, Inv P S 0 q σ' ∧ (∀ x ∈ blocks, x.1 + x.2.length ≤ q) ∧
          q = (blocks.getLast?.map fun x => x.1 + x.2.length).getD p) ∧
        ∀ more, keysOf T b0 (es ++ more) = new.map key ++ keysOf T last more := by
  intro blocks
  induction blocks with
  | nil =>
    intro p σ σ' es b0 hI _ _ h _ _ hl
    simp only [searchEvents, Res.ok.injEq, Prod.mk.injEq] at h
    obtain ⟨rfl, rfl⟩ := h
    simp only [List.getLast?_nil, Option.map_none, Option.getD_none] at hl
    subst hl
    exact ⟨[], [], by simp, rfl, ⟨p, hI, by simp, by simp⟩, fun more => rfl⟩
  | cons x blocks ih =>
    intro p σ σ' es b0 hI hp hpw h hfin hkey hl
    obtain ⟨off, blk⟩ := x
    simp only [searchEvents] at h
    obtain ⟨⟨r, σ1⟩, h1, h⟩ := bind_eq_ok.1 h
    obtain ⟨⟨es2, σ2⟩, h2, h⟩ := bind_eq_ok.1 h
    simp only [Res.ok.injEq, Prod.mk.injEq] at h
    obtain ⟨rfl, rfl⟩ := h
    obtain ⟨new1, hn1⟩ := step_log h1
    have hI1 := (step_inv G hf (.search blk off true (hp (off, blk) (by simp)) (.nil _)) (Nat.zero_le _) hI h1).1
    rw [List.pairwise_cons] at hpw
    obtain ⟨new2, rs, g1, g2, ⟨q, g3, g4, g5⟩, g6⟩ := ih (b0 := (blk.map UInt8.toNat, off)) hI1
      (fun y hy => hpw.1 y hy) hpw.2 h2 hfin (fun y hy => hkey y (by simp [hy])) (by
        cases blocks with
        | nil =>
          simp only [List.getLast?_singleton, Option.map_some, Option.getD_some] at hl
          simpa using hl
        | cons y ys =>
          rw [List.getLast?_cons_cons] at hl
          obtain ⟨z, hz⟩ : ∃ z, (y :: ys).getLast? = some z := ⟨_, List.getLast?_eq_some_getLast (by simp)⟩
          rw [hz] at hl ⊢
          simpa using hl)
    refine ⟨new1 ++ new2, r :: rs, by rw [g1, hn1, List.append_assoc], ?_, ⟨q, g3, ?_, ?_⟩, ?_⟩
    · show run P first fuel (.search blk off true :: blockCalls blocks) σ = _
      simp only [run, h1, bind_ok, g2]
    · intro y hy
      rcases List.mem_cons.1 hy with rfl | hy
      · cases blocks with
        | nil => rw [g5]; simp
        | cons y ys =>
          have := hpw.1 y (by simp)
          have := g4 y (by simp)
          simp only at *
          omega
      · exact g4 y hy
    · rw [g5]
      cases blocks with
      | nil => simp
      | cons y ys =>
        rw [List.getLast?_cons_cons]
        obtain ⟨z, hz⟩ : ∃ z, (y :: ys).getLast? = some z := ⟨_, List.getLast?_eq_some_getLast (by simp)⟩
        rw [hz]
        simp
    · intro more
      rw [List.cons_append, List.cons_append, List.append_assoc]
      show keysOf T (blk.map UInt8.toNat, off) _ = _
      rw [keysOf_hits, g6, newHits_append hn1, List.map_map, List.map_append, List.append_assoc]
      congr 1
      apply List.map_congr_left
      intro h hh
      have hb := hI1.log.bounds h (by rw [hn1]; simp [hh])
      exact hkey (off, blk) (by simp) h (hfin h (by rw [g1, hn1]; simp [hh])) hb.2.1 hb.2.2

open Verif.Vm in
/-- The keys counted for a file are those of the hits of the search, if they are so for each
hit whenever it is reported. -/
theorem fileEvents_keys {P : Program} {S : Nat → Prop} (G : Guarded P S) {fuel : Nat} {first : List Thread}
    {σ₀ : St} (hnew : create P fuel = .ok (first, σ₀)) (T : Tables) (ctx : Bool) (key : Hit → Key)
    {blocks : List (Nat × List UInt8)} (hne : blocks ≠ [])
    (hpw : blocks.Pairwise (fun x y => x.1 + x.2.length ≤ y.1)) {es : List Event} {σ : St}
    (hrun : fileEvents P first fuel ctx blocks σ₀ = .ok (es, σ))
    (hkey : ∀ x ∈ blocks, ∀ h ∈ σ.log, h.start < h.end → h.end ≤ x.1 + x.2.length →
      keyOf T (x.2.map UInt8.toNat, x.1) ⟨h.start, h.end, h.label⟩ = key h) (b0 : Buf) :
    (∃ rs, run P first fuel (blockCalls blocks ++ [.closeOut true]) σ₀ = .ok (rs, σ)) ∧
    keysOf T b0 es = σ.log.map key := by
  obtain ⟨rfl, hf⟩ := create_spec G hnew
  simp only [fileEvents] at hrun
  obtain ⟨⟨es1, σ1⟩, h1, h⟩ := bind_eq_ok.1 hrun
  obtain ⟨⟨r, σ2⟩, h2, h⟩ := bind_eq_ok.1 h
  simp only [Res.ok.injEq, Prod.mk.injEq] at h
  obtain ⟨rfl, rfl⟩ := h
  obtain ⟨new2, hn2⟩ := step_log h2
  obtain ⟨z, hz⟩ : ∃ z, blocks.getLast? = some z := ⟨_, List.getLast?_eq_some_getLast hne⟩
  obtain ⟨new, rs, g1, g2, ⟨q, g3, g4, g5⟩, g6⟩ := searchEvents_keys G hf T ctx key
    (z.2.map UInt8.toNat, z.1) (fin := σ2.log) blocks (p := 0) (b0 := b0) (inv_fresh 0) (by simp) hpw h1
    (fun h hh => by rw [hn2]; simp [hh]) hkey (by rw [hz]; rfl)
  have hI2 := (step_inv G hf (.closeOut true (.nil q)) (Nat.zero_le _) g3 h2).1
  refine ⟨⟨rs ++ [r], ?_⟩, ?_⟩
  · rw [run_append, g2]
    simp [run, h2]
  · have e : (newHits σ1 σ2).map (Event.hit · ctx) = (newHits σ1 σ2).map (.hit · ctx) ++ [] := by simp
    rw [e, g6, keysOf_hits, newHits_append hn2, List.map_map]
    have h0 : (preInit P).log = [] := rfl
    rw [hn2, g1, h0, List.nil_append, List.map_append]
    congr 1
    simp only [keysOf, List.append_nil]
    apply List.map_congr_left
    intro h hh
    have hb := hI2.log.bounds h (by rw [hn2]; simp [hh])
    refine hkey z (List.mem_of_getLast? hz) h (by rw [hn2]; simp [hh]) hb.2.1 ?_
    rw [g5, hz] at hb
    exact hb.2.2

theorem mapped_blocks (raw : List Nat) (bs : Nat) : ∀ n pos, pos ≤ raw.length →
    (∀ x ∈ mappedSearch raw bs n pos, pos ≤ x.1 ∧ x.1 + x.2.length ≤ raw.length ∧
      x.2 = (raw.drop x.1).take x.2.length) ∧
    (mappedSearch raw bs n pos).Pairwise fun x y => x.1 + x.2.length ≤ y.1 := by
  intro n
  induction n with
  | zero => intro pos _; simp [mappedSearch]
  | succ n ih =>
    intro pos hp
    unfold mappedSearch
    simp only
    split
    · simp; omega
    · next h0 =>
      have hl : ((raw.drop pos).take (min bs (raw.length - pos))).length = min bs (raw.length - pos) := by
        rw [List.length_take, List.length_drop]; omega
      obtain ⟨i1, i2⟩ := ih (pos + min bs (raw.length - pos)) (by omega)
      constructor
      · intro x hx
        rcases List.mem_cons.1 hx with rfl | hx
        · simp only [hl]
          exact ⟨Nat.le_refl _, by omega, trivial⟩
        · have := i1 x hx
          exact ⟨by omega, this.2⟩
      · rw [List.pairwise_cons]
        refine ⟨fun y hy => ?_, i2⟩
        simp only [hl]
        exact (i1 y hy).1

theorem map_ofNat {l : List Nat} (h : Bytes l) : (l.map UInt8.ofNat).map UInt8.toNat = l := by
  rw [List.map_map]
  conv => rhs; rw [← List.map_id l]
  apply List.map_congr_left
  intro x hx
  have hx : x < 256 := h x hx
  show (UInt8.ofNat x).toNat = x
  rw [UInt8.toNat_ofNat']
  omega

open Verif.Vm in
/-- **C79, the histogram of a memory mapped file.** A file is searched in blocks of any size and
every hit is counted when it is reported.  When each hit spells characters in the encoding of
its keyword, the count of every text, pattern and number is the number of hits of the search
with that pattern and number whose bytes spell that text. -/
theorem mapped_histogram {P : Program} {S : Nat → Prop} (G : Guarded P S) {fuel : Nat} {first : List Thread}
    {σ₀ : St} (hnew : create P fuel = .ok (first, σ₀)) {file : List UInt8} (hsz : file.length < 2 ^ 64) {bs : Nat}
    {ctx : Bool} {es : List Event} {σ : St}
    (hrun : fileEvents P first fuel ctx (mappedBlocks file bs) σ₀ = .ok (es, σ))
    {before after : Int} (hbf : before + 1 < 2 ^ 31) (haf : after + 1 < 2 ^ 31)
    (c : Nat → Charset) (ts : Nat → List ByteT) (ht : ∀ l, ∀ t ∈ ts l, t.Valid)
    (st : Buf → (h : SHit) → (chain [] (c h.kw) (ts h.kw)).State) (info : Nat → List Nat × Nat)
    {text : Hit → List Nat}
    (htext : ∀ h ∈ σ.log, Spells (c h.label) (ts h.label) (Decoders.slice (file.map UInt8.toNat) h.start h.end) (text h))
    (b0 : Buf) (h0 : SHit) (k : Key) :
    (∃ rs, run P first fuel (blockCalls (mappedBlocks file bs) ++ [.closeOut true]) σ₀ = .ok (rs, σ)) ∧
    countOf k (histRun (mappedTables (file.map UInt8.toNat) before after (fun l => chain [] (c l) (ts l)) st info)
      ⟨b0, h0, ⟨[], 0, 0⟩, []⟩ es).hist =
      (σ.log.map fun h => (⟨display (text h), (info h.label).1, (info h.label).2⟩ : Key)).count k := by
  have hraw : Bytes (file.map UInt8.toNat) := by
    intro x hx
    obtain ⟨b, -, rfl⟩ := List.mem_map.1 hx
    exact b.toNat_lt
  have hlen : (file.map UInt8.toNat).length = file.length := List.length_map _
  obtain ⟨m1, m2⟩ := mapped_blocks (file.map UInt8.toNat) bs (file.length + 1) 0 (Nat.zero_le _)
  rw [histogram_counts]
  obtain ⟨r1, r2⟩ := fileEvents_keys G hnew
    (mappedTables (file.map UInt8.toNat) before after (fun l => chain [] (c l) (ts l)) st info) ctx
    (fun h => (⟨display (text h), (info h.label).1, (info h.label).2⟩ : Key)) (blocks := mappedBlocks file bs)
    (by
      unfold mappedBlocks mappedSearch
      simp only
      split <;> simp)
    (by
      unfold mappedBlocks
      rw [List.pairwise_map]
      exact m2.imp fun h => by simpa using h) hrun (by
      intro x hx h hh hlt hle
      unfold mappedBlocks at hx
      obtain ⟨y, hy, rfl⟩ := List.mem_map.1 hx
      obtain ⟨y1, y2, y3⟩ := m1 y hy
      have hB : Bytes y.2 := by rw [y3]; exact bytes_sub hraw _ _
      simp only [List.length_map] at hle
      simp only [map_ofNat hB]
      obtain ⟨t, d, e1, e2⟩ := mapped_hit_text (c h.label) (ts h.label) (ht _) hbf haf
        (st (y.2, y.1) ⟨h.start, h.end, h.label⟩) hraw (by omega) (off := y.1) (len := y.2.length) y2
        (h := ⟨h.start, h.end, h.label⟩) (Nat.le_of_lt hlt) hle (htext h hh)
      rw [← y3] at e1
      unfold keyOf mappedTables
      simp only
      rw [e1]
      simp only [Option.getD_some]
      rw [e2]) b0
  exact ⟨r1, by rw [r2]⟩

/-! ## A file that is not memory mapped -/

open Verif.Nfa Verif.Compiler

/-- The automaton of `a+`. -/
def plusVertex : Nat → Vertex
  | 0 => { out := [1] }
  | 1 => { bytes := BSet.single 97, out := [1], inn := [0, 1], isMatch := true, label := some 0 }
  | _ => {}

@[inherit_doc plusVertex] def plus : Graph := { n := 2, v := plusVertex }

theorem plus_code : codegen plus = .ok [6356993, 10, 265, 11, 7, 9, 8, 0, 12, 6] := by decide +kernel

theorem plus_found : ∃ F r, BestPair.bestPair F plus = some r := by
  obtain ⟨F, hF⟩ := BestPair.filter_found plus (by decide) (by decide) rfl [97]
    ⟨1, by decide, 1, .one (by decide +kernel), rfl⟩
  exact ⟨F, hF F (Nat.le_refl _)⟩

/-- While the one block of the file `a` is searched nothing is reported; the hit is reported
when the search is closed out and the current buffer is the empty one behind the file. -/
theorem plus_events (off : Nat) (f : Nat → Bool) :
    ∃ first σ₀ σ, Vm.create ⟨[6356993, 10, 265, 11, 7, 9, 8, 0, 12, 6], 0, 1, off, f⟩ 20 = .ok (first, σ₀) ∧
      fileEvents ⟨[6356993, 10, 265, 11, 7, 9, 8, 0, 12, 6], 0, 1, off, f⟩ first 20 false [(0, [97]), (1, [])] σ₀ =
        .ok ([.buffer ([97], 0), .buffer ([], 1), .hit ⟨0, 1, 0⟩ false], σ) :=
  ⟨_, _, _, rfl, rfl⟩

/-- The file `a`, not mapped, is searched in these blocks. -/
theorem plus_blocks (mem : Bool → Nat → Nat) :
    ∃ s, Reach [97] 8 mem s ∧ s.phase = .done ∧ s.log = [(0, [97]), (1, [])] := by
  have h1 := Reach.step _ _ (.init (file := [97]) (bs := 8) (mem := mem)) (.transfer _ (show (0 : Nat) < 1 by decide))
  have h2 := Reach.step _ _ h1 (.get _ rfl rfl (show (1 : Nat) ≠ 0 by decide))
  have h3 := Reach.step _ _ h2 (.look _ false 1 [] rfl (by decide))
  have h4 := Reach.step _ _ h3 (.finish _ false 1 _ rfl rfl)
  exact ⟨_, .step _ _ h4 (.last _ rfl rfl rfl), rfl, rfl⟩

/-- **C79 fails for files that are not memory mapped.** Searching the file `a` for `a+` and
counting texts: the hit is reported when the current buffer is the empty one at the end, and its
text is read from memory outside the buffer. -/
theorem plus_read_outside : ∃ F P first σ₀ σ, createProgram F plus = some (.ok P) ∧
    Vm.create P 20 = .ok (first, σ₀) ∧
    fileEvents P first 20 false [(0, [97]), (1, [])] σ₀ =
      .ok ([.buffer ([97], 0), .buffer ([], 1), .hit ⟨0, 1, 0⟩ false], σ) ∧
    ∀ (s : Shape) (st : s.State) (before after : Int), shown [] before after s st ([], 1) ⟨0, 1, 0⟩ = .outside := by
  obtain ⟨F, r, hr⟩ := plus_found
  obtain ⟨first, σ₀, σ, h1, h2⟩ := plus_events r.1 fun i => decide (i < 65536) && r.2 (UInt8.ofNat (i % 256)) (UInt8.ofNat (i / 256))
  refine ⟨F, _, first, σ₀, σ, ?_, h1, h2, fun s st before after => earlier_hit_outside s st before after (by decide)⟩
  unfold createProgram
  rw [hr, plus_code]
  have e1 : maxLabel plus = 0 := by decide +kernel
  have e2 : maxCheck plus = 1 := by decide +kernel
  rw [e1, e2]

/-! ## The hypotheses can be met -/

/-- `xé` and a line feed: the hit `é` in UTF-8, its line shown. -/
example : ∃ t d, shown [] 0 0 (chain [] .utf8 []) ((chain [] .utf8 []).init) ([120, 0xC3, 0xA9, 10], 5) ⟨6, 8, 0⟩ =
    .text t d ∧ t.hit = display [0xE9] :=
  hit_text_partial .utf8 [] (by simp) [] (by decide) (by decide) _ (by unfold Bytes; decide) (by decide) (by decide)
    (by decide) (by decide) (cs := [0xE9]) ⟨by decide, by decide⟩

example : shown [] 0 0 (chain [] .utf8 []) ((chain [] .utf8 []).init) ([10, 120, 0xC3, 0xA9, 121, 10], 5) ⟨7, 9, 0⟩ =
    .text ⟨display ([120] ++ [0xE9] ++ [121]), 1, 3⟩ 6 :=
  context_text_partial .utf8 [] (by simp) [] (by decide) (by decide) _ (by unfold Bytes; decide) (by decide) (by decide)
    (by decide) (by decide) (cp := [120]) (cs := [0xE9]) (cq := [121]) ⟨by decide, by decide⟩
    ⟨by decide, by decide⟩ ⟨by decide, by decide⟩

/-- The file `é` in two blocks: at the second the hit lies half before the buffer. -/
example : ∃ t d, shown [0xC3] (-1) (-1) (chain [] .utf8 []) ((chain [] .utf8 []).init) ([0xA9], 1) ⟨0, 2, 0⟩ =
    .text t d ∧ t.hit = display [0xE9] :=
  mapped_hit_text .utf8 [] (by simp) (by decide) (by decide) _ (file := [0xC3, 0xA9]) (by unfold Bytes; decide) (by decide)
    (off := 1) (len := 1) (by decide) (by decide) (by decide) (cs := [0xE9]) ⟨by decide, by decide⟩

/-- The mapped file `xabab`, searched in blocks of two bytes for `ab`: `ab` is counted twice, once
for a hit across two blocks. -/
example : ∃ first σ₀ es σ, Vm.create Vm.abProgram 10 = .ok (first, σ₀) ∧
    fileEvents Vm.abProgram first 10 false (mappedBlocks [120, 97, 98, 97, 98] 2) σ₀ = .ok (es, σ) ∧
    σ.log = [⟨1, 3, 0⟩, ⟨3, 5, 0⟩] ∧
    countOf ⟨display [97, 98], [97, 98], 3⟩
      (histRun (mappedTables [120, 97, 98, 97, 98] (-1) (-1) (fun _ => chain [] .ascii [])
        (fun _ _ => (chain [] .ascii []).init) fun _ => ([97, 98], 3)) ⟨([], 0), ⟨0, 0, 0⟩, ⟨[], 0, 0⟩, []⟩ es).hist = 2 := by
  refine ⟨_, _, _, _, rfl, rfl, rfl, ?_⟩
  refine ((mapped_histogram Vm.abGuarded (fuel := 10) rfl (file := [120, 97, 98, 97, 98]) (by decide) (bs := 2)
    (ctx := false) rfl (before := -1) (after := -1) (by decide) (by decide) (fun _ => .ascii) (fun _ => [])
    (by simp) (fun _ _ => (chain [] .ascii []).init) (fun _ => ([97, 98], 3)) (text := fun _ => [97, 98]) ?_
    ([], 0) ⟨0, 0, 0⟩ _).2).trans ?_
  · intro h hh
    have hh : h ∈ [(⟨1, 3, 0⟩ : Vm.Hit), ⟨3, 5, 0⟩] := hh
    simp only [List.mem_cons, List.not_mem_nil, or_false] at hh
    rcases hh with rfl | rfl
    · exact ⟨by decide, by decide⟩
    · exact ⟨by decide, by decide⟩
  · decide

end Verif.Cmd
