import Verif.Decoders
import Verif.Props.Transforms
/-!
# C35: decoder streams

Specification: what reading a byte range in a character set means.  At each
position either a character's encoding starts there, and the character is
reported with that position; or none does, and the single byte is reported as an
error value.
-/
namespace Verif.Decoders

open Verif.Utf Verif.Transforms

/-- The encoding of a scalar value in a character set; `none` if it has none. -/
def Charset.spec : Charset → Nat → Option (List Nat)
  | .ascii, c => if c < 0x80 then some [c] else none
  | .utf8, c => if Scalar c then some (spec8 c) else none
  | .utf16 le, c => if Scalar c then some (spec16 le c) else none
  | .utf32 le, c => if Scalar c then some (spec32 le c) else none

/-- `Decoded c bs off out`: reading the bytes `bs`, the first of which is at
position `off`, yields `out`. -/
inductive Decoded (c : Charset) : List Nat → Nat → List (Int × Nat) → Prop
  | done {off} : Decoded c [] off []
  | char {cp enc rest off out} (h : c.spec cp = some enc)
      (t : Decoded c rest (off + enc.length) out) :
      Decoded c (enc ++ rest) off (((cp : Int), off) :: out)
  | error {b rest off out} (h : ∀ cp enc, c.spec cp = some enc → ¬ enc <+: b :: rest)
      (t : Decoded c rest (off + 1) out) :
      Decoded c (b :: rest) off ((-(b : Int) - 1, off) :: out)

/-- The bytes of `buf` from `p` to `q`. -/
def slice (buf : List Nat) (p q : Nat) : List Nat := (buf.drop p).take (q - p)

/-! ## Streams -/

/-- The `n`-th result of calling `next` repeatedly. -/
def outN (buf : List Nat) (s : Shape) : Nat → s.State → Int × Nat
  | 0, st => (s.next buf st).1
  | n + 1, st => outN buf s n (s.next buf st).2

/-- The decoder produces the list `l` and from then on always END at `e`. -/
def Produces (buf : List Nat) (s : Shape) (st : s.State) (l : List (Int × Nat)) (e : Nat) : Prop :=
  ∀ n, outN buf s n st = l.getD n (END, e)

theorem produces_step {buf : List Nat} {s : Shape} {st : s.State} {l : List (Int × Nat)} {e : Nat} :
    Produces buf s st l e ↔
      (s.next buf st).1 = l.getD 0 (END, e) ∧ Produces buf s (s.next buf st).2 (l.drop 1) e := by
  constructor
  · intro h
    refine ⟨h 0, fun n => ?_⟩
    have := h (n + 1)
    rw [List.getD_eq_getElem?_getD] at this ⊢
    rw [List.getElem?_drop, Nat.add_comm 1 n]
    exact this
  · intro ⟨h0, h1⟩ n
    cases n with
    | zero => exact h0
    | succ n =>
      have := h1 n
      rw [List.getD_eq_getElem?_getD] at this ⊢
      rw [List.getElem?_drop, Nat.add_comm 1 n] at this
      exact this

/-- A decoder that maps each result of the wrapped one. -/
theorem produces_map {buf : List Nat} {s s' : Shape} {st : s.State} {st' : s'.State}
    {conv : s.State → s'.State} {l : List (Int × Nat)} {e : Nat} (f : Int × Nat → Int × Nat)
    (hn : ∀ st, s'.next buf (conv st) = (f (s.next buf st).1, conv (s.next buf st).2))
    (hst : st' = conv st) (hf : f (END, e) = (END, e)) (h : Produces buf s st l e) :
    Produces buf s' st' (l.map f) e := by
  intro n
  subst hst
  induction n generalizing st l with
  | zero =>
    have := h 0
    simp only [outN, hn] at this ⊢
    rw [this]
    cases l <;> simp [hf]
  | succ n ih =>
    have h' := (produces_step.mp h).2
    have := ih h'
    simp only [outN, hn]
    rw [this]
    cases l <;> simp

/-! ## Byte chains -/

/-- Bytes with their positions. -/
def tag (off : Nat) : List Nat → List (Int × Nat)
  | [] => []
  | b :: bs => ((b : Int), off) :: tag (off + 1) bs

theorem tag_length (off : Nat) (bs : List Nat) : (tag off bs).length = bs.length := by
  induction bs generalizing off with
  | nil => rfl
  | cons b bs ih => simp [tag, ih]

theorem tag_drop (off k : Nat) (bs : List Nat) : (tag off bs).drop k = tag (off + k) (bs.drop k) := by
  induction k generalizing off bs with
  | zero => simp
  | succ k ih =>
    cases bs with
    | nil => simp [tag]
    | cons b bs => simp only [tag, List.drop_succ_cons, ih]; congr 1; omega

theorem tag_getD (off n : Nat) (bs : List Nat) (d : Int × Nat) :
    (tag off bs).getD n d = match bs[n]? with
      | some b => ((b : Int), off + n)
      | none => d := by
  induction bs generalizing off n with
  | nil => simp [tag]
  | cons b bs ih =>
    cases n with
    | zero => simp [tag]
    | succ n =>
      have := ih (off + 1) n
      simp only [tag, List.getD_cons_succ, List.getElem?_cons_succ, this]
      cases bs[n]? <;> simp; omega

theorem source_produces {buf : List Nat} {p q : Nat} (hpq : p ≤ q) (hq : q ≤ buf.length) :
    Produces buf .source ((p, q) : Nat × Nat) (tag p (slice buf p q)) q := by
  intro n
  induction n generalizing p with
  | zero =>
    rw [tag_getD]
    simp only [outN, Shape.next, slice, List.getElem?_take, List.getElem?_drop]
    by_cases h : p = q
    · simp [h]
    · have : p < buf.length := by omega
      rw [if_neg h, if_pos (by omega)]
      simp [List.getElem?_eq_getElem this]
  | succ n ih =>
    have hn : outN buf .source (n + 1) ((p, q) : Nat × Nat) =
        outN buf .source n (Shape.next buf .source ((p, q) : Nat × Nat)).2 := rfl
    rw [hn]
    by_cases h : p = q
    · subst h
      have e : (Shape.next buf .source ((p, p) : Nat × Nat)).2 = ((p, p) : Nat × Nat) := by
        simp [Shape.next]; rfl
      rw [e, ih (Nat.le_refl _)]
      simp [slice, tag]
    · have e : (Shape.next buf .source ((p, q) : Nat × Nat)).2 = ((p + 1, q) : Nat × Nat) := by
        simp [Shape.next, h]; rfl
      rw [e, ih (by omega)]
      have hs : slice buf p q = buf.getD p 0 :: slice buf (p + 1) q := by
        unfold slice
        have hp : p < buf.length := by omega
        rw [List.drop_eq_getElem_cons hp, show q - p = (q - (p + 1)) + 1 by omega, List.take_succ_cons]
        simp [List.getElem?_eq_getElem hp]
      rw [hs]
      simp [tag]

theorem tag_map (f : Nat → Nat) (off : Nat) (bs : List Nat) :
    tag off (bs.map f) = (tag off bs).map (fun x => ((f x.1.toNat : Int), x.2)) := by
  induction bs generalizing off with
  | nil => rfl
  | cons b bs ih => simp [tag, ih]

theorem tag_map' {f : Int × Nat → Int × Nat} {g : Nat → Nat} {bs : List Nat}
    (h : ∀ b ∈ bs, ∀ o, f ((b : Int), o) = ((g b : Int), o)) (off : Nat) :
    (tag off bs).map f = tag off (bs.map g) := by
  induction bs generalizing off with
  | nil => rfl
  | cons b bs ih =>
    simp only [tag, List.map_cons, h b (by simp)]
    rw [ih (fun b hb => h b (by simp [hb]))]

/-- The valid byte transforms of a chain undo byte by byte, and stay bytes. -/
theorem undoAll_lt {ts : List ByteT} (h : ∀ t ∈ ts, t.Valid) {b : Nat} (hb : b < 256) :
    undoAll ts b < 256 := by
  induction ts with
  | nil => exact hb
  | cons t ts ih =>
    exact (byteTransform_undone t (h t (by simp)) _ (ih (fun t ht => h t (by simp [ht])))).2.1

theorem byteChain_produces {ts : List ByteT} (ht : ∀ t ∈ ts, t.Valid) {buf : List Nat}
    (hb : Bytes buf) {p q : Nat} (hpq : p ≤ q) (hq : q ≤ buf.length)
    (st : (byteChain ts).State) :
    Produces buf (byteChain ts) ((byteChain ts).reset st p q)
      (tag p ((slice buf p q).map (undoAll ts))) q := by
  have hsl : ∀ b ∈ slice buf p q, b < 256 := fun b h =>
    hb b (List.mem_of_mem_drop (List.mem_of_mem_take h))
  induction ts with
  | nil =>
    have : (slice buf p q).map (undoAll []) = slice buf p q := by
      conv => rhs; rw [← List.map_id (slice buf p q)]
      rfl
    rw [this]
    exact source_produces hpq hq
  | cons t ts ih =>
    have ht' : ∀ t ∈ ts, t.Valid := fun t h => ht t (by simp [h])
    have main : ∀ (t : ByteT), t.Valid → ∀ (st : (Shape.bytes t (byteChain ts)).State),
        Produces buf (.bytes t (byteChain ts)) ((Shape.bytes t (byteChain ts)).reset st p q)
          (tag p ((slice buf p q).map (fun b => t.bwd (undoAll ts b)))) q := by
      intro t hv st
      have base := ih ht' st
      have hm := produces_map (s := byteChain ts) (s' := .bytes t (byteChain ts))
        (conv := fun st => st)
        (fun n : Int × Nat => ((if n.1 < 0 then n.1
          else if n.1 < 0x100 then (t.bwd n.1.toNat : Int) else -n.1 - 1, n.2) : Int × Nat))
        (fun st => rfl) (st' := (Shape.bytes t (byteChain ts)).reset st p q) rfl
        (by simp [END]) base
      rw [tag_map' (g := t.bwd)] at hm
      · rw [List.map_map] at hm; exact hm
      · intro b hb o
        obtain ⟨b', hb', rfl⟩ := List.mem_map.mp hb
        have := undoAll_lt ht' (hsl b' hb')
        simp only
        rw [if_neg (by omega), if_pos (by omega)]
        simp
    cases t with
    | identity => exact ih ht' st
    | xor k => exact main (.xor k) (ht _ (by simp)) st
    | oce => exact main .oce (ht _ (by simp)) st

/-! ## UTF decoders -/

/-- A UTF decoder with queue `q` over a wrapped decoder in state `st` still has the
list `l` (then END at `e`) to decode. -/
def Pend (buf : List Nat) (s : Shape) (q : List (Int × Nat)) (st : s.State) (l : List (Int × Nat))
    (e : Nat) : Prop :=
  (∀ i, i < q.length → q[i]? = some (l.getD i (END, e))) ∧ Produces buf s st (l.drop q.length) e

theorem pend_fill {buf : List Nat} {s : Shape} {l : List (Int × Nat)} {e : Nat} (n : Nat) :
    ∀ {q st}, Pend buf s q st l e →
      Pend buf s (fill (s.next buf) n q st).1 (fill (s.next buf) n q st).2 l e ∧
      (fill (s.next buf) n q st).1.length = q.length + n := by
  induction n with
  | zero => intro q st h; exact ⟨h, rfl⟩
  | succ n ih =>
    intro q st h
    have hs := produces_step.mp h.2
    have h' : Pend buf s (q ++ [(s.next buf st).1]) (s.next buf st).2 l e := by
      refine ⟨fun i hi => ?_, ?_⟩
      · by_cases hiq : i < q.length
        · rw [List.getElem?_append_left hiq]; exact h.1 i hiq
        · have : i = q.length := by simp at hi; omega
          subst this
          rw [List.getElem?_append_right (Nat.le_refl _), hs.1]
          simp [List.getD_eq_getElem?_getD, List.getElem?_drop]
      · have := hs.2
        rw [List.drop_drop] at this
        simpa using this
    have := ih h'
    refine ⟨this.1, ?_⟩
    have hl := this.2
    simp only [List.length_append, List.length_singleton] at hl
    show (fill (s.next buf) n (q ++ [(s.next buf st).1]) (s.next buf st).2).1.length = _
    omega

theorem pend_drop {buf : List Nat} {s : Shape} {l : List (Int × Nat)} {e : Nat} {q st}
    (h : Pend buf s q st l e) {k : Nat} (hk : k ≤ q.length) :
    Pend buf s (q.drop k) st (l.drop k) e := by
  refine ⟨fun i hi => ?_, ?_⟩
  · rw [List.getElem?_drop]
    rw [List.length_drop] at hi
    rw [h.1 (k + i) (by omega)]
    simp [List.getD_eq_getElem?_getD, List.getElem?_drop]
  · rw [List.drop_drop, List.length_drop, show k + (q.length - k) = q.length by omega]
    exact h.2

/-- The UTF character sets: what their `decode` does on a buffer of bytes. -/
theorem decode_spec (c : Charset) (hc : c ≠ .ascii) (bs : List Nat) (hb : Bytes bs) :
    (∀ cp enc, c.spec cp = some enc → enc <+: bs → c.decode bs = .ok cp enc.length) ∧
    ((c.decode bs = .fail ∧ ∀ cp enc, c.spec cp = some enc → ¬ enc <+: bs) ∨
      ∃ cp n, c.decode bs = .ok cp n ∧ c.spec cp = some (bs.take n) ∧ n ≤ bs.length) := by
  have gen : ∀ (dec : List Nat → Dec) (sp : Nat → List Nat),
      (∀ c : Nat, Scalar c → ∀ rest, dec (sp c ++ rest) = .ok c (sp c).length) →
      (dec bs = .fail ∨ ∃ c n, dec bs = .ok c n ∧ Scalar c ∧ n ≤ bs.length ∧ bs.take n = sp c) →
      (∀ cp enc, (if Scalar cp then some (sp cp) else none) = some enc → enc <+: bs →
        dec bs = .ok cp enc.length) ∧
      ((dec bs = .fail ∧ ∀ cp enc, (if Scalar cp then some (sp cp) else none) = some enc →
          ¬ enc <+: bs) ∨
        ∃ cp n, dec bs = .ok cp n ∧ (if Scalar cp then some (sp cp) else none) = some (bs.take n) ∧
          n ≤ bs.length) := by
    intro dec sp h1 h2
    have a : ∀ cp enc, (if Scalar cp then some (sp cp) else none) = some enc → enc <+: bs →
        dec bs = .ok cp enc.length := by
      intro cp enc h hp
      by_cases hs : Scalar cp
      · rw [if_pos hs, Option.some.injEq] at h
        obtain ⟨r, hr⟩ := hp
        rw [← hr, ← h]; exact h1 cp hs r
      · rw [if_neg hs] at h; exact absurd h (by simp)
    refine ⟨a, ?_⟩
    rcases h2 with h2 | ⟨cp, n, h2, hs, hn, ht⟩
    · left
      refine ⟨h2, fun cp enc h hp => ?_⟩
      have := a cp enc h hp
      rw [h2] at this; exact absurd this (by simp)
    · right
      exact ⟨cp, n, h2, by rw [if_pos hs, ht], hn⟩
  cases c with
  | ascii => exact absurd rfl hc
  | utf8 => exact gen utf8ToCp spec8 (fun c h r => utf8ToCp_spec8 h r) (utf8ToCp_sound bs hb)
  | utf16 le =>
    exact gen (utf16ToCp le) (spec16 le) (fun c h r => utf16ToCp_spec16 le h r)
      (utf16ToCp_sound le bs hb)
  | utf32 le =>
    exact gen (utf32ToCp le) (spec32 le) (fun c h r => utf32ToCp_spec32 le h r)
      (utf32ToCp_sound le bs hb)

theorem spec_length {c : Charset} {cp : Nat} {enc : List Nat} (h : c.spec cp = some enc) :
    1 ≤ enc.length ∧ enc.length ≤ 4 := by
  cases c with
  | ascii =>
    simp only [Charset.spec] at h
    split at h
    · cases h; simp
    · exact absurd h (by simp)
  | utf8 =>
    simp only [Charset.spec] at h
    split at h
    · cases h; unfold spec8; repeat' split
      all_goals simp
    · exact absurd h (by simp)
  | utf16 le =>
    simp only [Charset.spec] at h
    split at h
    · cases h; unfold spec16 unit16; repeat' split
      all_goals simp
    · exact absurd h (by simp)
  | utf32 le =>
    simp only [Charset.spec] at h
    split at h
    · cases h; rw [spec32_length]; omega
    · exact absurd h (by simp)

theorem prefix_take {enc bs : List Nat} {k : Nat} (hk : enc.length ≤ k) :
    enc <+: bs.take k ↔ enc <+: bs := by
  constructor
  · exact fun h => h.trans (List.take_prefix _ _)
  · intro h
    obtain ⟨r, rfl⟩ := h
    rw [List.take_append]
    exact ⟨_, by rw [List.take_of_length_le hk]⟩

/-- The queue's leading bytes, when it is filled from bytes. -/
theorem queue_bytes {off e : Nat} {bs : List Nat} (hb : Bytes bs) {q : List (Int × Nat)}
    (hl : q.length = 4) (hq : ∀ i, i < q.length → q[i]? = some ((tag off bs).getD i (END, e))) :
    (q.take 4).takeWhile (fun x => decide (0 ≤ x.1 ∧ x.1 ≤ 0xFF)) = tag off (bs.take 4) := by
  match q, hl with
  | [a0, a1, a2, a3], _ =>
    have h0 := hq 0 (by simp)
    have h1 := hq 1 (by simp)
    have h2 := hq 2 (by simp)
    have h3 := hq 3 (by simp)
    simp only [List.getElem?_cons_zero, List.getElem?_cons_succ, Option.some.injEq] at h0 h1 h2 h3
    rw [tag_getD] at h0 h1 h2 h3
    have hlt : ∀ b ∈ bs, b < 256 := hb
    have k : ∀ b : Nat, b < 256 → (b : Int) ≤ 255 := fun b h => by omega
    match bs, hlt with
    | [], _ => simp [tag, h0, END]
    | [b0], hlt =>
      have h0' := k _ (hlt b0 (by simp))
      subst h0 h1
      simp [tag, END, h0']
    | [b0, b1], hlt =>
      have h0' := k _ (hlt b0 (by simp)); have h1' := k _ (hlt b1 (by simp))
      subst h0 h1 h2
      simp [tag, END, h0', h1']
    | [b0, b1, b2], hlt =>
      have h0' := k _ (hlt b0 (by simp)); have h1' := k _ (hlt b1 (by simp))
      have h2' := k _ (hlt b2 (by simp))
      subst h0 h1 h2 h3
      simp [tag, END, h0', h1', h2']
    | b0 :: b1 :: b2 :: b3 :: t, hlt =>
      have h0' := k _ (hlt b0 (by simp)); have h1' := k _ (hlt b1 (by simp))
      have h2' := k _ (hlt b2 (by simp)); have h3' := k _ (hlt b3 (by simp))
      subst h0 h1 h2 h3
      simp [tag, h0', h1', h2', h3']

/-- A UTF decoder's state from its parts. -/
abbrev mkSt (c : Charset) (s : Shape) (q : List (Int × Nat)) (st : s.State) :
    (Shape.utf c s).State := (q, st)

/-- One `next` of a UTF decoder. -/
theorem utf_next {buf : List Nat} {s : Shape} {c : Charset} (hc : c ≠ .ascii) {off e : Nat}
    {bs : List Nat} (hb : Bytes bs) {q st} (hq : q.length ≤ 4)
    (h : Pend buf s q st (tag off bs) e) :
    ∃ (q' : List (Int × Nat)) (st' : s.State), q'.length ≤ 4 ∧
      match bs with
      | [] => (Shape.utf c s).next buf (mkSt c s q st) = ((END, e), mkSt c s q' st') ∧ Pend buf s q' st' [] e
      | b :: rest =>
        (∃ cp enc tl, c.spec cp = some enc ∧ enc ++ tl = b :: rest ∧
          (Shape.utf c s).next buf (mkSt c s q st) = (((cp : Int), off), mkSt c s q' st') ∧
          Pend buf s q' st' (tag (off + enc.length) tl) e) ∨
        ((∀ cp enc, c.spec cp = some enc → ¬ enc <+: b :: rest) ∧
          (Shape.utf c s).next buf (mkSt c s q st) = ((-(b : Int) - 1, off), mkSt c s q' st') ∧
          Pend buf s q' st' (tag (off + 1) rest) e) := by
  obtain ⟨hp, hlen⟩ := pend_fill (4 - q.length) h
  obtain ⟨Q, hQ⟩ : ∃ Q, Q = (fill (s.next buf) (4 - q.length) q st).1 := ⟨_, rfl⟩
  obtain ⟨S, hS⟩ : ∃ S, S = (fill (s.next buf) (4 - q.length) q st).2 := ⟨_, rfl⟩
  rw [← hQ, ← hS] at hp
  rw [← hQ] at hlen
  have hl4 : Q.length = 4 := by omega
  have hnext : (Shape.utf c s).next buf (mkSt c s q st) =
      ((decodeFront c Q).1, mkSt c s (decodeFront c Q).2 S) := by
    rw [hQ, hS]; rfl
  have hqb := queue_bytes hb hl4 hp.1
  have hfront : Q.headD (0, 0) = (tag off bs).getD 0 (END, e) := by
    have := hp.1 0 (by omega)
    rw [List.headD_eq_head?_getD, List.head?_eq_getElem?, this]; rfl
  rw [tag_getD] at hfront
  rw [hnext]
  cases bs with
  | nil =>
    refine ⟨Q.drop 1, S, by rw [List.length_drop]; omega, ?_⟩
    have : decodeFront c Q = ((END, e), Q.drop 1) := by
      unfold decodeFront
      rw [hqb, hfront]; rfl
    rw [this]
    refine ⟨rfl, ?_⟩
    have := pend_drop hp (k := 1) (by omega)
    simpa [tag] using this
  | cons b rest =>
    have hb4 : Bytes ((b :: rest).take 4) := fun x hx => hb x (List.mem_of_mem_take hx)
    have hmap : (tag off ((b :: rest).take 4)).map (fun x => x.1.toNat) = (b :: rest).take 4 := by
      have : ∀ (l : List Nat) off, (tag off l).map (fun x => x.1.toNat) = l := by
        intro l
        induction l with
        | nil => intro; rfl
        | cons a l ih => intro off; simp [tag, ih]
      exact this _ _
    have hD : decodeFront c Q = match c.decode ((b :: rest).take 4) with
        | .ok cp n => (((cp : Int), off), Q.drop n)
        | _ => ((-(b : Int) - 1, off), Q.drop 1) := by
      unfold decodeFront
      rw [hqb]
      have hne : tag off ((b :: rest).take 4) = ((b : Int), off) :: tag (off + 1) (rest.take 3) := rfl
      simp only [hne]
      rw [← hne, hmap, hfront]
      simp only [List.getElem?_cons_zero, Nat.add_zero]
      cases c.decode ((b :: rest).take 4) <;> rfl
    obtain ⟨-, hd⟩ := decode_spec c hc _ hb4
    rcases hd with ⟨hf, hno⟩ | ⟨cp, n, hok, hsp, hn⟩
    · refine ⟨Q.drop 1, S, by rw [List.length_drop]; omega, .inr ⟨?_, ?_, ?_⟩⟩
      · intro cp enc h hpre
        exact hno cp enc h ((prefix_take (spec_length h).2).mpr hpre)
      · rw [hD, hf]
      · have := pend_drop hp (k := 1) (by omega)
        rw [tag_drop] at this
        simpa using this
    · have hl := spec_length hsp
      have htn : n ≤ 4 := by
        have := List.length_take_le 4 (b :: rest)
        omega
      have hle : ((b :: rest).take 4).take n = (b :: rest).take n := by
        rw [List.take_take, Nat.min_eq_left htn]
      have hnl : n ≤ (b :: rest).length := by
        rw [List.length_take] at hn; omega
      rw [hle] at hsp hl
      have hnlen : ((b :: rest).take n).length = n := by rw [List.length_take]; omega
      refine ⟨Q.drop n, S, by rw [List.length_drop]; omega, .inl ⟨cp, (b :: rest).take n,
        (b :: rest).drop n, hsp, List.take_append_drop _ _, ?_, ?_⟩⟩
      · rw [hD, hok]
      · have := pend_drop hp (k := n) (by omega)
        rw [tag_drop] at this
        rw [hnlen]; exact this

theorem utf_produces {buf : List Nat} {s : Shape} {c : Charset} (hc : c ≠ .ascii) (e : Nat) :
    ∀ (k : Nat) (bs : List Nat), bs.length ≤ k → Bytes bs → ∀ off q st, q.length ≤ 4 →
      Pend buf s q st (tag off bs) e →
      ∃ out, Decoded c bs off out ∧ Produces buf (.utf c s) (mkSt c s q st) out e := by
  intro k
  induction k with
  | zero =>
    intro bs hk hb off q st hq h
    have : bs = [] := List.eq_nil_of_length_eq_zero (by omega)
    subst this
    refine ⟨[], .done, fun n => ?_⟩
    induction n generalizing q st with
    | zero =>
      obtain ⟨q', st', _, h1, h2⟩ := utf_next (c := c) hc hb hq h
      simp [outN, h1]
    | succ n ih =>
      obtain ⟨q', st', hq', h1, h2⟩ := utf_next (c := c) hc hb hq h
      simp only [outN, h1]
      exact ih q' st' hq' h2
  | succ k ih =>
    intro bs hk hb off q st hq h
    cases bs with
    | nil => exact ih [] (by simp) hb off q st hq h
    | cons b rest =>
      obtain ⟨q', st', hq', hcase⟩ := utf_next (c := c) hc hb hq h
      rcases hcase with ⟨cp, enc, tl, hsp, hcat, hn, hp⟩ | ⟨hno, hn, hp⟩
      · have hl := spec_length hsp
        have hlen : enc.length + tl.length = rest.length + 1 := by
          rw [← List.length_append, hcat]; simp
        simp only [List.length_cons] at hk
        obtain ⟨out, hd, hpr⟩ := ih tl (by omega)
          (fun x hx => hb x (by rw [← hcat]; simp [hx])) _ q' st' hq' hp
        refine ⟨((cp : Int), off) :: out, hcat ▸ Decoded.char hsp hd, produces_step.mpr ?_⟩
        rw [hn]
        exact ⟨rfl, hpr⟩
      · simp only [List.length_cons] at hk
        obtain ⟨out, hd, hpr⟩ := ih rest (by omega) (fun x hx => hb x (by simp [hx])) _ q' st' hq' hp
        refine ⟨_ :: out, .error hno hd, produces_step.mpr ?_⟩
        rw [hn]
        exact ⟨rfl, hpr⟩

theorem ascii_decoded (bs : List Nat) (off : Nat) (hb : Bytes bs) :
    Decoded .ascii bs off ((tag off bs).map
      (fun n : Int × Nat => (if n.1 ≥ 0x80 then -n.1 - 1 else n.1, n.2))) := by
  induction bs generalizing off with
  | nil => exact .done
  | cons b bs ih =>
    have ih' := ih (off + 1) (fun x hx => hb x (by simp [hx]))
    simp only [tag, List.map_cons]
    by_cases h : b < 0x80
    · rw [if_neg (by omega)]
      exact .char (enc := [b]) (by simp [Charset.spec, h]) ih'
    · rw [if_pos (by omega)]
      refine .error (fun cp enc hs hp => ?_) ih'
      simp only [Charset.spec] at hs
      split at hs
      · cases hs
        simp at hp; omega
      · exact absurd hs (by simp)

/-- Undo the rotations of a chain, innermost first. -/
def unrotAll (rots : List Nat) (cp : Int) : Int := rots.foldr (fun r cp => rotBwd r cp) cp

theorem rotBwd_neg (r : Nat) {cp : Int} (h : cp < 0) : rotBwd r cp = cp := by
  unfold rotBwd onLetters
  rw [if_neg (by omega), if_neg (by omega)]

/-- **C35** What a decoder chain delivers.  For every list of rotations, character
set and byte transforms, every buffer and every range in it, whatever was decoded
before: after `reset` the results of `next` are the decoding of the range (with
the byte transforms undone) in the character set, each with the position where it
starts, rotations undone; and then END at the end of the range, forever. -/
theorem decoder_stream (rots : List Nat) (c : Charset) (ts : List ByteT) (ht : ∀ t ∈ ts, t.Valid)
    (buf : List Nat) (hb : Bytes buf) (p q : Nat) (hpq : p ≤ q) (hq : q ≤ buf.length)
    (st : (chain rots c ts).State) :
    ∃ out, Decoded c ((slice buf p q).map (undoAll ts)) p out ∧
      ∀ n, outN buf (chain rots c ts) n ((chain rots c ts).reset st p q) =
        (out.map fun x => (unrotAll rots x.1, x.2)).getD n (END, q) := by
  have hB : Bytes ((slice buf p q).map (undoAll ts)) := by
    intro x hx
    obtain ⟨b, hb', rfl⟩ := List.mem_map.mp hx
    exact undoAll_lt ht (hb b (List.mem_of_mem_drop (List.mem_of_mem_take hb')))
  have base : ∀ st : (charsetDecoder c (byteChain ts)).State,
      ∃ out, Decoded c ((slice buf p q).map (undoAll ts)) p out ∧
      Produces buf (charsetDecoder c (byteChain ts))
        ((charsetDecoder c (byteChain ts)).reset st p q) out q := by
    have utf : ∀ (hc : c ≠ .ascii) (st : (Shape.utf c (byteChain ts)).State),
        ∃ out, Decoded c ((slice buf p q).map (undoAll ts)) p out ∧
          Produces buf (.utf c (byteChain ts))
            ((Shape.utf c (byteChain ts)).reset st p q) out q := by
      intro hc st
      refine utf_produces hc q _ _ (Nat.le_refl _) hB p [] _ (by simp) ⟨by simp, ?_⟩
      exact byteChain_produces ht hb hpq hq st.2
    cases c with
    | ascii =>
      intro st
      refine ⟨_, ascii_decoded _ p hB, ?_⟩
      exact produces_map (s := byteChain ts) (s' := .ascii (byteChain ts)) (conv := fun st => st)
        (fun n : Int × Nat => (if n.1 ≥ 0x80 then -n.1 - 1 else n.1, n.2)) (fun st => rfl) rfl
        (by simp [END]) (byteChain_produces ht hb hpq hq st)
    | utf8 => exact utf (by simp)
    | utf16 le => exact utf (by simp)
    | utf32 le => exact utf (by simp)
  have h : ∀ rots : List Nat, ∀ st : (chain rots c ts).State,
      ∃ out, Decoded c ((slice buf p q).map (undoAll ts)) p out ∧
      Produces buf (chain rots c ts) ((chain rots c ts).reset st p q)
        (out.map fun x => (unrotAll rots x.1, x.2)) q := by
    intro rots
    induction rots with
    | nil =>
      intro st
      obtain ⟨out, h1, h2⟩ := base st
      refine ⟨out, h1, ?_⟩
      have e : (out.map fun x => (unrotAll [] x.1, x.2)) = out := by simp [unrotAll]
      rw [e]; exact h2
    | cons r rots ih =>
      intro st
      obtain ⟨out, h1, h2⟩ := ih st
      refine ⟨out, h1, ?_⟩
      have := produces_map (s := chain rots c ts) (s' := chain (r :: rots) c ts)
        (conv := fun st => st) (fun x : Int × Nat => (rotBwd r x.1, x.2)) (fun st => rfl)
        (st' := (chain (r :: rots) c ts).reset st p q) rfl
        (by rw [rotBwd_neg r (show END < 0 by decide)]) h2
      rw [List.map_map] at this
      exact this
  exact h rots st

/-- A decoding is determined by the bytes. -/
theorem decoded_unique {c : Charset} {bs : List Nat} {off : Nat} {o1 o2 : List (Int × Nat)}
    (h1 : Decoded c bs off o1) (h2 : Decoded c bs off o2) (hb : Bytes bs) : o1 = o2 := by
  have pf : ∀ (bs : List Nat), Bytes bs → ∀ cp enc cp' enc', c.spec cp = some enc →
      c.spec cp' = some enc' → enc <+: bs → enc' <+: bs → cp = cp' ∧ enc = enc' := by
    intro bs hb cp enc cp' enc' h h' hp hp'
    have hl : enc.length = enc'.length → enc = enc' := fun hl => by
      rw [List.prefix_iff_eq_take.mp hp, List.prefix_iff_eq_take.mp hp', hl]
    by_cases hc : c = .ascii
    · subst hc
      have e := hl (by
        simp only [Charset.spec] at h h'
        split at h
        · split at h'
          · cases h; cases h'; rfl
          · exact absurd h' (by simp)
        · exact absurd h (by simp))
      subst e
      simp only [Charset.spec] at h h'
      split at h
      · split at h'
        · cases h; cases h'; exact ⟨rfl, rfl⟩
        · exact absurd h' (by simp)
      · exact absurd h (by simp)
    · have a := (decode_spec c hc bs hb).1 cp enc h hp
      have a' := (decode_spec c hc bs hb).1 cp' enc' h' hp'
      rw [a, Dec.ok.injEq] at a'
      exact ⟨a'.1, hl a'.2⟩
  induction h1 generalizing o2 with
  | @done off =>
    generalize hnil : ([] : List Nat) = bs at h2 hb
    cases h2 with
    | done => rfl
    | @char cp enc rest _ out h t =>
      have := (spec_length h).1
      have : (enc ++ rest).length = 0 := by rw [← hnil]; rfl
      rw [List.length_append] at this; omega
    | error h t => simp at hnil
  | @char cp enc rest off out h t ih =>
    generalize hbs : enc ++ rest = bs at h2 hb
    cases h2 with
    | done =>
      have := (spec_length h).1
      have : (enc ++ rest).length = 0 := by rw [hbs]; rfl
      rw [List.length_append] at this; omega
    | @char cp' enc' rest' _ out' h' t' =>
      obtain ⟨rfl, rfl⟩ := pf _ hb _ _ _ _ h h' ⟨rest, hbs⟩ ⟨rest', rfl⟩
      have : rest = rest' := List.append_cancel_left hbs
      subst this
      rw [ih t' (fun x hx => hb x (by simp [hx]))]
    | @error b rest' _ out' h' t' =>
      exact absurd ⟨rest, hbs⟩ (h' cp enc h)
  | @error b rest off out h t ih =>
    generalize hbs : b :: rest = bs at h2 hb
    cases h2 with
    | done => simp at hbs
    | @char cp' enc' rest' _ out' h' t' =>
      exact absurd (hbs ▸ ⟨rest', rfl⟩ : enc' <+: b :: rest) (h cp' enc' h')
    | @error b' rest' _ out' h' t' =>
      cases hbs
      rw [ih t' (fun x hx => hb x (by simp [hx]))]

/-- UTF-8 after undoing an XOR, with a stray byte: the XOR key is 1. -/
example : Decoded .utf8 ([0x60, 0xC2, 0xA8, 0xFE].map (undoAll [.xor 1])) 0
      [(0x61, 0), (0xE9, 1), (-256, 3)] ∧
    (readAll [0x60, 0xC2, 0xA8, 0xFE] (chain [] .utf8 [.xor 1]) 5
      ((chain [] .utf8 [.xor 1]).reset (Shape.init _) 0 4)).1 =
      [(0x61, 0), (0xE9, 1), (-256, 3)] := by
  refine ⟨?_, by decide +kernel⟩
  have e : [0x60, 0xC2, 0xA8, 0xFE].map (undoAll [.xor 1]) = [0x61, 0xC3, 0xA9, 0xFF] := by decide
  rw [e]
  refine .char (cp := 0x61) (enc := [0x61]) (by decide) ?_
  refine .char (cp := 0xE9) (enc := [0xC3, 0xA9]) (by decide) ?_
  refine .error (fun cp enc hs hp => ?_) .done
  have := (decode_spec .utf8 (by simp) [0xFF] (by simp [Bytes])).1 cp enc hs hp
  exact absurd this (by have : Charset.utf8.decode [0xFF] = .fail := by decide
                        rw [this]; simp)

end Verif.Decoders
