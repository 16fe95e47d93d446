import Verif.JavaText
import Verif.Props.Malformed
import Verif.Props.Window
/-!
# C87: strings between Java and the library
-/
namespace Verif.JavaText
open Verif.Parser (Env PatternOpts Res)
open Verif.Utf (Scalar spec8 Bytes)
open Verif.Regex (Tree)
open Verif.Encoders (Node)
open Verif.Decoders (window chain hitContext shownAs hit_context_text)

/-! ## Specification -/

/-- A unit that is a character by itself, and not the null character. -/
def Plain (u : Nat) : Prop := (1 ≤ u ∧ u < 0xD800) ∨ (0xE000 ≤ u ∧ u < 0x10000)

/-- A character as Java stores it: one unit, or two surrogates. -/
def units (c : Nat) : List Nat :=
  if c < 0x10000 then [c] else [0xD800 + (c - 0x10000) / 1024, 0xDC00 + (c - 0x10000) % 1024]

/-! ## Proofs -/

theorem plain_scalar {u : Nat} (h : Plain u) : Scalar u := by
  unfold Plain at h; unfold Scalar; omega

theorem modified_plain {u : Nat} (h : Plain u) : modified u = spec8 u := by
  unfold Plain at h
  unfold modified spec8
  rw [if_neg (by omega)]
  split
  · rfl
  split
  · rfl
  · rw [if_pos (by omega)]

theorem modified_bytes {u : Nat} (h : u < 0x10000) : ∀ b ∈ modified u, 1 ≤ b ∧ b < 256 := by
  unfold modified
  split
  · decide
  split
  · simp; omega
  split
  · simp; omega
  · simp; omega

/-- What the library sees of a unit. -/
def seen (u : Nat) : List (Option Nat) :=
  if u = 0 then [none, none] else if 0xD800 ≤ u ∧ u < 0xE000 then [none] else [some u]

theorem seen_plain {u : Nat} (h : Plain u) : seen u = [some u] := by
  unfold Plain at h
  unfold seen
  rw [if_neg (by omega), if_neg (by omega)]

theorem surrogate_decoded {u : Nat} (h : 0xD800 ≤ u ∧ u < 0xE000) (rest : List Nat) :
    Utf.utf8ToUnicode (modified u ++ rest) = .ret none 3 := by
  unfold modified
  rw [if_neg (by omega), if_neg (by omega), if_neg (by omega)]
  simp only [Utf.utf8ToUnicode, Utf.contU, List.cons_append, List.nil_append, List.length_cons,
    List.getElem?_cons_zero, List.getElem?_cons_succ, Utf.andFF, Utf.and0F, Utf.and3F, Utf.orShift6]
  rw [if_neg (by omega), if_neg (by omega), if_neg (by omega), if_pos (by omega),
    if_neg (by omega), if_neg (by omega), if_neg (by omega), if_neg (by omega),
    if_pos (by omega)]

theorem transform_step {bs rest : List Nat} {o : Option Nat} {n : Nat} (hb : bs ≠ [])
    (h : Utf.utf8ToUnicode (bs ++ rest) = .ret o bs.length) :
    Utf.transformUtf8 (n + 1) (bs ++ rest) = (Utf.transformUtf8 n rest).map (o :: ·) := by
  have : 0 < bs.length := List.length_pos_iff.2 hb
  rw [Utf.transformUtf8, List.length_append, if_neg (by omega), h]
  dsimp only
  rw [if_neg (by omega), List.drop_left]

theorem transform_units : ∀ (s : List Nat) (n : Nat), (∀ u ∈ s, u < 0x10000) → (utfChars s).length < n →
    Utf.transformUtf8 n (utfChars s) = some (s.flatMap seen)
  | [], n, _, h => by
    obtain ⟨n, rfl⟩ : ∃ k, n = k + 1 := ⟨n - 1, by omega⟩
    simp [utfChars, Utf.transformUtf8]
  | u :: s, n, hs, hn => by
    obtain ⟨n, rfl⟩ : ∃ k, n = k + 1 := ⟨n - 1, by omega⟩
    have hs' : ∀ v ∈ s, v < 0x10000 := fun v hv => hs v (by simp [hv])
    have e : utfChars (u :: s) = modified u ++ utfChars s := List.flatMap_cons ..
    rw [e, List.length_append] at hn
    rw [e, List.flatMap_cons]
    by_cases h0 : u = 0
    · subst h0
      have : modified 0 = [0xC0, 0x80] := rfl
      rw [this] at hn ⊢
      simp only [List.length_cons, List.length_nil] at hn
      obtain ⟨n, rfl⟩ : ∃ k, n = k + 1 := ⟨n - 1, by omega⟩
      have a1 : Utf.transformUtf8 (n + 1 + 1) ([0xC0] ++ (0x80 :: utfChars s)) =
          (Utf.transformUtf8 (n + 1) (0x80 :: utfChars s)).map (none :: ·) :=
        transform_step (by simp) (by simp [Utf.utf8ToUnicode])
      have a2 : Utf.transformUtf8 (n + 1) ([0x80] ++ utfChars s) =
          (Utf.transformUtf8 n (utfChars s)).map (none :: ·) :=
        transform_step (by simp) (by simp [Utf.utf8ToUnicode])
      have a2' : Utf.transformUtf8 (n + 1) (0x80 :: utfChars s) =
          (Utf.transformUtf8 n (utfChars s)).map (none :: ·) := a2
      rw [a2', transform_units s n hs' (by omega)] at a1
      exact a1
    by_cases h1 : 0xD800 ≤ u ∧ u < 0xE000
    · have hl : (modified u).length = 3 := by
        unfold modified; rw [if_neg h0, if_neg (by omega), if_neg (by omega)]; rfl
      rw [transform_step (o := none) (by intro e; rw [e] at hl; cases hl) (by rw [surrogate_decoded h1, hl]),
        transform_units s n hs' (by omega)]
      simp [seen, h0, h1]
    · have hp : Plain u := by have := hs u (by simp); unfold Plain; omega
      rw [modified_plain hp] at hn ⊢
      have : 0 < (spec8 u).length := List.length_pos_iff.2 (Utf.spec8_ne_nil u)
      rw [transform_step (Utf.spec8_ne_nil u) (Utf.utf8ToUnicode_spec8 (plain_scalar hp) _),
        transform_units s n hs' (by omega), seen_plain hp]
      rfl

theorem cString_all {bs : List Nat} (h : ∀ b ∈ bs, b ≠ 0) : cString bs = bs := by
  unfold cString
  induction bs with
  | nil => rfl
  | cons b bs ih =>
    rw [List.takeWhile_cons, if_pos (by simpa using h b (by simp)), ih fun c hc => h c (by simp [hc])]

theorem utfChars_bytes {s : List Nat} (hs : ∀ u ∈ s, u < 0x10000) : ∀ b ∈ utfChars s, 1 ≤ b ∧ b < 256 := by
  intro b hb
  obtain ⟨u, hu, hb⟩ := List.mem_flatMap.1 hb
  exact modified_bytes (hs u hu) b hb

theorem toNat_ofNat {bs : List Nat} (h : ∀ b ∈ bs, b < 256) : (bs.map UInt8.ofNat).map UInt8.toNat = bs := by
  rw [List.map_map]
  conv => rhs; rw [← List.map_id bs]
  refine List.map_congr_left fun b hb => ?_
  have := h b hb
  simp [UInt8.toNat_ofNat']
  omega

/-- The text that the library parses for a Java string. -/
theorem pattern_seen {s : List Nat} (hs : ∀ u ∈ s, u < 0x10000) :
    Text.codePoints ((cString (utfChars s)).map UInt8.ofNat) =
      some ((s.flatMap seen).map fun | some c => (c : Int) | none => -1) := by
  have hb := utfChars_bytes hs
  rw [cString_all fun b h => by have := (hb b h).1; omega]
  unfold Text.codePoints Utf.patternText
  rw [toNat_ofNat fun b h => (hb b h).2, transform_units s _ hs (by omega)]
  rfl

/-- **C87** A pattern given as a Java string without null characters and without characters
outside the basic plane is parsed as exactly its characters. -/
theorem pattern_text_partial (env : Env) (p : PatternOpts) {s : List Nat} (hs : ∀ u ∈ s, Plain u) :
    parsePattern env p s = Parser.parse env p (s.map fun u : Nat => (u : Int)) := by
  have h : ∀ u ∈ s, u < 0x10000 := fun u hu => by have := hs u hu; unfold Plain at this; omega
  unfold parsePattern Text.parseText
  rw [pattern_seen h]
  dsimp only
  have e : s.flatMap seen = s.map some := by
    clear h
    induction s with
    | nil => rfl
    | cons u s ih => rw [List.flatMap_cons, seen_plain (hs u (by simp)), ih fun v hv => hs v (by simp [hv])]; rfl
  rw [e, List.map_map]
  rfl

/-- **C87** is false for other strings: a pattern with a null character or a surrogate is refused,
whatever the rest of it and the options are. -/
theorem pattern_text_refused {env : Env} (hsh : env.Shortens) (hn : Malformed.NamesAscii env) (p : PatternOpts)
    {s : List Nat} (hs : ∀ u ∈ s, u < 0x10000) {u : Nat} (hu : u ∈ s) (hp : ¬ Plain u) :
    ∃ e, parsePattern env p s = .error e := by
  cases h : parsePattern env p s with
  | error e => exact ⟨e, rfl⟩
  | ok r =>
    exfalso
    unfold parsePattern Text.parseText at h
    rw [pattern_seen hs] at h
    have hr := Malformed.accepted_readable hsh hn h
    have hlt := hs u hu
    have hm : none ∈ seen u := by
      unfold Plain at hp
      unfold seen
      split
      · simp
      · rw [if_pos (by omega)]; simp
    have := hr (-1) (List.mem_map.2 ⟨none, List.mem_flatMap.2 ⟨u, hu, hm⟩, rfl⟩)
    omega

/-- **C87** A pattern with a character outside the basic plane, such as an emoji, cannot be given
as a Java string: it is refused, whatever the rest of it and the options are. -/
theorem supplementary_refused {env : Env} (hsh : env.Shortens) (hn : Malformed.NamesAscii env) (p : PatternOpts)
    {cs : List Nat} (hs : ∀ c ∈ cs, Scalar c) {c : Nat} (hc : c ∈ cs) (hbig : 0x10000 ≤ c) :
    ∃ e, parsePattern env p (cs.flatMap units) = .error e := by
  refine pattern_text_refused hsh hn p (u := 0xD800 + (c - 0x10000) / 1024) ?_ ?_ ?_
  · intro u hu
    obtain ⟨d, hd, hu⟩ := List.mem_flatMap.1 hu
    have := hs d hd
    unfold Scalar at this
    unfold units at hu
    split at hu
    · simp at hu; omega
    · simp at hu; omega
  · refine List.mem_flatMap.2 ⟨c, hc, ?_⟩
    unfold units
    rw [if_neg (by omega)]
    simp
  · have := hs c hc
    unfold Scalar at this
    unfold Plain
    omega

/-- The library itself accepts the same text: `lg_parse_pattern` on the UTF-8 of U+1F600. -/
example : (∃ r, Text.parseText Parser.plain ⟨true, false, false⟩ [0xF0, 0x9F, 0x98, 0x80] = .ok r) ∧
    ∃ e, parsePattern Parser.plain ⟨true, false, false⟩ (units 0x1F600) = .error e := by
  refine ⟨?_, ?_⟩
  · have : (match Text.parseText Parser.plain ⟨true, false, false⟩ [0xF0, 0x9F, 0x98, 0x80] with
      | .ok _ => true | .error _ => false) = true := by decide +kernel
    split at this
    · next r h => exact ⟨r, h⟩
    · cases this
  · have := supplementary_refused Parser.plain_shortens Malformed.plain_namesAscii ⟨true, false, false⟩
      (cs := [0x1F600]) (by simp [Scalar]) (c := 0x1F600) (by simp) (by omega)
    simpa using this

/-! ## Back to Java -/

theorem modified_prefix {u v : Nat} (hu : u < 0x10000) (hv : v < 0x10000) {a b : List Nat}
    (h : modified u ++ a = modified v ++ b) : u = v ∧ a = b := by
  unfold modified at h
  split at h <;> split at h <;> try split at h
  all_goals try split at h
  all_goals try split at h
  all_goals try split at h
  all_goals simp only [List.cons_append, List.nil_append, List.cons.injEq] at h
  all_goals first
    | (obtain ⟨h1, h2⟩ := h; constructor <;> first | omega | assumption)
    | (obtain ⟨h1, h2, h3⟩ := h; constructor <;> first | omega | assumption)
    | (obtain ⟨h1, h2, h3, h4⟩ := h; constructor <;> first | omega | assumption)
    | (exfalso; omega)

theorem modified_ne_nil (u : Nat) : modified u ≠ [] := by
  unfold modified
  split
  · simp
  split
  · simp
  split <;> simp

/-- There is at most one Java string for given bytes. -/
theorem newString_unique {bytes s t : List Nat} (hs : NewString bytes s) (ht : NewString bytes t) : s = t := by
  obtain ⟨hs, es⟩ := hs
  obtain ⟨ht, et⟩ := ht
  have e := es.trans et.symm
  clear es et
  induction s generalizing t with
  | nil =>
    cases t with
    | nil => rfl
    | cons v t => exact absurd (List.append_eq_nil_iff.1 ((List.flatMap_cons ..).symm.trans e.symm)).1 (modified_ne_nil v)
  | cons u s ih =>
    cases t with
    | nil => exact absurd (List.append_eq_nil_iff.1 ((List.flatMap_cons ..).symm.trans e)).1 (modified_ne_nil u)
    | cons v t =>
      have e' : modified u ++ utfChars s = modified v ++ utfChars t :=
        (List.flatMap_cons ..).symm.trans (e.trans (List.flatMap_cons ..))
      obtain ⟨rfl, e''⟩ := modified_prefix (hs u (by simp)) (ht v (by simp)) e'
      rw [ih (t := t) (fun x hx => hs x (List.mem_cons_of_mem _ hx)) (fun x hx => ht x (List.mem_cons_of_mem _ hx)) e'']

theorem utfChars_plain {cs : List Nat} (hc : ∀ c ∈ cs, Plain c) : utfChars cs = cs.flatMap spec8 := by
  induction cs with
  | nil => rfl
  | cons c cs ih =>
    rw [utfChars, List.flatMap_cons, List.flatMap_cons, modified_plain (hc c (by simp)),
      ← ih fun d hd => hc d (by simp [hd])]
    rfl

/-- **C87** A text of characters of the basic plane, none of them null, that the library hands to
Java arrives as exactly those characters; the terminating null and what is behind it do not
matter. -/
theorem text_to_java_partial {cs : List Nat} (hc : ∀ c ∈ cs, Plain c) (rest : List Nat) :
    NewString (cs.flatMap spec8 ++ 0 :: rest) cs := by
  have h : ∀ u ∈ cs, u < 0x10000 := fun u hu => by have := hc u hu; unfold Plain at this; omega
  refine ⟨h, ?_⟩
  have hb := utfChars_bytes h
  rw [utfChars_plain hc] at hb ⊢
  unfold cString
  rw [List.takeWhile_append_of_pos fun b hb' => by have := (hb b hb').1; simp; omega, List.takeWhile_cons]
  simp

/-- **C87** The text of a hit context arrives in Java as the characters shown, if they are all in
the basic plane. -/
theorem context_to_java_partial (c : Decoders.Charset) (ts : List Transforms.ByteT) (ht : ∀ t ∈ ts, t.Valid)
    (buf : List Nat) (hb : Bytes buf) (st : (Decoders.chain [] c ts).State)
    (dataOffset hbeg hend size repl : Nat) (h1 : hbeg ≤ hend) (h2 : hend ≤ buf.length)
    (hr : Scalar repl) (hr0 : 0 < repl) :
    let w := window buf (chain [] c ts) st hbeg hend size size
    let r := hitContext buf (chain [] c ts) st dataOffset hbeg hend size repl
    let shown := w.cps.dropLast.map (shownAs repl)
    (∀ x ∈ shown, Plain x) → NewString r.utf8 shown := by
  intro w r shown hp
  have h := (hit_context_text c ts ht buf hb st dataOffset hbeg hend size repl h1 h2 hr hr0).1
  have h : r.utf8 = shown.flatMap spec8 ++ [0] := h
  rw [h]
  exact text_to_java_partial hp []

theorem spec8_length (c : Nat) : (spec8 c).length = if c < 0x80 then 1 else if c < 0x800 then 2 else if c < 0x10000 then 3 else 4 := by
  unfold spec8
  split
  · rfl
  split
  · rfl
  split <;> rfl

theorem utf8_longer (cs : List Nat) : cs.length ≤ (cs.flatMap spec8).length ∧
    ((cs.flatMap spec8).length = cs.length ↔ ∀ c ∈ cs, c < 0x80) := by
  induction cs with
  | nil => simp
  | cons c cs ih =>
    rw [List.flatMap_cons, List.length_append, List.length_cons, spec8_length]
    simp only [List.mem_cons, forall_eq_or_imp]
    obtain ⟨i1, i2⟩ := ih
    split
    · next h => exact ⟨by omega, ⟨fun h' => ⟨h, i2.1 (by omega)⟩, fun h' => by have := i2.2 h'.2; omega⟩⟩
    · next h =>
      refine ⟨by split <;> (try split) <;> omega, fun h' => ?_, fun h' => absurd h'.1 h⟩
      exfalso
      split at h'
      · omega
      · split at h' <;> omega

/-- **C87** The positions of the hit in the text, `HitBegin` and `HitEnd`, are positions in the Java
string exactly if what is shown before them is ASCII; otherwise they are too large, since they
count the bytes of the UTF-8. -/
theorem context_positions (c : Decoders.Charset) (ts : List Transforms.ByteT) (ht : ∀ t ∈ ts, t.Valid)
    (buf : List Nat) (hb : Bytes buf) (st : (Decoders.chain [] c ts).State)
    (dataOffset hbeg hend size repl : Nat) (h1 : hbeg ≤ hend) (h2 : hend ≤ buf.length)
    (hr : Scalar repl) (hr0 : 0 < repl) :
    let w := window buf (chain [] c ts) st hbeg hend size size
    let r := hitContext buf (chain [] c ts) st dataOffset hbeg hend size repl
    let shown := w.cps.dropLast.map (shownAs repl)
    ((shown.take w.hitBegin).length ≤ r.hit.1 ∧
      (r.hit.1 = (shown.take w.hitBegin).length ↔ ∀ x ∈ shown.take w.hitBegin, x < 0x80)) ∧
    ((shown.take w.hitEnd).length ≤ r.hit.2 ∧
      (r.hit.2 = (shown.take w.hitEnd).length ↔ ∀ x ∈ shown.take w.hitEnd, x < 0x80)) := by
  intro w r shown
  have h := hit_context_text c ts ht buf hb st dataOffset hbeg hend size repl h1 h2 hr hr0
  have e1 : r.hit.1 = ((shown.take w.hitBegin).flatMap spec8).length := h.2.2.2.1
  have e2 : r.hit.2 = ((shown.take w.hitEnd).flatMap spec8).length := h.2.2.2.2.1
  rw [e1, e2]
  exact ⟨utf8_longer _, utf8_longer _⟩

/-- "éa" with the hit on the `a`: the Java string has two units, and the hit is said to be from 2
to 3, which is outside the string. -/
example :
    let r := hitContext [0xC3, 0xA9, 0x61] (chain [] .utf8 []) (Decoders.Shape.init _) 0 2 3 1 0xFFFD
    NewString r.utf8 [0xE9, 0x61] ∧ r.hit = (2, 3) := by
  intro r
  have h : r.utf8 = [0xC3, 0xA9, 0x61, 0] ∧ r.hit = (2, 3) := by decide +kernel
  rw [h.1]
  exact ⟨⟨by simp, by decide⟩, h.2⟩

/-- The bytes of a character outside the basic plane have a first byte that modified UTF-8 does
not use. -/
theorem modified_small {u : Nat} (h : u < 0x10000) : ∀ b ∈ modified u, b < 0xF0 := by
  unfold modified
  split
  · decide
  split
  · simp; omega
  split
  · simp; omega
  · simp; omega

/-- **C87** is false for a text with a character outside the basic plane: its bytes are not the
modified UTF-8 of any Java string, so that JNI leaves open what arrives. -/
theorem supplementary_to_java {cs : List Nat} (h0 : ∀ c ∈ cs, 1 ≤ c ∧ Scalar c) {c : Nat} (hc : c ∈ cs)
    (hbig : 0x10000 ≤ c) (rest : List Nat) (s : List Nat) : ¬ NewString (cs.flatMap spec8 ++ 0 :: rest) s := by
  rintro ⟨hs, e⟩
  have hm : 0xF0 + c / 262144 ∈ utfChars s := by
    rw [e, cString, List.takeWhile_append_of_pos]
    · refine List.mem_append_left _ (List.mem_flatMap.2 ⟨c, hc, ?_⟩)
      unfold spec8
      rw [if_neg (by omega), if_neg (by omega), if_neg (by omega)]
      simp
    · intro b hb
      obtain ⟨d, hd, hb⟩ := List.mem_flatMap.1 hb
      have := h0 d hd
      unfold spec8 at hb
      simp only [ne_eq, decide_eq_true_eq]
      split at hb
      · simp at hb; omega
      split at hb
      · simp at hb; omega
      split at hb <;> simp at hb <;> omega
  obtain ⟨u, hu, hb⟩ := List.mem_flatMap.1 hm
  have := modified_small (hs u hu) _ hb
  omega

end Verif.JavaText
