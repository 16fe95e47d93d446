import Verif.Props.JavaText
import Verif.Props.Window
import Verif.Props.Utf
/-!
# C93: hit contexts in Python
-/
namespace Verif.Python
open Verif.Utf (Scalar spec8 Bytes patternText)
open Verif.Decoders (Charset chain window hitContext shownAs hit_context_text)
open Verif.Transforms (ByteT)

/-- What `out.value.decode('utf-8')` gives, pylightgrep/lightgrep/__init__.py:484: `value` stops at the first null, and
`decode` is defined exactly on the well-formed UTF-8. -/
def Decodes (out : List Nat) (s : List Nat) : Prop := (∀ c ∈ s, Scalar c) ∧ out.takeWhile (· ≠ 0) = s.flatMap spec8

theorem enc8 {s : List Nat} (h : ∀ c ∈ s, Scalar c) : s.flatMap (fun c : Nat => Utf.cpToUtf8 c) = s.flatMap spec8 := by
  induction s with
  | nil => rfl
  | cons c s ih =>
    rw [List.flatMap_cons, List.flatMap_cons, ih fun d hd => h d (by simp [hd]), Utf.cpToUtf8_spec,
      if_pos ⟨by omega, by simpa using h c (by simp)⟩]
    simp

theorem spec8_inj {s t : List Nat} (hs : ∀ c ∈ s, Scalar c) (ht : ∀ c ∈ t, Scalar c) (h : s.flatMap spec8 = t.flatMap spec8) : s = t := by
  have h1 := Utf.patternText_decodes s hs
  have h2 := Utf.patternText_decodes t ht
  rw [enc8 hs, h] at h1
  rw [enc8 ht, h1] at h2
  injection h2 with h2
  exact (List.map_inj_right (fun a b e => by injection e)).1 h2

/-- **C93** `hit_context` of the result is the text of the characters shown, for every charset, chain
and data, including characters outside the basic plane; it never fails to decode. -/
theorem context_to_python (c : Charset) (ts : List ByteT) (ht : ∀ t ∈ ts, t.Valid)
    (buf : List Nat) (hb : Bytes buf) (st : (chain [] c ts).State)
    (dataOffset hbeg hend size : Nat) (h1 : hbeg ≤ hend) (h2 : hend ≤ buf.length) (s : List Nat) :
    let w := window buf (chain [] c ts) st hbeg hend size size
    let r := hitContext buf (chain [] c ts) st dataOffset hbeg hend size 32
    Decodes r.utf8 s ↔ s = w.cps.dropLast.map (shownAs 32) := by
  intro w r
  have h := hit_context_text c ts ht buf hb st dataOffset hbeg hend size 32 h1 h2 (by unfold Scalar; omega) (by omega)
  have e1 : r.utf8 = (w.cps.dropLast.map (shownAs 32)).flatMap spec8 ++ [0] := h.1
  have e2 : ∀ b ∈ (w.cps.dropLast.map (shownAs 32)).flatMap spec8, b ≠ 0 := h.2.1
  have hsc : ∀ c ∈ w.cps.dropLast.map (shownAs 32), Scalar c := by
    obtain ⟨l, ctx, pad, pre, hit, post, rest, a1, -, -, a4, -, -, -, -, a9, a10, a11, -⟩ :=
      Decoders.window_decodes_partial c ts ht buf hb st hbeg hend size size h1 h2
    intro y hy
    obtain ⟨x, hx, rfl⟩ := List.mem_map.1 hy
    rw [show w.cps = _ from a1, List.dropLast_concat, List.append_assoc] at hx
    unfold shownAs
    split
    · next h0 =>
      rcases List.mem_append.1 hx with hx | hx
      · rcases List.mem_append.1 (a11.subset hx) with h | h
        · rw [a10] at h
          have := Decoders.rawErrors_neg x h
          omega
        · exact Decoders.decoded_scalar a9 x h (by omega)
      · exact Decoders.decoded_scalar a4 x (by
          rcases List.mem_append.1 hx with h | h <;> simp [h]) (by omega)
    · unfold Scalar; omega
  generalize w.cps.dropLast.map (shownAs 32) = shown at e1 e2 hsc ⊢
  have hcut : r.utf8.takeWhile (· ≠ 0) = shown.flatMap spec8 := by
    rw [e1, List.takeWhile_append_of_pos fun b hb' => by simpa using e2 b hb', List.takeWhile_cons]
    simp
  constructor
  · rintro ⟨a1, a2⟩
    rw [hcut] at a2
    exact spec8_inj a1 hsc a2.symm
  · rintro rfl
    exact ⟨hsc, hcut⟩

/-- "é😀a" with the hit on the `a`: Python's string has three characters, and the hit is said to be from 6 to
7. -/
example :
    let r := hitContext [0xC3, 0xA9, 0xF0, 0x9F, 0x98, 0x80, 0x61] (chain [] .utf8 []) (Decoders.Shape.init _) 0 6 7 2 32
    Decodes r.utf8 [0xE9, 0x1F600, 0x61] ∧ r.hit = (6, 7) := by
  refine ⟨⟨?_, ?_⟩, ?_⟩
  · intro c hc
    simp only [List.mem_cons, List.not_mem_nil, or_false] at hc
    unfold Scalar
    omega
  · decide +kernel
  · decide +kernel

end Verif.Python
