import Verif.Props.AnyOf
/-!
# C78: texts whose automata stay in order

`Stays` is a condition on the automaton.  Here are two conditions on the text.
-/
namespace Verif.Session
open Verif.Encoders Verif.Chain Verif.Nfa Verif.NfaBuilder Verif.Fsm Verif.Subset
open Verif.Regex (Tree lang NoLook NoBlank NgFlat AllLeaves preferred UNB)
open Verif.Parser (Env)

/-! ## Specification -/

/-- The set of bytes that what the leaf stands for can begin with. -/
def begins (enc : Nat → List Nat) (n : Node) : List (Set UInt8) := [{b | ∃ w, b :: w ∈ textSem enc n}]

/-- A character or byte, or a class of characters that are encoded as one byte. -/
def Narrow (enc : Nat → List Nat) (n : Node) : Prop :=
  (∃ c, n = .lit c) ∨ (∃ b, n = .byte b) ∨ ∀ w ∈ textSem enc n, w.length = 1

/-- Characters and classes, one after the other, perhaps repeated a fixed number of times. -/
def Strand : Tree Node → Prop
  | .leaf _ => True
  | .cat l r => Strand l ∧ Strand r
  | .rep _ m M t => m = M ∧ Strand t
  | _ => False

/-- Alternatives of such, perhaps after such. -/
def Strands : Tree Node → Prop
  | .leaf _ => True
  | .cat l r => Strand l ∧ Strands r
  | .alt l r => Strands l ∧ Strands r
  | .rep _ m M t => m = M ∧ Strand t
  | .look _ _ => False

/-! ## One byte, one set -/

theorem breakout_one {encs es : List (List BSet)} {brk : BSet} {additive : Bool} (hok : LeafOk (.cls encs brk additive))
    (h : breakout encs brk additive = some es) (h1 : ∀ e ∈ es, e.length = 1) : ∃ s, es = [[s]] := by
  obtain ⟨-, h2, -⟩ := hok
  have nil : ∀ {xs : List (List BSet)}, (∀ e ∈ xs, e.length ≠ 1) → (∀ e ∈ xs, e.length = 1) → xs = [] := by
    intro xs a b
    cases xs with
    | nil => rfl
    | cons x xs => exact absurd (b x (by simp)) (a x (by simp))
  unfold breakout at h
  cases encs with
  | nil =>
    simp only at h
    split at h
    · cases h
    · cases h; exact ⟨brk, rfl⟩
  | cons e rest =>
    replace h2 : ∀ e ∈ rest, e.length ≠ 1 := h2
    simp only at h
    split at h
    · cases h
      obtain ⟨s, rfl⟩ := List.length_eq_one_iff.1 (h1 e (by simp))
      exact ⟨s, by rw [nil (xs := rest) h2 fun x hx => h1 x (by simp [hx])]⟩
    · split at h
      · split at h
        · next s =>
          cases h
          exact ⟨s ||| brk, by rw [nil (xs := rest) h2 fun x hx => h1 x (by simp [hx])]⟩
        · next hne =>
          cases h
          obtain ⟨s, rfl⟩ := List.length_eq_one_iff.1 (h1 e (by simp))
          exact absurd rfl (hne s)
      · split at h
        · next s =>
          split at h
          · split at h
            · cases h
            · next hne =>
              cases h
              exact absurd (nil h2 h1) hne
          · cases h
            exact ⟨_, by rw [nil (xs := rest) h2 fun x hx => h1 x (by simp [hx])]⟩
        · next hne =>
          cases h
          obtain ⟨s, rfl⟩ := List.length_eq_one_iff.1 (h1 e (by simp))
          exact absurd rfl (hne s)

/-- What the leaf `a` that was made of `n` begins with. -/
def Begun (enc : Nat → List Nat) (n : Node) (a : Leaf) : Prop :=
  begins enc n = (first a).map fun s => {b | s.has b = true}

theorem begun_lit {enc : Nat → List Nat} {n : Node} {bs : List UInt8} (h : textSem enc n = leafSem (.lit bs)) (hne : bs ≠ []) :
    Begun enc n (.lit bs) := by
  obtain ⟨b, bs, rfl⟩ := List.exists_cons_of_ne_nil hne
  unfold Begun begins
  rw [h]
  show _ = [{c | (BSet.single b).has c = true}]
  congr 1
  ext c
  simp only [Set.mem_ofPred_eq, has_single]
  constructor
  · rintro ⟨w, hw⟩; cases (show c :: w = b :: bs from hw); rfl
  · rintro rfl; exact ⟨bs, rfl⟩

theorem narrow_cls {enc : Nat → List Nat} {n : Node} {encs : List (List BSet)} {brk : BSet} {additive : Bool}
    (h : textSem enc n = leafSem (.cls encs brk additive)) (hok : LeafOk (.cls encs brk additive))
    (hm : Makes (.cls encs brk additive)) (h1 : ∀ w ∈ textSem enc n, w.length = 1) :
    ∃ s, breakout encs brk additive = some [[s]] := by
  obtain ⟨es, hes⟩ := Option.ne_none_iff_exists'.1 (show breakout encs brk additive ≠ none from hm)
  obtain ⟨-, b2⟩ := breakout_spec hok hes
  obtain ⟨-, b3⟩ := breakout_full hok hes
  obtain ⟨s, rfl⟩ := breakout_one hok hes (by
    intro e he
    obtain ⟨w, hw⟩ := fits_some (b3 e he).2
    rw [fits_length hw]
    exact h1 w (by rw [h]; exact (b2 w).2 ⟨e, he, hw⟩))
  exact ⟨s, hes⟩

theorem begun_cls {enc : Nat → List Nat} {n : Node} {encs : List (List BSet)} {brk : BSet} {additive : Bool}
    (h : textSem enc n = leafSem (.cls encs brk additive)) (hok : LeafOk (.cls encs brk additive)) {s : BSet}
    (hs : breakout encs brk additive = some [[s]]) : Begun enc n (.cls encs brk additive) := by
  obtain ⟨-, b2⟩ := breakout_spec hok hs
  unfold Begun begins
  have e : first (.cls encs brk additive) = [s] := by simp [first, hs]
  rw [h, e]
  show _ = [{c | s.has c = true}]
  congr 1
  ext c
  simp only [Set.mem_ofPred_eq, b2, List.mem_singleton, exists_eq_left, fits_single]
  constructor
  · rintro ⟨w, b, hb, e⟩; cases e; exact hb
  · intro hc; exact ⟨[], c, hc, rfl⟩

/-! ## The tree that is handed over -/

/-- The same tree with leaves that are related. -/
inductive Alike (R : Node → Leaf → Prop) : Tree Node → Tree Leaf → Prop
  | leaf {n a} : R n a → Alike R (.leaf n) (.leaf a)
  | alt {l r l' r'} : Alike R l l' → Alike R r r' → Alike R (.alt l r) (.alt l' r')
  | cat {l r l' r'} : Alike R l l' → Alike R r r' → Alike R (.cat l r) (.cat l' r')
  | rep {ng m M t t'} : Alike R t t' → Alike R (.rep ng m M t) (.rep ng m M t')
  | look {k t t'} : Alike R t t' → Alike R (.look k t) (.look k t')

theorem narrow_alike {e : Encoder} (hok : e.Ok) : ∀ (t : Tree Node) {c c' : Cache} {t' : Tree Leaf}, e.CacheOk c →
    AllLeaves Node.Ok t → AllLeaves e.Writable t → e.leaves c t = some (c', t') → AllLeaves LeafOk t' → AllLeaves Makes t' →
    AllLeaves (Narrow e.spec) t → e.CacheOk c' ∧ Alike (fun n a => Begun e.spec n a ∧ OneLine a) t t' := by
  intro t
  induction t with
  | leaf n =>
    intro c c' t' hc hn hw h hl hm ha
    obtain ⟨c1, l, h1, h2, h3, -⟩ := leaf_exact hok hc hn
    simp only [Encoder.leaves, h1, Option.map_some, Option.some.injEq, Prod.mk.injEq] at h
    obtain ⟨rfl, rfl⟩ := h
    have hsem : textSem e.spec n = leafSem l := (lang_textSem hok (t := .leaf n) hw).trans h3.symm
    refine ⟨h2, .leaf ?_⟩
    cases l with
    | lit bs => exact ⟨begun_lit hsem hl, trivial⟩
    | cls encs brk additive =>
      have h1 : ∀ w ∈ textSem e.spec n, w.length = 1 := by
        rcases ha with ⟨x, rfl⟩ | ⟨b, rfl⟩ | h
        · simp [Encoder.leaf] at h1
        · simp [Encoder.leaf] at h1
        · exact h
      obtain ⟨s, hs⟩ := narrow_cls hsem hl hm h1
      exact ⟨begun_cls hsem hl hs, ⟨s, hs⟩⟩
  | alt l r ihl ihr =>
    intro c c' t' hc hn hw h hl hm ha
    simp only [Encoder.leaves, Option.bind_eq_bind, Option.bind_eq_some_iff, Option.some.injEq, Prod.mk.injEq] at h
    obtain ⟨a, h1, b, h2, rfl, rfl⟩ := h
    obtain ⟨a1, a2⟩ := ihl hc hn.1 hw.1 h1 hl.1 hm.1 ha.1
    obtain ⟨b1, b2⟩ := ihr a1 hn.2 hw.2 h2 hl.2 hm.2 ha.2
    exact ⟨b1, .alt a2 b2⟩
  | cat l r ihl ihr =>
    intro c c' t' hc hn hw h hl hm ha
    simp only [Encoder.leaves, Option.bind_eq_bind, Option.bind_eq_some_iff, Option.some.injEq, Prod.mk.injEq] at h
    obtain ⟨a, h1, b, h2, rfl, rfl⟩ := h
    obtain ⟨a1, a2⟩ := ihl hc hn.1 hw.1 h1 hl.1 hm.1 ha.1
    obtain ⟨b1, b2⟩ := ihr a1 hn.2 hw.2 h2 hl.2 hm.2 ha.2
    exact ⟨b1, .cat a2 b2⟩
  | rep ng m M t ih =>
    intro c c' t' hc hn hw h hl hm ha
    simp only [Encoder.leaves, Option.bind_eq_bind, Option.bind_eq_some_iff, Option.some.injEq, Prod.mk.injEq] at h
    obtain ⟨a, h1, rfl, rfl⟩ := h
    obtain ⟨a1, a2⟩ := ih hc hn hw h1 hl hm ha
    exact ⟨a1, .rep a2⟩
  | look k t ih =>
    intro c c' t' hc hn hw h hl hm ha
    simp only [Encoder.leaves, Option.bind_eq_bind, Option.bind_eq_some_iff, Option.some.injEq, Prod.mk.injEq] at h
    obtain ⟨a, h1, rfl, rfl⟩ := h
    obtain ⟨a1, a2⟩ := ih hc hn hw h1 hl hm ha
    exact ⟨a1, .look a2⟩

variable {R : Node → Leaf → Prop} {β γ : Type} {f : Node → List γ} {f' : Leaf → List β} {φ : β → γ}

theorem alike_nullable {t : Tree Node} {t' : Tree Leaf} (h : Alike R t t') : nullable t = nullable t' := by
  induction h with
  | leaf _ => rfl
  | alt _ _ a b => simp only [nullable, a, b]
  | cat _ _ a b => simp only [nullable, a, b]
  | rep _ a => simp only [nullable, a]
  | look _ _ => rfl

theorem alike_heads (hR : ∀ n a, R n a → f n = (f' a).map φ) {t : Tree Node} {t' : Tree Leaf} (h : Alike R t t') :
    heads f t = (heads f' t').map φ := by
  induction h with
  | leaf h => exact hR _ _ h
  | alt _ _ a b => simp only [heads, a, b, List.map_append]
  | cat hl _ a b =>
    simp only [heads, a, b, List.map_append, alike_nullable hl]
    split <;> simp
  | rep _ a => simp only [heads, a]
  | look _ _ => rfl

theorem alike_again (hR : ∀ n a, R n a → f n = (f' a).map φ) {t : Tree Node} {t' : Tree Leaf} (h : Alike R t t') :
    again f t = (again f' t').map φ := by
  induction h with
  | leaf h => rfl
  | alt _ _ a b => simp only [again, a, b, List.map_append]
  | cat hl hr a b =>
    simp only [again, a, b, List.map_append, alike_nullable hr, alike_heads hR hr]
    split <;> simp
  | rep h a =>
    simp only [again, a, List.map_append, alike_heads hR h]
    split <;> simp
  | look _ _ => rfl

theorem alike_clear (hR : ∀ n a, R n a → f n = (f' a).map φ) {t : Tree Node} {t' : Tree Leaf} (h : Alike R t t') :
    Clear f t → Clear f' t' := by
  have apart : ∀ {xs ys : List β}, (∀ s ∈ xs.map φ, s ∉ ys.map φ) → ∀ s ∈ xs, s ∉ ys := fun h s hs hs' =>
    h (φ s) (List.mem_map_of_mem hs) (List.mem_map_of_mem hs')
  induction h with
  | @leaf n a h =>
    intro hc
    have hc : (f n).Nodup := hc
    rw [hR _ _ h] at hc
    exact hc.of_map
  | alt hl hr a b =>
    rintro ⟨h1, h2, h3⟩
    rw [alike_heads hR hl, alike_heads hR hr] at h3
    exact ⟨a h1, b h2, apart h3⟩
  | cat hl hr a b =>
    rintro ⟨h1, h2, h3, h4⟩
    rw [alike_heads hR hr] at h3 h4
    rw [alike_again hR hl] at h3
    rw [alike_heads hR hl, alike_nullable hl] at h4
    exact ⟨a h1, b h2, apart h3, fun hn => apart (h4 hn)⟩
  | rep h a =>
    rintro ⟨h1, h2, h3⟩
    rw [alike_heads hR h, alike_again hR h] at h2
    rw [alike_nullable h] at h3
    exact ⟨a h1, fun hM => apart (h2 hM), h3⟩
  | look _ _ => exact fun h => h

theorem alike_word (hR : ∀ n a, R n a → OneLine a) {t : Tree Node} {t' : Tree Leaf} (h : Alike R t t') : Strand t → Word t' := by
  induction h with
  | leaf h => exact fun _ => hR _ _ h
  | alt _ _ _ _ => exact fun h => h.elim
  | cat _ _ a b => exact fun h => ⟨a h.1, b h.2⟩
  | rep _ a => exact fun h => ⟨h.1, a h.2⟩
  | look _ _ => exact fun h => h.elim

theorem alike_words (hR : ∀ n a, R n a → OneLine a) {t : Tree Node} {t' : Tree Leaf} (h : Alike R t t') : Strands t → Words t' := by
  induction h with
  | leaf h => exact fun _ => hR _ _ h
  | alt _ _ a b => exact fun h => ⟨a h.1, b h.2⟩
  | cat hl _ _ b => exact fun h => ⟨alike_word hR hl h.1, b h.2⟩
  | rep hl _ => exact fun h => ⟨h.1, alike_word hR hl h.2⟩
  | look _ _ => exact fun h => h.elim

/-! ## The theorem -/

/-- **C78** with conditions on the text only: what is not one character is a class of characters encoded as
one byte each, and in the rewritten text either, wherever there is a choice of what to read next, the alternatives
begin with different sets of bytes, or there are only alternatives of sequences. -/
theorem clear_text_backtrack_partial [Build] {env : Env} (he : env.Sound) {rs : List Request} {os : List (Option Nat)} {g : Graph}
    {P : Vm.Program} (h : Compiled env rs os g P) (hu : ¬ Pumped env rs os)
    {fuel : Nat} {first : List Vm.Thread} {σ₀ : Vm.St} (hnew : Vm.create P fuel = .ok (first, σ₀))
    {off : Nat} {bufs : List (List UInt8)} {res : List (Option Nat)} {σ : Vm.St}
    (hrun : Vm.run P first fuel (Vm.searches off bufs) σ₀ = .ok (res, σ)) {i l : Nat} {r : Request}
    (hr : rs[i]? = some r) (ho : os[i]? = some (some l)) {t : Tree Node} {j : Nat}
    (hpt : Text.parseText env r.opts r.expr = .ok (t, j)) {k : Coding} {ts : List Transforms.ByteT}
    (hrd : Reads r.chain k ts) (hb : Plain (charBytes k ts) t) (hn : AllLeaves (Narrow (charBytes k ts)) t)
    (hc : ∀ u, Regex.reduce (.lit 120) true true t = some (some u) → Clear (begins (charBytes k ts)) u ∨ Strands u) :
    Reports (preferred (textRests (charBytes k ts)) t) off bufs.flatten 0 (Vm.hitsOf l σ.log) := by
  refine accepted_backtrack he h (unpumped_noZero he h hu) hnew hrun hr ho hpt hrd hb fun t' ha fuel => ?_
  have hmod := h.modest r (List.mem_of_getElem? hr)
  obtain ⟨e, c, c', u, heo, hco, hsp, hu', hl, hok⟩ := accepted_reduced he hmod ha hpt hrd
  have hw : AllLeaves e.Writable u := leaves_lits u hl (build_lits ha.takes.1)
  obtain ⟨hok', hlv⟩ := parseText_ok he hpt
  obtain ⟨-, -, -, hnu⟩ := Regex.reduce_sane (Narrow (charBytes k ts)) (.lit 120) (.inl ⟨_, rfl⟩) hok' (hmod.1 t j hpt) hn hu'
  rw [← hsp] at hnu hc
  obtain ⟨-, hal⟩ := narrow_alike heo u hco hok hw hl ha.sane.leaves ((build_threw ha.sane.noLook).1 ha.takes.1) hnu
  rcases hc u hu' with hc | hc
  · exact clear_stays ha.sane.ok ha.sane.noLook ha.sane.noDead ha.sane.leaves (alike_clear (fun n a h => h.1) hal hc) fuel l
  · exact words_stays ha.sane.noLook ha.sane.leaves (alike_words (fun n a h => h.2) hal hc) fuel l

/-! ## Example -/

section Example
attribute [local instance] Build.plain

/-- The tree of `[0-9]+x`. -/
def digitsTree : Tree Node := .cat (.rep false 1 UNB (.leaf (.cls [48, 58] 0 true))) (.leaf (.lit 0x78))

theorem digits_parsed : ∃ j, Text.parseText Parser.plain (⟨false, false, false⟩) (name "[0-9]+x") = .ok (digitsTree, j) :=
  parsesTo_iff (r := ⟨name "[0-9]+x", ⟨false, false, false⟩, name "ASCII"⟩) (by decide +kernel)

theorem digits_reduced : Regex.reduce (.lit 120) true true digitsTree = some (some digitsTree) := by decide +kernel

/-- `[0-9]+x` in ASCII is such a text. -/
example : Plain (charBytes (.std .ascii) []) digitsTree ∧ AllLeaves (Narrow (charBytes (.std .ascii) [])) digitsTree ∧
    ∀ u, Regex.reduce (.lit 120) true true digitsTree = some (some u) → Clear (begins (charBytes (.std .ascii) [])) u := by
  have n1 : ∀ n, [] ∉ textSem (charBytes (.std .ascii) []) n := fun n => textSem_nonempty _ _
  refine ⟨⟨?_, ?_, ?_, ⟨digitsTree, ?_⟩, ?_⟩, ⟨?_, ?_⟩, ?_⟩
  · refine ⟨fun b => ?_, trivial⟩
    simp [BSet.has]
  · simp [digitsTree, NgFlat, Regex.NoNg]
  · simp [digitsTree, NoBlank, Regex.Blank, UNB]
  · decide +kernel
  · intro u hu
    rw [digits_reduced] at hu
    cases hu
    exact ⟨⟨⟨trivial, fun _ _ h => absurd h (n1 _)⟩, trivial⟩, trivial, fun h => absurd h (n1 _)⟩
  · refine .inr (.inr ?_)
    rintro w (⟨c, -, h2, rfl⟩ | ⟨b, h, -⟩)
    · simp only [charBytes, Coding.spec, Decoders.Charset.spec] at h2 ⊢
      split at h2
      · next h => simp [h, toBytes]
      · simp at h2
    · simp [BSet.has] at h
  · exact .inl ⟨_, rfl⟩
  · intro u hu
    rw [digits_reduced] at hu
    cases hu
    refine ⟨⟨List.nodup_singleton _, fun _ _ h => (List.not_mem_nil h).elim, fun h => by cases h⟩, List.nodup_singleton _, ?_,
      fun h => by cases h⟩
    intro s hs hx
    have hs : s ∈ begins (charBytes (.std .ascii) []) (.cls [48, 58] 0 true) := hs
    have hx : s ∈ begins (charBytes (.std .ascii) []) (.lit 0x78) := hx
    simp only [begins, List.mem_singleton] at hs hx
    have h0 : (48 : UInt8) ∈ s := by
      rw [hs]
      exact ⟨[], .inl ⟨48, by decide, by decide, by decide⟩⟩
    rw [hx] at h0
    obtain ⟨w, h⟩ := h0
    rw [ascii_lit (by decide)] at h
    have h : (48 : UInt8) :: w = [0x78] := h
    cases h

end Example

end Verif.Session
