import Verif.Props.UnparseClass
import Verif.Props.Backtrack
/-!
# A pattern that is written from its tree is read back as the same pattern (C108)
-/
namespace Verif.Unparse

open Verif.Regex (Tree UNB lang rests)
open Verif.Encoders (Node)
open Verif.RangeSet (WF has)
open Verif.Parser (Env LTok Tok Re CC Opts StartsWith ccChar ccFirst ccNotFirst ccOf chars Number Lazy Quant PatternOpts)

/-! ## Specification -/

/-- `l` followed by the members of `t`, which is `((a b) c) …`. -/
def catTo (l : Tree Node) : Tree Node → Tree Node
  | .cat a b => .cat (catTo l a) b
  | t => .cat l t

/-- `l` or one of the members of `t`, which is `((a|b)|c)|…`. -/
def altTo (l : Tree Node) : Tree Node → Tree Node
  | .alt a b => .alt (altTo l a) b
  | t => .alt l t

/-- The tree with `a(bc)` and `a|(b|c)` grouped as `(ab)c` and `(a|b)|c`. -/
def regroup : Tree Node → Tree Node
  | .cat l r => catTo (regroup l) (regroup r)
  | .alt l r => altTo (regroup l) (regroup r)
  | .rep ng lo hi t => .rep ng lo hi (regroup t)
  | t => t

/-- The class can be written: it has no bytes, above the first 256 it has all code points or none, whichever fits with
how it is written, and `[` and `]` are among the listed characters only where they can be (`Legible`). -/
structure ClassWritable (cps : RangeSet.Vec) (brk : Nfa.BSet) (additive : Bool) : Prop where
  wf : WF 0x110000 cps
  noBytes : brk = 0
  add : additive = true
  high : ∀ x, 256 ≤ x → x < 0x110000 → has cps x = inverted fun i => has cps i
  legible : Legible (inverted fun i => has cps i) (listedIn fun i => has cps i)

/-- What can be written: characters below 256 other than `| ( ) ? + * . [ ^ $ {`, the dot, classes as above,
and repetitions with counts below 2³¹. -/
def Writable : Tree Node → Prop
  | .leaf (.lit c) => c < 256 ∧ c ∉ [124, 40, 41, 63, 43, 42, 46, 91, 94, 36, 123]
  | .leaf .dot => True
  | .leaf (.cls cps brk additive) => ClassWritable cps brk additive
  | .leaf (.byte _) => False
  | .alt l r => Writable l ∧ Writable r
  | .cat l r => Writable l ∧ Writable r
  | .rep _ lo hi t => lo < 2 ^ 31 ∧ (hi = UNB ∨ lo ≤ hi ∧ hi < 2 ^ 31) ∧ Writable t
  | .look _ _ => False

/-! ## Characters of classes -/

theorem lexes_char (env : Env) (N : Nat) {first e : Bool} {c : Nat} (h : CharOk first e c) (rest : List Nat)
    (hp : NoPairs ((if e then [92] else []) ++ escaped true c ++ rest)) :
    Lexes env N rest ((if e then [92] else []) ++ escaped true c)
      (fun us => ∃ u, us = [u] ∧ ccOf first u.tok = some c ∧ u.tok ≠ .sym 45) := by
  obtain ⟨h1, h2, h3, h4, h5⟩ := h
  cases e with
  | true =>
    have hk : ∃ d, c = d ∧ (d = 93 ∨ d = 94) := ⟨c, rfl, h4 rfl⟩
    have e1 : (if true = true then [92] else []) ++ escaped true c = 92 :: [c] := by
      obtain ⟨d, rfl, rfl | rfl⟩ := hk <;> decide
    rw [e1]
    refine (Lexes.one (tok := .char c) ?_).mono fun us hu => ?_
    · obtain ⟨d, rfl, rfl | rfl⟩ := hk <;> simp [Parser.lexOne, Parser.symbols, Parser.escape, Parser.metas]
    · obtain ⟨u, rfl, hu⟩ := hu
      refine ⟨u, rfl, ?_, by rw [hu]; simp⟩
      rw [hu]
      cases first <;> simp [ccOf, ccFirst, ccNotFirst, ccChar]
  | false =>
    simp only [Bool.false_eq_true, if_false, List.nil_append] at hp ⊢
    refine (lexes_escaped env N true h1 rest hp).mono fun us hu => ?_
    obtain ⟨u, rfl, hu, -⟩ := hu
    refine ⟨u, rfl, ?_⟩
    rcases hu with hu | hu | ⟨hu, hs⟩ | ⟨-, rfl, hu⟩
    · rw [hu]
      cases first <;> simp [ccOf, ccFirst, ccNotFirst, ccChar]
    · rw [hu]
      cases first <;> simp [ccOf, ccFirst, ccNotFirst, ccChar]
    · rw [hu]
      refine ⟨?_, by simp only [ne_eq, Tok.sym.injEq]; exact h3⟩
      have hs : (c : Int) ∈ Parser.symbols := by
        rcases hs with hs | hs
        · exact hs
        · exact absurd hs h3
      simp only [Parser.symbols, List.mem_cons, List.not_mem_nil, or_false] at hs
      have hs : c = 97 ∨ c = 105 ∨ c = 124 ∨ c = 40 ∨ c = 41 ∨ c = 63 ∨ c = 43 ∨ c = 42 ∨ c = 46 ∨ c = 93 ∨ c = 94 ∨ c = 36 ∨
          c = 123 ∨ c = 125 ∨ c = 44 ∨ c = 60 ∨ c = 61 ∨ c = 33 := by omega
      cases first with
      | true =>
        have h5 : c ≠ 94 := fun e => by have := h5; simp [e] at this
        rcases hs with rfl | rfl | rfl | rfl | rfl | rfl | rfl | rfl | rfl | rfl | rfl | rfl | rfl | rfl | rfl | rfl | rfl | rfl <;>
          first | rfl | exact absurd rfl h5
      | false =>
        have h5 : c ≠ 93 := fun e => by have := h5; simp [e] at this
        rcases hs with rfl | rfl | rfl | rfl | rfl | rfl | rfl | rfl | rfl | rfl | rfl | rfl | rfl | rfl | rfl | rfl | rfl | rfl <;>
          first | rfl | exact absurd rfl h5
    · rw [hu]
      cases first <;> simp [ccOf, ccFirst, ccNotFirst, ccChar]

theorem lexes_dash (env : Env) (N : Nat) {r : Nat} {rs : List Nat} (h1 : r ≠ 45) (h2 : r ≠ 93) :
    Lexes env N (r :: rs) [45] (fun us => ∃ u, us = [u] ∧ u.tok = .sym 45) := by
  apply Lexes.one
  have e1 : (r : Int) ≠ 45 := by omega
  have e2 : (r : Int) ≠ 93 := by omega
  simp [Parser.lexOne, Parser.symbols, e1, e2]

theorem end_head {b : Nat} (h45 : b ≠ 45) (rest : List Nat) :
    ∃ r rs, (if b = 93 then [92] else []) ++ escaped true b ++ rest = r :: rs ∧ r ≠ 45 ∧ r ≠ 93 := by
  by_cases h : b = 93
  · subst h
    exact ⟨92, _, rfl, by omega, by omega⟩
  · rw [if_neg h]
    unfold escaped
    repeat' split
    all_goals first
      | exact ⟨92, _, rfl, by omega, by omega⟩
      | exact ⟨b, _, rfl, h45, h⟩

theorem lexes_piece (env : Env) (N : Nat) (o : Opts) {first : Bool} {q : Piece} (h : PieceOk first q) (rest : List Nat)
    (hp : NoPairs (q.text ++ rest)) :
    Lexes env N rest q.text (fun us => (∃ op, CC env o (.atom first op) us (chars q.lo (q.hi + 1)) 1) ∧ ¬ StartsWith (.sym 45) us) := by
  cases q with
  | one e c =>
    refine (lexes_char env N h rest hp).mono fun us hu => ?_
    obtain ⟨u, rfl, h1, h2⟩ := hu
    refine ⟨⟨true, .char h1⟩, ?_⟩
    rintro ⟨x, xs, e, hx⟩
    simp only [List.cons.injEq] at e
    exact h2 (e.1 ▸ hx)
  | span e a b =>
    obtain ⟨ha, hab, hb, hb91, hb45⟩ := h
    have hbk : CharOk false (decide (b = 93)) b := ⟨hb, hb91, hb45, by simp; omega, by simp⟩
    obtain ⟨r, rs, e1, e2, e3⟩ := end_head hb45 rest
    have htext : (Piece.span e a b).text = ((if e then [92] else []) ++ escaped true a) ++
        ([45] ++ ((if b = 93 then [92] else []) ++ escaped true b)) := by simp [Piece.text]
    rw [htext] at hp ⊢
    have hA := lexes_char env N ha ([45] ++ ((if b = 93 then [92] else []) ++ escaped true b) ++ rest) (by
      simpa only [List.append_assoc] using hp)
    have hD := lexes_dash env N (rs := rs) e2 e3
    rw [← e1] at hD
    have hB := lexes_char env N hbk rest (by
      simp only [decide_eq_true_eq]
      have := hp
      simp only [List.append_assoc] at this ⊢
      exact this.right.right.right)
    simp only [decide_eq_true_eq] at hB
    refine (hA.append (hD.append hB)).mono fun us hu => ?_
    obtain ⟨p, q, rfl, ⟨x, rfl, hx, hx45⟩, p', q', rfl, ⟨y, rfl, hy⟩, ⟨z, rfl, hz, -⟩⟩ := hu
    refine ⟨⟨false, .range hx hy hz hab⟩, ?_⟩
    rintro ⟨w, ws, e, hw⟩
    simp only [List.cons_append, List.nil_append, List.cons.injEq] at e
    exact hx45 (e.1 ▸ hw)

/-! ## Classes -/

/-- The tokens are a class expression with these code points. -/
def ExprHas (env : Env) (o : Opts) (neg : Bool) (us : List LTok) (D : Nat → Prop) : Prop :=
  ∃ op k v, CC env o (.expr neg op) us ⟨v, 0, true⟩ k ∧ WF 0x110000 v ∧ ∀ x, has v x = true ↔ D x

theorem chars_spec {a b : Nat} (hab : a ≤ b) (hb : b < 256) :
    WF 0x110000 (chars a (b + 1)).cps ∧ ∀ x, has (chars a (b + 1)).cps x = true ↔ a ≤ x ∧ x ≤ b := by
  have h0 : WF 0x110000 [] := ⟨.nil, rfl, by simp⟩
  refine ⟨RangeSet.insert_wf h0 (by omega) (by omega), fun x => ?_⟩
  show has (RangeSet.insert [] a (b + 1)) x = true ↔ _
  rw [RangeSet.insert_has h0 (by omega)]
  have : has [] x = false := rfl
  rw [this]
  simp only [Bool.false_or, Bool.and_eq_true, decide_eq_true_eq]
  omega

theorem ExprHas.start {env : Env} {o : Opts} {neg op : Bool} {us : List LTok} {a b : Nat} (hab : a ≤ b) (hb : b < 256)
    (h : CC env o (.atom (!neg) op) us (chars a (b + 1)) 1) : ExprHas env o neg us (fun x => a ≤ x ∧ x ≤ b) :=
  ⟨op, 1, _, .start h, chars_spec hab hb⟩

theorem ExprHas.add {env : Env} {o : Opts} {neg op : Bool} {p us : List LTok} {D : Nat → Prop} {a b : Nat} (hab : a ≤ b)
    (hb : b < 256) (hD : ExprHas env o neg p D) (h : CC env o (.atom false op) us (chars a (b + 1)) 1)
    (hs : ¬ StartsWith (.sym 45) us) : ExprHas env o neg (p ++ us) (fun x => D x ∨ (a ≤ x ∧ x ≤ b)) := by
  obtain ⟨op', k, v, h1, h2, h3⟩ := hD
  obtain ⟨g1, g2⟩ := chars_spec hab hb
  obtain ⟨w, e1, e2, e3⟩ := RangeSet.union_spec h2 g1
  refine ⟨op, k + 1, w, .union h1 h (fun _ => hs) ?_, e2, fun x => ?_⟩
  · have hbk : (chars a (b + 1)).brk = 0 := rfl
    simp [Parser.Cls.combine, e1, hbk]
  · rw [e3, Bool.or_eq_true, h3, g2]

theorem ExprHas.congr {env : Env} {o : Opts} {neg : Bool} {us : List LTok} {D E : Nat → Prop} (h : ExprHas env o neg us D)
    (he : ∀ x, D x ↔ E x) : ExprHas env o neg us E := by
  obtain ⟨op, k, v, h1, h2, h3⟩ := h
  exact ⟨op, k, v, h1, h2, fun x => (h3 x).trans (he x)⟩

theorem lexes_pieces (env : Env) (N : Nat) (o : Opts) (neg : Bool) (rest : List Nat) : ∀ (ps : List Piece),
    (∀ q ∈ ps, PieceOk false q) → NoPairs (texts ps ++ rest) →
    Lexes env N rest (texts ps) (fun us => ∀ p D, ExprHas env o neg p D → ExprHas env o neg (p ++ us) (fun x => D x ∨ Covers ps x))
  | [], _, _ => Lexes.nil fun p D h => by
      rw [List.append_nil]
      exact h.congr fun x => by simp [Covers]
  | q :: ps, hok, hp => by
    have e : texts (q :: ps) = q.text ++ texts ps := by simp [texts]
    rw [e] at hp ⊢
    rw [List.append_assoc] at hp
    have hq := hok q (by simp)
    have h1 := lexes_piece env N o hq (texts ps ++ rest) hp
    have h2 := lexes_pieces env N o neg rest ps (fun r hr => hok r (by simp [hr])) hp.right
    refine (h1.append h2).mono fun us hu => ?_
    obtain ⟨a, b, rfl, ⟨⟨op, ha⟩, ha'⟩, hb⟩ := hu
    intro p D hD
    have := hb _ _ (hD.add hq.le.1 hq.le.2 ha ha')
    rw [List.append_assoc] at this
    refine this.congr fun x => ?_
    rw [or_assoc]
    refine or_congr_right ?_
    simp [Covers]

/-- A list of pieces in a class. -/
theorem lexes_list (env : Env) (N : Nat) (o : Opts) (inv : Bool) (rest : List Nat) {ps : List Piece} (hne : ps ≠ [])
    (hf : Fit inv ps) (hp : NoPairs (texts ps ++ rest)) :
    Lexes env N rest (texts ps) (fun us => ExprHas env o inv us (Covers ps)) := by
  cases ps with
  | nil => exact absurd rfl hne
  | cons q ps =>
    have e : texts (q :: ps) = q.text ++ texts ps := by simp [texts]
    rw [e] at hp ⊢
    rw [List.append_assoc] at hp
    have h1 := lexes_piece env N o hf.1 (texts ps ++ rest) hp
    have h2 := lexes_pieces env N o inv rest ps hf.2 hp.right
    refine (h1.append h2).mono fun us hu => ?_
    obtain ⟨a, b, rfl, ⟨⟨op, ha⟩, -⟩, hb⟩ := hu
    refine (hb _ _ (ExprHas.start hf.1.le.1 hf.1.le.2 ha)).congr fun x => ?_
    simp [Covers]

theorem escaped_dash : escaped true 45 = [45] := by decide

theorem lexes_last_dash (env : Env) (N : Nat) (rest : List Nat) :
    Lexes env N (93 :: rest) [45] (fun us => ∃ u, us = [u] ∧ u.tok = .char 45) := by
  apply Lexes.one
  simp [Parser.lexOne, Parser.symbols]

theorem ccOf_char (first : Bool) (c : Nat) : ccOf first (.char c) = some c := by
  cases first <;> rfl

theorem listed_some (bs : Nat → Bool) (hl : Legible (inverted bs) (listedIn bs)) : ∃ x, listedIn bs x = true := by
  rcases classText_pieces bs hl with ⟨ps, hy, -, hf, hc, hne⟩ | ⟨-, -, hc⟩
  · rcases hne with hne | rfl
    · cases ps with
      | nil => exact absurd rfl hne
      | cons q ps => exact ⟨q.lo, (hc _).2 (.inl ⟨q, by simp, Nat.le_refl _, hf.1.le.1⟩)⟩
    · exact ⟨45, (hc _).2 (.inr ⟨rfl, rfl⟩)⟩
  · exact ⟨45, (hc _).2 (.inl rfl)⟩

/-- What stands between the brackets. -/
theorem lexes_inner (env : Env) (N : Nat) (o : Opts) (bs : Nat → Bool) (hl : Legible (inverted bs) (listedIn bs)) (rest : List Nat)
    (hp : NoPairs (classText bs ++ 93 :: rest)) :
    ∃ w, classText bs = (if inverted bs then [94] else []) ++ w ∧
      Lexes env N (93 :: rest) w (fun us => ExprHas env o (inverted bs) us (fun x => listedIn bs x = true)) := by
  rcases classText_pieces bs hl with ⟨ps, hy, e, hf, hc, hne⟩ | ⟨e, hi, hc⟩
  · refine ⟨texts ps ++ (if hy then [45] else []), by rw [e, List.append_assoc], ?_⟩
    rw [e, List.append_assoc, List.append_assoc] at hp
    have hp := hp.right
    cases hy with
    | false =>
      simp only [Bool.false_eq_true, if_false, List.append_nil, List.nil_append, false_and, or_false] at hp hc hne ⊢
      exact (lexes_list env N o _ _ hne hf hp).mono fun us h => h.congr fun x => (hc x).symm
    | true =>
      simp only [if_true, true_and] at hp hc ⊢
      cases ps with
      | nil =>
        refine ((Lexes.nil (P := fun us => us = []) rfl).append (lexes_last_dash env N rest)).mono fun us h => ?_
        obtain ⟨p, q, rfl, rfl, u, rfl, hu⟩ := h
        have : CC env o (.atom (!inverted bs) true) [u] (chars 45 46) 1 := .char (by rw [hu, ccOf_char])
        refine (ExprHas.start (by omega) (by omega) this).congr fun x => ?_
        rw [hc]
        simp [Covers]
        omega
      | cons q ps =>
        refine ((lexes_list env N o _ _ (by simp) hf (by simpa using hp)).append (lexes_last_dash env N rest)).mono fun us h => ?_
        obtain ⟨p, q', rfl, h1, u, rfl, hu⟩ := h
        have : CC env o (.atom false true) [u] (chars 45 46) 1 := .char (by rw [hu, ccOf_char])
        refine (h1.add (by omega) (by omega) this ?_).congr fun x => ?_
        · rintro ⟨w, ws, e, hw⟩
          simp only [List.cons.injEq] at e
          rw [← e.1, hu] at hw
          cases hw
        · rw [hc]
          refine or_congr_right ?_
          omega
  · refine ⟨[45] ++ [94], by rw [e, hi]; rfl, ?_⟩
    refine ((lexes_dash env N (r := 94) (rs := 93 :: rest) (by omega) (by omega)).append
      (Lexes.sym (x := 94) (by simp [Parser.symbols]))).mono fun us h => ?_
    obtain ⟨p, q, rfl, ⟨u, rfl, hu⟩, v, rfl, hv⟩ := h
    rw [hi]
    have h1 : CC env o (.atom (!false) true) [u] (chars 45 46) 1 := .char (by rw [hu]; rfl)
    have h2 : CC env o (.atom false true) [v] (chars 94 95) 1 := .char (by rw [hv]; rfl)
    refine ((ExprHas.start (by omega) (by omega) h1).add (by omega) (by omega) h2 ?_).congr fun x => ?_
    · rintro ⟨w, ws, e, hw⟩
      simp only [List.cons.injEq] at e
      rw [← e.1, hv] at hw
      cases hw
    · rw [hc]
      omega

theorem any_of_has {v : RangeSet.Vec} {x : Nat} (h : has v x = true) : v.isEmpty = false := by
  cases v with
  | nil => cases h
  | cons a v => rfl

/-- A class is read back as the class it was written from. -/
theorem lexes_class (env : Env) (N : Nat) {o : Opts} (ho : o.cased = true) {cps : RangeSet.Vec} {brk : Nfa.BSet} {additive : Bool}
    (hw : ClassWritable cps brk additive) (rest : List Nat) (hp : NoPairs (leafText (.cls cps brk additive) ++ rest)) :
    Lexes env N rest (leafText (.cls cps brk additive))
      (fun us => ∃ k u vs, us = u :: vs ∧ u.tok = .sym 91 ∧ CC env o .charclass us ⟨cps, brk, additive⟩ k) := by
  obtain ⟨hwf, rfl, rfl, hhigh, hleg⟩ := hw
  have hbs : (fun i => RangeSet.test cps i) = fun i => has cps i := funext fun i => RangeSet.test_eq_has hwf i
  unfold leafText at hp ⊢
  dsimp only at hp ⊢
  rw [hbs] at hp ⊢
  generalize hb : (fun i => has cps i) = bs at *
  have hbx : ∀ x, bs x = has cps x := fun x => by rw [← hb]
  have e0 : 91 :: (classText bs ++ [93]) = [91] ++ (classText bs ++ [93]) := List.singleton_append.symm
  rw [e0] at hp ⊢
  have hp1 : NoPairs (classText bs ++ 93 :: rest) := by
    have := hp
    rw [List.append_assoc, List.append_assoc] at this
    exact this.right
  obtain ⟨w, hw, hlex⟩ := lexes_inner env N o bs hleg rest hp1
  rw [hw]
  have h91 := Lexes.sym (env := env) (N := N) (rest := ((if inverted bs = true then [94] else []) ++ w ++ [93]) ++ rest) (x := 91) (by simp [Parser.symbols])
  have h93 := Lexes.sym (env := env) (N := N) (rest := rest) (x := 93) (by simp [Parser.symbols])
  cases hinv : inverted bs with
  | false =>
    simp only [hinv, Bool.false_eq_true, if_false, List.nil_append] at h91 hlex ⊢
    refine (h91.append (hlex.append h93)).mono fun us hu => ?_
    obtain ⟨p, q, rfl, ⟨a, rfl, ha⟩, p', q', rfl, ⟨op, k, v, h1, h2, h3⟩, b, rfl, hb'⟩ := hu
    have hv : v = cps := RangeSet.ext_has h2 hwf fun x => by
      rw [Bool.eq_iff_iff, h3]
      beta_reduce
      rw [listedIn, hinv, Bool.and_eq_true, decide_eq_true_eq, hbx, Bool.false_xor]
      constructor
      · exact fun h => h.2
      · intro h
        refine ⟨?_, h⟩
        by_cases hx : x < 256
        · exact hx
        · by_cases hx' : x < 0x110000
          · rw [hhigh x (by omega) hx', hinv] at h
            cases h
          · rw [RangeSet.has_ge hwf (by omega)] at h
            cases h
    subst hv
    refine ⟨k, a, _, rfl, ha, .pos ha hb' h1 ?_⟩
    obtain ⟨x, hx⟩ := listed_some bs hleg
    have := any_of_has ((h3 x).2 hx)
    simp [Parser.closePos, Parser.foldCls, ho, bind, Except.bind, RangeSet.none, this]
  | true =>
    simp only [hinv, if_true] at h91 hlex ⊢
    have h94 := Lexes.sym (env := env) (N := N) (rest := w ++ [93] ++ rest) (x := 94) (by simp [Parser.symbols])
    have hs : ([94] : List Nat) ++ w ++ [93] = [94] ++ (w ++ [93]) := by simp
    rw [hs] at h91 ⊢
    refine (h91.append (h94.append (hlex.append h93))).mono fun us hu => ?_
    obtain ⟨p, q, rfl, ⟨a, rfl, ha⟩, p', q', rfl, ⟨x, rfl, hx⟩, p'', q'', rfl, ⟨op, k, v, h1, h2, h3⟩, b, rfl, hb'⟩ := hu
    obtain ⟨v', e1, e2, e3⟩ := RangeSet.flip_spec (N := 0x110000) (by omega) h2
    have hv : v' = cps := RangeSet.ext_has e2 hwf fun x => by
      by_cases hx' : x < 0x110000
      · rw [e3 x hx', Bool.eq_iff_iff, Bool.not_eq_true', ← Bool.not_eq_true, h3]
        beta_reduce
        rw [listedIn, hinv, hbx]
        by_cases hx : x < 256
        · simp [hx]
        · rw [hhigh x (by omega) hx', hinv]
          simp [hx]
      · rw [RangeSet.has_ge e2 (by omega), RangeSet.has_ge hwf (by omega)]
    subst hv
    refine ⟨k, a, _, rfl, ha, .neg ha hx hb' h1 ?_⟩
    obtain ⟨x, hx⟩ := listed_some bs hleg
    have n1 := any_of_has ((h3 x).2 hx)
    have n2 : v'.isEmpty = false := any_of_has (x := 256) (by rw [hhigh 256 (by omega) (by omega), hinv])
    simp [Parser.closeNeg, Parser.foldCls, ho, bind, Except.bind, RangeSet.any, RangeSet.none, n1, n2, e1, Parser.orUb]

/-! ## Repetitions -/

theorem lexes_digit (env : Env) (N : Nat) (rest : List Nat) {d : Nat} (hd : d < 10) :
    Lexes env N rest [48 + d] (fun us => ∃ u, us = [u] ∧ u.tok = .digit (48 + d)) := by
  apply Lexes.one
  have h1 : ¬ ((48 + d : Nat) : Int) < 1 := by omega
  have h2 : ((48 + d : Nat) : Int) ∉ Parser.symbols := by
    simp only [Parser.symbols, List.mem_cons, List.not_mem_nil, or_false]
    omega
  have h3 : ((48 + d : Nat) : Int) ≠ 38 := by omega
  have h4 : ((48 + d : Nat) : Int) ≠ 126 := by omega
  have h5 : ((48 + d : Nat) : Int) ≠ 45 := by omega
  have h6 : ((48 + d : Nat) : Int) ≠ 92 := by omega
  have h7 : 48 ≤ ((48 + d : Nat) : Int) ∧ ((48 + d : Nat) : Int) ≤ 57 := by omega
  simp only [Parser.lexOne, if_neg h1, if_neg h2, if_neg h3, if_neg h4, if_neg h5, if_neg h6, if_pos h7, List.nil_append,
    Bool.false_eq_true, if_false, Int.toNat_natCast]

theorem lexes_digits (env : Env) (N : Nat) : ∀ (n x : Nat) (rest : List Nat), x < n → x < 2 ^ 31 →
    Lexes env N rest ((digits 10 n x).map (48 + ·)) (fun us => Number us x)
  | 0, _, _, h, _ => absurd h (by omega)
  | n + 1, x, rest, h, hx => by
    rw [digits]
    by_cases h10 : x < 10
    · rw [if_pos h10]
      refine (lexes_digit env N rest h10).mono fun us hu => ?_
      obtain ⟨u, rfl, hu⟩ := hu
      exact .one (by rw [hu]; simp [Parser.digitTok])
    · rw [if_neg h10, List.map_append, List.map_singleton]
      refine ((lexes_digits env N n (x / 10) _ (by omega) (by omega)).append
        (lexes_digit env N rest (d := x % 10) (by omega))).mono fun us hu => ?_
      obtain ⟨p, q, rfl, hp, u, rfl, hu⟩ := hu
      have : x / 10 * 10 + x % 10 = x := by omega
      have := Number.more (x := u) (d := x % 10) hp (by rw [hu]; simp [Parser.digitTok]) (by omega)
      rwa [show x / 10 * 10 + x % 10 = x by omega] at this

theorem lexes_decimal (env : Env) (N : Nat) (rest : List Nat) {x : Nat} (hx : x < 2 ^ 31) :
    Lexes env N rest (decimal x) (fun us => Number us x) := lexes_digits env N _ _ rest (by omega) hx

theorem lexes_lazy (env : Env) (N : Nat) (rest : List Nat) (ng : Bool) :
    Lexes env N rest (if ng then [63] else []) (fun us => Lazy us ng) := by
  cases ng with
  | false => exact Lexes.nil .no
  | true =>
    refine (Lexes.sym (x := 63) (by simp [Parser.symbols])).mono fun us hu => ?_
    obtain ⟨u, rfl, hu⟩ := hu
    exact .yes hu

theorem lexes_quant (env : Env) (N : Nat) (rest : List Nat) (ng : Bool) {lo hi : Nat} (hlo : lo < 2 ^ 31)
    (hhi : hi = UNB ∨ lo ≤ hi ∧ hi < 2 ^ 31) :
    Lexes env N rest (repetition lo hi ++ (if ng then [63] else [])) (fun us => ∃ j, Quant us ng lo hi j) := by
  have hl := lexes_lazy env N rest ng
  have hU : UNB = 4294967295 := rfl
  have hs : ∀ r {x : Nat}, (x : Int) ∈ Parser.symbols → Lexes env N r [x] (fun us => ∃ u, us = [u] ∧ u.tok = .sym x) :=
    fun r x h => Lexes.sym h
  unfold repetition
  by_cases h1 : lo = 0 ∧ hi = 1
  · rw [if_pos h1]
    obtain ⟨rfl, rfl⟩ := h1
    refine ((hs _ (x := 63) (by simp [Parser.symbols])).append hl).mono fun us hu => ?_
    obtain ⟨p, q, rfl, ⟨u, rfl, hu⟩, hq⟩ := hu
    exact ⟨_, .opt hu hq⟩
  rw [if_neg h1]
  by_cases h2 : lo = 0 ∧ hi = UNB
  · rw [if_pos h2]
    obtain ⟨rfl, rfl⟩ := h2
    refine ((hs _ (x := 42) (by simp [Parser.symbols])).append hl).mono fun us hu => ?_
    obtain ⟨p, q, rfl, ⟨u, rfl, hu⟩, hq⟩ := hu
    exact ⟨_, .star hu hq⟩
  rw [if_neg h2]
  by_cases h3 : lo = 1 ∧ hi = UNB
  · rw [if_pos h3]
    obtain ⟨rfl, rfl⟩ := h3
    refine ((hs _ (x := 43) (by simp [Parser.symbols])).append hl).mono fun us hu => ?_
    obtain ⟨p, q, rfl, ⟨u, rfl, hu⟩, hq⟩ := hu
    exact ⟨_, .plus hu hq⟩
  rw [if_neg h3]
  by_cases h4 : hi = UNB
  · rw [if_pos h4]
    subst h4
    have e : (123 :: (decimal lo ++ [44] ++ [125])) ++ (if ng then [63] else []) =
        [123] ++ (decimal lo ++ ([44] ++ ([125] ++ (if ng then [63] else [])))) := by simp
    rw [e]
    refine ((hs _ (x := 123) (by simp [Parser.symbols])).append ((lexes_decimal env N _ hlo).append
      ((hs _ (x := 44) (by simp [Parser.symbols])).append ((hs _ (x := 125) (by simp [Parser.symbols])).append hl)))).mono fun us hu => ?_
    obtain ⟨_, _, rfl, ⟨x, rfl, hx⟩, p, _, rfl, hp, _, _, rfl, ⟨y, rfl, hy⟩, _, q, rfl, ⟨z, rfl, hz⟩, hq⟩ := hu
    exact ⟨_, .atLeast hx hp hy hz hq⟩
  rw [if_neg h4]
  obtain hhi | ⟨hle, hhi⟩ := hhi
  · exact absurd hhi h4
  by_cases h5 : hi = lo
  · rw [if_neg (by simpa using h5)]
    subst h5
    have e : (123 :: (decimal hi ++ [] ++ [125])) ++ (if ng then [63] else []) =
        [123] ++ (decimal hi ++ ([125] ++ (if ng then [63] else []))) := by simp
    rw [e]
    refine ((hs _ (x := 123) (by simp [Parser.symbols])).append ((lexes_decimal env N _ hlo).append
      ((hs _ (x := 125) (by simp [Parser.symbols])).append hl))).mono fun us hu => ?_
    obtain ⟨_, _, rfl, ⟨x, rfl, hx⟩, p, _, rfl, hp, _, q, rfl, ⟨y, rfl, hy⟩, hq⟩ := hu
    exact ⟨_, .exact hx hp hy hq⟩
  · rw [if_pos h5]
    have e : (123 :: (decimal lo ++ 44 :: decimal hi ++ [125])) ++ (if ng then [63] else []) =
        [123] ++ (decimal lo ++ ([44] ++ (decimal hi ++ ([125] ++ (if ng then [63] else []))))) := by simp
    rw [e]
    refine ((hs _ (x := 123) (by simp [Parser.symbols])).append ((lexes_decimal env N _ hlo).append
      ((hs _ (x := 44) (by simp [Parser.symbols])).append ((lexes_decimal env N _ hhi).append
        ((hs _ (x := 125) (by simp [Parser.symbols])).append hl))))).mono fun us hu => ?_
    obtain ⟨_, _, rfl, ⟨x, rfl, hx⟩, p, _, rfl, hp, _, _, rfl, ⟨y, rfl, hy⟩, r, _, rfl, hr, _, q, rfl, ⟨z, rfl, hz⟩, hq⟩ := hu
    exact ⟨_, .between hx hp hy hr hz hle hq⟩

/-! ## Trees -/

theorem catTo_assoc (a b : Tree Node) : ∀ c, catTo a (catTo b c) = catTo (catTo a b) c
  | .cat c d => by simp only [catTo]; rw [catTo_assoc a b c]
  | .leaf _ => rfl
  | .alt _ _ => rfl
  | .rep .. => rfl
  | .look .. => rfl

theorem altTo_assoc (a b : Tree Node) : ∀ c, altTo a (altTo b c) = altTo (altTo a b) c
  | .alt c d => by simp only [altTo]; rw [altTo_assoc a b c]
  | .leaf _ => rfl
  | .cat _ _ => rfl
  | .rep .. => rfl
  | .look .. => rfl

theorem altTo_isAlt (a b : Tree Node) : isAlt (altTo a b) = true := by cases b <;> rfl

theorem catTo_isAlt (a b : Tree Node) : isAlt (catTo a b) = false := by cases b <;> rfl

theorem regroup_isAlt (t : Tree Node) : isAlt (regroup t) = isAlt t := by
  cases t with
  | alt l r => exact altTo_isAlt _ _
  | cat l r => exact catTo_isAlt _ _
  | leaf a => rfl
  | rep ng lo hi t => rfl
  | look k t => rfl

theorem altTo_of_not {a t : Tree Node} (h : isAlt t = false) : altTo a t = .alt a t := by
  cases t <;> first | rfl | cases h

theorem catTo_of_alt {a t : Tree Node} (h : isAlt t = true) : catTo a t = .cat a t := by
  cases t <;> first | rfl | cases h

/-- What the tokens of a tree are to the parser. -/
structure ReadsAs (env : Env) (o : Opts) (t : Tree Node) (us : List LTok) : Prop where
  ne : us ≠ []
  start : ¬ StartsWith (.sym 123) us
  whole : ∃ b k, Re env (.alt b) o us (regroup t) o k
  after : ∀ {b p a k x}, Re env (.alt b) o p a o k → x.tok = .sym 124 → ∃ b' k', Re env (.alt b') o (p ++ x :: us) (altTo a (regroup t)) o k'
  seq : isAlt t = false → ∃ b k, Re env (.concat b) o us (regroup t) o k
  next : isAlt t = false → ∀ {b p a k}, Re env (.concat b) o p a o k → ∃ b' k', Re env (.concat b') o (p ++ us) (catTo a (regroup t)) o k'
  atom : isAtomic t = true → ∃ k, Re env .atom o us (regroup t) o k

theorem ReadsAs.of_seq {env : Env} {o : Opts} {t : Tree Node} {us : List LTok} (hne : us ≠ []) (hs : ¬ StartsWith (.sym 123) us)
    (hn : isAlt t = false) {b k} (h : Re env (.concat b) o us (regroup t) o k)
    (hx : ∀ {b p a k}, Re env (.concat b) o p a o k → ∃ b' k', Re env (.concat b') o (p ++ us) (catTo a (regroup t)) o k')
    (ha : isAtomic t = true → ∃ k, Re env .atom o us (regroup t) o k) : ReadsAs env o t us := by
  refine ⟨hne, hs, ⟨b, k, .concat h⟩, fun h' hx => ?_, fun _ => ⟨b, k, h⟩, fun _ => hx, ha⟩
  rw [altTo_of_not (by rw [regroup_isAlt, hn])]
  exact ⟨b, _, .alt h' hx h⟩

theorem ReadsAs.of_rep {env : Env} {o : Opts} {t : Tree Node} {us : List LTok} (hne : us ≠ []) (hs : ¬ StartsWith (.sym 123) us)
    (hn : isAlt t = false) {b k} (h : Re env (.rep b) o us (regroup t) o k) (hc : ∀ a, catTo a (regroup t) = .cat a (regroup t))
    (ha : isAtomic t = true → ∃ k, Re env .atom o us (regroup t) o k) : ReadsAs env o t us := by
  refine .of_seq hne hs hn (.rep h) (fun h' => ?_) ha
  rw [hc]
  exact ⟨b, _, .cat h' h fun _ => hs⟩

theorem ReadsAs.of_atom {env : Env} {o : Opts} {a : Node} {u : LTok} {us : List LTok} (hs : u.tok ≠ .sym 123)
    {k} (h : Re env .atom o (u :: us) (.leaf a) o k) : ReadsAs env o (.leaf a) (u :: us) := by
  refine .of_rep (by simp) ?_ rfl (.atom h) (fun _ => rfl) fun _ => ⟨k, h⟩
  rintro ⟨x, xs, e, hx⟩
  simp only [List.cons.injEq] at e
  exact hs (e.1 ▸ hx)

theorem startsWith_append {t : Tok} {p q : List LTok} (hne : p ≠ []) : StartsWith t (p ++ q) ↔ StartsWith t p := by
  cases p with
  | nil => exact absurd rfl hne
  | cons x p => simp [StartsWith]

/-- A tree in parentheses, if they are asked for, in a concatenation. -/
theorem lexes_paren (env : Env) (N : Nat) (o : Opts) {t : Tree Node} {u : List Nat}
    (h : ∀ rest, NoPairs (u ++ rest) → Lexes env N rest u (ReadsAs env o t)) (b : Bool) (rest : List Nat)
    (hp : NoPairs (paren b u ++ rest)) :
    Lexes env N rest (paren b u) (fun us => us ≠ [] ∧ ¬ StartsWith (.sym 123) us ∧
      if b then ∃ k, Re env .atom o us (regroup t) o k else ReadsAs env o t us) := by
  cases b with
  | false =>
    simp only [paren, Bool.false_eq_true, if_false] at hp ⊢
    exact (h rest hp).mono fun us hu => ⟨hu.ne, hu.start, hu⟩
  | true =>
    have e : paren true u = [40] ++ (u ++ [41]) := rfl
    rw [e] at hp ⊢
    rw [List.append_assoc, List.append_assoc] at hp
    refine ((Lexes.sym (x := 40) (by simp [Parser.symbols])).append ((h _ hp.right).append
      (Lexes.sym (x := 41) (by simp [Parser.symbols])))).mono fun us hu => ?_
    obtain ⟨_, _, rfl, ⟨x, rfl, hx⟩, p, _, rfl, hr, y, rfl, hy⟩ := hu
    obtain ⟨b, k, hw⟩ := hr.whole
    refine ⟨by simp, ?_, ?_⟩
    · rintro ⟨z, zs, e, hz⟩
      simp only [List.cons_append, List.cons.injEq] at e
      rw [← e.1, hx] at hz
      cases hz
    · rw [if_pos rfl]
      exact ⟨k, .group hx hw hy⟩

theorem lexes_tree (env : Env) (N : Nat) {o : Opts} (ho : o.cased = true) : ∀ (t : Tree Node), Writable t → ∀ u, unparse t = some u →
    ∀ rest, NoPairs (u ++ rest) → Lexes env N rest u (ReadsAs env o t)
  | .leaf (.lit c), hw, u, hu, rest, hp => by
    cases hu
    obtain ⟨hc, hm⟩ := hw
    simp only [List.mem_cons, List.not_mem_nil, or_false, not_or] at hm
    refine (lexes_escaped env N false hc rest hp).mono fun us hu => ?_
    obtain ⟨x, rfl, hx, -⟩ := hu
    have key : x.tok ≠ .sym 123 ∧ Parser.simpleAtom env o x.tok = some (.ok (.leaf (.lit c), 1)) := by
      rcases hx with hx | hx | ⟨hx, hs⟩ | ⟨hf, -⟩
      · rw [hx]
        exact ⟨by simp, by simp [Parser.simpleAtom, Parser.character, Parser.literal, ho, bind, Except.bind]⟩
      · rw [hx]
        exact ⟨by simp, by simp [Parser.simpleAtom, Parser.character, Parser.literal, ho, bind, Except.bind]⟩
      · rw [hx]
        refine ⟨by simp only [ne_eq, Tok.sym.injEq]; omega, ?_⟩
        have hs : c = 97 ∨ c = 105 ∨ c = 93 ∨ c = 125 ∨ c = 44 ∨ c = 60 ∨ c = 61 ∨ c = 33 ∨ c = 45 := by
          simp only [Parser.symbols, List.mem_cons, List.not_mem_nil, or_false] at hs
          omega
        rcases hs with rfl | rfl | rfl | rfl | rfl | rfl | rfl | rfl | rfl <;>
          simp [Parser.simpleAtom, Parser.character, Parser.literal, ho, bind, Except.bind]
      · cases hf
    exact .of_atom key.1 (.simple key.2)
  | .leaf .dot, _, u, hu, rest, hp => by
    cases hu
    refine (Lexes.sym (x := 46) (by simp [Parser.symbols])).mono fun us hu => ?_
    obtain ⟨x, rfl, hx⟩ := hu
    exact .of_atom (by rw [hx]; simp) (.simple (k := 1) (by rw [hx]; simp [Parser.simpleAtom]))
  | .leaf (.cls cps brk additive), hw, u, hu, rest, hp => by
    cases hu
    refine (lexes_class env N ho hw rest hp).mono fun us hu => ?_
    obtain ⟨k, x, vs, rfl, hx, hc⟩ := hu
    exact .of_atom (by rw [hx]; simp) (.cls hc)
  | .leaf (.byte _), hw, _, _, _, _ => hw.elim
  | .look _ _, hw, _, _, _, _ => hw.elim
  | .alt l r, hw, u, hu, rest, hp => by
    rw [unparse] at hu
    cases hl : unparse l with
    | none => rw [hl] at hu; cases hu
    | some a =>
      cases hr : unparse r with
      | none => rw [hl, hr] at hu; cases hu
      | some b =>
        rw [hl, hr] at hu
        cases hu
        have e : a ++ 124 :: b = a ++ ([124] ++ b) := rfl
        rw [e] at hp ⊢
        rw [List.append_assoc] at hp
        have hL := lexes_tree env N ho l hw.1 a hl _ hp
        have hp' := hp.right
        rw [List.append_assoc] at hp'
        have hR := lexes_tree env N ho r hw.2 b hr rest hp'.right
        have hB := Lexes.sym (env := env) (N := N) (rest := b ++ rest) (x := 124) (by simp [Parser.symbols])
        refine (hL.append (hB.append hR)).mono fun us hu => ?_
        obtain ⟨p, _, rfl, h1, _, q, rfl, ⟨x, rfl, hx⟩, h2⟩ := hu
        refine ⟨by simp, ?_, ?_, fun h hy => ?_, fun h => (by cases h), fun h => (by cases h), fun h => (by cases h)⟩
        · rw [startsWith_append h1.ne]
          exact h1.start
        · obtain ⟨b, k, hw⟩ := h1.whole
          exact h2.after hw hx
        · obtain ⟨b', k', h'⟩ := h1.after h hy
          obtain ⟨b'', k'', h''⟩ := h2.after h' hx
          refine ⟨b'', k'', ?_⟩
          show Re env _ _ _ (altTo _ (altTo _ _)) _ _
          rw [altTo_assoc]
          simpa using h''
  | .cat l r, hw, u, hu, rest, hp => by
    rw [unparse] at hu
    cases hl : unparse l with
    | none => rw [hl] at hu; cases hu
    | some a =>
      cases hr : unparse r with
      | none => rw [hl, hr] at hu; cases hu
      | some b =>
        rw [hl, hr] at hu
        cases hu
        rw [List.append_assoc] at hp
        have hL := lexes_paren env N o (lexes_tree env N ho l hw.1 a hl) (isAlt l) _ hp
        have hR := lexes_paren env N o (lexes_tree env N ho r hw.2 b hr) (isAlt r) rest hp.right
        refine (hL.append hR).mono fun us hu => ?_
        obtain ⟨p, q, rfl, ⟨n1, s1, h1⟩, n2, s2, h2⟩ := hu
        have hseq : ∃ b k, Re env (.concat b) o p (regroup l) o k := by
          cases ha : isAlt l with
          | true =>
            rw [if_pos ha] at h1
            obtain ⟨k, h1⟩ := h1
            exact ⟨_, _, .rep (.atom h1)⟩
          | false =>
            rw [if_neg (by rw [ha]; simp)] at h1
            exact h1.seq ha
        have hnext : ∀ (x : Tree Node) (v : List LTok), v ≠ [] → ¬ StartsWith (.sym 123) v →
            (if isAlt x = true then ∃ k, Re env .atom o v (regroup x) o k else ReadsAs env o x v) →
            ∀ {b w a k}, Re env (.concat b) o w a o k → ∃ b' k', Re env (.concat b') o (w ++ v) (catTo a (regroup x)) o k' := by
          intro x v _ sv hv b w a k hh
          cases ha : isAlt x with
          | true =>
            rw [if_pos ha] at hv
            obtain ⟨k', hv⟩ := hv
            rw [catTo_of_alt (by rw [regroup_isAlt, ha])]
            exact ⟨_, _, .cat hh (.atom hv) fun _ => sv⟩
          | false =>
            rw [if_neg (by rw [ha]; simp)] at hv
            exact hv.next ha hh
        obtain ⟨b1, k1, hs1⟩ := hseq
        obtain ⟨b2, k2, hs2⟩ := hnext r q n2 s2 h2 hs1
        refine .of_seq (by simp [n1]) ?_ rfl hs2 (fun {b' w a' k'} hh => ?_) fun h => (by cases h)
        · rw [startsWith_append n1]
          exact s1
        · obtain ⟨b3, k3, hs3⟩ := hnext l p n1 s1 h1 hh
          obtain ⟨b4, k4, hs4⟩ := hnext r q n2 s2 h2 hs3
          refine ⟨b4, k4, ?_⟩
          show Re env _ _ _ (catTo _ (catTo _ _)) _ _
          rw [catTo_assoc, ← List.append_assoc]
          exact hs4
  | .rep ng lo hi t, hw, u, hu, rest, hp => by
    obtain ⟨w1, w2, w3⟩ := hw
    rw [unparse] at hu
    cases ht : unparse t with
    | none => rw [ht] at hu; cases hu
    | some a =>
      rw [ht] at hu
      cases hu
      have e : paren (!isAtomic t) a ++ repetition lo hi ++ (if ng then [63] else []) =
          paren (!isAtomic t) a ++ (repetition lo hi ++ (if ng then [63] else [])) := List.append_assoc ..
      rw [e] at hp ⊢
      rw [List.append_assoc] at hp
      have hT := lexes_paren env N o (lexes_tree env N ho t w3 a ht) (!isAtomic t) _ hp
      have hQ := lexes_quant env N rest ng w1 w2
      refine (hT.append hQ).mono fun us hu => ?_
      obtain ⟨p, q, rfl, ⟨n1, s1, h1⟩, j, hq⟩ := hu
      have hatom : ∃ k, Re env .atom o p (regroup t) o k := by
        cases ha : isAtomic t with
        | true =>
          rw [if_neg (by rw [ha]; simp)] at h1
          exact h1.atom ha
        | false =>
          rw [if_pos (by rw [ha]; simp)] at h1
          exact h1
      obtain ⟨k, hk⟩ := hatom
      refine .of_rep (by simp [n1]) ?_ rfl (.quant hk hq) (fun _ => rfl) fun h => (by cases h)
      rw [startsWith_append n1]
      exact s1

/-! ## The text is ASCII -/

def Ascii (w : List Nat) : Prop := ∀ c ∈ w, 0 < c ∧ c < 128

theorem Ascii.append {a b : List Nat} (ha : Ascii a) (hb : Ascii b) : Ascii (a ++ b) := fun c hc => by
  rcases List.mem_append.1 hc with h | h
  · exact ha c h
  · exact hb c h

theorem Ascii.cons {a : Nat} {b : List Nat} (ha : 0 < a ∧ a < 128) (hb : Ascii b) : Ascii (a :: b) := fun c hc => by
  rcases List.mem_cons.1 hc with rfl | h
  · exact ha
  · exact hb c h

theorem Ascii.nil : Ascii [] := fun _ h => by cases h

theorem Ascii.ite {p : Prop} [Decidable p] {a b : List Nat} (ha : Ascii a) (hb : Ascii b) : Ascii (if p then a else b) := by
  split
  · exact ha
  · exact hb

theorem Ascii.one {a : Nat} (ha : 0 < a ∧ a < 128) : Ascii [a] := .cons ha .nil

theorem escaped_ascii (k : Bool) {c : Nat} (hc : c < 256) : Ascii (escaped k c) := by
  have hd : ∀ d < 16, 0 < hexDigit d ∧ hexDigit d < 128 := by decide
  unfold escaped
  repeat' split
  all_goals first
    | exact .cons (by omega) (.cons (by omega) .nil)
    | exact .cons (by omega) .nil
    | rw [hexCode_small c hc]
      exact .cons (by omega) (.cons (by omega) (.cons (hd _ (by omega)) (.cons (hd _ (by omega)) .nil)))

theorem digits_lt {b : Nat} (hb : 0 < b) : ∀ (n x : Nat), ∀ d ∈ digits b n x, d < b
  | 0, _, _, h => by cases h
  | n + 1, x, d, h => by
    rw [digits] at h
    by_cases hx : x < b
    · rw [if_pos hx, List.mem_singleton] at h
      omega
    · rw [if_neg hx] at h
      rcases List.mem_append.1 h with h | h
      · exact digits_lt hb n _ d h
      · rw [List.mem_singleton.1 h]
        exact Nat.mod_lt _ hb

theorem decimal_ascii (x : Nat) : Ascii (decimal x) := fun c hc => by
  obtain ⟨d, hd, rfl⟩ := List.mem_map.1 hc
  have := digits_lt (by omega) _ _ d hd
  omega

theorem repetition_ascii (lo hi : Nat) : Ascii (repetition lo hi) := by
  unfold repetition
  refine .ite (.one (by omega)) (.ite (.one (by omega)) (.ite (.one (by omega)) (.cons (by omega) (.append (.append (decimal_ascii lo) ?_) (.one (by omega))))))
  exact .ite (.one (by omega)) (.ite (.cons (by omega) (decimal_ascii hi)) .nil)

theorem piece_ascii {first : Bool} {q : Piece} (h : PieceOk first q) : Ascii q.text := by
  cases q with
  | one e c => exact .append (.ite (.one (by omega)) .nil) (escaped_ascii _ h.1)
  | span e a b =>
    exact .append (.append (.append (.append (.ite (.one (by omega)) .nil) (escaped_ascii _ h.1.1)) (.one (by omega)))
      (.ite (.one (by omega)) .nil)) (escaped_ascii _ h.2.2.1)

theorem class_ascii {bs : Nat → Bool} (hl : Legible (inverted bs) (listedIn bs)) : Ascii (classText bs) := by
  rcases classText_pieces bs hl with ⟨ps, hy, e, hf, -, -⟩ | ⟨e, -, -⟩
  · rw [e]
    refine .append (.append (.ite (.one (by omega)) .nil) ?_) (.ite (.one (by omega)) .nil)
    intro c hc
    obtain ⟨q, hq, hcq⟩ := List.mem_flatMap.1 hc
    cases ps with
    | nil => cases hq
    | cons p ps =>
      rcases List.mem_cons.1 hq with rfl | hq
      · exact piece_ascii hf.1 c hcq
      · exact piece_ascii (hf.2 q hq) c hcq
  · rw [e]
    exact .cons (by omega) (.one (by omega))

theorem paren_ascii {b : Bool} {w : List Nat} (h : Ascii w) : Ascii (paren b w) :=
  .ite (.cons (by omega) (.append h (.one (by omega)))) h

theorem tree_ascii : ∀ (t : Tree Node), Writable t → ∃ u, unparse t = some u ∧ Ascii u
  | .leaf (.lit c), hw => ⟨_, rfl, escaped_ascii _ hw.1⟩
  | .leaf .dot, _ => ⟨_, rfl, .one (by omega)⟩
  | .leaf (.cls cps brk additive), hw => by
    refine ⟨_, rfl, .cons (by omega) (.append ?_ (.one (by omega)))⟩
    have hbs : (fun i => RangeSet.test cps i) = fun i => has cps i := funext fun i => RangeSet.test_eq_has hw.wf i
    rw [hbs]
    exact class_ascii hw.legible
  | .leaf (.byte _), hw => hw.elim
  | .look _ _, hw => hw.elim
  | .alt l r, hw => by
    obtain ⟨a, h1, h2⟩ := tree_ascii l hw.1
    obtain ⟨b, g1, g2⟩ := tree_ascii r hw.2
    exact ⟨a ++ 124 :: b, by rw [unparse, h1, g1]; rfl, h2.append (.cons (by omega) g2)⟩
  | .cat l r, hw => by
    obtain ⟨a, h1, h2⟩ := tree_ascii l hw.1
    obtain ⟨b, g1, g2⟩ := tree_ascii r hw.2
    exact ⟨_, by rw [unparse, h1, g1]; rfl, (paren_ascii h2).append (paren_ascii g2)⟩
  | .rep ng lo hi t, hw => by
    obtain ⟨a, h1, h2⟩ := tree_ascii t hw.2.2
    exact ⟨_, by rw [unparse, h1]; rfl, .append (.append (paren_ascii h2) (repetition_ascii lo hi)) (.ite (.one (by omega)) .nil)⟩

/-! ## Regrouping changes nothing -/

theorem catTo_lang (sem : Node → Language UInt8) (a : Tree Node) : ∀ b, lang sem (catTo a b) = lang sem a * lang sem b
  | .cat c d => by
    show lang sem (catTo a c) * lang sem d = lang sem a * (lang sem c * lang sem d)
    rw [catTo_lang sem a c, mul_assoc]
  | .leaf _ => rfl
  | .alt _ _ => rfl
  | .rep .. => rfl
  | .look .. => rfl

theorem altTo_lang (sem : Node → Language UInt8) (a : Tree Node) : ∀ b, lang sem (altTo a b) = lang sem a + lang sem b
  | .alt c d => by
    show lang sem (altTo a c) + lang sem d = lang sem a + (lang sem c + lang sem d)
    rw [altTo_lang sem a c, add_assoc]
  | .leaf _ => rfl
  | .cat _ _ => rfl
  | .rep .. => rfl
  | .look .. => rfl

theorem regroup_lang (sem : Node → Language UInt8) : ∀ t, lang sem (regroup t) = lang sem t
  | .cat l r => by
    show lang sem (catTo _ _) = lang sem l * lang sem r
    rw [catTo_lang, regroup_lang sem l, regroup_lang sem r]
  | .alt l r => by
    show lang sem (altTo _ _) = lang sem l + lang sem r
    rw [altTo_lang, regroup_lang sem l, regroup_lang sem r]
  | .rep ng lo hi t => Regex.lang_rep_congr sem (regroup_lang sem t)
  | .leaf _ => rfl
  | .look .. => rfl

theorem catTo_rests (leaf : Node → List UInt8 → List (List UInt8)) (a : Tree Node) : ∀ b,
    rests leaf (catTo a b) = fun w => (rests leaf a w).flatMap (rests leaf b)
  | .cat c d => by
    show (fun w => (rests leaf (catTo a c) w).flatMap (rests leaf d)) = _
    rw [catTo_rests leaf a c]
    funext w
    show _ = (rests leaf a w).flatMap (fun w => (rests leaf c w).flatMap (rests leaf d))
    rw [List.flatMap_assoc]
  | .leaf _ => rfl
  | .alt _ _ => rfl
  | .rep .. => rfl
  | .look .. => rfl

theorem altTo_rests (leaf : Node → List UInt8 → List (List UInt8)) (a : Tree Node) : ∀ b,
    rests leaf (altTo a b) = fun w => rests leaf a w ++ rests leaf b w
  | .alt c d => by
    show (fun w => rests leaf (altTo a c) w ++ rests leaf d w) = _
    rw [altTo_rests leaf a c]
    funext w
    show _ = rests leaf a w ++ (rests leaf c w ++ rests leaf d w)
    rw [List.append_assoc]
  | .leaf _ => rfl
  | .cat _ _ => rfl
  | .rep .. => rfl
  | .look .. => rfl

theorem regroup_rests (leaf : Node → List UInt8 → List (List UInt8)) : ∀ t, rests leaf (regroup t) = rests leaf t
  | .cat l r => by
    show rests leaf (catTo _ _) = fun w => (rests leaf l w).flatMap (rests leaf r)
    rw [catTo_rests, regroup_rests leaf l, regroup_rests leaf r]
  | .alt l r => by
    show rests leaf (altTo _ _) = fun w => rests leaf l w ++ rests leaf r w
    rw [altTo_rests, regroup_rests leaf l, regroup_rests leaf r]
  | .rep ng lo hi t => by
    show rests leaf (.rep ng lo hi (regroup t)) = _
    rw [rests, rests, regroup_rests leaf t]
  | .leaf _ => rfl
  | .look .. => rfl

/-! ## The theorem -/

/-- The text of a tree that can be written is read, case-sensitively and not as a fixed string, as the same tree up to the
grouping of concatenations and alternatives. -/
theorem text_parses (env : Env) (p : PatternOpts) (hf : p.fixed = false) (hc : p.caseless = false) {t : Tree Node} (hw : Writable t)
    {u : List Nat} (hu : unparse t = some u) (hn : NoPairs u) :
    ∃ j, Text.parseText env p (u.map UInt8.ofNat) = .ok (regroup t, j) := by
  have hA : Ascii u := by
    obtain ⟨u', h1, h2⟩ := tree_ascii t hw
    rw [hu] at h1
    cases h1
    exact h2
  have hmap : (u.map UInt8.ofNat).map UInt8.toNat = u := by
    rw [List.map_map]
    conv_rhs => rw [← List.map_id u]
    refine List.map_congr_left fun c hc => ?_
    have := hA c hc
    simp only [Function.comp_apply, id_eq, UInt8.toNat_ofNat']
    omega
  have hcp : Text.codePoints (u.map UInt8.ofNat) = some (ints u) := by
    have hscal : ∀ c ∈ u, Utf.Scalar c := fun c hc => by
      have := hA c hc
      simp only [Utf.Scalar]
      omega
    have hd := Utf.patternText_decodes u hscal
    have he : u.flatMap (fun c : Nat => Utf.cpToUtf8 c) = u := by
      have : ∀ c ∈ u, Utf.cpToUtf8 c = [c] := fun c hc => by
        have := hA c hc
        rw [Utf.cpToUtf8_spec, if_pos ⟨by omega, by simpa using hscal c hc⟩]
        simp [Utf.spec8, this.2]
      rw [List.flatMap_def, List.map_congr_left this, ← List.flatMap_def]
      simp
    rw [he] at hd
    unfold Text.codePoints
    rw [hmap, hd]
    simp
  obtain ⟨us, m, -, h1, h2⟩ := lexes_tree env u.length (o := ⟨true, !p.unicode⟩) rfl t hw u hu [] (by simpa using hn) u.length (by simp)
  obtain ⟨b, k, hr⟩ := h1.whole
  refine ⟨k + 1, ?_⟩
  rw [Text.parseText, hcp]
  unfold Parser.parse
  rw [hf, hc]
  dsimp only
  have : Parser.lex env false u.length m (ints []) = [] := by cases m <;> rfl
  rw [List.append_nil, this, List.append_nil] at h2
  rw [List.length_map, h2]
  exact (Parser.parse_iff_derives _ _ _ _ _).2 ⟨b, _, k, hr, rfl⟩

/-- **C108** (part) A request was read as a tree that can be written (`Writable`), and the text that is written from it has no `--`,
`&&` or `~~`.  Then a request for that text, as a case-sensitive pattern in the same encoding, is read too, matches exactly
the same byte strings, and prefers the same match at the beginning of all data.  Missing: trees that are not
`Writable`, whose text is read differently (`written_differently` and the theorems after it). -/
theorem written_matches_partial [Chain.Build] {env : Env} {r : Session.Request} {t : Tree Node} {j : Nat}
    (hr : Text.parseText env r.opts r.expr = .ok (t, j)) (hw : Writable t) {u : List Nat} (hu : unparse t = some u) (hn : NoPairs u) :
    (∃ t' j', Text.parseText env { r.opts with fixed := false, caseless := false } (u.map UInt8.ofNat) = .ok (t', j') ∧
      ∀ leaf w, Regex.preferred leaf t' w = Regex.preferred leaf t w) ∧
    ∀ w, Session.Matches env ⟨u.map UInt8.ofNat, { r.opts with fixed := false, caseless := false }, r.chain⟩ w ↔ Session.Matches env r w := by
  obtain ⟨j', h⟩ := text_parses env { r.opts with fixed := false, caseless := false } rfl rfl hw hu hn
  refine ⟨⟨_, _, h, fun leaf w => by unfold Regex.preferred; rw [regroup_rests]⟩, fun w => ?_⟩
  constructor
  · rintro ⟨t', j', k, ts, h1, h2, h3⟩
    rw [h] at h1
    cases h1
    rw [regroup_lang] at h3
    exact ⟨t, j, k, ts, hr, h2, h3⟩
  · rintro ⟨t', j', k, ts, h1, h2, h3⟩
    rw [hr] at h1
    cases h1
    exact ⟨_, _, k, ts, h, h2, by rw [regroup_lang]; exact h3⟩

/-! ## What is read differently -/

/-- The text is read as the tree. -/
def IsRead (s : String) (t : Tree Node) : Prop := ∃ j, Text.parseText Parser.plain ⟨false, false, false⟩ (Chain.name s) = .ok (t, j)

/-- The text is not accepted. -/
def Refused (s : String) : Prop := ∀ t j, Text.parseText Parser.plain ⟨false, false, false⟩ (Chain.name s) ≠ .ok (t, j)

/-- The text is what is written from the tree. -/
def IsWritten (t : Tree Node) (s : String) : Prop := unparse t = some (s.toList.map Char.toNat)

theorem isRead_of {s : String} {t : Tree Node}
    (h : Session.parsesTo Parser.plain ⟨Chain.name s, ⟨false, false, false⟩, []⟩ t = true) : IsRead s t :=
  Session.parsesTo_iff (env := Parser.plain) (r := ⟨Chain.name s, ⟨false, false, false⟩, []⟩) h

theorem refused_of {s : String}
    (h : (match Text.parseText Parser.plain ⟨false, false, false⟩ (Chain.name s) with | .ok _ => false | .error _ => true) = true) :
    Refused s := by
  intro t j e
  rw [e] at h
  cases h

/-- **C108** fails for special characters that were escaped: they are written bare.  `\*` becomes `*`, which is refused, and
`a\{3}` becomes `a{3}`, which matches `aaa`. -/
theorem written_differently : (∃ t, IsRead "\\*" t ∧ IsWritten t "*" ∧ Refused "*") ∧
    ∃ t, IsRead "a\\{3}" t ∧ IsWritten t "a{3}" ∧ IsRead "a{3}" (.rep false 3 3 (.leaf (.lit 97))) :=
  ⟨⟨.leaf (.lit 42), isRead_of (by decide +kernel), rfl, refused_of (by decide +kernel)⟩,
    ⟨.cat (.cat (.cat (.leaf (.lit 97)) (.leaf (.lit 123))) (.leaf (.lit 51))) (.leaf (.lit 125)), isRead_of (by decide +kernel), rfl,
      isRead_of (by decide +kernel)⟩⟩

/-- **C108** fails for characters above U+00FF and for bytes: `\x{100}` becomes `\x100`, which is read as U+0010 and `0`, and the
byte `\zFF` becomes `\xFF`, which is a character. -/
theorem codes_written_differently : (∃ t, IsRead "\\x{100}" t ∧ IsWritten t "\\x100" ∧
      IsRead "\\x100" (.cat (.leaf (.lit 0x10)) (.leaf (.lit 48)))) ∧
    ∃ t, IsRead "\\zFF" t ∧ IsWritten t "\\xFF" ∧ t = .leaf (.byte 0xFF) ∧ IsRead "\\xFF" (.leaf (.lit 0xFF)) :=
  ⟨⟨.leaf (.lit 0x100), isRead_of (by decide +kernel), rfl, isRead_of (by decide +kernel)⟩,
    ⟨.leaf (.byte 0xFF), isRead_of (by decide +kernel), rfl, rfl, isRead_of (by decide +kernel)⟩⟩

/-- **C108** fails for two hyphens of which the second is repeated: `\-\-*` becomes `--*`, in which both are. -/
theorem hyphens_written_differently : ∃ t, IsRead "\\-\\-*" t ∧ IsWritten t "--*" ∧ t = .cat (.leaf (.lit 45)) (.rep false 0 UNB (.leaf (.lit 45))) ∧
    IsRead "--*" (.rep false 0 UNB (.cat (.leaf (.lit 45)) (.leaf (.lit 45)))) :=
  ⟨_, isRead_of (t := .cat (.leaf (.lit 45)) (.rep false 0 UNB (.leaf (.lit 45)))) (by decide +kernel), rfl, rfl, isRead_of (by decide +kernel)⟩

theorem isWritten_of {t : Tree Node} {s : String} (h : decide (unparse t = some (s.toList.map Char.toNat)) = true) : IsWritten t s := by
  unfold IsWritten
  exact of_decide_eq_true h

/-- **C108** fails for some classes with brackets: `[\[]` and `[^\]]` become `[[]` and `[^]]`, which are refused, and
`[\\\]]` becomes `[\\]]`, which is read as a backslash and then a bracket. -/
theorem brackets_written_differently : (∃ t, IsRead "[\\[]" t ∧ IsWritten t "[[]" ∧ Refused "[[]") ∧
    (∃ t, IsRead "[^\\]]" t ∧ IsWritten t "[^]]" ∧ Refused "[^]]") ∧
    ∃ t, IsRead "[\\\\\\]]" t ∧ IsWritten t "[\\\\]]" ∧ IsRead "[\\\\]]" (.cat (.leaf (.cls [92, 93] 0 true)) (.leaf (.lit 93))) :=
  ⟨⟨.leaf (.cls [91, 92] 0 true), isRead_of (by decide +kernel), isWritten_of (by decide +kernel), refused_of (by decide +kernel)⟩,
    ⟨.leaf (.cls [0, 93, 94, 0x110000] 0 true), isRead_of (by decide +kernel), isWritten_of (by decide +kernel), refused_of (by decide +kernel)⟩,
    ⟨.leaf (.cls [92, 94] 0 true), isRead_of (by decide +kernel), isWritten_of (by decide +kernel), isRead_of (by decide +kernel)⟩⟩

/-- **C108** fails for classes with characters above U+00FF or with bytes, which are left out: `[a\x{100}]` becomes `[a]`,
`[\x{100}]` becomes all characters above U+00FF, and `[a\zFF]` becomes `[a]`. -/
theorem classes_written_differently : (∃ t, IsRead "[a\\x{100}]" t ∧ IsWritten t "[a]") ∧
    (∃ t, IsRead "[\\x{100}]" t ∧ IsWritten t "[^\\x00-\\xFF]" ∧ IsRead "[^\\x00-\\xFF]" (.leaf (.cls [0x100, 0x110000] 0 true))) ∧
    ∃ t, IsRead "[a\\zFF]" t ∧ IsWritten t "[a]" :=
  ⟨⟨.leaf (.cls [97, 98, 0x100, 0x101] 0 true), isRead_of (by decide +kernel), isWritten_of (by decide +kernel)⟩,
    ⟨.leaf (.cls [0x100, 0x101] 0 true), isRead_of (by decide +kernel), isWritten_of (by decide +kernel), isRead_of (by decide +kernel)⟩,
    ⟨.leaf (.cls [97, 98] (Encoders.setByte 0 0xFF) true), isRead_of (by decide +kernel), isWritten_of (by decide +kernel)⟩⟩

/-- **C108** fails for assertions, which end in an exception. -/
theorem assertions_not_written : ∃ t, IsRead "(?<=a)b" t ∧ unparse t = none :=
  ⟨.cat (.look 0 (.leaf (.lit 97))) (.leaf (.lit 98)), isRead_of (by decide +kernel), rfl⟩

/-! ## A case -/

/-- `x(y([^\n]|[0-9a-]){2,5}?)*|.` is read as a tree of which it is written. -/
example : ∃ t u, Writable t ∧ unparse t = some u ∧ NoPairs u ∧ IsRead "x(y([^\\n]|[0-9a-]){2,5}?)*|." t ∧
    u = "x(y([^\\n]|[0-9a-]){2,5}?)*|.".toList.map Char.toNat := by
  have c1 : ClassWritable [0, 10, 11, 0x110000] 0 true := by
    refine ⟨⟨by simp, rfl, by simp⟩, rfl, rfl, fun x h1 h2 => ?_, ?_, ?_⟩
    · have : (inverted fun i => has [0, 10, 11, 0x110000] i) = true := by decide +kernel
      rw [this]
      have : decide (0x110000 ≤ x) = false := by simp; omega
      have : decide (10 ≤ x) = true := by simp; omega
      have : decide (11 ≤ x) = true := by simp; omega
      simp [has, RangeSet.below, *]
    · intro h
      revert h
      decide +kernel
    · intro h
      revert h
      decide +kernel
  have c2 : ClassWritable [45, 46, 48, 58, 97, 98] 0 true := by
    refine ⟨⟨by simp, rfl, by simp⟩, rfl, rfl, fun x h1 h2 => ?_, ?_, ?_⟩
    · have : (inverted fun i => has [45, 46, 48, 58, 97, 98] i) = false := by decide +kernel
      rw [this]
      exact RangeSet.has_ge (N := 256) ⟨by simp, rfl, by simp⟩ h1
    · intro h
      revert h
      decide +kernel
    · intro h
      revert h
      decide +kernel
  refine ⟨.alt (.cat (.leaf (.lit 120)) (.rep false 0 UNB (.cat (.leaf (.lit 121)) (.rep true 2 5
      (.alt (.leaf (.cls [0, 10, 11, 0x110000] 0 true)) (.leaf (.cls [45, 46, 48, 58, 97, 98] 0 true))))))) (.leaf .dot), _, ?_,
    isWritten_of (s := "x(y([^\\n]|[0-9a-]){2,5}?)*|.") (by decide +kernel), ?_, isRead_of (by decide +kernel), rfl⟩
  · exact ⟨⟨⟨by omega, by decide⟩, by simp, .inl rfl, ⟨by omega, by decide⟩, by omega, by omega, c1, c2⟩, trivial⟩
  · unfold NoPairs
    decide +kernel

end Verif.Unparse
