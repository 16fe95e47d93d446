import Verif.Props.Lexer
/-!
# C72: an error message names a fault that is there, at its place
-/
namespace Verif.Parser

open Verif.Regex (Tree UNB)
open Verif.Encoders (Node)
open Verif.Meaning (ClassChar Operator ClassSays Reading Cps)

/-! ## Specification -/

/-- The operator `x` between the tokens `p` and `q` lacks an operand: a class starts with it, or
it is followed by `]` or by itself. -/
inductive Operandless : List LTok → LTok → List LTok → Prop
  | first {p a x q} (ha : a.tok = .sym 91) : Operandless (p ++ [a]) x q
  | firstNeg {p a b x q} (ha : a.tok = .sym 91) (hb : b.tok = .sym 94) : Operandless (p ++ [a, b]) x q
  | last {p x y q} (hy : y.tok = .sym 93 ∨ y.tok = x.tok) : Operandless p x (y :: q)

/-- No beginning of the tokens is a class. -/
def OpenClass (env : Env) (o : Opts) (ts : List LTok) : Prop :=
  ∀ s r, ts = s ++ r → ∀ c k, ¬ CC env o .charclass s c k

/-- No beginning of the tokens is a group, a lookaround or a switch. -/
def OpenGroup (env : Env) (o : Opts) (ts : List LTok) : Prop :=
  ∀ s r, ts = s ++ r → (∀ t o' k, ¬ Re env .atom o s t o' k) ∧ ∀ o', ¬ Switch o s o'

/-- The tokens between the brackets say a class with nothing in it, under some options. -/
inductive Nothing (env : Env) : List LTok → Prop
  | pos {o op s c k} (h : CC env o (.expr false op) s c k) (hc : closePos env o 0 0 c = .error (.report .emptyClass 0 0)) :
      Nothing env s
  | neg {o op x s c k} (hx : x.tok = .sym 94) (h : CC env o (.expr true op) s c k)
      (hc : closeNeg env o 0 0 c = .error (.report .emptyClass 0 0)) : Nothing env (x :: s)

/-- Where the brace `z`, or the question mark after it, ends. -/
def endOf (z : LTok) : List LTok → Nat
  | [] => z.last
  | w :: _ => w.last

/-- `Fault ts k b e`: the fault `k` is in the tokens `ts`, from `b` to `e` of the text. -/
inductive Fault (env : Env) (ts : List LTok) : ErrKind → Nat → Nat → Prop
  /-- a bad escape or character -/
  | escape {p x q} (h : ts = p ++ x :: q) (hx : x.tok = .bad) : Fault env ts .invalidEscape x.first x.last
  /-- `b-a` -/
  | chars {p x y z q first a b} (h : ts = p ++ x :: y :: z :: q) (hx : ClassChar first x.tok a) (hy : y.tok = .sym 45)
      (hz : ClassChar false z.tok b) (hab : b ≤ a) : Fault env ts .reversedChars x.first z.last
  /-- `\z42-\z41` -/
  | bytes {p x y z q a b} (h : ts = p ++ x :: y :: z :: q) (hx : x.tok = .byte a) (hy : y.tok = .sym 45)
      (hz : z.tok = .byte b) (hab : b ≤ a) : Fault env ts .reversedBytes x.first z.last
  /-- `{2,1}` or `{2,1}?` -/
  | bounds {p x s n y r m z l ng q e} (h : ts = p ++ x :: (s ++ y :: (r ++ z :: (l ++ q)))) (hx : x.tok = .sym 123)
      (hs : Number s n) (hy : y.tok = .sym 44) (hr : Number r m) (hz : z.tok = .sym 125) (hl : Lazy l ng) (hnm : m < n)
      (he : e = endOf z l) : Fault env ts .reversedRepetition x.first e
  /-- `(` that is not closed -/
  | paren {p x q o} (h : ts = p ++ x :: q) (hx : x.tok = .sym 40) (ho : OpenGroup env o (x :: q)) :
      Fault env ts .unmatchedParen x.first x.last
  /-- `[` that is not closed -/
  | bracket {p x q o} (h : ts = p ++ x :: q) (hx : x.tok = .sym 91) (ho : OpenClass env o (x :: q)) :
      Fault env ts .unmatchedBracket x.first x.last
  /-- an operator without an operand -/
  | operand {p x q s} (h : ts = p ++ x :: q) (hx : Operator x.tok s) (ho : Operandless p x q) :
      Fault env ts .missingOperand x.first x.last
  /-- a class with nothing in it -/
  | empty {p x s y q} (h : ts = p ++ x :: (s ++ y :: q)) (hx : x.tok = .sym 91) (hy : y.tok = .sym 93)
      (hs : Nothing env s) : Fault env ts .emptyClass x.first y.last
  /-- anything else that cannot be where it is -/
  | other {p x q} (h : ts = p ++ x :: q) (hx : x.tok ≠ .bad ∧ x.tok ≠ .noProp) :
      Fault env ts .nonatomicRepetition x.first x.last

/-! ## Proofs -/

theorem Fault.append {env p ts k b e} (h : Fault env ts k b e) : Fault env (p ++ ts) k b e := by
  cases h with
  | @escape p' x q h hx => exact .escape (p := p ++ p') (by rw [h, List.append_assoc]) hx
  | @chars p' x y z q first a b h hx hy hz hab =>
    exact .chars (p := p ++ p') (by rw [h, List.append_assoc]) hx hy hz hab
  | @bytes p' x y z q a b h hx hy hz hab => exact .bytes (p := p ++ p') (by rw [h, List.append_assoc]) hx hy hz hab
  | @bounds p' x s n y r m z l ng q e h hx hs hy hr hz hl hnm he =>
    exact .bounds (p := p ++ p') (by rw [h, List.append_assoc]) hx hs hy hr hz hl hnm he
  | @paren p' x q o h hx ho => exact .paren (p := p ++ p') (by rw [h, List.append_assoc]) hx ho
  | @bracket p' x q o h hx ho => exact .bracket (p := p ++ p') (by rw [h, List.append_assoc]) hx ho
  | @operand p' x q s h hx ho =>
    refine .operand (p := p ++ p') (by rw [h, List.append_assoc]) hx ?_
    cases ho with
    | first ha => rw [← List.append_assoc]; exact .first ha
    | firstNeg ha hb => rw [← List.append_assoc]; exact .firstNeg ha hb
    | last hy => exact .last hy
  | @empty p' x s y q h hx hy hs => exact .empty (p := p ++ p') (by rw [h, List.append_assoc]) hx hy hs
  | @other p' x q h hx => exact .other (p := p ++ p') (by rw [h, List.append_assoc]) hx

/-- A fault begins with one of the tokens. -/
theorem Fault.begins {env ts k b e} (h : Fault env ts k b e) : ∃ x ∈ ts, x.first = b := by
  cases h with
  | escape h => exact ⟨_, by simp [h], rfl⟩
  | chars h => exact ⟨_, by simp [h], rfl⟩
  | bytes h => exact ⟨_, by simp [h], rfl⟩
  | bounds h => exact ⟨_, by simp [h], rfl⟩
  | paren h => exact ⟨_, by simp [h], rfl⟩
  | bracket h => exact ⟨_, by simp [h], rfl⟩
  | operand h => exact ⟨_, by simp [h], rfl⟩
  | empty h => exact ⟨_, by simp [h], rfl⟩
  | other h => exact ⟨_, by simp [h], rfl⟩

theorem Chain.le {N a ts} (h : Chain N a ts) : ∀ x ∈ ts, a ≤ x.first := by
  induction ts generalizing a with
  | nil => simp
  | cons t ts ih =>
    intro x hx
    rcases List.mem_cons.1 hx with rfl | hx
    · exact h.1
    · have := ih h.2.2.2 x hx
      have := h.1
      have := h.2.1
      omega

/-- What an error says is so. -/
def Told (env : Env) (ts : List LTok) : Err → Prop
  | .report k b e => Fault env ts k b e
  | _ => True

theorem Told.append {env p ts e} (h : Told env ts e) : Told env (p ++ ts) e := by
  cases e with
  | report k b f => exact Fault.append h
  | _ => trivial

theorem Told.cons {env x ts e} (h : Told env ts e) : Told env (x :: ts) e := Told.append (p := [x]) h

theorem told_unexpected (env : Env) (ts : List LTok) : Told env ts (unexpected ts) := by
  cases ts with
  | nil => trivial
  | cons t ts =>
    by_cases h1 : t.tok = .bad
    · simp only [unexpected, if_pos h1]; exact .escape (p := []) rfl h1
    · by_cases h2 : t.tok = .noProp
      · simp only [unexpected, if_neg h1, if_pos h2]; trivial
      · simp only [unexpected, if_neg h1, if_neg h2]; exact .other (p := []) rfl ⟨h1, h2⟩

theorem told_orUb {env ts} {α : Type} {x : Option α} {e} (h : orUb x = .error e) : Told env ts e := by
  cases x with
  | none => cases h; trivial
  | some a => cases h

theorem foldCls_error {env o c e} (h : foldCls env o c = .error e) : e = .ub := by
  unfold foldCls at h
  split at h
  · cases h
  · split at h
    · cases h
    · cases h; rfl

theorem orUb_error {α : Type} {x : Option α} {e} (h : orUb x = .error e) : e = .ub := by
  cases x with
  | none => cases h; rfl
  | some a => cases h

theorem closePos_error {env o b f c e} (h : closePos env o b f c = .error e) :
    e = .ub ∨ e = .report .emptyClass b f ∧ closePos env o 0 0 c = .error (.report .emptyClass 0 0) := by
  unfold closePos at h ⊢
  cases hc : foldCls env o c with
  | error x => rw [hc] at h; cases h; exact Or.inl (foldCls_error hc)
  | ok x =>
    rw [hc] at h
    simp only [bind, Except.bind] at h ⊢
    split at h
    · rename_i hx
      cases h
      exact Or.inr ⟨rfl, if_pos hx⟩
    · cases h

theorem closeNeg_error {env o b f c e} (h : closeNeg env o b f c = .error e) :
    e = .ub ∨ e = .report .emptyClass b f ∧ closeNeg env o 0 0 c = .error (.report .emptyClass 0 0) := by
  unfold closeNeg at h ⊢
  by_cases h1 : RangeSet.any c.cps = true
  · rw [if_pos h1] at h ⊢
    cases hc : foldCls env o c with
    | error x => rw [hc] at h; cases h; exact Or.inl (foldCls_error hc)
    | ok x =>
      rw [hc] at h
      simp only [bind, Except.bind] at h ⊢
      cases hs : orUb (RangeSet.flip 0x110000 x.cps) with
      | error y => rw [hs] at h; cases h; exact Or.inl (orUb_error hs)
      | ok y =>
        rw [hs] at h
        simp only at h ⊢
        split at h
        · rename_i hx; cases h; exact Or.inr ⟨rfl, if_pos hx⟩
        · cases h
  · rw [if_neg h1] at h ⊢
    by_cases h2 : c.brk ≠ 0
    · rw [if_pos h2] at h ⊢
      split at h
      · rename_i hx; cases h; exact Or.inr ⟨rfl, if_pos hx⟩
      · cases h
    · rw [if_neg h2] at h ⊢
      cases hs : orUb (RangeSet.flip 0x110000 c.cps) with
      | error y => rw [hs] at h; cases h; exact Or.inl (orUb_error hs)
      | ok y => rw [hs] at h; cases h

/-- What is told unless the bracket `t` is not closed. -/
def TellsOr (env : Env) (t : LTok) (ts : List LTok) (e : Err) : Prop :=
  e = .report .unmatchedBracket t.first t.last ∨ Told env ts e

theorem tellsOr_unclosed {env} {t : LTok} {ts e} (h : Told env ts e) :
    TellsOr env t ts (unclosed .unmatchedBracket t e) := by
  cases e with
  | eof => exact Or.inl rfl
  | _ => exact Or.inr h

theorem setOp_operator {t s} (h : setOp t = some s) : Operator t s := Meaning.setOp_iff.1 h

theorem ccOf_char {first t c} (h : (if first = true then ccFirst t else ccNotFirst t) = some c) : ClassChar first t c :=
  Meaning.ccOf_iff.1 h

theorem told_cc (env : Env) (o : Opts) : ∀ n : Nat,
    (∀ t ts, 2 * ts.length + 2 ≤ n → ∀ e, charclass env o n t ts = .error e → Told env (t :: ts) e) ∧
    (∀ first ts, 2 * ts.length + 1 ≤ n → ∀ e, ccAtom env o n first ts = .error e → Told env ts e) ∧
    (∀ t neg c k ts, 2 * ts.length + 2 ≤ n → t.tok = .sym 91 → ∀ e, ccItems env o n t neg c k ts = .error e →
      ∀ xs pre op, (neg = false ∧ xs = [] ∨ neg = true ∧ ∃ x : LTok, x.tok = .sym 94 ∧ xs = [x]) →
        CC env o (.expr neg op) pre c k → (op = true → ¬ StartsWith (.sym 45) ts) →
        TellsOr env t (t :: (xs ++ (pre ++ ts))) e) := by
  intro n
  induction n with
  | zero => exact ⟨fun _ _ h => by omega, fun _ _ h => by omega, fun _ _ _ _ _ h => by omega⟩
  | succ n ih =>
    obtain ⟨ih1, ih2, ih3⟩ := ih
    refine ⟨fun t ts hn e h => ?_, fun first ts hn e h => ?_, fun t neg c k ts hn ht e h xs pre op hx hp hop => ?_⟩
    · have closed : ∀ b f, e = .report .unmatchedBracket b f → OpenClass env o (t :: ts) := by
        intro b f he s r hs c k hc
        have h0 := h
        obtain ⟨u, us, rfl, -⟩ := hc.head
        rw [List.cons_append] at hs
        obtain ⟨rfl, rfl⟩ := List.cons.inj hs
        rw [cc_complete hc (n + 1) (by simp at hn ⊢; omega) _ _ r rfl] at h0
        cases h0
      have done : t.tok = .sym 91 → TellsOr env t (t :: ts) e → Told env (t :: ts) e := by
        rintro ht (rfl | h)
        · exact .bracket (p := []) (o := o) rfl ht (closed _ _ rfl)
        · exact h
      have go : ∀ neg xs (ts' : List LTok), t.tok = .sym 91 → ts = xs ++ ts' →
          (neg = false ∧ xs = [] ∨ neg = true ∧ ∃ x : LTok, x.tok = .sym 94 ∧ xs = [x]) →
          (match ccAtom env o n (!neg) ts' with
            | .error e => .error (unclosed .unmatchedBracket t e)
            | .ok (c, k, ws) => ccItems env o n t neg c k ws : Res (Cls × Nat × List LTok)) = .error e →
          TellsOr env t (t :: ts) e := by
        intro neg xs ts' ht hts hx h'
        subst hts
        simp only [List.length_append] at hn
        cases ha : ccAtom env o n (!neg) ts' with
        | error x =>
          rw [ha] at h'; cases h'
          exact tellsOr_unclosed (Told.cons (Told.append (ih2 _ _ (by omega) _ ha)))
        | ok r =>
          obtain ⟨c, k, ws⟩ := r
          rw [ha] at h'
          obtain ⟨p, op, rfl, hp, hop⟩ := (cc_sound env o n).2.1 _ _ _ _ _ ha
          have := List.length_pos_of_ne_nil hp.ne_nil
          simp only [List.length_append] at hn
          exact ih3 _ _ _ _ _ (by omega) ht _ h' xs p op hx (.start hp) hop
      have h0 := h
      rw [charclass.eq_def] at h
      simp only at h
      split at h
      · split at h
        · cases h
        · cases h; trivial
      · rename_i ht
        split at h
        · cases h; exact done ht (Or.inl rfl)
        · rename_i u us
          split at h
          · rename_i hu
            split at h
            · cases h; exact done ht (Or.inl rfl)
            · rename_i v vs
              split at h
              · rename_i hv
                cases h
                obtain ⟨s, hs⟩ := Option.isSome_iff_exists.1 hv
                exact .operand (p := [] ++ [t, u]) rfl (setOp_operator hs) (.firstNeg ht hu)
              · exact done ht (go true [u] (v :: vs) ht rfl (Or.inr ⟨rfl, u, hu, rfl⟩) h)
          · split at h
            · rename_i hv
              cases h
              obtain ⟨s, hs⟩ := Option.isSome_iff_exists.1 hv
              exact .operand (p := [] ++ [t]) rfl (setOp_operator hs) (.first ht)
            · exact done ht (go false [] (u :: us) ht rfl (Or.inl ⟨rfl, rfl⟩) h)
      · cases h; exact told_unexpected _ _
    · cases ts with
      | nil => rw [ccAtom] at h; cases h; trivial
      | cons t ts =>
        simp only [List.length_cons] at hn
        rw [ccAtom.eq_def] at h
        simp only at h
        split at h
        · rename_i a ha
          split at h
          · rename_i hh
            obtain ⟨y, ey, hy⟩ := hyphenNext_tail hh
            split at h
            · cases h; trivial
            · rename_i v vs hv
              rw [hv] at ey
              subst ey
              split at h
              · rename_i d hd
                split at h
                · rename_i hle
                  cases h
                  exact .chars (p := []) rfl (ccOf_char ha) hy (ccOf_char (first := false) (by simpa using hd)) hle
                · cases h
              · split at h
                · rename_i e' he
                  cases h
                  simp only [List.length_cons] at hn
                  exact Told.cons (Told.cons (ih1 _ _ (by omega) _ he))
                · cases h
          · cases h
        · split at h
          · rename_i b hb
            split at h
            · rename_i hh
              obtain ⟨y, ey, hy⟩ := hyphenNext_tail hh
              split at h
              · cases h; trivial
              · rename_i v vs hv
                rw [hv] at ey
                subst ey
                split at h
                · rename_i d hd
                  split at h
                  · rename_i hle
                    cases h
                    exact .bytes (p := []) rfl (byteTok_eq hb) hy (byteTok_eq hd) hle
                  · split at h
                    · cases h
                    · cases h; trivial
                · split at h
                  · rename_i e' he
                    cases h
                    simp only [List.length_cons] at hn
                    exact Told.cons (Told.cons (ih1 _ _ (by omega) _ he))
                  · cases h
            · cases h
          · split at h
            · cases h
            · exact ih1 _ _ (by omega) _ h
    · cases ts with
      | nil => rw [ccItems] at h; cases h; exact Or.inl rfl
      | cons u us =>
        simp only [List.length_cons] at hn
        rw [ccItems.eq_def] at h
        simp only at h
        split at h
        · rename_i hu
          split at h
          · cases h
          · rename_i e' he
            cases h
            refine Or.inr ?_
            rcases hx with ⟨rfl, rfl⟩ | ⟨rfl, x, hx, rfl⟩
            · rcases closePos_error he with rfl | ⟨rfl, hc⟩
              · trivial
              · exact .empty (p := []) (s := pre) rfl ht hu (.pos hp hc)
            · rcases closeNeg_error he with rfl | ⟨rfl, hc⟩
              · trivial
              · exact .empty (p := []) (s := x :: pre) rfl ht hu (.neg hx hp hc)
        · split at h
          · rename_i s hs
            split at h
            · cases h; exact Or.inl rfl
            · rename_i v vs
              split at h
              · rename_i hv
                cases h
                refine Or.inr ?_
                have : t :: (xs ++ (pre ++ u :: v :: vs)) = (t :: (xs ++ pre)) ++ u :: v :: vs := by simp
                rw [this]
                exact .operand rfl (setOp_operator hs) (.last hv)
              · cases ha : ccAtom env o n false (v :: vs) with
                | error x =>
                  rw [ha] at h; cases h
                  have : t :: (xs ++ (pre ++ u :: v :: vs)) = (t :: (xs ++ (pre ++ [u]))) ++ v :: vs := by simp
                  rw [this]
                  exact tellsOr_unclosed (Told.append (ih2 _ _ (by simp at hn ⊢; omega) _ ha))
                | ok r =>
                  obtain ⟨d, j, ws⟩ := r
                  rw [ha] at h
                  simp only at h
                  obtain ⟨p, op', ep, hp', hop'⟩ := (cc_sound env o n).2.1 _ _ _ _ _ ha
                  have := List.length_pos_of_ne_nil hp'.ne_nil
                  have hl := congrArg List.length ep
                  simp only [List.length_append, List.length_cons] at hl hn
                  split at h
                  · rename_i c1 hc1
                    have := ih3 _ _ _ _ _ (by omega) ht _ h xs (pre ++ u :: p) op' hx (.binary hp hs hp' hc1) hop'
                    rw [ep]
                    simpa using this
                  · cases h; exact Or.inr trivial
          · cases ha : ccAtom env o n false (u :: us) with
            | error x =>
              rw [ha] at h; cases h
              have : t :: (xs ++ (pre ++ u :: us)) = (t :: (xs ++ pre)) ++ u :: us := by simp
              rw [this]
              exact tellsOr_unclosed (Told.append (ih2 _ _ (by simp at hn ⊢; omega) _ ha))
            | ok r =>
              obtain ⟨d, j, ws⟩ := r
              rw [ha] at h
              simp only at h
              obtain ⟨p, op', ep, hp', hop'⟩ := (cc_sound env o n).2.1 _ _ _ _ _ ha
              have := List.length_pos_of_ne_nil hp'.ne_nil
              have hl := congrArg List.length ep
              simp only [List.length_append, List.length_cons] at hl hn
              split at h
              · rename_i c1 hc1
                have hop2 : op = true → ¬ StartsWith (.sym 45) p := by
                  rintro ho ⟨x, xs, rfl, hx⟩
                  exact hop ho ⟨x, xs ++ ws, by rw [ep]; rfl, hx⟩
                have := ih3 _ _ _ _ _ (by omega) ht _ h xs (pre ++ p) op' hx (.union hp hp' hop2 hc1) hop'
                rw [ep]
                simpa using this
              · cases h; exact Or.inr trivial

theorem told_number {env ts'} : ∀ (ts : List LTok) (v : Nat) (e : Err), number v ts = .error e → Told env ts' e
  | [], _, _, h => by cases h
  | t :: ts, v, e, h => by
    rw [number] at h
    split at h
    · split at h
      · exact told_number ts _ e h
      · cases h; trivial
    · cases h

theorem told_readNumber {env ts e} (h : readNumber ts = .error e) : Told env ts e := by
  cases ts with
  | nil => cases h; trivial
  | cons t ts =>
    rw [readNumber] at h
    split at h
    · exact told_number _ _ _ h
    · cases h; exact told_unexpected _ _

theorem told_counted {env} {x : LTok} (hx : x.tok = .sym 123) {ts e} (h : counted x.first ts = .error e) :
    Told env (x :: ts) e := by
  unfold counted at h
  cases hr : readNumber ts with
  | error x => rw [hr] at h; cases h; exact Told.cons (told_readNumber hr)
  | ok r =>
    obtain ⟨n, vs⟩ := r
    rw [hr] at h
    obtain ⟨p, rfl, hp⟩ := readNumber_sound hr
    cases vs with
    | nil => cases h; trivial
    | cons y ws =>
      simp only at h
      split at h
      · cases h
      · split at h
        · rename_i hy
          cases ws with
          | nil => cases h; trivial
          | cons z xs =>
            simp only at h
            split at h
            · cases h
            · cases hr' : readNumber (z :: xs) with
              | error x => rw [hr'] at h; cases h; exact Told.cons (Told.append (Told.cons (told_readNumber hr')))
              | ok r =>
                obtain ⟨m, vs⟩ := r
                rw [hr'] at h
                obtain ⟨p', e', hp'⟩ := readNumber_sound hr'
                rw [e']
                cases vs with
                | nil => cases h; trivial
                | cons w zs =>
                  simp only at h
                  split at h
                  · rename_i hw
                    split at h
                    · rename_i hnm
                      cases h
                      obtain ⟨l, hl, hlz, -⟩ := nongreedy_sound zs
                      refine .bounds (p := []) (s := p) (r := p') (l := l) (q := (nongreedy zs).2) (z := w) ?_ hx hp hy hp' hw hlz hnm ?_
                      · rw [← hl]; rfl
                      · generalize (nongreedy zs).1 = b at hlz hl
                        generalize (nongreedy zs).2 = r at hl
                        cases hlz with
                        | no => simp [endOf]
                        | yes => rw [hl]; simp [endOf]
                    · cases h
                  · cases h; exact Told.cons (Told.append (Told.cons (Told.append (told_unexpected _ _))))
        · cases h; exact Told.cons (Told.append (told_unexpected _ _))

theorem told_quantifier {env ts e} (h : quantifier ts = .error e) : Told env ts e := by
  cases ts with
  | nil => cases h
  | cons t ts =>
    rw [quantifier] at h
    split at h
    · cases h
    · split at h
      · cases h
      · split at h
        · cases h
        · split at h
          · rename_i ht; exact told_counted ht h
          · cases h

theorem told_switches {env} : ∀ (ts : List LTok) (on seen : Bool) (o : Opts) (e : Err),
    switches on seen o ts = .error e → Told env ts e
  | [], _, _, _, _, h => by cases h; trivial
  | t :: ts, on, seen, o, e, h => by
    rw [switches] at h
    split at h
    · exact Told.cons (told_switches ts _ _ _ e h)
    · split at h
      · exact Told.cons (told_switches ts _ _ _ e h)
      · split at h
        · exact Told.cons (told_switches ts _ _ _ e h)
        · split at h
          · cases h
          · cases h; exact told_unexpected _ _

theorem literal_error {env o c e} (h : literal env o c = .error e) : e = .ub := by
  unfold literal at h
  split at h
  · cases h
  · split at h
    · cases h
    · cases h
    · cases h; rfl

theorem simple_error {env o t e} (h : simpleAtom env o t = some (.error e)) : e = .ub := by
  unfold simpleAtom at h
  split at h
  · cases hw : orUb (RangeSet.flip 0x110000 wordSet) with
    | error x => rw [hw] at h; cases h; exact orUb_error hw
    | ok x => rw [hw] at h; cases h
  · cases hw : orUb (RangeSet.flip 0x110000 wordSet) with
    | error x => rw [hw] at h; cases h; exact orUb_error hw
    | ok x => rw [hw] at h; cases h
  all_goals first
    | cases h
    | skip
  split at h
  · rename_i c _
    cases hl : literal env o c with
    | error x => rw [hl] at h; cases h; exact literal_error hl
    | ok x => rw [hl] at h; cases h
  · cases h

theorem told_badGroup (env : Env) (ts : List LTok) : Told env ts (badGroup ts) := by
  cases ts with
  | nil => trivial
  | cons t ts =>
    rw [badGroup]
    split
    · exact Told.cons (told_unexpected _ _)
    · exact told_unexpected _ _

/-- What is told unless the parenthesis `t` is not closed. -/
def TellsOr' (env : Env) (t : LTok) (ts : List LTok) (e : Err) : Prop :=
  e = .report .unmatchedParen t.first t.last ∨ Told env ts e

theorem tellsOr_unclosed' {env} {t : LTok} {ts e} (h : Told env ts e) :
    TellsOr' env t ts (unclosed .unmatchedParen t e) := by
  cases e with
  | eof => exact Or.inl rfl
  | _ => exact Or.inr h

theorem told_body (env : Env) (N : Nat) (n : Nat) :
    (∀ o l c sw k ts a, 4 * ts.length + 2 ≤ n → Chain N a ts → ∀ e,
      body env n o l c sw k ts = .error e → Told env ts e) ∧
    (∀ o l c k t ts a, 4 * ts.length + 3 ≤ n → Chain N a ts → ∀ e,
      afterAtom env n o l c k t ts = .error e → Told env ts e) := by
  induction n with
  | zero => exact ⟨fun _ _ _ _ _ _ _ h => by omega, fun _ _ _ _ _ _ _ h => by omega⟩
  | succ n ih =>
    obtain ⟨ih1, ih2⟩ := ih
    have fin : ∀ l c ts o k, ∀ e, finish l c ts o k = .error e → Told env ts e := by
      intro l c ts o k e h
      cases c with
      | none => cases h; exact told_unexpected _ _
      | some c => cases h
    refine ⟨fun o l c sw k ts a hn hc e h => ?_, fun o l c k t ts a hn hc e h => ?_⟩
    · cases ts with
      | nil => rw [body] at h; exact fin _ _ _ _ _ _ h
      | cons u us =>
        simp only [List.length_cons] at hn
        have hu1 := hc.2.1
        -- the parenthesis is not closed
        have opened : u.tok = .sym 40 → e = .report .unmatchedParen u.first u.last → OpenGroup env o (u :: us) := by
          rintro hu rfl s r hs
          have after : ∀ u' s', s = u' :: s' → Chain N u.last r ∧ r.length ≤ us.length := by
            rintro u' s' rfl
            obtain ⟨rfl, rfl⟩ := List.cons.inj hs
            exact ⟨Chain.suffix (p := s') hc.2.2.2, by simp⟩
          have far : Chain N u.last r → ¬ Told env r (.report .unmatchedParen u.first u.last) := by
            intro hr ht
            obtain ⟨x, hx, hxf⟩ := Fault.begins ht
            have := hr.le x hx
            omega
          constructor
          · intro t o' j hre
            obtain ⟨u', s', hs', -⟩ := hre.head
            obtain ⟨hr, hrl⟩ := after u' s' hs'
            have hsl : s.length ≤ us.length + 1 := by
              have := congrArg List.length hs
              simp only [List.length_cons, List.length_append] at this
              omega
            have := re_complete hre n (by omega) l c sw k r
            rw [← hs, h] at this
            exact far hr (ih2 _ _ _ _ _ _ _ (by omega) hr _ this.symm)
          · intro o' hsw
            obtain ⟨a', b', ps, hs', ha', hb', hrun⟩ := switch_run hsw
            obtain ⟨hr, hrl⟩ := after _ _ hs'
            by_cases hok : (sw || c.isSome) = true
            · have := body_switch (env := env) hsw n l c sw k r hok
              rw [← hs, h] at this
              exact far hr (ih1 _ _ _ _ _ _ _ (by omega) hr _ this.symm)
            · subst hs'
              simp only [List.cons_append] at hs
              obtain ⟨rfl, rfl⟩ := List.cons.inj hs
              obtain ⟨h1, h2, h3⟩ := hrun r
              rw [body.eq_def] at h
              have hq : queryNext (b' :: (ps ++ r)) = true := by simp [queryNext, hb']
              have hok : (sw || c.isSome) = false := by simpa using hok
              simp only [ha', hq, List.tail_cons, h3, hok] at h
              simp only [Bool.false_and] at h
              have hbad : ∃ x xs, ps ++ r = x :: xs ∧ (x.tok = .sym 97 ∨ x.tok = .sym 105 ∨ x.tok = .sym 45) := by
                cases hpr : ps ++ r with
                | nil => rw [hpr] at h2; cases h2
                | cons x xs =>
                  rw [hpr] at h2
                  exact ⟨x, xs, rfl, by simpa [startsSwitch, or_assoc] using h2⟩
              obtain ⟨x, xs, hxs, hx⟩ := hbad
              rw [hxs] at h
              have hx0 : x.tok ≠ .sym 60 := by rcases hx with hx | hx | hx <;> rw [hx] <;> simp
              have hx1 : x.tok ≠ .bad := by rcases hx with hx | hx | hx <;> rw [hx] <;> simp
              have hx2 : x.tok ≠ .noProp := by rcases hx with hx | hx | hx <;> rw [hx] <;> simp
              simp [badGroup, hx0, unexpected, hx1, hx2, unclosed] at h
        have done : u.tok = .sym 40 → TellsOr' env u (u :: us) e → Told env (u :: us) e := by
          rintro hu (he | h')
          · have := opened hu he
            subst he
            exact .paren (p := []) rfl hu this
          · exact h'
        have rest : ∀ (vs : List LTok) o t o' j ws, Chain N u.last vs →
            body env n o none none true 0 vs = .ok (t, o', j, ws) →
            ∃ p, vs = p ++ ws := by
          intro vs o t o' j ws hcv hb
          obtain ⟨p, b, rfl, -⟩ := (body_sound env n).1 _ _ _ _ _ _ _ _ _ _ hb o [] false (.init .nil)
            (fun _ _ => rfl) (fun h => by cases h)
          exact ⟨p, rfl⟩
        rw [body.eq_def] at h
        simp only at h
        split at h
        · split at h
          · cases h; exact told_unexpected _ _
          · exact Told.cons (ih1 _ _ _ _ _ _ _ (by omega) hc.2.2.2 _ h)
        split at h
        · split at h
          · cases h; exact told_unexpected _ _
          · exact Told.cons (ih1 _ _ _ _ _ _ _ (by omega) hc.2.2.2 _ h)
        split at h
        · rename_i hu
          refine done hu ?_
          split at h
          · rename_i hq
            obtain ⟨y, ey, hy⟩ := queryNext_tail hq
            have hct : Chain N u.last us.tail := by
              have hc := hc.2.2.2
              rw [ey] at hc
              exact hc.2.2.2.mono (by have := hc.1; have := hc.2.1; omega)
            have hlt : us.tail.length + 1 = us.length := by rw [ey]; simp
            have lift : ∀ {x}, Told env us.tail x → Told env (u :: us) x := by
              intro x hx
              rw [ey]
              exact Told.cons (Told.cons hx)
            split at h
            · rename_i kind vs hk
              obtain ⟨q, eq, ⟨w, hw⟩, -⟩ := lookKind_sound (a := u) hu hy hk
              have euv : us = w ++ vs := by
                rw [hw, List.cons_append] at eq
                rw [ey]
                exact (List.cons.inj eq).2
              have hcv : Chain N u.last vs := by
                have h1 := hc.2.2.2
                rw [euv] at h1
                exact h1.suffix
              have hlv : vs.length ≤ us.length := by rw [euv]; simp
              have liftv : ∀ {x}, Told env vs x → Told env (u :: us) x := by
                intro x hx
                rw [euv]
                exact Told.cons (Told.append hx)
              split at h
              · rename_i x hx
                cases h
                exact tellsOr_unclosed' (liftv (ih1 _ _ _ _ _ _ _ (by omega) hcv _ hx))
              · cases h; exact Or.inl rfl
              · rename_i t1 o1 j w1 ws hb
                obtain ⟨p, rfl⟩ := rest _ _ _ _ _ _ hcv hb
                have hcw := hcv.suffix
                simp only [List.length_append, List.length_cons] at hlv
                split at h
                · exact Or.inr (liftv (Told.append (Told.cons (ih2 _ _ _ _ _ _ _ (by omega) hcw.2.2.2 _ h))))
                · cases h; exact tellsOr_unclosed' (liftv (Told.append (told_unexpected _ _)))
            · split at h
              · split at h
                · rename_i x hx
                  cases h; exact tellsOr_unclosed' (lift (told_switches _ _ _ _ _ hx))
                · rename_i o1 vs hsw
                  obtain ⟨p, ep, hp⟩ := switches_sound (a := u) hu hy hsw
                  have h1 : Chain N a (u :: y :: us.tail) := by rw [← ey]; exact hc
                  obtain ⟨_, _, e2, _⟩ := hp.head
                  have hl := congrArg List.length ep
                  rw [e2] at hl
                  simp only [List.length_cons, List.length_append] at hl
                  rw [ep] at h1
                  refine Or.inr ?_
                  rw [ey, ep]
                  exact Told.append (ih1 _ _ _ _ _ _ _ (by omega) h1.suffix _ h)
              · cases h; exact tellsOr_unclosed' (lift (told_badGroup _ _))
          · split at h
            · rename_i x hx
              cases h; exact tellsOr_unclosed' (Told.cons (ih1 _ _ _ _ _ _ _ (by omega) hc.2.2.2 _ hx))
            · cases h; exact Or.inl rfl
            · rename_i t1 o1 j w ws hb
              obtain ⟨p, rfl⟩ := rest _ _ _ _ _ _ hc.2.2.2 hb
              have hcw := hc.2.2.2.suffix
              simp only [List.length_append, List.length_cons] at hn
              split at h
              · exact Or.inr (Told.cons (Told.append (Told.cons (ih2 _ _ _ _ _ _ _ (by omega) hcw.2.2.2 _ h))))
              · cases h; exact tellsOr_unclosed' (Told.cons (Told.append (told_unexpected _ _)))
        split at h
        · split at h
          · rename_i x hx
            cases h
            exact (told_cc env o n).1 _ _ (by omega) _ hx
          · rename_i x j vs hx
            obtain ⟨p, ep, hp⟩ := (cc_sound env o n).1 _ _ _ _ _ hx
            have := List.length_pos_of_ne_nil hp.ne_nil
            have h2 := congrArg List.length ep
            simp only [List.length_cons, List.length_append] at h2
            rw [ep] at hc ⊢
            exact Told.append (ih2 _ _ _ _ _ _ _ (by omega) hc.suffix _ h)
        split at h
        · rename_i hx
          cases h
          rw [simple_error hx]; trivial
        · exact Told.cons (ih2 _ _ _ _ _ _ _ (by omega) hc.2.2.2 _ h)
        · exact fin _ _ _ _ _ _ h
    · rw [afterAtom.eq_def] at h
      simp only at h
      split at h
      · rename_i x hx
        cases h; exact told_quantifier hx
      · rename_i q j us hq
        have hr : ∃ p, ts = p ++ us := by
          rcases quantifier_sound hq with ⟨-, -, rfl, -⟩ | ⟨p, _, _, _, -, rfl, -⟩
          · exact ⟨[], rfl⟩
          · exact ⟨p, rfl⟩
        obtain ⟨p, rfl⟩ := hr
        simp only [List.length_append] at hn
        exact Told.append (ih1 _ _ _ _ _ _ _ (by omega) hc.suffix _ h)

/-- **C72** When a pattern that is not empty is refused with a message, the fault that the
message names is in the pattern at the place that it names. -/
theorem error_names_fault {env : Env} (he : env.Shortens) (p : PatternOpts) (text : List Int) (hne : text ≠ [])
    {k : ErrKind} {b e : Nat} (h : parse env p text = .error (.report k b e)) :
    Fault env (lex env p.fixed text.length text.length text) k b e := by
  have hc : Chain text.length 0 (lex env p.fixed text.length text.length text) :=
    (lex_chain he p.fixed text.length text.length text (Nat.le_refl _)).mono (Nat.zero_le _)
  unfold parse parseTokens at h
  split at h
  · cases h
  · rename_i us _ hb
    obtain ⟨q, b', e', -⟩ := (body_sound env _).1 _ _ _ _ _ _ _ _ _ _ hb _ [] false (.init .nil)
      (fun _ _ => rfl) (fun h => by cases h)
    rw [e']
    have : Told env (q ++ us) (unexpected us) := Told.append (told_unexpected _ _)
    have hx := Except.error.inj h
    rw [hx] at this
    exact this
  · rw [if_neg (by rw [lex_nil (Nat.le_refl _)]; exact hne)] at h
    cases h
  · rename_i hb
    cases h
    exact (told_body env text.length _).1 _ _ _ _ _ _ _ (by simp [fuelFor]) hc _ hb

end Verif.Parser
