import Verif.Props.Grammar
/-!
# Errors in patterns (C59)
-/
namespace Verif.Parser

open Verif.Regex (Tree UNB)
open Verif.Encoders (Node)

/-- The tokens lie one after the other between `a` and `N`, none of them empty. -/
def Chain (N : Nat) : Nat → List LTok → Prop
  | _, [] => True
  | a, t :: ts => a ≤ t.first ∧ t.first < t.last ∧ t.last ≤ N ∧ Chain N t.last ts

theorem Chain.mono {N a b ts} (h : Chain N b ts) (hab : a ≤ b) : Chain N a ts := by
  cases ts with
  | nil => trivial
  | cons t ts => exact ⟨Nat.le_trans hab h.1, h.2⟩

theorem Chain.suffix {N a p rest} (h : Chain N a (p ++ rest)) : Chain N a rest := by
  induction p generalizing a with
  | nil => exact h
  | cons t p ih => exact (ih h.2.2.2).mono (by have := h.1; have := h.2.1; omega)

/-- An error that the user can be shown: a reported range is a non-empty part of a text of
`N` characters. -/
def Good (N : Nat) : Err → Prop
  | .report _ b e => b < e ∧ e ≤ N
  | .fuel => False
  | _ => True

theorem good_unexpected {N a ts} (h : Chain N a ts) : Good N (unexpected ts) := by
  cases ts with
  | nil => trivial
  | cons t ts =>
    by_cases h1 : t.tok = .bad
    · simp only [unexpected, if_pos h1]; exact ⟨h.2.1, h.2.2.1⟩
    · by_cases h2 : t.tok = .noProp
      · simp only [unexpected, if_neg h1, if_pos h2]; trivial
      · simp only [unexpected, if_neg h1, if_neg h2]; exact ⟨h.2.1, h.2.2.1⟩

theorem good_unclosed {N k} {t : LTok} {e} (h : t.first < t.last) (h' : t.last ≤ N) (he : Good N e) :
    Good N (unclosed k t e) := by
  cases e with
  | eof => exact ⟨h, h'⟩
  | _ => exact he

theorem good_orUb {N} {α : Type} {x : Option α} {e} (h : orUb x = .error e) : Good N e := by
  cases x with
  | none => cases h; trivial
  | some a => cases h

theorem good_foldCls {N env o c e} (h : foldCls env o c = .error e) : Good N e := by
  unfold foldCls at h
  split at h
  · cases h
  · split at h
    · cases h
    · cases h; trivial

theorem good_closePos {N env o b f c e} (hb : b < f) (hf : f ≤ N)
    (h : closePos env o b f c = .error e) : Good N e := by
  unfold closePos at h
  cases hc : foldCls env o c with
  | error x => rw [hc] at h; cases h; exact good_foldCls hc
  | ok x =>
    rw [hc] at h
    simp only [bind, Except.bind] at h
    split at h
    · cases h; exact ⟨hb, hf⟩
    · cases h

theorem good_closeNeg {N env o b f c e} (hb : b < f) (hf : f ≤ N)
    (h : closeNeg env o b f c = .error e) : Good N e := by
  unfold closeNeg at h
  split at h
  · cases hc : foldCls env o c with
    | error x => rw [hc] at h; cases h; exact good_foldCls hc
    | ok x =>
      rw [hc] at h
      simp only [bind, Except.bind] at h
      cases hs : orUb (RangeSet.flip 0x110000 x.cps) with
      | error y => rw [hs] at h; cases h; exact good_orUb hs
      | ok y =>
        rw [hs] at h
        simp only at h
        split at h
        · cases h; exact ⟨hb, hf⟩
        · cases h
  · split at h
    · split at h
      · cases h; exact ⟨hb, hf⟩
      · cases h
    · cases hs : orUb (RangeSet.flip 0x110000 c.cps) with
      | error y => rw [hs] at h; cases h; exact good_orUb hs
      | ok y => rw [hs] at h; cases h

theorem good_cc (env : Env) (o : Opts) (N : Nat) : ∀ n : Nat,
    (∀ t ts a, 2 * ts.length + 2 ≤ n → Chain N a (t :: ts) → ∀ e,
      charclass env o n t ts = .error e → Good N e) ∧
    (∀ first ts a, 2 * ts.length + 1 ≤ n → Chain N a ts → ∀ e,
      ccAtom env o n first ts = .error e → Good N e) ∧
    (∀ t neg c k ts, 2 * ts.length + 2 ≤ n → t.first < t.last → t.last ≤ N → Chain N t.last ts → ∀ e,
      ccItems env o n t neg c k ts = .error e → Good N e) := by
  intro n
  induction n with
  | zero => exact ⟨fun _ _ _ h => by omega, fun _ _ _ h => by omega, fun _ _ _ _ _ h => by omega⟩
  | succ n ih =>
    obtain ⟨ih1, ih2, ih3⟩ := ih
    refine ⟨fun t ts a hn hc e h => ?_, fun first ts a hn hc e h => ?_,
      fun t neg c k ts hn ht ht' hc e h => ?_⟩
    · have h1 := hc.2.1
      have h2 := hc.2.2.1
      have go : ∀ neg (ts' : List LTok), ts'.length ≤ ts.length → Chain N t.last ts' →
          (match ccAtom env o n (!neg) ts' with
            | .error e => .error (unclosed .unmatchedBracket t e)
            | .ok (c, k, ws) => ccItems env o n t neg c k ws : Res (Cls × Nat × List LTok)) = .error e → Good N e := by
        intro neg ts' hl hc' h
        cases ha : ccAtom env o n (!neg) ts' with
        | error x =>
          rw [ha] at h; cases h
          exact good_unclosed h1 h2 (ih2 _ _ _ (by omega) hc' _ ha)
        | ok r =>
          obtain ⟨c, k, ws⟩ := r
          rw [ha] at h
          obtain ⟨p, op, rfl, hp, -⟩ := (cc_sound env o n).2.1 _ _ _ _ _ ha
          have := List.length_pos_of_ne_nil hp.ne_nil
          simp only [List.length_append] at hl
          exact ih3 _ _ _ _ _ (by omega) h1 h2 hc'.suffix _ h
      rw [charclass.eq_def] at h
      simp only at h
      split at h
      · split at h
        · cases h
        · cases h; trivial
      · split at h
        · cases h; exact ⟨h1, h2⟩
        · rename_i u us
          split at h
          · split at h
            · cases h; exact ⟨h1, h2⟩
            · rename_i v vs
              split at h
              · cases h; exact ⟨hc.2.2.2.2.2.2.2.1, hc.2.2.2.2.2.2.2.2.1⟩
              · exact go true (v :: vs) (by simp) (hc.2.2.2.2.2.2.mono (by
                  have := hc.2.2.2.1; have := hc.2.2.2.2.1; omega)) h
          · split at h
            · cases h; exact ⟨hc.2.2.2.2.1, hc.2.2.2.2.2.1⟩
            · exact go false (u :: us) (by simp) hc.2.2.2 h
      · cases h; exact good_unexpected hc
    · cases ts with
      | nil => rw [ccAtom] at h; cases h; trivial
      | cons t ts =>
        have tailc : ∀ v vs, ts.tail = v :: vs → hyphenNext ts = true →
            Chain N t.last (v :: vs) ∧ vs.length + 2 ≤ ts.length := by
          intro v vs hv hh
          cases ts with
          | nil => cases hv
          | cons y ys =>
            simp only [List.tail_cons] at hv
            subst hv
            exact ⟨hc.2.2.2.2.2.2.mono (by have := hc.2.2.2.1; have := hc.2.2.2.2.1; omega), by simp⟩
        simp only [List.length_cons] at hn
        rw [ccAtom.eq_def] at h
        simp only at h
        split at h
        · split at h
          · rename_i hh
            split at h
            · cases h; trivial
            · rename_i v vs hv
              obtain ⟨hcv, hl⟩ := tailc _ _ hv hh
              split at h
              · split at h
                · cases h
                  exact ⟨by have := hc.2.1; have := hcv.1; have := hcv.2.1; omega, hcv.2.2.1⟩
                · cases h
              · split at h
                · rename_i e' he
                  cases h
                  exact ih1 _ _ _ (by omega) hcv _ he
                · cases h
          · cases h
        · split at h
          · split at h
            · rename_i hh
              split at h
              · cases h; trivial
              · rename_i v vs hv
                obtain ⟨hcv, hl⟩ := tailc _ _ hv hh
                split at h
                · split at h
                  · cases h
                    exact ⟨by have := hc.2.1; have := hcv.1; have := hcv.2.1; omega, hcv.2.2.1⟩
                  · split at h
                    · cases h
                    · cases h; trivial
                · split at h
                  · rename_i e' he
                    cases h
                    exact ih1 _ _ _ (by omega) hcv _ he
                  · cases h
            · cases h
          · split at h
            · cases h
            · exact ih1 _ _ _ (by omega) hc _ h
    · cases ts with
      | nil => rw [ccItems] at h; cases h; exact ⟨ht, ht'⟩
      | cons u us =>
        have hu1 : t.first < u.last := by have := hc.1; have := hc.2.1; omega
        simp only [List.length_cons] at hn
        rw [ccItems.eq_def] at h
        simp only at h
        split at h
        · split at h
          · cases h
          · rename_i e' he
            cases h
            cases neg with
            | true => exact good_closeNeg hu1 hc.2.2.1 he
            | false => exact good_closePos hu1 hc.2.2.1 he
        · have go : ∀ op (ts' : List LTok), ts'.length ≤ us.length + 1 → Chain N t.last ts' →
              (match ccAtom env o n false ts' with
              | .error e => .error (unclosed .unmatchedBracket t e)
              | .ok (d, j, ws) =>
                match Cls.combine op c d with
                | some c' => ccItems env o n t neg c' (k + j) ws
                | none => .error .ub : Res (Cls × Nat × List LTok)) = .error e → Good N e := by
            intro op ts' hl hc' h
            cases ha : ccAtom env o n false ts' with
            | error x =>
              rw [ha] at h; cases h
              exact good_unclosed ht ht' (ih2 _ _ _ (by omega) hc' _ ha)
            | ok r =>
              obtain ⟨d, j, ws⟩ := r
              rw [ha] at h
              simp only at h
              obtain ⟨p, op', rfl, hp, -⟩ := (cc_sound env o n).2.1 _ _ _ _ _ ha
              have := List.length_pos_of_ne_nil hp.ne_nil
              simp only [List.length_append] at hl
              split at h
              · exact ih3 _ _ _ _ _ (by omega) ht ht' hc'.suffix _ h
              · cases h; trivial
          split at h
          · split at h
            · cases h; exact ⟨ht, ht'⟩
            · rename_i v vs
              split at h
              · cases h; exact ⟨hc.2.1, hc.2.2.1⟩
              · exact go _ (v :: vs) (by simp) (hc.2.2.2.mono (by
                  have := hc.1; have := hc.2.1; omega)) h
          · exact go _ (u :: us) (by simp) hc h

theorem good_number {N} : ∀ (ts : List LTok) (v : Nat) (e : Err), number v ts = .error e → Good N e
  | [], _, _, h => by cases h
  | t :: ts, v, e, h => by
    rw [number] at h
    split at h
    · split at h
      · exact good_number ts _ e h
      · cases h; trivial
    · cases h

theorem good_readNumber {N a ts e} (hc : Chain N a ts) (h : readNumber ts = .error e) : Good N e := by
  cases ts with
  | nil => cases h; trivial
  | cons t ts =>
    rw [readNumber] at h
    split at h
    · exact good_number _ _ _ h
    · cases h; exact good_unexpected hc

theorem good_counted {N} {f a ts e} (hc : Chain N a ts) (hf : f < a)
    (h : counted f ts = .error e) : Good N e := by
  unfold counted at h
  cases hr : readNumber ts with
  | error x => rw [hr] at h; cases h; exact good_readNumber hc hr
  | ok r =>
    obtain ⟨n, vs⟩ := r
    rw [hr] at h
    obtain ⟨p, rfl, -⟩ := readNumber_sound hr
    have hc := hc.suffix
    cases vs with
    | nil => cases h; trivial
    | cons x ws =>
      simp only at h
      split at h
      · cases h
      · split at h
        · cases ws with
          | nil => cases h; trivial
          | cons y xs =>
            simp only at h
            split at h
            · cases h
            · cases hr' : readNumber (y :: xs) with
              | error x => rw [hr'] at h; cases h; exact good_readNumber hc.2.2.2 hr'
              | ok r =>
                obtain ⟨m, vs⟩ := r
                rw [hr'] at h
                obtain ⟨p', e', -⟩ := readNumber_sound hr'
                have hc' : Chain N x.last vs := Chain.suffix (p := p') (by rw [← e']; exact hc.2.2.2)
                cases vs with
                | nil => cases h; trivial
                | cons z zs =>
                  simp only at h
                  split at h
                  · split at h
                    · cases h
                      have h1 := hc.1
                      have h2 := hc.2.1
                      have h3 := hc'.1
                      have h4 := hc'.2.1
                      split
                      · cases zs with
                        | nil => exact ⟨by simp; omega, by simpa using hc'.2.2.1⟩
                        | cons w ws =>
                          have h5 := hc'.2.2.2.1
                          have h6 := hc'.2.2.2.2.1
                          exact ⟨by simp; omega, by simpa using hc'.2.2.2.2.2.1⟩
                      · exact ⟨by omega, hc'.2.2.1⟩
                    · cases h
                  · cases h; exact good_unexpected hc'
        · cases h; exact good_unexpected hc

theorem good_quantifier {N a ts e} (hc : Chain N a ts) (h : quantifier ts = .error e) : Good N e := by
  cases ts with
  | nil => cases h
  | cons t ts =>
    rw [quantifier] at h
    split at h
    · cases h
    · split at h
      · cases h
      · split at h
        · cases h
        · split at h
          · exact good_counted hc.2.2.2 hc.2.1 h
          · cases h

theorem good_switches {N} : ∀ (ts : List LTok) (on seen : Bool) (o : Opts) (a : Nat) (e : Err),
    Chain N a ts → switches on seen o ts = .error e → Good N e
  | [], _, _, _, _, _, _, h => by cases h; trivial
  | t :: ts, on, seen, o, a, e, hc, h => by
    rw [switches] at h
    split at h
    · exact good_switches ts _ _ _ _ e hc.2.2.2 h
    · split at h
      · exact good_switches ts _ _ _ _ e hc.2.2.2 h
      · split at h
        · exact good_switches ts _ _ _ _ e hc.2.2.2 h
        · split at h
          · cases h
          · cases h; exact good_unexpected hc

theorem good_literal {N env o c e} (h : literal env o c = .error e) : Good N e := by
  unfold literal at h
  split at h
  · cases h
  · split at h
    · cases h
    · cases h
    · cases h; trivial

theorem good_simple {N env o t e} (h : simpleAtom env o t = some (.error e)) : Good N e := by
  unfold simpleAtom at h
  split at h
  · cases hw : orUb (RangeSet.flip 0x110000 wordSet) with
    | error x => rw [hw] at h; cases h; exact good_orUb hw
    | ok x => rw [hw] at h; cases h
  · cases hw : orUb (RangeSet.flip 0x110000 wordSet) with
    | error x => rw [hw] at h; cases h; exact good_orUb hw
    | ok x => rw [hw] at h; cases h
  all_goals first
    | cases h
    | skip
  split at h
  · rename_i c _
    cases hl : literal env o c with
    | error x => rw [hl] at h; cases h; exact good_literal hl
    | ok x => rw [hl] at h; cases h
  · cases h

theorem good_badGroup {N a ts} (hc : Chain N a ts) : Good N (badGroup ts) := by
  cases ts with
  | nil => trivial
  | cons t ts =>
    rw [badGroup]
    split
    · exact good_unexpected hc.2.2.2
    · exact good_unexpected hc

theorem good_body (env : Env) (N : Nat) (n : Nat) :
    (∀ o l c sw k ts a, 2 * ts.length + 2 ≤ n → Chain N a ts → ∀ e,
      body env n o l c sw k ts = .error e → Good N e) ∧
    (∀ o l c k t ts a, 2 * ts.length + 3 ≤ n → Chain N a ts → ∀ e,
      afterAtom env n o l c k t ts = .error e → Good N e) := by
  induction n with
  | zero => exact ⟨fun _ _ _ _ _ _ _ h => by omega, fun _ _ _ _ _ _ _ h => by omega⟩
  | succ n ih =>
    obtain ⟨ih1, ih2⟩ := ih
    have fin : ∀ l c ts o k a, Chain N a ts → ∀ e, finish l c ts o k = .error e → Good N e := by
      intro l c ts o k a hc e h
      cases c with
      | none => cases h; exact good_unexpected hc
      | some c => cases h
    refine ⟨fun o l c sw k ts a hn hc e h => ?_, fun o l c k t ts a hn hc e h => ?_⟩
    · cases ts with
      | nil => rw [body] at h; exact fin _ _ _ _ _ _ hc _ h
      | cons u us =>
        simp only [List.length_cons] at hn
        have hu1 := hc.2.1
        have hu2 := hc.2.2.1
        have inner : ∀ (vs : List LTok), vs.length ≤ us.length → Chain N u.last vs → ∀ o x,
            body env n o none none true 0 vs = .error x → Good N (unclosed .unmatchedParen u x) := by
          intro vs hl hcv o x hx
          exact good_unclosed hu1 hu2 (ih1 _ _ _ _ _ _ _ (by omega) hcv _ hx)
        have rest : ∀ (vs : List LTok) o t o' j ws, Chain N u.last vs →
            body env n o none none true 0 vs = .ok (t, o', j, ws) →
            Chain N u.last ws ∧ ws.length ≤ vs.length := by
          intro vs o t o' j ws hcv hb
          obtain ⟨p, b, rfl, -⟩ := (body_sound env n).1 _ _ _ _ _ _ _ _ _ _ hb o [] false (.init .nil)
            (fun _ _ => rfl) (fun h => by cases h)
          exact ⟨hcv.suffix, by simp⟩
        rw [body.eq_def] at h
        simp only at h
        split at h
        · split at h
          · cases h; exact good_unexpected hc
          · exact ih1 _ _ _ _ _ _ _ (by omega) hc.2.2.2 _ h
        split at h
        · split at h
          · cases h; exact good_unexpected hc
          · exact ih1 _ _ _ _ _ _ _ (by omega) hc.2.2.2 _ h
        split at h
        · split at h
          · rename_i hq
            obtain ⟨y, ey, hy⟩ := queryNext_tail hq
            have hct : Chain N u.last us.tail := by
              have hc := hc.2.2.2
              rw [ey] at hc
              exact hc.2.2.2.mono (by have := hc.1; have := hc.2.1; omega)
            have hlt : us.tail.length + 1 = us.length := by rw [ey]; simp
            split at h
            · rename_i kind vs hk
              obtain ⟨q, eq, ⟨w, hw⟩, -⟩ := lookKind_sound (a := u) ‹_› hy hk
              have hcv : Chain N u.last vs := by
                rw [hw, List.cons_append] at eq
                have e1 := (List.cons.inj eq).2
                cases w with
                | nil =>
                  simp only [List.nil_append] at e1
                  have h5 : vs.length = us.tail.length + 1 := by rw [← e1]; simp
                  rw [ey] at hc
                  rw [← e1]
                  exact hc.2.2.2
                | cons z zs =>
                  rw [List.cons_append] at e1
                  have e2 := (List.cons.inj e1).2
                  rw [e2] at hct
                  exact hct.suffix
              have hlv : vs.length ≤ us.length := by
                have := congrArg List.length eq
                rw [hw] at this
                simp only [List.length_cons, List.length_append] at this
                omega
              split at h
              · rename_i x hx
                cases h; exact inner _ hlv hcv _ _ hx
              · cases h; exact ⟨hu1, hu2⟩
              · rename_i t1 o1 j w ws hb
                obtain ⟨hcw, hlw⟩ := rest _ _ _ _ _ _ hcv hb
                split at h
                · simp only [List.length_cons] at hlw
                  exact ih2 _ _ _ _ _ _ _ (by omega) hcw.2.2.2 _ h
                · cases h; exact good_unclosed hu1 hu2 (good_unexpected hcw)
            · split at h
              · split at h
                · rename_i x hx
                  cases h; exact good_unclosed hu1 hu2 (good_switches _ _ _ _ _ _ hct hx)
                · rename_i o1 vs hsw
                  obtain ⟨p, ep, hp⟩ := switches_sound (a := u) ‹_› hy hsw
                  have h1 : Chain N a (u :: y :: us.tail) := by rw [← ey]; exact hc
                  rw [ep] at h1
                  obtain ⟨_, _, e2, _⟩ := hp.head
                  have := congrArg List.length ep
                  rw [e2] at this
                  simp only [List.length_cons, List.length_append] at this
                  exact ih1 _ _ _ _ _ _ _ (by omega) h1.suffix _ h
              · cases h; exact good_unclosed hu1 hu2 (good_badGroup hct)
          · split at h
            · rename_i x hx
              cases h; exact inner _ (Nat.le_refl _) hc.2.2.2 _ _ hx
            · cases h; exact ⟨hu1, hu2⟩
            · rename_i t1 o1 j w ws hb
              obtain ⟨hcw, hlw⟩ := rest _ _ _ _ _ _ hc.2.2.2 hb
              split at h
              · simp only [List.length_cons] at hlw
                exact ih2 _ _ _ _ _ _ _ (by omega) hcw.2.2.2 _ h
              · cases h; exact good_unclosed hu1 hu2 (good_unexpected hcw)
        split at h
        · split at h
          · rename_i x hx
            cases h
            exact (good_cc env o N n).1 _ _ _ (by omega) hc _ hx
          · rename_i x j vs hx
            obtain ⟨p, ep, hp⟩ := (cc_sound env o n).1 _ _ _ _ _ hx
            have := List.length_pos_of_ne_nil hp.ne_nil
            have h2 := congrArg List.length ep
            simp only [List.length_cons, List.length_append] at h2
            rw [ep] at hc
            exact ih2 _ _ _ _ _ _ _ (by omega) hc.suffix _ h
        split at h
        · rename_i hx
          cases h; exact good_simple hx
        · exact ih2 _ _ _ _ _ _ _ (by omega) hc.2.2.2 _ h
        · exact fin _ _ _ _ _ _ hc _ h
    · rw [afterAtom.eq_def] at h
      simp only at h
      split at h
      · rename_i x hx
        cases h; exact good_quantifier hc hx
      · rename_i q j us hq
        have hr : ∃ p, ts = p ++ us := by
          rcases quantifier_sound hq with ⟨-, -, rfl, -⟩ | ⟨p, _, _, _, -, rfl, -⟩
          · exact ⟨[], rfl⟩
          · exact ⟨p, rfl⟩
        obtain ⟨p, rfl⟩ := hr
        simp only [List.length_append] at hn
        exact ih1 _ _ _ _ _ _ _ (by omega) hc.suffix _ h

/-! ## The lexer -/

/-- The rest of the text after an escape is a part of it. -/
structure Env.Shortens (env : Env) : Prop where
  byName : ∀ t, (env.byName t).2.length ≤ t.length

theorem plain_shortens : plain.Shortens := ⟨fun _ => Nat.le_refl _⟩

theorem hexByte_length : ∀ t : List Int, (ParseUtil.parseHexByte t).2.length ≤ t.length
  | [] => by simp [ParseUtil.parseHexByte]
  | [c] => by
    cases hc : ParseUtil.parseHexChar c <;> simp [ParseUtil.parseHexByte, hc]
  | c :: d :: r => by
    cases hc : ParseUtil.parseHexChar c <;> cases hd : ParseUtil.parseHexChar d <;>
      simp [ParseUtil.parseHexByte, hc, hd] <;> omega

theorem hexLoop_length : ∀ (n v : Nat) (t : List Int), (ParseUtil.hexLoop n v t).2.length ≤ t.length
  | 0, _, _ => Nat.le_refl _
  | _ + 1, _, [] => Nat.le_refl _
  | n + 1, v, c :: t => by
    rw [ParseUtil.hexLoop]
    split
    · exact Nat.le_trans (hexLoop_length n _ t) (by simp)
    · split
      · split <;> simp
      · simp

theorem hexCodePoint_length (t : List Int) : (ParseUtil.parseHexCodePoint t).2.length ≤ t.length := by
  cases t with
  | nil => exact Nat.le_refl _
  | cons c t =>
    rw [ParseUtil.parseHexCodePoint]
    split
    · exact Nat.le_refl _
    · exact hexLoop_length _ _ _

theorem octLoop_length : ∀ (n v : Nat) (t : List Int), (ParseUtil.octLoop n v t).2.length ≤ t.length
  | 0, _, _ => Nat.le_refl _
  | _ + 1, _, [] => Nat.le_refl _
  | n + 1, v, c :: t => by
    rw [ParseUtil.octLoop]
    split
    · exact Nat.le_refl _
    · exact Nat.le_trans (octLoop_length n _ t) (by simp)

theorem named_length {env : Env} (h : env.Shortens) (t : List Int) :
    (ParseUtil.parseNamedCodePoint env.byName t).2.length ≤ t.length := by
  cases t with
  | nil => exact Nat.le_refl _
  | cons c t =>
    unfold ParseUtil.parseNamedCodePoint
    simp only
    split
    · simp
    · split
      · exact Nat.le_trans (hexCodePoint_length _) (by simp; omega)
      · exact Nat.le_trans (h.byName _) (by simp)

theorem singleton_length (r : Option Nat × List Int) (f) :
    (ParseUtil.consumeSingleton r f).2 = r.2 := by
  unfold ParseUtil.consumeSingleton; split <;> rfl

theorem numeric_length {env : Env} (h : env.Shortens) {t k r}
    (he : ParseUtil.consumeNumeric env.byName t = some (k, r)) : r.length ≤ t.length := by
  cases t with
  | nil => cases he
  | cons c t =>
    unfold ParseUtil.consumeNumeric at he
    simp only at he
    split at he
    · split at he
      · cases he; simp
      · split at he
        · have := congrArg Prod.snd (Option.some.inj he)
          rw [singleton_length] at this
          rw [← show _ = r from this]
          exact Nat.le_trans (hexCodePoint_length _) (by simp; omega)
        · have := congrArg Prod.snd (Option.some.inj he)
          rw [singleton_length] at this
          rw [← show _ = r from this]
          exact Nat.le_trans (hexByte_length _) (by simp)
    · split at he
      · have := congrArg Prod.snd (Option.some.inj he)
        rw [singleton_length] at this
        rw [← show _ = r from this]
        exact Nat.le_trans (hexByte_length _) (by simp)
      · split at he
        · have := congrArg Prod.snd (Option.some.inj he)
          rw [singleton_length] at this
          rw [← show _ = r from this]
          exact octLoop_length _ _ _
        · split at he
          · have := congrArg Prod.snd (Option.some.inj he)
            rw [singleton_length] at this
            rw [← show _ = r from this]
            exact Nat.le_trans (named_length h _) (by simp)
          · cases he

theorem property_length {env c t} : (property env c t).2.length ≤ t.length := by
  unfold property
  split
  · simp
  · split
    · exact Nat.le_refl _
    · split
      · simp only
        split <;> (simp; try omega)
      · simp

theorem escape_length {env : Env} (h : env.Shortens) (t : List Int) :
    (escape env t).2.length ≤ t.length := by
  cases t with
  | nil => exact Nat.le_refl _
  | cons c t =>
    rw [escape]
    split
    · simp
    · split
      · simp
      · split
        · simp
        · split
          · rename_i hn; exact numeric_length h hn
          · rename_i hn; exact numeric_length h hn
          · rename_i hn; exact numeric_length h hn
          · split
            · exact Nat.le_trans property_length (by simp)
            · split <;> simp

theorem lexOne_length {env : Env} (h : env.Shortens) (lit : Bool) (c : Int) (t : List Int) :
    (lexOne env lit c t).2.length ≤ t.length := by
  unfold lexOne
  split
  · exact Nat.le_refl _
  split
  · exact Nat.le_refl _
  split
  · exact Nat.le_refl _
  split
  · split <;> simp
  split
  · split <;> simp
  split
  · split <;> simp
  split
  · exact escape_length h t
  split
  · exact Nat.le_refl _
  · exact Nat.le_refl _

theorem lex_chain {env : Env} (h : env.Shortens) (lit : Bool) (N : Nat) : ∀ (n : Nat) (t : List Int),
    t.length ≤ N → Chain N (N - t.length) (lex env lit N n t)
  | 0, _, _ => trivial
  | _ + 1, [], _ => trivial
  | n + 1, c :: t, hN => by
    have hl := lexOne_length h lit c t
    simp only [List.length_cons] at hN
    refine ⟨Nat.le_refl _, ?_, Nat.sub_le _ _, ?_⟩
    · simp only; omega
    · exact lex_chain h lit N n _ (by omega)

theorem lex_nil {env lit N n t} (hn : t.length ≤ n) : lex env lit N n t = [] ↔ t = [] := by
  cases n with
  | zero =>
    have : t = [] := List.length_eq_zero_iff.1 (by omega)
    subst this
    simp [lex]
  | succ n => cases t <;> simp [lex]

/-- **C59**: when a pattern that is not empty is refused with a range, the range is a
non-empty part of the pattern's text, so that copying it into the message reads nothing else;
and no text is too deep for the model's recursion. -/
theorem error_range_in_pattern {env : Env} (he : env.Shortens) (p : PatternOpts) (text : List Int)
    (hne : text ≠ []) (e : Err) (h : parse env p text = .error e) :
    e ≠ .fuel ∧ ∀ k b f, e = .report k b f → b < f ∧ f ≤ text.length := by
  have key : Good text.length e := by
    have hc : Chain text.length 0 (lex env p.fixed text.length text.length text) :=
      (lex_chain he p.fixed text.length text.length text (Nat.le_refl _)).mono (Nat.zero_le _)
    unfold parse parseTokens at h
    split at h
    · cases h
    · rename_i us hu _ hb
      obtain ⟨q, b, e', -⟩ := (body_sound env _).1 _ _ _ _ _ _ _ _ _ _ hb _ [] false (.init .nil)
        (fun _ _ => rfl) (fun h => by cases h)
      rw [e'] at hc
      cases h; exact good_unexpected hc.suffix
    · rw [if_neg (by rw [lex_nil (Nat.le_refl _)]; exact hne)] at h
      cases h; trivial
    · rename_i hb
      cases h
      exact (good_body env _ _).1 _ _ _ _ _ _ _ (by unfold fuelFor; omega) hc _ hb
  cases e with
  | fuel => exact key.elim
  | report k b f => exact ⟨by simp, fun _ _ _ h => by cases h; exact key⟩
  | _ => exact ⟨by simp, fun _ _ _ h => by cases h⟩

/-- An empty pattern is refused with the range `[0, 1)`, which it does not have: the message
is made from a character outside the text. -/
theorem empty_pattern_error (env : Env) (p : PatternOpts) :
    parse env p [] = .error (.report .nonatomicRepetition 0 1) := by
  rfl

/-- `([a` is refused with the range of its bracket. -/
example : parse plain ⟨false, false, false⟩ [40, 91, 97] = .error (.report .unmatchedBracket 1 2) := by
  rfl

end Verif.Parser
