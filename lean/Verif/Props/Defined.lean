import Verif.Props.ParseErrors
import Verif.Props.ParsedTrees
import Verif.Props.Malformed
/-!
# Parsing has a defined outcome

**C98**.  `lg_parse_pattern` takes every text to a tree or an error: no table is left by a character class,
whatever it consists of, and there is no undefined arithmetic, unless a number behind `{` or `,`
is 2^31 or more, or the text stops in the middle of a UTF-8 sequence (C49).
-/
namespace Verif.Defined
open Verif.Parser
open Verif.Regex (Tree)
open Verif.Encoders (Node)
open Verif.RangeSet (WF)

/-! ## Specification -/

/-- The number that decimal digits spell. -/
def decimal (ds : List Nat) : Nat := ds.foldl (fun v d => v * 10 + (d - 48)) 0

/-- No number behind `{` or `,` in the text is 2^31 or more. -/
def SmallCounts (text : List Nat) : Prop :=
  ∀ b ds, (b :: ds) <:+: text → (b = 123 ∨ b = 44) → (∀ d ∈ ds, 48 ≤ d ∧ d ≤ 57) → decimal ds < 2 ^ 31

/-- The text is well-formed UTF-8, or else ends with an ASCII character. -/
def Complete (expr : List UInt8) : Prop := Malformed.IsUtf8 expr ∨ ∃ b, expr.getLast? = some b ∧ b.toNat < 128

/-- ICU has a set for every property it knows, and folds the case of every set. -/
structure Total (env : Env) : Prop where
  named : ∀ a i n, (∀ t, n = .prop t → env.isProp t = true) → env.named a i n ≠ none
  fold : ∀ a s, WF 0x110000 s → env.fold a s ≠ none

/-! ## Classes -/

theorem plain_total : Total plain := by
  refine ⟨fun a i n hn h => ?_, fun a s hs h => ?_⟩
  · have sg : ∀ {neg : Bool} {s : RangeSet.Vec}, WF 0x110000 s → signed neg s ≠ none := by
      intro neg s hs h
      unfold signed at h
      split at h
      · obtain ⟨v, e, -⟩ := RangeSet.flip_spec (N := 0x110000) (by omega) hs
        rw [e] at h; cases h
      · cases h
    cases n with
    | digit neg => exact sg (ParseUtil.build_spec _ (by simp [ParseUtil.cps])).1 h
    | space neg =>
      refine sg ?_ h
      cases a with
      | true => exact (ParseUtil.build_spec _ (by simp [ParseUtil.cps])).1
      | false => exact (ParseUtil.build_spec _ (by simp [ParseUtil.cps, ParseUtil.hSpaceRanges, ParseUtil.vSpaceRanges])).1
    | hspace neg => exact sg (ParseUtil.build_spec _ (by simp [ParseUtil.cps, ParseUtil.hSpaceRanges])).1 h
    | vspace neg => exact sg (ParseUtil.build_spec _ (by simp [ParseUtil.cps, ParseUtil.vSpaceRanges])).1 h
    | word neg => exact sg (ParseUtil.build_spec _ (by simp [ParseUtil.cps])).1 h
    | prop t => have := hn t rfl; simp [plain] at this
  · obtain ⟨us', added, e, -⟩ := ParseUtil.case_folding s hs
    have h : ParseUtil.caseDesensitizeAscii none s = none := h
    rw [e] at h; cases h

/-- A token as the lexer makes them. -/
def Tame (env : Env) (t : Tok) : Prop := t.Ok ∧ ∀ s, t = .set (.prop s) → env.isProp s = true

theorem unexpected_defined (ts : List LTok) : unexpected ts ≠ .ub := by
  cases ts with
  | nil => simp [unexpected]
  | cons t ts => simp only [unexpected]; split <;> [simp; (split <;> simp)]

theorem unclosed_ub {k : ErrKind} {t : LTok} {e : Err} (h : unclosed k t e = .ub) : e = .ub := by
  cases e <;> simp_all [unclosed]

theorem foldCls_defined {env : Env} (ht : Total env) {o : Opts} {c : Cls} (hc : WF 0x110000 c.cps) :
    foldCls env o c ≠ .error .ub := by
  unfold foldCls
  split
  · simp
  · split
    · simp
    · next h => exact absurd h (ht.fold _ _ hc)

theorem closePos_defined {env : Env} (ht : Total env) {o : Opts} {b e : Nat} {c : Cls} (hc : WF 0x110000 c.cps) :
    closePos env o b e c ≠ .error .ub := by
  unfold closePos
  have h1 := foldCls_defined (o := o) ht hc
  cases hf : foldCls env o c with
  | error x =>
    rw [hf] at h1
    simp only [bind, Except.bind, ne_eq, Except.error.injEq] at h1 ⊢
    exact h1
  | ok x =>
    simp only [bind, Except.bind]
    split <;> simp

theorem closeNeg_defined {env : Env} (he : env.Sound) (ht : Total env) {o : Opts} {b e : Nat} {c : Cls} (hc : WF 0x110000 c.cps) :
    closeNeg env o b e c ≠ .error .ub := by
  unfold closeNeg
  split
  · have h1 := foldCls_defined (o := o) ht hc
    cases hf : foldCls env o c with
    | error x =>
      rw [hf] at h1
      simp only [bind, Except.bind, ne_eq, Except.error.injEq] at h1 ⊢
      exact h1
    | ok x =>
      obtain ⟨v, ev, -⟩ := RangeSet.flip_spec (N := 0x110000) (by omega) (foldCls_wf he hc hf)
      simp only [bind, Except.bind, ev, orUb]
      split <;> simp
  · split
    · split <;> simp
    · obtain ⟨v, ev, -⟩ := RangeSet.flip_spec (N := 0x110000) (by omega) hc
      simp [bind, Except.bind, ev, orUb]

theorem combine_defined {op : SetOp} {a b : Cls} (ha : WF 0x110000 a.cps) (hb : WF 0x110000 b.cps) :
    ∃ c, Cls.combine op a b = some c := by
  cases op with
  | union => obtain ⟨v, e, -⟩ := RangeSet.union_spec ha hb; exact ⟨_, by simp only [Cls.combine, e, Option.bind_eq_bind, Option.bind_some]; rfl⟩
  | inter =>
    obtain ⟨v, e, -⟩ := RangeSet.inter_spec (N := 0x110000) (by omega) ha hb
    exact ⟨_, by simp only [Cls.combine, e, Option.bind_eq_bind, Option.bind_some]; rfl⟩
  | minus =>
    obtain ⟨v, e, -⟩ := RangeSet.diff_spec (N := 0x110000) (by omega) ha hb
    exact ⟨_, by simp only [Cls.combine, e, Option.bind_eq_bind, Option.bind_some]; rfl⟩
  | xor =>
    obtain ⟨v, e, -⟩ := RangeSet.symm_spec (N := 0x110000) (by omega) ha hb
    exact ⟨_, by simp only [Cls.combine, e, Option.bind_eq_bind, Option.bind_some]; rfl⟩

theorem byteTok_lt {t : Tok} {b : Nat} (ht : t.Ok) (h : byteTok t = some b) : b < 256 := by
  rw [byteTok_eq h] at ht; exact ht

theorem cc_defined {env : Env} (he : env.Sound) (ht : Total env) (o : Opts) : ∀ n : Nat,
    (∀ t ts, (∀ x ∈ t :: ts, Tame env x.tok) → charclass env o n t ts ≠ .error .ub) ∧
    (∀ first ts, (∀ x ∈ ts, Tame env x.tok) → ccAtom env o n first ts ≠ .error .ub) ∧
    (∀ t neg c k ts, WF 0x110000 c.cps → (∀ x ∈ ts, Tame env x.tok) → ccItems env o n t neg c k ts ≠ .error .ub) := by
  intro n
  induction n with
  | zero => exact ⟨fun _ _ _ => by simp [charclass], fun _ _ _ => by simp [ccAtom], fun _ _ _ _ _ _ _ => by simp [ccItems]⟩
  | succ n ih =>
    obtain ⟨ih1, ih2, ih3⟩ := ih
    have atom_wf : ∀ {first ts c k rest}, (∀ x ∈ ts, Tame env x.tok) → ccAtom env o n first ts = .ok (c, k, rest) →
        WF 0x110000 c.cps ∧ ∀ x ∈ rest, Tame env x.tok := by
      intro first ts c k rest hx h
      obtain ⟨p, op, rfl, hp, -⟩ := (cc_sound env o n).2.1 _ _ _ _ _ h
      exact ⟨cc_wf he hp fun x hm => (hx x (by simp [hm])).1, fun x hm => hx x (by simp [hm])⟩
    refine ⟨fun t ts hx h => ?_, fun first ts hx h => ?_, fun t neg c k ts hc hx h => ?_⟩
    · have go : ∀ neg (ts' : List LTok), (∀ x ∈ ts', Tame env x.tok) →
          (match ccAtom env o n (!neg) ts' with
            | .error e => .error (unclosed .unmatchedBracket t e)
            | .ok (c, k, ws) => ccItems env o n t neg c k ws : Res (Cls × Nat × List LTok)) ≠ .error .ub := by
        intro neg ts' hx' h
        cases ha : ccAtom env o n (!neg) ts' with
        | error x =>
          rw [ha] at h
          simp only [Except.error.injEq] at h
          rw [unclosed_ub h] at ha
          exact ih2 _ _ hx' ha
        | ok r =>
          obtain ⟨c, k, ws⟩ := r
          rw [ha] at h
          obtain ⟨w1, w2⟩ := atom_wf hx' ha
          exact ih3 _ _ _ _ _ w1 w2 h
      rw [charclass.eq_def] at h
      simp only at h
      split at h
      · next s hs =>
        split at h
        · cases h
        · next hn =>
          refine ht.named _ _ _ (fun w hw => ?_) hn
          exact (hx t (by simp)).2 w (by rw [hs, hw])
      · split at h
        · cases h
        · next u us =>
          split at h
          · split at h
            · cases h
            · next v vs =>
              split at h
              · cases h
              · exact go true (v :: vs) (fun x hm => hx x (by simp at hm ⊢; tauto)) h
          · split at h
            · cases h
            · exact go false (u :: us) (fun x hm => hx x (by simp at hm ⊢; tauto)) h
      · exact unexpected_defined _ (Except.error.inj h)
    · cases ts with
      | nil => rw [ccAtom] at h; cases h
      | cons t ts =>
        have tail : ∀ {v vs}, ts.tail = v :: vs → ∀ x ∈ v :: vs, Tame env x.tok := by
          intro v vs hv x hm
          rw [← hv] at hm
          exact hx x (List.mem_cons_of_mem _ (List.mem_of_mem_tail hm))
        rw [ccAtom.eq_def] at h
        simp only at h
        split at h
        · split at h
          · split at h
            · cases h
            · next v vs hv =>
              split at h
              · split at h <;> cases h
              · split at h
                · next hcc => cases h; exact ih1 _ _ (tail hv) hcc
                · cases h
          · cases h
        · split at h
          · split at h
            · split at h
              · cases h
              · next v vs hv =>
                split at h
                · next d hd =>
                  split at h
                  · cases h
                  · next hlt =>
                    have := byteTok_lt (tail hv v (by simp)).1 hd
                    split at h
                    · cases h
                    · next hs =>
                      unfold Encoders.setRange at hs
                      rw [if_pos (by omega)] at hs
                      cases hs
                · split at h
                  · next hcc => cases h; exact ih1 _ _ (tail hv) hcc
                  · cases h
            · cases h
          · split at h
            · cases h
            · exact ih1 _ _ hx h
    · cases ts with
      | nil => rw [ccItems] at h; cases h
      | cons u us =>
        rw [ccItems.eq_def] at h
        simp only at h
        split at h
        · split at h
          · cases h
          · next hcl =>
            cases h
            cases neg with
            | true => exact closeNeg_defined he ht hc hcl
            | false => exact closePos_defined ht hc hcl
        · have go : ∀ op (ts' : List LTok), (∀ x ∈ ts', Tame env x.tok) →
              (match ccAtom env o n false ts' with
              | .error e => .error (unclosed .unmatchedBracket t e)
              | .ok (d, j, ws) =>
                match Cls.combine op c d with
                | some c' => ccItems env o n t neg c' (k + j) ws
                | none => .error .ub : Res (Cls × Nat × List LTok)) ≠ .error .ub := by
            intro op ts' hx' h
            cases ha : ccAtom env o n false ts' with
            | error x =>
              rw [ha] at h
              simp only [Except.error.injEq] at h
              rw [unclosed_ub h] at ha
              exact ih2 _ _ hx' ha
            | ok r =>
              obtain ⟨d, j, ws⟩ := r
              rw [ha] at h
              obtain ⟨w1, w2⟩ := atom_wf hx' ha
              obtain ⟨c', hc'⟩ := combine_defined (op := op) hc w1
              simp only [hc'] at h
              exact ih3 _ _ _ _ _ (combine_wf hc w1 hc') w2 h
          split at h
          · split at h
            · cases h
            · next v vs =>
              split at h
              · cases h
              · exact go _ (v :: vs) (fun x hm => hx x (by simp at hm ⊢; tauto)) h
          · exact go _ (u :: us) hx h

/-! ## Counts -/

/-- The digits of tokens. -/
def digitsOf (ts : List LTok) : List Nat := ts.map fun t => match t.tok with | .digit d => d | _ => 0

/-- No number behind `{` or `,` among the tokens is 2^31 or more. -/
def Small (ts : List LTok) : Prop :=
  ∀ b ds, (b :: ds) <:+: ts → (b.tok = .sym 123 ∨ b.tok = .sym 44) → (∀ x ∈ ds, ∃ d, x.tok = .digit d) → decimal (digitsOf ds) < 2 ^ 31

theorem Small.infix {ts us : List LTok} (h : Small ts) (hu : us <:+: ts) : Small us :=
  fun b ds hi => h b ds (hi.trans hu)

theorem decimal_snoc (ds : List Nat) (d : Nat) : decimal (ds ++ [d]) = decimal ds * 10 + (d - 48) := by
  simp [decimal, List.foldl_append]

theorem number_defined {b : LTok} (hb : b.tok = .sym 123 ∨ b.tok = .sym 44) : ∀ (ts ds : List LTok),
    (∀ x ∈ ds, ∃ d, x.tok = .digit d) → Small (b :: ds ++ ts) → number (decimal (digitsOf ds)) ts ≠ .error .ub
  | [], _, _, _ => by simp [number]
  | t :: ts, ds, hd, hs => by
    rw [number]
    cases ht : t.tok with
    | digit d =>
      simp only [digitTok]
      have e : decimal (digitsOf ds) * 10 + (d - 48) = decimal (digitsOf (ds ++ [t])) := by
        have : digitsOf (ds ++ [t]) = digitsOf ds ++ [d] := by simp [digitsOf, ht]
        rw [this, decimal_snoc]
      have hd' : ∀ x ∈ ds ++ [t], ∃ d, x.tok = .digit d := by
        intro x hx
        rcases List.mem_append.1 hx with hx | hx
        · exact hd x hx
        · rw [List.mem_singleton] at hx; exact ⟨d, hx ▸ ht⟩
      have hs' : Small (b :: (ds ++ [t]) ++ ts) := by simpa using hs
      rw [e, if_pos (hs' b (ds ++ [t]) ⟨[], ts, by simp⟩ hb hd')]
      exact number_defined hb ts (ds ++ [t]) hd' hs'
    | _ => simp [digitTok]

theorem readNumber_defined {b : LTok} (hb : b.tok = .sym 123 ∨ b.tok = .sym 44) {ts : List LTok} (hs : Small (b :: ts)) :
    readNumber ts ≠ .error .ub := by
  cases ts with
  | nil => simp [readNumber]
  | cons t ts =>
    rw [readNumber]
    cases ht : t.tok with
    | digit d =>
      simp only [digitTok]
      have := number_defined hb ts [t] (by simp [ht]) (by simpa using hs)
      simpa [digitsOf, ht, decimal] using this
    | _ =>
      simp only [digitTok]
      intro h
      exact unexpected_defined _ (Except.error.inj h)

theorem counted_defined {x : LTok} (hx : x.tok = .sym 123) {f : Nat} {ts : List LTok} (hs : Small (x :: ts)) :
    counted f ts ≠ .error .ub := by
  intro h
  unfold counted at h
  cases hr : readNumber ts with
  | error e =>
    rw [hr] at h
    simp only [Except.error.injEq] at h
    exact readNumber_defined (.inl hx) hs (by rw [hr, h])
  | ok r =>
    obtain ⟨n, vs⟩ := r
    rw [hr] at h
    obtain ⟨p, rfl, -⟩ := readNumber_sound hr
    cases vs with
    | nil => cases h
    | cons y ws =>
      simp only at h
      split at h
      · cases h
      · split at h
        · next hy =>
          cases ws with
          | nil => cases h
          | cons z xs =>
            simp only at h
            split at h
            · cases h
            · cases hr' : readNumber (z :: xs) with
              | error e =>
                rw [hr'] at h
                simp only [Except.error.injEq] at h
                refine readNumber_defined (b := y) (.inr hy) (hs.infix ?_) (by rw [hr', h])
                exact ⟨x :: p, [], by simp⟩
              | ok r =>
                obtain ⟨m, us⟩ := r
                rw [hr'] at h
                cases us with
                | nil => cases h
                | cons w us =>
                  simp only at h
                  split at h
                  · split at h <;> cases h
                  · exact unexpected_defined _ (Except.error.inj h)
        · exact unexpected_defined _ (Except.error.inj h)

theorem quantifier_defined {ts : List LTok} (hs : Small ts) : quantifier ts ≠ .error .ub := by
  intro h
  cases ts with
  | nil => cases h
  | cons t ts =>
    rw [quantifier] at h
    split at h
    · cases h
    split at h
    · cases h
    split at h
    · cases h
    split at h
    · next ht => exact counted_defined ht hs h
    · cases h

/-! ## Patterns -/

theorem switches_defined : ∀ (ts : List LTok) (on seen : Bool) (o : Opts), switches on seen o ts ≠ .error .ub
  | [], _, _, _ => by simp [switches]
  | t :: ts, on, seen, o => by
    rw [switches]
    split
    · exact switches_defined ts _ _ _
    split
    · exact switches_defined ts _ _ _
    split
    · exact switches_defined ts _ _ _
    split
    · simp
    · intro h; exact unexpected_defined _ (Except.error.inj h)

theorem literal_defined {env : Env} (ht : Total env) {o : Opts} {c : Nat} (hc : c < 0x110000) : literal env o c ≠ .error .ub := by
  unfold literal
  split
  · simp
  · split
    · simp
    · simp
    · next h => exact absurd h (ht.fold _ _ (RangeSet.insert_wf nil_wf (by omega) (by omega)))

theorem simple_defined {env : Env} (ht : Total env) {o : Opts} {t : Tok} (hk : t.Ok) : simpleAtom env o t ≠ some (.error .ub) := by
  intro h
  obtain ⟨W, eW, -⟩ := RangeSet.flip_spec (N := 0x110000) (by omega) wordSet_wf
  unfold simpleAtom at h
  split at h
  · simp [eW, orUb, bind, Except.bind] at h
  · simp [eW, orUb, bind, Except.bind] at h
  all_goals first
    | cases h
    | skip
  split at h
  · next c hc =>
    have h1 := literal_defined (o := o) ht (character_lt hk hc)
    cases hl : literal env o c with
    | error x =>
      rw [hl] at h h1
      simp only [bind, Except.bind, Option.some.injEq, Except.error.injEq] at h
      rw [h] at h1
      exact h1 rfl
    | ok x => rw [hl] at h; simp [bind, Except.bind] at h
  · cases h

theorem badGroup_defined (ts : List LTok) : badGroup ts ≠ .ub := by
  cases ts with
  | nil => simp [badGroup]
  | cons t ts => rw [badGroup]; split <;> exact unexpected_defined _

theorem body_defined {env : Env} (he : env.Sound) (ht : Total env) (n : Nat) :
    (∀ o l c sw k ts, (∀ x ∈ ts, Tame env x.tok) → Small ts → body env n o l c sw k ts ≠ .error .ub) ∧
    (∀ o l c k t ts, (∀ x ∈ ts, Tame env x.tok) → Small ts → afterAtom env n o l c k t ts ≠ .error .ub) := by
  induction n with
  | zero => exact ⟨fun _ _ _ _ _ _ _ _ => by simp [body], fun _ _ _ _ _ _ _ _ => by simp [afterAtom]⟩
  | succ n ih =>
    obtain ⟨ih1, ih2⟩ := ih
    have fin : ∀ l c ts o k, finish l c ts o k ≠ .error .ub := by
      intro l c ts o k h
      cases c with
      | none => exact unexpected_defined _ (Except.error.inj h)
      | some c => cases h
    refine ⟨fun o l c sw k ts hx hs h => ?_, fun o l c k t ts hx hs h => ?_⟩
    · cases ts with
      | nil => rw [body] at h; exact fin _ _ _ _ _ h
      | cons u us =>
        have hus : ∀ x ∈ us, Tame env x.tok := fun x hm => hx x (by simp [hm])
        have hss : Small us := hs.infix ⟨[u], [], by simp⟩
        have part : ∀ {vs : List LTok}, vs <:+ us → (∀ x ∈ vs, Tame env x.tok) ∧ Small vs := fun hv =>
          ⟨fun x hm => hus x (hv.subset hm), hss.infix hv.isInfix⟩
        have rest : ∀ {vs : List LTok} {o t o' j ws}, body env n o none none true 0 vs = .ok (t, o', j, ws) → ws <:+ vs := by
          intro vs o t o' j ws hb
          obtain ⟨p, b, rfl, -⟩ := (body_sound env n).1 _ _ _ _ _ _ _ _ _ _ hb o [] false (.init .nil)
            (fun _ _ => rfl) (fun h => by cases h)
          exact ⟨p, rfl⟩
        have inner : ∀ {vs : List LTok} {o x}, vs <:+ us → body env n o none none true 0 vs = .error x →
            unclosed .unmatchedParen u x ≠ .ub := by
          intro vs o x hv hb h
          rw [unclosed_ub h] at hb
          exact ih1 _ _ _ _ _ _ (part hv).1 (part hv).2 hb
        have ctx : ∀ {vs : List LTok} {w : LTok} {ws : List LTok}, vs <:+ us → (w :: ws) <:+ vs → ws <:+ us := fun h1 h2 =>
          ((List.suffix_cons _ _).trans h2).trans h1
        rw [body.eq_def] at h
        simp only at h
        split at h
        · split at h
          · exact unexpected_defined _ (Except.error.inj h)
          · exact ih1 _ _ _ _ _ _ hus hss h
        split at h
        · split at h
          · exact unexpected_defined _ (Except.error.inj h)
          · exact ih1 _ _ _ _ _ _ hus hss h
        split at h
        · split at h
          · next hu hq =>
            obtain ⟨y, ey, hy⟩ := queryNext_tail hq
            have htail : us.tail <:+ us := List.tail_suffix us
            split at h
            · next kind vs hk =>
              have hv : vs <:+ us := by
                have : vs <:+ us.tail := by
                  generalize us.tail = w at hk
                  unfold lookKind at hk
                  split at hk
                  · cases hk
                  · split at hk
                    · cases hk; exact List.nil_suffix
                    · split at hk
                      · cases hk; exact List.nil_suffix
                      · cases hk
                  · split at hk
                    · cases hk; exact List.suffix_cons _ _
                    · split at hk
                      · cases hk; exact List.suffix_cons _ _
                      · split at hk
                        · cases hk; exact (List.suffix_cons _ _).trans (List.suffix_cons _ _)
                        · split at hk
                          · cases hk; exact (List.suffix_cons _ _).trans (List.suffix_cons _ _)
                          · cases hk
                exact this.trans htail
              split at h
              · next x hb => exact inner hv hb (Except.error.inj h)
              · cases h
              · next hb =>
                split at h
                · have := ctx hv (rest hb)
                  exact ih2 _ _ _ _ _ _ (part this).1 (part this).2 h
                · exact unexpected_defined _ (unclosed_ub (Except.error.inj h))
            · split at h
              · split at h
                · next x hsw =>
                  have := Except.error.inj h
                  rw [unclosed_ub this] at hsw
                  exact switches_defined _ _ _ _ hsw
                · next o1 vs hsw =>
                  obtain ⟨p, ep, hp⟩ := switches_sound (a := u) hu hy hsw
                  have hv : vs <:+ u :: us := ⟨p, by rw [← ep, ey]; simp⟩
                  exact ih1 _ _ _ _ _ _ (fun x hm => hx x (hv.subset hm)) (hs.infix hv.isInfix) h
              · exact badGroup_defined _ (unclosed_ub (Except.error.inj h))
          · split at h
            · next x hb => exact inner (List.suffix_refl _) hb (Except.error.inj h)
            · cases h
            · next hb =>
              split at h
              · have := ctx (List.suffix_refl _) (rest hb)
                exact ih2 _ _ _ _ _ _ (part this).1 (part this).2 h
              · exact unexpected_defined _ (unclosed_ub (Except.error.inj h))
        split at h
        · split at h
          · next x hcc =>
            cases h
            exact (cc_defined he ht o n).1 _ _ hx hcc
          · next x j vs hcc =>
            obtain ⟨p, ep, hp⟩ := (cc_sound env o n).1 _ _ _ _ _ hcc
            have hv : vs <:+ u :: us := ⟨p, ep.symm⟩
            exact ih2 _ _ _ _ _ _ (fun x hm => hx x (hv.subset hm)) (hs.infix hv.isInfix) h
        split at h
        · next hsa => cases h; exact simple_defined ht (hx u (by simp)).1 hsa
        · exact ih2 _ _ _ _ _ _ hus hss h
        · exact fin _ _ _ _ _ h
    · rw [afterAtom.eq_def] at h
      simp only at h
      split at h
      · next x hq => cases h; exact quantifier_defined hs hq
      · next q j us hq =>
        have hr : us <:+ ts := by
          rcases quantifier_sound hq with ⟨-, -, rfl, -⟩ | ⟨p, _, _, _, -, rfl, -⟩
          · exact List.suffix_refl _
          · exact ⟨p, rfl⟩
        exact ih1 _ _ _ _ _ _ (fun x hm => hx x (hr.subset hm)) (hs.infix hr.isInfix) h

/-! ## The lexer -/

/-- The tokens that are one character as it stands. -/
theorem escape_own {env : Env} (t : List Int) : (∀ d, (escape env t).1 ≠ .digit d) ∧ ∀ d, (escape env t).1 ≠ .sym d := by
  cases t with
  | nil => simp [escape]
  | cons c t =>
    rw [escape]
    split
    · simp
    split
    · simp
    split
    · simp
    split
    · simp
    · simp
    · simp
    split
    · unfold property
      split
      · simp
      · split
        · simp
        · split
          · simp only
            split
            · simp only; split <;> simp
            · simp
          · simp
    · split
      · next k hk =>
        unfold assertEscape at hk
        split at hk
        · cases hk; simp
        split at hk
        · cases hk; simp
        split at hk
        · cases hk; simp
        split at hk
        · cases hk; simp
        split at hk
        · cases hk; simp
        · cases hk
      · simp

theorem lexOne_own {env : Env} (lit : Bool) (c : Int) (t : List Int) :
    (∀ d, (lexOne env lit c t).1 = .digit d → c = d ∧ (lexOne env lit c t).2 = t ∧ 48 ≤ d ∧ d ≤ 57) ∧
    ∀ d, (lexOne env lit c t).1 = .sym d → c = d ∧ (lexOne env lit c t).2 = t := by
  unfold lexOne
  split
  · simp
  split
  · simp
  split
  · next h1 _ h2 => exact ⟨by simp, fun d hd => ⟨by simp at hd; omega, rfl⟩⟩
  split
  · split <;> simp
  split
  · split <;> simp
  split
  · next h => split <;> simp [h]
  split
  · have := escape_own (env := env) t
    exact ⟨fun d hd => absurd hd (this.1 d), fun d hd => absurd hd (this.2 d)⟩
  split
  · next h => exact ⟨fun d hd => by simp at hd; exact ⟨by omega, rfl, by omega, by omega⟩, by simp⟩
  · simp

theorem lex_prefix {env : Env} {lit : Bool} {N : Nat} : ∀ (n : Nat) (t : List Int) (ds : List LTok),
    ds <+: lex env lit N n t → (∀ x ∈ ds, ∃ d, x.tok = .digit d) →
    (digitsOf ds).map Int.ofNat <+: t ∧ ∀ d ∈ digitsOf ds, 48 ≤ d ∧ d ≤ 57
  | 0, t, ds, h, _ => by
    rw [lex] at h
    rw [List.prefix_nil.1 h]
    simp [digitsOf]
  | _ + 1, [], ds, h, _ => by
    rw [lex] at h
    rw [List.prefix_nil.1 h]
    simp [digitsOf]
  | n + 1, c :: t, [], h, _ => by simp [digitsOf]
  | n + 1, c :: t, x :: ds, h, hd => by
    rw [lex, List.cons_prefix_cons] at h
    obtain ⟨rfl, h⟩ := h
    obtain ⟨d, hx⟩ := hd _ List.mem_cons_self
    obtain ⟨e1, e2, e3, e4⟩ := (lexOne_own (env := env) lit c t).1 d hx
    rw [e2] at h
    obtain ⟨i1, i2⟩ := lex_prefix n t ds h fun x hm => hd x (by simp [hm])
    have hds : digitsOf (⟨(lexOne env lit c t).1, N - (t.length + 1), N - (lexOne env lit c t).2.length⟩ :: ds) = d :: digitsOf ds := by
      replace hx : (lexOne env lit c t).1 = .digit d := hx
      simp [digitsOf, hx]
    rw [hds]
    refine ⟨?_, ?_⟩
    · rw [List.map_cons, e1]
      exact List.cons_prefix_cons.2 ⟨rfl, i1⟩
    · intro y hy
      rcases List.mem_cons.1 hy with rfl | hy
      · exact ⟨e3, e4⟩
      · exact i2 y hy

theorem lex_infix {env : Env} (he : env.Sound) {lit : Bool} {N : Nat} : ∀ (n : Nat) (t : List Int) (b : LTok) (ds : List LTok),
    (∀ c ∈ t, c < 0x110000) → (b :: ds) <:+: lex env lit N n t → ∀ s, b.tok = .sym s → (∀ x ∈ ds, ∃ d, x.tok = .digit d) →
    (Int.ofNat s :: (digitsOf ds).map Int.ofNat) <:+: t ∧ ∀ d ∈ digitsOf ds, 48 ≤ d ∧ d ≤ 57
  | 0, t, b, ds, _, h, _, _, _ => by rw [lex] at h; simp at h
  | _ + 1, [], b, ds, _, h, _, _, _ => by rw [lex] at h; simp at h
  | n + 1, c :: t, b, ds, ht, h, s, hb, hd => by
    rw [lex, List.infix_cons_iff] at h
    rcases h with h | h
    · rw [List.cons_prefix_cons] at h
      obtain ⟨rfl, h⟩ := h
      obtain ⟨e1, e2⟩ := (lexOne_own (env := env) lit c t).2 s hb
      rw [e2] at h
      obtain ⟨i1, i2⟩ := lex_prefix n t ds h hd
      refine ⟨?_, i2⟩
      rw [e1]
      exact (List.cons_prefix_cons.2 ⟨rfl, i1⟩).isInfix
    · obtain ⟨chunk, h1, -⟩ := lexOne_fits he lit c t (ht c (by simp)) fun x hx => ht x (by simp [hx])
      obtain ⟨i1, i2⟩ := lex_infix he n _ b ds (fun x hx => ht x (by rw [h1]; exact List.mem_append_right _ hx)) h s hb hd
      refine ⟨i1.trans ?_, i2⟩
      conv => rhs; rw [h1]
      exact (List.suffix_append _ _).isInfix

theorem escape_tame {env : Env} (t : List Int) (s : List Int) (h : (escape env t).1 = .set (.prop s)) : env.isProp s = true := by
  cases t with
  | nil => simp [escape] at h
  | cons c t =>
    rw [escape] at h
    split at h
    · simp at h
    split at h
    · simp at h
    split at h
    · next n hn =>
      simp only [Tok.set.injEq] at h
      subst h
      unfold classEscape at hn
      repeat' split at hn
      all_goals simp at hn
    split at h
    · simp at h
    · simp at h
    · simp at h
    split at h
    · unfold property at h
      split at h
      · simp at h
      · split at h
        · simp at h
        · split at h
          · simp only at h
            split at h
            · simp only at h
              split at h
              · next hp =>
                simp only [Tok.set.injEq, Named.prop.injEq] at h
                rwa [← h]
              · cases h
            · simp at h
          · simp at h
    · split at h
      · next k hk =>
        simp only at h
        subst h
        unfold assertEscape at hk
        repeat' split at hk
        all_goals simp at hk
      · simp at h

theorem lex_tame {env : Env} (he : env.Sound) (lit : Bool) (N : Nat) : ∀ (n : Nat) (t : List Int), (∀ c ∈ t, c < 0x110000) →
    ∀ x ∈ lex env lit N n t, ∀ s, x.tok = .set (.prop s) → env.isProp s = true
  | 0, t, _, x, hx => by rw [lex] at hx; cases hx
  | _ + 1, [], _, x, hx => by rw [lex] at hx; cases hx
  | n + 1, c :: t, ht, x, hx => by
    rw [lex] at hx
    rcases List.mem_cons.1 hx with rfl | hx
    · intro s hs
      simp only at hs
      unfold lexOne at hs
      split at hs
      · cases hs
      split at hs
      · cases hs
      split at hs
      · cases hs
      split at hs
      · split at hs <;> cases hs
      split at hs
      · split at hs <;> cases hs
      split at hs
      · split at hs <;> cases hs
      split at hs
      · exact escape_tame t s hs
      split at hs <;> cases hs
    · obtain ⟨chunk, h1, -⟩ := lexOne_fits he lit c t (ht c (by simp)) fun x hx => ht x (by simp [hx])
      exact lex_tame he lit N n _ (fun y hy => ht y (by rw [h1]; exact List.mem_append_right _ hy)) x hx

/-- Parsing characters. -/
theorem parse_chars_defined {env : Env} (he : env.Sound) (ht : Total env) (p : PatternOpts) {text : List Int}
    (hc : ∀ c ∈ text, c < 0x110000)
    (hs : ∀ (b : Nat) (ds : List Nat), (Int.ofNat b :: ds.map Int.ofNat) <:+: text → (b = 123 ∨ b = 44) →
      (∀ d ∈ ds, 48 ≤ d ∧ d ≤ 57) → decimal ds < 2 ^ 31) :
    parse env p text ≠ .error .ub := by
  have tame : ∀ x ∈ lex env p.fixed text.length text.length text, Tame env x.tok := fun x hx =>
    ⟨(lex_lexed he _ _ _ _ (Nat.le_refl _) hc).ok x hx, lex_tame he _ _ _ _ hc x hx⟩
  have small : Small (lex env p.fixed text.length text.length text) := by
    intro b ds hi hb hd
    rcases hb with hb | hb
    · obtain ⟨h1, h2⟩ := lex_infix he _ _ b ds hc hi _ hb hd
      exact hs _ _ h1 (.inl rfl) h2
    · obtain ⟨h1, h2⟩ := lex_infix he _ _ b ds hc hi _ hb hd
      exact hs _ _ h1 (.inr rfl) h2
  intro h
  unfold parse parseTokens at h
  split at h
  · cases h
  · exact unexpected_defined _ (Except.error.inj h)
  · split at h <;> cases h
  · next hb =>
    cases h
    exact (body_defined he ht _).1 _ _ _ _ _ _ tame small hb

/-! ## The text -/

theorem ascii_own {bs : List Nat} (hb : Utf.Bytes bs) {c u : Nat} (h : Utf.utf8ToUnicode bs = .ret (some c) u) (hc : c < 128) :
    u = 1 ∧ ∃ r, bs = c :: r := by
  rcases Utf.utf8ToCp_sound bs hb with hf | ⟨c', m, hm, hsc, hle, ht⟩
  · rw [Malformed.unicode_cp h] at hf; cases hf
  · rw [Malformed.unicode_cp h] at hm
    cases hm
    rw [Utf.spec8, if_pos (by omega)] at ht
    cases bs with
    | nil => simp at ht
    | cons a r =>
      cases u with
      | zero => simp at ht
      | succ u =>
        rw [List.take_succ_cons] at ht
        simp only [List.cons.injEq, List.take_eq_nil_iff] at ht
        obtain ⟨rfl, h1⟩ := ht
        refine ⟨?_, r, rfl⟩
        rcases h1 with h1 | h1
        · omega
        · subst h1
          simp at hle
          omega

theorem decode_prefix : ∀ (n : Nat) (bs : List Nat) (cs : List (Option Nat)) (ds : List Nat), Utf.Bytes bs →
    Utf.transformUtf8 n bs = some cs → ds.map some <+: cs → (∀ d ∈ ds, d < 128) → ds <+: bs
  | 0, _, _, _, _, h, _, _ => by cases h
  | n + 1, bs, cs, [], _, _, _, _ => List.nil_prefix
  | n + 1, bs, cs, d :: ds, hb, h, hp, hd => by
    rw [Utf.transformUtf8] at h
    split at h
    · cases h; simp at hp
    · split at h
      · cases h
      · next r u hu =>
        split at h
        · cases h
        · obtain ⟨cs', hcs, rfl⟩ := Option.map_eq_some_iff.1 h
          rw [List.map_cons, List.cons_prefix_cons] at hp
          obtain ⟨rfl, hp⟩ := hp
          obtain ⟨rfl, r, rfl⟩ := ascii_own hb hu (hd d (by simp))
          rw [List.drop_one, List.tail_cons] at hcs
          exact List.cons_prefix_cons.2 ⟨rfl, decode_prefix n r cs' ds (fun b hm => hb b (by simp [hm])) hcs hp
            fun x hx => hd x (by simp [hx])⟩

theorem decode_infix : ∀ (n : Nat) (bs : List Nat) (cs : List (Option Nat)) (ds : List Nat), Utf.Bytes bs →
    Utf.transformUtf8 n bs = some cs → ds.map some <:+: cs → (∀ d ∈ ds, d < 128) → ds <:+: bs
  | 0, _, _, _, _, h, _, _ => by cases h
  | n + 1, bs, cs, ds, hb, h, hp, hd => by
    have h0 := h
    rw [Utf.transformUtf8] at h
    split at h
    · cases h
      have : ds = [] := by simpa using hp
      subst this
      exact List.nil_infix
    · split at h
      · cases h
      · next r u hu =>
        split at h
        · cases h
        · obtain ⟨cs', hcs, rfl⟩ := Option.map_eq_some_iff.1 h
          rw [List.infix_cons_iff] at hp
          rcases hp with hp | hp
          · exact (decode_prefix (n + 1) bs _ ds hb h0 hp hd).isInfix
          · exact (decode_infix n _ cs' ds (fun b hm => hb b (List.mem_of_mem_drop hm)) hcs hp hd).trans (List.drop_suffix _ _).isInfix

theorem decode_lt : ∀ (n : Nat) (bs : List Nat) (cs : List (Option Nat)), Utf.Bytes bs →
    Utf.transformUtf8 n bs = some cs → ∀ c, some c ∈ cs → c < 0x110000
  | 0, _, _, _, h, _, _ => by cases h
  | n + 1, bs, cs, hb, h, c, hc => by
    rw [Utf.transformUtf8] at h
    split at h
    · cases h; cases hc
    · split at h
      · cases h
      · next r u hu =>
        split at h
        · cases h
        · obtain ⟨cs', hcs, rfl⟩ := Option.map_eq_some_iff.1 h
          rcases List.mem_cons.1 hc with rfl | hc
          · rcases Utf.utf8ToCp_sound bs hb with hf | ⟨c', m, hm, hsc, hle, ht⟩
            · rw [Malformed.unicode_cp hu] at hf; cases hf
            · rw [Malformed.unicode_cp hu] at hm
              cases hm
              unfold Utf.Scalar at hsc
              omega
          · exact decode_lt n _ cs' (fun b hm => hb b (List.mem_of_mem_drop hm)) hcs c hc

theorem complete_decodes {expr : List UInt8} (h : Complete expr) : ∃ cs, Utf.patternText (expr.map UInt8.toNat) = some cs := by
  rcases h with ⟨cs, h1, h2⟩ | ⟨b, h1, h2⟩
  · refine ⟨cs.map some, ?_⟩
    rw [h2]
    have := Utf.patternText_decodes cs h1
    rw [← this]
    congr 1
    have enc : ∀ c ∈ cs, Utf.spec8 c = Utf.cpToUtf8 c := by
      intro c hc
      rw [Utf.cpToUtf8_spec, if_pos ⟨by omega, by simpa using h1 c hc⟩]; simp
    rw [List.flatMap_def, List.flatMap_def, List.map_congr_left enc]
  · refine Utf.patternText_inside_partial _ ?_ ?_
    · intro b hb
      obtain ⟨u, -, rfl⟩ := List.mem_map.1 hb
      exact u.toNat_lt
    · intro c hc
      rw [List.getLast?_eq_getElem?] at h1
      rw [List.length_map, List.getElem?_map, h1] at hc
      cases hc
      exact h2

/-- **C98**.  Parsing a pattern has a defined outcome, a tree or an error, for every text which is
well-formed UTF-8 or ends with an ASCII character and in which no number behind `{` or `,` is 2^31
or more. -/
theorem parsing_defined_partial {env : Env} (he : env.Sound) (hs : env.Shortens) (ht : Total env) (p : PatternOpts) {expr : List UInt8}
    (hc : Complete expr) (hn : SmallCounts (expr.map UInt8.toNat)) :
    ∀ e, Text.parseAndReduce env p expr = .error e → e ≠ .ub ∧ e ≠ .fuel := by
  intro e h
  obtain ⟨cs, hcs⟩ := complete_decodes hc
  have hb : Utf.Bytes (expr.map UInt8.toNat) := by
    intro b hb
    obtain ⟨u, -, rfl⟩ := List.mem_map.1 hb
    exact u.toNat_lt
  have hcp : Text.codePoints expr = some (cs.map fun | some c => (c : Int) | none => -1) := by
    unfold Text.codePoints
    rw [hcs]; rfl
  unfold Text.parseAndReduce Text.parseText at h
  rw [hcp] at h
  simp only at h
  have key : parse env p (cs.map fun | some c => (c : Int) | none => -1) ≠ .error .ub := by
    refine parse_chars_defined he ht p ?_ ?_
    · intro c hc
      obtain ⟨o, ho, rfl⟩ := List.mem_map.1 hc
      cases o with
      | none => simp
      | some c =>
        have := decode_lt _ _ _ hb hcs c ho
        simp only
        omega
    · intro b ds hi hbs hd
      refine hn b ds (decode_infix _ _ _ (b :: ds) hb hcs ?_ ?_) hbs hd
      · obtain ⟨x, y, hxy⟩ := hi
        rw [List.append_assoc] at hxy
        obtain ⟨c1, c2, e0, e1, e2⟩ := List.map_eq_append_iff.1 hxy.symm
        obtain ⟨c3, c4, e3, e4, e5⟩ := List.map_eq_append_iff.1 e2
        refine ⟨c1, c4, ?_⟩
        rw [e0, e3, List.append_assoc]
        congr 2
        have inj : ∀ (l : List Nat) (m : List (Option Nat)), m.map (fun | some c => (c : Int) | none => -1) = l.map Int.ofNat →
            l.map some = m := by
          intro l
          induction l with
          | nil => intro m hm; simpa using hm.symm
          | cons a l ih =>
            intro m hm
            cases m with
            | nil => simp at hm
            | cons o m =>
              rw [List.map_cons, List.map_cons, List.cons.injEq] at hm
              rw [List.map_cons, ih m hm.2]
              congr 1
              cases o with
              | none => have := hm.1; simp at this
              | some c =>
                have := hm.1
                simp at this
                rw [this]
        exact inj (b :: ds) c3 e4
      · intro d hdm
        rcases List.mem_cons.1 hdm with rfl | hdm
        · omega
        · have := hd d hdm; omega
  cases hp : parse env p (cs.map fun | some c => (c : Int) | none => -1) with
  | error e' =>
    rw [hp] at h
    cases h
    refine ⟨fun h => key (by rw [hp, h]), ?_⟩
    by_cases hne : cs.map (fun | some c => (c : Int) | none => -1) = []
    · rw [hne, empty_pattern_error] at hp
      cases hp; simp
    · exact (error_range_in_pattern hs p _ hne _ hp).1
  | ok r =>
    rw [hp] at h
    simp only at h
    split at h
    · cases h; simp
    · cases h

/-! ## Where it is false, and examples -/

/-- **C98** fails: the count of `a{2147483648}` overflows. -/
theorem count_overflows : Text.parseAndReduce plain ⟨false, false, false⟩ (([97, 123, 50, 49, 52, 55, 52, 56, 51, 54, 52, 56, 125] : List Nat).map UInt8.ofNat) =
    .error .ub := by decide +kernel

/-- **C98** fails: `aÃ` without its last byte is read past its end. -/
theorem truncated_undefined : Text.parseAndReduce plain ⟨false, false, false⟩ [0x61, 0xC3] = .error .ub := by decide +kernel

/-- `[^0-9]{1,3}12345678901234567890` meets the hypotheses: a long number which is not a count is
none. -/
example : Complete (([91, 94, 48, 45, 57, 93, 123, 49, 44, 51, 125, 49, 50, 51, 52, 53, 54, 55, 56, 57, 48, 49] : List Nat).map UInt8.ofNat) ∧
    SmallCounts [91, 94, 48, 45, 57, 93, 123, 49, 44, 51, 125, 49, 50, 51, 52, 53, 54, 55, 56, 57, 48, 49] := by
  refine ⟨.inr ⟨49, by decide, by decide⟩, ?_⟩
  intro b ds hi hb hd
  have short : ∀ (x : Nat) (y : List Nat), (b :: ds) <:+: x :: y → b ≠ x → (b :: ds) <:+: y := by
    intro x y h hne
    rcases List.infix_cons_iff.1 h with h | h
    · exact absurd (List.cons_prefix_cons.1 h).1 hne
    · exact h
  have stop : ∀ (a x : Nat) (y : List Nat), (48 ≤ a ∧ a ≤ 57) → ¬ (48 ≤ x ∧ x ≤ 57) → ds <+: a :: x :: y → decimal ds < 2 ^ 31 := by
    intro a x y ha hx h
    cases ds with
    | nil => decide
    | cons d ds =>
      have h1 := List.cons_prefix_cons.1 h
      have hda := h1.1
      replace h := h1.2
      clear h1
      subst hda
      cases ds with
      | nil => show (0 * 10 + (d - 48)) < _; omega
      | cons e ds =>
        have he := (List.cons_prefix_cons.1 h).1
        subst he
        exact absurd (hd _ (by simp)) hx
  rcases hb with rfl | rfl
  · iterate 6 replace hi := short _ _ hi (by decide)
    rcases List.infix_cons_iff.1 hi with h | h
    · exact stop _ _ _ (by decide) (by decide) (List.cons_prefix_cons.1 h).2
    · iterate 15 replace h := short _ _ h (by decide)
      simp at h
  · iterate 8 replace hi := short _ _ hi (by decide)
    rcases List.infix_cons_iff.1 hi with h | h
    · exact stop _ _ _ (by decide) (by decide) (List.cons_prefix_cons.1 h).2
    · iterate 13 replace h := short _ _ h (by decide)
      simp at h

end Verif.Defined
