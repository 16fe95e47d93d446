import Verif.Session
import Verif.Props.Chain
import Verif.Props.Rewrite
import Verif.Props.Bounded
/-!
# C67, C68: from the texts of patterns to the hits

Specification.  `textSem` says what a leaf of a parsed pattern stands for in an encoding: a
character that the encoding lacks stands for nothing.  `MatchAt` says that the bytes of a
stream from one position to another match a pattern's text, read by the grammar (see
`Verif.Props.Grammar`), in an encoding.
-/
namespace Verif.Session
open Verif.Encoders Verif.Chain Verif.Nfa Verif.NfaBuilder Verif.Fsm Verif.Subset
open Verif.Regex (Tree lang NoLook NoDead NoBlank NgFlat AllLeaves weight UNB SamePlaces langRoot)
open Verif.Parser (Env PatternOpts)

/-! ## Specification -/

/-- The encoding of a character in an encoding, with byte transforms; `[]` if there is
none. -/
def charBytes (k : Coding) (ts : List Transforms.ByteT) (cp : Nat) : List Nat :=
  (k.spec cp).map (Transforms.applyAll ts)

/-- What a leaf stands for if `enc` encodes the characters. -/
def textSem (enc : Nat → List Nat) : Node → Language UInt8
  | .lit c => {w | enc c ≠ [] ∧ w = toBytes (enc c)}
  | .byte b => {w | w = [b]}
  | .dot => {w | ∃ c, enc c ≠ [] ∧ w = toBytes (enc c)}
  | .cls cps brk true => {w | (∃ c, RangeSet.has cps c = true ∧ enc c ≠ [] ∧ w = toBytes (enc c)) ∨ ∃ b, brk.has b = true ∧ w = [b]}
  | .cls cps brk false => {w | (∃ c, RangeSet.has cps c = true ∧ enc c ≠ [] ∧ w = toBytes (enc c)) ∧ ¬ ∃ b, brk.has b = true ∧ w = [b]}

/-- The bytes match what was requested: the text, as the grammar reads it, in the encoding that
the chain names. -/
def Matches [Build] (env : Env) (r : Request) (w : List UInt8) : Prop :=
  ∃ t j k ts, Text.parseText env r.opts r.expr = .ok (t, j) ∧ Reads r.chain k ts ∧ w ∈ lang (textSem (charBytes k ts)) t

/-- The bytes of the stream `data`, which starts at offset `off`, from `s` to `f` match. -/
def MatchAt [Build] (env : Env) (r : Request) (off : Nat) (data : List UInt8) (s f : Nat) : Prop :=
  off ≤ s ∧ s < f ∧ f ≤ off + data.length ∧ Matches env r ((data.drop (s - off)).take (f - s))

/-- The parsed text has the property. -/
def Parsed (env : Env) (r : Request) (P : Tree Node → Prop) : Prop :=
  ∀ t j, Text.parseText env r.opts r.expr = .ok (t, j) → P t

/-- The sum of the bounds of the repetitions is below 2^30, roughly, and the length of the text
is a `size_t`. -/
def Modest (env : Env) (r : Request) : Prop :=
  Parsed env r (fun t => 4 * weight t < UNB) ∧ r.expr.length < 2 ^ 64

/-! ## Leaves -/

theorem has_iff (e : Encoder) (hok : e.Ok) (c : Nat) : e.Has c ↔ e.spec c ≠ [] := by
  refine ⟨(spec_ok e hok c).2.2, ?_⟩
  induction e generalizing c with
  | ascii =>
    intro h
    by_contra hc
    exact h (if_neg hc)
  | utf u =>
    intro h
    by_contra hc
    exact h (if_neg hc)
  | icu t => intro h; exact (hok.full c).2 h
  | bytes t e ih => intro h; exact ih hok.2 c (by simpa [Encoder.spec] using h)
  | rot r e ih =>
    intro h
    have := ih hok.1 _ h
    rcases rotFwd_cases r c with hr | ⟨hc, -⟩
    · rw [hr] at this; exact this
    · exact hok.2 c hc

theorem toBytes_nil {l : List Nat} : [] = toBytes l ↔ l = [] := by
  unfold toBytes
  rw [eq_comm, List.map_eq_nil_iff]

theorem textSem_nonempty (enc : Nat → List Nat) : Regex.LeafNonempty (textSem enc) := by
  intro n h
  cases n with
  | lit c =>
    obtain ⟨h1, h2⟩ : enc c ≠ [] ∧ [] = toBytes (enc c) := h
    exact h1 (toBytes_nil.1 h2)
  | byte b =>
    have h : ([] : List UInt8) = [b] := h
    simp at h
  | dot =>
    obtain ⟨c, h1, h2⟩ : ∃ c, enc c ≠ [] ∧ [] = toBytes (enc c) := h
    exact h1 (toBytes_nil.1 h2)
  | cls cps brk additive =>
    cases additive with
    | true =>
      have h : (∃ c, RangeSet.has cps c = true ∧ enc c ≠ [] ∧ [] = toBytes (enc c)) ∨ ∃ b, brk.has b = true ∧ [] = [b] := h
      rcases h with ⟨c, -, h1, h2⟩ | ⟨b, -, h⟩
      · exact h1 (toBytes_nil.1 h2)
      · simp at h
    | false =>
      have h : (∃ c, RangeSet.has cps c = true ∧ enc c ≠ [] ∧ [] = toBytes (enc c)) ∧ ¬ ∃ b, brk.has b = true ∧ [] = [b] := h
      obtain ⟨⟨c, -, h1, h2⟩, -⟩ := h
      exact h1 (toBytes_nil.1 h2)

theorem lang_textSem {e : Encoder} (hok : e.Ok) {t : Tree Node} (h : AllLeaves e.Writable t) :
    lang (textSem e.spec) t = lang (nodeSem e) t := by
  induction t with
  | leaf n =>
    cases n with
    | lit c =>
      have := h c rfl
      ext w
      exact ⟨fun h => h.2, fun h => ⟨this, h⟩⟩
    | byte b => rfl
    | dot => simp only [lang, textSem, nodeSem, has_iff e hok]; rfl
    | cls _ _ a => cases a <;> simp only [lang, textSem, nodeSem, has_iff e hok] <;> rfl
  | alt l r ihl ihr => simp only [lang, ihl h.1, ihr h.2]
  | cat l r ihl ihr => simp only [lang, ihl h.1, ihr h.2]
  | rep ng m M t ih => exact Encoders.lang_rep_congr (ih h) ng m M
  | look k t => rfl

/-! ## What is built has no missing characters -/

theorem fragment_lits : ∀ (t : Tree Leaf) (g : Graph), fragment g t ≠ none → AllLeaves (· ≠ .lit []) t
  | .leaf (.lit bs), g, h => by
    cases bs with
    | nil => exact absurd rfl h
    | cons b bs => exact fun e => by cases e
  | .leaf (.cls _ _ _), g, h => fun e => by cases e
  | .alt l r, g, h => by
    simp only [fragment, Option.bind_eq_bind] at h
    cases hl : fragment g l with
    | none => simp [hl] at h
    | some a =>
      cases hr : fragment a.1 r with
      | none => simp [hl, hr] at h
      | some b => exact ⟨fragment_lits l g (by simp [hl]), fragment_lits r a.1 (by simp [hr])⟩
  | .cat l r, g, h => by
    simp only [fragment, Option.bind_eq_bind] at h
    cases hl : fragment g l with
    | none => simp [hl] at h
    | some a =>
      cases hr : fragment a.1 r with
      | none => simp [hl, hr] at h
      | some b => exact ⟨fragment_lits l g (by simp [hl]), fragment_lits r a.1 (by simp [hr])⟩
  | .rep ng m M t, g, h => by
    simp only [fragment, Option.bind_eq_bind] at h
    cases hl : fragment g t with
    | none => simp [hl] at h
    | some a => exact fragment_lits t g (by simp [hl])
  | .look _ _, g, h => absurd rfl h

theorem copies_leaves {P : Leaf → Prop} {t s : Tree Leaf} : ∀ k, AllLeaves P (copies t s k) → AllLeaves P s
  | 0, h => h
  | k + 1, h => copies_leaves k h.2

theorem optional_leaves {P : Leaf → Prop} {ng : Bool} {t : Tree Leaf} : ∀ k, AllLeaves P (optional ng t k) → AllLeaves P t
  | 0, h => h
  | _ + 1, h => h.1

theorem expand_leaves {P : Leaf → Prop} (t : Tree Leaf) : AllLeaves P (expand t) → AllLeaves P t := by
  induction t with
  | leaf a => exact id
  | alt l r ihl ihr => exact fun h => ⟨ihl h.1, ihr h.2⟩
  | cat l r ihl ihr => exact fun h => ⟨ihl h.1, ihr h.2⟩
  | look k t ih => exact id
  | rep ng m M t ih =>
    intro h
    apply ih
    unfold expand expandRep at h
    split at h
    · exact h
    · split at h
      · exact copies_leaves _ h
      · split at h
        · have := copies_leaves _ h; exact this
        · exact optional_leaves _ (copies_leaves _ h)

theorem leaves_lits {e : Encoder} : ∀ (t : Tree Node) {c c' : Cache} {t' : Tree Leaf}, e.leaves c t = some (c', t') →
    AllLeaves (· ≠ .lit []) t' → AllLeaves e.Writable t := by
  intro t
  induction t with
  | leaf n =>
    intro c c' t' h ha
    simp only [Encoder.leaves, Option.map_eq_some_iff, Prod.mk.injEq] at h
    obtain ⟨a, h1, -, rfl⟩ := h
    rintro x rfl hx
    simp only [Encoder.leaf, Option.some.injEq] at h1
    subst h1
    apply ha
    show Leaf.lit _ = _
    rw [write_spec, hx]; rfl
  | alt l r ihl ihr =>
    intro c c' t' h ha
    simp only [Encoder.leaves, Option.bind_eq_bind, Option.bind_eq_some_iff, Option.some.injEq, Prod.mk.injEq] at h
    obtain ⟨a, h1, b, h2, -, rfl⟩ := h
    exact ⟨ihl h1 ha.1, ihr h2 ha.2⟩
  | cat l r ihl ihr =>
    intro c c' t' h ha
    simp only [Encoder.leaves, Option.bind_eq_bind, Option.bind_eq_some_iff, Option.some.injEq, Prod.mk.injEq] at h
    obtain ⟨a, h1, b, h2, -, rfl⟩ := h
    exact ⟨ihl h1 ha.1, ihr h2 ha.2⟩
  | rep ng m M t ih =>
    intro c c' t' h ha
    simp only [Encoder.leaves, Option.bind_eq_bind, Option.bind_eq_some_iff, Option.some.injEq, Prod.mk.injEq] at h
    obtain ⟨a, h1, -, rfl⟩ := h
    exact ih h1 ha
  | look k t ih =>
    intro c c' t' h ha
    simp only [Encoder.leaves, Option.bind_eq_bind, Option.bind_eq_some_iff, Option.some.injEq, Prod.mk.injEq] at h
    obtain ⟨a, h1, -, rfl⟩ := h
    exact ih h1 ha

theorem build_lits {l : Nat} {t : Tree Leaf} (h : build l (some t) ≠ .threw) : AllLeaves (· ≠ .lit []) t := by
  unfold build at h
  apply expand_leaves
  apply fragment_lits _ .init
  intro hn
  simp [hn] at h

/-! ## One request -/

/-- What a request may hand to the builder: the leaves of the text's tree, after the rewriter,
in the encoding of the chain. -/
def Handed [Build] (env : Env) (r : Request) (t' : Tree Leaf) : Prop :=
  ∃ f e c u c', FactoryOk f ∧ f.get r.chain = some (e, c) ∧ Text.parseAndReduce env r.opts r.expr = .ok (some u) ∧
    e.leaves c u = some (c', t')

/-- An accepted request, and the tree handed to the builder. -/
structure Accepted [Build] (env : Env) (r : Request) (l : Nat) (t' : Tree Leaf) : Prop where
  sane : Sane t'
  takes : Takes l t'
  noLook : Parsed env r NoLook
  sub : ∀ w ∈ lang leafSem t', Matches env r w
  places : Parsed env r NgFlat → Parsed env r NoBlank → ∀ w, Matches env r w → ∃ p, p <+: w ∧ p ∈ lang leafSem t'
  handed : Handed env r t'

theorem assoc_noLook' (t : Tree Node) : NoLook (Regex.assoc t).2 → NoLook t := by
  induction t with
  | leaf a => exact id
  | look k t ih => exact id
  | rep ng m M t ih => exact ih
  | alt l r ihl ihr =>
    intro h
    unfold Regex.assoc at h
    dsimp only at h
    split at h
    · next e f he => rw [he] at ihl; exact ⟨ihl ⟨h.1, h.2.1⟩, ihr h.2.2⟩
    · exact ⟨ihl h.1, ihr h.2⟩
  | cat l r ihl ihr =>
    intro h
    unfold Regex.assoc at h
    dsimp only at h
    split at h
    · next e f he => rw [he] at ihl; exact ⟨ihl ⟨h.1, h.2.1⟩, ihr h.2.2⟩
    · exact ⟨ihl h.1, ihr h.2⟩

theorem parseText_ok {env : Env} (he : env.Sound) {p : PatternOpts} {expr : List UInt8} {t : Tree Node} {k : Nat}
    (h : Text.parseText env p expr = .ok (t, k)) : Regex.Ok t ∧ AllLeaves Node.Ok t := by
  unfold Text.parseText at h
  split at h
  · cases h
  · next cs hcs => exact Parser.parse_ok he (Text.codePoints_spans hcs).lt h

/-- An accepted request, and what is handed to the builder. -/
theorem request_step [Build] {env : Env} (he : env.Sound) {r : Request} (hm : Modest env r)
    {fuel : Nat} {s s' : State} {o : Option Nat} (hf : FactoryOk s.factory) (h : request fuel env s r = some (s', o)) :
    FactoryOk s'.factory ∧ ((o = none ∧ s'.graph = s.graph ∧ s'.count = s.count) ∨
      ∃ t', o = some s.count ∧ s'.count = s.count + 1 ∧ Accepted env r s.count t' ∧
        Fsm.addPattern fuel s.graph s.count (some t') = some (s'.graph, .added)) := by
  unfold request at h
  split at h
  · cases h
  · cases h; exact ⟨hf, .inl ⟨rfl, rfl, rfl⟩⟩
  · next u hu =>
    unfold addTree at h
    cases hg : s.factory.get r.chain with
    | none => rw [hg] at h; cases h; exact ⟨hf, .inl ⟨rfl, rfl, rfl⟩⟩
    | some ec =>
      obtain ⟨e, c⟩ := ec
      obtain ⟨heo, hco, k, ts, hrd, hsp⟩ := (chain_meaning hf r.chain).1 e c hg
      rw [hg] at h
      dsimp only at h
      cases u with
      | none =>
        simp only [Fsm.addPattern, build, Option.map_some, Option.some.injEq, Prod.mk.injEq] at h
        obtain ⟨rfl, rfl⟩ := h
        exact ⟨hf, .inl ⟨rfl, rfl, rfl⟩⟩
      | some u =>
        simp only [Option.bind_eq_bind, Option.bind_eq_some_iff, Option.some.injEq] at h
        obtain ⟨⟨c', t'⟩, hl, ⟨g', o'⟩, ha, h⟩ := h
        have hhand : Handed env r t' := ⟨s.factory, e, c, u, c', hf, hg, hu, hl⟩
        -- the tree
        unfold Text.parseAndReduce at hu
        cases hpt : Text.parseText env r.opts r.expr with
        | error _ => rw [hpt] at hu; cases hu
        | ok tk =>
          obtain ⟨t, j⟩ := tk
          rw [hpt] at hu
          dsimp only at hu
          rw [Text.shortcuts_are_sound he hm.2 hpt] at hu
          split at hu
          · cases hu
          · next u' hu' =>
            cases hu
            obtain ⟨hok, hlv⟩ := parseText_ok he hpt
            have hw := hm.1 t j hpt
            obtain ⟨s1, s2, s3, s4⟩ := Regex.reduce_sane Node.Ok (.lit 120) trivial hok hw hlv hu'
            obtain ⟨c2, t2, e1, e2, e3, e4, e5, e6, e7⟩ := leaves_exact heo u hco s4
            rw [hl] at e1
            cases e1
            have hput := factory_put hf hg e2
            have hgr : o' ≠ .added → g' = s.graph := by
              intro hne
              unfold Fsm.addPattern at ha
              split at ha
              · simp only [Option.bind_eq_bind, Option.bind_eq_some_iff, Option.some.injEq, Prod.mk.injEq] at ha
                obtain ⟨_, -, _, -, -, e⟩ := ha
                exact absurd e.symm hne
              · simp only [Option.some.injEq, Prod.mk.injEq] at ha; exact ha.1.symm
              · simp only [Option.some.injEq, Prod.mk.injEq] at ha; exact ha.1.symm
            by_cases hadd : o' = .added
            · subst hadd
              simp only [if_true, Prod.mk.injEq] at h
              obtain ⟨rfl, rfl⟩ := h
              have hthr : build s.count (some t') ≠ .threw := by
                intro hb
                unfold Fsm.addPattern at ha
                rw [hb] at ha
                simp at ha
              have hemp : build s.count (some t') ≠ .empty := by
                intro hb
                unfold Fsm.addPattern at ha
                rw [hb] at ha
                simp at ha
              have hwr := leaves_lits u hl (build_lits hthr)
              have hsane : Sane t' := ⟨e4 s3, e5 s2, e6 s1, e7 hwr⟩
              have hnil : [] ∉ lang leafSem t' := fun hn =>
                hemp ((refused_iff_empty s.count t' hsane.ok hsane.noLook hsane.noDead hsane.leaves hthr).1.2 hn)
              have hnl : NoLook t := by
                cases hcc : Regex.combine (Regex.assoc t).2 with
                | none => simp [Regex.reduce, hcc] at hu'
                | some q =>
                  obtain ⟨hn1, -⟩ := Regex.combine_noLook _ q hcc
                  exact assoc_noLook' t hn1
              refine ⟨hput, .inr ⟨t', rfl, rfl, ⟨hsane, ⟨hthr, hnil⟩, ?_, ?_, ?_, hhand⟩, ha⟩⟩
              · intro t0 j0 h0
                rw [hpt] at h0; cases h0
                exact hnl
              · intro w hw'
                rw [e3, ← lang_textSem heo hwr, show e.spec = charBytes k ts from funext hsp] at hw'
                exact ⟨t, j, k, ts, hpt, hrd, Regex.reduce_sub (textSem (charBytes k ts)) (.lit 120) hok hw hu' w hw'⟩
              · rintro hng hnd w ⟨t0, j0, k0, ts0, hpt0, hrd0, hw'⟩
                rw [hpt] at hpt0
                cases hpt0
                obtain ⟨rfl, rfl⟩ := reads_unique hrd hrd0
                have hng := hng t j hpt
                have hnd := hnd t j hpt
                obtain ⟨u2, hu2, hpl⟩ := Regex.reduce_places_partial (textSem (charBytes k ts)) (textSem_nonempty _) (.lit 120) hok hnl hng hnd hw
                rw [hu'] at hu2
                cases hu2
                obtain ⟨p, hp1, hp2⟩ := hpl.2 w hw'
                refine ⟨p, hp1, ?_⟩
                rw [e3, ← lang_textSem heo hwr, show e.spec = charBytes k ts from funext hsp]
                exact hp2
            · rw [if_neg hadd] at h
              simp only [Prod.mk.injEq] at h
              obtain ⟨rfl, rfl⟩ := h
              exact ⟨hput, .inl ⟨rfl, hgr hadd, rfl⟩⟩

/-! ## A list of requests -/

theorem addAll_cons {fuel : Nat} {g g1 g2 : Graph} {l : Nat} {t : Tree Leaf} {ps : List (Nat × Tree Leaf)} {o : Outcome}
    (h1 : Fsm.addPattern fuel g l (some t) = some (g1, o)) (h2 : addAll fuel g1 (calls ps) = some g2) :
    addAll fuel g (calls ((l, t) :: ps)) = some g2 := by
  simp only [calls, List.map_cons, addAll, h1, Option.bind_eq_bind, Option.bind_some]
  exact h2

theorem requests_spec [Build] {env : Env} (he : env.Sound) {fuel : Nat} : ∀ (rs : List Request) {s s' : State} {os : List (Option Nat)},
    (∀ r ∈ rs, Modest env r) → FactoryOk s.factory → requests fuel env s rs = some (s', os) →
    ∃ ps : List (Nat × Tree Leaf), addAll fuel s.graph (calls ps) = some s'.graph ∧
      os.filterMap id = List.range' s.count ps.length ∧ ps.map (·.1) = List.range' s.count ps.length ∧
      (∀ (i : Nat) r l, rs[i]? = some r → os[i]? = some (some l) → ∃ t', (l, t') ∈ ps ∧ Accepted env r l t') ∧
      ∀ p ∈ ps, ∃ (i : Nat) (r : Request), rs[i]? = some r ∧ os[i]? = some (some p.1) ∧ Accepted env r p.1 p.2
  | [], s, s', os, _, _, h => by
    cases h
    exact ⟨[], rfl, rfl, rfl, by simp, by simp⟩
  | r :: rs, s, s', os, hm, hf, h => by
    simp only [requests, Option.bind_eq_bind, Option.bind_eq_some_iff, Option.some.injEq, Prod.mk.injEq] at h
    obtain ⟨⟨s1, o⟩, h1, ⟨s2, os'⟩, h2, rfl, rfl⟩ := h
    obtain ⟨hf1, hstep⟩ := request_step he (hm r (by simp)) hf h1
    obtain ⟨ps, p1, p2, p3, p4, p5⟩ := requests_spec he rs (fun r hr => hm r (by simp [hr])) hf1 h2
    rcases hstep with ⟨rfl, hg, hc⟩ | ⟨t', rfl, hc, hacc, hadd⟩
    · rw [hg] at p1
      rw [hc] at p2 p3
      refine ⟨ps, p1, by simpa using p2, p3, ?_, ?_⟩
      · intro i q l hr ho
        cases i with
        | zero => simp at ho
        | succ i => exact p4 i q l (by simpa using hr) (by simpa using ho)
      · intro p hp
        obtain ⟨i, q, a, b, c⟩ := p5 p hp
        exact ⟨i + 1, q, by simpa using a, by simpa using b, c⟩
    · rw [hc] at p2 p3
      refine ⟨(s.count, t') :: ps, addAll_cons hadd p1, ?_, ?_, ?_, ?_⟩
      · rw [List.length_cons, List.range'_succ, ← p2]; rfl
      · rw [List.length_cons, List.range'_succ, ← p3]; rfl
      · intro i q l hr ho
        cases i with
        | zero =>
          simp only [List.getElem?_cons_zero, Option.some.injEq] at hr ho
          subst hr; subst ho
          exact ⟨t', by simp, hacc⟩
        | succ i =>
          obtain ⟨t2, a, b⟩ := p4 i q l (by simpa using hr) (by simpa using ho)
          exact ⟨t2, by simp [a], b⟩
      · intro p hp
        rcases List.mem_cons.1 hp with rfl | hp
        · exact ⟨0, r, rfl, rfl, hacc⟩
        · obtain ⟨i, q, a, b, c⟩ := p5 p hp
          exact ⟨i + 1, q, by simpa using a, by simpa using b, c⟩

/-- A program made from requests: a new FSM, the requests one after the other, with the replies
`os`, and then a program from the FSM, determinizing to some depth.  `nodup` excludes the
parallel edges that a limited depth can make (`Fsm.limited_overruns`). -/
structure Compiled [Build] (env : Env) (rs : List Request) (os : List (Option Nat)) (g : Graph) (P : Vm.Program) : Prop where
  modest : ∀ r ∈ rs, Modest env r
  made : ∃ f1 f2 f3 s det depth, requests f1 env .init rs = some (s, os) ∧
    finalizeGraph f2 det depth s.graph = some (.ok g) ∧ Compiler.createProgram f3 g = some (.ok P)
  nodup : ∀ v, (g.v v).out.Nodup

theorem Compiled.made' [Build] {env : Env} (he : env.Sound) {rs : List Request} {os : List (Option Nat)} {g : Graph} {P : Vm.Program}
    (h : Compiled env rs os g P) : ∃ ps, Made ps g P ∧ os.filterMap id = List.range ps.length ∧
      (∀ (i : Nat) r l, rs[i]? = some r → os[i]? = some (some l) → ∃ t', (l, t') ∈ ps ∧ Accepted env r l t') ∧
      ∀ p ∈ ps, ∃ (i : Nat) (r : Request), rs[i]? = some r ∧ os[i]? = some (some p.1) ∧ Accepted env r p.1 p.2 := by
  obtain ⟨f1, f2, f3, s, det, depth, h1, h2, h3⟩ := h.made
  obtain ⟨ps, p1, p2, p3, p4, p5⟩ := requests_spec he rs h.modest factory_init h1
  refine ⟨ps, ⟨⟨?_, ?_⟩, ⟨f1, f2, f3, _, det, depth, p1, h2, h3⟩, h.nodup⟩, ?_, p4, p5⟩
  · rw [p3]; exact List.nodup_range'
  · intro p hp
    obtain ⟨i, r, -, -, ha⟩ := p5 p hp
    exact ha.sane
  · rw [p2, List.range_eq_range']; rfl

/-- **C67** Labels and hits.  Patterns are requested in any order, with any options and
encodings; some are refused.  The accepted ones are numbered in the order of the requests.  Then
in any history of calls in which the buffers of a stream are handed over consecutively, every
hit carries the number of an accepted request, and its bytes match that request's text in that
request's encoding. -/
theorem text_hits_match [Build] {env : Env} (he : env.Sound) {rs : List Request} {os : List (Option Nat)} {g : Graph}
    {P : Vm.Program} (h : Compiled env rs os g P) :
    os.filterMap id = List.range (os.filterMap id).length ∧
    ∀ {fuel : Nat} {first : List Vm.Thread} {σ₀ : Vm.St}, Vm.create P fuel = .ok (first, σ₀) →
    ∀ {data : Nat → UInt8} {p q : Nat} {cs : List Vm.Call}, Vm.Stream data p cs q →
    ∀ {res : List (Option Nat)} {σ : Vm.St}, Vm.run P first fuel cs σ₀ = .ok (res, σ) →
    ∀ x ∈ σ.log, ∃ (i : Nat) (r : Request), rs[i]? = some r ∧ os[i]? = some (some x.label) ∧
      Matches env r (Vm.seg data x.start x.end) := by
  obtain ⟨ps, hM, hos, -, h5⟩ := h.made' he
  refine ⟨by rw [hos]; simp, fun hnew data p q cs hs res σ hrun x hx => ?_⟩
  obtain ⟨t, hp, hw⟩ := pipeline_hits_match hM hnew hs hrun x hx
  obtain ⟨i, r, a, b, c⟩ := h5 _ hp
  exact ⟨i, r, a, b, c.sub _ hw⟩

/-- **C68** For patterns without non-greedy repetitions inside other repetitions and without
a branch that is only `{0}` before a bar, in a program without landing address 0: the hits with the number of an accepted request
are the leftmost non-overlapping matches of its text in its encoding. -/
theorem text_hits_partial [Build] {env : Env} (he : env.Sound) {rs : List Request} {os : List (Option Nat)} {g : Graph}
    {P : Vm.Program} (h : Compiled env rs os g P) (hz : Compiler.NoZero g)
    {fuel : Nat} {first : List Vm.Thread} {σ₀ : Vm.St} (hnew : Vm.create P fuel = .ok (first, σ₀))
    {off : Nat} {bufs : List (List UInt8)} {res : List (Option Nat)} {σ : Vm.St}
    (hrun : Vm.run P first fuel (Vm.searches off bufs) σ₀ = .ok (res, σ)) {i l : Nat} {r : Request}
    (hr : rs[i]? = some r) (ho : os[i]? = some (some l)) (hng : Parsed env r NgFlat) (hnd : Parsed env r NoBlank) :
    Compiler.Leftmost (MatchAt env r off bufs.flatten) 0 (Vm.hitsOf l σ.log) := by
  obtain ⟨ps, hM, -, h4, -⟩ := h.made' he
  obtain ⟨t', hp, ha⟩ := h4 i r l hr ho
  obtain ⟨f1, f2, f3, g0, det, depth, m1, m2, m3⟩ := hM.made
  refine leftmost_mono ?_ ?_ _ _ (finalized_hits_partial hM.patterns m1 m2 hM.nodup m3 hz hnew hrun hp ha.takes)
  · rintro s f ⟨a, b, c, d⟩
    exact ⟨a, b, c, ha.sub _ d⟩
  · rintro s f ⟨a, b, c, d⟩
    obtain ⟨w', h1, h2⟩ := ha.places hng hnd _ d
    have hne : w' ≠ [] := by rintro rfl; exact ha.takes.2 h2
    have hpos : 0 < w'.length := List.length_pos_iff.2 hne
    have hle := h1.length_le
    have hw : w' = ((bufs.flatten).drop (s - off)).take w'.length := by
      have := List.prefix_iff_eq_take.1 h1
      rw [List.take_take] at this
      rw [List.length_take] at hle
      rwa [Nat.min_eq_left (by omega)] at this
    rw [List.length_take, List.length_drop] at hle
    refine ⟨s + w'.length, a, by omega, by omega, ?_⟩
    rw [show s + w'.length - s = w'.length by omega, ← hw]
    exact h2

theorem textSem_bounded [Build] {chain : List UInt8} {k : Coding} {ts : List Transforms.ByteT} (hr : Reads chain k ts) (n : Node) :
    ∃ B, ∀ w ∈ textSem (charBytes k ts) n, w.length ≤ B := by
  obtain ⟨-, B, hB⟩ := reads_small hr
  have h0 : ∀ c, (toBytes (charBytes k ts c)).length ≤ B + 1 := by
    intro c
    have := hB c
    simp only [toBytes, charBytes, List.length_map]
    omega
  refine ⟨B + 1, fun w hw => ?_⟩
  cases n with
  | lit c =>
    obtain ⟨-, rfl⟩ : _ ∧ w = toBytes (charBytes k ts c) := hw
    exact h0 c
  | byte b =>
    have hw : w = [b] := hw
    subst hw; simp
  | dot =>
    obtain ⟨c, -, rfl⟩ : ∃ c, _ ∧ w = toBytes (charBytes k ts c) := hw
    exact h0 c
  | cls cps brk additive =>
    cases additive with
    | true =>
      have hw : (∃ c, RangeSet.has cps c = true ∧ charBytes k ts c ≠ [] ∧ w = toBytes (charBytes k ts c)) ∨
        ∃ b, brk.has b = true ∧ w = [b] := hw
      rcases hw with ⟨c, -, -, rfl⟩ | ⟨b, -, rfl⟩
      · exact h0 c
      · simp
    | false =>
      have hw : (∃ c, RangeSet.has cps c = true ∧ charBytes k ts c ≠ [] ∧ w = toBytes (charBytes k ts c)) ∧
        ¬ ∃ b, brk.has b = true ∧ w = [b] := hw
      obtain ⟨⟨c, -, -, rfl⟩, -⟩ := hw
      exact h0 c

/-- **C68** If no accepted pattern has an unbounded repetition, there is no condition on the
program: the hits with the number of an accepted request without non-greedy repetitions inside
other repetitions and without a branch that is only `{0}` before a bar are the leftmost non-overlapping matches of its text in its
encoding. -/
theorem bounded_text_hits [Build] {env : Env} (he : env.Sound) {rs : List Request} {os : List (Option Nat)} {g : Graph}
    {P : Vm.Program} (h : Compiled env rs os g P) (hb : ∀ r ∈ rs, Parsed env r NoUnb)
    {fuel : Nat} {first : List Vm.Thread} {σ₀ : Vm.St} (hnew : Vm.create P fuel = .ok (first, σ₀))
    {off : Nat} {bufs : List (List UInt8)} {res : List (Option Nat)} {σ : Vm.St}
    (hrun : Vm.run P first fuel (Vm.searches off bufs) σ₀ = .ok (res, σ)) {i l : Nat} {r : Request}
    (hr : rs[i]? = some r) (ho : os[i]? = some (some l)) (hng : Parsed env r NgFlat) (hnd : Parsed env r NoBlank) :
    Compiler.Leftmost (MatchAt env r off bufs.flatten) 0 (Vm.hitsOf l σ.log) := by
  obtain ⟨ps, hM, -, -, h5⟩ := h.made' he
  refine text_hits_partial he h (bounded_noZero hM ?_) hnew hrun hr ho hng hnd
  intro p hp
  obtain ⟨i, q, hq, -, ha⟩ := h5 p hp
  by_cases hne : ∃ w, w ∈ lang leafSem p.2
  · obtain ⟨w0, h0⟩ := hne
    obtain ⟨t, j, k, ts, a, b, -⟩ := ha.sub w0 h0
    obtain ⟨B, hB⟩ := bounded (textSem_bounded b) t (hb q (List.mem_of_getElem? hq) t j a)
    refine ⟨B, fun w hw => ?_⟩
    obtain ⟨t1, j1, k1, ts1, a1, b1, c1⟩ := ha.sub w hw
    rw [a] at a1
    cases a1
    obtain ⟨rfl, rfl⟩ := reads_unique b b1
    exact hB w c1
  · exact ⟨0, fun w hw => absurd ⟨w, hw⟩ hne⟩

/-! ## Example -/

attribute [local instance] Build.plain

theorem ascii_reads [Build] : Reads (name "ASCII") (.std .ascii) [] := exact_reads _ (List.mem_cons_self ..)

/-- Three requests, the second of which is refused because it matches the empty string. -/
def sample : List Request := [
  ⟨name "a(b|c)d", ⟨false, false, false⟩, name "ASCII"⟩,
  ⟨name "x*", ⟨false, false, false⟩, name "ASCII"⟩,
  ⟨name "ef", ⟨true, false, false⟩, name "utf-16le|OCE"⟩]

theorem parsed_of {env : Env} {r : Request} {P : Tree Node → Prop} {t : Tree Node} {j : Nat}
    (h : Text.parseText env r.opts r.expr = .ok (t, j)) (hp : P t) : Parsed env r P := by
  intro t' j' h'
  rw [h] at h'
  cases h'
  exact hp

/-- Whether a text has the given tree. -/
def parsesTo (env : Env) (r : Request) (t : Tree Node) : Bool :=
  match Text.parseText env r.opts r.expr with
  | .ok (t', _) => decide (t' = t)
  | .error _ => false

theorem parsesTo_iff {env : Env} {r : Request} {t : Tree Node} (h : parsesTo env r t = true) :
    ∃ j, Text.parseText env r.opts r.expr = .ok (t, j) := by
  unfold parsesTo at h
  split at h
  · next t' j he =>
    rw [decide_eq_true_eq] at h
    exact ⟨j, by rw [he, h]⟩
  · cases h

theorem sample_parsed : ∀ r ∈ sample, ∃ t j, Text.parseText Parser.plain r.opts r.expr = .ok (t, j) ∧ weight t ≤ 4 ∧
    NgFlat t ∧ NoDead t := by
  intro r hr
  simp only [sample, List.mem_cons, List.not_mem_nil, or_false] at hr
  rcases hr with rfl | rfl | rfl
  · obtain ⟨j, h⟩ := parsesTo_iff (env := Parser.plain) (r := ⟨name "a(b|c)d", ⟨false, false, false⟩, name "ASCII"⟩)
      (t := .cat (.cat (.leaf (.lit 97)) (.alt (.leaf (.lit 98)) (.leaf (.lit 99)))) (.leaf (.lit 100))) (by decide +kernel)
    exact ⟨_, j, h, by simp [weight], by simp [NgFlat], by simp [NoDead]⟩
  · obtain ⟨j, h⟩ := parsesTo_iff (env := Parser.plain) (r := ⟨name "x*", ⟨false, false, false⟩, name "ASCII"⟩)
      (t := .rep false 0 UNB (.leaf (.lit 120))) (by decide +kernel)
    exact ⟨_, j, h, by simp [weight], by simp [NgFlat, Regex.NoNg], by simp [NoDead, UNB]⟩
  · obtain ⟨j, h⟩ := parsesTo_iff (env := Parser.plain) (r := ⟨name "ef", ⟨true, false, false⟩, name "utf-16le|OCE"⟩)
      (t := .cat (.leaf (.lit 101)) (.leaf (.lit 102))) (by decide +kernel)
    exact ⟨_, j, h, by simp [weight], by simp [NgFlat], by simp [NoDead]⟩

theorem sample_modest : ∀ r ∈ sample, Modest Parser.plain r := by
  intro r hr
  obtain ⟨t, j, h1, h2, -⟩ := sample_parsed r hr
  refine ⟨parsed_of h1 (by simp only [UNB]; omega), ?_⟩
  simp only [sample, List.mem_cons, List.not_mem_nil, or_false] at hr
  rcases hr with rfl | rfl | rfl <;> decide

/-- The hypotheses of C67 and C68 are met by the three requests: the accepted ones get the
numbers 0 and 1. -/
theorem sample_compiled : ∃ g P, Compiled Parser.plain sample [some 0, none, some 1] g P := by
  have h : (match requests 60 Parser.plain .init sample with
      | some (s, os) => decide (os = [some 0, none, some 1]) && (match finalizeGraph 60 false 4294967295 s.graph with
          | some (.ok g) => decide (g.n < 16777216)
          | _ => false)
      | _ => false) = true := by decide +kernel
  cases h1 : requests 60 Parser.plain .init sample with
  | none => rw [h1] at h; cases h
  | some x =>
    obtain ⟨s, os⟩ := x
    simp only [h1, Bool.and_eq_true, decide_eq_true_eq] at h
    obtain ⟨rfl, h⟩ := h
    cases h2 : finalizeGraph 60 false 4294967295 s.graph with
    | none => rw [h2] at h; cases h
    | some r =>
      cases r with
      | error e => rw [h2] at h; cases h
      | ok g =>
        simp only [h2, decide_eq_true_eq] at h
        obtain ⟨ps, p1, p2, p3, -, p5⟩ := requests_spec Parser.plain_sound sample sample_modest factory_init h1
        have hps : Patterns ps := by
          refine ⟨by rw [p3]; exact List.nodup_range', fun p hp => ?_⟩
          obtain ⟨i, r, -, -, ha⟩ := p5 p hp
          exact ha.sane
        have hd := finalized_parallel hps p1 h2 (Or.inr (by omega))
        obtain ⟨F, hF⟩ := finalized_search_ends hps p1 h2 hd h (by
          intro p hp
          have hl : ps.length = 2 := by
            have := congrArg List.length p2
            simpa using this.symm
          have : p.1 ∈ ps.map (·.1) := List.mem_map_of_mem hp
          rw [p3, List.mem_range'_1, hl] at this
          have : State.init.count = 0 := rfl
          omega)
        obtain ⟨P, hP, -⟩ := hF F (Nat.le_refl _)
        exact ⟨g, P, sample_modest, ⟨_, _, F, s, _, _, h1, h2, hP⟩, hd⟩

/-- `acd` is what the first request asks for. -/
example : Matches Parser.plain ⟨name "a(b|c)d", ⟨false, false, false⟩, name "ASCII"⟩ [97, 99, 100] := by
  obtain ⟨j, h⟩ := parsesTo_iff (env := Parser.plain) (r := ⟨name "a(b|c)d", ⟨false, false, false⟩, name "ASCII"⟩)
    (t := .cat (.cat (.leaf (.lit 97)) (.alt (.leaf (.lit 98)) (.leaf (.lit 99)))) (.leaf (.lit 100))) (by decide +kernel)
  refine ⟨_, j, .std .ascii, [], h, ascii_reads, ?_⟩
  · have hl : ∀ c : Nat, c < 128 → toBytes (charBytes (.std .ascii) [] c) ∈ textSem (charBytes (.std .ascii) []) (.lit c) := fun c hc =>
      ⟨by simp [charBytes, Coding.spec, Decoders.Charset.spec, hc], rfl⟩
    have e : ∀ c : Nat, c < 128 → toBytes (charBytes (.std .ascii) [] c) = [UInt8.ofNat c] := fun c hc => by
      simp [charBytes, Coding.spec, Decoders.Charset.spec, hc, toBytes, Transforms.applyAll]
    refine Language.mem_mul.2 ⟨[97, 99], Language.mem_mul.2 ⟨[97], ?_, [99], Or.inr ?_, rfl⟩, [100], ?_, rfl⟩
    · have := hl 97 (by decide); rw [e 97 (by decide)] at this; exact this
    · have := hl 99 (by decide); rw [e 99 (by decide)] at this; exact this
    · have := hl 100 (by decide); rw [e 100 (by decide)] at this; exact this

end Verif.Session
