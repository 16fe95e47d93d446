import Verif.Text
import Verif.Props.Regex
import Verif.Props.ParsedTrees
/-!
# The shortcuts taken by looking at the text (C63), and the room for the nodes (C64)

`reduce` skips passes when the pattern's text shows that they have nothing to do, and
`ParseTree::init` reserves room for the nodes by looking at the text.
-/
namespace Verif.Regex
variable {α : Type}

/-- No repetition is written `{…}`. -/
def NoCounted : Tree α → Prop
  | .leaf _ => True
  | .alt l r => NoCounted l ∧ NoCounted r
  | .cat l r => NoCounted l ∧ NoCounted r
  | .rep _ m M t => ((m = 0 ∧ M = UNB) ∨ (m = 1 ∧ M = UNB) ∨ (m = 0 ∧ M = 1)) ∧ NoCounted t
  | .look _ t => NoCounted t

theorem NoCounted.noDead {t : Tree α} (h : NoCounted t) : NoDead t := by
  induction t with
  | leaf a => trivial
  | alt l r ihl ihr => exact ⟨ihl h.1, ihr h.2⟩
  | cat l r ihl ihr => exact ⟨ihl h.1, ihr h.2⟩
  | rep ng m M t ih => exact ⟨by have := h.1; unfold UNB at this; omega, ih h.2⟩
  | look k t ih => exact ih h

theorem NoDead.onlyZero {t : Tree α} (h : NoDead t) (hn : NoLook t) : onlyZero t = some false := by
  induction t with
  | leaf a => rfl
  | alt l r ihl ihr => exact ihl h.1 hn.1
  | cat l r ihl ihr => simp [Regex.onlyZero, ihl h.1 hn.1]
  | rep ng m M t ih => simp [Regex.onlyZero, h.1, ih h.2 hn]
  | look k t ih => exact hn.elim

/-- Where nothing is repeated `{0}` times, no alternative is lost. -/
theorem NoDead.altOk {t : Tree α} (h : NoDead t) (hn : NoLook t) : AltOk t := by
  induction t with
  | leaf a => trivial
  | alt l r ihl ihr => exact ⟨fun hz => (by rw [h.1.onlyZero hn.1] at hz; cases hz), ihl h.1 hn.1, ihr h.2 hn.2⟩
  | cat l r ihl ihr => exact ⟨ihl h.1 hn.1, ihr h.2 hn.2⟩
  | rep ng m M t ih => exact ih h.2 hn
  | look k t ih => exact hn.elim

theorem assoc_noDead (t : Tree α) (h : NoDead t) : NoDead (assoc t).2 := by
  induction t with
  | leaf a => trivial
  | look k t ih => exact ih h
  | rep ng m M t ih => exact ⟨h.1, ih h.2⟩
  | alt l r ihl ihr =>
    have a := ihl h.1
    have b := ihr h.2
    unfold assoc
    dsimp only
    split
    · next e f he => rw [he] at a; exact ⟨a.1, a.2, b⟩
    · exact ⟨a, b⟩
  | cat l r ihl ihr =>
    have a := ihl h.1
    have b := ihr h.2
    unfold assoc
    dsimp only
    split
    · next e f he => rw [he] at a; exact ⟨a.1, a.2, b⟩
    · exact ⟨a, b⟩

theorem assoc_noNg (t : Tree α) (h : NoNg t) : NoNg (assoc t).2 := by
  induction t with
  | leaf a => trivial
  | look k t ih => exact ih h
  | rep ng m M t ih => exact ⟨h.1, ih h.2⟩
  | alt l r ihl ihr =>
    have a := ihl h.1
    have b := ihr h.2
    unfold assoc
    dsimp only
    split
    · next e f he => rw [he] at a; exact ⟨a.1, a.2, b⟩
    · exact ⟨a, b⟩
  | cat l r ihl ihr =>
    have a := ihl h.1
    have b := ihr h.2
    unfold assoc
    dsimp only
    split
    · next e f he => rw [he] at a; exact ⟨a.1, a.2, b⟩
    · exact ⟨a, b⟩

variable [DecidableEq α]

/-- The rewriter refuses lookarounds: what it gets through has none. -/
theorem combine_noLook (t : Tree α) : ∀ q, combine t = some q → NoLook t ∧ NoLook q.2 := by
  induction t with
  | leaf a => intro q h; simp only [combine, Option.some.injEq] at h; subst h; exact ⟨trivial, trivial⟩
  | look k t => intro q h; simp [combine] at h
  | rep ng m M t ih =>
    intro q h
    simp only [combine, Option.bind_eq_bind, Option.bind_eq_some_iff, Option.some.injEq] at h
    obtain ⟨p, hp, rfl⟩ := h
    exact ih p hp
  | alt l r ihl ihr =>
    intro q h
    simp only [combine, Option.bind_eq_bind, Option.bind_eq_some_iff, Option.some.injEq] at h
    obtain ⟨p, hp, u, hu, rfl⟩ := h
    exact ⟨⟨(ihl p hp).1, (ihr u hu).1⟩, (ihl p hp).2, (ihr u hu).2⟩
  | cat l r ihl ihr =>
    intro q h
    have h' := h
    simp only [combine, Option.bind_eq_bind, Option.bind_eq_some_iff] at h'
    obtain ⟨p, hp, u, hu, -⟩ := h'
    have a := ihl p hp
    have b := ihr u hu
    refine ⟨⟨a.1, b.1⟩, ?_⟩
    rcases combine_cat hp hu h with rfl | ⟨ng, m, M, t, e1, e2, rfl⟩ | ⟨ng, m, M, t, s, e1, e2, rfl⟩
    · exact ⟨a.2, b.2⟩
    · have := a.2; rw [e1] at this; exact this
    · have h1 := a.2; rw [e1] at h1
      have h2 := b.2; rw [e2] at h2
      exact ⟨h1, h2.2⟩

theorem combine_noNg (t : Tree α) (hn : NoNg t) : ∀ q, combine t = some q → NoNg q.2 := by
  induction t with
  | leaf a => intro q h; simp only [combine, Option.some.injEq] at h; subst h; trivial
  | look k t => intro q h; simp [combine] at h
  | rep ng m M t ih =>
    intro q h
    simp only [combine, Option.bind_eq_bind, Option.bind_eq_some_iff, Option.some.injEq] at h
    obtain ⟨p, hp, rfl⟩ := h
    exact ⟨hn.1, ih hn.2 p hp⟩
  | alt l r ihl ihr =>
    intro q h
    simp only [combine, Option.bind_eq_bind, Option.bind_eq_some_iff, Option.some.injEq] at h
    obtain ⟨p, hp, u, hu, rfl⟩ := h
    exact ⟨ihl hn.1 p hp, ihr hn.2 u hu⟩
  | cat l r ihl ihr =>
    intro q h
    have h' := h
    simp only [combine, Option.bind_eq_bind, Option.bind_eq_some_iff] at h'
    obtain ⟨p, hp, u, hu, -⟩ := h'
    have a := ihl hn.1 p hp
    have b := ihr hn.2 u hu
    rcases combine_cat hp hu h with rfl | ⟨ng, m, M, t, e1, e2, rfl⟩ | ⟨ng, m, M, t, s, e1, e2, rfl⟩
    · exact ⟨a, b⟩
    · rw [e1] at a; exact a
    · rw [e1] at a; rw [e2] at b; exact ⟨a, b.2⟩

omit [DecidableEq α] in
theorem thenEmpty_flag (t : Tree α) : ∀ q, thenEmpty t = some q → q.1 = false → q.2 = t := by
  induction t with
  | leaf a => intro q h _; simp only [thenEmpty, Option.some.injEq] at h; subst h; rfl
  | look k t ih =>
    intro q h hq
    simp only [thenEmpty, Option.bind_eq_bind, Option.bind_eq_some_iff, Option.some.injEq] at h
    obtain ⟨p, hp, rfl⟩ := h
    exact congrArg (Tree.look k) (ih p hp hq)
  | rep ng m M t ih =>
    intro q h hq
    cases ng with
    | false =>
      simp only [thenEmpty, Option.bind_eq_bind, Option.bind_eq_some_iff, Option.some.injEq] at h
      obtain ⟨p, hp, rfl⟩ := h
      exact congrArg (Tree.rep false m M) (ih p hp hq)
    | true =>
      simp only [thenEmpty, Option.bind_eq_bind, Option.bind_eq_some_iff, Option.some.injEq] at h
      obtain ⟨p, hp, rfl⟩ := h
      cases hq
  | alt l r ihl ihr =>
    intro q h hq
    simp only [thenEmpty, Option.bind_eq_bind, Option.bind_eq_some_iff, Option.some.injEq] at h
    obtain ⟨p, hp, u, hu, rfl⟩ := h
    simp only [Bool.or_eq_false_iff] at hq
    rw [ihl p hp hq.1, ihr u hu hq.2]
  | cat l r ihl ihr =>
    intro q h hq
    unfold thenEmpty at h
    simp only [Option.bind_eq_bind, Option.bind_eq_some_iff, Option.some.injEq] at h
    obtain ⟨p, ⟨z, hz, hp⟩, u, hu, rfl⟩ := h
    simp only [Bool.or_eq_false_iff] at hq
    rw [ihr u hu hq.2]
    have : p.2 = l := by
      split at hp
      · split at hp
        · cases hp; cases hq.1
        · exact ihl p hp hq.1
      · cases hp; rfl
    rw [this]

theorem thenGreedy_flag (t : Tree α) : (thenGreedy t).1 = false → (thenGreedy t).2 = t := by
  induction t with
  | leaf a => intro _; rfl
  | look k t ih => intro h; exact congrArg (Tree.look k) (ih h)
  | rep ng m M t ih => intro h; simp only [thenGreedy] at h ⊢; rw [ih h]
  | alt l r ihl ihr =>
    intro h
    simp only [thenGreedy, Bool.or_eq_false_iff] at h ⊢
    rw [ihl h.1, ihr h.2]
  | cat l r ihl ihr =>
    have other : ∀ l : Tree α, (∀ a b s, l ≠ .rep true a b s) →
        (thenGreedy (.cat l r)) = ((thenGreedy r).1, .cat l (thenGreedy r).2) := by
      intro l hl
      cases l with
      | rep ng a b s =>
        cases ng with
        | true => exact absurd rfl (hl a b s)
        | false => rfl
      | _ => rfl
    intro h
    by_cases hl : ∃ a b s, l = .rep true a b s
    · obtain ⟨a, b, s, rfl⟩ := hl
      rw [thenGreedy] at h ⊢
      split at h
      · next c d s' hr =>
        split at h
        · cases h
        · next h1 =>
          split at h
          · cases h
          · next h2 =>
            rw [if_neg h1, if_neg h2]
            have := ihr h
            rw [hr] at this
            rw [this]
      · next t' hr =>
        split at h
        · cases h
        · next h1 =>
          rw [if_neg h1]
          dsimp only
          rw [ihr h]
    · have hl : ∀ a b s, l ≠ .rep true a b s := fun a b s e => hl ⟨a, b, s, e⟩
      rw [other l hl] at h ⊢
      show Tree.cat l (thenGreedy r).2 = _
      rw [ihr h]

omit [DecidableEq α] in
theorem reduceEmpty_noDead (x : α) (t : Tree α) (h : NoDead t) (hn : NoLook t) : reduceEmpty x t = some t := by
  induction t with
  | leaf a => rfl
  | look k t => exact hn.elim
  | rep ng m M t ih => simp [reduceEmpty, NoDead.onlyZero (t := .rep ng m M t) h hn, ih h.2 hn]
  | alt l r ihl ihr =>
    simp [reduceEmpty, NoDead.onlyZero (t := .alt l r) h hn, ihl h.1 hn.1, ihr h.2 hn.2, fixDead, h.2.onlyZero hn.2]
  | cat l r ihl ihr =>
    simp [reduceEmpty, NoDead.onlyZero (t := .cat l r) h hn, ihl h.1 hn.1, ihr h.2 hn.2, fixDead, h.2.onlyZero hn.2,
      h.1.onlyZero hn.1]

omit [DecidableEq α] in
theorem prune_noCounted (t : Tree α) (h : NoCounted t) : prune t = t := by
  cases t with
  | rep ng m M t =>
    have := h.1
    unfold UNB at this
    rw [prune, if_neg (by omega), if_neg (by omega)]
  | _ => rfl

omit [DecidableEq α] in
theorem useless_noCounted (t : Tree α) (h : NoCounted t) (hn : NoLook t) : useless t = some t := by
  induction t with
  | leaf a => rw [useless]
  | look k t => exact hn.elim
  | rep ng m M t ih => rw [useless, prune_noCounted t h.2]; simp [ih h.2 hn]
  | alt l r ihl ihr => rw [useless, prune_noCounted l h.1, prune_noCounted r h.2]; simp [ihl h.1 hn.1, ihr h.2 hn.2]
  | cat l r ihl ihr => rw [useless, prune_noCounted l h.1, prune_noCounted r h.2]; simp [ihl h.1 hn.1, ihr h.2 hn.2]

/-- Skipping the passes changes nothing if there is nothing for them to do. -/
theorem reduce_shortcuts (x : α) {ng counted : Bool} {t : Tree α} (hng : ng = false → NoNg t)
    (hc : counted = false → NoCounted t) : reduce x ng counted t = reduce x true true t := by
  cases hcc : combine (assoc t).2 with
  | none => simp [reduce, hcc]
  | some c =>
    obtain ⟨hl, hl'⟩ := combine_noLook _ c hcc
    -- the non-greedy passes
    have first : reduce x ng counted t = reduce x true counted t := by
      cases ng with
      | true => rfl
      | false =>
        have hn := combine_noNg _ (assoc_noNg t (hng rfl)) c hcc
        simp [reduce, hcc, thenEmpty_noNg _ hn hl', thenGreedy_noNg _ hn]
    rw [first]
    cases counted with
    | true => rfl
    | false =>
      simp only [reduce, hcc, Option.bind_eq_bind, Option.bind_some, if_true]
      cases he : thenEmpty c.2 with
      | none => simp
      | some e =>
        simp only [Option.bind_some]
        cases hf : ((assoc t).1 || c.1 || e.1 || (thenGreedy e.2).1) with
        | true => simp
        | false =>
          simp only [Bool.or_eq_false_iff] at hf
          have e4 := thenGreedy_flag _ hf.2
          have e3 := thenEmpty_flag _ _ he hf.1.2
          have e2 := combine_flag _ _ hcc hf.1.1.2
          have e1 := assoc_flag _ hf.1.1.1
          have hn := hc rfl
          rw [e2] at e3 hl'
          rw [e3] at e4
          rw [e1] at e4 hl'
          rw [e3, e1] at *
          simp [e4, reduceEmptyRoot, hn.noDead.onlyZero hl', reduceEmpty_noDead x _ hn.noDead hl', uselessRoot,
            prune_noCounted _ hn, useless_noCounted _ hn hl']

end Verif.Regex

namespace Verif.Parser
open Verif.Regex (Tree UNB NoNg NoCounted)
open Verif.Encoders (Node)

/-! ## What non-greedy and counted repetitions look like among the tokens -/

/-- The token `tok` is among `p`, with at least `n` tokens before and `m` behind it. -/
def HasAt (n m : Nat) (tok : Tok) (p : List LTok) : Prop :=
  ∃ a x b, p = a ++ x :: b ∧ n ≤ a.length ∧ m ≤ b.length ∧ x.tok = tok

theorem HasAt.embed {n m : Nat} {tok : Tok} {p : List LTok} (h : HasAt n m tok p) (l r : List LTok) :
    HasAt n m tok (l ++ (p ++ r)) := by
  obtain ⟨a, x, b, rfl, ha, hb, hx⟩ := h
  refine ⟨l ++ a, x, b ++ r, by simp, ?_, ?_, hx⟩ <;> simp <;> omega

theorem HasAt.left {n m : Nat} {tok : Tok} {p : List LTok} (h : HasAt n m tok p) (r : List LTok) :
    HasAt n m tok (p ++ r) := h.embed [] r

theorem HasAt.right {n m : Nat} {tok : Tok} {p : List LTok} (h : HasAt n m tok p) (l : List LTok) :
    HasAt n m tok (l ++ p) := by simpa using h.embed l []

theorem number_ne {p : List LTok} {n : Nat} (h : Number p n) : 1 ≤ p.length := by
  cases h <;> simp

theorem lazy_ng {q : List LTok} (h : Lazy q true) : ∃ x, q = [x] ∧ x.tok = .sym 63 := by
  cases h with | yes hx => exact ⟨_, rfl, hx⟩

theorem cc_length {env : Env} {o : Opts} {nt : CNT} {p : List LTok} {c : Cls} {k : Nat} (h : CC env o nt p c k) :
    1 ≤ p.length ∧ k ≤ p.length := by
  induction h with
  | named => simp
  | pos _ _ _ _ ih => simp; omega
  | neg _ _ _ _ _ ih => simp; omega
  | start _ ih => exact ih
  | union _ _ _ _ ih ih' => simp; omega
  | binary _ _ _ _ ih ih' => simp; omega
  | range => simp
  | charThenClass _ _ _ ih => simp; omega
  | byteRange => simp
  | byteThenClass _ _ _ ih => simp; omega
  | nested _ ih => exact ih
  | char => simp
  | hyphen => simp
  | byte => simp

theorem re_length {env : Env} {nt : NT} {o : Opts} {p : List LTok} {t : Tree Node} {o' : Opts} {k : Nat}
    (h : Re env nt o p t o' k) : 1 ≤ p.length := by
  induction h with
  | cls h => exact (cc_length h).1
  | _ => simp_all <;> omega

theorem simple_ng {env : Env} {o : Opts} {x : Tok} {t : Tree Node} {k : Nat}
    (h : simpleAtom env o x = some (.ok (t, k))) : NoNg t ∧ NoCounted t := by
  unfold simpleAtom at h
  split at h
  · cases hW : orUb (RangeSet.flip 0x110000 wordSet) with
    | error e => rw [hW] at h; cases h
    | ok W => rw [hW] at h; cases h; exact ⟨⟨⟨trivial, trivial⟩, trivial, trivial⟩, ⟨trivial, trivial⟩, trivial, trivial⟩
  · cases hW : orUb (RangeSet.flip 0x110000 wordSet) with
    | error e => rw [hW] at h; cases h
    | ok W => rw [hW] at h; cases h; exact ⟨⟨⟨trivial, trivial⟩, trivial, trivial⟩, ⟨trivial, trivial⟩, trivial, trivial⟩
  · cases h; exact ⟨trivial, trivial⟩
  · cases h; exact ⟨trivial, trivial⟩
  · cases h; exact ⟨trivial, trivial⟩
  · cases h; exact ⟨trivial, trivial⟩
  · cases h; exact ⟨trivial, trivial⟩
  · cases h; exact ⟨trivial, trivial⟩
  · cases h; exact ⟨⟨trivial, trivial⟩, trivial, trivial⟩
  · cases h; exact ⟨⟨trivial, trivial⟩, trivial, trivial⟩
  · cases h; exact ⟨⟨trivial, trivial⟩, trivial, trivial⟩
  · split at h
    · next c hc =>
      cases hl : literal env o c with
      | error e => rw [hl] at h; cases h
      | ok a => rw [hl] at h; cases h; exact ⟨trivial, trivial⟩
    · cases h

theorem quant_ng {q : List LTok} {ng : Bool} {lo hi j : Nat} (h : Quant q ng lo hi j) :
    ng = false ∨ HasAt 1 0 (.sym 63) q := by
  cases ng with
  | false => exact .inl rfl
  | true =>
    right
    cases h with
    | star hx h => obtain ⟨y, rfl, hy⟩ := lazy_ng h; exact ⟨[_], y, [], rfl, by simp, by simp, hy⟩
    | plus hx h => obtain ⟨y, rfl, hy⟩ := lazy_ng h; exact ⟨[_], y, [], rfl, by simp, by simp, hy⟩
    | opt hx h => obtain ⟨y, rfl, hy⟩ := lazy_ng h; exact ⟨[_], y, [], rfl, by simp, by simp, hy⟩
    | @exact x z p n _ _ hx hp hz h =>
      obtain ⟨y, rfl, hy⟩ := lazy_ng h; exact ⟨x :: (p ++ [z]), y, [], by simp, by simp, by simp, hy⟩
    | @atLeast x z w p n _ _ hx hp hz hw h =>
      obtain ⟨y, rfl, hy⟩ := lazy_ng h; exact ⟨x :: (p ++ [z, w]), y, [], by simp, by simp, by simp, hy⟩
    | @between x z w p n r m _ _ hx hp hz hr hw hnm h =>
      obtain ⟨y, rfl, hy⟩ := lazy_ng h; exact ⟨x :: (p ++ z :: (r ++ [w])), y, [], by simp, by simp, by simp, hy⟩

theorem quant_counted {q : List LTok} {ng : Bool} {lo hi j : Nat} (h : Quant q ng lo hi j) :
    ((lo = 0 ∧ hi = UNB) ∨ (lo = 1 ∧ hi = UNB) ∨ (lo = 0 ∧ hi = 1)) ∨ HasAt 0 2 (.sym 123) q := by
  cases h with
  | star hx h => simp
  | plus hx h => simp
  | opt hx h => simp
  | exact hx hp hy h =>
    exact .inr ⟨[], _, _, rfl, by simp, by have := number_ne hp; simp; omega, hx⟩
  | atLeast hx hp hy hz h =>
    exact .inr ⟨[], _, _, rfl, by simp, by have := number_ne hp; simp; omega, hx⟩
  | between hx hp hy hr hz hnm h =>
    exact .inr ⟨[], _, _, rfl, by simp, by have := number_ne hp; simp; omega, hx⟩

/-- Behind an atom there is one more token before. -/
theorem HasAt.after {n m : Nat} {tok : Tok} {p q : List LTok} (h : HasAt n m tok q) (hp : 1 ≤ p.length) :
    HasAt (n + 1) m tok (p ++ q) := by
  obtain ⟨a, x, b, rfl, ha, hb, hx⟩ := h
  exact ⟨p ++ a, x, b, by simp, by simp; omega, hb, hx⟩

/-- A non-greedy repetition has a `?` behind two other tokens. -/
theorem re_ng {env : Env} {nt : NT} {o : Opts} {p : List LTok} {t : Tree Node} {o' : Opts} {k : Nat}
    (h : Re env nt o p t o' k) : NoNg t ∨ HasAt 2 0 (.sym 63) p := by
  induction h with
  | concat h ih => exact ih
  | @alt _ _ _ p _ _ _ x q _ _ _ h hx h' ih ih' =>
    rcases ih with a | a
    · rcases ih' with b | b
      · exact .inl ⟨a, b⟩
      · exact .inr (by simpa using b.right (p ++ [x]))
    · exact .inr (a.left _)
  | switchAlt h h' ih => exact ih.imp id (·.right _)
  | rep h ih => exact ih
  | cat h h' hb ih ih' =>
    rcases ih with a | a
    · rcases ih' with b | b
      · exact .inl ⟨a, b⟩
      · exact .inr (b.right _)
    · exact .inr (a.left _)
  | kill h hx ih => exact ih.imp id (·.left _)
  | catSwitch h h' ih => exact ih.imp id (·.left _)
  | atom h ih => exact ih
  | quant h h' ih =>
    rcases ih with a | a
    · rcases quant_ng h' with b | b
      · exact .inl ⟨b, a⟩
      · exact .inr (b.after (re_length h))
    · exact .inr (a.left _)
  | @group _ a c _ p _ _ _ ha h hc ih => exact ih.imp id fun r => r.embed [a] [c]
  | @behindPos _ a x y z c _ p _ _ _ ha hx hy hz h hc ih => exact ih.imp id fun r => r.embed [a, x, y, z] [c]
  | @behindNeg _ a x y z c _ p _ _ _ ha hx hy hz h hc ih => exact ih.imp id fun r => r.embed [a, x, y, z] [c]
  | @aheadPos _ a x y c _ p _ _ _ ha hx hy h hc ih => exact ih.imp id fun r => r.embed [a, x, y] [c]
  | @aheadNeg _ a x y c _ p _ _ _ ha hx hy h hc ih => exact ih.imp id fun r => r.embed [a, x, y] [c]
  | simple h => exact .inl (simple_ng h).1
  | cls h => exact .inl trivial

/-- A counted repetition has a `{` behind one token and before two others. -/
theorem re_counted {env : Env} {nt : NT} {o : Opts} {p : List LTok} {t : Tree Node} {o' : Opts} {k : Nat}
    (h : Re env nt o p t o' k) : NoCounted t ∨ HasAt 1 2 (.sym 123) p := by
  induction h with
  | concat h ih => exact ih
  | @alt _ _ _ p _ _ _ x q _ _ _ h hx h' ih ih' =>
    rcases ih with a | a
    · rcases ih' with b | b
      · exact .inl ⟨a, b⟩
      · exact .inr (by simpa using b.right (p ++ [x]))
    · exact .inr (a.left _)
  | switchAlt h h' ih => exact ih.imp id (·.right _)
  | rep h ih => exact ih
  | cat h h' hb ih ih' =>
    rcases ih with a | a
    · rcases ih' with b | b
      · exact .inl ⟨a, b⟩
      · exact .inr (b.right _)
    · exact .inr (a.left _)
  | kill h hx ih => exact ih.imp id (·.left _)
  | catSwitch h h' ih => exact ih.imp id (·.left _)
  | atom h ih => exact ih
  | quant h h' ih =>
    rcases ih with a | a
    · rcases quant_counted h' with b | b
      · exact .inl ⟨b, a⟩
      · exact .inr (b.after (re_length h))
    · exact .inr (a.left _)
  | @group _ a c _ p _ _ _ ha h hc ih => exact ih.imp id fun r => r.embed [a] [c]
  | @behindPos _ a x y z c _ p _ _ _ ha hx hy hz h hc ih => exact ih.imp id fun r => r.embed [a, x, y, z] [c]
  | @behindNeg _ a x y z c _ p _ _ _ ha hx hy hz h hc ih => exact ih.imp id fun r => r.embed [a, x, y, z] [c]
  | @aheadPos _ a x y c _ p _ _ _ ha hx hy h hc ih => exact ih.imp id fun r => r.embed [a, x, y] [c]
  | @aheadNeg _ a x y c _ p _ _ _ ha hx hy h hc ih => exact ih.imp id fun r => r.embed [a, x, y] [c]
  | simple h => exact .inl (simple_ng h).2
  | cls h => exact .inl trivial

/-! ## How many nodes -/

/-- The room for a token. -/
def cost : Tok → Nat
  | .word => 12
  | .notWord => 12
  | .sym 94 => 3
  | .sym 36 => 3
  | .hyphens => 4
  | .amps => 4
  | .tildes => 4
  | .textStart => 3
  | .textEnd => 3
  | _ => 2

/-- The room for the tokens. -/
def costs (p : List LTok) : Nat := (p.map fun x => cost x.tok).sum

@[simp] theorem costs_nil : costs [] = 0 := rfl
@[simp] theorem costs_cons (x : LTok) (p : List LTok) : costs (x :: p) = cost x.tok + costs p := by simp [costs]
@[simp] theorem costs_append (p q : List LTok) : costs (p ++ q) = costs p + costs q := by simp [costs]

theorem two_le_cost (t : Tok) : 2 ≤ cost t := by unfold cost; split <;> omega

theorem costs_length (p : List LTok) : 2 * p.length ≤ costs p := by
  induction p with
  | nil => simp
  | cons x p ih => have := two_le_cost x.tok; simp only [List.length_cons, costs_cons]; omega

theorem simple_cost {env : Env} {o : Opts} {x : Tok} {t : Tree Node} {k : Nat}
    (h : simpleAtom env o x = some (.ok (t, k))) : k + 1 ≤ cost x := by
  have h2 := two_le_cost x
  unfold simpleAtom at h
  split at h
  · cases hW : orUb (RangeSet.flip 0x110000 wordSet) with
    | error e => rw [hW] at h; cases h
    | ok W => rw [hW] at h; cases h; decide
  · cases hW : orUb (RangeSet.flip 0x110000 wordSet) with
    | error e => rw [hW] at h; cases h
    | ok W => rw [hW] at h; cases h; decide
  · cases h; decide
  · cases h; decide
  · cases h; decide
  · cases h; decide
  · cases h; exact h2
  · cases h; exact h2
  · cases h; decide
  · cases h; decide
  · cases h; decide
  · split at h
    · next c hc =>
      cases hl : literal env o c with
      | error e => rw [hl] at h; cases h
      | ok a => rw [hl] at h; cases h; exact h2
    · cases h

theorem quant_cost {q : List LTok} {ng : Bool} {lo hi j : Nat} (h : Quant q ng lo hi j) : j ≤ costs q := by
  have := costs_length q
  have : j ≤ 2 * q.length := by
    cases h with
    | star hx h => simp; omega
    | plus hx h => simp; omega
    | opt hx h => simp; omega
    | exact hx hp hy h => simp only [List.length_cons]; omega
    | atLeast hx hp hy hz h => simp only [List.length_cons]; omega
    | between hx hp hy hr hz hnm h => simp only [List.length_cons, List.length_append]; omega
  omega

theorem re_cost {env : Env} {nt : NT} {o : Opts} {p : List LTok} {t : Tree Node} {o' : Opts} {k : Nat}
    (h : Re env nt o p t o' k) : k + 1 ≤ costs p := by
  induction h with
  | @cls _ p _ _ h => have := cc_length h; have := costs_length p; omega
  | simple h => simpa using simple_cost h
  | quant h h' ih => have := quant_cost h'; simp only [costs_append]; omega
  | alt h hx h' ih ih' => simp only [costs_append, costs_cons]; omega
  | kill h hx ih => have := two_le_cost .kill; simp only [costs_append, costs_cons, hx]; omega
  | behindPos ha hx hy hz h hc ih =>
    have := two_le_cost (.sym 40); simp only [costs_append, costs_cons, ha]; omega
  | behindNeg ha hx hy hz h hc ih =>
    have := two_le_cost (.sym 40); simp only [costs_append, costs_cons, ha]; omega
  | aheadPos ha hx hy h hc ih =>
    have := two_le_cost (.sym 40); simp only [costs_append, costs_cons, ha]; omega
  | aheadNeg ha hx hy h hc ih =>
    have := two_le_cost (.sym 40); simp only [costs_append, costs_cons, ha]; omega
  | concat _ ih => exact ih
  | rep _ ih => exact ih
  | atom _ ih => exact ih
  | _ => simp only [costs_append, costs_cons] at *; omega

/-! ## From the bytes to the tokens -/

/-- What bytes a token can stand for. -/
def FitsBytes (chunk : List Nat) : Tok → Prop
  | .sym c => chunk = [c]
  | .word => chunk = [92, 98]
  | .notWord => chunk = [92, 66]
  | .hyphens => 2 ≤ chunk.length
  | .amps => 2 ≤ chunk.length
  | .tildes => 2 ≤ chunk.length
  | .textStart => 2 ≤ chunk.length
  | .textEnd => 2 ≤ chunk.length
  | _ => True

/-- The tokens of a text, each with its bytes. -/
inductive LexedBytes : List Nat → List LTok → Prop
  | nil : LexedBytes [] []
  | cons {chunk rest x ts} (hne : chunk ≠ []) (h : FitsBytes chunk x.tok) (h' : LexedBytes rest ts) :
      LexedBytes (chunk ++ rest) (x :: ts)

/-- The code points of a text, each with its bytes. -/
inductive Spans : List Nat → List Int → Prop
  | nil : Spans [] []
  | cons {chunk rest c cs} (hne : chunk ≠ []) (hc : c < 0x110000) (h : 0 ≤ c → c < 128 → chunk = [c.toNat])
      (h' : Spans rest cs) : Spans (chunk ++ rest) (c :: cs)

theorem Spans.split {bs : List Nat} {a b : List Int} (h : Spans bs (a ++ b)) :
    ∃ p q, bs = p ++ q ∧ Spans p a ∧ Spans q b := by
  induction a generalizing bs with
  | nil => exact ⟨[], bs, rfl, .nil, h⟩
  | cons c a ih =>
    cases h with
    | cons hne hc h h' =>
      obtain ⟨p, q, rfl, hp, hq⟩ := ih h'
      exact ⟨_ ++ p, q, by simp, .cons hne hc h hp, hq⟩

theorem Spans.lt {bs : List Nat} {cs : List Int} (h : Spans bs cs) : ∀ c ∈ cs, c < 0x110000 := by
  induction h with
  | nil => simp
  | cons hne hc h h' ih => intro c hm; rcases List.mem_cons.1 hm with rfl | hm; exact hc; exact ih c hm

theorem Spans.length {bs : List Nat} {cs : List Int} (h : Spans bs cs) : cs.length ≤ bs.length := by
  induction h with
  | nil => simp
  | cons hne hc h h' ih => have := List.length_pos_iff.2 hne; simp; omega

theorem Spans.ascii {bs : List Nat} {cs : List Int} (h : Spans bs cs) (ha : ∀ c ∈ cs, 0 ≤ c ∧ c < 128) :
    bs = cs.map Int.toNat := by
  induction h with
  | nil => rfl
  | cons hne hc h h' ih =>
    have := ha _ (List.mem_cons_self ..)
    rw [h this.1 this.2, ih fun c hm => ha c (List.mem_cons_of_mem _ hm)]
    rfl

theorem Lexed.bytes {text : List Int} {ts : List LTok} (h : Lexed text ts) :
    ∀ {bs : List Nat}, Spans bs text → LexedBytes bs ts := by
  induction h with
  | nil => intro bs hs; cases hs; exact .nil
  | @cons chunk rest x ts hne h h' ih =>
    intro bs hs
    obtain ⟨p, q, rfl, hp, hq⟩ := hs.split
    have hlen := hp.length
    refine .cons ?_ ?_ (ih hq)
    · intro he; subst he; simp at hlen; exact hne hlen
    · cases hx : x.tok with
      | sym c =>
        rw [hx] at h
        obtain ⟨rfl, hc⟩ := h
        simpa [FitsBytes] using hp.ascii (by simp; omega)
      | word => rw [hx] at h; simp only [Fits] at h; subst h; simpa [FitsBytes] using hp.ascii (by simp)
      | notWord => rw [hx] at h; simp only [Fits] at h; subst h; simpa [FitsBytes] using hp.ascii (by simp)
      | hyphens => rw [hx] at h; simp only [Fits, FitsBytes] at h ⊢; omega
      | amps => rw [hx] at h; simp only [Fits, FitsBytes] at h ⊢; omega
      | tildes => rw [hx] at h; simp only [Fits, FitsBytes] at h ⊢; omega
      | textStart => rw [hx] at h; simp only [Fits, FitsBytes] at h ⊢; omega
      | textEnd => rw [hx] at h; simp only [Fits, FitsBytes] at h ⊢; omega
      | _ => trivial

theorem LexedBytes.at {bs : List Nat} {a : List LTok} {x : LTok} {b : List LTok} (h : LexedBytes bs (a ++ x :: b)) :
    ∃ A chunk B, bs = A ++ (chunk ++ B) ∧ a.length ≤ A.length ∧ b.length ≤ B.length ∧ FitsBytes chunk x.tok := by
  have len : ∀ {bs ts}, LexedBytes bs ts → ts.length ≤ bs.length := by
    intro bs ts h
    induction h with
    | nil => simp
    | cons hne h h' ih => have := List.length_pos_iff.2 hne; simp; omega
  induction a generalizing bs with
  | nil =>
    cases h with
    | cons hne h h' => exact ⟨[], _, _, rfl, by simp, len h', h⟩
  | cons y a ih =>
    cases h with
    | @cons ch _ _ _ hne h h' =>
      obtain ⟨A, chunk, B, rfl, h1, h2, h3⟩ := ih h'
      have := List.length_pos_iff.2 hne
      exact ⟨ch ++ A, chunk, B, by simp, by simp; omega, h2, h3⟩

end Verif.Parser

namespace Verif.Text
open Verif.Regex (Tree)
open Verif.Encoders (Node)
open Verif.Parser

/-! ## Decoding -/

theorem contU_used {buf : List Nat} {i cp used : Nat} {k : Nat → Utf.DecU} {r : Option Nat} {u : Nat}
    (h : Utf.contU buf i cp used k = .ret r u) : (r = none ∧ u = used) ∨ ∃ b, k (cp * 64 + b % 64) = .ret r u := by
  unfold Utf.contU at h
  split at h
  · cases h; exact .inl ⟨rfl, rfl⟩
  · split at h
    · cases h
    · next x hx =>
      dsimp only at h
      split at h
      · cases h; exact .inl ⟨rfl, rfl⟩
      · rw [Utf.and3F, Utf.orShift6] at h
        exact .inr ⟨_, h⟩

theorem utf8_used {x : Nat} {bs : List Nat} (hx : x < 256) {r : Option Nat} {u : Nat}
    (h : Utf.utf8ToUnicode (x :: bs) = .ret r u) :
    1 ≤ u ∧ ∀ c, r = some c → c < 0x110000 ∧ (c < 128 → u = 1 ∧ c = x) := by
  unfold Utf.utf8ToUnicode at h
  simp only [List.length_cons, Nat.add_eq_zero_iff, one_ne_zero, and_false, if_false, List.getElem?_cons_zero] at h
  rw [Utf.andFF, Nat.mod_eq_of_lt hx] at h
  split at h
  · cases h; exact ⟨by omega, fun c hc => by cases hc; omega⟩
  split at h
  · split at h
    · cases h; exact ⟨by omega, fun c hc => by cases hc⟩
    · rcases contU_used h with ⟨rfl, rfl⟩ | ⟨b, h⟩
      · exact ⟨by omega, fun c hc => by cases hc⟩
      · rw [Utf.and1F] at h
        cases h; exact ⟨by omega, fun c hc => by cases hc; omega⟩
  split at h
  · rcases contU_used h with ⟨rfl, rfl⟩ | ⟨b, h⟩
    · exact ⟨by omega, fun c hc => by cases hc⟩
    rcases contU_used h with ⟨rfl, rfl⟩ | ⟨b', h⟩
    · exact ⟨by omega, fun c hc => by cases hc⟩
    rw [Utf.and0F] at h
    split at h
    · cases h; exact ⟨by omega, fun c hc => by cases hc⟩
    · cases h; exact ⟨by omega, fun c hc => by cases hc; omega⟩
  split at h
  · rcases contU_used h with ⟨rfl, rfl⟩ | ⟨b, h⟩
    · exact ⟨by omega, fun c hc => by cases hc⟩
    rcases contU_used h with ⟨rfl, rfl⟩ | ⟨b', h⟩
    · exact ⟨by omega, fun c hc => by cases hc⟩
    rcases contU_used h with ⟨rfl, rfl⟩ | ⟨b'', h⟩
    · exact ⟨by omega, fun c hc => by cases hc⟩
    rw [Utf.and07] at h
    split at h
    · cases h; exact ⟨by omega, fun c hc => by cases hc⟩
    · cases h; exact ⟨by omega, fun c hc => by cases hc; omega⟩
  · cases h; exact ⟨by omega, fun c hc => by cases hc⟩

/-- A code point of a decoded text, -1 for malformed UTF-8. -/
def asInt : Option Nat → Int
  | some c => (c : Int)
  | none => -1

theorem transform_spans : ∀ (n : Nat) (bs : List Nat) (_ : ∀ b ∈ bs, b < 256) (cs : List (Option Nat)),
    Utf.transformUtf8 n bs = some cs → Spans bs (cs.map asInt)
  | 0, bs, hb, cs, h => by cases h
  | n + 1, [], hb, cs, h => by
    simp only [Utf.transformUtf8, List.length_nil, if_true, Option.some.injEq] at h
    subst h; exact .nil
  | n + 1, x :: bs, hb, cs, h => by
    rw [Utf.transformUtf8, if_neg (by simp)] at h
    split at h
    · cases h
    · next r u hu =>
      obtain ⟨hu1, hr⟩ := utf8_used (hb x (by simp)) hu
      split at h
      · cases h
      · next hlen =>
        obtain ⟨cs', hcs, rfl⟩ := Option.map_eq_some_iff.1 h
        have ih := transform_spans n _ (fun b hm => hb b (List.mem_of_mem_drop hm)) cs' hcs
        have : x :: bs = (x :: bs).take u ++ (x :: bs).drop u := (List.take_append_drop u _).symm
        rw [this]
        refine .cons ?_ ?_ ?_ ih
        · intro he
          have := congrArg List.length he
          simp only [List.length_take, List.length_cons, List.length_nil] at this
          omega
        · cases r with
          | none => show (-1 : Int) < _; omega
          | some c => have := (hr c rfl).1; show (c : Int) < _; omega
        · cases r with
          | none => intro h0; exact absurd h0 (by show ¬ (0 : Int) ≤ -1; omega)
          | some c =>
            intro _ hc
            have hc : (c : Int) < 128 := hc
            obtain ⟨rfl, rfl⟩ := (hr c rfl).2 (by omega)
            simp [asInt]

theorem codePoints_spans {expr : List UInt8} {cs : List Int} (h : codePoints expr = some cs) :
    Spans (expr.map UInt8.toNat) cs := by
  obtain ⟨ds, hd, rfl⟩ := Option.map_eq_some_iff.1 h
  have := transform_spans _ _ (by
    intro b hb
    obtain ⟨u, -, rfl⟩ := List.mem_map.1 hb
    exact u.toNat_lt) ds hd
  convert this using 2
  funext c
  cases c <;> rfl

/-- The bytes of the tokens of a text that parses. -/
theorem parse_lexed {env : Env} (he : env.Sound) {p : PatternOpts} {expr : List UInt8} {t : Tree Node} {k : Nat}
    (h : parseText env p expr = .ok (t, k)) :
    ∃ ts b o o' j, LexedBytes (expr.map UInt8.toNat) ts ∧ Re env (.alt b) o ts t o' j ∧ k = j + 1 := by
  unfold parseText at h
  split at h
  · cases h
  · next cs hcs =>
    have hs := codePoints_spans hcs
    obtain ⟨b, o', j, hr, hk⟩ := (parse_iff_derives _ _ _ _ _).1 h
    exact ⟨_, b, _, o', j, (lex_lexed he _ _ _ _ (Nat.le_refl _) hs.lt).bytes hs, hr, hk⟩

theorem byte_at {expr : List UInt8} {ts : List LTok} (h : LexedBytes (expr.map UInt8.toNat) ts) {n m : Nat} {c : UInt8}
    (ha : HasAt n m (.sym c.toNat) ts) : ∃ A B, expr = A ++ c :: B ∧ n ≤ A.length ∧ m ≤ B.length := by
  obtain ⟨a, x, b, rfl, h1, h2, hx⟩ := ha
  obtain ⟨A, chunk, B, he, h3, h4, h5⟩ := h.at
  rw [hx] at h5
  simp only [FitsBytes] at h5
  subst h5
  obtain ⟨A', R, rfl, hA, hR⟩ := List.map_eq_append_iff.1 he
  obtain ⟨c', B', rfl, hc, hB⟩ := List.map_eq_cons_iff.1 (show R.map UInt8.toNat = c.toNat :: B from hR)
  refine ⟨A', B', ?_, ?_, ?_⟩
  · rw [UInt8.toNat_inj.1 hc]
  · rw [← hA] at h3; simpa using Nat.le_trans h1 h3
  · rw [← hB] at h4; simpa using Nat.le_trans h2 h4

theorem rfind_le {c : UInt8} : ∀ (A B : List UInt8) (pos : Nat), A.length ≤ pos →
    ∃ i, rfind c (A ++ c :: B) pos = some i ∧ A.length ≤ i
  | [], B, pos, _ => by
    simp only [List.nil_append, rfind]
    split
    · exact ⟨_, rfl, by simp⟩
    · exact ⟨0, by simp, by simp⟩
  | a :: A, B, 0, h => by simp at h
  | a :: A, B, pos + 1, h => by
    obtain ⟨i, hi, hl⟩ := rfind_le (c := c) A B pos (by simpa using h)
    exact ⟨i + 1, by simp [rfind, hi], by simpa using hl⟩

theorem ng_text {env : Env} (he : env.Sound) {p : PatternOpts} {expr : List UInt8} {t : Tree Node} {k : Nat}
    (h : parseText env p expr = .ok (t, k)) (hn : possibleNongreedy expr = false) : Regex.NoNg t := by
  obtain ⟨ts, b, o, o', j, hl, hr, -⟩ := parse_lexed he h
  rcases re_ng hr with a | a
  · exact a
  · exfalso
    obtain ⟨A, B, rfl, h1, -⟩ := byte_at (c := 63) hl a
    simp only [possibleNongreedy, findFrom, decide_eq_false_iff_not] at hn
    apply hn
    rw [List.drop_append_of_le_length h1]
    simp

theorem counted_text {env : Env} (he : env.Sound) {p : PatternOpts} {expr : List UInt8} {t : Tree Node} {k : Nat}
    (hlen : expr.length < 18446744073709551616)
    (h : parseText env p expr = .ok (t, k)) (hn : possibleCounted expr = false) : Regex.NoCounted t := by
  obtain ⟨ts, b, o, o', j, hl, hr, -⟩ := parse_lexed he h
  rcases re_counted hr with a | a
  · exact a
  · exfalso
    obtain ⟨A, B, rfl, h1, h2⟩ := byte_at (c := 123) hl a
    obtain ⟨i, hi, hle⟩ := rfind_le (c := 123) A B
      (((A ++ 123 :: B).length + 18446744073709551616 - 3) % 18446744073709551616) (by simp at hlen ⊢; omega)
    unfold possibleCounted at hn
    rw [hi] at hn
    simp at hn
    omega

/-! ## C63 -/

/-- C63: for every text that parses, deciding by the text which passes of the rewriter to run
gives the same tree as running all of them. -/
theorem shortcuts_are_sound {env : Env} (he : env.Sound) {p : PatternOpts} {expr : List UInt8} {t : Tree Node} {k : Nat}
    (hlen : expr.length < 2 ^ 64) (h : parseText env p expr = .ok (t, k)) (x : Node) :
    Regex.reduce x (possibleNongreedy expr) (possibleCounted expr) t = Regex.reduce x true true t :=
  Regex.reduce_shortcuts x (ng_text he h) (counted_text he (by simpa using hlen) h)

-- Of `a+?b`, `a{2}b` and `a|b` the passes really differ.
example : possibleNongreedy [97, 43, 63, 98] = true ∧ possibleCounted [97, 123, 50, 125, 98] = true ∧
    possibleNongreedy [97, 124, 98] = false ∧ possibleCounted [97, 124, 98] = false := by decide
example : ∃ t, parseText Parser.plain ⟨false, false, false⟩ [97, 124, 98] = .ok (t, 4) := ⟨_, rfl⟩
-- A counted repetition at the very end of the text, and a `??`, are seen.
example : possibleCounted [97, 123, 50, 125] = true ∧ possibleNongreedy [97, 63, 63] = true := by decide

/-! ## C64 -/

theorem extra_append (a b : List UInt8) : ∀ prev, ∃ prev', extraNodes prev a + extraNodes prev' b = extraNodes prev (a ++ b) := by
  induction a with
  | nil => exact fun prev => ⟨prev, by simp [extraNodes]⟩
  | cons x a ih =>
    intro prev
    obtain ⟨prev', h⟩ := ih (some x)
    refine ⟨prev', ?_⟩
    simp only [List.cons_append, extraNodes]
    omega

theorem extra_le (a : List UInt8) : ∀ prev, extraNodes prev a ≤ 6 * a.length := by
  induction a with
  | nil => intro; simp [extraNodes]
  | cons x a ih =>
    intro prev
    have := ih (some x)
    simp only [extraNodes, List.length_cons]
    split
    · omega
    · split <;> omega

theorem costs_le {bs : List Nat} {ts : List LTok} (h : LexedBytes bs ts) : ∀ (expr : List UInt8) (prev : Option UInt8),
    expr.map UInt8.toNat = bs → costs ts ≤ 2 * (2 * expr.length + extraNodes prev expr) := by
  induction h with
  | nil => intro expr prev h; simp
  | @cons chunk rest x ts hne h h' ih =>
    intro expr prev he
    obtain ⟨a, b, rfl, rfl, hb⟩ := List.map_eq_append_iff.1 he
    obtain ⟨prev', hp⟩ := extra_append a b prev
    have hi := ih b prev' hb
    have hl : 1 ≤ a.length := by cases a with | nil => exact absurd rfl hne | cons => simp
    have key : cost x.tok ≤ 2 * (2 * a.length + extraNodes prev a) := by
      cases hx : x.tok with
      | word =>
        rw [hx] at h
        have : a = [92, 98] := by
          apply List.map_injective_iff.2 (fun x y => UInt8.toNat_inj.1)
          exact h
        subst this
        simp [cost, extraNodes]
      | notWord =>
        rw [hx] at h
        have : a = [92, 66] := by
          apply List.map_injective_iff.2 (fun x y => UInt8.toNat_inj.1)
          exact h
        subst this
        simp [cost, extraNodes]
      | sym c => have : cost (.sym c) ≤ 3 := by (unfold cost; split <;> simp_all)
                 omega
      | hyphens => rw [hx] at h; simp only [FitsBytes, List.length_map] at h; simp only [cost]; omega
      | amps => rw [hx] at h; simp only [FitsBytes, List.length_map] at h; simp only [cost]; omega
      | tildes => rw [hx] at h; simp only [FitsBytes, List.length_map] at h; simp only [cost]; omega
      | textStart => simp only [cost]; omega
      | textEnd => simp only [cost]; omega
      | _ => simp only [cost]; omega
    simp only [costs_cons, List.length_append]
    omega

/-- C64: the nodes of a pattern of less than 2^28 bytes never need more room than was
reserved by looking at its text. -/
theorem nodes_fit {env : Env} (he : env.Sound) {p : PatternOpts} {expr : List UInt8} {t : Tree Node} {k : Nat}
    (hlen : expr.length < 2 ^ 28) (h : parseText env p expr = .ok (t, k)) : k ≤ reserved expr := by
  obtain ⟨ts, b, o, o', j, hl, hr, rfl⟩ := parse_lexed he h
  have h1 := re_cost hr
  have h2 := costs_le hl expr none rfl
  have h3 := extra_le expr none
  unfold reserved nodesUpperBound
  rw [Nat.mod_eq_of_lt (a := 2 * expr.length + _) (by omega), Nat.mod_eq_of_lt (by omega)]
  omega

/-- The function's name promises more than it keeps: `\b` has twelve nodes, and the "upper
bound" is ten. -/
theorem upper_bound_is_none : ∃ t, parseText Parser.plain ⟨false, false, false⟩ [92, 98] = .ok (t, 12) ∧
    nodesUpperBound [92, 98] = 10 := ⟨_, rfl, rfl⟩

end Verif.Text
