import Verif.Props.Words
import Verif.Props.Fixed
/-!
# C107: of alternative strings, the first listed that occurs is reported

A pattern that lists strings, such as `fox|fa|foxes` or `foo(bar|baz)`, in any encoding, whatever else is
searched for.
-/
namespace Verif.Session
open Verif.Encoders Verif.Chain Verif.Nfa Verif.NfaBuilder Verif.Fsm Verif.Subset
open Verif.Regex (Tree lang NoLook NoDead NgFlat NoNg AllLeaves weight UNB preferred rests Splits)
open Verif.Parser (Env PatternOpts)

/-! ## Specification -/

/-- A string: characters and bytes, one after the other. -/
def Spelled : Tree Node → Prop
  | .leaf (.lit _) => True
  | .leaf (.byte _) => True
  | .cat l r => Spelled l ∧ Spelled r
  | _ => False

/-- Alternatives, each a string, perhaps followed by alternatives. -/
def Lists : Tree Node → Prop
  | .leaf (.lit _) => True
  | .leaf (.byte _) => True
  | .cat l r => Spelled l ∧ Lists r
  | .alt l r => Lists l ∧ Lists r
  | _ => False

/-- The strings in the order in which they are listed, as `enc` encodes the characters. -/
def listed (enc : Nat → List Nat) : Tree Node → List (List UInt8)
  | .leaf (.lit c) => if enc c = [] then [] else [toBytes (enc c)]
  | .leaf (.byte b) => [[b]]
  | .cat l r => (listed enc l).flatMap fun u => (listed enc r).map fun v => u ++ v
  | .alt l r => listed enc l ++ listed enc r
  | _ => []

/-- The places in `data`, which starts at offset `pos`, where one of the strings occurs, from left to right,
each with the end of the first listed of those that occur there; the next `skip` bytes belong to the previous
one. -/
def firstListed (ws : List (List UInt8)) : Nat → Nat → List UInt8 → List (Nat × Nat)
  | _, _, [] => []
  | pos, skip + 1, _ :: data => firstListed ws (pos + 1) skip data
  | pos, 0, b :: data =>
    match ws.find? fun w => decide (w <+: b :: data) with
    | some w => (pos, pos + w.length) :: firstListed ws (pos + 1) (w.length - 1) data
    | none => firstListed ws (pos + 1) 0 data

/-! ## Looking from left to right -/

theorem reports_cons {first : List UInt8 → Option (List UInt8)} {off : Nat} {b : UInt8} {data : List UInt8} : ∀ {m : Nat} {hs : List (Nat × Nat)},
    off + 1 ≤ m → Reports first off (b :: data) m hs → Reports first (off + 1) data m hs
  | m, [], hm, h => by
    intro s h1 h2 h3
    have := h s h1 (by omega) (by simp; omega)
    rwa [show s - off = (s - (off + 1)) + 1 by omega, List.drop_succ_cons] at this
  | m, (s, e) :: hs, hm, ⟨h1, h2, h3, h4, h5, h6, h7⟩ => by
    refine ⟨h1, by omega, h3, by simp at h4; omega, ?_, ?_, reports_cons (by omega) h7⟩
    · rwa [show s - off = (s - (off + 1)) + 1 by omega, show e - off = (e - (off + 1)) + 1 by omega,
        List.drop_succ_cons, List.drop_succ_cons] at h5
    · intro s' a1 a2 a3
      have := h6 s' a1 (by omega) a3
      rwa [show s' - off = (s' - (off + 1)) + 1 by omega, List.drop_succ_cons] at this

theorem reports_raise {first : List UInt8 → Option (List UInt8)} {off : Nat} {data : List UInt8} {m m' : Nat} {hs : List (Nat × Nat)}
    (hm : m ≤ m') (hn : ∀ s, m ≤ s → s < m' → off ≤ s → s < off + data.length → first (data.drop (s - off)) ≠ none → False)
    (h : Reports first off data m hs) : Reports first off data m' hs := by
  cases hs with
  | nil => exact fun s h1 h2 h3 => h s (by omega) h2 h3
  | cons x hs =>
    obtain ⟨s, e⟩ := x
    obtain ⟨h1, h2, h3, h4, h5, h6, h7⟩ := h
    refine ⟨?_, h2, h3, h4, h5, fun s' a1 a2 a3 => h6 s' (by omega) a2 a3, h7⟩
    by_contra hc
    exact hn s h1 (by omega) h2 (by omega) (by rw [h5]; simp)

theorem reports_firstListed {ws : List (List UInt8)} (hne : ∀ w ∈ ws, w ≠ []) {first : List UInt8 → Option (List UInt8)}
    (hf : ∀ d, first d = (ws.find? fun w => decide (w <+: d)).map fun w => d.drop w.length) :
    ∀ (data : List UInt8) (off skip : Nat) (hs : List (Nat × Nat)), Reports first off data (off + skip) hs →
      hs = firstListed ws off skip data
  | [], off, skip, hs, h => by
    cases hs with
    | nil => cases skip <;> rfl
    | cons x hs =>
      obtain ⟨h1, h2, h3, h4, -⟩ := h
      simp at h4
      omega
  | b :: data, off, skip + 1, hs, h => by
    rw [firstListed]
    refine reports_firstListed hne hf data (off + 1) skip hs ?_
    rw [show off + (skip + 1) = off + 1 + skip by omega] at h
    exact reports_cons (by omega) h
  | b :: data, off, 0, hs, h => by
    rw [firstListed]
    have hat := hf (b :: data)
    cases hw : ws.find? fun w => decide (w <+: b :: data) with
    | none =>
      rw [hw] at hat
      dsimp only
      refine reports_firstListed hne hf data (off + 1) 0 hs (reports_cons (b := b) (Nat.le_refl _) ?_)
      refine reports_raise (by omega) ?_ h
      intro s h1 h2 h3 h4 h5
      have : s = off := by omega
      subst this
      rw [Nat.sub_self, List.drop_zero, hat] at h5
      exact h5 rfl
    | some w =>
      rw [hw] at hat
      dsimp only
      have hmem := List.mem_of_find?_eq_some hw
      have hpre : w <+: b :: data := by simpa using List.find?_some hw
      have hpos := List.length_pos_iff.2 (hne w hmem)
      have hle := hpre.length_le
      cases hs with
      | nil =>
        have := h off (by omega) (Nat.le_refl _) (by omega)
        rw [Nat.sub_self, List.drop_zero, hat] at this
        cases this
      | cons x hs =>
        obtain ⟨s, e⟩ := x
        obtain ⟨h1, h2, h3, h4, h5, h6, h7⟩ := h
        have hs' : s = off := by
          by_contra hc
          have := h6 off (by omega) (Nat.le_refl _) (by omega)
          rw [Nat.sub_self, List.drop_zero, hat] at this
          cases this
        subst hs'
        rw [Nat.sub_self, List.drop_zero, hat, Option.map_some, Option.some.injEq] at h5
        have hlen := congrArg List.length h5
        rw [List.length_drop, List.length_drop] at hlen
        have he : e = s + w.length := by omega
        subst he
        congr 1
        refine reports_firstListed hne hf data (s + 1) (w.length - 1) hs ?_
        rw [show s + 1 + (w.length - 1) = s + w.length by omega]
        exact reports_cons (by omega) h7

/-! ## What a backtracking matcher prefers -/

theorem Spelled.lists : ∀ {t : Tree Node}, Spelled t → Lists t
  | .leaf (.lit _), _ => trivial
  | .leaf (.byte _), _ => trivial
  | .cat _ _, h => ⟨h.1, h.2.lists⟩
  | .leaf .dot, h => h.elim
  | .leaf (.cls _ _ _), h => h.elim
  | .alt _ _, h => h.elim
  | .rep _ _ _ _, h => h.elim
  | .look _ _, h => h.elim

theorem listed_ne {enc : Nat → List Nat} : ∀ {t : Tree Node}, Lists t → ∀ w ∈ listed enc t, w ≠ []
  | .leaf (.lit c), _, w, hw => by
    rw [listed] at hw
    split at hw
    · cases hw
    · next h =>
      rw [List.mem_singleton] at hw
      subst hw
      simpa [toBytes] using h
  | .leaf (.byte _), _, w, hw => by
    simp only [listed, List.mem_singleton] at hw
    simp [hw]
  | .cat l r, h, w, hw => by
    simp only [listed, List.mem_flatMap, List.mem_map] at hw
    obtain ⟨u, hu, v, hv, rfl⟩ := hw
    simp [listed_ne h.1.lists u hu]
  | .alt l r, h, w, hw => by
    rcases List.mem_append.1 hw with hw | hw
    · exact listed_ne h.1 w hw
    · exact listed_ne h.2 w hw
  | .leaf .dot, h, _, _ => h.elim
  | .leaf (.cls _ _ _), h, _, _ => h.elim
  | .rep _ _ _ _, h, _, _ => h.elim
  | .look _ _, h, _, _ => h.elim

theorem single_rests {enc : Nat → List Nat} {n : Node} {u : List UInt8} (h : ∀ w, w ∈ textSem enc n ↔ w = u) (d : List UInt8) :
    textRests enc n d = if u <+: d then [d.drop u.length] else [] := by
  classical
  unfold textRests
  have e : ∀ i ∈ List.range (d.length + 1), @decide (d.take i ∈ textSem enc n) (Classical.propDecidable _) =
      decide (i = u.length ∧ u <+: d) := by
    intro i hi
    rw [List.mem_range] at hi
    rw [decide_eq_decide, h]
    constructor
    · intro e
      have hl := congrArg List.length e
      rw [List.length_take] at hl
      exact ⟨by omega, by rw [← e]; exact List.take_prefix _ _⟩
    · rintro ⟨rfl, hp⟩
      exact (List.prefix_iff_eq_take.1 hp).symm
  rw [List.filter_congr e]
  split
  · next hp =>
    have hle := hp.length_le
    simp only [hp, and_true]
    have : (List.range (d.length + 1)).filter (fun i => decide (i = u.length)) = [u.length] := by
      have h1 : (List.range (d.length + 1)).filter (fun i => decide (i = u.length)) = _ := List.filter_eq u.length
      rw [h1, List.Nodup.count List.nodup_range, if_pos (List.mem_range.2 (by omega))]
      rfl
    rw [this]
    rfl
  · next hp => simp [hp]

theorem prefix_append {u v d : List UInt8} : u ++ v <+: d ↔ u <+: d ∧ v <+: d.drop u.length := by
  constructor
  · rintro ⟨x, rfl⟩
    exact ⟨⟨v ++ x, by simp⟩, ⟨x, by simp⟩⟩
  · rintro ⟨⟨x, rfl⟩, h⟩
    rw [List.drop_left] at h
    exact List.prefix_append_right_inj u |>.2 h

/-- All ways to read data as one of the strings, in the order of the list. -/
theorem lists_rests {enc : Nat → List Nat} : ∀ {t : Tree Node}, Lists t → ∀ d,
    rests (textRests enc) t d = ((listed enc t).filter fun w => decide (w <+: d)).map fun w => d.drop w.length
  | .leaf (.lit c), _, d => by
    show textRests enc (.lit c) d = _
    by_cases h : enc c = []
    · have : textRests enc (.lit c) d = [] := by
        unfold textRests
        rw [List.map_eq_nil_iff, List.filter_eq_nil_iff]
        intro i _
        have : ¬ d.take i ∈ textSem enc (.lit c) := fun hm => hm.1 h
        simp [this]
      rw [this, listed, if_pos h]
      rfl
    · have hu : ∀ w, w ∈ textSem enc (.lit c) ↔ w = toBytes (enc c) := fun w => ⟨fun hm => hm.2, fun e => ⟨h, e⟩⟩
      rw [single_rests hu, listed, if_neg h]
      by_cases hp : toBytes (enc c) <+: d <;> simp [hp]
  | .leaf (.byte b), _, d => by
    show textRests enc (.byte b) d = _
    rw [single_rests (u := [b]) (fun w => Iff.rfl), listed]
    by_cases hp : [b] <+: d <;> simp [hp]
  | .alt l r, h, d => by
    show rests _ l d ++ rests _ r d = _
    rw [lists_rests h.1, lists_rests h.2, listed, List.filter_append, List.map_append]
  | .cat l r, h, d => by
    show (rests _ l d).flatMap (rests _ r) = _
    rw [lists_rests h.1.lists, listed]
    induction listed enc l with
    | nil => rfl
    | cons u us ih =>
      rw [List.flatMap_cons, List.filter_append, List.map_append, ← ih]
      have e : ((listed enc r).map fun v => u ++ v).filter (fun w => decide (w <+: d)) =
          if u <+: d then ((listed enc r).filter fun v => decide (v <+: d.drop u.length)).map fun v => u ++ v else [] := by
        rw [List.filter_map]
        split
        · next hp =>
          congr 1
          refine List.filter_congr fun v _ => ?_
          simp only [Function.comp, prefix_append, hp, true_and]
        · next hp =>
          rw [List.map_eq_nil_iff, List.filter_eq_nil_iff]
          intro v _
          simp only [Function.comp, decide_eq_true_eq, prefix_append, hp, false_and, not_false_eq_true]
      rw [e]
      by_cases hp : u <+: d
      · simp only [hp, List.filter_cons, decide_true, if_true, List.map_cons, List.flatMap_cons, lists_rests h.2, List.map_map]
        congr 1
        refine List.map_congr_left fun v _ => ?_
        simp [List.drop_drop]
      · simp [hp]
  | .leaf .dot, h, _ => h.elim
  | .leaf (.cls _ _ _), h, _ => h.elim
  | .rep _ _ _ _, h, _ => h.elim
  | .look _ _, h, _ => h.elim

theorem lists_preferred {enc : Nat → List Nat} {t : Tree Node} (h : Lists t) (d : List UInt8) :
    preferred (textRests enc) t d = ((listed enc t).find? fun w => decide (w <+: d)).map fun w => d.drop w.length := by
  unfold preferred
  rw [lists_rests h, List.head?_map, List.head?_filter]

/-! ## What the rewriter makes of alternatives -/

theorem assoc_spelled : ∀ {t : Tree Node}, Spelled t → Spelled (Regex.assoc t).2
  | .leaf (.lit _), h => h
  | .leaf (.byte _), h => h
  | .cat l r, h => by
    have a := assoc_spelled h.1
    have b := assoc_spelled h.2
    rw [Regex.assoc]
    cases e : (Regex.assoc l).2 with
    | cat x y => rw [e] at a; exact ⟨a.1, a.2, b⟩
    | leaf n => rw [e] at a; exact ⟨a, b⟩
    | alt _ _ => rw [e] at a; exact a.elim
    | rep _ _ _ _ => rw [e] at a; exact a.elim
    | look _ _ => rw [e] at a; exact a.elim
  | .leaf .dot, h => h.elim
  | .leaf (.cls _ _ _), h => h.elim
  | .alt _ _, h => h.elim
  | .rep _ _ _ _, h => h.elim
  | .look _ _, h => h.elim

theorem assoc_lists : ∀ {t : Tree Node}, Lists t → Lists (Regex.assoc t).2
  | .leaf (.lit _), h => h
  | .leaf (.byte _), h => h
  | .cat l r, h => by
    have a := assoc_spelled h.1
    have b := assoc_lists h.2
    rw [Regex.assoc]
    cases e : (Regex.assoc l).2 with
    | cat x y => rw [e] at a; exact ⟨a.1, a.2, b⟩
    | leaf n => rw [e] at a; exact ⟨a, b⟩
    | alt _ _ => rw [e] at a; exact a.elim
    | rep _ _ _ _ => rw [e] at a; exact a.elim
    | look _ _ => rw [e] at a; exact a.elim
  | .alt l r, h => by
    have a := assoc_lists h.1
    have b := assoc_lists h.2
    rw [Regex.assoc]
    cases e : (Regex.assoc l).2 with
    | alt x y => rw [e] at a; exact ⟨a.1, a.2, b⟩
    | leaf n => rw [e] at a; exact ⟨a, b⟩
    | cat _ _ => rw [e] at a; exact ⟨a, b⟩
    | rep _ _ _ _ => rw [e] at a; exact a.elim
    | look _ _ => rw [e] at a; exact a.elim
  | .leaf .dot, h => h.elim
  | .leaf (.cls _ _ _), h => h.elim
  | .rep _ _ _ _, h => h.elim
  | .look _ _, h => h.elim

/-- Trees without repetitions and assertions, which the passes of the rewriter leave alone. -/
def Bare {α : Type} : Tree α → Prop
  | .leaf _ => True
  | .alt l r => Bare l ∧ Bare r
  | .cat l r => Bare l ∧ Bare r
  | _ => False

theorem Lists.bare : ∀ {t : Tree Node}, Lists t → Bare t
  | .leaf _, _ => trivial
  | .alt _ _, h => ⟨h.1.bare, h.2.bare⟩
  | .cat _ _, h => ⟨h.1.lists.bare, h.2.bare⟩
  | .rep _ _ _ _, h => h.elim
  | .look _ _, h => h.elim

section Bare
variable {α : Type} [DecidableEq α]

omit [DecidableEq α] in
theorem bare_zero : ∀ {t : Tree α}, Bare t → Regex.hasZero t = some false ∧ Regex.onlyZero t = some false
  | .leaf _, _ => ⟨rfl, rfl⟩
  | .alt l r, h => by simp [Regex.hasZero, Regex.onlyZero, bare_zero h.1, bare_zero h.2]
  | .cat l r, h => by simp [Regex.hasZero, Regex.onlyZero, bare_zero h.1]
  | .rep _ _ _ _, h => h.elim
  | .look _ _, h => h.elim

theorem bare_combine : ∀ {t : Tree α}, Bare t → Regex.combine t = some (false, t)
  | .leaf _, _ => rfl
  | .alt l r, h => by simp [Regex.combine, bare_combine h.1, bare_combine h.2]
  | .cat l r, h => by
    simp only [Regex.combine, bare_combine h.1, bare_combine h.2, Option.bind_eq_bind, Option.bind_some]
    cases l with
    | rep _ _ _ _ => exact h.1.elim
    | leaf _ => rfl
    | alt _ _ => rfl
    | cat _ _ => rfl
    | look _ _ => exact h.1.elim
  | .rep _ _ _ _, h => h.elim
  | .look _ _, h => h.elim

omit [DecidableEq α] in
theorem bare_thenEmpty : ∀ {t : Tree α}, Bare t → Regex.thenEmpty t = some (false, t)
  | .leaf _, _ => rfl
  | .alt l r, h => by simp [Regex.thenEmpty, bare_thenEmpty h.1, bare_thenEmpty h.2]
  | .cat l r, h => by simp [Regex.thenEmpty, bare_zero h.2, bare_thenEmpty h.2]
  | .rep _ _ _ _, h => h.elim
  | .look _ _, h => h.elim

theorem bare_thenGreedy : ∀ {t : Tree α}, Bare t → Regex.thenGreedy t = (false, t)
  | .leaf _, _ => rfl
  | .alt l r, h => by simp [Regex.thenGreedy, bare_thenGreedy h.1, bare_thenGreedy h.2]
  | .cat l r, h => by
    cases l with
    | rep _ _ _ _ => exact h.1.elim
    | leaf _ => simp [Regex.thenGreedy, bare_thenGreedy h.2]
    | alt _ _ => simp [Regex.thenGreedy, bare_thenGreedy h.2]
    | cat _ _ => simp [Regex.thenGreedy, bare_thenGreedy h.2]
    | look _ _ => exact h.1.elim
  | .rep _ _ _ _, h => h.elim
  | .look _ _, h => h.elim

omit [DecidableEq α] in
theorem bare_reduceEmpty (x : α) : ∀ {t : Tree α}, Bare t → Regex.reduceEmpty x t = some t
  | .leaf _, _ => rfl
  | .alt l r, h => by
    simp [Regex.reduceEmpty, bare_zero (t := .alt l r) h, bare_reduceEmpty x h.1, bare_reduceEmpty x h.2, Regex.fixDead, bare_zero h.2]
  | .cat l r, h => by
    simp [Regex.reduceEmpty, bare_zero (t := .cat l r) h, bare_reduceEmpty x h.1, bare_reduceEmpty x h.2, Regex.fixDead,
      bare_zero h.1, bare_zero h.2]
  | .rep _ _ _ _, h => h.elim
  | .look _ _, h => h.elim

omit [DecidableEq α] in
theorem bare_prune : ∀ {t : Tree α}, Bare t → Regex.prune t = t
  | .leaf _, _ => rfl
  | .alt _ _, _ => rfl
  | .cat _ _, _ => rfl
  | .rep _ _ _ _, h => h.elim
  | .look _ _, h => h.elim

omit [DecidableEq α] in
theorem bare_useless : ∀ {t : Tree α}, Bare t → Regex.useless t = some t
  | .leaf _, _ => by simp [Regex.useless]
  | .alt l r, h => by simp [Regex.useless, bare_prune h.1, bare_prune h.2, bare_useless h.1, bare_useless h.2]
  | .cat l r, h => by simp [Regex.useless, bare_prune h.1, bare_prune h.2, bare_useless h.1, bare_useless h.2]
  | .rep _ _ _ _, h => h.elim
  | .look _ _, h => h.elim

theorem bare_reduce (x : α) {t : Tree α} (h : Bare (Regex.assoc t).2) : Regex.reduce x true true t = some (some (Regex.assoc t).2) := by
  simp [Regex.reduce, bare_combine h, bare_thenEmpty h, bare_thenGreedy h, Regex.reduceEmptyRoot, bare_zero h, bare_reduceEmpty x h,
    Regex.uselessRoot, bare_prune h, bare_useless h]

end Bare

theorem bare_calm {sem : Node → Language UInt8} (hs : ∀ n, [] ∉ sem n) : ∀ {t : Tree Node}, Bare t →
    [] ∉ lang sem t ∧ Calm sem t ∧ Tail sem t
  | .leaf n, _ => ⟨hs n, trivial, trivial⟩
  | .alt l r, h => by
    obtain ⟨a1, a2, a3⟩ := bare_calm hs h.1
    obtain ⟨b1, b2, b3⟩ := bare_calm hs h.2
    refine ⟨?_, ⟨a2, b2⟩, ⟨a3, b3⟩⟩
    intro hm
    rcases (Language.mem_add _ _ _).1 hm with hm | hm
    · exact a1 hm
    · exact b1 hm
  | .cat l r, h => by
    obtain ⟨a1, a2, a3⟩ := bare_calm hs h.1
    obtain ⟨b1, b2, b3⟩ := bare_calm hs h.2
    exact ⟨fun hm => a1 (Regex.nil_mem_mul.1 hm).1, ⟨a2, b2⟩, b3, fun hm => absurd hm b1⟩
  | .rep _ _ _ _, h => h.elim
  | .look _ _, h => h.elim

theorem Lists.facts : ∀ {t : Tree Node}, Lists t → AllLeaves Pure t ∧ NgFlat t ∧ NoDead t ∧ NoUnb t
  | .leaf (.lit _), _ => ⟨trivial, trivial, trivial, trivial⟩
  | .leaf (.byte _), _ => ⟨trivial, trivial, trivial, trivial⟩
  | .alt _ _, h => by
    obtain ⟨a1, a2, a3, a4⟩ := h.1.facts
    obtain ⟨b1, b2, b3, b4⟩ := h.2.facts
    exact ⟨⟨a1, b1⟩, ⟨a2, b2⟩, ⟨a3, b3⟩, ⟨a4, b4⟩⟩
  | .cat _ _, h => by
    obtain ⟨a1, a2, a3, a4⟩ := h.1.lists.facts
    obtain ⟨b1, b2, b3, b4⟩ := h.2.facts
    exact ⟨⟨a1, b1⟩, ⟨a2, b2⟩, ⟨a3, b3⟩, ⟨a4, b4⟩⟩
  | .leaf .dot, h => h.elim
  | .leaf (.cls _ _ _), h => h.elim
  | .rep _ _ _ _, h => h.elim
  | .look _ _, h => h.elim

theorem Lists.plain {t : Tree Node} (h : Lists t) (enc : Nat → List Nat) : Plain enc t := by
  obtain ⟨a1, a2, a3, -⟩ := h.facts
  have hb := (assoc_lists h).bare
  refine ⟨a1, a2, a3.noBlank, ⟨_, bare_combine hb⟩, fun u hu => ?_⟩
  rw [bare_reduce _ hb] at hu
  cases hu
  exact (bare_calm (textSem_nonempty enc) hb).2

/-! ## The tree handed to the builder -/

theorem leaves_word {e : Encoder} : ∀ {t : Tree Node} {c c' : Cache} {t' : Tree Leaf}, Spelled t → e.leaves c t = some (c', t') → Word t'
  | .leaf (.lit x), c, c', t', _, h => by
    simp only [Encoder.leaves, Encoder.leaf, Option.map_some, Option.some.injEq, Prod.mk.injEq] at h
    obtain ⟨-, rfl⟩ := h
    trivial
  | .leaf (.byte x), c, c', t', _, h => by
    simp only [Encoder.leaves, Encoder.leaf, Option.map_some, Option.some.injEq, Prod.mk.injEq] at h
    obtain ⟨-, rfl⟩ := h
    trivial
  | .cat l r, c, c', t', hs, h => by
    simp only [Encoder.leaves, Option.bind_eq_bind, Option.bind_eq_some_iff, Option.some.injEq, Prod.mk.injEq] at h
    obtain ⟨a, h1, b, h2, rfl, rfl⟩ := h
    exact ⟨leaves_word hs.1 h1, leaves_word hs.2 h2⟩
  | .leaf .dot, _, _, _, h, _ => h.elim
  | .leaf (.cls _ _ _), _, _, _, h, _ => h.elim
  | .alt _ _, _, _, _, h, _ => h.elim
  | .rep _ _ _ _, _, _, _, h, _ => h.elim
  | .look _ _, _, _, _, h, _ => h.elim

theorem leaves_words {e : Encoder} : ∀ {t : Tree Node} {c c' : Cache} {t' : Tree Leaf}, Lists t → e.leaves c t = some (c', t') → Words t'
  | .leaf (.lit x), c, c', t', _, h => by
    simp only [Encoder.leaves, Encoder.leaf, Option.map_some, Option.some.injEq, Prod.mk.injEq] at h
    obtain ⟨-, rfl⟩ := h
    trivial
  | .leaf (.byte x), c, c', t', _, h => by
    simp only [Encoder.leaves, Encoder.leaf, Option.map_some, Option.some.injEq, Prod.mk.injEq] at h
    obtain ⟨-, rfl⟩ := h
    trivial
  | .cat l r, c, c', t', hs, h => by
    simp only [Encoder.leaves, Option.bind_eq_bind, Option.bind_eq_some_iff, Option.some.injEq, Prod.mk.injEq] at h
    obtain ⟨a, h1, b, h2, rfl, rfl⟩ := h
    exact ⟨leaves_word hs.1 h1, leaves_words hs.2 h2⟩
  | .alt l r, c, c', t', hs, h => by
    simp only [Encoder.leaves, Option.bind_eq_bind, Option.bind_eq_some_iff, Option.some.injEq, Prod.mk.injEq] at h
    obtain ⟨a, h1, b, h2, rfl, rfl⟩ := h
    exact ⟨leaves_words hs.1 h1, leaves_words hs.2 h2⟩
  | .leaf .dot, _, _, _, h, _ => h.elim
  | .leaf (.cls _ _ _), _, _, _, h, _ => h.elim
  | .rep _ _ _ _, _, _, _, h, _ => h.elim
  | .look _ _, _, _, _, h, _ => h.elim

/-- What an accepted request hands to the builder comes from what the rewriter makes of the text. -/
theorem accepted_reduced [Build] {env : Env} (he : env.Sound) {r : Request} (hm : Modest env r) {l : Nat} {t' : Tree Leaf}
    (ha : Accepted env r l t') {t : Tree Node} {j : Nat} (hpt : Text.parseText env r.opts r.expr = .ok (t, j))
    {k : Coding} {ts : List Transforms.ByteT} (hrd : Reads r.chain k ts) :
    ∃ (e : Encoder) (c c' : Cache) (u : Tree Node), e.Ok ∧ e.CacheOk c ∧ e.spec = charBytes k ts ∧
      Regex.reduce (.lit 120) true true t = some (some u) ∧ e.leaves c u = some (c', t') ∧ AllLeaves Node.Ok u := by
  obtain ⟨f, e, c, u, c', hf, hg, hu, hl⟩ := ha.handed
  obtain ⟨heo, hco, k', ts', hrd', hsp⟩ := (chain_meaning hf r.chain).1 e c hg
  obtain ⟨rfl, rfl⟩ := reads_unique hrd hrd'
  unfold Text.parseAndReduce at hu
  rw [hpt] at hu
  dsimp only at hu
  rw [Text.shortcuts_are_sound he hm.2 hpt] at hu
  split at hu
  · cases hu
  · next u' hu' =>
    cases hu
    obtain ⟨hok, hlv⟩ := parseText_ok he hpt
    obtain ⟨-, -, -, s4⟩ := Regex.reduce_sane Node.Ok (.lit 120) trivial hok (hm.1 t j hpt) hlv hu'
    exact ⟨e, c, c', u, heo, hco, funext hsp, hu', hl, s4⟩

/-- `text_backtrack_partial` with what is known of the tree that is handed over. -/
theorem accepted_backtrack [Build] {env : Env} (he : env.Sound) {rs : List Request} {os : List (Option Nat)} {g : Graph}
    {P : Vm.Program} (h : Compiled env rs os g P) (hz : Compiler.NoZero g)
    {fuel : Nat} {first : List Vm.Thread} {σ₀ : Vm.St} (hnew : Vm.create P fuel = .ok (first, σ₀))
    {off : Nat} {bufs : List (List UInt8)} {res : List (Option Nat)} {σ : Vm.St}
    (hrun : Vm.run P first fuel (Vm.searches off bufs) σ₀ = .ok (res, σ)) {i l : Nat} {r : Request}
    (hr : rs[i]? = some r) (ho : os[i]? = some (some l)) {t : Tree Node} {j : Nat}
    (hpt : Text.parseText env r.opts r.expr = .ok (t, j)) {k : Coding} {ts : List Transforms.ByteT}
    (hrd : Reads r.chain k ts) (hb : Plain (charBytes k ts) t) (hs : ∀ t', Accepted env r l t' → ∀ fuel, Stays fuel l t') :
    Reports (preferred (textRests (charBytes k ts)) t) off bufs.flatten 0 (Vm.hitsOf l σ.log) := by
  obtain ⟨ps, hM, -, h4, -⟩ := h.made' he
  obtain ⟨t', hp, ha⟩ := h4 i r l hr ho
  obtain ⟨f1, f2, f3, g0, det, depth, m1, m2, m3⟩ := hM.made
  obtain ⟨hb', hpr⟩ := accepted_preferred he (h.modest r (List.mem_of_getElem? hr)) ha hpt hrd hb
  have := hits_backtrack_partial hM.patterns m1 m2 hM.nodup m3 hz hnew hrun hp ha.takes hb' (hs t' ha f1)
  rwa [show preferred leafRests t' = preferred (textRests (charBytes k ts)) t from funext hpr] at this

/-! ## The theorem -/

/-- **C107** Patterns are requested in any order, with any options and encodings; some are refused.  A program
is made of the FSM, determinizing to any depth, and a stream, given in any consecutive buffers to a fresh context,
is searched and closed out.  Then for every accepted request whose text lists strings, the hits with its number
are, from left to right and without overlaps, the places where one of the strings, in the encoding of the request,
occurs, each with the end of the first listed of those that occur there. -/
theorem listed_hits [Build] {env : Env} (he : env.Sound) {rs : List Request} {os : List (Option Nat)} {g : Graph}
    {P : Vm.Program} (h : Compiled env rs os g P) {i l : Nat} {r : Request} (hr : rs[i]? = some r) (ho : os[i]? = some (some l))
    {t : Tree Node} {j : Nat} (hpt : Text.parseText env r.opts r.expr = .ok (t, j)) (hl : Lists t) :
    ∃ k ts, Reads r.chain k ts ∧ listed (charBytes k ts) t ≠ [] ∧ (∀ w ∈ listed (charBytes k ts) t, w ≠ []) ∧
      ∀ {fuel : Nat} {first : List Vm.Thread} {σ₀ : Vm.St}, Vm.create P fuel = .ok (first, σ₀) →
      ∀ {off : Nat} {bufs : List (List UInt8)} {res : List (Option Nat)} {σ : Vm.St},
        Vm.run P first fuel (Vm.searches off bufs) σ₀ = .ok (res, σ) →
        Vm.hitsOf l σ.log = firstListed (listed (charBytes k ts) t) off 0 bufs.flatten := by
  obtain ⟨ps, -, -, h4, -⟩ := h.made' he
  obtain ⟨t', -, ha⟩ := h4 i r l hr ho
  obtain ⟨w, hw⟩ := takes_inhabited ha.sane ha.takes
  obtain ⟨t1, j1, k, ts, hpt1, hrd, hwt⟩ := ha.sub w hw
  rw [hpt] at hpt1
  cases hpt1
  obtain ⟨-, a2, a3, a4⟩ := hl.facts
  have hu := unpumped_of_bounded hr ho (parsed_of hpt a2) (parsed_of hpt a3.noBlank) (parsed_of hpt a4) ⟨t, j, k, ts, hpt, hrd, hwt⟩
  refine ⟨k, ts, hrd, ?_, listed_ne hl, fun hnew off bufs res σ hrun => ?_⟩
  · intro hnil
    have h1 : [] ∈ rests (textRests (charBytes k ts)) t w :=
      (Regex.mem_rests _ (textRests_splits (charBytes k ts)) t (parseText_ok he hpt).1 (ha.noLook t j hpt) w []).2 ⟨w, hwt, by simp⟩
    rw [lists_rests hl, hnil] at h1
    cases h1
  · have hrep := accepted_backtrack he h (unpumped_noZero he h hu) hnew hrun hr ho hpt hrd (hl.plain _) (by
      intro t' ha fuel
      obtain ⟨e, c, c', u, -, -, -, hu, hlv, -⟩ := accepted_reduced he (h.modest r (List.mem_of_getElem? hr)) ha hpt hrd
      have hla := assoc_lists hl
      rw [bare_reduce _ hla.bare] at hu
      cases hu
      exact words_stays ha.sane.noLook ha.sane.leaves (leaves_words hla hlv) fuel l)
    refine reports_firstListed (listed_ne hl) (lists_preferred hl) _ off 0 _ ?_
    exact reports_raise (by omega) (fun s _ h2 h3 => by omega) hrep

/-! ## Example -/

section Example
attribute [local instance] Build.plain

-- `fox|fa` lists `fox` and `fa`, and is accepted beside `x(a|ab)*?c+`.
example : Lists foxTree ∧ listed (charBytes (.std .ascii) []) foxTree = [[0x66, 0x6f, 0x78], [0x66, 0x61]] := by
  refine ⟨⟨⟨⟨trivial, trivial⟩, trivial⟩, trivial, trivial⟩, ?_⟩
  decide +kernel

-- The first listed is reported, not the longest; what it takes up is not searched again.
example : firstListed [[97], [97, 98], [98, 99]] 10 0 [120, 97, 98, 99] = [(11, 12), (12, 14)] := by decide
example : firstListed [[97, 98], [97], [98, 99]] 10 0 [120, 97, 98, 99] = [(11, 13)] := by decide

end Example

end Verif.Session
