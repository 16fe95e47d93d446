import Verif.Props.Order
import Verif.Props.Fsm
/-!
# Which matches an automaton for several patterns prefers, pattern by pattern

Tools for C55 and C74.
-/
namespace Verif.NfaBuilder
open Verif.Regex Verif.Nfa Verif.Optimizer Verif.Label

/-! ## One keyword of an automaton -/

/-- The automaton with the matches of one keyword only. -/
def only (g : Graph) (l : Nat) : Graph :=
  { g with v := fun x => if (g.v x).isMatch = true ∧ (g.v x).label = some l then g.v x
      else { g.v x with isMatch := false, label := none } }

theorem only_out (g : Graph) (l x : Nat) : ((only g l).v x).out = (g.v x).out := by
  simp only [only]
  split <;> rfl

theorem only_bytes (g : Graph) (l x : Nat) : ((only g l).v x).bytes = (g.v x).bytes := by
  simp only [only]
  split <;> rfl

theorem only_isMatch (g : Graph) (l x : Nat) : ((only g l).v x).isMatch = true ↔
    (g.v x).isMatch = true ∧ (g.v x).label = some l := by
  simp only [only]
  split
  · next h => exact ⟨fun _ => h, fun _ => h.1⟩
  · next h => exact ⟨fun h' => (by cases h'), fun h' => absurd h' h⟩

theorem only_label (g : Graph) (l x : Nat) : ((only g l).v x).label =
    if (g.v x).isMatch = true ∧ (g.v x).label = some l then some l else none := by
  simp only [only]
  split
  · next h => exact h.2
  · rfl

theorem only_oneLabel {g : Graph} (l : Nat) (h : (g.v 0).isMatch = false) : OneLabel (only g l) l where
  root := by
    cases hm : ((only g l).v 0).isMatch with
    | false => rfl
    | true => have := ((only_isMatch g l 0).1 hm).1; rw [h] at this; cases this
  matches_ v hv := by rw [only_label, if_pos ((only_isMatch g l v).1 hv)]
  others v hv := by
    rw [only_label, if_neg]
    intro h
    rw [(only_isMatch g l v).2 h] at hv
    cases hv

theorem steps_congr {g g' : Graph} (ho : ∀ x, (g.v x).out = (g'.v x).out) (hb : ∀ x, (g.v x).bytes = (g'.v x).bytes)
    {v p w t} (h : Steps g v p w t) : Steps g' v p w t := by
  induction h with
  | stop => exact .stop
  | go h1 h2 _ ih => exact .go (by rw [← ho]; exact h1) (by rw [← hb]; exact h2) ih

theorem wayAt_labels {g : Graph} (hl : LabelsMatch g) {off : Nat} {buf : List UInt8} {l s e : Nat} {p : List Nat} :
    Compiler.WayAt g off buf l s e p ↔ off ≤ s ∧ s < e ∧ e ≤ off + buf.length ∧
      ∃ t, Steps g 0 p ((buf.drop (s - off)).take (e - s)) t ∧ (g.v t).isMatch = true ∧ (g.v t).label = some l := by
  constructor
  · rintro ⟨a, b, c, v, hw, hm⟩
    refine ⟨a, b, c, v, steps_of_way hw, hm, ?_⟩
    generalize (buf.drop (s - off)).take (e - s) = y at hw
    generalize hlab : some l = lab at hw
    cases hw with
    | init => rw [hl.root] at hm; cases hm
    | @step p w x lab u b h1 hu hb =>
      cases hv : (g.v v).label with
      | none => exact absurd hv ((hl.labels v).1 hm)
      | some k => rfl
  · rintro ⟨a, b, c, v, hw, hm, hlab⟩
    obtain ⟨lab, hw⟩ := way_of_steps hw .init
    simp only [List.nil_append] at hw
    refine ⟨a, b, c, v, ?_, hm⟩
    generalize (buf.drop (s - off)).take (e - s) = y at hw
    cases hw with
    | init => rw [hl.root] at hm; cases hm
    | @step p w x lab u b h1 hu hb =>
      have := h1.step hu hb
      rw [hlab] at this
      exact this

theorem only_wayAt {g : Graph} (hl : LabelsMatch g) {off : Nat} {buf : List UInt8} {l s e : Nat} {p : List Nat} :
    Compiler.WayAt (only g l) off buf l s e p ↔ Compiler.WayAt g off buf l s e p := by
  rw [wayAt_iff (only_oneLabel l hl.root), wayAt_labels hl]
  refine and_congr_right fun _ => and_congr_right fun _ => and_congr_right fun _ => exists_congr fun t => ?_
  rw [only_isMatch]
  exact and_congr ⟨steps_congr (only_out g l) (only_bytes g l),
    steps_congr (fun x => (only_out g l x).symm) (fun x => (only_bytes g l x).symm)⟩ Iff.rfl

theorem prefer_congr {g g' : Graph} (ho : ∀ x, (g.v x).out = (g'.v x).out) {p q : List Nat} :
    Compiler.Prefer g p q ↔ Compiler.Prefer g' p q := by
  simp only [Compiler.Prefer, ho]

theorem preferred_congr {g g' : Graph} {off : Nat} {buf : List UInt8} {l : Nat}
    (hw : ∀ s e p, Compiler.WayAt g off buf l s e p ↔ Compiler.WayAt g' off buf l s e p)
    (ho : ∀ x, (g.v x).out = (g'.v x).out) : ∀ {hs m},
    Compiler.Preferred g off buf l m hs ↔ Compiler.Preferred g' off buf l m hs := by
  intro hs
  induction hs with
  | nil => intro m; simp only [Compiler.Preferred, hw]
  | cons x hs ih =>
    intro m
    simp only [Compiler.Preferred, hw, ih, prefer_congr ho]

theorem only_preferred {g : Graph} (hl : LabelsMatch g) {off : Nat} {buf : List UInt8} {l m : Nat} {hs : List (Nat × Nat)} :
    Compiler.Preferred (only g l) off buf l m hs ↔ Compiler.Preferred g off buf l m hs :=
  preferred_congr (fun _ _ _ => only_wayAt hl) (only_out g l)

/-- What is left after each match of keyword `l` from the state `v` on, in order of
preference. -/
def goes (g : Graph) (l : Nat) (w : List UInt8) (v : Nat) : List (List UInt8) := follow (only g l) w v

theorem preferred_iff_goes {g : Graph} (hl : LabelsMatch g) {off : Nat} {buf : List UInt8} {l m : Nat}
    {hs : List (Nat × Nat)} : Compiler.Preferred g off buf l m hs ↔
      Reports (fun w => (goes g l w 0).head?) off buf m hs := by
  rw [← only_preferred hl]
  exact preferred_iff_follow (only_oneLabel l hl.root)

/-! ## Labelling -/

/-- Labelling keeps which matches are preferred. -/
theorem label_preferred {g g' : Graph} (hg : Tidy g) {fuel : Nat} (h : Label.labelGuardStates fuel g = some g')
    {off : Nat} {buf : List UInt8} {l m : Nat} {hs : List (Nat × Nat)} :
    Compiler.Preferred g' off buf l m hs ↔ Compiler.Preferred g off buf l m hs := by
  obtain ⟨T, h0, he, hT⟩ := label_carried hg h
  obtain ⟨-, hs⟩ := label_shape h
  refine preferred_congr (fun s e p => ?_) fun x => (hs x).1
  have carry : ∀ {p w v lab}, Compiler.Way g' p w v lab → lab = T v := by
    intro p w v lab hr
    induction hr with
    | init => exact h0.symm
    | step _ hu hb ih => rw [(he _ _ hu).1, ih]
  have r2 : ∀ {p w v lab}, Compiler.Way g p w v lab → Compiler.Way g' p w v (T v) := by
    intro p w v lab hr
    induction hr with
    | init => rw [h0]; exact .init
    | @step p w v lab u b _ hu hb ih =>
      rw [← (hs v).1] at hu
      rw [← (hs u).2.2.1] at hb
      have := ih.step hu hb
      rwa [← (he v u hu).1] at this
  rw [wayAt_labels ⟨hg.root, hg.labels⟩]
  refine and_congr_right fun _ => and_congr_right fun _ => and_congr_right fun _ => exists_congr fun t => ?_
  rw [(hs t).2.2.2]
  constructor
  · rintro ⟨hw, hm⟩
    refine ⟨steps_congr (fun x => (hs x).1) (fun x => (hs x).2.2.1) (steps_of_way hw), hm, ?_⟩
    rw [← hT t hm, carry hw]
  · rintro ⟨hw, hm, hlab⟩
    obtain ⟨lab, hw⟩ := way_of_steps hw .init
    simp only [List.nil_append] at hw
    have := r2 hw
    rw [hT t hm, hlab] at this
    exact ⟨this, hm⟩

/-! ## What is reported is determined -/

theorem reports_unique {first : List UInt8 → Option (List UInt8)} {off : Nat} {buf : List UInt8} : ∀ {hs hs' m},
    Reports first off buf m hs → Reports first off buf m hs' → hs = hs' := by
  intro hs
  induction hs with
  | nil =>
    intro hs' m h h'
    cases hs' with
    | nil => rfl
    | cons x hs' =>
      obtain ⟨s, e⟩ := x
      obtain ⟨h1, h2, h3, h4, h5, -⟩ := h'
      rw [h s h1 h2 (by omega)] at h5
      cases h5
  | cons x hs ih =>
    obtain ⟨s, e⟩ := x
    intro hs' m h h'
    obtain ⟨h1, h2, h3, h4, h5, h6, h7⟩ := h
    cases hs' with
    | nil =>
      rw [h' s h1 h2 (by omega)] at h5
      cases h5
    | cons x' hs' =>
      obtain ⟨s', e'⟩ := x'
      obtain ⟨g1, g2, g3, g4, g5, g6, g7⟩ := h'
      have es : s = s' := by
        rcases Nat.lt_trichotomy s s' with hlt | heq | hgt
        · rw [g6 s h1 h2 hlt] at h5; cases h5
        · exact heq
        · rw [h6 s' g1 g2 hgt] at g5; cases g5
      subst es
      rw [h5] at g5
      have := congrArg List.length (Option.some.inj g5)
      simp only [List.length_drop] at this
      have ee : e = e' := by omega
      subst ee
      rw [ih h7 g7]

theorem reports_exists {first : List UInt8 → Option (List UInt8)}
    (hf : ∀ w x, first w = some x → ∃ u, u ≠ [] ∧ w = u ++ x) (off : Nat) (buf : List UInt8) (m : Nat) :
    ∃ hs, Reports first off buf m hs := by
  induction hn : off + buf.length + 1 - m using Nat.strongRecOn generalizing m with
  | _ n ih =>
    by_cases hex : ∃ s, m ≤ s ∧ off ≤ s ∧ s ≤ off + buf.length ∧ first (buf.drop (s - off)) ≠ none
    · obtain ⟨h1, h2, h3, h4⟩ := Nat.find_spec hex
      have hmin := fun s' hs' => Nat.find_min hex (m := s') hs'
      generalize Nat.find hex = s at *
      obtain ⟨x, hx⟩ := Option.ne_none_iff_exists'.1 h4
      obtain ⟨u, hu, e⟩ := hf _ _ hx
      have hlen := congrArg List.length e
      simp only [List.length_drop, List.length_append] at hlen
      have hpos := List.length_pos_of_ne_nil hu
      obtain ⟨hs, hh⟩ := ih (off + buf.length + 1 - (s + u.length)) (by omega) (s + u.length) rfl
      refine ⟨(s, s + u.length) :: hs, h1, h2, by omega, by omega, ?_, fun s' g1 g2 g3 => ?_, hh⟩
      · have e2 : s + u.length - off = (s - off) + u.length := by omega
        rw [hx, e2, ← List.drop_drop, e, List.drop_left]
      · by_contra hc
        exact hmin s' g3 ⟨g1, g2, by omega, hc⟩
    · refine ⟨[], fun s h1 h2 h3 => ?_⟩
      by_contra hc
      exact hex ⟨s, h1, h2, h3, hc⟩

theorem preferred_exists {g : Graph} (hl : LabelsMatch g) (off : Nat) (buf : List UInt8) (l m : Nat) :
    ∃ hs, Compiler.Preferred g off buf l m hs := by
  have ho := only_oneLabel l hl.root
  obtain ⟨hs, hh⟩ := reports_exists (first := fun w => (goes g l w 0).head?) (fun w x h => by
    cases hf : goes g l w 0 with
    | nil => rw [hf] at h; cases h
    | cons y r =>
      rw [hf] at h
      cases h
      obtain ⟨p, u, t, hst, e, hm, -⟩ := (follow_best (only g l) w 0).2 x r hf
      refine ⟨u, ?_, e⟩
      rintro rfl
      cases hst
      rw [ho.root] at hm
      cases hm) off buf m
  exact ⟨hs, (preferred_iff_goes hl).2 hh⟩

/-- The preferred matches of two automata are the same if each way of the one is related to a
way of the other so that preference is kept. -/
theorem preferred_transfer {g g' : Graph} (hl : LabelsMatch g) (hl' : LabelsMatch g') {off : Nat} {buf : List UInt8}
    {l : Nat} (R : List Nat → List Nat → Prop)
    (h1 : ∀ s e p, Compiler.WayAt g off buf l s e p → ∃ p', R p p' ∧ Compiler.WayAt g' off buf l s e p')
    (h2 : ∀ s e p', Compiler.WayAt g' off buf l s e p' → ∃ p, R p p' ∧ Compiler.WayAt g off buf l s e p)
    (h3 : ∀ s e e' p q p' q', Compiler.WayAt g off buf l s e p → Compiler.WayAt g off buf l s e' q → R p p' → R q q' →
      p = q ∨ Compiler.Prefer g p q → p' = q' ∨ Compiler.Prefer g' p' q') {m : Nat} {hs : List (Nat × Nat)} :
    Compiler.Preferred g off buf l m hs ↔ Compiler.Preferred g' off buf l m hs := by
  have key : ∀ {hs m}, Compiler.Preferred g off buf l m hs → Compiler.Preferred g' off buf l m hs := by
    intro hs
    induction hs with
    | nil =>
      intro m h s e p' hw
      obtain ⟨p, -, hp⟩ := h2 s e p' hw
      exact h s e p hp
    | cons x hs ih =>
      obtain ⟨s, e⟩ := x
      rintro m ⟨a, ⟨p, hp, hb⟩, c⟩
      obtain ⟨p', hr, hp'⟩ := h1 s e p hp
      refine ⟨a, ⟨p', hp', fun s' e' q' hq' hms => ?_⟩, ih c⟩
      obtain ⟨q, hrq, hq⟩ := h2 s' e' q' hq'
      rcases hb s' e' q hq hms with h | ⟨rfl, h⟩
      · exact .inl h
      · refine .inr ⟨rfl, ?_⟩
        rcases h3 s e e' p q p' q' hp hq hr hrq (by tauto) with h | h
        · exact .inl h.symm
        · exact .inr h
  refine ⟨key, fun h => ?_⟩
  obtain ⟨hs0, hh⟩ := preferred_exists hl off buf l m
  have := reports_unique ((preferred_iff_goes hl').1 (key hh)) ((preferred_iff_goes hl').1 h)
  rw [← this]
  exact hh

end Verif.NfaBuilder
