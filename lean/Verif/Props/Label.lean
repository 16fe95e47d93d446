import Verif.Label
import Verif.Reads
import Verif.Props.Greedy
/-!
# C23: guard labels

After labelling, every way from the start to a match state crosses a labelled state, and
every label crossed is the label that match had before.  Hence a search that only sees
the guard labels reports every match under its own keyword.
-/
namespace Verif.Label
open Verif.Nfa

/-! ## Specification -/

/-- There is a way (possibly empty) from the first state to the second. -/
inductive Leads (g : Graph) : Nat → Nat → Prop
  | refl (v : Nat) : Leads g v v
  | step {v u t : Nat} : u ∈ (g.v v).out → Leads g u t → Leads g v t

/-- The automata which get labelled: just the match states are labelled; all match states
reachable from a match state have its label; every state can be reached, and a match can
be reached from every state but, perhaps, the initial one. -/
structure Tidy (g : Graph) : Prop where
  both : ∀ v u, u ∈ (g.v v).out ↔ v ∈ (g.v u).inn
  range : ∀ v, ∀ u ∈ (g.v v).out, v < g.n ∧ 0 < u ∧ u < g.n
  labels : ∀ v, (g.v v).isMatch = true ↔ (g.v v).label ≠ none
  inside : ∀ v, (g.v v).isMatch = true → v < g.n
  root : (g.v 0).isMatch = false
  tails : ∀ m m', (g.v m).isMatch = true → (g.v m').isMatch = true → Leads g m m' → (g.v m').label = (g.v m).label
  reach : ∀ v < g.n, Leads g 0 v
  live : ∀ v < g.n, v ≠ 0 → ∃ m, Leads g v m ∧ (g.v m).isMatch = true

/-- A way through the automaton: the states entered, one after the other. -/
inductive Trail (g : Graph) : Nat → List Nat → Nat → Prop
  | nil (v : Nat) : Trail g v [] v
  | cons {v u t : Nat} {p : List Nat} : u ∈ (g.v v).out → Trail g u p t → Trail g v (u :: p) t

/-! ## The ways -/

theorem Leads.trans {g : Graph} {a b c : Nat} (h : Leads g a b) (h' : Leads g b c) : Leads g a c := by
  induction h with
  | refl => exact h'
  | step hu _ ih => exact .step hu (ih h')

theorem Leads.snoc {g : Graph} {a b c : Nat} (h : Leads g a b) (h' : c ∈ (g.v b).out) : Leads g a c :=
  h.trans (.step h' (.refl c))

/-- The labels of the matches which can be reached. -/
def Des (g : Graph) (v l : Nat) : Prop :=
  ∃ m, Leads g v m ∧ (g.v m).isMatch = true ∧ (g.v m).label = some l

theorem Des.up {g : Graph} {v u l : Nat} (h : Des g u l) (hu : u ∈ (g.v v).out) : Des g v l := by
  obtain ⟨m, h1, h2⟩ := h
  exact ⟨m, .step hu h1, h2⟩

/-- More than one label can be reached. -/
def Many (g : Graph) (v : Nat) : Prop := ∃ k k', k ≠ k' ∧ Des g v k ∧ Des g v k'

theorem Many.up {g : Graph} {v u : Nat} (h : Many g u) (hu : u ∈ (g.v v).out) : Many g v := by
  obtain ⟨k, k', h1, h2, h3⟩ := h
  exact ⟨k, k', h1, h2.up hu, h3.up hu⟩

theorem not_many {g : Graph} (hg : Tidy g) {m : Nat} (hm : (g.v m).isMatch = true) : ¬ Many g m := by
  rintro ⟨k, k', hne, ⟨a, ha, hma, hla⟩, ⟨b, hb, hmb, hlb⟩⟩
  have h1 := hg.tails m a hm hma ha
  have h2 := hg.tails m b hm hmb hb
  rw [h1] at hla
  rw [h2, hla] at hlb
  exact hne (Option.some.inj hlb)

/-! ## Propagation -/

theorem set_same (L : Nat → Mark) (v : Nat) (m : Mark) : set L v m v = m := by simp [set]

theorem set_other {L : Nat → Mark} {v x : Nat} (m : Mark) (h : x ≠ v) : set L v m x = L x := by simp [set, h]

/-- What marks mean, whichever step of the propagation. -/
structure Sound (g : Graph) (L : Nat → Mark) : Prop where
  lab : ∀ v k, L v = .lab k → Des g v k
  un : ∀ v, L v = .un → Many g v
  own : ∀ m, (g.v m).isMatch = true → ∃ l, (g.v m).label = some l ∧ L m = .lab l

/-- Ancestors of unlabelable states are unlabelable, or waiting. -/
def UnUp (g : Graph) (st : List Nat) (L : Nat → Mark) : Prop :=
  ∀ t, L t = .un → ∀ h ∈ (g.v t).inn, h ≠ 0 → L h = .un ∨ h ∈ st

/-- Marks only get lost to "unlabelable". -/
def Grow (L L' : Nat → Mark) : Prop := ∀ v, L' v = L v ∨ L' v = .un

theorem Grow.rfl' {L : Nat → Mark} : Grow L L := fun _ => Or.inl rfl

theorem Grow.trans {L L' L'' : Nat → Mark} (h : Grow L L') (h' : Grow L' L'') : Grow L L'' := by
  intro v
  rcases h' v with e | e
  · rw [e]; exact h v
  · exact Or.inr e

theorem sound_un {g : Graph} (hg : Tidy g) {L : Nat → Mark} (hs : Sound g L) {u : Nat} (hm : Many g u) :
    Sound g (set L u .un) := by
  refine ⟨?_, ?_, ?_⟩
  · intro v k hk
    by_cases e : v = u
    · subst e; rw [set_same] at hk; cases hk
    · rw [set_other _ e] at hk; exact hs.lab v k hk
  · intro v hk
    by_cases e : v = u
    · exact e ▸ hm
    · rw [set_other _ e] at hk; exact hs.un v hk
  · intro m hmm
    have e : m ≠ u := by rintro rfl; exact not_many hg hmm hm
    rw [set_other _ e]
    exact hs.own m hmm

theorem walkUn_spec {g : Graph} (hg : Tidy g) : ∀ fuel st L L', Sound g L → UnUp g st L → (∀ u ∈ st, Many g u) →
    walkUn g fuel st L = some L' →
    Sound g L' ∧ UnUp g [] L' ∧ Grow L L' ∧ ∀ u ∈ st, L' u = .un := by
  intro fuel
  induction fuel with
  | zero => intro st L L' _ _ _ h; cases h
  | succ n ih =>
    intro st L L' hs hu hm h
    cases st with
    | nil =>
      cases h
      exact ⟨hs, hu, Grow.rfl', by simp⟩
    | cons u st =>
      simp only [walkUn] at h
      have hs' := sound_un hg hs (hm u (by simp))
      have hA : UnUp g (((g.v u).inn.filter (fun h => h ≠ 0 ∧ set L u .un h ≠ .un)).reverse ++ st) (set L u .un) := by
        intro t ht x hx h0
        by_cases hxu : set L u .un x = .un
        · exact Or.inl hxu
        · right
          by_cases e : t = u
          · subst e
            simp [hx, h0, hxu]
          · rw [set_other _ e] at ht
            rcases hu t ht x hx h0 with h | h
            · have : x ≠ u := by rintro rfl; exact hxu (set_same ..)
              rw [set_other _ this] at hxu
              exact (hxu h).elim
            · rcases List.mem_cons.1 h with rfl | h
              · exact (hxu (set_same ..)).elim
              · simp [h]
      have hB : ∀ x ∈ ((g.v u).inn.filter (fun h => h ≠ 0 ∧ set L u .un h ≠ .un)).reverse ++ st, Many g x := by
        intro x hx
        rcases List.mem_append.1 hx with h | h
        · simp only [List.mem_reverse, List.mem_filter] at h
          exact (hm u (by simp)).up ((hg.both _ _).2 h.1)
        · exact hm x (by simp [h])
      obtain ⟨h1, h2, h3, h4⟩ := ih _ _ _ hs' hA hB h
      refine ⟨h1, h2, ?_, ?_⟩
      · refine Grow.trans ?_ h3
        intro v
        by_cases e : v = u
        · right; rw [e, set_same]
        · left; rw [set_other _ e]
      · intro x hx
        rcases List.mem_cons.1 hx with rfl | hx
        · rcases h3 x with e | e
          · rw [e, set_same]
          · exact e
        · exact h4 x (by simp [hx])

/-- What is known of a state whose parents have all been seen: `t` is waiting, or its
parents have its label or are unlabelable. -/
def LabUp (g : Graph) (P : Nat → Prop) (st : List Nat) (L : Nat → Mark) : Prop :=
  ∀ t k, P t → L t = .lab k → t ∉ st → ∀ h ∈ (g.v t).inn, h ≠ 0 → L h = .lab k ∨ L h = .un

theorem labUp_grow {g : Graph} {P : Nat → Prop} {st : List Nat} {L L' : Nat → Mark} (h : LabUp g P st L)
    (hw : Grow L L') : LabUp g P st L' := by
  intro t k hp ht hst x hx h0
  have : L t = .lab k := by
    rcases hw t with e | e
    · rw [← e]; exact ht
    · rw [e] at ht; cases ht
  rcases hw x with e | e
  · rw [e]; exact h t k hp this hst x hx h0
  · exact Or.inr e

/-- The walk back from a match with label `l`: the states waiting. -/
structure WalkInv (g : Graph) (P : Nat → Prop) (l : Nat) (st : List Nat) (L : Nat → Mark) : Prop where
  sound : Sound g L
  unUp : UnUp g [] L
  labUp : LabUp g P st L
  wait : ∀ t ∈ st, L t = .lab l ∨ L t = .un

theorem parents_spec {g : Graph} (hg : Tidy g) {P : Nat → Prop} {fuel l t : Nat} (ht : Des g t l) : ∀ hs st L st' L',
    Sound g L → UnUp g [] L → LabUp g P (t :: st) L → (∀ x ∈ st, L x = .lab l ∨ L x = .un) →
    (∀ h ∈ hs, h ∈ (g.v t).inn) →
    (∀ h ∈ (g.v t).inn, h ≠ 0 → h ∉ hs → L h = .lab l ∨ L h = .un) →
    (L t = .lab l ∨ L t = .un) →
    parents g fuel (.lab l) hs st L = some (st', L') →
    WalkInv g P l st' L' ∧ (L' t = .lab l ∨ L' t = .un) := by
  intro hs
  induction hs with
  | nil =>
    intro st L st' L' h1 h2 h3 h4 _ h6 h7 h
    cases h
    refine ⟨⟨h1, h2, ?_, h4⟩, h7⟩
    intro x k hp hx hst y hy h0
    by_cases e : x = t
    · subst e
      rcases h7 with e | e
      · rw [e] at hx; cases hx; exact h6 y hy h0 (by simp)
      · rw [e] at hx; cases hx
    · exact h3 x k hp hx (by simp [e, hst]) y hy h0
  | cons h hs ih =>
    intro st L st' L' h1 h2 h3 h4 h5 h6 h7 hr
    have h5' : ∀ x ∈ hs, x ∈ (g.v t).inn := fun x hx => h5 x (by simp [hx])
    have hin : h ∈ (g.v t).inn := h5 h (by simp)
    have hout : t ∈ (g.v h).out := (hg.both _ _).2 hin
    rw [parents] at hr
    by_cases h0 : h = 0
    · rw [if_pos h0] at hr
      refine ih _ _ _ _ h1 h2 h3 h4 h5' ?_ h7 hr
      intro x hx hx0 hxs
      exact h6 x hx hx0 (by simp [hxs]; rintro rfl; exact hx0 h0)
    rw [if_neg h0] at hr
    by_cases hn : L h = .none
    · rw [if_pos hn] at hr
      have hne : ∀ x, (L x ≠ .none) → x ≠ h := by rintro x hx rfl; exact hx hn
      have keep : ∀ x, L x ≠ .none → set L h (.lab l) x = L x := fun x hx => set_other _ (hne x hx)
      refine ih _ _ _ _ ⟨?_, ?_, ?_⟩ ?_ ?_ ?_ h5' ?_ ?_ hr
      · intro v k hk
        by_cases e : v = h
        · subst e; rw [set_same] at hk; cases hk; exact ht.up hout
        · rw [set_other _ e] at hk; exact h1.lab v k hk
      · intro v hk
        by_cases e : v = h
        · subst e; rw [set_same] at hk; cases hk
        · rw [set_other _ e] at hk; exact h1.un v hk
      · intro m hm
        obtain ⟨k, hk, hk'⟩ := h1.own m hm
        exact ⟨k, hk, by rw [keep m (by rw [hk']; exact fun e => by cases e), hk']⟩
      · intro x hx y hy hy0
        have hx' : L x = .un := by
          by_cases e : x = h
          · subst e; rw [set_same] at hx; cases hx
          · rwa [set_other _ e] at hx
        rcases h2 x hx' y hy hy0 with e | e
        · left; rw [keep y (by rw [e]; exact fun e => by cases e), e]
        · cases e
      · intro x k hp hx hst y hy hy0
        have hxh : x ≠ h := by rintro rfl; simp at hst
        rw [set_other _ hxh] at hx
        have := h3 x k hp hx (by simp at hst ⊢; exact ⟨hst.1, hst.2.2⟩) y hy hy0
        rw [keep y (by rcases this with e | e <;> rw [e] <;> exact fun e => by cases e)]
        exact this
      · intro x hx
        rcases List.mem_cons.1 hx with rfl | hx
        · left; exact set_same ..
        · have := h4 x hx
          rw [keep x (by rcases this with e | e <;> rw [e] <;> exact fun e => by cases e)]
          exact this
      · intro x hx hx0 hxs
        by_cases e : x = h
        · left; rw [e, set_same]
        · have := h6 x hx hx0 (by simp [e, hxs])
          rw [set_other _ e]
          exact this
      · rw [keep t (by rcases h7 with e | e <;> rw [e] <;> exact fun e => by cases e)]
        exact h7
    rw [if_neg hn] at hr
    have skip : (L h = .lab l ∨ L h = .un) → ∀ x ∈ (g.v t).inn, x ≠ 0 → x ∉ hs → L x = .lab l ∨ L x = .un := by
      intro hh x hx hx0 hxs
      by_cases e : x = h
      · rw [e]; exact hh
      · exact h6 x hx hx0 (by simp [e, hxs])
    by_cases hu : L h = .un
    · rw [if_pos hu] at hr
      exact ih _ _ _ _ h1 h2 h3 h4 h5' (skip (Or.inr hu)) h7 hr
    rw [if_neg hu] at hr
    by_cases hl : L h = .lab l
    · rw [if_pos hl] at hr
      exact ih _ _ _ _ h1 h2 h3 h4 h5' (skip (Or.inl hl)) h7 hr
    rw [if_neg hl] at hr
    cases hw : walkUn g fuel [h] L with
    | none => rw [hw] at hr; cases hr
    | some L1 =>
      rw [hw] at hr
      have hmany : Many g h := by
        cases e : L h with
        | none => exact (hn e).elim
        | un => exact (hu e).elim
        | lab k =>
          refine ⟨k, l, ?_, h1.lab h k e, ht.up hout⟩
          rintro rfl; exact hl e
      obtain ⟨w1, w2, w3, w4⟩ := walkUn_spec hg _ _ _ _ h1 (fun t ht x hx h0 => by
          rcases h2 t ht x hx h0 with e | e
          · exact Or.inl e
          · cases e) (by simpa using hmany) hw
      have up : ∀ {x}, (L x = .lab l ∨ L x = .un) → (L1 x = .lab l ∨ L1 x = .un) := by
        intro x hx
        rcases w3 x with e | e
        · rw [e]; exact hx
        · exact Or.inr e
      refine ih _ _ _ _ w1 w2 (labUp_grow h3 w3) (fun x hx => up (h4 x hx)) h5' ?_ (up h7) hr
      intro x hx hx0 hxs
      by_cases e : x = h
      · right; rw [e]; exact w4 h (by simp)
      · exact up (h6 x hx hx0 (by simp [e, hxs]))

theorem walk_spec {g : Graph} (hg : Tidy g) {P : Nat → Prop} {l : Nat} :
    ∀ fuel st L L', WalkInv g P l st L → (∀ t ∈ st, Des g t l) → walk g (.lab l) fuel st L = some L' →
    WalkInv g P l [] L' := by
  intro fuel
  induction fuel with
  | zero => intro st L L' _ _ h; cases h
  | succ n ih =>
    intro st L L' hi hd h
    cases st with
    | nil => cases h; exact hi
    | cons t st =>
      simp only [walk] at h
      cases hp : parents g n (.lab l) (g.v t).inn st L with
      | none => rw [hp] at h; cases h
      | some r =>
        obtain ⟨st1, L1⟩ := r
        rw [hp] at h
        obtain ⟨hi', ht'⟩ := parents_spec hg (hd t (by simp)) (g.v t).inn st L st1 L1 hi.sound hi.unUp hi.labUp
          (fun x hx => hi.wait x (by simp [hx])) (fun _ h => h) (fun x hx _ hn => (hn hx).elim)
          (hi.wait t (by simp)) hp
        refine ih _ _ _ hi' ?_ h
        -- every waiting state leads to the match
        clear ih h hi ht' hi'
        have key : ∀ hs st L st' L', (∀ h ∈ hs, h ∈ (g.v t).inn) → (∀ x ∈ st, Des g x l) →
            parents g n (.lab l) hs st L = some (st', L') → ∀ x ∈ st', Des g x l := by
          intro hs
          induction hs with
          | nil => intro st L st' L' _ h2 h; cases h; exact h2
          | cons h hs ih =>
            intro st L st' L' h1 h2 hr
            have h1' : ∀ x ∈ hs, x ∈ (g.v t).inn := fun x hx => h1 x (by simp [hx])
            rw [parents] at hr
            split at hr
            · exact ih _ _ _ _ h1' h2 hr
            split at hr
            · refine ih _ _ _ _ h1' ?_ hr
              intro x hx
              rcases List.mem_cons.1 hx with rfl | hx
              · exact (hd t (by simp)).up ((hg.both _ _).2 (h1 x (by simp)))
              · exact h2 x hx
            split at hr
            · exact ih _ _ _ _ h1' h2 hr
            split at hr
            · exact ih _ _ _ _ h1' h2 hr
            split at hr
            · cases hr
            · exact ih _ _ _ _ h1' h2 hr
        exact key _ _ _ _ _ (fun _ h => h) (fun x hx => hd x (by simp [hx])) hp

/-- The marks when propagation is done. -/
structure Marked (g : Graph) (L : Nat → Mark) : Prop where
  sound : Sound g L
  unUp : ∀ t, L t = .un → ∀ h ∈ (g.v t).inn, h ≠ 0 → L h = .un
  labUp : ∀ t k, L t = .lab k → ∀ h ∈ (g.v t).inn, h ≠ 0 → L h = .lab k ∨ L h = .un

theorem propagate_spec {g : Graph} (hg : Tidy g) {fuel : Nat} : ∀ ms L L', Sound g L → UnUp g [] L →
    LabUp g (fun v => (g.v v).isMatch = true → v ∉ ms) [] L → propagate g fuel ms L = some L' →
    Marked g L' := by
  intro ms
  induction ms with
  | nil =>
    intro L L' h1 h2 h3 h
    cases h
    refine ⟨h1, ?_, ?_⟩
    · intro t ht x hx h0
      rcases h2 t ht x hx h0 with e | e
      · exact e
      · cases e
    · intro t k ht x hx h0
      exact h3 t k (by simp) ht (by simp) x hx h0
  | cons m ms ih =>
    intro L L' h1 h2 h3 h
    rw [propagate] at h
    by_cases hm : (g.v m).isMatch = true
    · rw [if_pos hm] at h
      obtain ⟨l, hl, hL⟩ := h1.own m hm
      rw [hL] at h
      cases hw : walk g (.lab l) fuel [m] L with
      | none => rw [hw] at h; cases h
      | some L1 =>
        rw [hw] at h
        have := walk_spec hg (P := fun v => (g.v v).isMatch = true → v ∉ ms) fuel [m] L L1 ⟨h1, h2, ?_, ?_⟩
          (by simp; exact ⟨m, .refl m, hm, hl⟩) hw
        · exact ih _ _ this.sound this.unUp this.labUp h
        · intro t k hp ht hst
          refine h3 t k (fun hmt => ?_) ht (by simp)
          simp at hst ⊢
          exact ⟨hst, hp hmt⟩
        · simp [hL]
    · rw [if_neg hm] at h
      refine ih _ _ h1 h2 ?_ h
      intro t k hp ht
      refine h3 t k (fun hmt => ?_) ht
      have : t ≠ m := by rintro rfl; exact hm hmt
      simp [this, hp hmt]

theorem sound_init {g : Graph} (hg : Tidy g) : Sound g (fun v => Mark.ofLabel (g.v v).label) := by
  refine ⟨?_, ?_, ?_⟩
  · intro v k hk
    cases e : (g.v v).label with
    | none => simp only [e] at hk; cases hk
    | some l =>
      simp only [e] at hk; cases hk
      exact ⟨v, .refl v, (hg.labels v).2 (by rw [e]; exact fun e => by cases e), e⟩
  · intro v hk
    cases e : (g.v v).label <;> simp only [e] at hk <;> cases hk
  · intro m hm
    have := (hg.labels m).1 hm
    cases e : (g.v m).label with
    | none => exact (this e).elim
    | some l => exact ⟨l, rfl, rfl⟩

theorem propagated {g : Graph} (hg : Tidy g) {fuel : Nat} {L : Nat → Mark}
    (h : propagate g fuel (List.range g.n) (fun v => Mark.ofLabel (g.v v).label) = some L) : Marked g L := by
  refine propagate_spec hg _ _ _ (sound_init hg) ?_ ?_ h
  · intro t ht
    cases e : (g.v t).label <;> simp only [e] at ht <;> cases ht
  · intro t k hp ht
    have hm : (g.v t).isMatch = true := by
      rw [hg.labels]
      intro e
      simp only [e] at ht; cases ht
    exact (hp hm (List.mem_range.2 (hg.inside t hm))).elim

/-- Each mark says which labels can be reached. -/
theorem Marked.des {g : Graph} {L : Nat → Mark} (hg : Tidy g) (h : Marked g L) {v l : Nat} (h0 : v ≠ 0) (hd : Des g v l) :
    L v = .lab l ∨ L v = .un := by
  obtain ⟨m, hl, hm, hlab⟩ := hd
  induction hl with
  | refl v =>
    obtain ⟨k, hk, hL⟩ := h.sound.own v hm
    rw [hlab] at hk; cases hk
    exact Or.inl hL
  | @step v u t hu _ ih =>
    rcases ih (by have := (hg.range v u hu).2.1; omega) hm hlab with e | e
    · exact h.labUp u l e v ((hg.both _ _).1 hu) h0
    · exact Or.inr (h.unUp u e v ((hg.both _ _).1 hu) h0)

theorem Marked.some {g : Graph} {L : Nat → Mark} (hg : Tidy g) (h : Marked g L) {v : Nat} (h0 : v ≠ 0) (hv : v < g.n) :
    (∃ l, L v = .lab l) ∨ L v = .un := by
  obtain ⟨m, hl, hm⟩ := hg.live v hv h0
  have := (hg.labels m).1 hm
  cases e : (g.v m).label with
  | none => exact (this e).elim
  | some l =>
    rcases h.des hg h0 ⟨m, hl, hm, e⟩ with e | e
    · exact Or.inl ⟨l, e⟩
    · exact Or.inr e

/-! ## The initial state keeps its label -/

theorem walkUn_zero {g : Graph} : ∀ fuel st L L', 0 ∉ st → walkUn g fuel st L = some L' → L' 0 = L 0 := by
  intro fuel
  induction fuel with
  | zero => intro st L L' _ h; cases h
  | succ n ih =>
    intro st L L' hst h
    cases st with
    | nil => cases h; rfl
    | cons u st =>
      simp only [walkUn] at h
      simp only [List.mem_cons, not_or] at hst
      rw [ih _ _ _ (by simp [hst.2]) h, set_other _ hst.1]

theorem parents_zero {g : Graph} {fuel : Nat} {l : Mark} : ∀ hs st L st' L', 0 ∉ st →
    parents g fuel l hs st L = some (st', L') → L' 0 = L 0 ∧ 0 ∉ st' := by
  intro hs
  induction hs with
  | nil => intro st L st' L' hst h; cases h; exact ⟨rfl, hst⟩
  | cons h hs ih =>
    intro st L st' L' hst hr
    rw [parents] at hr
    by_cases h0 : h = 0
    · rw [if_pos h0] at hr; exact ih _ _ _ _ hst hr
    rw [if_neg h0] at hr
    split at hr
    · obtain ⟨a, b⟩ := ih _ _ _ _ (by simp [hst, Ne.symm h0]) hr
      exact ⟨by rw [a, set_other _ (Ne.symm h0)], b⟩
    split at hr
    · exact ih _ _ _ _ hst hr
    split at hr
    · exact ih _ _ _ _ hst hr
    cases hw : walkUn g fuel [h] L with
    | none => rw [hw] at hr; cases hr
    | some L1 =>
      rw [hw] at hr
      obtain ⟨a, b⟩ := ih _ _ _ _ hst hr
      exact ⟨by rw [a, walkUn_zero _ _ _ _ (by simp [Ne.symm h0]) hw], b⟩

theorem walk_zero {g : Graph} {l : Mark} : ∀ fuel st L L', 0 ∉ st → walk g l fuel st L = some L' → L' 0 = L 0 := by
  intro fuel
  induction fuel with
  | zero => intro st L L' _ h; cases h
  | succ n ih =>
    intro st L L' hst h
    cases st with
    | nil => cases h; rfl
    | cons t st =>
      simp only [walk] at h
      cases hp : parents g n l (g.v t).inn st L with
      | none => rw [hp] at h; cases h
      | some r =>
        obtain ⟨st1, L1⟩ := r
        rw [hp] at h
        simp only [List.mem_cons, not_or] at hst
        obtain ⟨a, b⟩ := parents_zero _ _ _ _ _ hst.2 hp
        rw [ih _ _ _ b h, a]

theorem propagate_zero {g : Graph} (hr : (g.v 0).isMatch = false) {fuel : Nat} : ∀ ms L L',
    propagate g fuel ms L = some L' → L' 0 = L 0 := by
  intro ms
  induction ms with
  | nil => intro L L' h; cases h; rfl
  | cons m ms ih =>
    intro L L' h
    rw [propagate] at h
    by_cases hm : (g.v m).isMatch = true
    · rw [if_pos hm] at h
      cases hw : walk g (L m) fuel [m] L with
      | none => rw [hw] at h; cases h
      | some L1 =>
        rw [hw] at h
        have : m ≠ 0 := by rintro rfl; rw [hr] at hm; cases hm
        rw [ih _ _ h, walk_zero _ _ _ _ (by simp [Ne.symm this]) hw]
    · rw [if_neg hm] at h
      exact ih _ _ h

/-! ## Removing the labels which are not needed -/

/-- The initial state and the unlabelable ones. -/
def Top (L : Nat → Mark) (v : Nat) : Prop := v = 0 ∨ L v = .un

structure SweepInv (L : Nat → Mark) (s : Sweep) : Prop where
  zero : s.L 0 = L 0
  top : ∀ v, v ≠ 0 → s.visited v = true → L v = .un → s.L v = .none ∧ s.heads v = false
  head : ∀ v, v ≠ 0 → s.visited v = true → L v ≠ .un → s.L v = L v ∧ s.heads v = true
  rest : ∀ v, s.visited v = false → s.L v = L v ∧ s.heads v = false

theorem sweepOut_spec {L : Nat → Mark} : ∀ ts st (s : Sweep), SweepInv L s → s.visited 0 = true →
    SweepInv L (sweepOut ts st s).2 ∧ (∀ t ∈ ts, (sweepOut ts st s).2.visited t = true) ∧
    (∀ v, s.visited v = true → (sweepOut ts st s).2.visited v = true) ∧
    (∀ v, (sweepOut ts st s).2.visited v = true → L v = .un → s.visited v = true ∨ v ∈ (sweepOut ts st s).1) ∧
    (∀ v ∈ st, v ∈ (sweepOut ts st s).1) ∧
    (∀ v, (sweepOut ts st s).2.visited v = true → s.visited v = true ∨ v ∈ ts) := by
  intro ts
  induction ts with
  | nil => intro st s h _; exact ⟨h, by simp, fun _ h => h, fun v h _ => Or.inl h, fun _ h => h, fun _ h => Or.inl h⟩
  | cons t ts ih =>
    intro st s h hz
    rw [sweepOut]
    by_cases hv : s.visited t = true
    · rw [if_pos hv]
      obtain ⟨a, b, c, d, e, f⟩ := ih st s h hz
      refine ⟨a, ?_, c, d, e, ?_⟩
      · intro x hx
        rcases List.mem_cons.1 hx with rfl | hx
        · exact c _ hv
        · exact b x hx
      · intro v hv
        rcases f v hv with h | h
        · exact Or.inl h
        · exact Or.inr (by simp [h])
    rw [if_neg hv]
    have hv' : s.visited t = false := by simpa using hv
    have ht0 : t ≠ 0 := by rintro rfl; exact hv hz
    obtain ⟨r1, r2⟩ := h.rest t hv'
    by_cases hu : s.L t = .un
    · simp only [hu, if_true]
      have hi : SweepInv L { s with L := set s.L t .none, visited := fun x => if x = t then true else s.visited x } := by
        refine ⟨?_, ?_, ?_, ?_⟩
        · simp only [set_other _ (Ne.symm ht0)]; exact h.zero
        · intro v h0 hv hl
          by_cases e : v = t
          · subst e; exact ⟨set_same .., r2⟩
          · simp only [e, if_false] at hv
            simp only [set_other _ e]; exact h.top v h0 hv hl
        · intro v h0 hv hl
          by_cases e : v = t
          · subst e; rw [r1] at hu; exact (hl hu).elim
          · simp only [e, if_false] at hv
            simp only [set_other _ e]; exact h.head v h0 hv hl
        · intro v hv
          by_cases e : v = t
          · simp [e] at hv
          · simp only [e, if_false] at hv
            simp only [set_other _ e]; exact h.rest v hv
      obtain ⟨a, b, c, d, e, f⟩ := ih (t :: st) _ hi (by simp [hz])
      refine ⟨a, ?_, ?_, ?_, ?_, ?_⟩
      · intro x hx
        rcases List.mem_cons.1 hx with rfl | hx
        · exact c _ (by simp)
        · exact b x hx
      · intro v hv; exact c v (by simp [hv])
      · intro v hv hl
        rcases d v hv hl with h | h
        · by_cases e' : v = t
          · exact Or.inr (e _ (by simp [e']))
          · simp only [e', if_false] at h; exact Or.inl h
        · exact Or.inr h
      · intro v hv; exact e v (by simp [hv])
      · intro v hv
        rcases f v hv with h | h
        · by_cases e' : v = t
          · exact Or.inr (by simp [e'])
          · simp only [e', if_false] at h; exact Or.inl h
        · exact Or.inr (by simp [h])
    · simp only [hu, if_false]
      have hi : SweepInv L { s with heads := fun x => if x = t then true else s.heads x,
                                    visited := fun x => if x = t then true else s.visited x } := by
        refine ⟨h.zero, ?_, ?_, ?_⟩
        · intro v h0 hv hl
          by_cases e : v = t
          · subst e; rw [r1] at hu; exact (hu hl).elim
          · simp only [e, if_false] at hv ⊢
            exact h.top v h0 hv hl
        · intro v h0 hv hl
          by_cases e : v = t
          · subst e; exact ⟨r1, by simp⟩
          · simp only [e, if_false] at hv ⊢
            exact h.head v h0 hv hl
        · intro v hv
          by_cases e : v = t
          · simp [e] at hv
          · simp only [e, if_false] at hv ⊢
            exact h.rest v hv
      obtain ⟨a, b, c, d, e, f⟩ := ih st _ hi (by simp [hz])
      refine ⟨a, ?_, ?_, ?_, e, ?_⟩
      · intro x hx
        rcases List.mem_cons.1 hx with rfl | hx
        · exact c _ (by simp)
        · exact b x hx
      · intro v hv; exact c v (by simp [hv])
      · intro v hv hl
        rcases d v hv hl with h | h
        · by_cases e' : v = t
          · subst e'; rw [r1] at hu; exact (hu hl).elim
          · simp only [e', if_false] at h; exact Or.inl h
        · exact Or.inr h
      · intro v hv
        rcases f v hv with h | h
        · by_cases e' : v = t
          · exact Or.inr (by simp [e'])
          · simp only [e', if_false] at h; exact Or.inl h
        · exact Or.inr (by simp [h])

theorem sweep_spec {g : Graph} {L : Nat → Mark} : ∀ fuel st s s', SweepInv L s → s.visited 0 = true →
    (∀ v, s.visited v = true → Top L v → v ∈ st ∨ ∀ t ∈ (g.v v).out, s.visited t = true) →
    (∀ v, s.visited v = true → v = 0 ∨ ∃ p, v ∈ (g.v p).out) →
    sweep g fuel st s = some s' →
    SweepInv L s' ∧ s'.visited 0 = true ∧ (∀ v, s'.visited v = true → Top L v → ∀ t ∈ (g.v v).out, s'.visited t = true) ∧
    (∀ v, s'.visited v = true → v = 0 ∨ ∃ p, v ∈ (g.v p).out) := by
  intro fuel
  induction fuel with
  | zero => intro st s s' _ _ _ _ h; cases h
  | succ n ih =>
    intro st s s' h hz hc hp hr
    cases st with
    | nil =>
      cases hr
      refine ⟨h, hz, ?_, hp⟩
      intro v hv ht
      rcases hc v hv ht with e | e
      · cases e
      · exact e
    | cons x st =>
      simp only [sweep] at hr
      obtain ⟨a, b, c, d, e, f⟩ := sweepOut_spec (g.v x).out st s h hz
      refine ih _ _ _ a (c 0 hz) ?_ ?_ hr
      · intro v hv ht
        have : s.visited v = true ∨ v ∈ (sweepOut (g.v x).out st s).1 := by
          rcases ht with rfl | ht
          · exact Or.inl hz
          · exact d v hv ht
        rcases this with h1 | h1
        · rcases hc v h1 ht with h2 | h2
          · rcases List.mem_cons.1 h2 with rfl | h2
            · exact Or.inr b
            · exact Or.inl (e v h2)
          · exact Or.inr (fun t ht => c t (h2 t ht))
        · exact Or.inl h1
      · intro v hv
        rcases f v hv with h1 | h1
        · exact hp v h1
        · exact Or.inr ⟨x, h1⟩

/-- What the last loop keeps: labels of visited states. -/
structure ClearInv (s0 s : Sweep) : Prop where
  old : ∀ v, s0.visited v = true → s.visited v = true ∧ s.L v = s0.L v
  new : ∀ v, s0.visited v = false → s.visited v = true → s.L v = .none

theorem clearOut_spec {s0 : Sweep} : ∀ ts st (s : Sweep), ClearInv s0 s →
    ClearInv s0 (clearOut ts st s).2 ∧ (∀ t ∈ ts, (clearOut ts st s).2.visited t = true) ∧
    (∀ v, s.visited v = true → (clearOut ts st s).2.visited v = true) ∧
    (∀ v, (clearOut ts st s).2.visited v = true → s.visited v = true ∨ v ∈ (clearOut ts st s).1) ∧
    (∀ v ∈ st, v ∈ (clearOut ts st s).1) := by
  intro ts
  induction ts with
  | nil => intro st s h; exact ⟨h, by simp, fun _ h => h, fun v h => Or.inl h, fun _ h => h⟩
  | cons t ts ih =>
    intro st s h
    rw [clearOut]
    by_cases hv : s.visited t = true
    · rw [if_pos hv]
      obtain ⟨a, b, c, d, e⟩ := ih st s h
      refine ⟨a, ?_, c, d, e⟩
      intro x hx
      rcases List.mem_cons.1 hx with rfl | hx
      · exact c _ hv
      · exact b x hx
    rw [if_neg hv]
    have hi : ClearInv s0 { s with L := set s.L t .none, visited := fun x => if x = t then true else s.visited x } := by
      refine ⟨?_, ?_⟩
      · intro v hv0
        obtain ⟨h1, h2⟩ := h.old v hv0
        have : v ≠ t := by rintro rfl; exact hv h1
        simp only [set_other _ this, this, if_false]
        exact ⟨h1, h2⟩
      · intro v hv0 hv1
        by_cases e : v = t
        · subst e; exact set_same ..
        · simp only [e, if_false] at hv1
          simp only [set_other _ e]
          exact h.new v hv0 hv1
    obtain ⟨a, b, c, d, e⟩ := ih (t :: st) _ hi
    refine ⟨a, ?_, fun v hv => c v (by simp [hv]), ?_, fun v hv => e v (by simp [hv])⟩
    · intro x hx
      rcases List.mem_cons.1 hx with rfl | hx
      · exact c _ (by simp)
      · exact b x hx
    · intro v hv
      rcases d v hv with h | h
      · by_cases e' : v = t
        · exact Or.inr (e _ (by simp [e']))
        · simp only [e', if_false] at h; exact Or.inl h
      · exact Or.inr h

theorem clear_spec {g : Graph} {s0 : Sweep} : ∀ fuel st s s', ClearInv s0 s →
    (∀ v, s.visited v = true → v ∈ st ∨ ∀ t ∈ (g.v v).out, s.visited t = true) →
    clear g fuel st s = some s' →
    ClearInv s0 s' ∧ (∀ v, s'.visited v = true → ∀ t ∈ (g.v v).out, s'.visited t = true) := by
  intro fuel
  induction fuel with
  | zero => intro st s s' _ _ h; cases h
  | succ n ih =>
    intro st s s' h hc hr
    cases st with
    | nil =>
      cases hr
      refine ⟨h, ?_⟩
      intro v hv
      rcases hc v hv with e | e
      · cases e
      · exact e
    | cons x st =>
      simp only [clear] at hr
      obtain ⟨a, b, c, d, e⟩ := clearOut_spec (g.v x).out st s h
      refine ih _ _ _ a ?_ hr
      intro v hv
      rcases d v hv with h1 | h1
      · rcases hc v h1 with h2 | h2
        · rcases List.mem_cons.1 h2 with rfl | h2
          · exact Or.inr b
          · exact Or.inl (e v h2)
        · exact Or.inr (fun t ht => c t (h2 t ht))
      · exact Or.inl h1

theorem visited_all {g : Graph} {s : Sweep} (hc : ∀ v, s.visited v = true → ∀ t ∈ (g.v v).out, s.visited t = true)
    {a b : Nat} (h : Leads g a b) (ha : s.visited a = true) : s.visited b = true := by
  induction h with
  | refl => exact ha
  | step hu _ ih => exact ih (hc _ ha _ hu)

theorem top_up {g : Graph} {L : Nat → Mark} (hg : Tidy g) (hm : Marked g L) {a t : Nat} (h : Leads g a t) (ht : Top L t) :
    Top L a := by
  induction h with
  | refl => exact ht
  | @step v u t hu _ ih =>
    rcases ih ht with e | e
    · have := (hg.range v u hu).2.1; omega
    · by_cases h0 : v = 0
      · exact Or.inl h0
      · exact Or.inr (hm.unUp u e v ((hg.both _ _).1 hu) h0)

/-- The labels left: those of the states outside the top entered from it. -/
theorem removed {g : Graph} (hg : Tidy g) {L L' : Nat → Mark} (hm : Marked g L) {fuel : Nat}
    (h : removeNonMinimal g fuel L = some L') :
    L' 0 = L 0 ∧ (∀ v, v ≠ 0 → v < g.n → L v = .un → L' v = .none) ∧
    (∀ v, v ≠ 0 → v < g.n → L v ≠ .un → L' v = L v ∨ L' v = .none) ∧
    (∀ p v, v ∈ (g.v p).out → Top L p → L v ≠ .un → L' v = L v) := by
  unfold removeNonMinimal at h
  cases hs : sweep g fuel [0] { L, visited := fun x => x = 0, heads := fun _ => false } with
  | none => rw [hs] at h; cases h
  | some s =>
    rw [hs] at h
    simp only at h
    obtain ⟨h1, hz, h2, h3⟩ := sweep_spec (L := L) fuel [0] _ s
      ⟨rfl, fun v h0 hv => by simp [h0] at hv, fun v h0 hv => by simp [h0] at hv, fun v _ => ⟨rfl, rfl⟩⟩ (by simp)
      (by intro v hv _; left; simpa using hv) (by intro v hv; left; simpa using hv) hs
    cases hc : clear g fuel ((List.range g.n).filter s.heads).reverse s with
    | none => rw [hc] at h; cases h
    | some s' =>
      rw [hc] at h
      cases h
      obtain ⟨k1, k2⟩ := clear_spec (s0 := s) fuel _ s s' ⟨fun v hv => ⟨hv, rfl⟩, fun v hv hv' => by rw [hv] at hv'; cases hv'⟩ (by
        intro v hv
        by_cases ht : Top L v
        · exact Or.inr (h2 v hv ht)
        · left
          have h0 : v ≠ 0 := fun e => ht (Or.inl e)
          have hl : L v ≠ .un := fun e => ht (Or.inr e)
          obtain ⟨p, hp⟩ := (h3 v hv).resolve_left h0
          simp [(hg.range p v hp).2.2, (h1.head v h0 hv hl).2]) hc
      have vis : ∀ v < g.n, s'.visited v = true := fun v hv => visited_all k2 (hg.reach v hv) (k1.old 0 hz).1
      have tops : ∀ {a t}, Leads g a t → s.visited a = true → Top L t → s.visited t = true := by
        intro a t hl
        induction hl with
        | refl => intro ha _; exact ha
        | @step v u t hu hl ih =>
          intro ha ht
          exact ih (h2 v ha (top_up hg hm (.step hu hl) ht) u hu) ht
      refine ⟨by rw [(k1.old 0 hz).2, h1.zero], ?_, ?_, ?_⟩
      · intro v h0 hv hl
        have := tops (hg.reach v hv) hz (Or.inr hl)
        rw [(k1.old v this).2]
        exact (h1.top v h0 this hl).1
      · intro v h0 hv hl
        cases e : s.visited v with
        | true => left; rw [(k1.old v e).2]; exact (h1.head v h0 e hl).1
        | false => right; exact k1.new v e (vis v hv)
      · intro p v hpv hp hl
        have hpn : s.visited p = true := tops (hg.reach p (hg.range p v hpv).1) hz hp
        have hv := h2 p hpn hp v hpv
        have h0 : v ≠ 0 := by have := (hg.range p v hpv).2.1; omega
        rw [(k1.old v hv).2]; exact (h1.head v h0 hv hl).1

/-! ## C23 -/

/-- The label carried in a state. -/
def carried (L : Nat → Mark) (v : Nat) : Option Nat :=
  if v = 0 then none else match L v with
    | .lab l => some l
    | _ => none

theorem label_eq {g g' : Graph} {fuel : Nat} (h : labelGuardStates fuel g = some g') :
    ∃ L L', propagate g fuel (List.range g.n) (fun v => Mark.ofLabel (g.v v).label) = some L ∧
      removeNonMinimal g fuel L = some L' ∧ g' = { g with v := fun x => { g.v x with label := (L' x).toLabel } } := by
  unfold labelGuardStates at h
  cases h1 : propagate g fuel (List.range g.n) (fun v => Mark.ofLabel (g.v v).label) with
  | none => rw [h1] at h; cases h
  | some L =>
    rw [h1] at h
    simp only at h
    cases h2 : removeNonMinimal g fuel L with
    | none => rw [h2] at h; cases h
    | some L' =>
      rw [h2] at h
      exact ⟨L, L', rfl, h2, (Option.some.inj h).symm⟩

/-- Labelling changes labels only. -/
theorem label_shape {g g' : Graph} {fuel : Nat} (h : labelGuardStates fuel g = some g') :
    g'.n = g.n ∧ ∀ v, (g'.v v).out = (g.v v).out ∧ (g'.v v).inn = (g.v v).inn ∧ (g'.v v).bytes = (g.v v).bytes ∧
      (g'.v v).isMatch = (g.v v).isMatch := by
  obtain ⟨L, L', -, -, rfl⟩ := label_eq h
  exact ⟨rfl, fun v => ⟨rfl, rfl, rfl, rfl⟩⟩

theorem label_zero {g g' : Graph} (hg : Tidy g) {fuel : Nat} (h : labelGuardStates fuel g = some g') :
    (g'.v 0).label = none := by
  obtain ⟨L, L', h1, h2, rfl⟩ := label_eq h
  have hm := propagated hg h1
  have hz := propagate_zero hg.root _ _ _ h1
  obtain ⟨r, -⟩ := removed hg hm h2
  have : (g.v 0).label = none := by
    by_contra hc
    have := (hg.labels 0).2 hc
    rw [hg.root] at this; cases this
  simp only [r, hz, this]
  rfl

/-- Labels come from match states. -/
theorem label_source {g g' : Graph} (hg : Tidy g) {fuel : Nat} (h : labelGuardStates fuel g = some g')
    {v l : Nat} (hv : v < g.n) (hl : (g'.v v).label = some l) : ∃ m, (g.v m).label = some l := by
  by_cases h0 : v = 0
  · subst h0; rw [label_zero hg h] at hl; cases hl
  obtain ⟨L, L', h1, h2, rfl⟩ := label_eq h
  have hm := propagated hg h1
  obtain ⟨-, r1, r2, -⟩ := removed hg hm h2
  have hl : (L' v).toLabel = some l := hl
  by_cases hu : L v = .un
  · rw [r1 v h0 hv hu] at hl; cases hl
  · rcases r2 v h0 hv hu with e | e
    · rw [e] at hl
      cases e' : L v with
      | none => rw [e'] at hl; cases hl
      | un => exact (hu e').elim
      | lab k =>
        rw [e'] at hl
        cases hl
        obtain ⟨m, -, -, h3⟩ := hm.sound.lab v l e'
        exact ⟨m, h3⟩
    · rw [e] at hl; cases hl

/-- Each state carries one label, whichever way it is entered: none for the states from
which several keywords can still match, and else that of the keyword. -/
theorem label_carried {g g' : Graph} (hg : Tidy g) {fuel : Nat} (h : labelGuardStates fuel g = some g') :
    ∃ T : Nat → Option Nat, T 0 = none ∧
      (∀ v, ∀ u ∈ (g'.v v).out, T u = (g'.v u).label.or (T v) ∧
        ((g'.v u).label = none ∨ T v = none ∨ T v = (g'.v u).label)) ∧
      (∀ v, (g.v v).isMatch = true → T v = (g.v v).label) := by
  obtain ⟨L, L', h1, h2, rfl⟩ := label_eq h
  have hm := propagated hg h1
  obtain ⟨-, r1, r2, r3⟩ := removed hg hm h2
  refine ⟨carried L, by simp [carried], ?_, ?_⟩
  · intro v u hu
    simp only at hu ⊢
    obtain ⟨hv, hu0, hun⟩ := hg.range v u hu
    have hu0' : u ≠ 0 := by omega
    have hin := (hg.both _ _).1 hu
    by_cases htu : L u = .un
    · -- both states are at the top
      have htv : carried L v = none := by
        unfold carried
        by_cases h0 : v = 0
        · rw [if_pos h0]
        · rw [if_neg h0, hm.unUp u htu v hin h0]
      rw [r1 u hu0' hun htu, htv]
      simp [carried, hu0', htu, Mark.toLabel]
    · obtain ⟨l, hl⟩ := (hm.some hg hu0' hun).resolve_right htu
      have cu : carried L u = some l := by simp [carried, hu0', hl]
      by_cases htv : Top L v
      · have cv : carried L v = none := by
          unfold carried
          rcases htv with e | e
          · rw [if_pos e]
          · by_cases h0 : v = 0
            · rw [if_pos h0]
            · rw [if_neg h0, e]
        rw [r3 v u hu htv htu, hl, cu, cv]
        simp [Mark.toLabel]
      · have h0 : v ≠ 0 := fun e => htv (Or.inl e)
        have hlv : L v = .lab l := by
          rcases hm.labUp u l hl v hin h0 with e | e
          · exact e
          · exact (htv (Or.inr e)).elim
        have cv : carried L v = some l := by simp [carried, h0, hlv]
        rw [cu, cv]
        rcases r2 u hu0' hun htu with e | e
        · rw [e, hl]; simp [Mark.toLabel]
        · rw [e]; simp [Mark.toLabel]
  · intro v hmv
    have h0 : v ≠ 0 := by rintro rfl; rw [hg.root] at hmv; cases hmv
    obtain ⟨l, hl, hL⟩ := hm.sound.own v hmv
    simp [carried, h0, hL, hl]

/-- C23: every way from the start to a match state crosses a labelled state, and every
label crossed is the one the match had. -/
theorem guards_crossed {g g' : Graph} (hg : Tidy g) {fuel : Nat} (h : labelGuardStates fuel g = some g')
    {p : List Nat} {v l : Nat} (hp : Trail g' 0 p v) (hv : (g.v v).isMatch = true) (hl : (g.v v).label = some l) :
    (∃ u ∈ p, (g'.v u).label = some l) ∧ ∀ u ∈ p, (g'.v u).label = none ∨ (g'.v u).label = some l := by
  obtain ⟨T, h0, he, hT⟩ := label_carried hg h
  have hTv : T v = some l := by rw [hT v hv, hl]
  -- from any state on
  have key : ∀ {a p v}, Trail g' a p v → T v = some l →
      (T a = some l ∨ (T a = none ∧ ∃ u ∈ p, (g'.v u).label = some l)) ∧
      ∀ u ∈ p, (g'.v u).label = none ∨ (g'.v u).label = some l := by
    intro a p v ht
    induction ht with
    | nil v => intro e; exact ⟨Or.inl e, by simp⟩
    | @cons v u t p hu _ ih =>
      intro e
      obtain ⟨i1, i2⟩ := ih e
      obtain ⟨e1, e2⟩ := he v u hu
      cases hlab : (g'.v u).label with
      | none =>
        rw [hlab] at e1
        simp only [Option.none_or] at e1
        rw [e1] at i1
        refine ⟨?_, ?_⟩
        · rcases i1 with i1 | ⟨i1, x, hx, hx'⟩
          · exact Or.inl i1
          · exact Or.inr ⟨i1, x, by simp [hx], hx'⟩
        · intro x hx
          rcases List.mem_cons.1 hx with rfl | hx
          · exact Or.inl hlab
          · exact i2 x hx
      | some k =>
        rw [hlab] at e1 e2
        simp only [Option.some_or] at e1
        have hk : k = l := by
          rcases i1 with i1 | ⟨i1, -⟩
          · rw [e1] at i1; exact Option.some.inj i1
          · rw [e1] at i1; cases i1
        subst hk
        refine ⟨?_, ?_⟩
        · rcases e2 with e2 | e2 | e2
          · cases e2
          · exact Or.inr ⟨e2, u, by simp, hlab⟩
          · exact Or.inl e2
        · intro x hx
          rcases List.mem_cons.1 hx with rfl | hx
          · exact Or.inr hlab
          · exact i2 x hx
  obtain ⟨i1, i2⟩ := key hp hTv
  refine ⟨?_, i2⟩
  rcases i1 with i1 | i1
  · rw [h0] at i1; cases i1
  · exact i1.2

/-- The labels left by labelling guard the keywords. -/
theorem label_guards {g g' : Graph} (hg : Tidy g) {fuel : Nat} (h : labelGuardStates fuel g = some g') :
    Compiler.Guards g' := by
  obtain ⟨T, h0, he, hT⟩ := label_carried hg h
  obtain ⟨-, hs⟩ := label_shape h
  refine Compiler.guards_of_carried T h0 he ?_
  intro v hv
  rw [(hs v).2.2.2] at hv
  rw [hT v hv]
  exact (hg.labels v).1 hv

/-- What the labelled automaton accepts with the label carried is what the automaton
accepted with the label of the match state. -/
theorem label_language {g g' : Graph} (hg : Tidy g) {fuel : Nat} (h : labelGuardStates fuel g = some g')
    (l : Nat) (w : List UInt8) : Compiler.GAccepts g' l w ↔ Accepts g l w := by
  obtain ⟨T, h0, he, hT⟩ := label_carried hg h
  obtain ⟨-, hs⟩ := label_shape h
  have carry : ∀ {w v lab}, Compiler.GRun g' w v lab → lab = T v := by
    intro w v lab hr
    induction hr with
    | init => exact h0.symm
    | step _ hu hb ih => rw [(he _ _ hu).1, ih]
  have r1 : ∀ {w v lab}, Compiler.GRun g' w v lab → Reads g w v := by
    intro w v lab hr
    induction hr with
    | init => exact .init
    | @step w v lab u b _ hu hb ih =>
      rw [(hs v).1] at hu
      rw [(hs u).2.2.1] at hb
      exact ih.step hu hb
  have r2 : ∀ {w v}, Reads g w v → Compiler.GRun g' w v (T v) := by
    intro w v hr
    induction hr with
    | init => rw [h0]; exact .init
    | @step w v u b _ hu hb ih =>
      rw [← (hs v).1] at hu
      rw [← (hs u).2.2.1] at hb
      have := ih.step hu hb
      rwa [← (he v u hu).1] at this
  rw [accepts_iff_reads hg.root]
  constructor
  · rintro ⟨v, hr, hm⟩
    rw [(hs v).2.2.2] at hm
    exact ⟨v, r1 hr, hm, by rw [← hT v hm, carry hr]⟩
  · rintro ⟨v, hr, hm, hl⟩
    refine ⟨v, ?_, by rw [(hs v).2.2.2]; exact hm⟩
    have := r2 hr
    rwa [hT v hm, hl] at this

/-! ## Labelling ends -/

/-- The number of vertices with a property. -/
def count (n : Nat) (p : Nat → Bool) : Nat := ((List.range n).filter p).length

theorem filter_le (l : List Nat) {p q : Nat → Bool} (h : ∀ v, q v = true → p v = true) :
    (l.filter q).length ≤ (l.filter p).length := by
  induction l with
  | nil => exact Nat.le_refl _
  | cons a l ih =>
    cases ha : q a with
    | true =>
      rw [List.filter_cons_of_pos ha, List.filter_cons_of_pos (h a ha)]
      simpa using ih
    | false =>
      rw [List.filter_cons_of_neg (by simp [ha])]
      cases hp : p a with
      | true => rw [List.filter_cons_of_pos hp]; simp; omega
      | false => rw [List.filter_cons_of_neg (by simp [hp])]; exact ih

theorem filter_lt (l : List Nat) {p q : Nat → Bool} (h : ∀ v, q v = true → p v = true) {t : Nat} (ht : t ∈ l)
    (hp : p t = true) (hq : q t = false) : (l.filter q).length < (l.filter p).length := by
  induction l with
  | nil => cases ht
  | cons a l ih =>
    by_cases e : a = t
    · subst e
      rw [List.filter_cons_of_pos hp, List.filter_cons_of_neg (by simp [hq])]
      have := filter_le l h
      simp; omega
    · have ht' : t ∈ l := by
        rcases List.mem_cons.1 ht with rfl | ht
        · exact (e rfl).elim
        · exact ht
      have := ih ht'
      cases ha : q a with
      | true =>
        rw [List.filter_cons_of_pos ha, List.filter_cons_of_pos (h a ha)]
        simpa using this
      | false =>
        rw [List.filter_cons_of_neg (by simp [ha])]
        cases hp : p a with
        | true => rw [List.filter_cons_of_pos hp]; simp; omega
        | false => rw [List.filter_cons_of_neg (by simp [hp])]; exact this

theorem count_le {n : Nat} {p q : Nat → Bool} (h : ∀ v, q v = true → p v = true) : count n q ≤ count n p :=
  filter_le _ h

theorem count_lt {n : Nat} {p q : Nat → Bool} (h : ∀ v, q v = true → p v = true) {t : Nat} (ht : t < n)
    (hp : p t = true) (hq : q t = false) : count n q < count n p :=
  filter_lt _ h (List.mem_range.2 ht) hp hq

theorem parent_lt {g : Graph} (hg : Tidy g) {t h : Nat} (hh : h ∈ (g.v t).inn) : h < g.n :=
  (hg.range h t ((hg.both _ _).2 hh)).1

theorem walkUn_ends {g : Graph} (hg : Tidy g) : ∀ c st L, (∀ u ∈ st, u < g.n) → count g.n (fun v => L v ≠ .un) ≤ c →
    ∃ L' F, Grow L L' ∧ ∀ fuel ≥ F, walkUn g fuel st L = some L' := by
  intro c
  induction c using Nat.strong_induction_on with
  | _ c ihc =>
    -- a state not yet marked
    have hot : ∀ u st L, (∀ x ∈ u :: st, x < g.n) → L u ≠ .un → count g.n (fun v => L v ≠ .un) ≤ c →
        ∃ L' F, Grow L L' ∧ ∀ fuel ≥ F, walkUn g fuel (u :: st) L = some L' := by
      intro u st L hst hu hc
      have hlt : count g.n (fun v => set L u .un v ≠ .un) < count g.n (fun v => L v ≠ .un) := by
        refine count_lt ?_ (hst u (by simp)) (by simpa using hu) (by simp [set_same])
        intro v hv
        by_cases e : v = u
        · simp [e, set_same] at hv
        · simpa [set_other _ e] using hv
      obtain ⟨L', F, hw, h⟩ := ihc (count g.n (fun v => set L u .un v ≠ .un)) (by omega)
        (((g.v u).inn.filter (fun h => h ≠ 0 ∧ set L u .un h ≠ .un)).reverse ++ st) (set L u .un) (by
          intro x hx
          rcases List.mem_append.1 hx with hx | hx
          · simp only [List.mem_reverse, List.mem_filter] at hx
            exact parent_lt hg hx.1
          · exact hst x (by simp [hx])) (Nat.le_refl _)
      refine ⟨L', F + 1, ?_, ?_⟩
      · refine Grow.trans ?_ hw
        intro v
        by_cases e : v = u
        · right; rw [e, set_same]
        · left; rw [set_other _ e]
      · intro fuel hf
        obtain ⟨n, rfl⟩ : ∃ n, fuel = n + 1 := ⟨fuel - 1, by omega⟩
        rw [walkUn]
        exact h n (by omega)
    intro st
    induction st with
    | nil =>
      intro L _ _
      refine ⟨L, 1, Grow.rfl', ?_⟩
      intro fuel hf
      obtain ⟨n, rfl⟩ : ∃ n, fuel = n + 1 := ⟨fuel - 1, by omega⟩
      rfl
    | cons u st ih =>
      intro L hst hc
      by_cases hu : L u = .un
      · have hset : set L u .un = L := by
          funext x
          by_cases e : x = u
          · rw [e, set_same, hu]
          · rw [set_other _ e]
        have hsub : ∀ x ∈ ((g.v u).inn.filter (fun h => h ≠ 0 ∧ L h ≠ .un)).reverse, x < g.n ∧ L x ≠ .un := by
          intro x hx
          simp only [List.mem_reverse, List.mem_filter, decide_eq_true_eq] at hx
          exact ⟨parent_lt hg hx.1, hx.2.2⟩
        have : ∃ L' F, Grow L L' ∧ ∀ fuel ≥ F,
            walkUn g fuel (((g.v u).inn.filter (fun h => h ≠ 0 ∧ L h ≠ .un)).reverse ++ st) L = some L' := by
          cases e : ((g.v u).inn.filter (fun h => h ≠ 0 ∧ L h ≠ .un)).reverse with
          | nil =>
            rw [List.nil_append]
            exact ih L (fun x hx => hst x (by simp [hx])) hc
          | cons y ys =>
            rw [e] at hsub
            rw [List.cons_append]
            refine hot y (ys ++ st) L ?_ (hsub y (by simp)).2 hc
            intro x hx
            simp only [List.mem_cons, List.mem_append] at hx
            rcases hx with hx | hx | hx
            · exact (hsub x (by simp [hx])).1
            · exact (hsub x (by simp [hx])).1
            · exact hst x (by simp [hx])
        obtain ⟨L', F, hw, h⟩ := this
        refine ⟨L', F + 1, hw, ?_⟩
        intro fuel hf
        obtain ⟨n, rfl⟩ : ∃ n, fuel = n + 1 := ⟨fuel - 1, by omega⟩
        rw [walkUn]
        simp only [hset]
        exact h n (by omega)
      · exact hot u st L hst hu hc

theorem grow_count {n : Nat} {L L' : Nat → Mark} (h : Grow L L') :
    count n (fun v => L' v = .none) ≤ count n (fun v => L v = .none) := by
  refine count_le ?_
  intro v hv
  simp only [decide_eq_true_eq] at hv ⊢
  rcases h v with e | e
  · rw [← e]; exact hv
  · rw [e] at hv; cases hv

theorem parents_ends {g : Graph} (hg : Tidy g) (l : Nat) : ∀ hs st L, (∀ h ∈ hs, h < g.n) → (∀ h ∈ st, h < g.n) →
    ∃ st' L' F, (∀ fuel ≥ F, parents g fuel (.lab l) hs st L = some (st', L')) ∧ (∀ h ∈ st', h < g.n) ∧
      st'.length + count g.n (fun v => L' v = .none) ≤ st.length + count g.n (fun v => L v = .none) := by
  intro hs
  induction hs with
  | nil => intro st L _ hst; exact ⟨st, L, 0, fun _ _ => rfl, hst, Nat.le_refl _⟩
  | cons h hs ih =>
    intro st L hh hst
    have hh' : ∀ x ∈ hs, x < g.n := fun x hx => hh x (by simp [hx])
    by_cases h0 : h = 0
    · obtain ⟨st', L', F, r1, r2⟩ := ih st L hh' hst
      exact ⟨st', L', F, fun fuel hf => by rw [parents, if_pos h0]; exact r1 fuel hf, r2⟩
    by_cases hn : L h = .none
    · obtain ⟨st', L', F, r1, r2, r3⟩ := ih (h :: st) (set L h (.lab l)) hh' (by
        intro x hx
        rcases List.mem_cons.1 hx with rfl | hx
        · exact hh _ (by simp)
        · exact hst x hx)
      refine ⟨st', L', F, fun fuel hf => by rw [parents, if_neg h0, if_pos hn]; exact r1 fuel hf, r2, ?_⟩
      have : count g.n (fun v => set L h (.lab l) v = .none) < count g.n (fun v => L v = .none) := by
        refine count_lt ?_ (hh h (by simp)) (by simpa using hn) (by simp [set_same])
        intro v hv
        by_cases e : v = h
        · simp [e, set_same] at hv
        · simpa [set_other _ e] using hv
      simp only [List.length_cons] at r3
      omega
    by_cases hu : L h = .un
    · obtain ⟨st', L', F, r1, r2⟩ := ih st L hh' hst
      exact ⟨st', L', F, fun fuel hf => by rw [parents, if_neg h0, if_neg hn, if_pos hu]; exact r1 fuel hf, r2⟩
    by_cases hl : L h = .lab l
    · obtain ⟨st', L', F, r1, r2⟩ := ih st L hh' hst
      exact ⟨st', L', F, fun fuel hf => by rw [parents, if_neg h0, if_neg hn, if_neg hu, if_pos hl]; exact r1 fuel hf, r2⟩
    obtain ⟨L1, F1, w1, w2⟩ := walkUn_ends hg _ [h] L (by simpa using hh h (by simp)) (Nat.le_refl _)
    obtain ⟨st', L', F, r1, r2, r3⟩ := ih st L1 hh' hst
    refine ⟨st', L', max F F1, fun fuel hf => ?_, r2, ?_⟩
    · rw [parents, if_neg h0, if_neg hn, if_neg hu, if_neg hl, w2 fuel (by omega)]
      exact r1 fuel (by omega)
    · have := grow_count (n := g.n) w1
      omega

theorem walk_ends {g : Graph} (hg : Tidy g) (l : Nat) : ∀ c st L, (∀ h ∈ st, h < g.n) →
    st.length + count g.n (fun v => L v = .none) ≤ c →
    ∃ L' F, ∀ fuel ≥ F, walk g (.lab l) fuel st L = some L' := by
  intro c
  induction c with
  | zero =>
    intro st L _ h
    have : st = [] := List.length_eq_zero_iff.1 (by omega)
    subst this
    refine ⟨L, 1, ?_⟩
    intro fuel hf
    obtain ⟨n, rfl⟩ : ∃ n, fuel = n + 1 := ⟨fuel - 1, by omega⟩
    rfl
  | succ c ih =>
    intro st L hst hc
    cases st with
    | nil =>
      refine ⟨L, 1, ?_⟩
      intro fuel hf
      obtain ⟨n, rfl⟩ : ∃ n, fuel = n + 1 := ⟨fuel - 1, by omega⟩
      rfl
    | cons t st =>
      obtain ⟨st1, L1, F1, r1, r2, r3⟩ := parents_ends hg l (g.v t).inn st L (fun h hh => parent_lt hg hh)
        (fun h hh => hst h (by simp [hh]))
      simp only [List.length_cons] at hc
      obtain ⟨L', F, h⟩ := ih st1 L1 r2 (by omega)
      refine ⟨L', max F F1 + 1, ?_⟩
      intro fuel hf
      obtain ⟨n, rfl⟩ : ∃ n, fuel = n + 1 := ⟨fuel - 1, by omega⟩
      rw [walk, r1 n (by omega)]
      exact h n (by omega)

theorem propagate_ends {g : Graph} (hg : Tidy g) : ∀ ms L, Sound g L → UnUp g [] L →
    LabUp g (fun v => (g.v v).isMatch = true → v ∉ ms) [] L → (∀ m ∈ ms, m < g.n) →
    ∃ L' F, ∀ fuel ≥ F, propagate g fuel ms L = some L' := by
  intro ms
  induction ms with
  | nil => intro L _ _ _ _; exact ⟨L, 0, fun _ _ => rfl⟩
  | cons m ms ih =>
    intro L h1 h2 h3 hlt
    by_cases hm : (g.v m).isMatch = true
    · obtain ⟨l, hl, hL⟩ := h1.own m hm
      obtain ⟨L1, F1, w1⟩ := walk_ends hg l _ [m] L (by simpa using hlt m (by simp)) (Nat.le_refl _)
      have := walk_spec hg (P := fun v => (g.v v).isMatch = true → v ∉ ms) F1 [m] L L1 ⟨h1, h2, (by
          intro t k hp ht hst
          refine h3 t k (fun hmt => ?_) ht (by simp)
          simp at hst ⊢
          exact ⟨hst, hp hmt⟩), (by simp [hL])⟩
          (by simp; exact ⟨m, .refl m, hm, hl⟩) (w1 F1 (Nat.le_refl _))
      obtain ⟨L', F, h⟩ := ih L1 this.sound this.unUp this.labUp (fun x hx => hlt x (by simp [hx]))
      refine ⟨L', max F F1, ?_⟩
      intro fuel hf
      rw [propagate, if_pos hm, hL, w1 fuel (by omega)]
      exact h fuel (by omega)
    · obtain ⟨L', F, h⟩ := ih L h1 h2 (by
        intro t k hp ht
        refine h3 t k (fun hmt => ?_) ht
        have : t ≠ m := by rintro rfl; exact hm hmt
        simp [this, hp hmt]) (fun x hx => hlt x (by simp [hx]))
      exact ⟨L', F, fun fuel hf => by rw [propagate, if_neg hm]; exact h fuel hf⟩

theorem sweepOut_size {n : Nat} : ∀ ts st (s : Sweep), (∀ t ∈ ts, t < n) →
    (sweepOut ts st s).1.length + count n (fun v => !(sweepOut ts st s).2.visited v) ≤
      st.length + count n (fun v => !s.visited v) := by
  intro ts
  induction ts with
  | nil => intro st s _; exact Nat.le_refl _
  | cons t ts ih =>
    intro st s ht
    have ht' : ∀ x ∈ ts, x < n := fun x hx => ht x (by simp [hx])
    rw [sweepOut]
    by_cases hv : s.visited t = true
    · rw [if_pos hv]; exact ih st s ht'
    rw [if_neg hv]
    have hlt : count n (fun v => !(if v = t then true else s.visited v)) < count n (fun v => !s.visited v) := by
      refine count_lt ?_ (ht t (by simp)) (by simpa using hv) (by simp)
      intro v hv
      by_cases e : v = t
      · simp [e] at hv
      · simpa [e] using hv
    by_cases hu : s.L t = .un
    · simp only [hu, if_true]
      have := ih (t :: st) { s with L := set s.L t .none, visited := fun x => if x = t then true else s.visited x } ht'
      simp only [List.length_cons] at this
      omega
    · simp only [hu, if_false]
      have := ih st { s with heads := fun x => if x = t then true else s.heads x,
                             visited := fun x => if x = t then true else s.visited x } ht'
      simp only at this
      omega

theorem sweep_ends {g : Graph} (hg : Tidy g) : ∀ c st s, st.length + count g.n (fun v => !s.visited v) ≤ c →
    ∃ s' F, ∀ fuel ≥ F, sweep g fuel st s = some s' := by
  intro c
  induction c with
  | zero =>
    intro st s h
    have : st = [] := List.length_eq_zero_iff.1 (by omega)
    subst this
    refine ⟨s, 1, ?_⟩
    intro fuel hf
    obtain ⟨n, rfl⟩ : ∃ n, fuel = n + 1 := ⟨fuel - 1, by omega⟩
    rfl
  | succ c ih =>
    intro st s hc
    cases st with
    | nil =>
      refine ⟨s, 1, ?_⟩
      intro fuel hf
      obtain ⟨n, rfl⟩ : ∃ n, fuel = n + 1 := ⟨fuel - 1, by omega⟩
      rfl
    | cons x st =>
      have := sweepOut_size (n := g.n) (g.v x).out st s (fun t ht => (hg.range x t ht).2.2)
      simp only [List.length_cons] at hc
      obtain ⟨s', F, h⟩ := ih (sweepOut (g.v x).out st s).1 (sweepOut (g.v x).out st s).2 (by omega)
      refine ⟨s', F + 1, ?_⟩
      intro fuel hf
      obtain ⟨n, rfl⟩ : ∃ n, fuel = n + 1 := ⟨fuel - 1, by omega⟩
      rw [sweep]
      exact h n (by omega)

theorem clearOut_size {n : Nat} : ∀ ts st (s : Sweep), (∀ t ∈ ts, t < n) →
    (clearOut ts st s).1.length + count n (fun v => !(clearOut ts st s).2.visited v) ≤
      st.length + count n (fun v => !s.visited v) := by
  intro ts
  induction ts with
  | nil => intro st s _; exact Nat.le_refl _
  | cons t ts ih =>
    intro st s ht
    have ht' : ∀ x ∈ ts, x < n := fun x hx => ht x (by simp [hx])
    rw [clearOut]
    by_cases hv : s.visited t = true
    · rw [if_pos hv]; exact ih st s ht'
    rw [if_neg hv]
    have hlt : count n (fun v => !(if v = t then true else s.visited v)) < count n (fun v => !s.visited v) := by
      refine count_lt ?_ (ht t (by simp)) (by simpa using hv) (by simp)
      intro v hv
      by_cases e : v = t
      · simp [e] at hv
      · simpa [e] using hv
    have := ih (t :: st) { s with L := set s.L t .none, visited := fun x => if x = t then true else s.visited x } ht'
    simp only [List.length_cons] at this
    omega

theorem clear_ends {g : Graph} (hg : Tidy g) : ∀ c st s, st.length + count g.n (fun v => !s.visited v) ≤ c →
    ∃ s' F, ∀ fuel ≥ F, clear g fuel st s = some s' := by
  intro c
  induction c with
  | zero =>
    intro st s h
    have : st = [] := List.length_eq_zero_iff.1 (by omega)
    subst this
    refine ⟨s, 1, ?_⟩
    intro fuel hf
    obtain ⟨n, rfl⟩ : ∃ n, fuel = n + 1 := ⟨fuel - 1, by omega⟩
    rfl
  | succ c ih =>
    intro st s hc
    cases st with
    | nil =>
      refine ⟨s, 1, ?_⟩
      intro fuel hf
      obtain ⟨n, rfl⟩ : ∃ n, fuel = n + 1 := ⟨fuel - 1, by omega⟩
      rfl
    | cons x st =>
      have := clearOut_size (n := g.n) (g.v x).out st s (fun t ht => (hg.range x t ht).2.2)
      simp only [List.length_cons] at hc
      obtain ⟨s', F, h⟩ := ih (clearOut (g.v x).out st s).1 (clearOut (g.v x).out st s).2 (by omega)
      refine ⟨s', F + 1, ?_⟩
      intro fuel hf
      obtain ⟨n, rfl⟩ : ∃ n, fuel = n + 1 := ⟨fuel - 1, by omega⟩
      rw [clear]
      exact h n (by omega)

/-- Labelling ends. -/
theorem label_ends {g : Graph} (hg : Tidy g) : ∃ g' F, ∀ fuel ≥ F, labelGuardStates fuel g = some g' := by
  obtain ⟨L, F1, h1⟩ := propagate_ends hg (List.range g.n) (fun v => Mark.ofLabel (g.v v).label) (sound_init hg) (by
      intro t ht
      cases e : (g.v t).label <;> simp only [e] at ht <;> cases ht) (by
      intro t k hp ht
      have hm : (g.v t).isMatch = true := by
        rw [hg.labels]
        intro e
        simp only [e] at ht; cases ht
      exact (hp hm (List.mem_range.2 (hg.inside t hm))).elim) (fun m hm => List.mem_range.1 hm)
  obtain ⟨s, F2, h2⟩ := sweep_ends hg _ [0] { L, visited := fun x => x = 0, heads := fun _ => false } (Nat.le_refl _)
  obtain ⟨s', F3, h3⟩ := clear_ends hg _ ((List.range g.n).filter s.heads).reverse s (Nat.le_refl _)
  refine ⟨{ g with v := fun x => { g.v x with label := (s'.L x).toLabel } }, max F1 (max F2 F3), ?_⟩
  intro fuel hf
  rw [labelGuardStates, h1 fuel (by omega)]
  simp only [removeNonMinimal]
  rw [h2 fuel (by omega)]
  simp only
  rw [h3 fuel (by omega)]

end Verif.Label
