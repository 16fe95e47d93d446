import Verif.MatchGen
import Verif.Props.Bounded
/-!
# Sample matches

**C75**.  The samples of a set of patterns are strings that some pattern matches, whatever the
random numbers, and generating them ends.  This holds where the matches of the patterns are
bounded (`samples_match_partial`).  It fails otherwise: a walk that has to turn back visits the
state it turns back to a second time, and writes its byte a second time, so that a sample need
not be a match (`sample_no_match`) and a walk need not end (`samples_hang`); in all cases there
is a match inside every sample (`samples_contain_partial`).  A loop limit of 0 and an empty set
of patterns access an empty vector (`samples_no_loops`, `samples_no_patterns`).
-/
namespace Verif.MatchGen
open Verif.Nfa Verif.Regex Verif.NfaBuilder Verif.Optimizer Verif.Label Verif.Subset Verif.Fsm

/-! ## Bytes -/

theorem mem_addRange {s : BSet} {rs : List (Nat × Nat)} (hr : ∀ r ∈ rs, r.2 < 256) {b : UInt8} :
    b ∈ addRange s rs ↔ s.has b = true ∧ ∃ r ∈ rs, r.1 ≤ b.toNat ∧ b.toNat ≤ r.2 := by
  unfold addRange BSet.has
  simp only [List.mem_map, List.mem_filter, List.mem_flatMap, List.mem_range'_1]
  constructor
  · rintro ⟨n, ⟨⟨r, h1, h2, h3⟩, h4⟩, rfl⟩
    have := hr r h1
    have e : (UInt8.ofNat n).toNat = n := by
      rw [UInt8.toNat_ofNat']; exact Nat.mod_eq_of_lt (by omega)
    rw [e]
    exact ⟨h4, r, h1, h2, by omega⟩
  · rintro ⟨h1, r, h2, h3, h4⟩
    exact ⟨b.toNat, ⟨⟨r, h2, h3, by omega⟩, h1⟩, by simp⟩

theorem getElem_mod {α : Type} {l : List α} (h : l ≠ []) (n : Nat) : ∃ b, l[n % l.length]? = some b :=
  ⟨_, List.getElem?_eq_getElem (Nat.mod_lt _ (List.length_pos_of_ne_nil h))⟩

theorem choices_eq (rng : Rng) (k : Nat) (s : BSet) : ∃ k1 k2, choices rng k s =
    if (addRange s [(48, 57), (65, 90), (97, 122)]).isEmpty || coin rng k then
      if (addRange s [(48, 57), (65, 90), (97, 122)] ++ addRange s [(33, 47), (58, 64), (91, 96), (123, 126)]).isEmpty || coin rng k1
      then (addRange s [(48, 57), (65, 90), (97, 122)] ++ addRange s [(33, 47), (58, 64), (91, 96), (123, 126)] ++
        addRange s [(0, 32), (127, 255)], k2)
      else (addRange s [(48, 57), (65, 90), (97, 122)] ++ addRange s [(33, 47), (58, 64), (91, 96), (123, 126)], k2)
    else (addRange s [(48, 57), (65, 90), (97, 122)], k1) := ⟨_, _, rfl⟩

theorem choices_mem (rng : Rng) (k : Nat) (s : BSet) (b : UInt8) : b ∈ (choices rng k s).1 → s.has b = true := by
  have r0 : ∀ r ∈ [((48 : Nat), (57 : Nat)), (65, 90), (97, 122)], r.2 < 256 := by decide
  have r1 : ∀ r ∈ [((33 : Nat), (47 : Nat)), (58, 64), (91, 96), (123, 126)], r.2 < 256 := by decide
  have r2 : ∀ r ∈ [((0 : Nat), (32 : Nat)), (127, 255)], r.2 < 256 := by decide
  intro hb
  obtain ⟨k1, k2, e⟩ := choices_eq rng k s
  rw [e] at hb
  split at hb
  · split at hb
    · simp only [List.mem_append, mem_addRange r0, mem_addRange r1, mem_addRange r2] at hb
      tauto
    · simp only [List.mem_append, mem_addRange r0, mem_addRange r1] at hb
      tauto
  · exact ((mem_addRange r0).1 hb).1

theorem choices_ne {s : BSet} (hs : s ≠ 0) (rng : Rng) (k : Nat) : (choices rng k s).1 ≠ [] := by
  obtain ⟨b, hb⟩ := exists_byte hs
  have r0 : ∀ r ∈ [((48 : Nat), (57 : Nat)), (65, 90), (97, 122)], r.2 < 256 := by decide
  have r1 : ∀ r ∈ [((33 : Nat), (47 : Nat)), (58, 64), (91, 96), (123, 126)], r.2 < 256 := by decide
  have r2 : ∀ r ∈ [((0 : Nat), (32 : Nat)), (127, 255)], r.2 < 256 := by decide
  have h2 : b ∈ addRange s [(48, 57), (65, 90), (97, 122)] ++ addRange s [(33, 47), (58, 64), (91, 96), (123, 126)] ++
      addRange s [(0, 32), (127, 255)] := by
    simp only [List.mem_append, mem_addRange r0, mem_addRange r1, mem_addRange r2, hb, true_and, List.mem_cons,
      List.not_mem_nil, or_false, exists_eq_or_imp, exists_eq_left]
    have := b.toNat_lt
    omega
  obtain ⟨k1, k2, e⟩ := choices_eq rng k s
  rw [e]
  split
  · split
    · exact List.ne_nil_of_mem h2
    · rename_i h
      intro hc
      dsimp only at hc
      rw [hc] at h
      simp at h
  · rename_i h
    intro hc
    dsimp only at hc
    rw [hc] at h
    simp at h

/-- The byte chosen is allowed. -/
theorem chooseByte_has {rng : Rng} {k : Nat} {s : BSet} {b : UInt8} {k' : Nat} (h : chooseByte rng k s = some (b, k')) :
    s.has b = true := by
  unfold chooseByte at h
  simp only [Option.map_eq_some_iff, Prod.mk.injEq] at h
  obtain ⟨b', h1, rfl, -⟩ := h
  exact choices_mem rng k s _ (List.mem_of_getElem? h1)

/-- There is one, if any byte is allowed. -/
theorem chooseByte_some {s : BSet} (hs : s ≠ 0) (rng : Rng) (k : Nat) : ∃ r, chooseByte rng k s = some r := by
  unfold chooseByte
  obtain ⟨c, hc⟩ := getElem_mod (choices_ne hs rng k) (rng (choices rng k s).2)
  simp only [hc]
  exact ⟨_, rfl⟩

/-- What is written along a path: a byte of each state that has any. -/
inductive Written (g : Graph) : List Nat → List UInt8 → Prop
  | nil : Written g [] []
  | skip {v : Nat} {p : List Nat} {w : List UInt8} : (g.v v).bytes = 0 → Written g p w → Written g (v :: p) w
  | add {v : Nat} {p : List Nat} {b : UInt8} {w : List UInt8} : (g.v v).bytes ≠ 0 → (g.v v).bytes.has b = true →
      Written g p w → Written g (v :: p) (b :: w)

theorem written {g : Graph} {rng : Rng} : ∀ {p : List Nat} {k k' : Nat} {w : List UInt8},
    writeMatch g rng k p = some (w, k') → Written g p w
  | [], k, k', w, h => by cases h; exact .nil
  | v :: p, k, k', w, h => by
    rw [writeMatch] at h
    by_cases h0 : (g.v v).bytes = 0
    · rw [if_pos h0] at h; exact .skip h0 (written h)
    · rw [if_neg h0] at h
      cases hc : chooseByte rng k (g.v v).bytes with
      | none => rw [hc] at h; cases h
      | some r =>
        obtain ⟨b, k1⟩ := r
        rw [hc] at h
        simp only [Option.map_eq_some_iff, Prod.mk.injEq] at h
        obtain ⟨⟨w', k2⟩, h1, rfl, rfl⟩ := h
        exact .add h0 (chooseByte_has hc) (written h1)

theorem writes (g : Graph) (rng : Rng) : ∀ (p : List Nat) (k : Nat), ∃ r, writeMatch g rng k p = some r
  | [], k => ⟨_, rfl⟩
  | v :: p, k => by
    rw [writeMatch]
    by_cases h0 : (g.v v).bytes = 0
    · rw [if_pos h0]; exact writes g rng p k
    · rw [if_neg h0]
      obtain ⟨⟨b, k1⟩, hc⟩ := chooseByte_some h0 rng k
      obtain ⟨r, hr⟩ := writes g rng p k1
      rw [hc]
      exact ⟨_, by simp only [hr]; rfl⟩

theorem Written.snoc {g : Graph} : ∀ {p : List Nat} {v : Nat} {w : List UInt8}, Written g (p ++ [v]) w →
    ∃ w1, Written g p w1 ∧ (((g.v v).bytes = 0 ∧ w = w1) ∨ ∃ b, (g.v v).bytes.has b = true ∧ w = w1 ++ [b])
  | [], v, w, h => by
    cases h with
    | skip h0 h1 => cases h1; exact ⟨[], .nil, .inl ⟨h0, rfl⟩⟩
    | add h0 hb h1 => cases h1; exact ⟨[], .nil, .inr ⟨_, hb, rfl⟩⟩
  | x :: p, v, w, h => by
    cases h with
    | skip h0 h1 =>
      obtain ⟨w1, h2, h3⟩ := Written.snoc h1
      exact ⟨w1, .skip h0 h2, h3⟩
    | add h0 hb h1 =>
      obtain ⟨w1, h2, h3⟩ := Written.snoc h1
      refine ⟨_ :: w1, .add h0 hb h2, ?_⟩
      rcases h3 with ⟨h3, rfl⟩ | ⟨c, h3, rfl⟩
      · exact .inl ⟨h3, rfl⟩
      · exact .inr ⟨c, h3, rfl⟩

/-! ## Successors -/

theorem successor_spec {rng : Rng} {maxLoops : Nat} {seen : Nat → Nat} : ∀ (l : List Nat) (s c k : Nat),
    (∀ w ∈ l, seen w < maxLoops → (successor rng maxLoops seen l s c k).2.1 ≠ 0) ∧
    c ≤ (successor rng maxLoops seen l s c k).2.1 ∧
    (((successor rng maxLoops seen l s c k).2.1 = c ∧ (successor rng maxLoops seen l s c k).1 = s) ∨
      (c ≠ 0 ∧ (successor rng maxLoops seen l s c k).1 = s) ∨
      ((successor rng maxLoops seen l s c k).1 ∈ l ∧ seen (successor rng maxLoops seen l s c k).1 < maxLoops))
  | [], s, c, k => by simp [successor]
  | w :: ws, s, c, k => by
    by_cases h : seen w < maxLoops
    · rw [successor, if_pos h]
      have hs : (if (c == 0 || coin rng k) = true then w else s) = w ∨
          (c ≠ 0 ∧ (if (c == 0 || coin rng k) = true then w else s) = s) := by
        by_cases hc : (c == 0 || coin rng k) = true
        · exact .inl (if_pos hc)
        · refine .inr ⟨?_, if_neg hc⟩
          rintro rfl
          simp at hc
      generalize (if (c == 0 || coin rng k) = true then w else s) = s' at hs
      obtain ⟨h1, h2, h3⟩ := successor_spec (rng := rng) (maxLoops := maxLoops) (seen := seen) ws s' (c + 1) (k + 1)
      refine ⟨fun x hx hl => by omega, by omega, ?_⟩
      have h3 : (successor rng maxLoops seen ws s' (c + 1) (k + 1)).1 = s' ∨
          ((successor rng maxLoops seen ws s' (c + 1) (k + 1)).1 ∈ ws ∧
            seen (successor rng maxLoops seen ws s' (c + 1) (k + 1)).1 < maxLoops) := by
        tauto
      rcases h3 with h3 | ⟨h3, h4⟩
      · rw [h3]
        rcases hs with rfl | hs
        · exact .inr (.inr ⟨by simp, h⟩)
        · exact .inr (.inl hs)
      · exact .inr (.inr ⟨List.mem_cons_of_mem _ h3, h4⟩)
    · rw [successor, if_neg h]
      obtain ⟨h1, h2, h3⟩ := successor_spec ws s c k
      refine ⟨?_, h2, ?_⟩
      · intro x hx hl
        rcases List.mem_cons.1 hx with rfl | hx
        · exact absurd hl h
        · exact h1 x hx hl
      · rcases h3 with h3 | h3 | ⟨h3, h4⟩
        · exact .inl h3
        · exact .inr (.inl h3)
        · exact .inr (.inr ⟨List.mem_cons_of_mem _ h3, h4⟩)

theorem successor_mem {rng : Rng} {maxLoops : Nat} {seen : Nat → Nat} {l : List Nat} {k : Nat}
    (h : (successor rng maxLoops seen l 0 0 k).2.1 ≠ 0) : (successor rng maxLoops seen l 0 0 k).1 ∈ l := by
  obtain ⟨-, -, h3⟩ := successor_spec (rng := rng) (maxLoops := maxLoops) (seen := seen) l 0 0 k
  tauto

/-! ## All sets of patterns -/

/-- What is needed of the automaton. -/
structure Sampled (g : Graph) : Prop where
  pos : 0 < g.n
  root : (g.v 0).isMatch = false
  empty : (g.v 0).bytes = 0
  range : ∀ v, ∀ u ∈ (g.v v).out, v < g.n ∧ 0 < u ∧ u < g.n
  bytes : ∀ v < g.n, v ≠ 0 → (g.v v).bytes ≠ 0
  reach : ∀ v < g.n, Leads g 0 v
  live : ∀ v < g.n, v ≠ 0 → ∃ m, Leads g v m ∧ (g.v m).isMatch = true

/-- The paths: each state follows the one before it or repeats it. -/
inductive Stutter (g : Graph) : List Nat → Nat → Prop
  | root : Stutter g [0] 0
  | go {p : List Nat} {v u : Nat} : Stutter g p v → u ∈ (g.v v).out → Stutter g (p ++ [u]) u
  | again {p : List Nat} {v : Nat} : Stutter g p v → Stutter g (p ++ [v]) v

theorem Stutter.last {g : Graph} {p : List Nat} {v : Nat} (h : Stutter g p v) : p.getLast? = some v := by
  cases h <;> simp

theorem Stutter.back {g : Graph} {p : List Nat} {v v' : Nat} (h : Stutter g p v) (h' : p.dropLast.getLast? = some v') :
    Stutter g p.dropLast v' := by
  cases h with
  | root => simp at h'
  | go h1 _ =>
    rw [List.dropLast_concat] at h' ⊢
    rw [h1.last] at h'
    cases h'; exact h1
  | again h1 =>
    rw [List.dropLast_concat] at h' ⊢
    rw [h1.last] at h'
    cases h'; exact h1

theorem Stutter.reads {g : Graph} (hg : Sampled g) {p : List Nat} {v : Nat} (h : Stutter g p v) :
    ∀ w, Written g p w → ∃ w' : List UInt8, w'.Sublist w ∧ Nfa.Reads g w' v := by
  induction h with
  | root => intro w _; exact ⟨[], List.nil_sublist _, .init⟩
  | @go p v u _ hu ih =>
    intro w hw
    obtain ⟨w1, h1, h2⟩ := hw.snoc
    obtain ⟨w', h3, h4⟩ := ih w1 h1
    have hrg := hg.range _ _ hu
    rcases h2 with ⟨h0, -⟩ | ⟨b, hb, rfl⟩
    · exact absurd h0 (hg.bytes u hrg.2.2 (by omega))
    · exact ⟨w' ++ [b], h3.append (List.Sublist.refl _), h4.step hu hb⟩
  | again _ ih =>
    intro w hw
    obtain ⟨w1, h1, h2⟩ := hw.snoc
    obtain ⟨w', h3, h4⟩ := ih w1 h1
    rcases h2 with ⟨-, rfl⟩ | ⟨b, -, rfl⟩
    · exact ⟨w', h3, h4⟩
    · exact ⟨w', h3.trans (List.sublist_append_left _ _), h4⟩

/-- A match is in it, perhaps with other bytes between. -/
def Contains (g : Graph) (x : List UInt8) : Prop := ∃ w, w.Sublist x ∧ Matches g w

/-- Where a walk is about to visit a state. -/
def Ready (g : Graph) (v : Nat) (s : Walk) : Prop :=
  (s.path = [] ∧ v = 0) ∨ ∃ v0, Stutter g s.path v0 ∧ (v ∈ (g.v v0).out ∨ v = v0)

theorem Ready.push {g : Graph} {v : Nat} {s : Walk} (h : Ready g v s) : Stutter g (s.path ++ [v]) v := by
  rcases h with ⟨h, rfl⟩ | ⟨v0, h, h' | rfl⟩
  · rw [h]; exact .root
  · exact .go h h'
  · exact .again h

theorem move_ready {g : Graph} {rng : Rng} {maxLoops v : Nat} {s : Walk} (h : Stutter g s.path v) {v' : Nat} {s' : Walk}
    (hm : move g rng maxLoops v s = .visit v' s') : Ready g v' s' ∧ s'.found = s.found := by
  unfold move at hm
  simp only at hm
  split at hm
  · split at hm
    · cases hm
    · rename_i x hx
      cases hm
      exact ⟨.inr ⟨_, h.back hx, .inr rfl⟩, rfl⟩
  · rename_i hc
    cases hm
    exact ⟨.inr ⟨_, h, .inl (successor_mem hc)⟩, rfl⟩

theorem move_no_stop {g : Graph} {rng : Rng} {maxLoops v : Nat} {s s' : Walk} : move g rng maxLoops v s ≠ .stop s' := by
  unfold move
  simp only
  split
  · split <;> simp
  · simp

theorem visit_contains {g : Graph} (hg : Sampled g) {rng : Rng} {maxLoops v : Nat} {s : Walk} (h : Ready g v s)
    (hf : ∀ x ∈ s.found, Contains g x) :
    (∀ v' s', visit g rng maxLoops v s = .visit v' s' → Ready g v' s' ∧ ∀ x ∈ s'.found, Contains g x) ∧
    ∀ s', visit g rng maxLoops v s = .stop s' → ∀ x ∈ s'.found, Contains g x := by
  have hp := h.push
  unfold visit
  simp only
  by_cases hm : (g.v v).isMatch = true
  · rw [if_pos hm]
    cases hw : writeMatch g rng s.k (s.path ++ [v]) with
    | none => exact ⟨fun v' s' h => (by cases h), fun s' h => (by cases h)⟩
    | some r =>
      obtain ⟨w, k⟩ := r
      simp only
      obtain ⟨w', h1, h2⟩ := hp.reads hg w (written hw)
      have hc : Contains g w := ⟨w', h1, (matches_iff_reads hg.root w').2 ⟨v, h2, hm⟩⟩
      have hf' : ∀ x ∈ w :: s.found, Contains g x := by
        intro x hx
        rcases List.mem_cons.1 hx with rfl | hx
        · exact hc
        · exact hf x hx
      split
      · refine ⟨fun v' s' h => ?_, fun s' h => absurd h move_no_stop⟩
        obtain ⟨h3, h4⟩ := move_ready (by exact hp) h
        rw [h4]
        exact ⟨h3, hf'⟩
      · refine ⟨fun v' s' h => (by cases h), fun s' h => ?_⟩
        cases h; exact hf'
  · rw [if_neg hm]
    refine ⟨fun v' s' h => ?_, fun s' h => absurd h move_no_stop⟩
    obtain ⟨h3, h4⟩ := move_ready (by exact hp) h
    rw [h4]
    exact ⟨h3, hf⟩

theorem walk_contains {g : Graph} (hg : Sampled g) {rng : Rng} {maxLoops : Nat} : ∀ {fuel v : Nat} {s s' : Walk},
    Ready g v s → (∀ x ∈ s.found, Contains g x) → walk g rng maxLoops fuel v s = some (some s') → ∀ x ∈ s'.found, Contains g x
  | 0, v, s, s', _, _, h => by cases h
  | n + 1, v, s, s', hr, hf, h => by
    obtain ⟨h1, h2⟩ := visit_contains (rng := rng) (maxLoops := maxLoops) hg hr hf
    rw [walk] at h
    cases hv : visit g rng maxLoops v s with
    | ub => rw [hv] at h; cases h
    | stop s1 => rw [hv] at h; cases h; exact h2 _ hv
    | visit v1 s1 =>
      rw [hv] at h
      obtain ⟨h3, h4⟩ := h1 v1 s1 hv
      exact walk_contains hg h3 h4 h

theorem matchgen_contains {g : Graph} (hg : Sampled g) {rng : Rng} {maxLoops fuel : Nat} :
    ∀ {n : Nat} {found found' : List (List UInt8)} {k k' : Nat}, (∀ x ∈ found, Contains g x) →
      matchgen g rng maxLoops fuel n found k = some (some (found', k')) → ∀ x ∈ found', Contains g x
  | 0, found, found', k, k', hf, h => by cases h; exact hf
  | n + 1, found, found', k, k', hf, h => by
    rw [matchgen] at h
    split at h
    · cases h
    · cases h
    · rename_i s hs
      exact matchgen_contains hg (walk_contains hg (.inl ⟨rfl, rfl⟩) hf hs) h

/-! ## Without loops -/

/-- The automaton has no loop. -/
def Loopless (g : Graph) : Prop := ∀ t u, u ∈ (g.v t).out → ¬ Leads g u t

/-- The paths: each state follows the one before it. -/
inductive Way (g : Graph) : List Nat → Nat → Prop
  | root : Way g [0] 0
  | go {p : List Nat} {v u : Nat} : Way g p v → u ∈ (g.v v).out → Way g (p ++ [u]) u

theorem Way.leads {g : Graph} {p : List Nat} {v : Nat} (h : Way g p v) : ∀ x ∈ p, Leads g x v := by
  induction h with
  | root => intro x hx; rw [List.mem_singleton] at hx; subst hx; exact .refl _
  | go _ hu ih =>
    intro x hx
    rcases List.mem_append.1 hx with hx | hx
    · exact (ih x hx).snoc hu
    · rw [List.mem_singleton] at hx; subst hx; exact .refl _

theorem Way.nodup {g : Graph} (hg : Loopless g) {p : List Nat} {v : Nat} (h : Way g p v) : p.Nodup := by
  induction h with
  | root => simp
  | @go p v u h hu ih =>
    refine List.nodup_append.2 ⟨ih, by simp, ?_⟩
    intro x hx y hy
    rw [List.mem_singleton] at hy
    subst hy
    rintro rfl
    exact hg _ _ hu (h.leads _ hx)

theorem Way.short {g : Graph} (hg : Sampled g) (hl : Loopless g) {p : List Nat} {v : Nat} (h : Way g p v) : p.length ≤ g.n := by
  have hlt : ∀ x ∈ p, x < g.n := by
    induction h with
    | root => intro x hx; rw [List.mem_singleton] at hx; subst hx; exact hg.pos
    | go _ hu ih =>
      intro x hx
      rcases List.mem_append.1 hx with hx | hx
      · exact ih x hx
      · rw [List.mem_singleton] at hx; subst hx; exact (hg.range _ _ hu).2.2
  have := (h.nodup hl).subperm (l₂ := List.range g.n) (fun x hx => List.mem_range.2 (hlt x hx))
  simpa using this.length_le

theorem Way.reads {g : Graph} (hg : Sampled g) {p : List Nat} {v : Nat} (h : Way g p v) :
    ∀ w, Written g p w → Nfa.Reads g w v := by
  induction h with
  | root =>
    intro w hw
    cases hw with
    | skip _ h => cases h; exact .init
    | add h _ _ => exact absurd hg.empty h
  | go _ hu ih =>
    intro w hw
    obtain ⟨w1, h1, h2⟩ := hw.snoc
    have hrg := hg.range _ _ hu
    rcases h2 with ⟨h0, -⟩ | ⟨b, hb, rfl⟩
    · exact absurd h0 (hg.bytes _ hrg.2.2 (by omega))
    · exact (ih w1 h1).step hu hb

/-- Where a walk without turning back is about to visit a state. -/
def Going (g : Graph) (v : Nat) (s : Walk) : Prop := Way g (s.path ++ [v]) v ∧ ∀ x, x ∉ s.path → s.seen x = 0

theorem move_going {g : Graph} (hl : Loopless g) {rng : Rng} {maxLoops v : Nat} (h1 : 1 ≤ maxLoops) {s : Walk}
    (h : Way g s.path v) (hs : ∀ x, x ∉ s.path → s.seen x = 0) (hn : (g.v v).out ≠ []) :
    ∃ v' s', move g rng maxLoops v s = .visit v' s' ∧ Going g v' s' ∧ s'.found = s.found ∧ s'.path = s.path := by
  obtain ⟨u, hu⟩ := List.exists_mem_of_ne_nil _ hn
  have hlt : s.seen u < maxLoops := by
    rw [hs u (fun hx => hl _ _ hu (h.leads u hx))]; omega
  obtain ⟨h2, -⟩ := successor_spec (rng := rng) (maxLoops := maxLoops) (seen := s.seen) (g.v v).out 0 0 s.k
  have hc := h2 u hu hlt
  refine ⟨(successor rng maxLoops s.seen (g.v v).out 0 0 s.k).1,
    { s with k := (successor rng maxLoops s.seen (g.v v).out 0 0 s.k).2.2 }, ?_, ⟨Way.go h (successor_mem hc), hs⟩, rfl, rfl⟩
  unfold move
  simp only
  rw [if_neg hc]

/-- The strings that some pattern matches. -/
def Sample (g : Graph) (x : List UInt8) : Prop := Matches g x

theorem visit_sample {g : Graph} (hg : Sampled g) (hn : 2 ≤ g.n) (hl : Loopless g) {rng : Rng}
    {maxLoops v : Nat} (h1 : 1 ≤ maxLoops) {s : Walk} (h : Going g v s) (hf : ∀ x ∈ s.found, Sample g x) :
    (∃ s', visit g rng maxLoops v s = .stop s' ∧ (∀ x ∈ s'.found, Sample g x) ∧ s'.found ≠ []) ∨
    ∃ v' s', visit g rng maxLoops v s = .visit v' s' ∧ Going g v' s' ∧ (∀ x ∈ s'.found, Sample g x) ∧
      s'.path = s.path ++ [v] := by
  have hp := h.1
  have hseen : ∀ x, x ∉ s.path ++ [v] → (if x = v then s.seen x + 1 else s.seen x) = 0 := by
    intro x hx
    simp only [List.mem_append, List.mem_singleton, not_or] at hx
    rw [if_neg hx.2]; exact h.2 x hx.1
  unfold visit
  simp only
  by_cases hm : (g.v v).isMatch = true
  · rw [if_pos hm]
    obtain ⟨⟨w, k⟩, hw⟩ := writes g rng (s.path ++ [v]) s.k
    rw [hw]
    simp only
    have hr := hp.reads hg w (written hw)
    have hc : Sample g w := (matches_iff_reads hg.root w).2 ⟨v, hr, hm⟩
    have hf' : ∀ x ∈ w :: s.found, Sample g x := by
      intro x hx
      rcases List.mem_cons.1 hx with rfl | hx
      · exact hc
      · exact hf x hx
    split
    · rename_i he
      right
      have hne : (g.v v).out ≠ [] := by
        intro hc
        rw [hc] at he
        simp at he
      obtain ⟨v', s', h2, h3, h4, h5⟩ := move_going (rng := rng) (v := v) hl h1
        (s := { path := s.path ++ [v], seen := fun x => if x = v then s.seen x + 1 else s.seen x, found := w :: s.found, k := k + 1 })
        hp hseen hne
      exact ⟨v', s', h2, h3, by rw [h4]; exact hf', h5⟩
    · left
      exact ⟨_, rfl, hf', by simp⟩
  · rw [if_neg hm]
    right
    have hne : (g.v v).out ≠ [] := by
      by_cases hv : v = 0
      · have := hg.reach 1 (by omega)
        generalize hz : (0 : Nat) = z at this
        cases this with
        | refl => omega
        | step hu _ => rw [hv, hz]; exact List.ne_nil_of_mem hu
      · have hlt : v < g.n := by
          cases hpath : s.path with
          | nil =>
            rw [hpath] at hp
            generalize hq : ([] ++ [v] : List Nat) = q at hp
            cases hp with
            | root => exact hg.pos
            | go _ hu => exact (hg.range _ _ hu).2.2
          | cons a b =>
            generalize hq : (s.path ++ [v] : List Nat) = q at hp
            cases hp with
            | root => exact hg.pos
            | go _ hu => exact (hg.range _ _ hu).2.2
        obtain ⟨m, h2, h3⟩ := hg.live v hlt hv
        cases h2 with
        | refl => exact absurd h3 hm
        | step hu _ => exact List.ne_nil_of_mem hu
    obtain ⟨v', s', h2, h3, h4, h5⟩ := move_going (rng := rng) (v := v) hl h1
      (s := { path := s.path ++ [v], seen := fun x => if x = v then s.seen x + 1 else s.seen x, found := s.found, k := s.k })
      hp hseen hne
    exact ⟨v', s', h2, h3, by rw [h4]; exact hf, h5⟩

theorem walk_sample {g : Graph} (hg : Sampled g) (hn : 2 ≤ g.n) (hl : Loopless g) {rng : Rng}
    {maxLoops : Nat} (h1 : 1 ≤ maxLoops) : ∀ {fuel v : Nat} {s : Walk}, g.n + 1 ≤ fuel + s.path.length → Going g v s →
    (∀ x ∈ s.found, Sample g x) →
    ∃ s', walk g rng maxLoops fuel v s = some (some s') ∧ (∀ x ∈ s'.found, Sample g x) ∧ s'.found ≠ []
  | 0, v, s, hfu, hgo, hf => by
    have := hgo.1.short hg hl
    simp only [List.length_append, List.length_singleton] at this
    omega
  | n + 1, v, s, hfu, hgo, hf => by
    rw [walk]
    rcases visit_sample (rng := rng) hg hn hl h1 hgo hf with ⟨s', h2, h3, h4⟩ | ⟨v', s', h2, h3, h4, h5⟩
    · rw [h2]; exact ⟨s', rfl, h3, h4⟩
    · rw [h2]
      exact walk_sample hg hn hl h1 (by rw [h5]; simp; omega) h3 h4

theorem matchgen_sample {g : Graph} (hg : Sampled g) (hn : 2 ≤ g.n) (hl : Loopless g) {rng : Rng}
    {maxLoops : Nat} (h1 : 1 ≤ maxLoops) {fuel : Nat} (hfu : g.n + 1 ≤ fuel) : ∀ {n : Nat} {found : List (List UInt8)} {k : Nat},
    (∀ x ∈ found, Sample g x) →
    ∃ found' k', matchgen g rng maxLoops fuel n found k = some (some (found', k')) ∧ (∀ x ∈ found', Sample g x) ∧
      (n ≠ 0 ∨ found ≠ [] → found' ≠ [])
  | 0, found, k, hf => ⟨found, k, rfl, hf, by simp⟩
  | n + 1, found, k, hf => by
    obtain ⟨s', h2, h3, h4⟩ := walk_sample (rng := rng) hg hn hl h1 (fuel := fuel) (v := 0)
      (s := { path := [], seen := fun _ => 0, found, k }) (by simpa using hfu) ⟨.root, fun _ _ => rfl⟩ hf
    obtain ⟨f', k', h5, h6, h7⟩ := matchgen_sample hg hn hl h1 hfu (n := n) (k := s'.k) h3
    refine ⟨f', k', ?_, h6, fun _ => h7 (.inr h4)⟩
    rw [matchgen, h2]
    exact h5

/-! ## Sets of patterns -/

theorem add_root {g : Graph} (hg : Combined g) {label : Nat} {t : Tree Leaf} (ht : Sane t)
    {fuel : Nat} {g' : Graph} {o : Outcome} (h : addPattern fuel g label (some t) = some (g', o)) :
    (g'.v 0).bytes = (g.v 0).bytes := by
  unfold addPattern at h
  cases hbt : build label (some t) with
  | empty => rw [hbt] at h; cases h; rfl
  | threw => rw [hbt] at h; cases h; rfl
  | good p =>
    have hp := build_pattern label t ht.noLook ht.leaves p hbt
    rw [hbt] at h
    simp only [Option.bind_eq_bind, Option.bind_eq_some_iff, Option.some.injEq, Prod.mk.injEq] at h
    obtain ⟨p', h1, g'', h2, rfl, rfl⟩ := h
    have hp' := pruned_pattern hp (pruned_of_prune hp.bal h1)
    obtain ⟨vis, m, rfl, hm⟩ := merged_of_merge hg.base hp'.toFresh hp'.labelsMatch (fun v _ => hg.labels v) h2
    exact (hm.data 0 hg.pos).1

theorem add_all_root {fuel : Nat} : ∀ {ps : List (Nat × Tree Leaf)} {g g' : Graph}, Combined g → Patterns ps →
    (∀ p ∈ ps, Unused g p.1) → addAll fuel g (calls ps) = some g' → (g'.v 0).bytes = (g.v 0).bytes
  | [], g, g', _, _, _, h => by
    simp only [calls, List.map_nil, addAll, Option.some.injEq] at h
    subst h; rfl
  | p :: ps, g, g', hg, hp, hu, h => by
    obtain ⟨l, t⟩ := p
    simp only [calls, List.map_cons, addAll, Option.bind_eq_bind, Option.bind_eq_some_iff] at h
    obtain ⟨⟨g1, o⟩, h1, h2⟩ := h
    have hs := hp.sane (l, t) (by simp)
    have hd := hp.distinct
    rw [List.map_cons, List.nodup_cons] at hd
    have h1' : addAll fuel g (calls [(l, t)]) = some g1 := by
      simp only [calls, List.map_cons, List.map_nil, addAll, h1, Option.bind_eq_bind, Option.bind_some]
    obtain ⟨c1, c2, -, -⟩ := add_all hg (ps := [(l, t)]) ⟨by simp, by simpa using hs⟩ (by simpa using hu (l, t) (by simp)) h1'
    rw [add_all_root c1 ⟨hd.2, fun q hq => hp.sane q (by simp [hq])⟩ ?_ h2, add_root hg hs h1]
    intro q hq
    refine c2 q.1 (hu q (by simp [hq])) ?_
    simp only [List.map_cons, List.map_nil, List.mem_singleton]
    rintro rfl
    exact hd.1 (List.mem_map.2 ⟨q, hq, rfl⟩)

/-- Patterns with distinct labels are added to a new FSM, which is then finalized, with some
depth; see lg_app.cpp 46–90. -/
def Final (ps : List (Nat × Tree Leaf)) (g' : Graph) : Prop :=
  Patterns ps ∧ ∃ f1 f2 g det depth, addAll f1 Graph.init (calls ps) = some g ∧ finalizeGraph f2 det depth g = some (.ok g')

theorem leads_iff {g g' : Graph} (h : ∀ v, (g'.v v).out = (g.v v).out) {a b : Nat} : Leads g' a b ↔ Leads g a b := by
  constructor
  · intro hl
    induction hl with
    | refl => exact .refl _
    | step hu _ ih => exact .step (by rw [← h]; exact hu) ih
  · intro hl
    induction hl with
    | refl => exact .refl _
    | step hu _ ih => exact .step (by rw [h]; exact hu) ih

theorem final_facts {ps : List (Nat × Tree Leaf)} {g' : Graph} (h : Final ps g') :
    Sampled g' ∧ 2 ≤ g'.n ∧ (∀ w, Matches g' w → ∃ p ∈ ps, w ∈ lang leafSem p.2) ∧
      ∀ t u, u ∈ (g'.v t).out → Leads g' u t → ∀ n, ∃ w : List UInt8, n ≤ w.length ∧ Matches g' w := by
  obtain ⟨hp, f1, f2, g, det, depth, h1, h2⟩ := h
  obtain ⟨c1, -, c3, c4⟩ := add_all combined_init hp (fun p _ v => by simp [Graph.init]) h1
  have hr : (g.v 0).bytes = 0 := by
    rw [add_all_root combined_init hp (fun p _ v => by simp [Graph.init]) h1]; rfl
  have key : ∃ d, labelGuardStates f2 d = some g' ∧ Tidy d ∧ 2 ≤ d.n ∧ (∀ l w, Accepts d l w ↔ Accepts g l w) ∧
      (∀ v < d.n, v ≠ 0 → (d.v v).bytes ≠ 0) ∧ (d.v 0).bytes = 0 := by
    unfold finalizeGraph at h2
    split at h2
    · cases h2
    · next hn =>
      have hn : 2 ≤ g.n := by omega
      split at h2
      · split at h2
        · cases h2
        · next d e =>
          obtain ⟨g1, h3, h4⟩ := Option.map_eq_some_iff.1 h2
          cases h4
          obtain ⟨a, -, -, b, c, -⟩ := subset_shape c1 e
          obtain ⟨tab, s2d, hI, -⟩ := subset_inv c1.toTidy e
          exact ⟨d, h3, a, c hn, fun l w => subset_language c1.toTidy e l w, b, (hI.data _ _ hI.root).1⟩
      · obtain ⟨g1, h3, h4⟩ := Option.map_eq_some_iff.1 h2
        cases h4
        exact ⟨g, h3, c1.toTidy, hn, fun _ _ => Iff.rfl, c1.bytes, hr⟩
  obtain ⟨d, hlab, hT, hn, hacc, hb, h0⟩ := key
  obtain ⟨s1, s2⟩ := label_shape hlab
  have hL : ∀ {a b : Nat}, Leads g' a b ↔ Leads d a b := leads_iff fun v => (s2 v).1
  have hM : ∀ w, Matches g' w ↔ Matches d w := by
    have hR : ∀ w v, Nfa.Reads g' w v ↔ Nfa.Reads d w v := by
      intro w v
      constructor
      · intro h
        induction h with
        | init => exact .init
        | step _ hu hb ih => exact ih.step (by rw [← (s2 _).1]; exact hu) (by rw [← (s2 _).2.2.1]; exact hb)
      · intro h
        induction h with
        | init => exact .init
        | step _ hu hb ih => exact ih.step (by rw [(s2 _).1]; exact hu) (by rw [(s2 _).2.2.1]; exact hb)
    intro w
    rw [matches_iff_reads hT.root, matches_iff_reads (by rw [(s2 0).2.2.2]; exact hT.root)]
    simp only [hR, (s2 _).2.2.2]
  have hA : ∀ w, Matches d w ↔ ∃ l, Accepts d l w := by
    intro w
    constructor
    · intro h
      obtain ⟨v, h3, h4⟩ := (matches_iff_reads hT.root w).1 h
      obtain ⟨l, hl⟩ := Option.ne_none_iff_exists'.1 ((hT.labels v).1 h4)
      exact ⟨l, (accepts_iff_reads hT.root l w).2 ⟨v, h3, h4, hl⟩⟩
    · rintro ⟨l, u, h3, t, h4, h5, -⟩
      exact ⟨u, h3, t, h4, h5⟩
  refine ⟨⟨by omega, by rw [(s2 0).2.2.2]; exact hT.root, by rw [(s2 0).2.2.1]; exact h0, ?_, ?_, ?_, ?_⟩, by omega, ?_, ?_⟩
  · intro v u hu
    rw [(s2 v).1] at hu
    rw [s1]
    exact hT.range v u hu
  · intro v hv hv0
    rw [(s2 v).2.2.1]
    exact hb v (by omega) hv0
  · intro v hv
    exact hL.2 (hT.reach v (by omega))
  · intro v hv hv0
    obtain ⟨m, h3, h4⟩ := hT.live v (by omega) hv0
    exact ⟨m, hL.2 h3, by rw [(s2 m).2.2.2]; exact h4⟩
  · intro w hw
    obtain ⟨l, ha⟩ := (hA w).1 ((hM w).1 hw)
    have ha := (hacc l w).1 ha
    by_cases hl : l ∈ ps.map (·.1)
    · obtain ⟨⟨l', t⟩, hp, rfl⟩ := List.mem_map.1 hl
      exact ⟨_, hp, (c4 _ hp).1 w ha⟩
    · obtain ⟨u, hu, -⟩ := (c3 l hl w).1 ha
      simp [Graph.init] at hu
  · intro t u hu hl n
    rw [(s2 t).1] at hu
    obtain ⟨l, w, h3, h4⟩ := loop_unbounded hT hb hu (hL.1 hl) n
    exact ⟨w, h3, (hM w).2 ((hA w).2 ⟨l, h4⟩)⟩

/-- **C75**, proved part: samples are generated for patterns with bounded matches.  Whatever the
random numbers and the limits (but for a loop limit of 0), generating them ends without undefined
behaviour; each of them is matched by one of the patterns; and there is one if any was asked for.
Not true with unbounded matches, see `sample_no_match` and `samples_hang`. -/
theorem samples_match_partial {ps : List (Nat × Tree Leaf)} (hb : AllBounded ps) {g' : Graph} (h : Final ps g')
    {maxLoops : Nat} (h1 : 1 ≤ maxLoops) (n : Nat) (rng : Rng) :
    ∃ F, ∀ fuel ≥ F, ∃ samples k, matchgen g' rng maxLoops fuel n [] 0 = some (some (samples, k)) ∧
      (∀ x ∈ samples, ∃ p ∈ ps, x ∈ lang leafSem p.2) ∧ (n ≠ 0 → samples ≠ []) := by
  obtain ⟨c1, hn, c2, c3⟩ := final_facts h
  have hl : Loopless g' := by
    intro t u hu hlead
    obtain ⟨B, hB⟩ := hb.max
    obtain ⟨w, hw, ha⟩ := c3 t u hu hlead (B + 1)
    obtain ⟨t', h2, h3⟩ := c2 w ha
    have := hB _ h2 w h3
    omega
  refine ⟨g'.n + 1, fun fuel hf => ?_⟩
  obtain ⟨s, k, h2, h3, h4⟩ := matchgen_sample (rng := rng) c1 hn hl h1 hf (n := n) (found := []) (k := 0) (by simp)
  exact ⟨s, k, h2, fun x hx => c2 x (h3 x hx), fun hn => h4 (.inl hn)⟩

/-- **C75**, proved part for all patterns: in every sample there is a string matched by one of
the patterns, perhaps with other bytes between its bytes. -/
theorem samples_contain_partial {ps : List (Nat × Tree Leaf)} {g' : Graph} (h : Final ps g')
    {rng : Rng} {maxLoops fuel n : Nat} {samples : List (List UInt8)} {k : Nat}
    (hr : matchgen g' rng maxLoops fuel n [] 0 = some (some (samples, k))) :
    ∀ x ∈ samples, ∃ p ∈ ps, ∃ w ∈ lang leafSem p.2, w.Sublist x := by
  obtain ⟨c1, -, c2, -⟩ := final_facts h
  intro x hx
  obtain ⟨w, h1, h2⟩ := matchgen_contains c1 (by simp) hr x hx
  obtain ⟨p, h3, h4⟩ := c2 w h2
  exact ⟨p, h3, w, h4, h1⟩

/-! ## Where it fails -/

/-- A loop limit of 0 accesses an empty vector, whatever the patterns. -/
theorem samples_no_loops {g : Graph} (hr : (g.v 0).isMatch = false) (rng : Rng) (fuel n : Nat) (found : List (List UInt8)) (k : Nat) :
    matchgen g rng 0 (fuel + 1) (n + 1) found k = some none := by
  have hs : ∀ (seen : Nat → Nat) (l : List Nat) (s c k : Nat), successor rng 0 seen l s c k = (s, c, k) := by
    intro seen l
    induction l with
    | nil => intro s c k; rfl
    | cons w ws ih => intro s c k; rw [successor, if_neg (by omega)]; exact ih s c k
  simp [matchgen, walk, visit, move, hr, hs]

/-- So does generating samples for no patterns. -/
theorem samples_no_patterns (rng : Rng) (maxLoops fuel n : Nat) (found : List (List UInt8)) (k : Nat) :
    matchgen Graph.init rng maxLoops (fuel + 1) (n + 1) found k = some none := by
  simp [matchgen, walk, visit, move, Graph.init, successor]

/-- `(?:(?:x|y)a)+` -/
def xya : Tree Leaf := .rep true 1 UNB (.cat (.alt (.leaf (.lit [120])) (.leaf (.lit [121]))) (.leaf (.lit [97])))

/-- `(?:(?:x|yz)a)+` -/
def xyza : Tree Leaf :=
  .rep true 1 UNB (.cat (.alt (.leaf (.lit [120])) (.cat (.leaf (.lit [121])) (.leaf (.lit [122])))) (.leaf (.lit [97])))

theorem xya_even {w : List UInt8} (hw : w ∈ lang leafSem xya) : w.length % 2 = 0 := by
  have h1 : ∀ w ∈ lang leafSem (.cat (.alt (.leaf (.lit [120])) (.leaf (.lit [121]))) (.leaf (.lit [97]))), w.length = 2 := by
    rintro w ⟨a, ha, b, hb, rfl⟩
    have hb : b = [97] := hb
    rcases ha with ha | ha
    · have ha : a = [120] := ha
      subst ha; subst hb; rfl
    · have ha : a = [121] := ha
      subst ha; subst hb; rfl
  have h2 : ∀ k, ∀ w ∈ lang leafSem (.cat (.alt (.leaf (.lit [120])) (.leaf (.lit [121]))) (.leaf (.lit [97]))) ^ k, w.length % 2 = 0 := by
    intro k
    induction k with
    | zero => intro w hw; rw [pow_zero] at hw; have hw : w = [] := hw; subst hw; rfl
    | succ k ih =>
      intro w hw
      rw [pow_succ] at hw
      obtain ⟨a, ha, b, hb, rfl⟩ := hw
      have := ih a ha
      have := h1 b hb
      simp only [List.length_append]
      omega
  obtain ⟨k, -, -, hk⟩ := hw
  exact h2 k w hk

theorem xy_patterns : Patterns [(0, xya)] ∧ Patterns [(0, xyza)] := by
  refine ⟨⟨by decide, ?_⟩, ⟨by decide, ?_⟩⟩
  · intro p hp
    simp only [List.mem_cons, List.not_mem_nil, or_false] at hp
    subst hp
    exact ⟨by simp [xya, Ok, UNB], by simp [xya, NoLook], by simp [xya, NoDead, UNB], by simp [xya, LeavesOk, AllLeaves, LeafOk]⟩
  · intro p hp
    simp only [List.mem_cons, List.not_mem_nil, or_false] at hp
    subst hp
    exact ⟨by simp [xyza, Ok, UNB], by simp [xyza, NoLook], by simp [xyza, NoDead, UNB], by simp [xyza, LeavesOk, AllLeaves, LeafOk]⟩

/-- The automaton of one pattern, with the default depth. -/
def final (t : Tree Leaf) : Option Graph :=
  (addAll 40 Graph.init (calls [(0, t)])).bind fun g =>
    match finalizeGraph 40 false 4294967295 g with
    | some (.ok g') => some g'
    | _ => none

theorem final_final {t : Tree Leaf} (ht : Patterns [(0, t)]) {g' : Graph} (h : final t = some g') : Final [(0, t)] g' := by
  unfold final at h
  obtain ⟨g, h1, h2⟩ := Option.bind_eq_some_iff.1 h
  split at h2
  · rename_i g1 h3
    cases h2
    exact ⟨ht, 40, 40, g, false, 4294967295, h1, h3⟩
  · cases h2

/-- **C75** fails: `yaa` is a sample for `(?:(?:x|y)a)+` with the default loop limit of 1, and
the pattern does not match it. -/
theorem sample_no_match : ∃ g' rng samples k, Final [(0, xya)] g' ∧
    matchgen g' rng 1 20 1 [] 0 = some (some (samples, k)) ∧ ∃ x ∈ samples, x ∉ lang leafSem xya := by
  have h : (match final xya with
      | some g => match matchgen g (fun _ => 0) 1 20 1 [] 0 with
        | some (some (samples, _)) => decide ([121, 97, 97] ∈ samples)
        | _ => false
      | none => false) = true := by decide +kernel
  cases h1 : final xya with
  | none => rw [h1] at h; cases h
  | some g =>
    rw [h1] at h
    simp only at h
    cases h2 : matchgen g (fun _ => 0) 1 20 1 [] 0 with
    | none => rw [h2] at h; cases h
    | some r =>
      cases r with
      | none => rw [h2] at h; cases h
      | some r =>
        obtain ⟨samples, k⟩ := r
        rw [h2] at h
        refine ⟨g, _, samples, k, final_final xy_patterns.1 h1, h2, _, of_decide_eq_true h, fun hc => ?_⟩
        have := xya_even hc
        simp at this

/-- The state after some rounds. -/
def rounds (g : Graph) (rng : Rng) (maxLoops : Nat) : Nat → Nat → Walk → Option (Nat × Walk)
  | 0, v, s => some (v, s)
  | n + 1, v, s =>
    match visit g rng maxLoops v s with
    | .visit v s => rounds g rng maxLoops n v s
    | _ => none

theorem rounds_walk {g : Graph} {rng : Rng} {maxLoops : Nat} : ∀ {n v : Nat} {s : Walk} {r : Nat × Walk},
    rounds g rng maxLoops n v s = some r → (∀ m, walk g rng maxLoops m r.1 r.2 = none) → ∀ m, walk g rng maxLoops m v s = none
  | 0, v, s, r, h, hr, m => by cases h; exact hr m
  | n + 1, v, s, r, h, hr, 0 => rfl
  | n + 1, v, s, r, h, hr, m + 1 => by
    rw [rounds] at h
    rw [walk]
    cases hv : visit g rng maxLoops v s with
    | ub => rw [hv] at h; cases h
    | stop s' => rw [hv] at h; cases h
    | visit v' s' => rw [hv] at h; exact rounds_walk h hr m

/-- Turning back to a state whose only successor was visited before, again and again. -/
theorem stuck {g : Graph} {y z : Nat} (hm : (g.v y).isMatch = false) (ho : (g.v y).out = [z]) (hz : z ≠ y) (rng : Rng) :
    ∀ (m : Nat) (s : Walk), s.path.getLast? = some y → 1 ≤ s.seen z → walk g rng 1 m y s = none
  | 0, s, _, _ => rfl
  | m + 1, s, hp, hs => by
    have hv : visit g rng 1 y s = .visit y { s with seen := fun x => if x = y then s.seen x + 1 else s.seen x } := by
      unfold visit
      simp only
      rw [if_neg (by rw [hm]; simp)]
      unfold move
      simp only [ho]
      have hsu : successor rng 1 (fun x => if x = y then s.seen x + 1 else s.seen x) [z] 0 0 s.k = (0, 0, s.k) := by
        rw [successor, if_neg]
        · rfl
        · simp only [if_neg hz]; omega
      rw [hsu]
      simp only [List.dropLast_concat, hp, if_true]
    rw [walk, hv]
    refine stuck hm ho hz rng m _ hp ?_
    simp only [if_neg hz]
    exact hs

/-- **C75** fails: with some random numbers, generating a sample for `(?:(?:x|yz)a)+` with the
default loop limit of 1 never ends. -/
theorem samples_hang : ∃ g' rng, Final [(0, xyza)] g' ∧ ∀ fuel, matchgen g' rng 1 fuel 1 [] 0 = none := by
  have h : (match final xyza with
      | some g => 
        match rounds g (fun k => if k = 1 then 1 else 0) 1 5 0 { path := [], seen := fun _ => 0, found := [], k := 0 } with
        | some (v, s) => match (g.v v).out with
          | [z] => !(g.v v).isMatch && decide (z ≠ v) && decide (s.path.getLast? = some v) && decide (1 ≤ s.seen z)
          | _ => false
        | _ => false
      | none => false) = true := by decide +kernel
  cases h1 : final xyza with
  | none => rw [h1] at h; cases h
  | some g =>
    rw [h1] at h
    simp only at h
    refine ⟨g, fun k => if k = 1 then 1 else 0, final_final xy_patterns.2 h1, fun fuel => ?_⟩
    cases h5 : rounds g (fun k => if k = 1 then 1 else 0) 1 5 0 { path := [], seen := fun _ => 0, found := [], k := 0 } with
    | none => rw [h5] at h; cases h
    | some r =>
      obtain ⟨v, s⟩ := r
      rw [h5] at h
      simp only at h
      split at h
      · rename_i z hz
        simp only [Bool.and_eq_true, Bool.not_eq_true', decide_eq_true_eq] at h
        obtain ⟨⟨⟨h2, h3⟩, h6⟩, h7⟩ := h
        rw [matchgen, rounds_walk h5 (fun m => stuck h2 hz h3 _ m s h6 h7) fuel]
      · cases h

/-! ## Examples -/

/-- The hypotheses of `samples_match_partial` hold for `a(?:b|c|d|e)f`, and these are two of its
samples. -/
example : ∃ g', Final [(0, tabled)] g' ∧ AllBounded [(0, tabled)] ∧ ∃ k,
    matchgen g' (fun k => if k = 4 then 1 else 0) 1 20 2 [] 0 = some (some ([[97, 101, 102], [97, 100, 102]], k)) := by
  have h : (match final tabled with
      | some g => match matchgen g (fun k => if k = 4 then 1 else 0) 1 20 2 [] 0 with
        | some (some (samples, _)) => decide (samples = [[97, 101, 102], [97, 100, 102]])
        | _ => false
      | none => false) = true := by decide +kernel
  cases h1 : final tabled with
  | none => rw [h1] at h; cases h
  | some g =>
    rw [h1] at h
    simp only at h
    split at h
    · rename_i samples k h2
      exact ⟨g, final_final tabled_patterns h1, AllBounded.noUnb (by simp [tabled, NoUnb]), k, by rw [h2, of_decide_eq_true h]⟩
    · cases h

end Verif.MatchGen
