import Verif.VmOrder
import Mathlib.Data.List.Forall2
/-!
# The VM reports the preferred matches

Each thread is given, in the proof only, the list of fork decisions that lead to it (its
key).  Threads are kept in the order of their starts and keys, and the threads following
the matches still to be reported are never lost.
-/
namespace Verif.Vm

/-- The static facts about a program used here, besides those used for safety: a label is
never changed, a check is always reached with the same label, and a check has one rank. -/
structure Ordered (P : Program) (S F : Nat → Prop) (K : Nat → Option Nat → Nat → Prop) (B : Nat) : Prop where
  guarded : Guarded P S
  finishing : Finishing P S F
  bounded : Bounded P K B
  label1 : ∀ {w k pc lab i}, Run P w k pc lab → opAt P pc = some (.label i) →
    lab = none ∨ lab = some i
  check1 : ∀ {w k pc lab w' k' pc' lab' i}, Run P w k pc lab → Run P w' k' pc' lab' →
    opAt P pc = some (.checkHalt i) → opAt P pc' = some (.checkHalt i) → pc = pc' ∧ lab = lab'
  rank1 : ∀ {pc lab m m' i}, K pc lab m → K pc lab m' → opAt P pc = some (.checkHalt i) → m = m'

section
variable {P : Program} {S F : Nat → Prop} {K : Nat → Option Nat → Nat → Prop} {B : Nat}
variable {data : Nat → UInt8} {lo N : Nat}

/-- A label once set stays. -/
theorem acc_label_rel (O : Ordered P S F K B) {l pc : Nat} {lab w k} (h : AccFrom P l pc lab w k) :
    ∀ {w0 k0}, Run P w0 k0 pc lab → lab = none ∨ lab = some l := by
  induction h with
  | finish ho => intro _ _ _; exact Or.inr rfl
  | fork1 ho _ ih => intro _ _ hr; exact ih (hr.fork1 ho)
  | fork2 ho ha _ ih => intro _ _ hr; exact ih (hr.fork2 ho ha)
  | jump ho ha _ ih => intro _ _ hr; exact ih (hr.jump ho ha)
  | check ho _ ih => intro _ _ hr; exact ih (hr.check ho)
  | label ho _ ih =>
    intro _ _ hr
    rcases O.label1 hr ho with h | h
    · exact Or.inl h
    · rw [h]; exact ih (hr.label ho)
  | «match» ho _ ih => intro _ _ hr; exact ih (hr.match ho)
  | byte hc _ ih => intro _ _ hr; exact ih (hr.byte hc)

theorem run_safe (hB : Bounded P K B) {w k pc lab} (h : Run P w k pc lab) : ∃ m ≤ B, K pc lab m := by
  induction h with
  | init => exact hB.init
  | fork1 _ ho ih =>
    obtain ⟨m, hm, hk⟩ := ih
    obtain ⟨⟨m1, h1, k1⟩, -⟩ := hB.fork hk ho
    exact ⟨m1, by omega, k1⟩
  | fork2 _ ho ha ih =>
    obtain ⟨m, hm, hk⟩ := ih
    obtain ⟨-, b, hb, m1, h1, k1⟩ := hB.fork hk ho
    rw [ha] at hb
    cases hb
    exact ⟨m1, by omega, k1⟩
  | jump _ ho ha ih =>
    obtain ⟨m, hm, hk⟩ := ih
    obtain ⟨b, hb, m1, h1, k1⟩ := hB.jump hk ho
    rw [ha] at hb
    cases hb
    exact ⟨m1, by omega, k1⟩
  | check _ ho ih =>
    obtain ⟨m, hm, hk⟩ := ih
    obtain ⟨-, m1, h1, k1⟩ := hB.check hk ho
    exact ⟨m1, by omega, k1⟩
  | label _ ho ih =>
    obtain ⟨m, hm, hk⟩ := ih
    obtain ⟨-, m1, h1, k1⟩ := hB.label hk ho
    exact ⟨m1, by omega, k1⟩
  | «match» _ ho ih =>
    obtain ⟨m, hm, hk⟩ := ih
    obtain ⟨-, m1, h1, k1⟩ := hB.mtch hk ho
    exact ⟨m1, by omega, k1⟩
  | @byte w k pc lab b pc' _ hc ih =>
    obtain ⟨m, hm, hk⟩ := ih
    obtain ⟨r, hx, hr⟩ := hB.exec (t := ⟨pc, 0, none, lab, false⟩) hk hm b
    rw [exec_cons (th := ⟨pc, 0, none, lab, false⟩) hc] at hx
    cases hx
    exact hr _ rfl

/-- A thread with its key. -/
abbrev GT := Thread × List Bool

/-- Place of a thread in the order. -/
def key (x : GT) : Nat × List Bool := (x.1.start, x.2)

/-- A thread at rest when the bytes before `i` have been read: stopped, about to read a
byte, or waiting with a match. -/
structure Rest (P : Program) (S : Nat → Prop) (data : Nat → UInt8) (lo i : Nat) (x : GT) : Prop where
  lo : lo ≤ x.1.start
  hi : x.1.start ≤ i
  ends : ∀ j, x.1.end = some j → j < i
  run : opAt P x.1.pc = some .halt ∨
    (S x.1.pc ∧ Run P (seg data x.1.start i) x.2 x.1.pc x.1.label) ∨
    (opAt P x.1.pc = some .finish ∧ ∃ j, x.1.end = some j ∧ x.1.start ≤ j ∧ j < i ∧
      Run P (seg data x.1.start (j + 1)) x.2 x.1.pc x.1.label)

/-- The thread following a match is in the list. -/
def Champ (P : Program) (data : Nat → UInt8) (L : List GT) (i l s : Nat) (κ : List Bool) (e : Nat) : Prop :=
  ∃ x ∈ L, x.1.start = s ∧ ∃ k', κ = x.2 ++ k' ∧
    ((e ≤ i ∧ k' = [] ∧ opAt P x.1.pc = some .finish ∧ x.1.label = some l ∧ x.1.end = some (e - 1)) ∨
     (i < e ∧ ∃ pc', Cons P (data i) x.1.pc pc' ∧ AccFrom P l pc' x.1.label (seg data (i + 1) e) k'))

/-- Where a check was locked. -/
structure Rec where
  s : Nat
  k : List Bool
  pc : Nat
  lab : Option Nat

/-- The end of the last hit of a keyword. -/
abbrev me (σ : St) (l m : Nat) : Prop := σ.matchEnds[l]? = some m

/-- No match still to be reported comes to a locked check later. -/
def Lock (P : Program) (data : Nat → UInt8) (lo N off : Nat) (σ : St) (c : Nat) (r : Rec) : Prop :=
  opAt P r.pc = some (.checkHalt c) ∧ (∃ w, Run P w r.k r.pc r.lab) ∧
  ∀ l m s κ e, me σ l m → Mem P data lo N l m s κ e → s ≤ off → ∀ κ' k', κ = κ' ++ k' → off + 1 ≤ e →
    AccFrom P l r.pc r.lab (seg data (off + 1) e) k' → ¬ Lt (r.s, r.k) (s, κ')

/-- The hits of a keyword. -/
def hitsOf (l : Nat) (log : List Hit) : List (Nat × Nat) :=
  (log.filter (fun h => h.label == l)).map (fun h => (h.start, h.end))

/-- Hits reported so far. -/
inductive Chain (P : Program) (data : Nat → UInt8) (lo N l : Nat) : List (Nat × Nat) → Nat → Prop
  | nil : Chain P data lo N l [] 0
  | snoc {hs m s κ e} : Chain P data lo N l hs m → IsBest P data lo N l m s κ e → Chain P data lo N l (hs ++ [(s, e)]) e

theorem chain_greedy {l hs m} (h : Chain P data lo N l hs m) : ∀ {hs'}, Greedy P data lo N l m hs' →
    Greedy P data lo N l 0 (hs ++ hs') := by
  induction h with
  | nil => intro hs' h; exact h
  | snoc _ hb ih =>
    intro hs' h
    have := ih (.hit hb h)
    simpa using this

/-- Invariant while a thread of the frame at `off` runs: `C` is the part of the order
already done, `An` the locks the running thread took itself, `(s, k0)` the place of the
running thread before the byte. -/
structure FI (P : Program) (S : Nat → Prop) (data : Nat → UInt8) (lo N off top : Nat) (σ : St) (LA LN : List GT)
    (C : Nat × List Bool → Prop) (An : Rec → Prop) (s : Nat) (k0 : List Bool) : Prop where
  act : σ.active = LA.map Prod.fst
  nxt : σ.next = LN.map Prod.fst
  sortN : (LN.map key).Pairwise Lt
  cutN : ∀ x ∈ LN, C (key x)
  sortA : (LA.map key).Pairwise Lt
  afterA : ∀ p ∈ LA.map key, Lt (s, k0) p
  restA : ∀ x ∈ LA, Rest P S data lo off x
  restN : ∀ x ∈ LN, Rest P S data lo (off + 1) x
  live : ∀ t ∈ σ.next, (t.label = none → σ.liveNone = true) ∧ ∀ l, t.label = some l → l ∈ σ.live
  max : ∀ l m, me σ l m → m ≤ σ.matchEndsMax
  locks : ∀ c ∈ σ.checks, ∃ r, Lock P data lo N off σ c r ∧ r.s < top ∧ (C (r.s, r.k) ∨ An r)
  memN : ∀ l m s κ e, me σ l m → Mem P data lo N l m s κ e → s < top → C (s, κ) → Champ P data LN (off + 1) l s κ e
  memA : ∀ l m s' κ e, me σ l m → Mem P data lo N l m s' κ e → s' < top → Lt (s, k0) (s', κ) → Champ P data LA off l s' κ e
  log : ∀ l m, me σ l m → Chain P data lo N l (hitsOf l σ.log) m
  topA : ∀ p ∈ LA.map key, p.1 < top
  topN : ∀ x ∈ LN, x.1.start < top

/-- What comes before a place. -/
def Bef (s : Nat) (k : List Bool) (x : Nat × List Bool) : Prop := Lt x (s, k)
/-- What comes before or extends a place. -/
def Aft (s : Nat) (k : List Bool) (x : Nat × List Bool) : Prop := Lt x (s, k) ∨ (x.1 = s ∧ k <+: x.2)

/-- The running thread. -/
structure TC (P : Program) (S F : Nat → Prop) (K : Nat → Option Nat → Nat → Prop) (data : Nat → UInt8)
    (lo N off top : Nat) (σ : St) (An : Rec → Prop) (t : Thread) (s : Nat) (k0 k : List Bool) (m : Nat) : Prop where
  st : t.start = s
  low : lo ≤ s
  hi : s < top
  run : Run P (seg data s (off + 1)) k t.pc t.label
  pc : S t.pc ∨ (F t.pc ∧ t.end = some off)
  ends : ∀ j, t.end = some j → j ≤ off
  rank : K t.pc t.label m
  anc : ∀ r, An r → ∀ m', K r.pc r.lab m' → m < m'
  pre : k0 <+: k
  thru : ∀ l m κ e, me σ l m → Mem P data lo N l m s κ e → ∀ k', κ = k ++ k' →
    off + 1 ≤ e ∧ AccFrom P l t.pc t.label (seg data (off + 1) e) k'
  dead : ∀ l m, t.label = some l → me σ l m → m ≤ s ∨ off + 1 ≤ m
  lead : t.end = some off → t.lead = true → t.label ≠ none ∧ ∀ l m s' κ e, t.label = some l → me σ l m →
    Mem P data lo N l m s' κ e → s' < top → Lt (s', κ) (s, k) → off < e

/-- Matches still to be reported only become fewer; within the frame an end only moves
past the frame. -/
def Shr (P : Program) (data : Nat → UInt8) (lo N off : Nat) (σ σ' : St) : Prop :=
  ∀ l m', me σ' l m' → ∃ m, me σ l m ∧ (m' = m ∨ off + 1 ≤ m') ∧
    ∀ s κ e, Mem P data lo N l m' s κ e → Mem P data lo N l m s κ e

theorem shr_refl {off : Nat} (σ : St) : Shr P data lo N off σ σ := fun _ m h => ⟨m, h, Or.inl rfl, fun _ _ _ h => h⟩

theorem shr_of_eq {off : Nat} {σ σ' : St} (h : σ'.matchEnds = σ.matchEnds) : Shr P data lo N off σ σ' :=
  fun l m hm => ⟨m, by unfold me at hm ⊢; rw [← h]; exact hm, Or.inl rfl, fun _ _ _ h => h⟩

theorem shr_trans {off : Nat} {σ σ' σ'' : St} (h1 : Shr P data lo N off σ σ') (h2 : Shr P data lo N off σ' σ'') :
    Shr P data lo N off σ σ'' := by
  intro l m h
  obtain ⟨m', hm', h3, h4⟩ := h2 l m h
  obtain ⟨m'', hm'', h5, h6⟩ := h1 l m' hm'
  refine ⟨m'', hm'', ?_, fun s κ e hh => h6 s κ e (h4 s κ e hh)⟩
  rcases h3 with rfl | h3
  · exact h5
  · exact Or.inr h3

variable {off top : Nat} {s : Nat} {k0 : List Bool}

theorem FI.recut {σ : St} {LA LN : List GT} {C C' : Nat × List Bool → Prop} {An An' : Rec → Prop}
    (h : FI P S data lo N off top σ LA LN C An s k0) (h1 : ∀ x, C x → C' x)
    (h2 : ∀ l m s κ e, me σ l m → Mem P data lo N l m s κ e → C' (s, κ) → C (s, κ))
    (h3 : ∀ r, An r → C' (r.s, r.k) ∨ An' r) : FI P S data lo N off top σ LA LN C' An' s k0 :=
  { h with
    cutN := fun x hx => h1 _ (h.cutN x hx)
    locks := fun c hc => by
      obtain ⟨r, a, b, d⟩ := h.locks c hc
      refine ⟨r, a, b, ?_⟩
      rcases d with d | d
      · exact Or.inl (h1 _ d)
      · exact h3 r d
    memN := fun l m s κ e a b c d => h.memN l m s κ e a b c (h2 l m s κ e a b d) }

/-- A thread ends. -/
theorem FI.drop {σ : St} {LA LN : List GT} {An : Rec → Prop} {k : List Bool}
    (h : FI P S data lo N off top σ LA LN (Bef s k) An s k0)
    (hm : ∀ l m κ e, me σ l m → Mem P data lo N l m s κ e → k <+: κ → False) :
    FI P S data lo N off top σ LA LN (Aft s k) An s k0 := by
  refine h.recut (fun x hx => Or.inl hx) ?_ (fun r hr => Or.inr hr)
  rintro l m s' κ e h1 h2 (h3 | ⟨rfl, h3⟩)
  · exact h3
  · exact (hm l m κ e h1 h2 h3).elim

theorem champ_append {L L' : List GT} {i l s κ e} (h : Champ P data L i l s κ e) : Champ P data (L ++ L') i l s κ e := by
  obtain ⟨x, hx, hh⟩ := h
  exact ⟨x, List.mem_append_left _ hx, hh⟩

/-- A thread comes to rest. -/
theorem FI.push {σ σ' : St} {LA LN : List GT} {An : Rec → Prop} {k : List Bool} {t : Thread}
    (h : FI P S data lo N off top σ LA LN (Bef s k) An s k0) (hp : pushLive t σ = .ok σ') (ht : t.start = s) (hst : s < top)
    (hr : Rest P S data lo (off + 1) (t, k))
    (hm : ∀ l m κ e, me σ l m → Mem P data lo N l m s κ e → k <+: κ → Champ P data [(t, k)] (off + 1) l s κ e) :
    FI P S data lo N off top σ' LA (LN ++ [(t, k)]) (Aft s k) An s k0 ∧ Shr P data lo N off σ σ' := by
  have hσ : σ'.active = σ.active ∧ σ'.next = σ.next ++ [t] ∧ σ'.checks = σ.checks ∧ σ'.matchEnds = σ.matchEnds ∧
      σ'.matchEndsMax = σ.matchEndsMax ∧ σ'.log = σ.log ∧ (σ.liveNone = true → σ'.liveNone = true) ∧
      (∀ l ∈ σ.live, l ∈ σ'.live) ∧ (t.label = none → σ'.liveNone = true) ∧ ∀ l, t.label = some l → l ∈ σ'.live := by
    unfold pushLive at hp
    cases hl : t.label with
    | none =>
      rw [hl] at hp
      cases hp
      simp
    | some l =>
      rw [hl] at hp
      dsimp only at hp
      split at hp
      · cases hp
        refine ⟨rfl, rfl, rfl, rfl, rfl, rfl, id, ?_, by simp, ?_⟩
        · intro a ha
          dsimp only
          split
          · exact ha
          · exact List.mem_cons_of_mem _ ha
        · intro a ha
          cases ha
          dsimp only
          split
          · next hc => simpa using hc
          · simp
      · cases hp
  obtain ⟨e1, e2, e3, e4, e5, e6, e7, e8, e9, e10⟩ := hσ
  have em : ∀ l m, me σ' l m ↔ me σ l m := by intro l m; unfold me; rw [e4]
  refine ⟨⟨by rw [e1]; exact h.act, by rw [e2, h.nxt]; simp, ?_, ?_, h.sortA, h.afterA, h.restA, ?_, ?_, ?_, ?_, ?_, ?_,
    ?_, h.topA, ?_⟩, shr_of_eq e4⟩
  · rw [List.map_append, List.pairwise_append]
    refine ⟨h.sortN, by simp, ?_⟩
    intro a ha b hb
    obtain ⟨x, hx, rfl⟩ := List.mem_map.1 ha
    simp only [List.map_cons, List.map_nil, List.mem_singleton] at hb
    subst hb
    have := h.cutN x hx
    unfold key Bef at *
    rw [ht]
    exact this
  · intro x hx
    rcases List.mem_append.1 hx with hx | hx
    · exact Or.inl (h.cutN x hx)
    · rw [List.mem_singleton.1 hx]
      exact Or.inr ⟨ht, List.prefix_refl _⟩
  · intro x hx
    rcases List.mem_append.1 hx with hx | hx
    · exact h.restN x hx
    · rw [List.mem_singleton.1 hx]
      exact hr
  · intro u hu
    rw [e2] at hu
    rcases List.mem_append.1 hu with hu | hu
    · obtain ⟨a, b⟩ := h.live u hu
      exact ⟨fun hl => e7 (a hl), fun l hl => e8 l (b l hl)⟩
    · rw [List.mem_singleton.1 hu]
      exact ⟨e9, e10⟩
  · intro l m hm
    rw [e5]
    exact h.max l m ((em l m).1 hm)
  · intro c hc
    rw [e3] at hc
    obtain ⟨r, ⟨a1, a2, a3⟩, b, d⟩ := h.locks c hc
    refine ⟨r, ⟨a1, a2, fun l m s κ e hh => a3 l m s κ e ((em l m).1 hh)⟩, b, ?_⟩
    rcases d with d | d
    · exact Or.inl (Or.inl d)
    · exact Or.inr d
  · rintro l m s' κ e h1 h2 h3 (h4 | ⟨rfl, h4⟩)
    · exact champ_append (h.memN l m s' κ e ((em l m).1 h1) h2 h3 h4)
    · obtain ⟨x, hx, hh⟩ := hm l m κ e ((em l m).1 h1) h2 h4
      exact ⟨x, List.mem_append_right _ hx, hh⟩
  · intro l m s' κ e h1
    exact h.memA l m s' κ e ((em l m).1 h1)
  · intro l m h1
    rw [e6]
    exact h.log l m ((em l m).1 h1)
  · intro x hx
    rcases List.mem_append.1 hx with hx | hx
    · exact h.topN x hx
    · rw [List.mem_singleton.1 hx]
      show t.start < top
      omega

/-- The thread following a match has the match's label or none yet. -/
theorem champ_label (O : Ordered P S F K B) {L : List GT} {i l s κ e} (hr : ∀ x ∈ L, Rest P S data lo i x)
    (h : Champ P data L i l s κ e) : ∃ x ∈ L, x.1.label = none ∨ x.1.label = some l := by
  obtain ⟨x, hx, -, k', -, h⟩ := h
  refine ⟨x, hx, ?_⟩
  rcases h with ⟨-, -, -, h, -⟩ | ⟨-, pc', hc, ha⟩
  · exact Or.inr h
  · obtain ⟨o, ho, h1, -, -, -, -, -, h2⟩ := cons_op hc
    rcases (hr x hx).run with hh | ⟨-, hh⟩ | ⟨hh, -⟩
    · rw [ho] at hh; cases hh; exact (h2 rfl).elim
    · exact acc_label_rel O ha (hh.byte hc)
    · rw [ho] at hh; cases hh; exact (h1 rfl).elim

/-- It blocks the later threads of its keyword. -/
theorem champ_blocks (O : Ordered P S F K B) {σ : St} {LA LN : List GT} {C : Nat × List Bool → Prop} {An : Rec → Prop}
    (h : FI P S data lo N off top σ LA LN C An s k0) {l s' κ e} (hc : Champ P data LN (off + 1) l s' κ e) :
    (σ.liveNone = true ∨ l ∈ σ.live) ∧ σ.next ≠ [] := by
  obtain ⟨x, hx, hl⟩ := champ_label O h.restN hc
  have hm : x.1 ∈ σ.next := by rw [h.nxt]; exact List.mem_map_of_mem hx
  obtain ⟨a, b⟩ := h.live x.1 hm
  refine ⟨?_, List.ne_nil_of_mem hm⟩
  rcases hl with hl | hl
  · exact Or.inl (a hl)
  · exact Or.inr (b l hl)

/-- Position of the first match to report, relative to a place where a match ends. -/
theorem best_cases {l m sT kT eT s₁ κ₁ e₁} (hT : AccR P data lo N l sT kT eT) (hm : m ≤ sT)
    (hb : IsBest P data lo N l m s₁ κ₁ e₁) : (s₁ = sT ∧ κ₁ = kT ∧ e₁ = eT) ∨ Lt (s₁, κ₁) (sT, kT) := by
  have h1 := hb.2.2 _ _ _ hT hm
  rcases Nat.lt_trichotomy s₁ sT with hh | hh | hh
  · exact Or.inr (Or.inl hh)
  · subst hh
    rcases div_cases κ₁ kT with hd | hd | hd
    · exact Or.inr (Or.inr ⟨rfl, hd⟩)
    · exact (h1 (Or.inr ⟨rfl, hd⟩)).elim
    · obtain ⟨a, b⟩ := accR_unique hb.1 hT hd
      exact Or.inl ⟨rfl, a, b⟩
  · exact (h1 (Or.inl hh)).elim

/-- A match reported when nothing blocks it is the first one to report. -/
theorem emit_best (O : Ordered P S F K B) {σ : St} {LA LN : List GT} {An : Rec → Prop} {k : List Bool}
    (h : FI P S data lo N off top σ LA LN (Bef s k) An s k0) {l m e : Nat} (hm : me σ l m) (hle : m ≤ s) (hst : s < top)
    (hT : AccR P data lo N l s k e) (hu : unblocked σ (some l) = .ok true) : IsBest P data lo N l m s k e := by
  obtain ⟨s₁, κ₁, e₁, hb⟩ := best_exists O.bounded hT hle
  rcases best_cases hT hle hb with ⟨rfl, rfl, rfl⟩ | hlt
  · exact hb
  · have hs : s₁ < top := by
      rcases hlt with hh | ⟨hh, -⟩
      · dsimp only at hh; omega
      · dsimp only at hh; omega
    have := (champ_blocks O h (h.memN l m s₁ κ₁ e₁ hm (.here hb) hs hlt)).1
    obtain ⟨h1, l', hl', h2, -⟩ := unblocked_true hu
    cases hl'
    rcases this with hh | hh
    · rw [h1] at hh; cases hh
    · exact (h2 hh).elim

theorem hitsOf_snoc (l : Nat) (log : List Hit) (h : Hit) :
    hitsOf l (log ++ [h]) = hitsOf l log ++ (if h.label = l then [(h.start, h.end)] else []) := by
  unfold hitsOf
  rw [List.filter_append, List.map_append]
  congr 1
  by_cases hl : h.label = l <;> simp [hl]

/-- Reporting a match. -/
theorem FI.emit (O : Ordered P S F K B) {σ : St} {LA LN : List GT} {An : Rec → Prop} {k : List Bool}
    (h : FI P S data lo N off top σ LA LN (Bef s k) An s k0) {l m e : Nat} (hm : me σ l m) (hle : m ≤ s) (hst : s < top)
    (hT : AccR P data lo N l s k e) (hu : unblocked σ (some l) = .ok true)
    (hthru : ∀ l' m κ e', me σ l' m → Mem P data lo N l' m s κ e' → k <+: κ → l' = l) :
    FI P S data lo N off top { σ with
      matchEnds := σ.matchEnds.set l e
      matchEndsMax := if σ.matchEndsMax < e then e else σ.matchEndsMax
      log := σ.log ++ [⟨s, e, l⟩] } LA LN (Aft s k) An s k0 ∧
    (∀ l' m', (σ.matchEnds.set l e)[l']? = some m' → ∃ m, me σ l' m ∧ (m' = m ∨ m' = e) ∧
      ∀ s κ e, Mem P data lo N l' m' s κ e → Mem P data lo N l' m s κ e) := by
  have hb := emit_best O h hm hle hst hT hu
  have hlt : l < σ.matchEnds.length := by
    by_contra hc
    unfold me at hm
    rw [List.getElem?_eq_none (by omega)] at hm
    cases hm
  have hset : ∀ l' m', (σ.matchEnds.set l e)[l']? = some m' → (l' = l ∧ m' = e) ∨ (l' ≠ l ∧ me σ l' m') := by
    intro l' m' hh
    by_cases hl : l' = l
    · subst hl
      rw [List.getElem?_set_self hlt] at hh
      exact Or.inl ⟨rfl, (Option.some.inj hh).symm⟩
    · rw [List.getElem?_set_ne (fun e => hl e.symm)] at hh
      exact Or.inr ⟨hl, hh⟩
  have hshr : ∀ l' m', (σ.matchEnds.set l e)[l']? = some m' → ∃ m, me σ l' m ∧ (m' = m ∨ m' = e) ∧
      ∀ s κ e, Mem P data lo N l' m' s κ e → Mem P data lo N l' m s κ e := by
    intro l' m' hh
    rcases hset l' m' hh with ⟨rfl, rfl⟩ | ⟨hl, h1⟩
    · exact ⟨m, hm, Or.inr rfl, fun s κ e hh => .next hb hh⟩
    · exact ⟨m', h1, Or.inl rfl, fun _ _ _ hh => hh⟩
  refine ⟨⟨h.act, h.nxt, h.sortN, fun x hx => Or.inl (h.cutN x hx), h.sortA, h.afterA, h.restA, h.restN, h.live, ?_, ?_,
    ?_, ?_, ?_, h.topA, h.topN⟩, hshr⟩
  · intro l' m' hh
    dsimp only
    rcases hset l' m' hh with ⟨-, rfl⟩ | ⟨-, hh⟩
    · split <;> omega
    · have := h.max l' m' hh
      split <;> omega
  · intro c hc
    obtain ⟨r, ⟨a1, a2, a3⟩, b, d⟩ := h.locks c hc
    refine ⟨r, ⟨a1, a2, fun l' m' s κ e hh hM => ?_⟩, b, ?_⟩
    · obtain ⟨m0, h1, -, h2⟩ := hshr l' m' hh
      exact a3 l' m0 s κ e h1 (h2 _ _ _ hM)
    · rcases d with d | d
      · exact Or.inl (Or.inl d)
      · exact Or.inr d
  · rintro l' m' s' κ e' hh hM h3 (h4 | ⟨rfl, h4⟩)
    · obtain ⟨m0, h1, -, h2⟩ := hshr l' m' hh
      exact h.memN l' m0 s' κ e' h1 (h2 _ _ _ hM) h3 h4
    · obtain ⟨m0, h1, -, h2⟩ := hshr l' m' hh
      have hl := hthru l' m0 κ e' h1 (h2 _ _ _ hM) h4
      rcases hset l' m' hh with ⟨-, rfl⟩ | ⟨hne, -⟩
      · have := (mem_acc hM).1
        have := hT.2.1
        dsimp only at *
        omega
      · exact (hne hl).elim
  · intro l' m' s' κ e' hh hM h3 h4
    obtain ⟨m0, h1, -, h2⟩ := hshr l' m' hh
    exact h.memA l' m0 s' κ e' h1 (h2 _ _ _ hM) h3 h4
  · intro l' m' hh
    dsimp only
    rw [hitsOf_snoc]
    rcases hset l' m' hh with ⟨rfl, rfl⟩ | ⟨hne, hh⟩
    · rw [if_pos rfl]
      exact (h.log l' m hm).snoc hb
    · rw [if_neg (fun e => hne e.symm), List.append_nil]
      exact h.log l' m' hh

end
end Verif.Vm
