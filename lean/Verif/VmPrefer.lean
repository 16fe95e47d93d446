import Verif.VmBest
/-!
# One closure keeps the matches still to be reported
-/
namespace Verif.Vm

section
variable {P : Program} {S F : Nat → Prop} {K : Nat → Option Nat → Nat → Prop} {B : Nat}
variable {data : Nat → UInt8} {lo N : Nat} {off top : Nat} {s : Nat} {k0 : List Bool}

/-- `x` is stopped by the finishing thread `t`. -/
def Killed (t : Thread) (off : Nat) (x : GT) : Prop :=
  t.end = some off ∧ x.1.label = t.label ∧ (t.lead = true ∨ x.1.start = t.start)

/-- `y` is what becomes of `x`. -/
def KRel (P : Program) (t : Thread) (off : Nat) (x y : GT) : Prop :=
  y.2 = x.2 ∧ (y.1 = x.1 ∨ (y.1 = { x.1 with pc := progEnd P } ∧ Killed t off x))

theorem forall2_refl {α : Type} {R : α → α → Prop} (h : ∀ a, R a a) (l : List α) : List.Forall₂ R l l := by
  induction l with
  | nil => exact .nil
  | cons a l ih => exact .cons (h a) ih

theorem kill_ghost (P : Program) (t : Thread) (off : Nat) (L : List GT) :
    ∃ L', kill P t off (L.map Prod.fst) = L'.map Prod.fst ∧ List.Forall₂ (KRel P t off) L L' := by
  have same : ∀ L : List GT, List.Forall₂ (KRel P t off) L L := forall2_refl (fun a => ⟨rfl, Or.inl rfl⟩)
  unfold kill
  dsimp only
  by_cases he : t.end = some off
  · rw [if_pos he]
    cases hl : t.lead with
    | true =>
      rw [if_pos rfl]
      induction L with
      | nil => exact ⟨[], rfl, .nil⟩
      | cons x L ih =>
        obtain ⟨L', h1, h2⟩ := ih
        refine ⟨((if x.1.label = t.label then { x.1 with pc := progEnd P } else x.1), x.2) :: L', ?_, ?_⟩
        · simp only [List.map_cons, List.map_map] at h1 ⊢
          rw [← h1]
        · refine .cons ⟨rfl, ?_⟩ h2
          by_cases hx : x.1.label = t.label
          · rw [if_pos hx]; exact Or.inr ⟨rfl, he, hx, Or.inl hl⟩
          · rw [if_neg hx]; exact Or.inl rfl
    | false =>
      rw [if_neg (by simp)]
      induction L with
      | nil => exact ⟨[], rfl, .nil⟩
      | cons x L ih =>
        by_cases hs : x.1.start = t.start
        · obtain ⟨L', h1, h2⟩ := ih
          refine ⟨((if x.1.label = t.label then { x.1 with pc := progEnd P } else x.1), x.2) :: L', ?_, ?_⟩
          · rw [List.map_cons, List.map_cons, ← h1, List.takeWhile_cons_of_pos (by simpa using hs),
              List.dropWhile_cons_of_pos (by simpa using hs)]
            rfl
          · refine .cons ⟨rfl, ?_⟩ h2
            by_cases hx : x.1.label = t.label
            · rw [if_pos hx]; exact Or.inr ⟨rfl, he, hx, Or.inr hs⟩
            · rw [if_neg hx]; exact Or.inl rfl
        · refine ⟨x :: L, ?_, same _⟩
          rw [List.map_cons, List.takeWhile_cons_of_neg (by simpa using hs),
            List.dropWhile_cons_of_neg (by simpa using hs)]
          rfl
  · rw [if_neg he]
    exact ⟨L, rfl, same L⟩

theorem krel_keys {t : Thread} {L L' : List GT} (h : List.Forall₂ (KRel P t off) L L') : L'.map key = L.map key := by
  induction h with
  | nil => rfl
  | @cons x y _ _ h _ ih =>
    rw [List.map_cons, List.map_cons, ih]
    congr 1
    obtain ⟨h1, h2⟩ := h
    unfold key
    rw [h1]
    rcases h2 with h2 | ⟨h2, -⟩ <;> rw [h2]

theorem krel_left {t : Thread} {L L' : List GT} (h : List.Forall₂ (KRel P t off) L L') {x : GT} (hx : x ∈ L) :
    ∃ y ∈ L', KRel P t off x y := by
  induction h with
  | nil => cases hx
  | @cons a b _ _ h _ ih =>
    rcases List.mem_cons.1 hx with rfl | hx
    · exact ⟨b, List.mem_cons_self .., h⟩
    · obtain ⟨y, hy, hh⟩ := ih hx
      exact ⟨y, List.mem_cons_of_mem _ hy, hh⟩

theorem krel_right {t : Thread} {L L' : List GT} (h : List.Forall₂ (KRel P t off) L L') {y : GT} (hy : y ∈ L') :
    ∃ x ∈ L, KRel P t off x y := by
  induction h with
  | nil => cases hy
  | @cons a b _ _ h _ ih =>
    rcases List.mem_cons.1 hy with rfl | hy
    · exact ⟨a, List.mem_cons_self .., h⟩
    · obtain ⟨x, hx, hh⟩ := ih hy
      exact ⟨x, List.mem_cons_of_mem _ hx, hh⟩

/-- Stopping threads that follow no match still to be reported. -/
theorem FI.killed (O : Ordered P S F K B) {σ : St} {LA LN : List GT} {C : Nat × List Bool → Prop} {An : Rec → Prop}
    {t : Thread} (h : FI P S data lo N off top σ LA LN C An s k0)
    (hk : ∀ x ∈ LA, Killed t off x → ∀ l m s' κ e, me σ l m → Mem P data lo N l m s' κ e → s' < top →
      Lt (s, k0) (s', κ) → Champ P data [x] off l s' κ e → False) :
    ∃ LA', FI P S data lo N off top { σ with active := kill P t off σ.active } LA' LN C An s k0 := by
  obtain ⟨LA', h1, h2⟩ := kill_ghost P t off LA
  refine ⟨LA', ⟨?_, h.nxt, h.sortN, h.cutN, ?_, ?_, ?_, h.restN, h.live, h.max, h.locks, h.memN, ?_, h.log,
    ?_, h.topN⟩⟩
  · dsimp only
    rw [h.act, h1]
  · rw [krel_keys h2]; exact h.sortA
  · rw [krel_keys h2]; exact h.afterA
  · intro y hy
    obtain ⟨x, hx, hxy, hh⟩ := krel_right h2 hy
    have hr := h.restA x hx
    obtain ⟨y1, y2⟩ := y
    dsimp only at hxy hh
    subst hxy
    rcases hh with rfl | ⟨rfl, -⟩
    · exact ⟨hr.lo, hr.hi, hr.ends, hr.run⟩
    · exact ⟨hr.lo, hr.hi, hr.ends, Or.inl O.guarded.haltOp⟩
  · intro l m s' κ e hm hM hs hlt
    obtain ⟨x, hx, hc⟩ := h.memA l m s' κ e hm hM hs hlt
    obtain ⟨y, hy, hyx, hh⟩ := krel_left h2 hx
    rcases hh with hh | ⟨-, hh⟩
    · refine ⟨y, hy, ?_⟩
      rw [hyx, hh]
      exact hc
    · exact (hk x hx hh l m s' κ e hm hM hs hlt ⟨x, by simp, hc⟩).elim
  · rw [krel_keys h2]; exact h.topA

/-- What happens to the thread when its closure ends. -/
def pushR (r : Option Thread) (σ : St) : Res St :=
  match r with
  | some t => pushLive t σ
  | none => .ok σ

/-- The finishing step. -/
theorem best_finish (O : Ordered P S F K B) {σ σ1 σ2 : St} {LA LN : List GT} {An : Rec → Prop} {k : List Bool} {t : Thread}
    {l j : Nat} {r : Option Thread} (h : FI P S data lo N off top σ LA LN (Bef s k) An s k0) (hst : t.start = s)
    (hlo : lo ≤ s) (htop : s < top) (ho : opAt P t.pc = some .finish) (hl : t.label = some l) (he : t.end = some j)
    (hsj : s ≤ j) (hj : j ≤ off) (hN : j < N) (hr : Run P (seg data s (j + 1)) k t.pc t.label)
    (hk : ∀ x ∈ LA, Killed t off x → ∀ l m s' κ e, me σ l m → Mem P data lo N l m s' κ e → s' < top →
      Lt (s, k0) (s', κ) → Champ P data [x] off l s' κ e → False)
    (h1 : finishStep P true off t σ = .ok (r, σ1)) (h2 : pushR r σ1 = .ok σ2) :
    ∃ LA' LN', FI P S data lo N off top σ2 LA' LN' (Aft s k) An s k0 ∧
      ∀ l m', me σ2 l m' → ∃ m, me σ l m ∧ (m' = m ∨ m' = j + 1) ∧
        ∀ s κ e, Mem P data lo N l m' s κ e → Mem P data lo N l m s κ e := by
  obtain ⟨LA', hF⟩ := h.killed O hk
  have hacc : AccFrom P l t.pc t.label [] [] := by rw [hl]; exact .finish ho
  have hT : AccR P data lo N l s k (j + 1) := by
    refine ⟨hlo, by omega, by omega, ?_⟩
    have := acc_of_run hr hacc
    simpa using this
  have hone : ∀ l' m κ e, me σ l' m → Mem P data lo N l' m s κ e → k <+: κ → l' = l ∧ κ = k ∧ e = j + 1 := by
    intro l' m κ e hm hM hp
    have hA := (mem_acc hM).2
    obtain ⟨a, b, c⟩ := acc_unique hA.2.2.2 hT.2.2.2 (seg_prefix data s e (j + 1)) (Or.inr hp)
    refine ⟨a, c, ?_⟩
    have := congrArg List.length b
    rw [seg_length, seg_length] at this
    have := hA.2.1
    omega
  simp only [finishStep] at h1
  obtain ⟨u, hu, h1⟩ := bind_eq_ok.1 h1
  cases u with
  | false =>
    simp only [Bool.false_eq_true, if_false, Res.ok.injEq, Prod.mk.injEq] at h1
    obtain ⟨rfl, rfl⟩ := h1
    obtain ⟨hF2, hS2⟩ := hF.push h2 hst htop
      ⟨by rw [hst]; exact hlo, by rw [hst]; show s ≤ _; omega,
        fun i hi => by rw [he] at hi; cases hi; omega,
        Or.inr (Or.inr ⟨ho, j, he, by rw [hst]; exact hsj, by omega, by rw [hst]; exact hr⟩)⟩ (by
        intro l' m κ e hm hM hp
        obtain ⟨rfl, rfl, rfl⟩ := hone l' m κ e hm hM hp
        exact ⟨(t, κ), by simp, hst, [], by simp, Or.inl ⟨by omega, rfl, ho, hl, by simpa using he⟩⟩)
    refine ⟨LA', _, hF2, ?_⟩
    intro l' m' hm
    obtain ⟨m, a, -, c⟩ := hS2 l' m' hm
    have e4 := (pushLive_ok h2).2.2.2.1
    unfold me at hm a
    rw [e4] at hm
    rw [a] at hm
    cases hm
    exact ⟨_, a, Or.inl rfl, c⟩
  | true =>
    simp only [if_true] at h1
    rw [hl] at h1
    simp only at h1
    cases hm : σ.matchEnds[l]? with
    | none => rw [hm] at h1; simp at h1
    | some m =>
      rw [hm] at h1
      simp only at h1
      by_cases hle : m ≤ t.start
      · rw [if_pos hle] at h1
        simp only [Res.ok.injEq, Prod.mk.injEq] at h1
        obtain ⟨rfl, rfl⟩ := h1
        simp only [pushR, Res.ok.injEq] at h2
        subst h2
        rw [hl] at hu
        have := hF.emit O (l := l) (m := m) (e := j + 1) hm (by rw [← hst]; exact hle) htop hT hu
          (fun l' m κ e hm hM hp => (hone l' m κ e hm hM hp).1)
        rw [he, hst]
        exact ⟨LA', LN, this⟩
      · rw [if_neg hle] at h1
        simp only [Res.ok.injEq, Prod.mk.injEq] at h1
        obtain ⟨rfl, rfl⟩ := h1
        simp only [pushR, Res.ok.injEq] at h2
        subst h2
        refine ⟨LA', LN, hF.drop ?_, fun l m h => ⟨m, h, Or.inl rfl, fun _ _ _ h => h⟩⟩
        intro l' m' κ e hm' hM hp
        obtain ⟨rfl, -, -⟩ := hone l' m' κ e hm' hM hp
        have h3 := (mem_acc hM).1
        unfold me at hm'
        dsimp only at hm'
        rw [hm] at hm'
        cases hm'
        omega

theorem TC.mono {σ σ' : St} {An : Rec → Prop} {t : Thread} {k : List Bool} {m : Nat}
    (h : TC P S F K data lo N off top σ An t s k0 k m) (hs : Shr P data lo N off σ σ') :
    TC P S F K data lo N off top σ' An t s k0 k m :=
  { h with
    thru := fun l m' κ e a b k' hk => by
      obtain ⟨m1, h1, -, h3⟩ := hs l m' a
      exact h.thru l m1 κ e h1 (h3 _ _ _ b) k' hk
    dead := fun l m' a b => by
      obtain ⟨m1, h1, h2, -⟩ := hs l m' b
      rcases h2 with rfl | h2
      · exact h.dead l _ a h1
      · exact Or.inr h2
    lead := fun a b => ⟨(h.lead a b).1, fun l m' s' κ e c d f => by
      obtain ⟨m1, h1, -, h3⟩ := hs l m' d
      exact (h.lead a b).2 l m1 s' κ e c h1 (h3 _ _ _ f)⟩ }

/-- The running thread moves without reading, labelling or matching. -/
theorem TC.move {σ : St} {An An' : Rec → Prop} {t : Thread} {k c : List Bool} {m m' pc' : Nat}
    (h : TC P S F K data lo N off top σ An t s k0 k m)
    (hr : Run P (seg data s (off + 1)) (k ++ c) pc' t.label) (hp : S pc' ∨ (F pc' ∧ t.end = some off))
    (hK : K pc' t.label m') (han : ∀ r, An' r → ∀ m'', K r.pc r.lab m'' → m' < m'')
    (hstep : ∀ l w k', AccFrom P l t.pc t.label w (c ++ k') → AccFrom P l pc' t.label w k')
    (hlead : t.end = some off → t.lead = true → ∀ x, Lt x (s, k ++ c) → Lt x (s, k) ∨ (x.1 = s ∧ k <+: x.2)) :
    TC P S F K data lo N off top σ An' { t with pc := pc' } s k0 (k ++ c) m' where
  st := h.st
  low := h.low
  hi := h.hi
  run := hr
  pc := hp
  ends := h.ends
  rank := hK
  anc := han
  pre := h.pre.trans (List.prefix_append _ _)
  thru := fun l m1 κ e a b k' hk => by
    obtain ⟨x, y⟩ := h.thru l m1 κ e a b (c ++ k') (by rw [hk, List.append_assoc])
    exact ⟨x, hstep _ _ _ y⟩
  dead := h.dead
  lead := fun a b => ⟨(h.lead a b).1, fun l m1 s' κ e x y z u v => by
    rcases hlead a b _ v with v | ⟨hs, k', rfl⟩
    · exact (h.lead a b).2 l m1 s' κ e x y z u v
    · dsimp only at hs
      subst hs
      have := (h.thru l m1 _ e y z k' rfl).1
      omega⟩

theorem overlap_cases {f : Thread → St → Res (Option Thread × St)} {t : Thread} {σ : St} {x : Option Thread × St}
    (h : overlapGuard f t σ = .ok x) :
    (f t σ = .ok x ∧ ∀ l m, t.label = some l → σ.matchEnds[l]? = some m → m ≤ t.start) ∨
    ∃ l m, t.label = some l ∧ σ.matchEnds[l]? = some m ∧ t.start < m ∧ x = (none, σ) := by
  unfold overlapGuard at h
  cases hl : t.label with
  | none => rw [hl] at h; exact Or.inl ⟨h, by simp⟩
  | some l =>
    rw [hl] at h
    dsimp only at h
    cases hm : σ.matchEnds[l]? with
    | none => rw [hm] at h; cases h
    | some m =>
      rw [hm] at h
      dsimp only at h
      split at h
      · next hlt => cases h; exact Or.inr ⟨l, m, rfl, hm, hlt, rfl⟩
      · next hlt =>
        refine Or.inl ⟨h, ?_⟩
        intro l' m' hl' hm'
        cases hl'
        rw [hm] at hm'
        cases hm'
        omega

/-- The epsilon closure of a running thread. -/
theorem best_ep (O : Ordered P S F K B) (htop : top ≤ off + 1) (hN : off < N) : ∀ n {t : Thread} {k : List Bool} {m : Nat}
    {σ σ1 σ2 : St} {LA LN : List GT} {An : Rec → Prop} {r : Option Thread},
    FI P S data lo N off top σ LA LN (Bef s k) An s k0 → TC P S F K data lo N off top σ An t s k0 k m →
    epLoop P true off n t σ = .ok (r, σ1) → pushR r σ1 = .ok σ2 →
    ∃ LA' LN', FI P S data lo N off top σ2 LA' LN' (Aft s k) An s k0 ∧ Shr P data lo N off σ σ2 := by
  intro n
  induction n with
  | zero => intro t k m σ σ1 σ2 LA LN An r _ _ h; simp [epLoop] at h
  | succ n ih =>
    intro t k m σ σ1 σ2 LA LN An r hF hT h h2
    have hlab : ∀ l m κ e, me σ l m → Mem P data lo N l m s κ e → k <+: κ → t.label = none ∨ t.label = some l := by
      rintro l m κ e hm hM ⟨k', rfl⟩
      exact acc_label_rel O (hT.thru l m _ e hm hM k' rfl).2 hT.run
    -- a thread that ends without having matched
    have hdrop : (∀ l m κ e, me σ l m → Mem P data lo N l m s κ e → k <+: κ → False) → Res.ok (none, σ) = .ok (r, σ1) →
        ∃ LA' LN', FI P S data lo N off top σ2 LA' LN' (Aft s k) An s k0 ∧ Shr P data lo N off σ σ2 := by
      intro hd h
      simp only [Res.ok.injEq, Prod.mk.injEq] at h
      obtain ⟨rfl, rfl⟩ := h
      simp only [pushR, Res.ok.injEq] at h2
      subst h2
      exact ⟨LA, LN, hF.drop hd, shr_refl _⟩
    simp only [epLoop] at h
    cases ho : opAt P t.pc with
    | none => rw [ho] at h; simp at h
    | some op =>
      rw [ho] at h
      have rest : op ≠ .finish → op ≠ .fork → op ≠ .jump → (∀ i, op ≠ .checkHalt i) → (∀ i, op ≠ .label i) → op ≠ .match →
          op ≠ .halt → Res.ok (some t, σ) = .ok (r, σ1) →
          ∃ LA' LN', FI P S data lo N off top σ2 LA' LN' (Aft s k) An s k0 ∧ Shr P data lo N off σ σ2 := by
        intro n1 n2 n3 n4 n5 n6 n7 h
        simp only [Res.ok.injEq, Prod.mk.injEq] at h
        obtain ⟨rfl, rfl⟩ := h
        have hS : S t.pc := by
          rcases hT.pc with hh | ⟨hh, -⟩
          · exact hh
          · rcases O.finishing.ops _ hh with hh | hh | hh | hh <;> rw [ho] at hh <;> cases hh <;> contradiction
        have hlt := hT.hi
        refine ⟨LA, _, hF.push h2 hT.st hT.hi ⟨by rw [hT.st]; exact hT.low, by rw [hT.st]; show s ≤ _; omega,
          fun j hj => by have := hT.ends j hj; omega, Or.inr (Or.inl ⟨hS, by rw [hT.st]; exact hT.run⟩)⟩ ?_⟩
        rintro l m' κ e hm hM ⟨k', rfl⟩
        obtain ⟨h3, h4⟩ := hT.thru l m' _ e hm hM k' rfl
        obtain ⟨b, pc', w', hw, hc, ha⟩ := acc_read h4 ho n1 n2 n3 n4 n5 n6
        have hlt : off + 1 < e := by
          have := congrArg List.length hw
          rw [seg_length, List.length_cons] at this
          omega
        rw [seg_cons data hlt] at hw
        simp only [List.cons.injEq] at hw
        obtain ⟨rfl, rfl⟩ := hw
        exact ⟨(t, k), by simp, hT.st, k', rfl, Or.inr ⟨hlt, pc', hc, ha⟩⟩
      cases op with
      | finish =>
        simp only at h
        obtain ⟨hFp, hend⟩ : F t.pc ∧ t.end = some off := by
          rcases hT.pc with hh | hh
          · exact (O.guarded.noFinish _ hh ho).elim
          · exact hh
        cases hl : t.label with
        | none => exact (O.bounded.finish hT.rank ho hl).elim
        | some l =>
          have hlt := hT.hi
          have hacc : AccFrom P l t.pc t.label [] [] := by rw [hl]; exact .finish ho
          have hA : AccR P data lo N l s k (off + 1) := by
            refine ⟨hT.low, by omega, by omega, ?_⟩
            have := acc_of_run hT.run hacc
            simpa using this
          obtain ⟨LA', LN', a, b⟩ := best_finish O hF hT.st hT.low hT.hi ho hl hend (by omega) (Nat.le_refl _) hN hT.run
            (by
              rintro x hx ⟨-, hxl, hxs⟩ l' m' s' κ e hm hM hs' hlt' hc
              have hrx := hF.restA x hx
              obtain ⟨x', hx', hlx⟩ := champ_label (lo := lo) O (fun y hy => by rw [List.mem_singleton.1 hy]; exact hrx) hc
              rw [List.mem_singleton.1 hx', hxl, hl] at hlx
              have hll : l' = l := by
                rcases hlx with hlx | hlx
                · cases hlx
                · cases hlx; rfl
              subst hll
              obtain ⟨x'', hx'', hst, k', rfl, -⟩ := hc
              rw [List.mem_singleton.1 hx''] at hst
              have hltx : Lt (s, k) (s', x.2 ++ k') := by
                have h3 := hF.afterA _ (List.mem_map_of_mem hx)
                obtain ⟨y, rfl⟩ := hT.pre
                unfold key at h3
                rw [hst] at h3
                exact lt_append _ _ h3
              rw [List.mem_singleton.1 hx''] at hM hlt'
              rcases hxs with hxs | hxs
              · have hm0 := mem_acc hM
                have hms : m' ≤ s := by
                  rcases hT.dead l' m' hl hm with hh | hh
                  · exact hh
                  · have := hm0.1; omega
                obtain ⟨s₁, κ₁, e₁, hb, hor⟩ := mem_best hM
                have h5 : off + 1 ≤ e₁ ∧ ¬ (s' = s₁ ∧ x.2 ++ k' = κ₁) := by
                  rcases best_cases hA hms hb with ⟨rfl, rfl, rfl⟩ | hlt1
                  · refine ⟨Nat.le_refl _, ?_⟩
                    rintro ⟨rfl, h6⟩
                    rw [h6] at hltx
                    exact lt_irrefl _ hltx
                  · refine ⟨?_, ?_⟩
                    · have hs1 : s₁ < top := by
                        rcases hlt1 with hh | ⟨hh, -⟩
                        · dsimp only at hh; omega
                        · dsimp only at hh; omega
                      have := (hT.lead hend hxs).2 l' m' s₁ κ₁ e₁ hl hm (.here hb) hs1 hlt1
                      omega
                    · rintro ⟨rfl, h6⟩
                      rw [← h6] at hlt1
                      exact lt_irrefl _ (lt_trans hltx hlt1)
                rcases hor with ⟨h6, h7, -⟩ | ⟨h6, -⟩
                · exact h5.2 ⟨h6, h7⟩
                · omega
              · obtain ⟨m0, hb⟩ := mem_isBest hM
                have : s' = s := by rw [← hst, hxs, hT.st]
                subst this
                exact hb.2.2 _ _ _ hA hb.2.1 hltx) h h2
          refine ⟨LA', LN', a, ?_⟩
          intro l' m' hm'
          obtain ⟨m1, h1, h3, h4⟩ := b l' m' hm'
          exact ⟨m1, h1, by omega, h4⟩
      | fork =>
        simp only at h
        obtain ⟨⟨r1, σa⟩, h1, h⟩ := bind_eq_ok.1 h
        obtain ⟨σb, h3, h⟩ := bind_eq_ok.1 h
        obtain ⟨⟨m1, hm1, hk1⟩, a, ha, m2, hm2, hk2⟩ := O.bounded.fork hT.rank ho
        rw [ha] at h
        simp only at h
        have hpc : (S (t.pc + 2) ∨ F (t.pc + 2) ∧ t.end = some off) ∧ (S a ∨ F a ∧ t.end = some off) := by
          rcases hT.pc with hh | ⟨hh, he⟩
          · obtain ⟨x, y⟩ := O.guarded.fork _ hh ho
            exact ⟨Or.inl x, Or.inl (y a ha)⟩
          · obtain ⟨x, y⟩ := O.finishing.fork _ hh ho
            exact ⟨x.imp id (fun z => ⟨z, he⟩), (y a ha).imp id (fun z => ⟨z, he⟩)⟩
        have hT1 : TC P S F K data lo N off top σ An { t with pc := t.pc + 2 } s k0 (k ++ [false]) m1 :=
          hT.move (hT.run.fork1 ho) hpc.1 hk1 (fun r hr m'' hm'' => by have := hT.anc r hr m'' hm''; omega)
            (fun l w k' hA => by
              rcases acc_fork hA ho with ⟨k'', e, hh⟩ | ⟨k'', a', e, -, -⟩
              · simp only [List.cons_append, List.nil_append, List.cons.injEq, true_and] at e; rw [e]; exact hh
              · simp at e)
            (fun _ _ x hx => by
              rcases hx with hx | ⟨hx, hd⟩
              · exact Or.inl (Or.inl hx)
              · exact Or.inl (Or.inr ⟨hx, div_snoc_false hd⟩))
        have hT2 : TC P S F K data lo N off top σ An { t with pc := a } s k0 (k ++ [true]) m2 :=
          hT.move (hT.run.fork2 ho ha) hpc.2 hk2 (fun r hr m'' hm'' => by have := hT.anc r hr m'' hm''; omega)
            (fun l w k' hA => by
              rcases acc_fork hA ho with ⟨k'', e, hh⟩ | ⟨k'', a', e, hc, hh⟩
              · simp at e
              · simp only [List.cons_append, List.nil_append, List.cons.injEq, true_and] at e
                rw [ha] at hc; cases hc; rw [e]; exact hh)
            (fun _ _ x hx => by
              rcases hx with hx | ⟨hx, hd⟩
              · exact Or.inl (Or.inl hx)
              · rcases div_snoc_true hd with hd | hd
                · exact Or.inl (Or.inr ⟨hx, hd⟩)
                · exact Or.inr ⟨hx, (List.prefix_append _ _).trans hd⟩)
        have hF1 : FI P S data lo N off top σ LA LN (Bef s (k ++ [false])) An s k0 := by
          refine hF.recut (fun x hx => ?_) (fun l m s' κ e _ _ hx => ?_) (fun r hr => Or.inr hr)
          · have := lt_append [] [false] hx
            rwa [List.append_nil] at this
          · rcases hx with hx | ⟨hx, hd⟩
            · exact Or.inl hx
            · exact Or.inr ⟨hx, div_snoc_false hd⟩
        obtain ⟨LA1, LN1, hFa, hSa⟩ : ∃ LA' LN', FI P S data lo N off top σb LA' LN' (Aft s (k ++ [false])) An s k0 ∧
            Shr P data lo N off σ σb := by
          have h3' : pushR r1 σa = .ok σb := h3
          rcases overlap_cases h1 with ⟨h1, -⟩ | ⟨l, ml, hl, hm, hlt, h1⟩
          · exact ih hF1 hT1 h1 h3'
          · simp only [Prod.mk.injEq] at h1
            obtain ⟨rfl, rfl⟩ := h1
            simp only [pushR, Res.ok.injEq] at h3'
            subst h3'
            refine ⟨LA, LN, hF1.drop ?_, shr_refl _⟩
            intro l' m' κ e hm' hM hp
            have hh := hlab l' m' κ e hm' hM ((List.prefix_append _ _).trans hp)
            dsimp only at hl hlt
            rw [hl] at hh
            rcases hh with hh | hh
            · cases hh
            · cases hh
              have := (mem_acc hM).1
              unfold me at hm'
              rw [hm] at hm'
              cases hm'
              rw [hT.st] at hlt
              omega
        have hF2 : FI P S data lo N off top σb LA1 LN1 (Bef s (k ++ [true])) An s k0 := by
          refine hFa.recut (fun x hx => ?_) (fun l m s' κ e _ _ hx => ?_) (fun r hr => Or.inr hr)
          · rcases hx with hx | ⟨hx, hd⟩
            · rcases hx with hx | ⟨hx, hd⟩
              · exact Or.inl hx
              · refine Or.inr ⟨hx, ?_⟩
                have := div_append [] [true] (div_snoc_false hd)
                rwa [List.append_nil] at this
            · obtain ⟨k', hk'⟩ := hd
              refine Or.inr ⟨hx, ?_⟩
              rw [← hk', List.append_assoc, div_left]
              exact div_ft _ _
          · rcases hx with hx | ⟨hx, hd⟩
            · exact Or.inl (Or.inl hx)
            · rcases div_snoc_true hd with hd | hd
              · refine Or.inl (Or.inr ⟨hx, ?_⟩)
                have := div_append [] [false] hd
                rwa [List.append_nil] at this
              · exact Or.inr ⟨hx, hd⟩
        obtain ⟨LA2, LN2, hFb, hSb⟩ := ih hF2 (hT2.mono hSa) h h2
        refine ⟨LA2, LN2, ?_, shr_trans hSa hSb⟩
        refine hFb.recut (fun x hx => ?_) (fun l m s' κ e hm hM hx => ?_) (fun r hr => Or.inr hr)
        · rcases hx with hx | ⟨hx, hd⟩
          · rcases hx with hx | ⟨hx, hd⟩
            · exact Or.inl (Or.inl hx)
            · rcases div_snoc_true hd with hd | hd
              · exact Or.inl (Or.inr ⟨hx, hd⟩)
              · exact Or.inr ⟨hx, (List.prefix_append _ _).trans hd⟩
          · exact Or.inr ⟨hx, (List.prefix_append _ _).trans hd⟩
        · rcases hx with hx | ⟨hx, hd⟩
          · have := lt_append [] [true] hx
            rw [List.append_nil] at this
            exact Or.inl this
          · dsimp only at hx
            subst hx
            obtain ⟨k', rfl⟩ := hd
            obtain ⟨m0, hm0, -, hsub⟩ := shr_trans hSa hSb l m hm
            obtain ⟨-, hA⟩ := hT.thru l m0 _ e hm0 (hsub _ _ _ hM) k' rfl
            rcases acc_fork hA ho with ⟨k'', e, -⟩ | ⟨k'', a', e, -, -⟩
            · refine Or.inl (Or.inr ⟨rfl, ?_⟩)
              dsimp only
              rw [div_left, e]
              exact div_ft _ _
            · refine Or.inr ⟨rfl, k'', ?_⟩
              rw [e]
              simp
      | jump =>
        simp only at h
        obtain ⟨a, ha, m', hm', hk'⟩ := O.bounded.jump hT.rank ho
        rw [ha] at h
        simp only at h
        have hpc : S a ∨ F a ∧ t.end = some off := by
          rcases hT.pc with hh | ⟨hh, he⟩
          · exact Or.inl (O.guarded.jump _ a hh ho ha)
          · exact (O.finishing.jump _ a hh ho ha).imp id (fun z => ⟨z, he⟩)
        have := hT.move (c := []) (by rw [List.append_nil]; exact hT.run.jump ho ha) hpc hk'
          (fun r hr m'' hm'' => by have := hT.anc r hr m'' hm''; omega)
          (fun l w k' hA => acc_jump hA ho ha) (fun _ _ x hx => by rw [List.append_nil] at hx; exact Or.inl hx)
        rw [List.append_nil] at this
        exact ih hF this h h2
      | checkHalt i =>
        simp only at h
        obtain ⟨hi, m1, hm1, hk1⟩ := O.bounded.check hT.rank ho
        have hS : S t.pc := by
          rcases hT.pc with hh | ⟨hh, -⟩
          · exact hh
          · rcases O.finishing.ops _ hh with hh | hh | hh | hh <;> rw [ho] at hh <;> cases hh
        rw [if_pos (by omega)] at h
        by_cases hc : σ.checks.contains i = true
        · rw [if_pos hc] at h
          refine hdrop ?_ h
          rintro l ml κ e hm hM ⟨k', rfl⟩
          obtain ⟨r', ⟨hr1, ⟨w, hr2⟩, hr3⟩, -, hr4⟩ := hF.locks i (by simpa using hc)
          obtain ⟨hp, hlb⟩ := O.check1 hr2 hT.run hr1 ho
          obtain ⟨h5, h6⟩ := hT.thru l ml _ e hm hM k' rfl
          rcases hr4 with hr4 | hr4
          · rw [hp, hlb] at hr3
            exact hr3 l ml s _ e hm hM (by have := hT.hi; omega) k k' rfl h5 h6 hr4
          · have := hT.anc r' hr4 m (by rw [hp, hlb]; exact hT.rank)
            omega
        · rw [if_neg hc] at h
          obtain ⟨bl, hbl, h⟩ := bind_eq_ok.1 h
          have hmv : ∀ An' : Rec → Prop, (∀ r, An' r → ∀ m'', K r.pc r.lab m'' → m1 < m'') →
              TC P S F K data lo N off top σ An' { t with pc := t.pc + 1 } s k0 k m1 := by
            intro An' han
            have := hT.move (c := []) (by rw [List.append_nil]; exact hT.run.check ho)
              (Or.inl (O.guarded.check _ i hS ho)) hk1 han
              (fun l w k' hA => acc_check hA ho) (fun _ _ x hx => by rw [List.append_nil] at hx; exact Or.inl hx)
            rwa [List.append_nil] at this
          cases bl with
          | true =>
            simp only [if_true] at h
            exact ih hF (hmv An (fun r hr m'' hm'' => by have := hT.anc r hr m'' hm''; omega)) h h2
          | false =>
            simp only [Bool.false_eq_true, if_false] at h
            have hlock : Lock P data lo N off σ i ⟨s, k, t.pc, t.label⟩ := by
              refine ⟨ho, ⟨_, hT.run⟩, ?_⟩
              intro l ml sρ κ e hm hM hsρ κ' k' hκ hoff hA hlt
              dsimp only at hA hlt
              have hl := acc_label_rel O hA hT.run
              have hm0 := mem_acc hM
              have hblk : ml ≤ s ∧ ∀ s₁ κ₁ e₁, Champ P data LN (off + 1) l s₁ κ₁ e₁ → False := by
                rcases hl with hl | hl
                · rw [hl] at hbl
                  simp only [liveCheck, Res.ok.injEq, Bool.or_eq_false_iff, Bool.not_eq_false', decide_eq_false_iff_not,
                    List.isEmpty_iff] at hbl
                  have := hF.max l ml hm
                  refine ⟨by rw [hT.st] at hbl; omega, fun s₁ κ₁ e₁ hc => ?_⟩
                  exact (champ_blocks O hF hc).2 hbl.1
                · rw [hl] at hbl
                  simp only [liveCheck] at hbl
                  split at hbl
                  · cases hbl
                  · rename_i hn
                    simp only [liveFind] at hbl
                    split at hbl
                    · simp only [Res.ok.injEq] at hbl
                      refine ⟨?_, fun s₁ κ₁ e₁ hc => ?_⟩
                      · rcases hT.dead l ml hl hm with hh | hh
                        · exact hh
                        · have := hm0.1; omega
                      · rcases (champ_blocks O hF hc).1 with hh | hh
                        · exact hn hh
                        · rw [← List.contains_iff_mem, hbl] at hh
                          cases hh
                    · cases hbl
              obtain ⟨hms, hnc⟩ := hblk
              have hU : AccR P data lo N l s (k ++ k') e := by
                have hh := hT.hi
                refine ⟨hT.low, by omega, hm0.2.2.2.1, ?_⟩
                rw [seg_append data (i := off + 1) (by omega) hoff]
                exact acc_of_run hT.run hA
              obtain ⟨s₁, κ₁, e₁, hb, hor⟩ := mem_best hM
              have hth : s₁ = s ∧ k <+: κ₁ := by
                rcases best_cases hU hms hb with ⟨rfl, rfl, rfl⟩ | hlt1
                · exact ⟨rfl, List.prefix_append _ _⟩
                · rcases hlt1 with hh | ⟨hh, hd⟩
                  · dsimp only at hh
                    have := hT.hi
                    exact (hnc _ _ _ (hF.memN l ml s₁ κ₁ e₁ hm (.here hb) (by omega) (Or.inl hh))).elim
                  · dsimp only at hh hd
                    refine ⟨hh, ?_⟩
                    rcases div_cases κ₁ k with h7 | h7 | h7 | h7
                    · have := hT.hi
                      exact (hnc _ _ _ (hF.memN l ml s₁ κ₁ e₁ hm (.here hb) (by omega) (Or.inr ⟨hh, h7⟩))).elim
                    · have := div_append k' [] h7
                      rw [List.append_nil] at this
                      exact (div_irrefl _ (div_trans hd this)).elim
                    · exact ((div_not_prefix hd).1 (h7.trans (List.prefix_append _ _))).elim
                    · exact h7
              obtain ⟨rfl, k₁, rfl⟩ := hth
              have he1 := (hT.thru l ml _ e₁ hm (.here hb) k₁ rfl).1
              rcases hor with ⟨rfl, hκ1, -⟩ | ⟨h6, -⟩
              · rcases hlt with hlt | ⟨-, hd⟩
                · dsimp only at hlt; omega
                · dsimp only at hd
                  rw [hκ] at hκ1
                  have := div_append k₁ k' hd
                  rw [hκ1] at this
                  exact div_irrefl _ this
              · omega
            have hF' : FI P S data lo N off top { σ with checks := i :: σ.checks } LA LN (Bef s k)
                (fun r => An r ∨ r = ⟨s, k, t.pc, t.label⟩) s k0 := by
              refine ⟨hF.act, hF.nxt, hF.sortN, hF.cutN, hF.sortA, hF.afterA, hF.restA, hF.restN, hF.live, hF.max, ?_,
                hF.memN, hF.memA, hF.log, hF.topA, hF.topN⟩
              intro c hc
              rcases List.mem_cons.1 hc with rfl | hc
              · exact ⟨_, hlock, hT.hi, Or.inr (Or.inr rfl)⟩
              · obtain ⟨r', a, b, d⟩ := hF.locks c hc
                refine ⟨r', a, b, ?_⟩
                rcases d with d | d
                · exact Or.inl d
                · exact Or.inr (Or.inl d)
            have hT' := (hmv (fun r => An r ∨ r = ⟨s, k, t.pc, t.label⟩) (by
              rintro r (hr | rfl) m'' hm''
              · have := hT.anc r hr m'' hm''; omega
              · have := O.rank1 hm'' hT.rank ho
                omega)).mono (σ' := { σ with checks := i :: σ.checks }) (shr_of_eq rfl)
            obtain ⟨LA', LN', a, b⟩ := ih hF' hT' h h2
            refine ⟨LA', LN', ?_, shr_trans (shr_of_eq rfl) b⟩
            refine a.recut (fun x hx => hx) (fun l m s' κ e _ _ hx => hx) ?_
            rintro r' (hr | rfl)
            · exact Or.inr hr
            · exact Or.inl (Or.inr ⟨rfl, List.prefix_refl _⟩)
      | label l =>
        simp only at h
        obtain ⟨hi, m1, hm1, hk1⟩ := O.bounded.label hT.rank ho
        have hS : S t.pc := by
          rcases hT.pc with hh | ⟨hh, -⟩
          · exact hh
          · rcases O.finishing.ops _ hh with hh | hh | hh | hh <;> rw [ho] at hh <;> cases hh
        cases hm : σ.matchEnds[l]? with
        | none => rw [hm] at h; simp at h
        | some ml =>
          rw [hm] at h
          simp only at h
          by_cases hle : ml ≤ t.start
          · rw [if_pos hle] at h
            refine ih hF (m := m1) ?_ h h2
            exact { st := hT.st, low := hT.low, hi := hT.hi, run := hT.run.label ho, pc := Or.inl (O.guarded.label _ l hS ho),
                    ends := hT.ends, rank := hk1,
                    anc := fun r hr m'' hm'' => by have := hT.anc r hr m'' hm''; omega
                    pre := hT.pre
                    thru := fun l' m' κ e a b k' hk => ⟨(hT.thru l' m' κ e a b k' hk).1,
                      acc_label (hT.thru l' m' κ e a b k' hk).2 ho⟩
                    dead := fun l' m' a b => by
                      dsimp only at a
                      cases a
                      unfold me at b
                      rw [hm] at b
                      cases b
                      exact Or.inl (by rw [← hT.st]; exact hle)
                    lead := fun a b => by
                      rcases O.label1 hT.run ho with hl | hl
                      · exact ((hT.lead a b).1 hl).elim
                      · refine ⟨(fun e => by cases e), fun l' m' s' κ e hl' => (hT.lead a b).2 l' m' s' κ e ?_⟩
                        rw [hl]; exact hl' }
          · rw [if_neg hle] at h
            refine hdrop ?_ h
            rintro l' m' κ e hm' hM ⟨k', rfl⟩
            have hA := acc_label (hT.thru l' m' _ e hm' hM k' rfl).2 ho
            have hh := acc_label_rel O hA (hT.run.label ho)
            rcases hh with hh | hh
            · cases hh
            · cases hh
              have := (mem_acc hM).1
              unfold me at hm'
              rw [hm] at hm'
              cases hm'
              rw [hT.st] at hle
              omega
      | «match» =>
        simp only at h
        obtain ⟨u, hu, h⟩ := bind_eq_ok.1 h
        obtain ⟨hnl, m1, hm1, hk1⟩ := O.bounded.mtch hT.rank ho
        have hS : S t.pc := by
          rcases hT.pc with hh | ⟨hh, -⟩
          · exact hh
          · rcases O.finishing.ops _ hh with hh | hh | hh | hh <;> rw [ho] at hh <;> cases hh
        refine ih hF (m := m1) ?_ h h2
        exact { st := hT.st, low := hT.low, hi := hT.hi, run := hT.run.match ho,
                pc := Or.inr ⟨O.finishing.after _ hS ho, rfl⟩
                ends := fun j hj => by dsimp only at hj; cases hj; exact Nat.le_refl _
                rank := hk1
                anc := fun r hr m'' hm'' => by have := hT.anc r hr m'' hm''; omega
                pre := hT.pre
                thru := fun l' m' κ e a b k' hk => ⟨(hT.thru l' m' κ e a b k' hk).1,
                  acc_match (hT.thru l' m' κ e a b k' hk).2 ho⟩
                dead := hT.dead
                lead := fun _ b => ⟨hnl, fun l' m' s' κ e x y z w v => by
                  dsimp only at b x
                  subst b
                  obtain ⟨h5, l2, h6, h7, -⟩ := unblocked_true hu
                  rw [x] at h6
                  cases h6
                  rcases (champ_blocks O hF (hF.memN l' m' s' κ e y z w v)).1 with hh | hh
                  · rw [h5] at hh; cases hh
                  · exact (h7 hh).elim⟩ }
      | halt =>
        simp only at h
        refine hdrop ?_ h
        rintro l' m' κ e hm' hM ⟨k', rfl⟩
        exact acc_halt (hT.thru l' m' _ e hm' hM k' rfl).2 ho
      | _ => exact rest (by simp) (by simp) (by simp) (by simp) (by simp) (by simp) (by simp) h

end
end Verif.Vm
