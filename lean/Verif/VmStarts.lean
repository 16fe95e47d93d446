import Verif.VmGreedy
/-!
# lg_starts_with reports the preferred match at the first byte
-/
namespace Verif.Vm

section
variable {P : Program} {S F : Nat → Prop} {K : Nat → Option Nat → Nat → Prop} {B : Nat}
variable {data : Nat → UInt8} {lo N : Nat} {off top : Nat}

/-- Closing out, when only the matches that start below `top` have been followed. -/
theorem close_below (O : Ordered P S F K B) : ∀ (L : List GT) {σ σ2 : St}, (∀ x ∈ L, Rest P S data lo N x) →
    (L.map key).Pairwise Lt →
    (∀ x ∈ L, x.1.start < top) →
    (∀ l m s κ e, me σ l m → Mem P data lo N l m s κ e → s < top → Champ P data L N l s κ e) →
    (∀ l m, me σ l m → Chain P data lo N l (hitsOf l σ.log) m) → closeLoop P (L.map Prod.fst) σ = .ok σ2 →
    ∀ l m, me σ2 l m → Chain P data lo N l (hitsOf l σ2.log) m ∧ ∀ s κ e, AccR P data lo N l s κ e → m ≤ s → ¬ s < top := by
  intro L
  induction L with
  | nil =>
    intro σ σ2 _ _ _ hm hc hx l m hl
    simp only [List.map_nil, closeLoop, Res.ok.injEq] at hx
    subst hx
    refine ⟨hc l m hl, fun s κ e hA hle hlt => ?_⟩
    obtain ⟨s₁, κ₁, e₁, hb⟩ := best_exists O.bounded hA hle
    have hle1 : s₁ ≤ s := by
      by_contra hn
      exact hb.2.2 _ _ _ hA hle (Or.inl (by omega))
    obtain ⟨x, hx, -⟩ := hm l m s₁ κ₁ e₁ hl (.here hb) (by omega)
    cases hx
  | cons x L ih =>
    intro σ σ2 hr hs ht hm hc hx
    have htx := ht x (by simp)
    have ht' : ∀ y ∈ L, y.1.start < top := fun y hy => ht y (List.mem_cons_of_mem _ hy)
    have hR := hr x (by simp)
    obtain ⟨hs1, hs2⟩ := List.pairwise_cons.1 hs
    -- a match followed by the first thread
    have hfin : ∀ l s κ e, AccR P data lo N l s κ e → Champ P data (x :: L) N l s κ e →
        (s = x.1.start ∧ κ = x.2 ∧ x.1.end = some (e - 1) ∧ opAt P x.1.pc = some .finish ∧ x.1.label = some l) ∨
        Champ P data L N l s κ e := by
      rintro l s κ e hA ⟨y, hy, h1, k', h2, h3⟩
      rcases List.mem_cons.1 hy with rfl | hy
      · rcases h3 with ⟨-, rfl, h4, h5, h6⟩ | ⟨h3, -⟩
        · exact Or.inl ⟨h1.symm, by simpa using h2, h6, h4, h5⟩
        · have := hA.2.2.1; omega
      · exact Or.inr ⟨y, hy, h1, k', h2, h3⟩
    simp only [List.map_cons, closeLoop] at hx
    cases ho : opAt P x.1.pc with
    | none => rw [ho] at hx; cases hx
    | some o =>
      rw [ho] at hx
      by_cases hof : o = .finish
      · subst hof
        simp only at hx
        obtain ⟨j, hend, hsj, hj, hrun⟩ : ∃ j, x.1.end = some j ∧ x.1.start ≤ j ∧ j < N ∧
            Run P (seg data x.1.start (j + 1)) x.2 x.1.pc x.1.label := by
          rcases hR.run with hh | ⟨hh, -⟩ | ⟨-, hh⟩
          · rw [ho] at hh; cases hh
          · exact (O.guarded.noFinish _ hh ho).elim
          · exact hh
        cases hl : x.1.label with
        | none => rw [hl] at hx; cases hx
        | some l =>
          rw [hl] at hx
          simp only at hx
          cases hml : σ.matchEnds[l]? with
          | none => rw [hml] at hx; cases hx
          | some m =>
            rw [hml] at hx
            simp only at hx
            have hT : AccR P data lo N l x.1.start x.2 (j + 1) := by
              refine ⟨hR.lo, by omega, by omega, ?_⟩
              have := acc_of_run hrun (l := l) (w' := []) (k' := []) (by rw [hl]; exact .finish ho)
              simpa using this
            by_cases hle : m ≤ x.1.start
            · rw [if_pos hle] at hx
              rw [show endPlus x.1.end = j + 1 by rw [hend]; rfl] at hx
              have hbest : IsBest P data lo N l m x.1.start x.2 (j + 1) := by
                obtain ⟨s₁, κ₁, e₁, hb⟩ := best_exists O.bounded hT hle
                rcases best_cases hT hle hb with ⟨rfl, rfl, rfl⟩ | hlt
                · exact hb
                · exfalso
                  rcases hfin l s₁ κ₁ e₁ hb.1 (hm l m s₁ κ₁ e₁ hml (.here hb) (by rcases hlt with h' | ⟨h', -⟩ <;> (dsimp only at h'; omega))) with ⟨rfl, rfl, -⟩ | hcc
                  · exact lt_irrefl _ hlt
                  · obtain ⟨y, hy, rfl, hp, -⟩ := champ_key hcc
                    have := hs1 (key y) (List.mem_map_of_mem hy)
                    exact lt_irrefl _ (lt_trans (lt_pre_right this hp) hlt)
              have hlt : l < σ.matchEnds.length := (List.getElem?_eq_some_iff.1 hml).1
              have hset : ∀ l' m', (σ.matchEnds.set l (j + 1))[l']? = some m' →
                  (l' = l ∧ m' = j + 1) ∨ (l' ≠ l ∧ me σ l' m') := by
                intro l' m' hh
                by_cases hll : l' = l
                · subst hll
                  rw [List.getElem?_set_self hlt] at hh
                  exact Or.inl ⟨rfl, (Option.some.inj hh).symm⟩
                · rw [List.getElem?_set_ne (fun e => hll e.symm)] at hh
                  exact Or.inr ⟨hll, hh⟩
              refine ih (fun y hy => hr y (List.mem_cons_of_mem _ hy)) hs2 ht' ?_ ?_ hx
              · intro l' m' s κ e hm' hM hst
                rcases hset l' m' hm' with ⟨rfl, rfl⟩ | ⟨hne, hm'⟩
                · rcases hfin l' s κ e (mem_acc hM).2 (hm l' m s κ e hml (.next hbest hM) hst) with ⟨rfl, -, -⟩ | hcc
                  · have := (mem_acc hM).1; omega
                  · exact hcc
                · rcases hfin l' s κ e (mem_acc hM).2 (hm l' m' s κ e hm' hM hst) with ⟨-, -, -, -, h5⟩ | hcc
                  · rw [hl] at h5; cases h5; exact (hne rfl).elim
                  · exact hcc
              · intro l' m' hm'
                dsimp only
                rw [hitsOf_snoc]
                rcases hset l' m' hm' with ⟨rfl, rfl⟩ | ⟨hne, hm'⟩
                · rw [if_pos rfl]
                  exact (hc l' m hml).snoc hbest
                · rw [if_neg (fun e => hne e.symm), List.append_nil]
                  exact hc l' m' hm'
            · rw [if_neg hle] at hx
              refine ih (fun y hy => hr y (List.mem_cons_of_mem _ hy)) hs2 ht' ?_ hc hx
              intro l' m' s κ e hm' hM hst
              rcases hfin l' s κ e (mem_acc hM).2 (hm l' m' s κ e hm' hM hst) with ⟨rfl, -, -, -, h5⟩ | hcc
              · rw [hl] at h5
                cases h5
                have := (mem_acc hM).1
                unfold me at hm'
                rw [hml] at hm'
                cases hm'
                omega
              · exact hcc
      · have hx' : closeLoop P (L.map Prod.fst) σ = .ok σ2 := by
          cases o <;> first | exact hx | exact (hof rfl).elim
        refine ih (fun y hy => hr y (List.mem_cons_of_mem _ hy)) hs2 ht' ?_ hc hx'
        intro l' m' s κ e hm' hM hst
        rcases hfin l' s κ e (mem_acc hM).2 (hm l' m' s κ e hm' hM hst) with ⟨-, -, -, h4, -⟩ | hcc
        · rw [ho] at h4; cases h4; exact (hof rfl).elim
        · exact hcc


theorem BI.next {σ : St} {LN : List GT} (h : BI P S data lo N off top σ [] LN) :
    BI P S data lo N (off + 1) top (cleanup σ) LN [] := by
  refine ⟨h.nxt, rfl, by simp, h.sortN, by simp, h.restN, by simp, by simp [cleanup], h.max, by simp [cleanup], ?_,
    h.log, ?_, by simp⟩
  · intro l m s κ e hm hM hs
    rcases h.mem l m s κ e hm hM hs with hc | ⟨x, hx, -⟩
    · exact Or.inr hc
    · cases hx
  · intro p hp
    obtain ⟨x, hx, rfl⟩ := List.mem_map.1 hp
    exact h.topN x hx

/-- The loop of `startsWith`. -/
theorem starts_loop (O : Ordered P S F K B) {fuel : Nat} : ∀ (buf : List UInt8) {off : Nat} {σ σ2 : St} {LA : List GT},
    Holds data off buf → off + buf.length = N → top ≤ off + 1 → BI P S data lo N off top σ LA [] →
    startsLoop P true fuel buf off σ = .ok σ2 →
    ∃ LA' off', BI P S data lo N off' top σ2 LA' [] ∧ (off' = N ∨ LA' = []) := by
  intro buf
  induction buf with
  | nil =>
    intro off σ σ2 LA _ hN _ h hr
    simp only [startsLoop, Res.ok.injEq] at hr
    subst hr
    exact ⟨LA, off, h, Or.inl (by simpa using hN)⟩
  | cons b bs ih =>
    intro off σ σ2 LA hd hN ht h hr
    simp only [startsLoop] at hr
    obtain ⟨σ1, h1, hr⟩ := bind_eq_ok.1 hr
    obtain ⟨hb, hd'⟩ := hd.cons
    simp only [List.length_cons] at hN
    rw [hb] at h1
    obtain ⟨LN, h2⟩ := best_active O ht (by omega) _ h (by rw [h.act]; simp) h1
    have h3 := h2.next
    split at hr
    · next he =>
      simp only [Res.ok.injEq] at hr
      subst hr
      rw [h3.act, List.isEmpty_iff, List.map_eq_nil_iff] at he
      exact ⟨LN, _, h3, Or.inr he⟩
    · exact ih hd' (by omega) (by omega) h3 hr

/-- The hits of `startsLoop` are matches. -/
theorem startsLoop_sound (G : Guarded P S) (Fi : Finishing P S F) {cb : Bool} {fuel : Nat} (buf : List UInt8) :
    ∀ {off : Nat} {σ σ' : St}, Holds data off buf → SBetween P S F data off σ → startsLoop P cb fuel buf off σ = .ok σ' →
    ∃ j, SBetween P S F data j σ' := by
  induction buf with
  | nil => intro off σ σ' _ hI h; simp only [startsLoop, Res.ok.injEq] at h; subst h; exact ⟨off, hI⟩
  | cons b bs ih =>
    intro off σ σ' hd hI h
    simp only [startsLoop] at h
    obtain ⟨σ1, h1, h⟩ := bind_eq_ok.1 h
    obtain ⟨hb, hd⟩ := hd.cons
    rw [hb] at h1
    have hI1 := runActive_sound G Fi _ ⟨hI.active, by rw [hI.next]; simp, hI.log⟩ h1
    have hI2 : SBetween P S F data (off + 1) (cleanup σ1) := ⟨hI1.next, rfl, hI1.log⟩
    split at h
    · simp only [Res.ok.injEq] at h; subst h; exact ⟨_, hI2⟩
    · exact ih hd hI2 h

/-- Every hit of lg_starts_with on a new context is a match of its keyword. -/
theorem starts_sound (G : Guarded P S) (Fi : Finishing P S F) {fuel : Nat} {first : List Thread} {σ0 σ : St}
    (hc : create P fuel = .ok (first, σ0)) {cb : Bool} {buf : List UInt8} (hd : Holds data lo buf)
    (hx : startsWith P first cb fuel buf lo σ0 = .ok σ) : ∀ h ∈ σ.log, Accepts P h.label (seg data h.start h.end) := by
  have hf := create_run G hc
  obtain ⟨rfl, -⟩ := create_spec G hc
  unfold startsWith at hx
  split at hx
  · obtain ⟨σ1, h1, hx⟩ := bind_eq_ok.1 hx
    obtain ⟨σ2, h2, hx⟩ := bind_eq_ok.1 hx
    cases hx
    obtain ⟨j, hI⟩ := startsLoop_sound (F := F) G Fi buf hd ⟨by
      intro t ht
      simp only [preInit, List.nil_append, newThreads, List.mem_map] at ht
      obtain ⟨u, hu, rfl⟩ := ht
      obtain ⟨a, k, b⟩ := hf u hu
      exact Or.inl ⟨Nat.le_refl _, a, k, by simpa [seg_self] using b⟩, rfl, by simp [preInit, Sound]⟩ h1
    unfold closeOut at h2
    split at h2
    · exact (closeLoop_sound G _ hI.active hI.log h2).1
    · cases h2; exact hI.log
  · cases hx; simp [preInit]

/-- The hits of `startsWith` that passes the filter, on a fresh context. -/
theorem starts_best (O : Ordered P S F K B) {E : Nat → Prop} (hE : Starts P S E) {fuel : Nat}
    {first : List Thread} {σ0 σ : St} (hc : create P fuel = .ok (first, σ0)) {buf : List UInt8} (hd : Holds data lo buf)
    (hg : startsGate P buf = true) (hx : startsWith P first true fuel buf lo σ0 = .ok σ) {l : Nat} (hl : l ≤ P.maxLabel) :
    (∃ κ e, IsBest P data lo (lo + buf.length) l 0 lo κ e ∧ hitsOf l σ.log = [(lo, e)]) ∨
    hitsOf l σ.log = [] ∧ ∀ κ e, ¬ AccR P data lo (lo + buf.length) l lo κ e := by
  obtain ⟨LF, hf⟩ := create_firsts hE hc
  obtain ⟨rfl, -⟩ := create_spec O.guarded hc
  simp only [startsWith, hg, if_true] at hx
  obtain ⟨σ1, h1, hx⟩ := bind_eq_ok.1 hx
  obtain ⟨σ2, h2, hx⟩ := bind_eq_ok.1 hx
  cases hx
  simp only [closeOut, if_true] at h2
  let LA0 : List GT := LF.map (fun x => (({ pc := x.1, start := lo, «end» := none, label := none, lead := false } : Thread), x.2))
  have hnt : newThreads first lo = LA0.map Prod.fst := by
    have e1 : newThreads first lo = (first.map (·.pc)).map
        (fun pc => ({ pc := pc, start := lo, «end» := none, label := none, lead := false } : Thread)) := by
      simp [newThreads]
    rw [e1, hf.pcs]
    simp [LA0]
  have hkeys : LA0.map key = (LF.map Prod.snd).map (fun k => (lo, k)) := by simp [LA0, key]
  have hz : ∀ l m, me (preInit P) l m → m = 0 := by
    intro l m hm
    unfold me preInit at hm
    simp only [List.getElem?_replicate] at hm
    split at hm
    · exact (Option.some.inj hm).symm
    · cases hm
  have hb : BI P S data lo (lo + buf.length) lo (lo + 1) { preInit P with active := (preInit P).active ++ newThreads first lo } LA0 [] := by
    refine ⟨by simp [preInit, hnt], rfl, by simp, ?_, by simp, ?_, by simp, by simp [preInit], ?_, by simp [preInit], ?_, ?_, ?_, by simp⟩
    · rw [hkeys, List.pairwise_map]
      exact hf.sort.imp (fun h => Or.inr ⟨rfl, h⟩)
    · intro x hx
      obtain ⟨y, hy, rfl⟩ := List.mem_map.1 hx
      obtain ⟨hS, hr⟩ := hf.run y hy
      refine ⟨Nat.le_refl _, Nat.le_refl _, fun j hj => (by cases hj), Or.inr (Or.inl ⟨hS, ?_⟩)⟩
      show Run P (seg data lo lo) _ _ none
      rw [seg_self]
      exact hr
    · intro l m hm; rw [hz l m hm]; exact Nat.zero_le _
    · intro l m s κ e hm hM hs
      have hA := (mem_acc hM).2
      have : s = lo := by have := hA.1; omega
      subst this
      have hac := hA.2.2.2
      rw [seg_cons data hA.2.1] at hac
      obtain ⟨x, hx, k', hk, pc', hc, ha⟩ := hf.all _ _ _ _ hac
      exact Or.inr ⟨_, List.mem_map_of_mem hx, rfl, k', hk, Or.inr ⟨hA.2.1, pc', hc, ha⟩⟩
    · intro l m hm
      rw [hz l m hm]
      exact .nil
    · intro p hp
      rw [hkeys] at hp
      obtain ⟨k, -, rfl⟩ := List.mem_map.1 hp
      exact Nat.lt_succ_self _
  obtain ⟨LA, off', h3, h4⟩ := starts_loop O buf hd rfl (Nat.le_refl _) hb h1
  have htop : ∀ x ∈ LA, x.1.start < lo + 1 := fun x hx => h3.topA (key x) (List.mem_map_of_mem hx)
  rw [h3.act] at h2
  have hcl := close_below O (top := lo + 1) LA (by
      rcases h4 with rfl | rfl
      · exact h3.restA
      · simp) h3.sortA htop (by
      intro l m s κ e hm hM hs
      rcases h3.mem l m s κ e hm hM hs with ⟨x, hx, -⟩ | hc
      · cases hx
      · rcases h4 with rfl | rfl
        · exact hc
        · obtain ⟨x, hx, -⟩ := hc
          cases hx) h3.log h2
  have hlen1 : σ2.matchEnds.length = P.maxLabel + 1 := by
    have hst : step P first fuel (.startsWith buf lo true) (preInit P) = .ok (none, reset σ2) := by
      simp only [step, startsWith, hg, if_true, h1, closeOut]
      rw [← h3.act] at h2
      simp [bind, Res.bind, h2]
    have := step_len hst
    simpa [reset, preInit] using this
  have hlt : l < σ2.matchEnds.length := by omega
  obtain ⟨hch, hno⟩ := hcl l _ (List.getElem?_eq_getElem hlt)
  have hlog : hitsOf l (reset σ2).log = hitsOf l σ2.log := rfl
  rw [hlog]
  have hsl : ∀ h ∈ hitsOf l σ2.log, h.1 = lo := by
    obtain ⟨a, b⟩ := startsLoop_starts (s := lo) buf ⟨by
        intro t ht
        simp only [preInit, newThreads, List.nil_append, List.mem_map] at ht
        obtain ⟨u, _, rfl⟩ := ht
        rfl, by simp [preInit], by simp [preInit]⟩ h1
    rw [h3.act] at a
    have := closeLoop_starts _ a b h2
    intro h hh
    unfold hitsOf at hh
    obtain ⟨y, hy, rfl⟩ := List.mem_map.1 hh
    exact this y (List.mem_filter.1 hy).1
  generalize hitsOf l σ2.log = hs at hch hsl
  generalize σ2.matchEnds[l] = m at hch hno
  cases hch with
  | nil => exact Or.inr ⟨rfl, fun κ e hA => hno _ κ e hA (Nat.zero_le _) (Nat.lt_succ_self _)⟩
  | @snoc hs m' s κ _ hch hbest =>
    have hs0 : s = lo := hsl (s, m) (by simp)
    subst hs0
    cases hch with
    | nil => exact Or.inl ⟨κ, m, hbest, rfl⟩
    | @snoc hs m'' s' κ' e' hch hbest' =>
      have h5 := hbest'.1.1
      have h6 := hbest'.1.2.1
      have h7 := hbest.2.1
      omega

end
end Verif.Vm
