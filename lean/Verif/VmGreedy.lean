import Verif.VmPrefer
import Verif.VmSession
/-!
# A whole search reports the preferred matches
-/
namespace Verif.Vm

section
variable {P : Program} {S F : Nat → Prop} {K : Nat → Option Nat → Nat → Prop} {B : Nat}
variable {data : Nat → UInt8} {lo N : Nat} {off top : Nat}

/-- Invariant between the threads of a frame. -/
structure BI (P : Program) (S : Nat → Prop) (data : Nat → UInt8) (lo N off top : Nat) (σ : St) (LA LN : List GT) : Prop where
  act : σ.active = LA.map Prod.fst
  nxt : σ.next = LN.map Prod.fst
  sortN : (LN.map key).Pairwise Lt
  sortA : (LA.map key).Pairwise Lt
  cross : ∀ x ∈ LN, ∀ p ∈ LA.map key, Lt (key x) p
  restA : ∀ x ∈ LA, Rest P S data lo off x
  restN : ∀ x ∈ LN, Rest P S data lo (off + 1) x
  live : ∀ t ∈ σ.next, (t.label = none → σ.liveNone = true) ∧ ∀ l, t.label = some l → l ∈ σ.live
  max : ∀ l m, me σ l m → m ≤ σ.matchEndsMax
  locks : ∀ c ∈ σ.checks, ∃ r, Lock P data lo N off σ c r ∧ r.s < top ∧ ∀ p ∈ LA.map key, Lt (r.s, r.k) p
  mem : ∀ l m s κ e, me σ l m → Mem P data lo N l m s κ e → s < top →
    Champ P data LN (off + 1) l s κ e ∨ Champ P data LA off l s κ e
  log : ∀ l m, me σ l m → Chain P data lo N l (hitsOf l σ.log) m
  topA : ∀ p ∈ LA.map key, p.1 < top
  topN : ∀ x ∈ LN, x.1.start < top

theorem champ_key {L : List GT} {i l s κ e} (h : Champ P data L i l s κ e) : ∃ x ∈ L, x.1.start = s ∧ x.2 <+: κ ∧
    Champ P data [x] i l s κ e := by
  obtain ⟨x, hx, h1, k', h2, h3⟩ := h
  exact ⟨x, hx, h1, ⟨k', h2.symm⟩, x, by simp, h1, k', h2, h3⟩

theorem champ_sub {L L' : List GT} {i l s κ e} (h : Champ P data L i l s κ e) (hs : ∀ x ∈ L, x ∈ L') : Champ P data L' i l s κ e := by
  obtain ⟨x, hx, hh⟩ := h
  exact ⟨x, hs x hx, hh⟩

theorem lt_pre_right {a : Nat × List Bool} {s : Nat} {k κ : List Bool} (h : Lt a (s, k)) (hp : k <+: κ) : Lt a (s, κ) := by
  obtain ⟨y, rfl⟩ := hp
  have := lt_append (s := a.1) (k := a.2) [] y h
  rwa [List.append_nil] at this

theorem lt_pre_left {a : Nat × List Bool} {s : Nat} {k κ : List Bool} (h : Lt (s, k) a) (hp : k <+: κ) : Lt (s, κ) a := by
  obtain ⟨y, rfl⟩ := hp
  have := lt_append (s' := a.1) (k' := a.2) y [] h
  rwa [List.append_nil] at this

theorem not_lt_pre {s : Nat} {k κ : List Bool} (hp : k <+: κ) : ¬ Lt (s, κ) (s, k) ∧ ¬ Lt (s, k) (s, κ) :=
  ⟨fun h => lt_irrefl _ (lt_pre_right h hp), fun h => lt_irrefl _ (lt_pre_left h hp)⟩

/-- Where a match still to be reported lies relative to the next thread. -/
theorem BI.tri {σ : St} {x : GT} {LA LN : List GT} (h : BI P S data lo N off top σ (x :: LA) LN) {l m s κ e}
    (hm : me σ l m) (hM : Mem P data lo N l m s κ e) (hs : s < top) :
    (Lt (s, κ) (key x) ∧ Champ P data LN (off + 1) l s κ e) ∨ (Lt (key x) (s, κ) ∧ Champ P data LA off l s κ e) ∨
    (s = x.1.start ∧ x.2 <+: κ ∧ Champ P data [x] off l s κ e) := by
  rcases h.mem l m s κ e hm hM hs with hc | hc
  · obtain ⟨y, hy, rfl, hp, -⟩ := champ_key hc
    exact Or.inl ⟨lt_pre_left (h.cross y hy _ (by simp)) hp, hc⟩
  · obtain ⟨y, hy, rfl, hp, hc'⟩ := champ_key hc
    rcases List.mem_cons.1 hy with rfl | hy
    · exact Or.inr (Or.inr ⟨rfl, hp, hc'⟩)
    · have := (List.pairwise_cons.1 h.sortA).1 (key y) (List.mem_map_of_mem hy)
      exact Or.inr (Or.inl ⟨lt_pre_right this hp, champ_sub hc' (by simpa using hy)⟩)

/-- Taking the next thread. -/
theorem BI.take {σ : St} {x : GT} {LA LN : List GT} (h : BI P S data lo N off top σ (x :: LA) LN) :
    FI P S data lo N off top { σ with active := LA.map Prod.fst } LA LN (Bef x.1.start x.2) (fun _ => False) x.1.start x.2 := by
  refine ⟨rfl, h.nxt, h.sortN, ?_, (List.pairwise_cons.1 h.sortA).2, (List.pairwise_cons.1 h.sortA).1,
    fun y hy => h.restA y (List.mem_cons_of_mem _ hy), h.restN, h.live, h.max, ?_, ?_, ?_, h.log,
    fun p hp => h.topA p (List.mem_cons_of_mem _ hp), h.topN⟩
  · intro y hy
    exact h.cross y hy (key x) (by simp)
  · intro c hc
    obtain ⟨r, a, b, d⟩ := h.locks c hc
    exact ⟨r, a, b, Or.inl (d (key x) (by simp))⟩
  · intro l m s κ e hm hM hs hb
    rcases h.tri hm hM hs with ⟨-, hc⟩ | ⟨hlt, -⟩ | ⟨rfl, hp, -⟩
    · exact hc
    · exact (lt_irrefl _ (lt_trans hlt hb)).elim
    · exact ((not_lt_pre hp).1 hb).elim
  · intro l m s κ e hm hM hs hb
    rcases h.tri hm hM hs with ⟨hlt, -⟩ | ⟨-, hc⟩ | ⟨rfl, hp, -⟩
    · exact (lt_irrefl _ (lt_trans hlt hb)).elim
    · exact hc
    · exact ((not_lt_pre hp).2 hb).elim

/-- After a thread has run. -/
theorem FI.done {σ σ2 : St} {x : GT} {LA LA' LN LN' : List GT} (h : BI P S data lo N off top σ (x :: LA) LN)
    (h' : FI P S data lo N off top σ2 LA' LN' (Aft x.1.start x.2) (fun _ => False) x.1.start x.2)
    (hs : ∀ l m', me σ2 l m' → ∃ m, me σ l m ∧ ∀ s κ e, Mem P data lo N l m' s κ e → Mem P data lo N l m s κ e) :
    BI P S data lo N off top σ2 LA' LN' := by
  have cr : ∀ q, Aft x.1.start x.2 q → ∀ p, Lt (x.1.start, x.2) p → Lt q p := by
    rintro ⟨q1, q2⟩ (hq | ⟨hq, hp⟩) p hlt
    · exact lt_trans hq hlt
    · dsimp only at hq hp
      rw [hq]
      exact lt_pre_left hlt hp
  refine ⟨h'.act, h'.nxt, h'.sortN, h'.sortA, fun y hy p hp => cr _ (h'.cutN y hy) p (h'.afterA p hp), h'.restA, h'.restN,
    h'.live, h'.max, ?_, ?_, h'.log, h'.topA, h'.topN⟩
  · intro c hc
    obtain ⟨r, a, b, d⟩ := h'.locks c hc
    rcases d with d | d
    · exact ⟨r, a, b, fun p hp => cr _ d p (h'.afterA p hp)⟩
    · exact d.elim
  · intro l m' s κ e hm hM hst
    obtain ⟨m, hm0, hsub⟩ := hs l m' hm
    rcases h.tri hm0 (hsub _ _ _ hM) hst with ⟨hlt, -⟩ | ⟨hlt, -⟩ | ⟨hx, hp, -⟩
    · exact Or.inl (h'.memN l m' s κ e hm hM hst (Or.inl hlt))
    · exact Or.inr (h'.memA l m' s κ e hm hM hst hlt)
    · exact Or.inl (h'.memN l m' s κ e hm hM hst (Or.inr ⟨hx, hp⟩))

/-- Running one thread. -/
theorem best_thread (O : Ordered P S F K B) (htop : top ≤ off + 1) (hN : off < N) {fuel : Nat} {σ σ2 : St} {x : GT}
    {LA LN : List GT} (h : BI P S data lo N off top σ (x :: LA) LN)
    (hx : execThread P true fuel off (data off) x.1 { σ with active := LA.map Prod.fst } = .ok σ2) :
    ∃ LA' LN', BI P S data lo N off top σ2 LA' LN' := by
  have hF := h.take
  have hst : x.1.start < top := h.topA (key x) (by simp)
  have hR := h.restA x (by simp)
  have hth : ∀ l m κ e, me σ l m → Mem P data lo N l m x.1.start κ e → x.2 <+: κ → Champ P data [x] off l x.1.start κ e := by
    intro l m κ e hm hM hp
    rcases h.tri hm hM hst with ⟨hlt, -⟩ | ⟨hlt, -⟩ | ⟨-, -, hc⟩
    · exact ((not_lt_pre hp).1 hlt).elim
    · exact ((not_lt_pre hp).2 hlt).elim
    · exact hc
  -- a thread that ends
  have hdrop : (∀ l m κ e, me σ l m → Mem P data lo N l m x.1.start κ e → x.2 <+: κ → False) →
      Res.ok { σ with active := LA.map Prod.fst } = .ok σ2 → ∃ LA' LN', BI P S data lo N off top σ2 LA' LN' := by
    intro hd hh
    cases hh
    exact ⟨LA, LN, FI.done h (hF.drop hd) (fun l m hm => ⟨m, hm, fun _ _ _ h => h⟩)⟩
  simp only [execThread] at hx
  obtain ⟨r0, h0, hx⟩ := bind_eq_ok.1 hx
  cases r0 with
  | none =>
    simp only at hx
    refine hdrop ?_ hx
    intro l m κ e hm hM hp
    obtain ⟨y, hy, -, k', -, hc⟩ := hth l m κ e hm hM hp
    rw [List.mem_singleton.1 hy] at hc
    rcases hc with ⟨-, -, ho, -⟩ | ⟨-, pc', hc, -⟩
    · simp [exec, ho] at h0
    · rw [exec_cons hc] at h0
      cases h0
  | some t' =>
    simp only at hx
    obtain ⟨⟨r, σ1⟩, h1, hx⟩ := bind_eq_ok.1 hx
    have hpr : pushR r σ1 = .ok σ2 := by
      cases r <;> exact hx
    unfold epSeq at h1
    rcases exec_some h0 with ⟨pc', rfl, hc⟩ | ⟨rfl, ho⟩
    · -- a byte is read
      obtain ⟨o, ho, n1, -, -, -, -, -, n7⟩ := cons_op hc
      obtain ⟨hS, hrun⟩ : S x.1.pc ∧ Run P (seg data x.1.start off) x.2 x.1.pc x.1.label := by
        rcases hR.run with hh | hh | ⟨hh, -⟩
        · rw [ho] at hh; cases hh; exact (n7 rfl).elim
        · exact hh
        · rw [ho] at hh; cases hh; exact (n1 rfl).elim
      have hrun' : Run P (seg data x.1.start (off + 1)) x.2 pc' x.1.label := by
        rw [seg_succ data hR.hi]
        exact hrun.byte hc
      have hthru : ∀ l m κ e, me σ l m → Mem P data lo N l m x.1.start κ e → ∀ k', κ = x.2 ++ k' →
          off + 1 ≤ e ∧ AccFrom P l pc' x.1.label (seg data (off + 1) e) k' := by
        rintro l m κ e hm hM k' rfl
        obtain ⟨y, hy, -, k'', hk'', hcc⟩ := hth l m _ e hm hM (List.prefix_append _ _)
        rw [List.mem_singleton.1 hy] at hk'' hcc
        rw [List.append_cancel_left_eq] at hk''
        subst hk''
        rcases hcc with ⟨-, -, ho', -⟩ | ⟨hlt, pc'', hc', ha⟩
        · rw [ho] at ho'; cases ho'; exact (n1 rfl).elim
        · rw [cons_det hc hc']
          exact ⟨hlt, ha⟩
      rcases overlap_cases h1 with ⟨h1, hov⟩ | ⟨l, m, hl, hm, hlt, h1⟩
      · obtain ⟨m, hmB, hk⟩ := run_safe O.bounded hrun'
        have hT : TC P S F K data lo N off top { σ with active := LA.map Prod.fst } (fun _ => False)
            { x.1 with pc := pc' } x.1.start x.2 x.2 m :=
          { st := rfl, low := hR.lo, hi := hst, run := hrun', pc := Or.inl (O.guarded.cons _ _ _ hS hc)
            ends := fun j hj => Nat.le_of_lt (hR.ends j hj)
            rank := hk
            anc := fun r hr => hr.elim
            pre := List.prefix_refl _
            thru := hthru
            dead := fun l m hl hm => Or.inl (hov l m hl hm)
            lead := fun he => by have := hR.ends off he; omega }
        obtain ⟨LA', LN', hF2, hs⟩ := best_ep O htop hN fuel hF hT h1 hpr
        refine ⟨LA', LN', FI.done h hF2 ?_⟩
        intro l m' hm'
        obtain ⟨m, a, -, c⟩ := hs l m' hm'
        exact ⟨m, a, c⟩
      · simp only [Prod.mk.injEq] at h1
        obtain ⟨rfl, rfl⟩ := h1
        refine hdrop ?_ hpr
        rintro l' m' κ e hm' hM ⟨k', rfl⟩
        have hh := acc_label_rel O (hthru l' m' _ e hm' hM k' rfl).2 hrun'
        dsimp only at hl hlt hm
        rw [hl] at hh
        rcases hh with hh | hh
        · cases hh
        · cases hh
          have := (mem_acc hM).1
          unfold me at hm'
          rw [hm] at hm'
          cases hm'
          omega
    · -- a waiting thread
      obtain ⟨j, hend, hsj, hj, hrun⟩ : ∃ j, x.1.end = some j ∧ x.1.start ≤ j ∧ j < off ∧
          Run P (seg data x.1.start (j + 1)) x.2 x.1.pc x.1.label := by
        rcases hR.run with hh | ⟨hh, -⟩ | ⟨-, hh⟩
        · rw [ho] at hh; cases hh
        · exact (O.guarded.noFinish _ hh ho).elim
        · exact hh
      obtain ⟨mm, hmB, hk⟩ := run_safe O.bounded hrun
      cases hl : x.1.label with
      | none => exact (O.bounded.finish hk ho hl).elim
      | some l =>
        rcases overlap_cases h1 with ⟨h1, hov⟩ | ⟨l', m, hl', hm, hlt, h1⟩
        · cases fuel with
          | zero => simp [epLoop] at h1
          | succ n =>
            simp only [epLoop, ho] at h1
            obtain ⟨LA', LN', hF2, hs⟩ := best_finish O hF rfl hR.lo hst ho hl hend hsj (by omega) (by omega) hrun (by
              rintro y hy ⟨he, -⟩
              rw [hend] at he
              cases he
              omega) h1 hpr
            refine ⟨LA', LN', FI.done h hF2 ?_⟩
            intro l m' hm'
            obtain ⟨m, a, -, c⟩ := hs l m' hm'
            exact ⟨m, a, c⟩
        · simp only [Prod.mk.injEq] at h1
          obtain ⟨rfl, rfl⟩ := h1
          rw [hl] at hl'
          cases hl'
          refine hdrop ?_ hpr
          intro l' m' κ e hm' hM hp
          obtain ⟨y, hy, -, k', -, hcc⟩ := hth l' m' κ e hm' hM hp
          rw [List.mem_singleton.1 hy] at hcc
          rcases hcc with ⟨-, -, -, hl2, -⟩ | ⟨-, pc', hc, -⟩
          · rw [hl] at hl2
            cases hl2
            have := (mem_acc hM).1
            unfold me at hm'
            dsimp only at hm
            rw [hm] at hm'
            cases hm'
            omega
          · obtain ⟨o, ho', n1, -⟩ := cons_op hc
            rw [ho] at ho'
            cases ho'
            exact (n1 rfl).elim

theorem execThread_length {cb : Bool} {fuel : Nat} {b : UInt8} {t : Thread} {σ σ' : St}
    (h : execThread P cb fuel off b t σ = .ok σ') : σ'.active.length = σ.active.length := by
  have key : (fun σ' : St => σ'.active.length = σ.active.length) σ' := by
    apply execThread_inv (P := P) (T := fun _ => True) (I := fun σ' => σ'.active.length = σ.active.length)
      (H := ?_) (fun _ _ => trivial) rfl h
    exact {
      fork1 := fun _ _ _ => trivial
      fork2 := fun _ _ _ _ _ => trivial
      jump := fun _ _ _ _ _ => trivial
      check := fun _ _ _ _ => trivial
      label := fun _ _ _ _ => trivial
      «match» := fun _ _ _ _ => trivial
      kill := fun t σ _ _ h => by simp only [kill_length]; exact h
      emit := fun t σ l m _ _ h _ _ _ _ => h
      push := fun t σ σ' _ h _ hp => by rw [(pushLive_ok hp).2.1]; exact h
      lock := fun t σ i _ h _ _ => h }
  exact key

theorem best_active (O : Ordered P S F K B) (htop : top ≤ off + 1) (hN : off < N) {fuel : Nat} : ∀ (n : Nat) {σ σ2 : St}
    {LA LN : List GT}, BI P S data lo N off top σ LA LN → LA.length ≤ n →
    runActive P true fuel off (data off) n σ = .ok σ2 → ∃ LN', BI P S data lo N off top σ2 [] LN' := by
  intro n
  induction n with
  | zero =>
    intro σ σ2 LA LN h hlen hr
    simp only [runActive, Res.ok.injEq] at hr
    subst hr
    rw [List.length_eq_zero_iff.1 (Nat.le_zero.1 hlen)] at h
    exact ⟨LN, h⟩
  | succ n ih =>
    intro σ σ2 LA LN h hlen hr
    simp only [runActive] at hr
    cases LA with
    | nil =>
      rw [h.act] at hr
      simp only [List.map_nil, Res.ok.injEq] at hr
      subst hr
      exact ⟨LN, h⟩
    | cons x LA =>
      rw [h.act] at hr
      simp only [List.map_cons] at hr
      obtain ⟨σ1, h1, hr⟩ := bind_eq_ok.1 hr
      have hl := execThread_length h1
      obtain ⟨LA', LN', hb⟩ := best_thread O htop hN h h1
      refine ih hb ?_ hr
      rw [hb.act] at hl
      simp only [List.length_map] at hl
      simp only [List.length_cons] at hlen
      omega

/-- The initial threads: what can be reached without reading, in order. -/
structure Firsts (P : Program) (S : Nat → Prop) (first : List Thread) (LF : List (Nat × List Bool)) : Prop where
  pcs : first.map (·.pc) = LF.map Prod.fst
  sort : (LF.map Prod.snd).Pairwise Div
  run : ∀ x ∈ LF, S x.1 ∧ Run P [] x.2 x.1 none
  all : ∀ l b w κ, AccFrom P l 0 none (b :: w) κ → ∃ x ∈ LF, ∃ k', κ = x.2 ++ k' ∧
    ∃ pc', Cons P b x.1 pc' ∧ AccFrom P l pc' none w k'

/-- Ready to read the byte at `off`. -/
def Ready (P : Program) (S : Nat → Prop) (data : Nat → UInt8) (lo N off : Nat) (σ : St) : Prop :=
  ∃ LA, BI P S data lo N off off σ LA []

theorem BI.ready {σ : St} {LN : List GT} (h : BI P S data lo N off (off + 1) σ [] LN) :
    Ready P S data lo N (off + 1) (cleanup σ) := by
  refine ⟨LN, ⟨h.nxt, rfl, by simp, h.sortN, by simp, h.restN, by simp, by simp [cleanup], h.max, by simp [cleanup], ?_,
    h.log, ?_, by simp⟩⟩
  · intro l m s κ e hm hM hs
    rcases h.mem l m s κ e hm hM hs with hc | ⟨x, hx, -⟩
    · exact Or.inr hc
    · cases hx
  · intro p hp
    obtain ⟨x, hx, rfl⟩ := List.mem_map.1 hp
    exact h.topN x hx

/-- One byte. -/
theorem best_frame (O : Ordered P S F K B) {first : List Thread} {LF : List (Nat × List Bool)} (hf : Firsts P S first LF)
    (hlo : lo ≤ off) (hN : off < N) {fuel : Nat} {spawn : Bool} {σ σ2 : St}
    (hsp : spawn = false → ∀ l e κ, off < e → ¬ AccFrom P l 0 none (seg data off e) κ)
    (h : Ready P S data lo N off σ) (hx : frame P first true fuel off (data off) spawn σ = .ok σ2) :
    Ready P S data lo N (off + 1) σ2 := by
  obtain ⟨LA, hb⟩ := h
  simp only [frame] at hx
  obtain ⟨σ1, h1, hx⟩ := bind_eq_ok.1 hx
  obtain ⟨σ3, h3, hx⟩ := bind_eq_ok.1 hx
  cases hx
  obtain ⟨LN, hb1⟩ := best_active O (by omega) hN _ hb (by rw [hb.act]; simp) h1
  cases spawn with
  | false =>
    simp only [Bool.false_eq_true, if_false, Res.ok.injEq] at h3
    subst h3
    refine BI.ready (LN := LN) { hb1 with
      locks := fun c hc => by
        obtain ⟨r, a, b, d⟩ := hb1.locks c hc
        exact ⟨r, a, by omega, d⟩
      mem := fun l m s κ e hm hM hs => by
        by_cases hso : s < off
        · exact hb1.mem l m s κ e hm hM hso
        · have : s = off := by omega
          subst this
          have hA := (mem_acc hM).2
          exact (hsp rfl l e κ hA.2.1 hA.2.2.2).elim
      topA := by simp
      topN := fun x hx => by have := hb1.topN x hx; omega }
  | true =>
    simp only [if_true] at h3
    let LA0 : List GT := LF.map (fun x => (({ pc := x.1, start := off, «end» := none, label := none, lead := false } : Thread), x.2))
    have hnt : newThreads first off = LA0.map Prod.fst := by
      have e1 : newThreads first off = (first.map (·.pc)).map
          (fun pc => ({ pc := pc, start := off, «end» := none, label := none, lead := false } : Thread)) := by
        simp [newThreads]
      rw [e1, hf.pcs]
      simp [LA0]
    have hlen : LA0.length = first.length := by
      have := congrArg List.length hf.pcs
      simp only [List.length_map] at this
      simp [LA0, this]
    have hkeys : LA0.map key = (LF.map Prod.snd).map (fun k => (off, k)) := by
      simp [LA0, key]
    have hb2 : BI P S data lo N off (off + 1) { σ1 with active := newThreads first off } LA0 LN := by
      refine ⟨hnt, hb1.nxt, hb1.sortN, ?_, ?_, ?_, hb1.restN, hb1.live, hb1.max, ?_, ?_, hb1.log, ?_, ?_⟩
      · rw [hkeys, List.pairwise_map]
        exact hf.sort.imp (fun h => Or.inr ⟨rfl, h⟩)
      · intro x hx p hp
        rw [hkeys] at hp
        obtain ⟨k, -, rfl⟩ := List.mem_map.1 hp
        exact Or.inl (hb1.topN x hx)
      · intro x hx
        obtain ⟨y, hy, rfl⟩ := List.mem_map.1 hx
        obtain ⟨hS, hr⟩ := hf.run y hy
        refine ⟨hlo, Nat.le_refl _, fun j hj => (by cases hj), Or.inr (Or.inl ⟨hS, ?_⟩)⟩
        show Run P (seg data off off) _ _ none
        rw [seg_self]
        exact hr
      · intro c hc
        obtain ⟨r, a, b, d⟩ := hb1.locks c hc
        refine ⟨r, a, by omega, ?_⟩
        intro p hp
        rw [hkeys] at hp
        obtain ⟨k, -, rfl⟩ := List.mem_map.1 hp
        exact Or.inl b
      · intro l m s κ e hm hM hs
        by_cases hso : s < off
        · rcases hb1.mem l m s κ e hm hM hso with hc | ⟨x, hx, -⟩
          · exact Or.inl hc
          · cases hx
        · have : s = off := by omega
          subst this
          have hA := (mem_acc hM).2
          have hac := hA.2.2.2
          rw [seg_cons data hA.2.1] at hac
          obtain ⟨x, hx, k', hk, pc', hc, ha⟩ := hf.all _ _ _ _ hac
          exact Or.inr ⟨_, List.mem_map_of_mem hx, rfl, k', hk, Or.inr ⟨hA.2.1, pc', hc, ha⟩⟩
      · intro p hp
        rw [hkeys] at hp
        obtain ⟨k, -, rfl⟩ := List.mem_map.1 hp
        exact Nat.lt_succ_self _
      · intro x hx
        have := hb1.topN x hx
        omega
    obtain ⟨LN2, hb3⟩ := best_active O (Nat.le_refl _) hN _ hb2 (by omega) h3
    exact hb3.ready

theorem holds_seg {off : Nat} {buf : List UInt8} (h : Holds data off buf) : buf = seg data off (off + buf.length) := by
  induction buf generalizing off with
  | nil => simp [seg_self]
  | cons b bs ih =>
    obtain ⟨h1, h2⟩ := h.cons
    rw [seg_cons data (by simp), ← h1]
    congr 1
    have := ih h2
    simp only [List.length_cons]
    rw [show off + (bs.length + 1) = off + 1 + bs.length by omega]
    exact this

/-- The filter only turns down positions where no match starts. -/
def Filters (P : Program) : Prop :=
  ∀ l w κ rest, AccFrom P l 0 none w κ → w ≠ [] → rest ≠ [] → (w <+: rest ∨ rest <+: w) → spawnHere P rest = true

/-- One buffer. -/
theorem best_loop (O : Ordered P S F K B) {first : List Thread} {LF : List (Nat × List Bool)} (hf : Firsts P S first LF)
    (hfl : Filters P) {fuel : Nat} : ∀ (buf : List UInt8) {off : Nat} {σ σ2 : St}, Holds data off buf → lo ≤ off →
    off + buf.length ≤ N → Ready P S data lo N off σ → searchLoop P first true fuel buf off σ = .ok σ2 →
    Ready P S data lo N (off + buf.length) σ2 := by
  intro buf
  induction buf with
  | nil => intro off σ σ2 _ _ _ h hr; simp only [searchLoop, Res.ok.injEq] at hr; subst hr; exact h
  | cons b bs ih =>
    intro off σ σ2 hd hlo hN h hr
    simp only [searchLoop] at hr
    obtain ⟨σ1, h1, hr⟩ := bind_eq_ok.1 hr
    obtain ⟨hb, hd'⟩ := hd.cons
    simp only [List.length_cons] at hN ⊢
    have h1' : frame P first true fuel off (data off) (spawnHere P (b :: bs)) σ = .ok σ1 := by rw [← hb]; exact h1
    have h2 := best_frame O hf hlo (by omega) (fun hs l e κ hlt hA => by
      have := hfl l _ κ (b :: bs) hA (by
        intro hh
        have := congrArg List.length hh
        rw [seg_length] at this
        simp only [List.length_nil] at this
        omega) (by simp) (by
        rw [holds_seg hd]
        exact seg_prefix data off e _)
      rw [this] at hs
      cases hs) h h1'
    rw [show off + (bs.length + 1) = off + 1 + bs.length by omega]
    exact ih hd' (by omega) (by omega) h2 hr

/-- Closing out. -/
theorem best_close (O : Ordered P S F K B) : ∀ (L : List GT) {σ σ2 : St}, (∀ x ∈ L, Rest P S data lo N x) →
    (L.map key).Pairwise Lt →
    (∀ l m s κ e, me σ l m → Mem P data lo N l m s κ e → Champ P data L N l s κ e) →
    (∀ l m, me σ l m → Chain P data lo N l (hitsOf l σ.log) m) → closeLoop P (L.map Prod.fst) σ = .ok σ2 →
    ∀ l m, me σ2 l m → Greedy P data lo N l 0 (hitsOf l σ2.log) := by
  intro L
  induction L with
  | nil =>
    intro σ σ2 _ _ hm hc hx l m hl
    simp only [List.map_nil, closeLoop, Res.ok.injEq] at hx
    subst hx
    have := chain_greedy (hc l m hl) (.done (fun s κ e hA hle => by
      obtain ⟨s₁, κ₁, e₁, hb⟩ := best_exists O.bounded hA hle
      obtain ⟨x, hx, -⟩ := hm l m s₁ κ₁ e₁ hl (.here hb)
      cases hx))
    simpa using this
  | cons x L ih =>
    intro σ σ2 hr hs hm hc hx
    have hR := hr x (by simp)
    obtain ⟨hs1, hs2⟩ := List.pairwise_cons.1 hs
    -- a match followed by the first thread
    have hfin : ∀ l s κ e, AccR P data lo N l s κ e → Champ P data (x :: L) N l s κ e →
        (s = x.1.start ∧ κ = x.2 ∧ x.1.end = some (e - 1) ∧ opAt P x.1.pc = some .finish ∧ x.1.label = some l) ∨
        Champ P data L N l s κ e := by
      rintro l s κ e hA ⟨y, hy, h1, k', h2, h3⟩
      rcases List.mem_cons.1 hy with rfl | hy
      · rcases h3 with ⟨-, rfl, h4, h5, h6⟩ | ⟨h3, -⟩
        · exact Or.inl ⟨h1.symm, by simpa using h2, h6, h4, h5⟩
        · have := hA.2.2.1; omega
      · exact Or.inr ⟨y, hy, h1, k', h2, h3⟩
    simp only [List.map_cons, closeLoop] at hx
    cases ho : opAt P x.1.pc with
    | none => rw [ho] at hx; cases hx
    | some o =>
      rw [ho] at hx
      by_cases hof : o = .finish
      · subst hof
        simp only at hx
        obtain ⟨j, hend, hsj, hj, hrun⟩ : ∃ j, x.1.end = some j ∧ x.1.start ≤ j ∧ j < N ∧
            Run P (seg data x.1.start (j + 1)) x.2 x.1.pc x.1.label := by
          rcases hR.run with hh | ⟨hh, -⟩ | ⟨-, hh⟩
          · rw [ho] at hh; cases hh
          · exact (O.guarded.noFinish _ hh ho).elim
          · exact hh
        cases hl : x.1.label with
        | none => rw [hl] at hx; cases hx
        | some l =>
          rw [hl] at hx
          simp only at hx
          cases hml : σ.matchEnds[l]? with
          | none => rw [hml] at hx; cases hx
          | some m =>
            rw [hml] at hx
            simp only at hx
            have hT : AccR P data lo N l x.1.start x.2 (j + 1) := by
              refine ⟨hR.lo, by omega, by omega, ?_⟩
              have := acc_of_run hrun (l := l) (w' := []) (k' := []) (by rw [hl]; exact .finish ho)
              simpa using this
            by_cases hle : m ≤ x.1.start
            · rw [if_pos hle] at hx
              rw [show endPlus x.1.end = j + 1 by rw [hend]; rfl] at hx
              have hbest : IsBest P data lo N l m x.1.start x.2 (j + 1) := by
                obtain ⟨s₁, κ₁, e₁, hb⟩ := best_exists O.bounded hT hle
                rcases best_cases hT hle hb with ⟨rfl, rfl, rfl⟩ | hlt
                · exact hb
                · exfalso
                  rcases hfin l s₁ κ₁ e₁ hb.1 (hm l m s₁ κ₁ e₁ hml (.here hb)) with ⟨rfl, rfl, -⟩ | hcc
                  · exact lt_irrefl _ hlt
                  · obtain ⟨y, hy, rfl, hp, -⟩ := champ_key hcc
                    have := hs1 (key y) (List.mem_map_of_mem hy)
                    exact lt_irrefl _ (lt_trans (lt_pre_right this hp) hlt)
              have hlt : l < σ.matchEnds.length := (List.getElem?_eq_some_iff.1 hml).1
              have hset : ∀ l' m', (σ.matchEnds.set l (j + 1))[l']? = some m' →
                  (l' = l ∧ m' = j + 1) ∨ (l' ≠ l ∧ me σ l' m') := by
                intro l' m' hh
                by_cases hll : l' = l
                · subst hll
                  rw [List.getElem?_set_self hlt] at hh
                  exact Or.inl ⟨rfl, (Option.some.inj hh).symm⟩
                · rw [List.getElem?_set_ne (fun e => hll e.symm)] at hh
                  exact Or.inr ⟨hll, hh⟩
              refine ih (fun y hy => hr y (List.mem_cons_of_mem _ hy)) hs2 ?_ ?_ hx
              · intro l' m' s κ e hm' hM
                rcases hset l' m' hm' with ⟨rfl, rfl⟩ | ⟨hne, hm'⟩
                · rcases hfin l' s κ e (mem_acc hM).2 (hm l' m s κ e hml (.next hbest hM)) with ⟨rfl, -, -⟩ | hcc
                  · have := (mem_acc hM).1; omega
                  · exact hcc
                · rcases hfin l' s κ e (mem_acc hM).2 (hm l' m' s κ e hm' hM) with ⟨-, -, -, -, h5⟩ | hcc
                  · rw [hl] at h5; cases h5; exact (hne rfl).elim
                  · exact hcc
              · intro l' m' hm'
                dsimp only
                rw [hitsOf_snoc]
                rcases hset l' m' hm' with ⟨rfl, rfl⟩ | ⟨hne, hm'⟩
                · rw [if_pos rfl]
                  exact (hc l' m hml).snoc hbest
                · rw [if_neg (fun e => hne e.symm), List.append_nil]
                  exact hc l' m' hm'
            · rw [if_neg hle] at hx
              refine ih (fun y hy => hr y (List.mem_cons_of_mem _ hy)) hs2 ?_ hc hx
              intro l' m' s κ e hm' hM
              rcases hfin l' s κ e (mem_acc hM).2 (hm l' m' s κ e hm' hM) with ⟨rfl, -, -, -, h5⟩ | hcc
              · rw [hl] at h5
                cases h5
                have := (mem_acc hM).1
                unfold me at hm'
                rw [hml] at hm'
                cases hm'
                omega
              · exact hcc
      · have hx' : closeLoop P (L.map Prod.fst) σ = .ok σ2 := by
          cases o <;> first | exact hx | exact (hof rfl).elim
        refine ih (fun y hy => hr y (List.mem_cons_of_mem _ hy)) hs2 ?_ hc hx'
        intro l' m' s κ e hm' hM
        rcases hfin l' s κ e (mem_acc hM).2 (hm l' m' s κ e hm' hM) with ⟨-, -, -, h4, -⟩ | hcc
        · rw [ho] at h4; cases h4; exact (hof rfl).elim
        · exact hcc

/-- Before the first byte there are only forks and jumps. -/
structure Starts (P : Program) (S E : Nat → Prop) : Prop where
  zero : E 0
  sub : ∀ pc, E pc → S pc
  ops : ∀ pc, E pc → opAt P pc ≠ some .match ∧ (∀ l, opAt P pc ≠ some (.label l)) ∧
    (∀ i, opAt P pc ≠ some (.checkHalt i)) ∧ opAt P pc ≠ some .finish
  fork : ∀ pc, E pc → opAt P pc = some .fork → E (pc + 2) ∧ ∀ a, P.code[pc + 1]? = some a → E a
  jump : ∀ pc a, E pc → opAt P pc = some .jump → P.code[pc + 1]? = some a → E a

/-- The initial threads found so far. -/
structure F0 (P : Program) (S : Nat → Prop) (σ : St) (L : List (Nat × List Bool)) (C : List Bool → Prop) : Prop where
  pcs : σ.next.map (·.pc) = L.map Prod.fst
  sort : (L.map Prod.snd).Pairwise Div
  cut : ∀ x ∈ L, C x.2
  run : ∀ x ∈ L, S x.1 ∧ Run P [] x.2 x.1 none
  all : ∀ l b w κ, AccFrom P l 0 none (b :: w) κ → C κ → ∃ x ∈ L, ∃ k', κ = x.2 ++ k' ∧
    ∃ pc', Cons P b x.1 pc' ∧ AccFrom P l pc' none w k'

theorem F0.recut {σ : St} {L : List (Nat × List Bool)} {C C' : List Bool → Prop} (h : F0 P S σ L C)
    (h1 : ∀ k, C k → C' k) (h2 : ∀ l b w κ, AccFrom P l 0 none (b :: w) κ → C' κ → C κ) : F0 P S σ L C' :=
  { h with
    cut := fun x hx => h1 _ (h.cut x hx)
    all := fun l b w κ hA hc => h.all l b w κ hA (h2 l b w κ hA hc) }

theorem F0.drop {σ : St} {L : List (Nat × List Bool)} {k : List Bool} (h : F0 P S σ L (fun x => Div x k))
    (hd : ∀ l b w κ, AccFrom P l 0 none (b :: w) κ → k <+: κ → False) :
    F0 P S σ L (fun x => Div x k ∨ k <+: x) := by
  refine h.recut (fun k hk => Or.inl hk) ?_
  rintro l b w κ hA (hk | hk)
  · exact hk
  · exact (hd l b w κ hA hk).elim

theorem first_ep {E : Nat → Prop} (hE : Starts P S E) : ∀ n {t : Thread} {k : List Bool} {σ σ1 σ2 : St}
    {L : List (Nat × List Bool)} {r : Option Thread}, F0 P S σ L (fun x => Div x k) → E t.pc → t.label = none →
    Run P [] k t.pc none →
    (∀ l b w κ k', AccFrom P l 0 none (b :: w) κ → κ = k ++ k' → AccFrom P l t.pc none (b :: w) k') →
    epLoop P false 0 n t σ = .ok (r, σ1) → σ2.next = σ1.next ++ r.toList →
    ∃ L', F0 P S σ2 L' (fun x => Div x k ∨ k <+: x) := by
  intro n
  induction n with
  | zero => intro t k σ σ1 σ2 L r _ _ _ _ _ h; simp [epLoop] at h
  | succ n ih =>
    intro t k σ σ1 σ2 L r hF he hl hr hth h h2
    simp only [epLoop] at h
    obtain ⟨e1, e2, e3, e4⟩ := hE.ops _ he
    cases ho : opAt P t.pc with
    | none => rw [ho] at h; simp at h
    | some op =>
      rw [ho] at h
      have rest : op ≠ .finish → op ≠ .fork → op ≠ .jump → (∀ i, op ≠ .checkHalt i) → (∀ i, op ≠ .label i) → op ≠ .match →
          Res.ok (some t, σ) = .ok (r, σ1) → ∃ L', F0 P S σ2 L' (fun x => Div x k ∨ k <+: x) := by
        intro n1 n2 n3 n4 n5 n6 h
        simp only [Res.ok.injEq, Prod.mk.injEq] at h
        obtain ⟨rfl, rfl⟩ := h
        have hp : σ2.next = σ.next ++ [t] := h2
        refine ⟨L ++ [(t.pc, k)], ?_, ?_, ?_, ?_, ?_⟩
        · rw [hp, List.map_append, List.map_append, hF.pcs]
          rfl
        · rw [List.map_append, List.pairwise_append]
          refine ⟨hF.sort, by simp, ?_⟩
          intro a ha b hb
          obtain ⟨x, hx, rfl⟩ := List.mem_map.1 ha
          simp only [List.map_cons, List.map_nil, List.mem_singleton] at hb
          subst hb
          exact hF.cut x hx
        · intro x hx
          rcases List.mem_append.1 hx with hx | hx
          · exact Or.inl (hF.cut x hx)
          · rw [List.mem_singleton.1 hx]; exact Or.inr (List.prefix_refl _)
        · intro x hx
          rcases List.mem_append.1 hx with hx | hx
          · exact hF.run x hx
          · rw [List.mem_singleton.1 hx]; exact ⟨hE.sub _ he, hr⟩
        · rintro l b w κ hA (hk | ⟨k', rfl⟩)
          · obtain ⟨x, hx, hh⟩ := hF.all l b w κ hA hk
            exact ⟨x, List.mem_append_left _ hx, hh⟩
          · obtain ⟨b', pc', w', hw, hc, ha⟩ := acc_read (hth l b w _ k' hA rfl) ho n1 n2 n3 n4 n5 n6
            simp only [List.cons.injEq] at hw
            obtain ⟨rfl, rfl⟩ := hw
            exact ⟨(t.pc, k), by simp, k', rfl, pc', hc, ha⟩
      cases op with
      | finish => exact (e4 ho).elim
      | fork =>
        simp only at h
        obtain ⟨⟨r1, σa⟩, h1, h⟩ := bind_eq_ok.1 h
        obtain ⟨σb, h3, h⟩ := bind_eq_ok.1 h
        have h3' : σb.next = σa.next ++ r1.toList := by
          cases r1 with
          | none => cases h3; simp
          | some t' => exact (pushLive_ok h3).1
        have h1' : epLoop P false 0 n { t with pc := t.pc + 2 } σ = .ok (r1, σa) := by
          rcases overlap_cases h1 with ⟨h1, -⟩ | ⟨l, m, hl', -⟩
          · exact h1
          · dsimp only at hl'
            rw [hl] at hl'
            cases hl'
        obtain ⟨L1, hF1⟩ := ih (t := { t with pc := t.pc + 2 }) (k := k ++ [false])
          (hF.recut (fun x hx => by
            have := div_append [] [false] hx
            rwa [List.append_nil] at this) (fun l b w κ _ hx => div_snoc_false hx))
          (hE.fork _ he ho).1 hl (hr.fork1 ho) (by
            rintro l b w κ k' hA rfl
            have := hth l b w _ (false :: k') hA (by simp)
            rcases acc_fork this ho with ⟨k'', e, hh⟩ | ⟨k'', a', e, -, -⟩
            · simp only [List.cons.injEq, true_and] at e; rw [e]; exact hh
            · simp at e) h1' h3'
        cases hcode : P.code[t.pc + 1]? with
        | none => rw [hcode] at h; cases h
        | some a =>
          rw [hcode] at h
          simp only at h
          obtain ⟨L2, hF2⟩ := ih (t := { t with pc := a }) (k := k ++ [true])
            (hF1.recut (fun x hx => by
                rcases hx with hx | ⟨y, rfl⟩
                · have := div_append [] [true] (div_snoc_false hx)
                  rwa [List.append_nil] at this
                · rw [List.append_assoc, div_left]
                  exact div_ft _ _)
              (fun l b w κ _ hx => by
                rcases div_snoc_true hx with hd | hd
                · have := div_append [] [false] hd
                  rw [List.append_nil] at this
                  exact Or.inl this
                · exact Or.inr hd))
            ((hE.fork _ he ho).2 a hcode) hl (hr.fork2 ho hcode) (by
              rintro l b w κ k' hA rfl
              have := hth l b w _ (true :: k') hA (by simp)
              rcases acc_fork this ho with ⟨k'', e, hh⟩ | ⟨k'', a', e, hc, hh⟩
              · simp at e
              · simp only [List.cons.injEq, true_and] at e
                rw [hcode] at hc; cases hc; rw [e]; exact hh) h h2
          refine ⟨L2, hF2.recut (fun x hx => ?_) (fun l b w κ hA hx => ?_)⟩
          · rcases hx with hx | hx
            · rcases div_snoc_true hx with hx | hx
              · exact Or.inl hx
              · exact Or.inr ((List.prefix_append _ _).trans hx)
            · exact Or.inr ((List.prefix_append _ _).trans hx)
          · rcases hx with hx | ⟨k', rfl⟩
            · have := div_append [] [true] hx
              rw [List.append_nil] at this
              exact Or.inl this
            · rcases acc_fork (hth l b w _ k' hA rfl) ho with ⟨k'', rfl, -⟩ | ⟨k'', a', rfl, -, -⟩
              · refine Or.inl ?_
                rw [div_left]
                exact div_ft _ _
              · exact Or.inr ⟨k'', by simp⟩
      | jump =>
        simp only at h
        cases hcode : P.code[t.pc + 1]? with
        | none => rw [hcode] at h; cases h
        | some a =>
          rw [hcode] at h
          simp only at h
          exact ih (t := { t with pc := a }) hF (hE.jump _ a he ho hcode) hl (hr.jump ho hcode)
            (fun l b w κ k' hA hk => acc_jump (hth l b w κ k' hA hk) ho hcode) h h2
      | checkHalt i => exact (e3 i ho).elim
      | label l => exact (e2 l ho).elim
      | «match» => exact (e1 ho).elim
      | halt =>
        simp only [Res.ok.injEq, Prod.mk.injEq] at h
        obtain ⟨rfl, rfl⟩ := h
        have hn : σ2.next = σ.next := by simpa using h2
        refine ⟨L, { hF.drop ?_ with pcs := by rw [hn]; exact hF.pcs }⟩
        rintro l b w κ hA ⟨k', rfl⟩
        exact acc_halt (hth l b w _ k' hA rfl) ho
      | _ => exact rest (by simp) (by simp) (by simp) (by simp) (by simp) (by simp) h

/-- Creating a context. -/
theorem create_firsts {E : Nat → Prop} (hE : Starts P S E) {fuel : Nat} {first : List Thread} {σ0 : St}
    (h : create P fuel = .ok (first, σ0)) : ∃ LF, Firsts P S first LF := by
  simp only [create] at h
  obtain ⟨⟨r, σ⟩, h1, h⟩ := bind_eq_ok.1 h
  simp only [Res.ok.injEq, Prod.mk.injEq] at h
  obtain ⟨rfl, -⟩ := h
  have h1' : epLoop P false 0 fuel { pc := 0, start := 0, «end» := none, label := none, lead := false } (preInit P) =
      .ok (r, σ) := h1
  have hF : F0 P S (preInit P) [] (fun x => Div x []) :=
    ⟨rfl, by simp, by simp, by simp, fun l b w κ _ hx => (div_nil_right _ hx).elim⟩
  obtain ⟨L, hL⟩ := first_ep (σ2 := { σ with next := σ.next ++ r.toList }) hE fuel hF hE.zero rfl .init
    (by rintro l b w κ k' hA rfl; exact hA) h1' rfl
  refine ⟨L, ?_, hL.sort, hL.run, fun l b w κ hA => hL.all l b w κ hA (Or.inr (List.nil_prefix))⟩
  rw [← hL.pcs]
  cases r <;> simp

/-- Searching a stream given in pieces, from offset `off`, and closing out
(include/lightgrep/api.h:170-200). -/
def searches (off : Nat) : List (List UInt8) → List Call
  | [] => [.closeOut true]
  | b :: bs => .search b off true :: searches (off + b.length) bs

theorem holds_append {off : Nat} {a b : List UInt8} (h : Holds data off (a ++ b)) :
    Holds data off a ∧ Holds data (off + a.length) b := by
  constructor
  · intro i hi
    have := h i (by simp; omega)
    rw [List.getElem_append_left hi] at this
    exact this
  · intro i hi
    have := h (a.length + i) (by simp; omega)
    rw [List.getElem_append_right (by omega)] at this
    simp only [Nat.add_sub_cancel_left] at this
    rw [this]
    congr 1
    omega

theorem best_run (O : Ordered P S F K B) {first : List Thread} {LF : List (Nat × List Bool)} (hf : Firsts P S first LF)
    (hfl : Filters P) {fuel : Nat} : ∀ (bufs : List (List UInt8)) {off : Nat} {σ σ2 : St} {rs : List (Option Nat)},
    Holds data off bufs.flatten → lo ≤ off → off + bufs.flatten.length = N → Ready P S data lo N off σ →
    run P first fuel (searches off bufs) σ = .ok (rs, σ2) →
    ∀ l m, me σ2 l m → Greedy P data lo N l 0 (hitsOf l σ2.log) := by
  intro bufs
  induction bufs with
  | nil =>
    intro off σ σ2 rs _ hlo hN h hr
    simp only [List.flatten_nil, List.length_nil, Nat.add_zero] at hN
    subst hN
    obtain ⟨LA, hb⟩ := h
    simp only [searches, run, step, closeOut, if_true] at hr
    obtain ⟨⟨r1, σ1⟩, h1, hr⟩ := bind_eq_ok.1 hr
    obtain ⟨σ3, h3, h1⟩ := bind_eq_ok.1 h1
    cases h1
    cases hr
    rw [hb.act] at h3
    refine best_close O LA hb.restA hb.sortA ?_ hb.log h3
    intro l m s κ e hm hM
    have hA := (mem_acc hM).2
    rcases hb.mem l m s κ e hm hM (by have := hA.2.1; have := hA.2.2.1; omega) with ⟨x, hx, -⟩ | hc
    · cases hx
    · exact hc
  | cons b bs ih =>
    intro off σ σ2 rs hd hlo hN h hr
    simp only [List.flatten_cons] at hd
    simp only [List.flatten_cons, List.length_append] at hN
    obtain ⟨hd1, hd2⟩ := holds_append hd
    simp only [searches, run, step, search] at hr
    obtain ⟨⟨r1, σ1⟩, h1, hr⟩ := bind_eq_ok.1 hr
    obtain ⟨⟨r2, σ3⟩, h3, h1⟩ := bind_eq_ok.1 h1
    cases h1
    obtain ⟨σ4, h4, h3⟩ := bind_eq_ok.1 h3
    obtain ⟨r5, h5, h3⟩ := bind_eq_ok.1 h3
    cases h3
    obtain ⟨⟨rs6, σ6⟩, h6, hr⟩ := bind_eq_ok.1 hr
    cases hr
    exact ih hd2 (by omega) (by omega) (best_loop O hf hfl b hd1 hlo (by omega) h h4) h6

/-- A fresh context reports, for each keyword, the preferred match, then the preferred match
after its end, and so on. -/
theorem greedy_search (O : Ordered P S F K B) {E : Nat → Prop} (hE : Starts P S E) (hfl : Filters P) {fuel : Nat}
    {first : List Thread} {σ0 σ : St} {rs : List (Option Nat)} (hc : create P fuel = .ok (first, σ0))
    {bufs : List (List UInt8)} (hd : Holds data lo bufs.flatten)
    (hr : run P first fuel (searches lo bufs) σ0 = .ok (rs, σ)) {l : Nat} (hl : l ≤ P.maxLabel) :
    Greedy P data lo (lo + bufs.flatten.length) l 0 (hitsOf l σ.log) := by
  obtain ⟨LF, hf⟩ := create_firsts hE hc
  obtain ⟨rfl, -⟩ := create_spec O.guarded hc
  have hlen := run_len _ hr
  have hz : ∀ l m, me (preInit P) l m → m = 0 := by
    intro l m hm
    unfold me preInit at hm
    simp only [List.getElem?_replicate] at hm
    split at hm
    · exact (Option.some.inj hm).symm
    · cases hm
  have hready : Ready P S data lo (lo + bufs.flatten.length) lo (preInit P) := by
    refine ⟨[], ⟨rfl, rfl, by simp, by simp, by simp, by simp, by simp, by simp [preInit], ?_, by simp [preInit], ?_, ?_,
      by simp, by simp⟩⟩
    · intro l m hm; rw [hz l m hm]; exact Nat.zero_le _
    · intro l m s κ e _ hM hs
      have := (mem_acc hM).2.1
      omega
    · intro l m hm
      rw [hz l m hm]
      exact .nil
  have hlt : l < σ.matchEnds.length := by
    rw [hlen]
    simp only [preInit, List.length_replicate]
    omega
  exact best_run O hf hfl bufs hd (Nat.le_refl _) rfl hready hr l _ (List.getElem?_eq_getElem hlt)

end
end Verif.Vm
