import Verif.VmStarts
/-!
# lg_search_resolve finishes the matches that were begun

The threads that are alive after a search are run on further bytes, and no new ones are
started.
-/
namespace Verif.Vm

/-- Following what was begun through further pieces from offset `off` with lg_search_resolve,
and closing out. -/
def follows (off : Nat) : List (List UInt8) → List Call
  | [] => [.closeOut true]
  | b :: bs => .resolve b off true :: follows (off + b.length) bs

/-- Searching a stream given in pieces, from offset `off`, then following what was begun
through further pieces, and closing out (include/lightgrep/api.h:170-200). -/
def resolves (off : Nat) (bufs more : List (List UInt8)) : List Call :=
  match bufs with
  | [] => follows off more
  | b :: bs => .search b off true :: resolves (off + b.length) bs more

/-! ## Where hits start -/

/-- All threads and hits start where `p` says. -/
def Begun (p : Nat → Prop) (σ : St) : Prop :=
  (∀ t ∈ σ.active, p t.start) ∧ (∀ t ∈ σ.next, p t.start) ∧ ∀ h ∈ σ.log, p h.start

theorem begun_hyps (P : Program) (cb : Bool) (off : Nat) (p : Nat → Prop) :
    EpHyps P cb off (fun t => p t.start) (Begun p) where
  fork1 := fun _ h _ => h
  fork2 := fun _ _ h _ _ => h
  jump := fun _ _ h _ _ => h
  check := fun _ _ h _ => h
  label := fun _ _ h _ => h
  «match» := fun _ _ h _ => h
  kill := fun t σ _ _ h => ⟨fun u hu => by
    obtain ⟨j, hj, h1, _⟩ := mem_kill hu
    rw [h1]; exact h.1 j hj, h.2⟩
  emit := fun t σ l m ht _ h _ _ _ _ => ⟨h.1, h.2.1, fun x hx => by
    simp only [emitted] at hx
    split at hx
    · rcases List.mem_append.1 hx with hx | hx
      · exact h.2.2 x hx
      · simp at hx; subst hx; exact ht
    · exact h.2.2 x hx⟩
  push := fun t σ σ' ht h _ hp => by
    obtain ⟨h1, h2, _, _, _, h6, _⟩ := pushLive_ok hp
    refine ⟨by rw [h2]; exact h.1, ?_, by rw [h6]; exact h.2.2⟩
    intro u hu
    rw [h1] at hu
    rcases List.mem_append.1 hu with hu | hu
    · exact h.2.1 u hu
    · simp at hu; subst hu; exact ht
  lock := fun _ _ _ _ h _ _ => h

section
variable {P : Program} {S F : Nat → Prop} {K : Nat → Option Nat → Nat → Prop} {B : Nat}
variable {data : Nat → UInt8} {lo N : Nat} {off top : Nat} {p : Nat → Prop}

theorem begun_active {cb fuel b} (n : Nat) : ∀ {σ σ' : St}, Begun p σ →
    runActive P cb fuel off b n σ = .ok σ' → Begun p σ' := by
  induction n with
  | zero => intro σ σ' hI h; simp only [runActive, Res.ok.injEq] at h; subst h; exact hI
  | succ n ih =>
    intro σ σ' hI h
    simp only [runActive] at h
    cases ha : σ.active with
    | nil => rw [ha] at h; simp only [Res.ok.injEq] at h; subst h; exact hI
    | cons t rest =>
      rw [ha] at h
      simp only at h
      obtain ⟨σ1, h1, h⟩ := bind_eq_ok.1 h
      refine ih ?_ h
      refine execThread_inv (begun_hyps P cb off p) (fun t' hx => ?_) ?_ h1
      · have := hI.1 t (by rw [ha]; simp)
        rcases exec_some hx with ⟨pc', rfl, _⟩ | ⟨rfl, _⟩ <;> exact this
      · exact ⟨fun u hu => hI.1 u (by rw [ha]; simp [show u ∈ rest from hu]), hI.2⟩

theorem begun_cleanup {σ : St} (h : Begun p σ) : Begun p (cleanup σ) :=
  ⟨h.2.1, by simp [cleanup], h.2.2⟩

theorem begun_search {first : List Thread} {cb fuel} (buf : List UInt8) : ∀ {off : Nat} {σ σ' : St}, Begun p σ →
    σ.checks = [] → (∀ i, off ≤ i → i < off + buf.length → p i) → searchLoop P first cb fuel buf off σ = .ok σ' →
    Begun p σ' ∧ σ'.checks = [] := by
  induction buf with
  | nil => intro off σ σ' hI hk _ h; simp only [searchLoop, Res.ok.injEq] at h; subst h; exact ⟨hI, hk⟩
  | cons b bs ih =>
    intro off σ σ' hI hk hp h
    simp only [searchLoop, frame] at h
    obtain ⟨σ1, h1, h⟩ := bind_eq_ok.1 h
    obtain ⟨σ2, h2, h1⟩ := bind_eq_ok.1 h1
    obtain ⟨σ3, h3, h1⟩ := bind_eq_ok.1 h1
    cases h1
    simp only [List.length_cons] at hp
    refine ih (begun_cleanup (σ := σ3) ?_) rfl (fun i h1 h2 => hp i (by omega) (by omega)) h
    have hI2 := begun_active _ hI h2
    split at h3
    · refine begun_active _ (σ := { σ2 with active := newThreads first off }) ⟨?_, hI2.2⟩ h3
      intro t ht
      simp only [newThreads, List.mem_map] at ht
      obtain ⟨u, -, rfl⟩ := ht
      exact hp off (by omega) (by omega)
    · cases h3; exact hI2

theorem begun_close (ts : List Thread) : ∀ {σ σ' : St}, (∀ t ∈ ts, p t.start) → (∀ h ∈ σ.log, p h.start) →
    closeLoop P ts σ = .ok σ' → ∀ h ∈ σ'.log, p h.start := by
  induction ts with
  | nil => intro σ σ' _ hI h; simp only [closeLoop, Res.ok.injEq] at h; subst h; exact hI
  | cons t ts ih =>
    intro σ σ' ht hI h
    have hts : ∀ u ∈ ts, p u.start := fun u hu => ht u (by simp [hu])
    simp only [closeLoop] at h
    split at h
    · simp at h
    · split at h
      · simp at h
      · split at h
        · simp at h
        · split at h
          · refine ih hts ?_ h
            intro x hx
            rcases List.mem_append.1 hx with hx | hx
            · exact hI x hx
            · simp at hx; subst hx; exact ht t (by simp)
          · exact ih hts hI h
    · exact ih hts hI h

/-! ## The inner loop -/

/-- The inner loop runs the threads as a search does. -/
theorem resolveActive_run {cb fuel b} (n : Nat) : ∀ {h h' : Bool} {σ σ' : St},
    resolveActive P cb fuel off b n h σ = .ok (h', σ') → runActive P cb fuel off b n σ = .ok σ' := by
  induction n with
  | zero =>
    intro h h' σ σ' hr
    simp only [resolveActive, Res.ok.injEq, Prod.mk.injEq] at hr
    rw [hr.2]; rfl
  | succ n ih =>
    intro h h' σ σ' hr
    simp only [resolveActive] at hr
    simp only [runActive]
    cases ha : σ.active with
    | nil =>
      rw [ha] at hr
      simp only [Res.ok.injEq, Prod.mk.injEq] at hr
      rw [hr.2]
    | cons t rest =>
      rw [ha] at hr
      simp only at hr ⊢
      obtain ⟨r, -, hr⟩ := bind_eq_ok.1 hr
      obtain ⟨σ1, h1, hr⟩ := bind_eq_ok.1 hr
      rw [h1]
      exact ih hr

theorem done_hyps (P : Program) (cb : Bool) (off : Nat) :
    EpHyps P cb off (fun t => opAt P t.pc = some .finish) (fun σ => ∀ t ∈ σ.next, opAt P t.pc = some .finish) where
  fork1 := fun _ h h' => by rw [h] at h'; cases h'
  fork2 := fun _ _ h h' => by rw [h] at h'; cases h'
  jump := fun _ _ h h' => by rw [h] at h'; cases h'
  check := fun _ _ h h' => by rw [h] at h'; cases h'
  label := fun _ _ h h' => by rw [h] at h'; cases h'
  «match» := fun _ _ h h' => by rw [h] at h'; cases h'
  kill := fun _ _ _ _ h => h
  emit := fun _ _ _ _ _ _ h _ _ _ _ => h
  push := fun t σ σ' ht h _ hp u hu => by
    rw [(pushLive_ok hp).1] at hu
    rcases List.mem_append.1 hu with hu | hu
    · exact h u hu
    · simp at hu; subst hu; exact ht
  lock := fun _ _ _ _ h _ _ => h

/-- If no thread could read a byte, then those left wait at Finish. -/
theorem resolveActive_done {cb fuel b} (n : Nat) : ∀ {h : Bool} {σ σ' : St},
    resolveActive P cb fuel off b n h σ = .ok (false, σ') → (∀ t ∈ σ.next, opAt P t.pc = some .finish) →
    h = false ∧ ∀ t ∈ σ'.next, opAt P t.pc = some .finish := by
  induction n with
  | zero =>
    intro h σ σ' hr hn
    simp only [resolveActive, Res.ok.injEq, Prod.mk.injEq] at hr
    obtain ⟨rfl, rfl⟩ := hr
    exact ⟨rfl, hn⟩
  | succ n ih =>
    intro h σ σ' hr hn
    simp only [resolveActive] at hr
    cases ha : σ.active with
    | nil =>
      rw [ha] at hr
      simp only [Res.ok.injEq, Prod.mk.injEq] at hr
      obtain ⟨rfl, rfl⟩ := hr
      exact ⟨rfl, hn⟩
    | cons t rest =>
      rw [ha] at hr
      simp only at hr
      obtain ⟨r, h0, hr⟩ := bind_eq_ok.1 hr
      obtain ⟨σ1, h1, hr⟩ := bind_eq_ok.1 hr
      -- the flag only grows
      have hflag : (h || r) = false := by
        by_contra hne
        have : ∀ (n : Nat) {h : Bool} {σ σ' : St} {h'}, resolveActive P cb fuel off b n h σ = .ok (h', σ') →
            h = true → h' = true := by
          intro n
          induction n with
          | zero => intro h σ σ' h' hr e; simp only [resolveActive, Res.ok.injEq, Prod.mk.injEq] at hr; rw [← hr.1]; exact e
          | succ n ih =>
            intro h σ σ' h' hr e
            simp only [resolveActive] at hr
            split at hr
            · simp only [Res.ok.injEq, Prod.mk.injEq] at hr; rw [← hr.1]; exact e
            · obtain ⟨r, -, hr⟩ := bind_eq_ok.1 hr
              obtain ⟨σ1, -, hr⟩ := bind_eq_ok.1 hr
              exact ih hr (by rw [e]; rfl)
        have := this n hr (Bool.eq_true_of_not_eq_false hne)
        cases this
      simp only [Bool.or_eq_false_iff] at hflag
      obtain ⟨rfl, rfl⟩ := hflag
      refine ⟨rfl, (ih hr ?_).2⟩
      refine execThread_inv (done_hyps P cb off) (σ := { σ with active := rest }) (fun t' hx => ?_) hn h1
      rcases exec_some hx with ⟨pc', rfl, hc⟩ | ⟨rfl, ho⟩
      · exfalso
        obtain ⟨o, ho, n1, -, -, -, -, -, n7⟩ := cons_op hc
        unfold isRealOp at h0
        rw [ho] at h0
        cases o <;> simp_all
      · exact ho

/-! ## The outer loop -/

/-- Nothing changes for threads that wait, however many bytes follow. -/
theorem BI.skip {σ : St} {LA : List GT} (h : BI P S data lo N off top σ LA []) (hk : σ.checks = [])
    (hd : ∀ x ∈ LA, opAt P x.1.pc = some .finish) {off' : Nat} (hle : off ≤ off') (hnf : ∀ pc, S pc → opAt P pc ≠ some .finish) :
    BI P S data lo N off' top σ LA [] := by
  refine { h with restA := ?_, restN := by simp, locks := by rw [hk]; simp, mem := ?_ }
  · intro x hx
    obtain ⟨r1, r2, r3, r4⟩ := h.restA x hx
    refine ⟨r1, by omega, fun j hj => by have := r3 j hj; omega, ?_⟩
    rcases r4 with r4 | ⟨r4, -⟩ | ⟨r4, j, a, b, c, d⟩
    · exact Or.inl r4
    · exact (hnf _ r4 (hd x hx)).elim
    · exact Or.inr (Or.inr ⟨r4, j, a, b, by omega, d⟩)
  · intro l m s κ e hm hM hs
    rcases h.mem l m s κ e hm hM hs with ⟨x, hx, -⟩ | ⟨x, hx, a, k', b, hc⟩
    · cases hx
    · refine Or.inr ⟨x, hx, a, k', b, ?_⟩
      rcases hc with ⟨c, d⟩ | ⟨-, pc', hc, -⟩
      · exact Or.inl ⟨by omega, d⟩
      · obtain ⟨o, ho, n1, -⟩ := cons_op hc
        rw [hd x hx] at ho
        cases ho
        exact (n1 rfl).elim

theorem resolve_loop (O : Ordered P S F K B) {fuel : Nat} : ∀ (buf : List UInt8) {off o : Nat} {real : Bool} {σ σ2 : St} {LA : List GT},
    Holds data off buf → off + buf.length ≤ N → top ≤ off → BI P S data lo N off top σ LA [] → Begun p σ → σ.checks = [] →
    (real = false → ∀ t ∈ σ.active, opAt P t.pc = some .finish) →
    resolveLoop P true fuel buf off real σ = .ok (o, σ2) →
    (∃ LA', BI P S data lo N (off + buf.length) top σ2 LA' []) ∧ Begun p σ2 ∧ σ2.checks = [] := by
  intro buf
  induction buf with
  | nil =>
    intro off o real σ σ2 LA _ _ _ h hp hk _ hr
    simp only [resolveLoop, Res.ok.injEq, Prod.mk.injEq] at hr
    obtain ⟨-, rfl⟩ := hr
    exact ⟨⟨LA, h⟩, hp, hk⟩
  | cons b bs ih =>
    intro off o real σ σ2 LA hd hN ht h hp hk hreal hr
    simp only [resolveLoop] at hr
    split at hr
    · next hstop =>
      simp only [Res.ok.injEq, Prod.mk.injEq] at hr
      obtain ⟨-, rfl⟩ := hr
      refine ⟨⟨LA, h.skip hk ?_ (by omega) O.guarded.noFinish⟩, hp, hk⟩
      intro x hx
      have hx' : x.1 ∈ σ.active := by rw [h.act]; exact List.mem_map_of_mem hx
      simp only [Bool.or_eq_true, Bool.not_eq_true', List.isEmpty_iff] at hstop
      rcases hstop with he | he
      · rw [he] at hx'; cases hx'
      · exact hreal he _ hx'
    · obtain ⟨⟨real', σ1⟩, h1, hr⟩ := bind_eq_ok.1 hr
      obtain ⟨hb, hd'⟩ := hd.cons
      simp only [List.length_cons] at hN ⊢
      rw [hb] at h1
      have h1' := resolveActive_run _ h1
      obtain ⟨LN, h2⟩ := best_active O (by omega) (by omega) _ h (by rw [h.act]; simp) h1'
      have h3 := h2.next
      rw [show off + (bs.length + 1) = off + 1 + bs.length by omega]
      refine ih hd' (by omega) (by omega) h3 (begun_cleanup (begun_active _ hp h1')) rfl ?_ hr
      rintro rfl
      exact (resolveActive_done _ h1 (by rw [h.nxt]; simp)).2

/-! ## The whole history -/

theorem resolve_run (O : Ordered P S F K B) {first : List Thread} {LF : List (Nat × List Bool)} (hf : Firsts P S first LF)
    (hfl : Filters P) {fuel : Nat} : ∀ (bufs more : List (List UInt8)) {off : Nat} {σ σ2 : St} {rs : List (Option Nat)},
    Holds data off (bufs.flatten ++ more.flatten) → lo ≤ off → off + bufs.flatten.length = top →
    top + more.flatten.length = N → Ready P S data lo N off σ → Begun (· < top) σ → σ.checks = [] →
    run P first fuel (resolves off bufs more) σ = .ok (rs, σ2) →
    ∀ l m, me σ2 l m → Chain P data lo N l (hitsOf l σ2.log) m ∧
      (∀ s κ e, AccR P data lo N l s κ e → m ≤ s → ¬ s < top) ∧ ∀ h ∈ σ2.log, h.start < top := by
  -- after the searches
  have tail : ∀ {fuel : Nat} (more : List (List UInt8)) {off : Nat} {σ σ2 : St} {rs : List (Option Nat)} {LA : List GT},
      Holds data off more.flatten → top ≤ off → off + more.flatten.length = N → BI P S data lo N off top σ LA [] →
      Begun (· < top) σ → σ.checks = [] → run P first fuel (follows off more) σ = .ok (rs, σ2) →
      ∀ l m, me σ2 l m → Chain P data lo N l (hitsOf l σ2.log) m ∧
        (∀ s κ e, AccR P data lo N l s κ e → m ≤ s → ¬ s < top) ∧ ∀ h ∈ σ2.log, h.start < top := by
    intro fuel more
    induction more with
    | nil =>
      intro off σ σ2 rs LA _ _ hN h hp hk hr
      simp only [List.flatten_nil, List.length_nil, Nat.add_zero] at hN
      subst hN
      simp only [follows, run, step, closeOut, if_true] at hr
      obtain ⟨⟨r1, σ1⟩, h1, hr⟩ := bind_eq_ok.1 hr
      obtain ⟨σ3, h3, h1⟩ := bind_eq_ok.1 h1
      cases h1
      cases hr
      have hlog := begun_close (p := (· < top)) _ hp.1 hp.2.2 h3
      rw [h.act] at h3
      intro l m hm
      obtain ⟨a, b⟩ := close_below O (top := top) LA h.restA h.sortA
        (fun x hx => h.topA (key x) (List.mem_map_of_mem hx)) (by
          intro l m s κ e hm hM hs
          rcases h.mem l m s κ e hm hM hs with ⟨x, hx, -⟩ | hc
          · cases hx
          · exact hc) h.log h3 l m hm
      exact ⟨a, b, hlog⟩
    | cons b bs ih =>
      intro off σ σ2 rs LA hd ht hN h hp hk hr
      simp only [List.flatten_cons] at hd
      simp only [List.flatten_cons, List.length_append] at hN
      obtain ⟨hd1, hd2⟩ := holds_append hd
      simp only [follows, run, step, searchResolve] at hr
      obtain ⟨⟨r1, σ1⟩, h1, hr⟩ := bind_eq_ok.1 hr
      obtain ⟨⟨r2, σ3⟩, h3, h1⟩ := bind_eq_ok.1 h1
      cases h1
      obtain ⟨⟨o, σ4⟩, h4, h3⟩ := bind_eq_ok.1 h3
      obtain ⟨r5, h5, h3⟩ := bind_eq_ok.1 h3
      cases h3
      obtain ⟨⟨rs6, σ6⟩, h6, hr⟩ := bind_eq_ok.1 hr
      cases hr
      obtain ⟨⟨LA', h'⟩, hp', hk'⟩ := resolve_loop O b hd1 (by omega) ht h hp hk (by simp) h4
      exact ih hd2 (by omega) (by omega) h' hp' hk' h6
  intro bufs
  induction bufs with
  | nil =>
    intro more off σ σ2 rs hd hlo ht hN h hp hk hr
    simp only [List.flatten_nil, List.length_nil, Nat.add_zero] at ht
    subst ht
    obtain ⟨LA, h⟩ := h
    exact tail more (by simpa using hd) (Nat.le_refl _) hN h hp hk hr
  | cons b bs ih =>
    intro more off σ σ2 rs hd hlo ht hN h hp hk hr
    simp only [List.flatten_cons, List.append_assoc] at hd
    simp only [List.flatten_cons, List.length_append] at ht
    obtain ⟨hd1, hd2⟩ := holds_append hd
    simp only [resolves, run, step, search] at hr
    obtain ⟨⟨r1, σ1⟩, h1, hr⟩ := bind_eq_ok.1 hr
    obtain ⟨⟨r2, σ3⟩, h3, h1⟩ := bind_eq_ok.1 h1
    cases h1
    obtain ⟨σ4, h4, h3⟩ := bind_eq_ok.1 h3
    obtain ⟨r5, h5, h3⟩ := bind_eq_ok.1 h3
    cases h3
    obtain ⟨⟨rs6, σ6⟩, h6, hr⟩ := bind_eq_ok.1 hr
    cases hr
    obtain ⟨hp', hk'⟩ := begun_search b hp hk (fun i _ hi => by omega) h4
    exact ih more hd2 (by omega) (by omega) hN (best_loop O hf hfl b hd1 hlo (by omega) h h4) hp' hk' h6

/-- The hits of a chain come first among the hits to report. -/
theorem chain_prefix {l : Nat} {hs : List (Nat × Nat)} {m : Nat} (h : Chain P data lo N l hs m) : ∀ {hs'},
    Greedy P data lo N l 0 hs' → ∃ hs'', hs' = hs ++ hs'' ∧ Greedy P data lo N l m hs'' := by
  induction h with
  | nil => intro hs' h; exact ⟨hs', rfl, h⟩
  | snoc _ hb ih =>
    intro hs' h
    obtain ⟨hs'', rfl, hg⟩ := ih h
    cases hg with
    | done hd => exact (hd _ _ _ hb.1 hb.2.1).elim
    | hit hb' hg =>
      obtain ⟨rfl, rfl, rfl⟩ := best_unique hb hb'
      exact ⟨_, by simp, hg⟩

/-- A fresh context that searches and then resolves reports, for each keyword, those of the
hits to report that start in the part searched. -/
theorem resolve_greedy (O : Ordered P S F K B) {E : Nat → Prop} (hE : Starts P S E) (hfl : Filters P) {fuel : Nat}
    {first : List Thread} {σ0 σ : St} {rs : List (Option Nat)} (hc : create P fuel = .ok (first, σ0))
    {bufs more : List (List UInt8)} (hd : Holds data lo (bufs.flatten ++ more.flatten))
    (hr : run P first fuel (resolves lo bufs more) σ0 = .ok (rs, σ)) {l : Nat} (hl : l ≤ P.maxLabel)
    {hs : List (Nat × Nat)} (hg : Greedy P data lo (lo + bufs.flatten.length + more.flatten.length) l 0 hs) :
    hitsOf l σ.log = hs.filter (fun h => h.1 < lo + bufs.flatten.length) := by
  obtain ⟨LF, hf⟩ := create_firsts hE hc
  obtain ⟨rfl, -⟩ := create_spec O.guarded hc
  have hlen := run_len _ hr
  have hz : ∀ l m, me (preInit P) l m → m = 0 := by
    intro l m hm
    unfold me preInit at hm
    simp only [List.getElem?_replicate] at hm
    split at hm
    · exact (Option.some.inj hm).symm
    · cases hm
  have hready : Ready P S data lo (lo + bufs.flatten.length + more.flatten.length) lo (preInit P) := by
    refine ⟨[], ⟨rfl, rfl, by simp, by simp, by simp, by simp, by simp, by simp [preInit], ?_, by simp [preInit], ?_, ?_,
      by simp, by simp⟩⟩
    · intro l m hm; rw [hz l m hm]; exact Nat.zero_le _
    · intro l m s κ e _ hM hs
      have := (mem_acc hM).2.1
      omega
    · intro l m hm
      rw [hz l m hm]
      exact .nil
  have hlt : l < σ.matchEnds.length := by
    rw [hlen]
    simp only [preInit, List.length_replicate]
    omega
  obtain ⟨h1, h2, h3⟩ := resolve_run O hf hfl bufs more hd (Nat.le_refl _) rfl rfl hready
    ⟨by simp [preInit], by simp [preInit], by simp [preInit]⟩ rfl hr l _ (List.getElem?_eq_getElem hlt)
  obtain ⟨hs'', rfl, hg'⟩ := chain_prefix h1 hg
  rw [List.filter_append]
  have e1 : (hitsOf l σ.log).filter (fun h => decide (h.1 < lo + bufs.flatten.length)) = hitsOf l σ.log := by
    rw [List.filter_eq_self]
    intro x hx
    unfold hitsOf at hx
    obtain ⟨y, hy, rfl⟩ := List.mem_map.1 hx
    simpa using h3 y (List.mem_filter.1 hy).1
  have e2 : hs''.filter (fun h => decide (h.1 < lo + bufs.flatten.length)) = [] := by
    rw [List.filter_eq_nil_iff]
    cases hg' with
    | done => simp
    | hit hb hg' =>
      have hs := h2 _ _ _ hb.1 hb.2.1
      have ge : ∀ {m hs}, Greedy P data lo (lo + bufs.flatten.length + more.flatten.length) l m hs → ∀ x ∈ hs, m ≤ x.1 := by
        intro m hs h
        induction h with
        | done _ => simp
        | hit hb _ ih =>
          intro x hx
          rcases List.mem_cons.1 hx with rfl | hx
          · exact hb.2.1
          · have := ih x hx
            have := hb.1.2.1
            have := hb.2.1
            omega
      intro x hx
      rcases List.mem_cons.1 hx with rfl | hx
      · simpa using hs
      · have := ge hg' x hx
        have := hb.1.2.1
        simp only [decide_eq_true_eq]
        omega
  rw [e1, e2, List.append_nil]

end
end Verif.Vm
