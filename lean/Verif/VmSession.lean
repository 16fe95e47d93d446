import Verif.VmInv
/-!
# Whole histories of calls

Lifting of the frame invariants to `step` and `run`, independence from earlier
hits, and the size of `MatchEnds`.
-/
namespace Verif.Vm

/-- `Session p cs q`: the calls `cs` are search, resolve and close-out calls
whose start offsets never go back: the data seen so far ends at `p` before and
at `q` after. -/
inductive Session : Nat → List Call → Nat → Prop
  | nil (p : Nat) : Session p [] p
  | search {p q : Nat} {cs : List Call} (buf : List UInt8) (off : Nat) (cb : Bool) :
      p ≤ off → Session (off + buf.length) cs q → Session p (.search buf off cb :: cs) q
  | resolve {p q : Nat} {cs : List Call} (buf : List UInt8) (off : Nat) (cb : Bool) :
      p ≤ off → Session (off + buf.length) cs q → Session p (.resolve buf off cb :: cs) q
  | closeOut {p q : Nat} {cs : List Call} (cb : Bool) : Session p cs q → Session p (.closeOut cb :: cs) q

theorem Session.le {p q : Nat} {cs : List Call} (h : Session p cs q) : p ≤ q := by
  induction h with
  | nil => exact Nat.le_refl _
  | search buf off cb h _ ih => omega
  | resolve buf off cb h _ ih => omega
  | closeOut cb _ ih => exact ih

theorem run_append (P first fuel) (a b : List Call) : ∀ σ,
    run P first fuel (a ++ b) σ = (do
      let (r1, σ1) ← run P first fuel a σ
      let (r2, σ2) ← run P first fuel b σ1
      .ok (r1 ++ r2, σ2)) := by
  induction a with
  | nil =>
    intro σ
    simp only [List.nil_append, run, bind_ok]
    cases run P first fuel b σ <;> rfl
  | cons c cs ih =>
    intro σ
    simp only [List.cons_append, run]
    cases hs : step P first fuel c σ with
    | ub => rfl
    | fuel => rfl
    | ok r =>
      simp only [bind_ok, ih]
      cases run P first fuel cs r.2 with
      | ub => rfl
      | fuel => rfl
      | ok r1 =>
        simp only [bind_ok]
        cases run P first fuel b r1.2 <;> rfl

/-- If one function's callback only affects the log, then a longer earlier log
only adds a prefix. -/
theorem prefix_of_relog {α : Type} (F : Bool → St → Res (α × St))
    (hF : ∀ cb L σ, F cb (relog cb L σ) = (F true σ).map (fun r => (r.1, relog cb L r.2)))
    (cb : Bool) (L : List Hit) (σ : St) :
    F cb (relog true L σ) = (F cb σ).map (fun r => (r.1, relog true L r.2)) := by
  cases cb with
  | true => exact hF true L σ
  | false =>
    have h1 : relog true L σ = relog false (L ++ σ.log) σ := by simp [relog]
    have h2 : F false σ = F false (relog false σ.log σ) := by simp [relog]
    rw [h1, h2, hF, hF]
    cases F true σ <;> simp [relog]

theorem startsWith_relog (P first fuel buf off) (cb L σ) :
    startsWith P first cb fuel buf off (relog true L σ) =
      (startsWith P first cb fuel buf off σ).map (relog true L) := by
  cases cb with
  | true =>
    have := step_relog_true P first fuel L (.startsWith buf off true) rfl σ
    simp only [step] at this
    cases h1 : startsWith P first true fuel buf off σ <;>
      cases h2 : startsWith P first true fuel buf off (relog true L σ) <;>
      rw [h1, h2] at this <;> simp_all
  | false =>
    simp only [startsWith, relog_active]
    split
    · have h1 : ({ relog true L σ with active := σ.active ++ newThreads first off } : St) =
        relog false (L ++ σ.log) { σ with active := σ.active ++ newThreads first off } := by simp [relog]
      have h2 : startsLoop P false fuel buf off { σ with active := σ.active ++ newThreads first off } =
        startsLoop P false fuel buf off
          (relog false σ.log { σ with active := σ.active ++ newThreads first off }) := by simp [relog]
      rw [h1, h2, startsLoop_relog, startsLoop_relog]
      cases startsLoop P true fuel buf off { σ with active := σ.active ++ newThreads first off } with
      | ub => rfl
      | fuel => rfl
      | ok σ' => simp [closeOut, relog, reset]
    · rfl

/-- A longer earlier log only adds a prefix, for every call. -/
theorem step_prefix (P first fuel L) (c : Call) (σ) :
    step P first fuel c (relog true L σ) =
      (step P first fuel c σ).map (fun r => (r.1, relog true L r.2)) := by
  cases c with
  | search buf off cb =>
    have := prefix_of_relog (fun cb σ => search P first cb fuel buf off σ)
      (fun cb L σ => search_relog P first cb L fuel buf off σ) cb L σ
    simp only [step, this]
    cases search P first cb fuel buf off σ <;> rfl
  | resolve buf off cb =>
    have := prefix_of_relog (fun cb σ => searchResolve P cb fuel buf off σ)
      (fun cb L σ => searchResolve_relog P cb L fuel buf off σ) cb L σ
    simp only [step, this]
    cases searchResolve P cb fuel buf off σ <;> rfl
  | closeOut cb =>
    cases cb with
    | true => exact step_relog_true P first fuel L (.closeOut true) rfl σ
    | false => rfl
  | startsWith buf off cb =>
    simp only [step, startsWith_relog]
    cases startsWith P first cb fuel buf off σ <;> rfl
  | reset => rfl

theorem run_prefix (P first fuel L) (cs : List Call) : ∀ σ,
    run P first fuel cs (relog true L σ) =
      (run P first fuel cs σ).map (fun r => (r.1, relog true L r.2)) := by
  induction cs with
  | nil => intro σ; rfl
  | cons c cs ih =>
    intro σ
    simp only [run, step_prefix]
    cases step P first fuel c σ with
    | ub => rfl
    | fuel => rfl
    | ok r =>
      simp only [map_okk, bind_ok, ih]
      cases run P first fuel cs r.2 <;> rfl

theorem relog_clear (σ : St) : relog true σ.log (clearLog σ) = σ := by simp [relog, clearLog]

theorem Inv.clear {P S o o' off} {σ : St} (h : Inv P S o off σ)
    (ho : ∀ t ∈ σ.active, o' ≤ t.start) : Inv P S o' off (clearLog σ) :=
  { h with
    threads := fun t ht => { h.threads t ht with lo := ho t ht }
    log := ⟨by simp [clearLog], by simp [clearLog], by simp [clearLog], h.log.upper⟩ }

/-- One call of a session keeps the invariant. -/
theorem step_inv {P S} (G : Guarded P S) {first fuel o p q} (hf : FirstOk S first) {c : Call}
    (hc : Session p [c] q) (ho : o ≤ p) {σ r σ'} (hI : Inv P S o p σ)
    (h : step P first fuel c σ = .ok (r, σ')) :
    Inv P S o q σ' ∧ ∀ x, r = some x → x ≤ q ∧ ∀ t ∈ σ'.active, x ≤ t.start := by
  have ret : ∀ {off x : Nat} {σ : St}, Inv P S o off σ → leftmostLive P off σ.active = .ok x →
      x ≤ off ∧ ∀ t ∈ σ.active, x ≤ t.start := by
    intro off x σ hI hl
    have := leftmostLive_eq hI hl
    cases ha : σ.active with
    | nil => rw [ha] at this; simp at this; subst this; simp
    | cons u us =>
      rw [ha] at this
      simp at this
      subst this
      have hs := hI.sorted
      rw [ha] at hs
      have hu := hI.threads u (by rw [ha]; simp)
      refine ⟨Nat.le_of_lt hu.hi, ?_⟩
      intro t ht
      rcases List.mem_cons.1 ht with rfl | ht
      · exact Nat.le_refl _
      · exact (List.pairwise_cons.1 hs).1 t ht
  cases hc with
  | search buf off cb hle hn =>
    cases hn
    simp only [step, search] at h
    obtain ⟨⟨x, σ1⟩, h1, h⟩ := bind_eq_ok.1 h
    simp only [Res.ok.injEq, Prod.mk.injEq] at h
    obtain ⟨rfl, rfl⟩ := h
    obtain ⟨σ2, h2, h1⟩ := bind_eq_ok.1 h1
    obtain ⟨y, h3, h1⟩ := bind_eq_ok.1 h1
    simp only [Res.ok.injEq, Prod.mk.injEq] at h1
    obtain ⟨rfl, rfl⟩ := h1
    have := searchLoop_inv G hf buf (by omega) (hI.mono hle) h2
    refine ⟨this, ?_⟩
    intro x hx
    simp at hx; subst hx
    exact ret this h3
  | resolve buf off cb hle hn =>
    cases hn
    simp only [step, searchResolve] at h
    obtain ⟨⟨x, σ1⟩, h1, h⟩ := bind_eq_ok.1 h
    simp only [Res.ok.injEq, Prod.mk.injEq] at h
    obtain ⟨rfl, rfl⟩ := h
    obtain ⟨⟨o2, σ2⟩, h2, h1⟩ := bind_eq_ok.1 h1
    obtain ⟨y, h3, h1⟩ := bind_eq_ok.1 h1
    simp only [Res.ok.injEq, Prod.mk.injEq] at h1
    obtain ⟨rfl, rfl⟩ := h1
    obtain ⟨hi, h4, h5⟩ := resolveLoop_inv G buf (by omega) (hI.mono hle) h2
    refine ⟨hi.mono h5, ?_⟩
    intro x hx
    simp at hx; subst hx
    have := ret hi h3
    exact ⟨by omega, this.2⟩
  | closeOut cb hn =>
    cases hn
    simp only [step] at h
    obtain ⟨σ1, h1, h⟩ := bind_eq_ok.1 h
    simp only [Res.ok.injEq, Prod.mk.injEq] at h
    obtain ⟨rfl, rfl⟩ := h
    exact ⟨closeOut_inv G hI h1, by simp⟩

theorem Session.cons_inv {p q : Nat} {c : Call} {cs : List Call} (h : Session p (c :: cs) q) :
    ∃ m, Session p [c] m ∧ Session m cs q := by
  cases h with
  | search buf off cb h hn => exact ⟨_, .search buf off cb h (.nil _), hn⟩
  | resolve buf off cb h hn => exact ⟨_, .resolve buf off cb h (.nil _), hn⟩
  | closeOut cb hn => exact ⟨_, .closeOut cb (.nil _), hn⟩

theorem run_inv {P S} (G : Guarded P S) {first fuel} (hf : FirstOk S first) (cs : List Call) :
    ∀ {o p q σ rs σ'}, Session p cs q → o ≤ p → Inv P S o p σ →
    run P first fuel cs σ = .ok (rs, σ') → Inv P S o q σ' := by
  induction cs with
  | nil =>
    intro o p q σ rs σ' hs _ hI h
    cases hs
    simp only [run, Res.ok.injEq, Prod.mk.injEq] at h
    obtain ⟨_, rfl⟩ := h
    exact hI
  | cons c cs ih =>
    intro o p q σ rs σ' hs ho hI h
    obtain ⟨m, hc, hm⟩ := hs.cons_inv
    simp only [run] at h
    obtain ⟨⟨r, σ1⟩, h1, h⟩ := bind_eq_ok.1 h
    obtain ⟨⟨rs1, σ2⟩, h2, h⟩ := bind_eq_ok.1 h
    simp only [Res.ok.injEq, Prod.mk.injEq] at h
    obtain ⟨_, rfl⟩ := h
    exact ih hm (Nat.le_trans ho hc.le) (step_inv G hf hc ho hI h1).1 h2

/-! ### The size of `MatchEnds` never changes -/

theorem len_hyps (P : Program) (cb : Bool) (off n : Nat) :
    EpHyps P cb off (fun _ => True) (fun σ => σ.matchEnds.length = n) where
  fork1 := fun _ _ _ => trivial
  fork2 := fun _ _ _ _ _ => trivial
  jump := fun _ _ _ _ _ => trivial
  check := fun _ _ _ _ => trivial
  label := fun _ _ _ _ => trivial
  «match» := fun _ _ _ _ => trivial
  kill := fun t σ _ _ h => h
  emit := fun t σ l m _ _ h _ _ _ _ => by simpa [emitted] using h
  push := fun t σ σ' _ h _ hp => by
    obtain ⟨_, _, _, h4, _⟩ := pushLive_ok hp; rw [h4]; exact h
  lock := fun _ _ _ _ h _ _ => h

theorem runActive_len {P cb fuel off b} (n : Nat) : ∀ {σ σ' : St},
    runActive P cb fuel off b n σ = .ok σ' → σ'.matchEnds.length = σ.matchEnds.length := by
  induction n with
  | zero => intro σ σ' h; simp only [runActive, Res.ok.injEq] at h; subst h; rfl
  | succ n ih =>
    intro σ σ' h
    simp only [runActive] at h
    cases ha : σ.active with
    | nil => rw [ha] at h; simp only [Res.ok.injEq] at h; subst h; rfl
    | cons t rest =>
      rw [ha] at h
      simp only at h
      obtain ⟨σ1, h1, h⟩ := bind_eq_ok.1 h
      have : σ1.matchEnds.length = σ.matchEnds.length :=
        execThread_inv (len_hyps P cb off σ.matchEnds.length)
          (σ := { σ with active := rest }) (fun _ _ => trivial) rfl h1
      rw [ih h, this]

theorem searchLoop_len {P first cb fuel} (buf : List UInt8) : ∀ {off : Nat} {σ σ' : St},
    searchLoop P first cb fuel buf off σ = .ok σ' → σ'.matchEnds.length = σ.matchEnds.length := by
  induction buf with
  | nil => intro off σ σ' h; simp only [searchLoop, Res.ok.injEq] at h; subst h; rfl
  | cons b bs ih =>
    intro off σ σ' h
    simp only [searchLoop] at h
    obtain ⟨σ1, h1, h⟩ := bind_eq_ok.1 h
    rw [ih h]
    simp only [frame] at h1
    obtain ⟨σ2, h2, h1⟩ := bind_eq_ok.1 h1
    obtain ⟨σ3, h3, h1⟩ := bind_eq_ok.1 h1
    simp only [Res.ok.injEq] at h1
    subst h1
    have e2 := runActive_len _ h2
    split at h3
    · have e3 := runActive_len _ h3
      simp only [cleanup]; rw [e3]; exact e2
    · simp only [Res.ok.injEq] at h3; subst h3; exact e2

theorem resolveLoop_len {P cb fuel} (buf : List UInt8) : ∀ {off off' : Nat} {real : Bool} {σ σ' : St},
    resolveLoop P cb fuel buf off real σ = .ok (off', σ') → σ'.matchEnds.length = σ.matchEnds.length := by
  induction buf with
  | nil =>
    intro off off' real σ σ' h
    simp only [resolveLoop, Res.ok.injEq, Prod.mk.injEq] at h; rw [h.2]
  | cons b bs ih =>
    intro off off' real σ σ' h
    simp only [resolveLoop] at h
    split at h
    · simp only [Res.ok.injEq, Prod.mk.injEq] at h; rw [h.2]
    · obtain ⟨⟨r, σ1⟩, h1, h⟩ := bind_eq_ok.1 h
      rw [ih h]
      have := runActive_len _ (resolveActive_eq _ h1)
      exact this

theorem startsLoop_len {P cb fuel} (buf : List UInt8) : ∀ {off : Nat} {σ σ' : St},
    startsLoop P cb fuel buf off σ = .ok σ' → σ'.matchEnds.length = σ.matchEnds.length := by
  induction buf with
  | nil => intro off σ σ' h; simp only [startsLoop, Res.ok.injEq] at h; subst h; rfl
  | cons b bs ih =>
    intro off σ σ' h
    simp only [startsLoop] at h
    obtain ⟨σ1, h1, h⟩ := bind_eq_ok.1 h
    have e1 := runActive_len _ h1
    split at h
    · simp only [Res.ok.injEq] at h; subst h; exact e1
    · rw [ih h]; exact e1

theorem closeLoop_len {P} (ts : List Thread) : ∀ {σ σ' : St},
    closeLoop P ts σ = .ok σ' → σ'.matchEnds.length = σ.matchEnds.length := by
  induction ts with
  | nil => intro σ σ' h; simp only [closeLoop, Res.ok.injEq] at h; subst h; rfl
  | cons t ts ih =>
    intro σ σ' h
    simp only [closeLoop] at h
    split at h
    · simp at h
    · split at h
      · simp at h
      · split at h
        · simp at h
        · split at h
          · rw [ih h]; simp
          · exact ih h
    · exact ih h

theorem closeOut_len {P cb} {σ σ' : St} (h : closeOut P cb σ = .ok σ') :
    σ'.matchEnds.length = σ.matchEnds.length := by
  simp only [closeOut] at h
  split at h
  · exact closeLoop_len _ h
  · simp only [Res.ok.injEq] at h; subst h; rfl

theorem step_len {P first fuel c r} {σ σ' : St} (h : step P first fuel c σ = .ok (r, σ')) :
    σ'.matchEnds.length = σ.matchEnds.length := by
  cases c with
  | search buf off cb =>
    simp only [step, search] at h
    obtain ⟨⟨x, σ1⟩, h1, h⟩ := bind_eq_ok.1 h
    simp only [Res.ok.injEq, Prod.mk.injEq] at h
    obtain ⟨rfl, rfl⟩ := h
    obtain ⟨σ2, h2, h1⟩ := bind_eq_ok.1 h1
    obtain ⟨y, h3, h1⟩ := bind_eq_ok.1 h1
    simp only [Res.ok.injEq, Prod.mk.injEq] at h1
    obtain ⟨rfl, rfl⟩ := h1
    exact searchLoop_len _ h2
  | resolve buf off cb =>
    simp only [step, searchResolve] at h
    obtain ⟨⟨x, σ1⟩, h1, h⟩ := bind_eq_ok.1 h
    simp only [Res.ok.injEq, Prod.mk.injEq] at h
    obtain ⟨rfl, rfl⟩ := h
    obtain ⟨⟨o2, σ2⟩, h2, h1⟩ := bind_eq_ok.1 h1
    obtain ⟨y, h3, h1⟩ := bind_eq_ok.1 h1
    simp only [Res.ok.injEq, Prod.mk.injEq] at h1
    obtain ⟨rfl, rfl⟩ := h1
    exact resolveLoop_len _ h2
  | closeOut cb =>
    simp only [step] at h
    obtain ⟨σ1, h1, h⟩ := bind_eq_ok.1 h
    simp only [Res.ok.injEq, Prod.mk.injEq] at h
    obtain ⟨rfl, rfl⟩ := h
    exact closeOut_len h1
  | startsWith buf off cb =>
    simp only [step, startsWith] at h
    obtain ⟨σ1, h1, h⟩ := bind_eq_ok.1 h
    simp only [Res.ok.injEq, Prod.mk.injEq] at h
    obtain ⟨rfl, rfl⟩ := h
    split at h1
    · obtain ⟨σ2, h2, h1⟩ := bind_eq_ok.1 h1
      obtain ⟨σ3, h3, h1⟩ := bind_eq_ok.1 h1
      simp only [Res.ok.injEq] at h1
      subst h1
      have e2 := startsLoop_len _ h2
      have e3 := closeOut_len h3
      simp only [reset, List.length_replicate]
      rw [e3, e2]
    · simp only [Res.ok.injEq] at h1; subst h1; rfl
  | reset =>
    simp only [step, Res.ok.injEq, Prod.mk.injEq] at h
    obtain ⟨rfl, rfl⟩ := h
    simp [reset]

theorem run_len {P first fuel} (cs : List Call) : ∀ {rs} {σ σ' : St},
    run P first fuel cs σ = .ok (rs, σ') → σ'.matchEnds.length = σ.matchEnds.length := by
  induction cs with
  | nil => intro rs σ σ' h; simp only [run, Res.ok.injEq, Prod.mk.injEq] at h; rw [h.2]
  | cons c cs ih =>
    intro rs σ σ' h
    simp only [run] at h
    obtain ⟨⟨r, σ1⟩, h1, h⟩ := bind_eq_ok.1 h
    obtain ⟨⟨rs1, σ2⟩, h2, h⟩ := bind_eq_ok.1 h
    simp only [Res.ok.injEq, Prod.mk.injEq] at h
    obtain ⟨_, rfl⟩ := h
    rw [ih h2, step_len h1]

/-- The constructor leaves the context as after a reset, whatever the
program. -/
theorem create_state {P fuel first σ} (h : create P fuel = .ok (first, σ)) (hlog : σ.log = []) :
    σ = preInit P := by
  simp only [create] at h
  obtain ⟨⟨r, σ1⟩, h1, h⟩ := bind_eq_ok.1 h
  simp only [Res.ok.injEq, Prod.mk.injEq] at h
  obtain ⟨_, rfl⟩ := h
  have : σ1.matchEnds.length = P.maxLabel + 1 :=
    (epSeq_inv (len_hyps P false 0 (P.maxLabel + 1)) trivial (by simp [preInit]) h1).1
  simp only [reset] at hlog ⊢
  simp [preInit, this, hlog]

theorem create_log {P fuel first σ} (h : create P fuel = .ok (first, σ)) : σ.log = [] := by
  simp only [create] at h
  obtain ⟨⟨r, σ1⟩, h1, h⟩ := bind_eq_ok.1 h
  simp only [Res.ok.injEq, Prod.mk.injEq] at h
  obtain ⟨_, rfl⟩ := h
  have H : EpHyps P false 0 (fun _ => True) (fun σ => σ.log = []) :=
    { fork1 := fun _ _ _ => trivial
      fork2 := fun _ _ _ _ _ => trivial
      jump := fun _ _ _ _ _ => trivial
      check := fun _ _ _ _ => trivial
      label := fun _ _ _ _ => trivial
      «match» := fun _ _ _ _ => trivial
      kill := fun t σ _ _ h => h
      emit := fun t σ l m _ _ h _ _ _ _ => by simpa [emitted] using h
      push := fun t σ σ' _ h _ hp => by
        obtain ⟨_, _, _, _, _, h6, _⟩ := pushLive_ok hp; rw [h6]; exact h
      lock := fun _ _ _ _ h _ _ => h }
  exact (epSeq_inv H trivial rfl h1).1

/-! ### All threads of `startsWith` start at the given offset -/

theorem starts_hyps (P : Program) (cb : Bool) (off s : Nat) :
    EpHyps P cb off (fun t => t.start = s)
      (fun σ => (∀ t ∈ σ.active, t.start = s) ∧ (∀ t ∈ σ.next, t.start = s) ∧ ∀ h ∈ σ.log, h.start = s) where
  fork1 := fun _ h _ => h
  fork2 := fun _ _ h _ _ => h
  jump := fun _ _ h _ _ => h
  check := fun _ _ h _ => h
  label := fun _ _ h _ => h
  «match» := fun _ _ h _ => h
  kill := fun t σ _ _ h => ⟨fun u hu => by
    obtain ⟨j, hj, h1, _⟩ := mem_kill hu
    rw [h1]; exact h.1 j hj, h.2⟩
  emit := fun t σ l m ht _ h _ _ _ _ => ⟨h.1, h.2.1, fun x hx => by
    simp only [emitted] at hx
    split at hx
    · rcases List.mem_append.1 hx with hx | hx
      · exact h.2.2 x hx
      · simp at hx; subst hx; exact ht
    · exact h.2.2 x hx⟩
  push := fun t σ σ' ht h _ hp => by
    obtain ⟨h1, h2, _, _, _, h6, _⟩ := pushLive_ok hp
    refine ⟨by rw [h2]; exact h.1, ?_, by rw [h6]; exact h.2.2⟩
    intro u hu
    rw [h1] at hu
    rcases List.mem_append.1 hu with hu | hu
    · exact h.2.1 u hu
    · simp at hu; subst hu; exact ht
  lock := fun _ _ _ _ h _ _ => h

theorem runActive_starts {P cb fuel off b s} (n : Nat) : ∀ {σ σ' : St},
    ((∀ t ∈ σ.active, t.start = s) ∧ (∀ t ∈ σ.next, t.start = s) ∧ ∀ h ∈ σ.log, h.start = s) →
    runActive P cb fuel off b n σ = .ok σ' →
    ((∀ t ∈ σ'.active, t.start = s) ∧ (∀ t ∈ σ'.next, t.start = s) ∧ ∀ h ∈ σ'.log, h.start = s) := by
  induction n with
  | zero => intro σ σ' hI h; simp only [runActive, Res.ok.injEq] at h; subst h; exact hI
  | succ n ih =>
    intro σ σ' hI h
    simp only [runActive] at h
    cases ha : σ.active with
    | nil => rw [ha] at h; simp only [Res.ok.injEq] at h; subst h; exact hI
    | cons t rest =>
      rw [ha] at h
      simp only at h
      obtain ⟨σ1, h1, h⟩ := bind_eq_ok.1 h
      refine ih ?_ h
      refine execThread_inv (starts_hyps P cb off s) (fun t' hx => ?_) ?_ h1
      · have := hI.1 t (by rw [ha]; simp)
        rcases exec_some hx with ⟨pc', rfl, _⟩ | ⟨rfl, _⟩ <;> exact this
      · exact ⟨fun u hu => hI.1 u (by rw [ha]; simp [show u ∈ rest from hu]), hI.2⟩

theorem startsLoop_starts {P cb fuel s} (buf : List UInt8) : ∀ {off : Nat} {σ σ' : St},
    ((∀ t ∈ σ.active, t.start = s) ∧ (∀ t ∈ σ.next, t.start = s) ∧ ∀ h ∈ σ.log, h.start = s) →
    startsLoop P cb fuel buf off σ = .ok σ' →
    ((∀ t ∈ σ'.active, t.start = s) ∧ ∀ h ∈ σ'.log, h.start = s) := by
  induction buf with
  | nil => intro off σ σ' hI h; simp only [startsLoop, Res.ok.injEq] at h; subst h; exact ⟨hI.1, hI.2.2⟩
  | cons b bs ih =>
    intro off σ σ' hI h
    simp only [startsLoop] at h
    obtain ⟨σ1, h1, h⟩ := bind_eq_ok.1 h
    obtain ⟨a1, a2, a3⟩ := runActive_starts _ hI h1
    split at h
    · simp only [Res.ok.injEq] at h; subst h; exact ⟨a2, a3⟩
    · exact ih (σ := cleanup σ1) ⟨a2, by simp [cleanup], a3⟩ h

theorem closeLoop_starts {P s} (ts : List Thread) : ∀ {σ σ' : St},
    (∀ t ∈ ts, t.start = s) → (∀ h ∈ σ.log, h.start = s) → closeLoop P ts σ = .ok σ' →
    ∀ h ∈ σ'.log, h.start = s := by
  induction ts with
  | nil => intro σ σ' _ hI h; simp only [closeLoop, Res.ok.injEq] at h; subst h; exact hI
  | cons t ts ih =>
    intro σ σ' ht hI h
    have hts : ∀ u ∈ ts, u.start = s := fun u hu => ht u (by simp [hu])
    simp only [closeLoop] at h
    split at h
    · simp at h
    · split at h
      · simp at h
      · split at h
        · simp at h
        · split at h
          · refine ih hts ?_ h
            intro x hx
            rcases List.mem_append.1 hx with hx | hx
            · exact hI x hx
            · simp at hx; subst hx; exact ht t (by simp)
          · exact ih hts hI h
    · exact ih hts hI h

end Verif.Vm
