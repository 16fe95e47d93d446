import Verif.Vm
/-!
# The VM does not look at its hit log or at the callback

Everything except the log evolves the same with or without a callback and
whatever has been logged before.
-/
namespace Verif.Vm

/-- Map over outcomes. -/
def Res.map {α β : Type} (f : α → β) : Res α → Res β
  | .ok a => .ok (f a)
  | .ub => .ub
  | .fuel => .fuel

@[simp] theorem map_okk {α β : Type} (f : α → β) (a : α) : (Res.ok a).map f = .ok (f a) := rfl
@[simp] theorem map_ubb {α β : Type} (f : α → β) : (Res.ub : Res α).map f = .ub := rfl
@[simp] theorem map_fuell {α β : Type} (f : α → β) : (Res.fuel : Res α).map f = .fuel := rfl

/-- Replace the log: what was there before (`L`), then the new hits if there is
a callback. -/
def relog (cb : Bool) (L : List Hit) (σ : St) : St :=
  { σ with log := L ++ (if cb then σ.log else []) }

/-- The state with an empty log. -/
def clearLog (σ : St) : St := { σ with log := [] }

@[simp] theorem relog_active (cb L σ) : (relog cb L σ).active = σ.active := rfl
@[simp] theorem relog_next (cb L σ) : (relog cb L σ).next = σ.next := rfl
@[simp] theorem relog_checks (cb L σ) : (relog cb L σ).checks = σ.checks := rfl
@[simp] theorem relog_liveNone (cb L σ) : (relog cb L σ).liveNone = σ.liveNone := rfl
@[simp] theorem relog_live (cb L σ) : (relog cb L σ).live = σ.live := rfl
@[simp] theorem relog_matchEnds (cb L σ) : (relog cb L σ).matchEnds = σ.matchEnds := rfl
@[simp] theorem relog_max (cb L σ) : (relog cb L σ).matchEndsMax = σ.matchEndsMax := rfl

theorem pushLive_relog (cb L t σ) :
    pushLive t (relog cb L σ) = (pushLive t σ).map (relog cb L) := by
  unfold pushLive
  cases t.label with
  | none => rfl
  | some l =>
    simp only [relog_matchEnds]
    by_cases h : l < σ.matchEnds.length
    · exact (if_pos h).trans (by rw [if_pos h]; rfl)
    · exact (if_neg h).trans (by rw [if_neg h]; rfl)

theorem unblocked_relog (cb L σ l) : unblocked (relog cb L σ) l = unblocked σ l := rfl

theorem liveCheck_relog (cb L σ s l) : liveCheck (relog cb L σ) s l = liveCheck σ s l := rfl

theorem finishStep_relog (P cb L off t σ) :
    finishStep P cb off t (relog cb L σ) =
      (finishStep P true off t σ).map (fun r => (r.1, relog cb L r.2)) := by
  simp only [finishStep]
  have h : ∀ (a : List Thread), ({ relog cb L σ with active := a } : St) = relog cb L { σ with active := a } :=
    fun _ => rfl
  simp only [relog_active, h, unblocked_relog]
  cases unblocked { σ with active := kill P t off σ.active } t.label with
  | ub => rfl
  | fuel => rfl
  | ok u =>
    simp only [bind_ok]
    cases u with
    | false => rfl
    | true =>
      simp only [if_true]
      cases t.label with
      | none => rfl
      | some l =>
        simp only [relog_matchEnds]
        split
        · rfl
        · split
          · cases cb <;> simp [relog]
          · rfl

theorem overlapGuard_relog (cb L) (k k' : Thread → St → Res (Option Thread × St))
    (hk : ∀ t σ, k t (relog cb L σ) = (k' t σ).map (fun r => (r.1, relog cb L r.2))) (t σ) :
    overlapGuard k t (relog cb L σ) = (overlapGuard k' t σ).map (fun r => (r.1, relog cb L r.2)) := by
  unfold overlapGuard
  cases t.label with
  | none => exact hk t σ
  | some l =>
    simp only [relog_matchEnds]
    split
    · rfl
    · split
      · rfl
      · exact hk t σ

theorem epLoop_relog (P cb L off) (n) : ∀ t σ,
    epLoop P cb off n t (relog cb L σ) =
      (epLoop P true off n t σ).map (fun r => (r.1, relog cb L r.2)) := by
  induction n with
  | zero => intro t σ; rfl
  | succ n ih =>
    intro t σ
    simp only [epLoop]
    cases opAt P t.pc with
    | none => rfl
    | some op =>
      cases op with
      | finish => exact finishStep_relog P cb L off t σ
      | fork =>
        simp only [overlapGuard_relog cb L _ _ ih]
        cases overlapGuard (epLoop P true off n) { t with pc := t.pc + 2 } σ with
        | ub => rfl
        | fuel => rfl
        | ok r =>
          obtain ⟨r, σ'⟩ := r
          simp only [map_okk, bind_ok]
          cases r with
          | none =>
            simp only [bind_ok]
            cases P.code[t.pc + 1]? with
            | none => rfl
            | some a => exact ih _ _
          | some t' =>
            simp only [pushLive_relog]
            cases pushLive t' σ' with
            | ub => rfl
            | fuel => rfl
            | ok σ'' =>
              simp only [map_okk, bind_ok]
              cases P.code[t.pc + 1]? with
              | none => rfl
              | some a => exact ih _ _
      | jump =>
        simp only
        cases P.code[t.pc + 1]? with
        | none => rfl
        | some a => exact ih _ _
      | checkHalt i =>
        simp only [relog_checks, liveCheck_relog]
        by_cases h1 : i < P.maxCheck + 1
        · rw [if_pos h1, if_pos h1]
          by_cases h2 : σ.checks.contains i = true
          · exact (if_pos h2).trans (by rw [if_pos h2]; rfl)
          · refine (if_neg h2).trans ?_
            rw [if_neg h2]
            cases liveCheck σ t.start t.label with
            | ub => rfl
            | fuel => rfl
            | ok blk =>
              simp only [bind_ok]
              cases blk with
              | true => exact ih _ _
              | false => exact ih _ { σ with checks := i :: σ.checks }
        · exact (if_neg h1).trans (by rw [if_neg h1]; rfl)
      | label l =>
        simp only [relog_matchEnds]
        split
        · rfl
        · split
          · exact ih _ _
          · rfl
      | «match» =>
        simp only [unblocked_relog]
        cases unblocked σ t.label with
        | ub => rfl
        | fuel => rfl
        | ok u => simp only [bind_ok]; exact ih _ _
      | halt => rfl
      | jumpTable _ _ => rfl
      | byte _ _ => rfl
      | bitVector => rfl
      | either _ _ _ => rfl
      | range _ _ _ => rfl
      | any => rfl
      | other => rfl

theorem epSeq_relog (P cb L off n t σ) :
    epSeq P cb off n t (relog cb L σ) =
      (epSeq P true off n t σ).map (fun r => (r.1, relog cb L r.2)) :=
  overlapGuard_relog cb L _ _ (epLoop_relog P cb L off n) t σ

theorem execThread_relog (P cb L fuel off b t σ) :
    execThread P cb fuel off b t (relog cb L σ) =
      (execThread P true fuel off b t σ).map (relog cb L) := by
  unfold execThread
  cases exec P t b with
  | ub => rfl
  | fuel => rfl
  | ok r =>
    simp only [bind_ok]
    cases r with
    | none => rfl
    | some t' =>
      simp only [epSeq_relog]
      cases epSeq P true off fuel t' σ with
      | ub => rfl
      | fuel => rfl
      | ok r =>
        obtain ⟨r, σ'⟩ := r
        simp only [map_okk, bind_ok]
        cases r with
        | none => rfl
        | some t'' => exact pushLive_relog cb L t'' σ'

theorem runActive_relog (P cb L fuel off b) (n) : ∀ σ,
    runActive P cb fuel off b n (relog cb L σ) =
      (runActive P true fuel off b n σ).map (relog cb L) := by
  induction n with
  | zero => intro σ; rfl
  | succ n ih =>
    intro σ
    simp only [runActive, relog_active]
    cases σ.active with
    | nil => rfl
    | cons t rest =>
      simp only
      have h : ({ relog cb L σ with active := rest } : St) = relog cb L { σ with active := rest } := rfl
      rw [h, execThread_relog]
      cases execThread P true fuel off b t { σ with active := rest } with
      | ub => rfl
      | fuel => rfl
      | ok σ' => simp only [map_okk, bind_ok]; exact ih σ'

theorem cleanup_relog (cb L σ) : cleanup (relog cb L σ) = relog cb L (cleanup σ) := rfl

theorem frame_relog (P first cb L fuel off b sp σ) :
    frame P first cb fuel off b sp (relog cb L σ) =
      (frame P first true fuel off b sp σ).map (relog cb L) := by
  simp only [frame, relog_active, runActive_relog]
  cases runActive P true fuel off b σ.active.length σ with
  | ub => rfl
  | fuel => rfl
  | ok σ' =>
    simp only [map_okk, bind_ok]
    cases sp with
    | false => rfl
    | true =>
      simp only [if_true]
      have h : ({ relog cb L σ' with active := newThreads first off } : St) =
        relog cb L { σ' with active := newThreads first off } := rfl
      rw [h, runActive_relog]
      cases runActive P true fuel off b first.length { σ' with active := newThreads first off } with
      | ub => rfl
      | fuel => rfl
      | ok σ'' => rfl

theorem searchLoop_relog (P first cb L fuel) (buf) : ∀ off σ,
    searchLoop P first cb fuel buf off (relog cb L σ) =
      (searchLoop P first true fuel buf off σ).map (relog cb L) := by
  induction buf with
  | nil => intro off σ; rfl
  | cons b bs ih =>
    intro off σ
    simp only [searchLoop, frame_relog]
    cases frame P first true fuel off b (spawnHere P (b :: bs)) σ with
    | ub => rfl
    | fuel => rfl
    | ok σ' => simp only [map_okk, bind_ok]; exact ih _ _

theorem search_relog (P first cb L fuel buf off σ) :
    search P first cb fuel buf off (relog cb L σ) =
      (search P first true fuel buf off σ).map (fun r => (r.1, relog cb L r.2)) := by
  simp only [search, searchLoop_relog]
  cases searchLoop P first true fuel buf off σ with
  | ub => rfl
  | fuel => rfl
  | ok σ' =>
    simp only [map_okk, bind_ok, relog_active]
    cases leftmostLive P (off + buf.length) σ'.active <;> rfl

theorem resolveActive_relog (P cb L fuel off b) (n) : ∀ h σ,
    resolveActive P cb fuel off b n h (relog cb L σ) =
      (resolveActive P true fuel off b n h σ).map (fun r => (r.1, relog cb L r.2)) := by
  induction n with
  | zero => intro h σ; rfl
  | succ n ih =>
    intro h σ
    simp only [resolveActive, relog_active]
    cases σ.active with
    | nil => rfl
    | cons t rest =>
      simp only
      cases isRealOp P t with
      | ub => rfl
      | fuel => rfl
      | ok r =>
        simp only [bind_ok]
        have h : ({ relog cb L σ with active := rest } : St) = relog cb L { σ with active := rest } := rfl
        rw [h, execThread_relog]
        cases execThread P true fuel off b t { σ with active := rest } with
        | ub => rfl
        | fuel => rfl
        | ok σ' => simp only [map_okk, bind_ok]; exact ih _ σ'

theorem resolveLoop_relog (P cb L fuel) (buf) : ∀ off real σ,
    resolveLoop P cb fuel buf off real (relog cb L σ) =
      (resolveLoop P true fuel buf off real σ).map (fun r => (r.1, relog cb L r.2)) := by
  induction buf with
  | nil => intro off real σ; rfl
  | cons b bs ih =>
    intro off real σ
    simp only [resolveLoop, relog_active, resolveActive_relog]
    split
    · rfl
    · cases resolveActive P true fuel off b σ.active.length false σ with
      | ub => rfl
      | fuel => rfl
      | ok r =>
        obtain ⟨h, σ'⟩ := r
        simp only [map_okk, bind_ok, cleanup_relog]
        exact ih _ _ _

theorem searchResolve_relog (P cb L fuel buf off σ) :
    searchResolve P cb fuel buf off (relog cb L σ) =
      (searchResolve P true fuel buf off σ).map (fun r => (r.1, relog cb L r.2)) := by
  simp only [searchResolve, resolveLoop_relog]
  cases resolveLoop P true fuel buf off true σ with
  | ub => rfl
  | fuel => rfl
  | ok r =>
    obtain ⟨o, σ'⟩ := r
    simp only [map_okk, bind_ok, relog_active]
    cases leftmostLive P o σ'.active <;> rfl

theorem closeLoop_relog (P L) (ts) : ∀ σ,
    closeLoop P ts (relog true L σ) = (closeLoop P ts σ).map (relog true L) := by
  induction ts with
  | nil => intro σ; rfl
  | cons t ts ih =>
    intro σ
    simp only [closeLoop]
    cases opAt P t.pc with
    | none => rfl
    | some op =>
      cases op <;> simp only <;> first | exact ih σ | skip
      cases t.label with
      | none => rfl
      | some l =>
        simp only [relog_matchEnds]
        cases σ.matchEnds[l]? with
        | none => rfl
        | some m =>
          simp only
          by_cases h : m ≤ t.start
          · rw [if_pos h, if_pos h]
            rw [← ih]
            simp [relog]
          · exact (if_neg h).trans (by rw [if_neg h]; exact ih σ)

theorem closeOut_relog (P L σ) :
    closeOut P true (relog true L σ) = (closeOut P true σ).map (relog true L) := by
  simp only [closeOut, if_true, relog_active]
  exact closeLoop_relog P L _ σ

theorem reset_relog (cb L σ) : reset (relog cb L σ) = relog cb L (reset σ) := rfl

theorem startsLoop_relog (P cb L fuel) (buf) : ∀ off σ,
    startsLoop P cb fuel buf off (relog cb L σ) =
      (startsLoop P true fuel buf off σ).map (relog cb L) := by
  induction buf with
  | nil => intro off σ; rfl
  | cons b bs ih =>
    intro off σ
    simp only [startsLoop, relog_active, runActive_relog]
    cases runActive P true fuel off b σ.active.length σ with
    | ub => rfl
    | fuel => rfl
    | ok σ' =>
      simp only [map_okk, bind_ok, cleanup_relog, relog_active]
      by_cases h : (cleanup σ').active.isEmpty = true
      · exact (if_pos h).trans (by rw [if_pos h]; rfl)
      · exact (if_neg h).trans (by rw [if_neg h]; exact ih _ _)

/-- With a callback, one call from a state with more history does the same and
keeps the history in front. -/
theorem step_relog_true (P first fuel L) (c : Call) (hc : match c with
      | .search _ _ cb => cb = true | .resolve _ _ cb => cb = true | .closeOut cb => cb = true
      | .startsWith _ _ cb => cb = true | .reset => True) (σ) :
    step P first fuel c (relog true L σ) =
      (step P first fuel c σ).map (fun r => (r.1, relog true L r.2)) := by
  cases c with
  | search buf off cb =>
    simp only at hc; subst hc
    simp only [step, search_relog]
    cases search P first true fuel buf off σ <;> rfl
  | resolve buf off cb =>
    simp only at hc; subst hc
    simp only [step, searchResolve_relog]
    cases searchResolve P true fuel buf off σ <;> rfl
  | closeOut cb =>
    simp only at hc; subst hc
    simp only [step, closeOut_relog]
    cases closeOut P true σ <;> rfl
  | startsWith buf off cb =>
    simp only at hc; subst hc
    simp only [step, startsWith, relog_active]
    split
    · have h : ({ relog true L σ with active := σ.active ++ newThreads first off } : St) =
        relog true L { σ with active := σ.active ++ newThreads first off } := rfl
      rw [h, startsLoop_relog]
      cases startsLoop P true fuel buf off { σ with active := σ.active ++ newThreads first off } with
      | ub => rfl
      | fuel => rfl
      | ok σ' =>
        simp only [map_okk, bind_ok, closeOut_relog]
        cases closeOut P true σ' <;> rfl
    · rfl
  | reset => rfl

end Verif.Vm
