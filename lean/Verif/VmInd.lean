import Verif.VmLog
/-!
# Induction principle for the epsilon loop

A thread predicate `T` and a state predicate `I` that survive every primitive
action of `_executeEpsilon` survive the whole closure.
-/
namespace Verif.Vm

/-- Instructions at which a thread rests between bytes (everything the epsilon
switch of src/lib/vm.cpp:262-380 does not handle). -/
def Op.resting : Op → Bool
  | .jumpTable _ _ => true
  | .byte _ _ => true
  | .bitVector => true
  | .either _ _ _ => true
  | .range _ _ _ => true
  | .any => true
  | .other => true
  | _ => false

/-- How a thread that survives the closure ends: at a resting instruction, or
waiting at Finish because something blocks it. -/
def Rests (P : Program) (σ : St) (t : Thread) : Prop :=
  (∃ op, opAt P t.pc = some op ∧ op.resting = true) ∨
  (opAt P t.pc = some .finish ∧ unblocked σ t.label = .ok false)

/-- The state after reporting a hit. -/
def emitted (cb : Bool) (t : Thread) (l : Nat) (σ : St) : St :=
  { σ with
    matchEnds := σ.matchEnds.set l (endPlus t.end)
    matchEndsMax := if σ.matchEndsMax < endPlus t.end then endPlus t.end else σ.matchEndsMax
    log := if cb then σ.log ++ [⟨t.start, endPlus t.end, l⟩] else σ.log }

/-- The primitive actions preserve `T` and `I`. -/
structure EpHyps (P : Program) (cb : Bool) (off : Nat) (T : Thread → Prop) (I : St → Prop) : Prop where
  fork1 : ∀ t, T t → opAt P t.pc = some .fork → T { t with pc := t.pc + 2 }
  fork2 : ∀ t a, T t → opAt P t.pc = some .fork → P.code[t.pc + 1]? = some a → T { t with pc := a }
  jump : ∀ t a, T t → opAt P t.pc = some .jump → P.code[t.pc + 1]? = some a → T { t with pc := a }
  check : ∀ t i, T t → opAt P t.pc = some (.checkHalt i) → T { t with pc := t.pc + 1 }
  label : ∀ t l, T t → opAt P t.pc = some (.label l) → T { t with label := some l, pc := t.pc + 1 }
  «match» : ∀ t u, T t → opAt P t.pc = some .match →
    T { t with «end» := some off, pc := t.pc + 1, lead := u }
  kill : ∀ t σ, T t → opAt P t.pc = some .finish → I σ → I { σ with active := kill P t off σ.active }
  emit : ∀ t σ l m, T t → opAt P t.pc = some .finish → I σ → t.label = some l →
    σ.matchEnds[l]? = some m → m ≤ t.start → unblocked σ t.label = .ok true → I (emitted cb t l σ)
  push : ∀ t σ σ', T t → I σ → Rests P σ t → pushLive t σ = .ok σ' → I σ'
  lock : ∀ t σ i, T t → I σ → opAt P t.pc = some (.checkHalt i) →
    liveCheck σ t.start t.label = .ok false → I { σ with checks := i :: σ.checks }

theorem finishStep_inv {P cb off T I} (H : EpHyps P cb off T I) {t σ r σ'} (hT : T t) (hI : I σ)
    (hop : opAt P t.pc = some .finish) (h : finishStep P cb off t σ = .ok (r, σ')) :
    I σ' ∧ ∀ t', r = some t' → T t' ∧ Rests P σ' t' := by
  have hk := H.kill t σ hT hop hI
  simp only [finishStep] at h
  obtain ⟨u, hu, h⟩ := bind_eq_ok.1 h
  cases u with
  | false =>
    simp only [Bool.false_eq_true, if_false, Res.ok.injEq, Prod.mk.injEq] at h
    obtain ⟨rfl, rfl⟩ := h
    exact ⟨hk, fun t' ht => by
      simp only [Option.some.injEq] at ht
      subst ht; exact ⟨hT, Or.inr ⟨hop, hu⟩⟩⟩
  | true =>
    simp only [if_true] at h
    cases hl : t.label with
    | none => rw [hl] at h; simp at h
    | some l =>
      rw [hl] at h
      simp only at h
      cases hm : σ.matchEnds[l]? with
      | none => rw [hm] at h; simp at h
      | some m =>
        rw [hm] at h
        simp only at h
        split at h
        · rename_i hle
          simp only [Res.ok.injEq, Prod.mk.injEq] at h
          obtain ⟨rfl, rfl⟩ := h
          exact ⟨H.emit t _ l m hT hop hk hl hm hle hu, by simp⟩
        · simp only [Res.ok.injEq, Prod.mk.injEq] at h
          obtain ⟨rfl, rfl⟩ := h
          exact ⟨hk, by simp⟩

theorem overlapGuard_inv {T : Thread → Prop} {I : St → Prop} {Q : St → Thread → Prop}
    {k : Thread → St → Res (Option Thread × St)}
    (hk : ∀ t σ r σ', T t → I σ → k t σ = .ok (r, σ') → I σ' ∧ ∀ t', r = some t' → T t' ∧ Q σ' t')
    {t σ r σ'} (hT : T t) (hI : I σ) (h : overlapGuard k t σ = .ok (r, σ')) :
    I σ' ∧ ∀ t', r = some t' → T t' ∧ Q σ' t' := by
  simp only [overlapGuard] at h
  cases hl : t.label with
  | none => rw [hl] at h; exact hk t σ r σ' hT hI h
  | some l =>
    rw [hl] at h
    simp only at h
    cases hm : σ.matchEnds[l]? with
    | none => rw [hm] at h; simp at h
    | some m =>
      rw [hm] at h
      simp only at h
      split at h
      · simp only [Res.ok.injEq, Prod.mk.injEq] at h
        obtain ⟨rfl, rfl⟩ := h
        exact ⟨hI, by simp⟩
      · exact hk t σ r σ' hT hI h

theorem epLoop_inv {P cb off T I} (H : EpHyps P cb off T I) (n : Nat) : ∀ t σ r σ', T t → I σ →
    epLoop P cb off n t σ = .ok (r, σ') → I σ' ∧ ∀ t', r = some t' → T t' ∧ Rests P σ' t' := by
  induction n with
  | zero => intro t σ r σ' _ _ h; simp [epLoop] at h
  | succ n ih =>
    intro t σ r σ' hT hI h
    simp only [epLoop] at h
    cases hop : opAt P t.pc with
    | none => rw [hop] at h; simp at h
    | some op =>
      rw [hop] at h
      have rest : op.resting = true → Res.ok (some t, σ) = .ok (r, σ') →
          I σ' ∧ ∀ t', r = some t' → T t' ∧ Rests P σ' t' := by
        intro hr h
        simp only [Res.ok.injEq, Prod.mk.injEq] at h
        obtain ⟨rfl, rfl⟩ := h
        refine ⟨hI, fun t' ht => ?_⟩
        simp only [Option.some.injEq] at ht
        subst ht
        exact ⟨hT, Or.inl ⟨op, hop, hr⟩⟩
      cases op with
      | finish => exact finishStep_inv H hT hI hop h
      | fork =>
        simp only at h
        obtain ⟨⟨r1, σ1⟩, h1, h⟩ := bind_eq_ok.1 h
        obtain ⟨hI1, hr1⟩ := overlapGuard_inv (Q := Rests P) ih (H.fork1 t hT hop) hI h1
        obtain ⟨σ2, h2, h⟩ := bind_eq_ok.1 h
        have hI2 : I σ2 := by
          cases r1 with
          | none => simp only [Res.ok.injEq] at h2; subst h2; exact hI1
          | some t1 =>
            obtain ⟨hT1, hR1⟩ := hr1 t1 rfl
            exact H.push t1 σ1 σ2 hT1 hI1 hR1 h2
        cases ha : P.code[t.pc + 1]? with
        | none => rw [ha] at h; simp at h
        | some a =>
          rw [ha] at h
          exact ih _ _ _ _ (H.fork2 t a hT hop ha) hI2 h
      | jump =>
        simp only at h
        cases ha : P.code[t.pc + 1]? with
        | none => rw [ha] at h; simp at h
        | some a =>
          rw [ha] at h
          exact ih _ _ _ _ (H.jump t a hT hop ha) hI h
      | checkHalt i =>
        simp only at h
        split at h
        · split at h
          · simp only [Res.ok.injEq, Prod.mk.injEq] at h
            obtain ⟨rfl, rfl⟩ := h
            exact ⟨hI, by simp⟩
          · obtain ⟨blk, hb, h⟩ := bind_eq_ok.1 h
            cases blk with
            | true => exact ih _ _ _ _ (H.check t i hT hop) hI h
            | false => exact ih _ _ _ _ (H.check t i hT hop) (H.lock t σ i hT hI hop hb) h
        · simp at h
      | label l =>
        simp only at h
        cases hm : σ.matchEnds[l]? with
        | none => rw [hm] at h; simp at h
        | some m =>
          rw [hm] at h
          simp only at h
          split at h
          · exact ih _ _ _ _ (H.label t l hT hop) hI h
          · simp only [Res.ok.injEq, Prod.mk.injEq] at h
            obtain ⟨rfl, rfl⟩ := h
            exact ⟨hI, by simp⟩
      | «match» =>
        simp only at h
        obtain ⟨u, hu, h⟩ := bind_eq_ok.1 h
        exact ih _ _ _ _ (H.match t u hT hop) hI h
      | halt =>
        simp only [Res.ok.injEq, Prod.mk.injEq] at h
        obtain ⟨rfl, rfl⟩ := h
        exact ⟨hI, by simp⟩
      | jumpTable _ _ => exact rest rfl h
      | byte _ _ => exact rest rfl h
      | bitVector => exact rest rfl h
      | either _ _ _ => exact rest rfl h
      | range _ _ _ => exact rest rfl h
      | any => exact rest rfl h
      | other => exact rest rfl h

theorem epSeq_inv {P cb off T I} (H : EpHyps P cb off T I) {n t σ r σ'} (hT : T t) (hI : I σ)
    (h : epSeq P cb off n t σ = .ok (r, σ')) :
    I σ' ∧ ∀ t', r = some t' → T t' ∧ Rests P σ' t' :=
  overlapGuard_inv (Q := Rests P) (epLoop_inv H n) hT hI h

theorem execThread_inv {P cb off T I} (H : EpHyps P cb off T I) {fuel b t σ σ'}
    (hx : ∀ t', exec P t b = .ok (some t') → T t') (hI : I σ)
    (h : execThread P cb fuel off b t σ = .ok σ') : I σ' := by
  simp only [execThread] at h
  obtain ⟨r, hr, h⟩ := bind_eq_ok.1 h
  cases r with
  | none => simp only [Res.ok.injEq] at h; subst h; exact hI
  | some t' =>
    simp only at h
    obtain ⟨⟨r2, σ2⟩, h2, h⟩ := bind_eq_ok.1 h
    obtain ⟨hI2, hr2⟩ := epSeq_inv H (hx t' hr) hI h2
    cases r2 with
    | none => simp only [Res.ok.injEq] at h; subst h; exact hI2
    | some t'' =>
      obtain ⟨hT2, hR2⟩ := hr2 t'' rfl
      exact H.push t'' σ2 σ' hT2 hI2 hR2 h

end Verif.Vm
