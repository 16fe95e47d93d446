import Verif.VmSession
/-!
# Every thread follows a run of the program

The nondeterministic meaning of a program (`Run`, `Accepts`) and the invariant
that each thread of the VM follows such a run on the bytes it has seen.
-/
namespace Verif.Vm

/-- Nondeterministic runs of a program from address 0: after reading `w`, with
fork decisions `k` (`false` = fall through, `true` = take the jump), control can
be at `pc` with label `lab`. -/
inductive Run (P : Program) : List UInt8 → List Bool → Nat → Option Nat → Prop
  | init : Run P [] [] 0 none
  | fork1 {w k pc lab} : Run P w k pc lab → opAt P pc = some .fork → Run P w (k ++ [false]) (pc + 2) lab
  | fork2 {w k pc lab a} : Run P w k pc lab → opAt P pc = some .fork → P.code[pc + 1]? = some a →
      Run P w (k ++ [true]) a lab
  | jump {w k pc lab a} : Run P w k pc lab → opAt P pc = some .jump → P.code[pc + 1]? = some a →
      Run P w k a lab
  | check {w k pc lab i} : Run P w k pc lab → opAt P pc = some (.checkHalt i) → Run P w k (pc + 1) lab
  | label {w k pc lab l} : Run P w k pc lab → opAt P pc = some (.label l) → Run P w k (pc + 1) (some l)
  | match {w k pc lab} : Run P w k pc lab → opAt P pc = some .match → Run P w k (pc + 1) lab
  | byte {w k pc lab b pc'} : Run P w k pc lab → Cons P b pc pc' → Run P (w ++ [b]) k pc' lab

/-- The program accepts the byte string `w` for keyword `l`: some run reading
exactly `w` arrives at Match while labelled `l`. -/
def Accepts (P : Program) (l : Nat) (w : List UInt8) : Prop :=
  ∃ k pc, Run P w k pc (some l) ∧ opAt P pc = some .match

/-- The bytes of a stream between two offsets. -/
def seg (data : Nat → UInt8) (s e : Nat) : List UInt8 :=
  (List.range (e - s)).map (fun i => data (s + i))

theorem seg_self (data : Nat → UInt8) (s : Nat) : seg data s s = [] := by simp [seg]

theorem seg_succ (data : Nat → UInt8) {s e : Nat} (h : s ≤ e) :
    seg data s (e + 1) = seg data s e ++ [data e] := by
  unfold seg
  rw [show e + 1 - s = (e - s) + 1 by omega, List.range_succ, List.map_append]
  simp [show s + (e - s) = e by omega]

/-- After Match control goes straight to Finish: `F` is a set of addresses
containing every successor of Match, with only Finish, Fork, Jump and Halt
instructions, left only towards `F` or the ordinary addresses `S`. -/
structure Finishing (P : Program) (S F : Nat → Prop) : Prop where
  after : ∀ pc, S pc → opAt P pc = some .match → F (pc + 1)
  ops : ∀ pc, F pc → opAt P pc = some .finish ∨ opAt P pc = some .fork ∨
    opAt P pc = some .jump ∨ opAt P pc = some .halt
  fork : ∀ pc, F pc → opAt P pc = some .fork →
    (S (pc + 2) ∨ F (pc + 2)) ∧ ∀ a, P.code[pc + 1]? = some a → S a ∨ F a
  jump : ∀ pc a, F pc → opAt P pc = some .jump → P.code[pc + 1]? = some a → S a ∨ F a

/-- The thread's current claim to a match, if any, is justified. -/
def Acc (P : Program) (data : Nat → UInt8) (t : Thread) : Prop :=
  ∀ l, t.label = some l → ∃ e, t.end = some e ∧ Accepts P l (seg data t.start (e + 1))

/-- What is known of a thread when the bytes before `i` have been read. -/
def TS (P : Program) (S F : Nat → Prop) (data : Nat → UInt8) (i : Nat) (t : Thread) : Prop :=
  (t.start ≤ i ∧ S t.pc ∧ ∃ k, Run P (seg data t.start i) k t.pc t.label) ∨
  (t.start ≤ i ∧ F t.pc ∧ Acc P data t ∧ ∃ k, Run P (seg data t.start i) k t.pc t.label) ∨
  (opAt P t.pc = some .finish ∧ Acc P data t) ∨
  opAt P t.pc = some .halt

/-- Every reported hit is a match. -/
def Sound (P : Program) (data : Nat → UInt8) (log : List Hit) : Prop :=
  ∀ h ∈ log, Accepts P h.label (seg data h.start h.end)

/-- Frame invariant: threads still to run know the bytes before `off`, those
already run also the byte at `off`. -/
structure SInv (P : Program) (S F : Nat → Prop) (data : Nat → UInt8) (off : Nat) (σ : St) : Prop where
  active : ∀ t ∈ σ.active, TS P S F data off t
  next : ∀ t ∈ σ.next, TS P S F data (off + 1) t
  log : Sound P data σ.log

theorem sound_hyps {P : Program} {S F : Nat → Prop} (G : Guarded P S) (Fi : Finishing P S F)
    (data : Nat → UInt8) (cb : Bool) (off : Nat) :
    EpHyps P cb off (TS P S F data (off + 1)) (SInv P S F data off) where
  fork1 := by
    rintro t (⟨h0, h1, k, h2⟩ | ⟨h0, h1, ha, k, h2⟩ | ⟨h, _⟩ | h) hop
    · exact Or.inl ⟨h0, (G.fork _ h1 hop).1, _, h2.fork1 hop⟩
    · rcases (Fi.fork _ h1 hop).1 with hs | hs
      · exact Or.inl ⟨h0, hs, _, h2.fork1 hop⟩
      · exact Or.inr (Or.inl ⟨h0, hs, ha, _, h2.fork1 hop⟩)
    · rw [h] at hop; simp at hop
    · rw [h] at hop; simp at hop
  fork2 := by
    rintro t a (⟨h0, h1, k, h2⟩ | ⟨h0, h1, ha, k, h2⟩ | ⟨h, _⟩ | h) hop hc
    · exact Or.inl ⟨h0, (G.fork _ h1 hop).2 a hc, _, h2.fork2 hop hc⟩
    · rcases (Fi.fork _ h1 hop).2 a hc with hs | hs
      · exact Or.inl ⟨h0, hs, _, h2.fork2 hop hc⟩
      · exact Or.inr (Or.inl ⟨h0, hs, ha, _, h2.fork2 hop hc⟩)
    · rw [h] at hop; simp at hop
    · rw [h] at hop; simp at hop
  jump := by
    rintro t a (⟨h0, h1, k, h2⟩ | ⟨h0, h1, ha, k, h2⟩ | ⟨h, _⟩ | h) hop hc
    · exact Or.inl ⟨h0, G.jump _ a h1 hop hc, _, h2.jump hop hc⟩
    · rcases Fi.jump _ a h1 hop hc with hs | hs
      · exact Or.inl ⟨h0, hs, _, h2.jump hop hc⟩
      · exact Or.inr (Or.inl ⟨h0, hs, ha, _, h2.jump hop hc⟩)
    · rw [h] at hop; simp at hop
    · rw [h] at hop; simp at hop
  check := by
    rintro t i (⟨h0, h1, k, h2⟩ | ⟨h0, h1, ha, k, h2⟩ | ⟨h, _⟩ | h) hop
    · exact Or.inl ⟨h0, G.check _ i h1 hop, _, h2.check hop⟩
    · rcases Fi.ops _ h1 with h | h | h | h <;> rw [h] at hop <;> simp at hop
    · rw [h] at hop; simp at hop
    · rw [h] at hop; simp at hop
  label := by
    rintro t l (⟨h0, h1, k, h2⟩ | ⟨h0, h1, ha, k, h2⟩ | ⟨h, _⟩ | h) hop
    · exact Or.inl ⟨h0, G.label _ l h1 hop, _, h2.label hop⟩
    · rcases Fi.ops _ h1 with h | h | h | h <;> rw [h] at hop <;> simp at hop
    · rw [h] at hop; simp at hop
    · rw [h] at hop; simp at hop
  «match» := by
    rintro t u (⟨h0, h1, k, h2⟩ | ⟨h0, h1, ha, k, h2⟩ | ⟨h, _⟩ | h) hop
    · refine Or.inr (Or.inl ⟨h0, Fi.after _ h1 hop, ?_, _, h2.match hop⟩)
      intro l hl
      simp only at hl
      rw [hl] at h2
      exact ⟨off, rfl, k, t.pc, h2, hop⟩
    · rcases Fi.ops _ h1 with h | h | h | h <;> rw [h] at hop <;> simp at hop
    · rw [h] at hop; simp at hop
    · rw [h] at hop; simp at hop
  kill := by
    intro t σ _ _ hI
    refine ⟨?_, hI.next, hI.log⟩
    intro i hi
    obtain ⟨j, hj, h1, h2, h3, _, h4⟩ := mem_kill hi
    rcases h4 with h4 | h4
    · have := hI.active j hj
      simp only [TS, Acc] at this ⊢
      rw [h1, h2, h3, h4]; exact this
    · exact Or.inr (Or.inr (Or.inr (by rw [h4]; exact G.haltOp)))
  emit := by
    intro t σ l m ht hop hI hl hm hle hu
    refine ⟨hI.active, hI.next, ?_⟩
    intro h hh
    have hacc : Acc P data t := by
      rcases ht with ⟨_, h1, _⟩ | ⟨_, _, ha, _⟩ | ⟨_, ha⟩ | h
      · exact absurd hop (G.noFinish _ h1)
      · exact ha
      · exact ha
      · rw [h] at hop; simp at hop
    simp only [emitted] at hh
    split at hh
    · rcases List.mem_append.1 hh with hh | hh
      · exact hI.log h hh
      · simp only [List.mem_singleton] at hh
        subst hh
        obtain ⟨e, he, hacc⟩ := hacc l hl
        simp only [he, endPlus]
        exact hacc
    · exact hI.log h hh
  push := by
    intro t σ σ' ht hI _ hp
    obtain ⟨h1, h2, _, _, _, h6, _⟩ := pushLive_ok hp
    refine ⟨by rw [h2]; exact hI.active, ?_, by rw [h6]; exact hI.log⟩
    intro u hu
    rw [h1] at hu
    rcases List.mem_append.1 hu with hu | hu
    · exact hI.next u hu
    · simp at hu; subst hu; exact ht
  lock := fun t σ i _ hI _ _ => ⟨hI.active, hI.next, hI.log⟩

theorem TS.exec {P : Program} {S F : Nat → Prop} (G : Guarded P S) (Fi : Finishing P S F)
    {data : Nat → UInt8} {off : Nat} {t t' : Thread} (ht : TS P S F data off t)
    (hx : Verif.Vm.exec P t (data off) = .ok (some t')) : TS P S F data (off + 1) t' := by
  rcases exec_some hx with ⟨pc', rfl, hc⟩ | ⟨rfl, hop⟩
  · rcases ht with ⟨h0, h1, k, h2⟩ | ⟨h0, h1, ha, k, h2⟩ | ⟨h, _⟩ | h
    · refine Or.inl ⟨by simp; omega, G.cons _ _ _ h1 hc, k, ?_⟩
      simp only
      rw [seg_succ data h0]
      exact h2.byte hc
    · rcases Fi.ops _ h1 with h | h | h | h <;> cases hc <;> simp_all
    · cases hc <;> simp_all
    · cases hc <;> simp_all
  · rcases ht with ⟨_, h1, _⟩ | ⟨_, _, ha, _⟩ | ⟨_, ha⟩ | h
    · exact absurd hop (G.noFinish _ h1)
    · exact Or.inr (Or.inr (Or.inl ⟨hop, ha⟩))
    · exact Or.inr (Or.inr (Or.inl ⟨hop, ha⟩))
    · rw [h] at hop; simp at hop

theorem runActive_sound {P S F} (G : Guarded P S) (Fi : Finishing P S F) {cb fuel off data} (n : Nat) :
    ∀ {σ σ' : St}, SInv P S F data off σ → runActive P cb fuel off (data off) n σ = .ok σ' →
    SInv P S F data off σ' := by
  induction n with
  | zero => intro σ σ' hI h; simp only [runActive, Res.ok.injEq] at h; subst h; exact hI
  | succ n ih =>
    intro σ σ' hI h
    simp only [runActive] at h
    cases ha : σ.active with
    | nil => rw [ha] at h; simp only [Res.ok.injEq] at h; subst h; exact hI
    | cons t rest =>
      rw [ha] at h
      simp only at h
      obtain ⟨σ1, h1, h⟩ := bind_eq_ok.1 h
      refine ih ?_ h
      refine execThread_inv (sound_hyps G Fi data cb off) (σ := { σ with active := rest }) (fun t' hx => ?_) ?_ h1
      · exact (hI.active t (by rw [ha]; simp)).exec G Fi hx
      · exact ⟨fun u hu => hI.active u (by rw [ha]; simp [show u ∈ rest from hu]), hI.next, hI.log⟩

/-- Initial threads sit on runs that have read nothing. -/
def FirstRun (P : Program) (S : Nat → Prop) (first : List Thread) : Prop :=
  ∀ t ∈ first, S t.pc ∧ ∃ k, Run P [] k t.pc none

/-- Between frames. -/
structure SBetween (P : Program) (S F : Nat → Prop) (data : Nat → UInt8) (i : Nat) (σ : St) : Prop where
  active : ∀ t ∈ σ.active, TS P S F data i t
  next : σ.next = []
  log : Sound P data σ.log

theorem frame_sound {P S F} (G : Guarded P S) (Fi : Finishing P S F) {first cb fuel off data sp} {σ σ' : St}
    (hf : FirstRun P S first) (hI : SBetween P S F data off σ)
    (h : frame P first cb fuel off (data off) sp σ = .ok σ') : SBetween P S F data (off + 1) σ' := by
  simp only [frame] at h
  obtain ⟨σ1, h1, h⟩ := bind_eq_ok.1 h
  have hI1 := runActive_sound G Fi _ ⟨hI.active, by rw [hI.next]; simp, hI.log⟩ h1
  obtain ⟨σ2, h2, h⟩ := bind_eq_ok.1 h
  simp only [Res.ok.injEq] at h
  subst h
  split at h2
  · have hI2 := runActive_sound G Fi _ (σ := { σ1 with active := newThreads first off }) ⟨by
      intro t ht
      simp only [newThreads, List.mem_map] at ht
      obtain ⟨u, hu, rfl⟩ := ht
      obtain ⟨a, k, b⟩ := hf u hu
      exact Or.inl ⟨Nat.le_refl _, a, k, by simpa [seg_self] using b⟩, hI1.next, hI1.log⟩ h2
    exact ⟨hI2.next, rfl, hI2.log⟩
  · simp only [Res.ok.injEq] at h2
    subst h2
    exact ⟨hI1.next, rfl, hI1.log⟩

/-- The buffer given at offset `off` is that part of the stream. -/
def Holds (data : Nat → UInt8) (off : Nat) (buf : List UInt8) : Prop :=
  ∀ (i : Nat) (h : i < buf.length), buf[i] = data (off + i)

theorem Holds.cons {data off b bs} (h : Holds data off (b :: bs)) : b = data off ∧ Holds data (off + 1) bs := by
  constructor
  · exact h 0 (by simp)
  · intro i hi
    have := h (i + 1) (by simp; omega)
    simp only [List.getElem_cons_succ] at this
    rw [this]; congr 1; omega

theorem searchLoop_sound {P S F} (G : Guarded P S) (Fi : Finishing P S F) {first cb fuel data}
    (hf : FirstRun P S first) (buf : List UInt8) : ∀ {off : Nat} {σ σ' : St}, Holds data off buf →
    SBetween P S F data off σ → searchLoop P first cb fuel buf off σ = .ok σ' →
    SBetween P S F data (off + buf.length) σ' := by
  induction buf with
  | nil => intro off σ σ' _ hI h; simp only [searchLoop, Res.ok.injEq] at h; subst h; exact hI
  | cons b bs ih =>
    intro off σ σ' hd hI h
    simp only [searchLoop] at h
    obtain ⟨σ1, h1, h⟩ := bind_eq_ok.1 h
    obtain ⟨hb, hd⟩ := hd.cons
    rw [hb] at h1
    have := ih hd (frame_sound G Fi hf hI h1) h
    simp only [List.length_cons]
    rw [show off + (bs.length + 1) = off + 1 + bs.length by omega]
    exact this

/-- A thread that is only waiting (or dead). -/
def Waiting (P : Program) (data : Nat → UInt8) (t : Thread) : Prop :=
  (opAt P t.pc = some .finish ∧ Acc P data t) ∨ opAt P t.pc = some .halt

theorem Waiting.ts {P S F data t} (h : Waiting P data t) (i : Nat) : TS P S F data i t := by
  rcases h with h | h
  · exact Or.inr (Or.inr (Or.inl h))
  · exact Or.inr (Or.inr (Or.inr h))

/-- The closure of a waiting thread only ever adds waiting threads. -/
theorem execThread_waiting {P} {data : Nat → UInt8} {cb fuel off b}
    {t : Thread} {σ σ' : St} (ht : Waiting P data t)
    (hn : ∀ u ∈ σ.next, Waiting P data u)
    (h : execThread P cb fuel off b t σ = .ok σ') : ∀ u ∈ σ'.next, Waiting P data u := by
  have H : EpHyps P cb off (Waiting P data) (fun σ => ∀ u ∈ σ.next, Waiting P data u) :=
    { fork1 := by rintro t (⟨h, _⟩ | h) hop <;> rw [h] at hop <;> simp at hop
      fork2 := by rintro t a (⟨h, _⟩ | h) hop <;> rw [h] at hop <;> simp at hop
      jump := by rintro t a (⟨h, _⟩ | h) hop <;> rw [h] at hop <;> simp at hop
      check := by rintro t a (⟨h, _⟩ | h) hop <;> rw [h] at hop <;> simp at hop
      label := by rintro t a (⟨h, _⟩ | h) hop <;> rw [h] at hop <;> simp at hop
      «match» := by rintro t a (⟨h, _⟩ | h) hop <;> rw [h] at hop <;> simp at hop
      kill := fun _ _ _ _ h => h
      emit := fun _ _ _ _ _ _ h _ _ _ _ => h
      push := fun t σ σ' ht hI _ hp => by
        obtain ⟨h1, _⟩ := pushLive_ok hp
        intro u hu
        rw [h1] at hu
        rcases List.mem_append.1 hu with hu | hu
        · exact hI u hu
        · simp at hu; subst hu; exact ht
      lock := fun _ _ _ _ h _ _ => h }
  refine execThread_inv H (fun t' hx => ?_) hn h
  rcases exec_some hx with ⟨pc', rfl, hc⟩ | ⟨rfl, hop⟩
  · rcases ht with ⟨h, _⟩ | h <;> cases hc <;> simp_all
  · exact ht

theorem isRealOp_false {P t} (h : isRealOp P t = .ok false) :
    opAt P t.pc = some .finish ∨ opAt P t.pc = some .halt := by
  unfold isRealOp at h
  split at h <;> simp_all

theorem TS.waiting {P S F data i t} (G : Guarded P S) (h : TS P S F data i t)
    (ho : opAt P t.pc = some .finish ∨ opAt P t.pc = some .halt) : Waiting P data t := by
  rcases ho with ho | ho
  · rcases h with ⟨_, h1, _⟩ | ⟨_, _, ha, _⟩ | h | h
    · exact absurd ho (G.noFinish _ h1)
    · exact Or.inl ⟨ho, ha⟩
    · exact Or.inl h
    · exact Or.inr h
  · exact Or.inr ho

theorem resolveActive_sound {P S F} (G : Guarded P S) (Fi : Finishing P S F) {cb fuel off data} (n : Nat) :
    ∀ {h₀ h' : Bool} {σ σ' : St}, SInv P S F data off σ →
    (h₀ = false → ∀ u ∈ σ.next, Waiting P data u) →
    resolveActive P cb fuel off (data off) n h₀ σ = .ok (h', σ') →
    SInv P S F data off σ' ∧ (h' = false → ∀ u ∈ σ'.next, Waiting P data u) := by
  induction n with
  | zero =>
    intro h₀ h' σ σ' hI hw h
    simp only [resolveActive, Res.ok.injEq, Prod.mk.injEq] at h
    obtain ⟨rfl, rfl⟩ := h
    exact ⟨hI, hw⟩
  | succ n ih =>
    intro h₀ h' σ σ' hI hw h
    simp only [resolveActive] at h
    cases ha : σ.active with
    | nil =>
      rw [ha] at h
      simp only [Res.ok.injEq, Prod.mk.injEq] at h
      obtain ⟨rfl, rfl⟩ := h
      exact ⟨hI, hw⟩
    | cons t rest =>
      rw [ha] at h
      simp only at h
      obtain ⟨r, hr, h⟩ := bind_eq_ok.1 h
      obtain ⟨σ1, h1, h⟩ := bind_eq_ok.1 h
      have htS := hI.active t (by rw [ha]; simp)
      refine ih ?_ ?_ h
      · refine execThread_inv (sound_hyps G Fi data cb off) (σ := { σ with active := rest }) (fun t' hx => ?_) ?_ h1
        · exact htS.exec G Fi hx
        · exact ⟨fun u hu => hI.active u (by rw [ha]; simp [show u ∈ rest from hu]), hI.next, hI.log⟩
      · intro hor
        simp only [Bool.or_eq_false_iff] at hor
        obtain ⟨hz, rfl⟩ := hor
        exact execThread_waiting (htS.waiting G (isRealOp_false hr)) (σ := { σ with active := rest })
          (hw hz) h1

theorem resolveLoop_sound {P S F} (G : Guarded P S) (Fi : Finishing P S F) {cb fuel data}
    (buf : List UInt8) : ∀ {off off' : Nat} {real : Bool} {σ σ' : St}, Holds data off buf →
    SBetween P S F data off σ → (real = false → ∀ u ∈ σ.active, Waiting P data u) →
    resolveLoop P cb fuel buf off real σ = .ok (off', σ') →
    SBetween P S F data (off + buf.length) σ' := by
  induction buf with
  | nil =>
    intro off off' real σ σ' _ hI _ h
    simp only [resolveLoop, Res.ok.injEq, Prod.mk.injEq] at h
    obtain ⟨rfl, rfl⟩ := h
    exact hI
  | cons b bs ih =>
    intro off off' real σ σ' hd hI hw h
    simp only [resolveLoop] at h
    split at h
    · rename_i hc
      simp only [Res.ok.injEq, Prod.mk.injEq] at h
      obtain ⟨rfl, rfl⟩ := h
      refine ⟨fun t ht => ?_, hI.next, hI.log⟩
      simp only [Bool.or_eq_true, List.isEmpty_iff, Bool.not_eq_true'] at hc
      rcases hc with hc | hc
      · rw [hc] at ht; simp at ht
      · exact (hw hc t ht).ts _
    · obtain ⟨⟨r, σ1⟩, h1, h⟩ := bind_eq_ok.1 h
      obtain ⟨hb, hd⟩ := hd.cons
      rw [hb] at h1
      obtain ⟨hI1, hw1⟩ := resolveActive_sound G Fi _ ⟨hI.active, by rw [hI.next]; simp, hI.log⟩
        (by rw [hI.next]; simp) h1
      have := ih hd (σ := cleanup σ1) ⟨hI1.next, rfl, hI1.log⟩ hw1 h
      simp only [List.length_cons]
      rw [show off + (bs.length + 1) = off + 1 + bs.length by omega]
      exact this

theorem closeLoop_sound {P S F} (G : Guarded P S) {data i} (ts : List Thread) : ∀ {σ σ' : St},
    (∀ t ∈ ts, TS P S F data i t) → Sound P data σ.log → closeLoop P ts σ = .ok σ' →
    Sound P data σ'.log ∧ σ'.active = σ.active ∧ σ'.next = σ.next := by
  induction ts with
  | nil => intro σ σ' _ hI h; simp only [closeLoop, Res.ok.injEq] at h; subst h; exact ⟨hI, rfl, rfl⟩
  | cons t ts ih =>
    intro σ σ' ht hI h
    have hts : ∀ u ∈ ts, TS P S F data i u := fun u hu => ht u (by simp [hu])
    simp only [closeLoop] at h
    split at h
    · simp at h
    · rename_i hop
      split at h
      · simp at h
      · rename_i l hl
        split at h
        · simp at h
        · split at h
          · have hs : Sound P data (σ.log ++ [⟨t.start, endPlus t.end, l⟩]) := by
              intro x hx
              rcases List.mem_append.1 hx with hx | hx
              · exact hI x hx
              · simp only [List.mem_singleton] at hx
                subst hx
                rcases (ht t (by simp)).waiting G (Or.inl hop) with ⟨_, ha⟩ | hh
                · obtain ⟨e, he, hacc⟩ := ha l hl
                  simp only [he, endPlus]; exact hacc
                · rw [hop] at hh; simp at hh
            obtain ⟨a, b, c⟩ := ih hts (by exact hs) h
            exact ⟨a, b, c⟩
          · exact ih hts hI h
    · exact ih hts hI h

theorem create_run {P S} (G : Guarded P S) {fuel first σ} (h : create P fuel = .ok (first, σ)) :
    FirstRun P S first := by
  simp only [create] at h
  obtain ⟨⟨r, σ1⟩, h1, h⟩ := bind_eq_ok.1 h
  simp only [Res.ok.injEq, Prod.mk.injEq] at h
  obtain ⟨hf, hs⟩ := h
  obtain ⟨E, hE0, hE⟩ := G.init
  let T : Thread → Prop := fun t => E t.pc ∧ S t.pc ∧ t.label = none ∧ ∃ k, Run P [] k t.pc none
  have H : EpHyps P false 0 T (fun σ => ∀ t ∈ σ.next, S t.pc ∧ ∃ k, Run P [] k t.pc none) :=
    { fork1 := fun t ⟨h1, h2, h3, k, h4⟩ hop =>
        ⟨((hE _ h1).2.2.1 hop).1, (G.fork _ h2 hop).1, h3, _, h4.fork1 hop⟩
      fork2 := fun t a ⟨h1, h2, h3, k, h4⟩ hop ha =>
        ⟨((hE _ h1).2.2.1 hop).2 a ha, (G.fork _ h2 hop).2 a ha, h3, _, h4.fork2 hop ha⟩
      jump := fun t a ⟨h1, h2, h3, k, h4⟩ hop ha =>
        ⟨(hE _ h1).2.2.2.1 hop a ha, G.jump _ a h2 hop ha, h3, _, h4.jump hop ha⟩
      check := fun t i ⟨h1, h2, h3, k, h4⟩ hop =>
        ⟨(hE _ h1).2.2.2.2 i hop, G.check _ i h2 hop, h3, _, h4.check hop⟩
      label := fun t l h hop => absurd hop ((hE _ h.1).2.1 l)
      «match» := fun t u h hop => absurd hop (hE _ h.1).1
      kill := fun t σ _ _ h => h
      emit := fun t σ l m _ _ h _ _ _ _ => h
      push := fun t σ σ' hT hI _ hp => by
        obtain ⟨h1, _⟩ := pushLive_ok hp
        intro u hu
        rw [h1] at hu
        rcases List.mem_append.1 hu with hu | hu
        · exact hI u hu
        · simp at hu; subst hu; exact ⟨hT.2.1, hT.2.2.2⟩
      lock := fun _ _ _ _ h _ _ => h }
  obtain ⟨hn, hr⟩ := epSeq_inv H (t := ⟨0, 0, none, none, false⟩)
    ⟨hE0, G.entry, rfl, [], .init⟩ (by simp [preInit]) h1
  rw [← hf]
  cases r with
  | none => exact hn
  | some t' =>
    intro t ht
    rcases List.mem_append.1 ht with ht | ht
    · exact hn t ht
    · simp at ht; subst ht; exact ⟨(hr _ rfl).1.2.1, (hr _ rfl).1.2.2.2⟩

/-- A contiguous session over the stream `data`: the buffers are consecutive
pieces of the stream, from offset `p` to offset `q`. -/
inductive Stream (data : Nat → UInt8) : Nat → List Call → Nat → Prop
  | nil (p : Nat) : Stream data p [] p
  | search {p q : Nat} {cs : List Call} (buf : List UInt8) (cb : Bool) :
      Holds data p buf → Stream data (p + buf.length) cs q → Stream data p (.search buf p cb :: cs) q
  | resolve {p q : Nat} {cs : List Call} (buf : List UInt8) (cb : Bool) :
      Holds data p buf → Stream data (p + buf.length) cs q → Stream data p (.resolve buf p cb :: cs) q
  | closeOut {p q : Nat} {cs : List Call} (cb : Bool) : Stream data p cs q → Stream data p (.closeOut cb :: cs) q

theorem run_sound {P S F} (G : Guarded P S) (Fi : Finishing P S F) {first fuel data}
    (hf : FirstRun P S first) (cs : List Call) : ∀ {p q σ rs σ'}, Stream data p cs q →
    SBetween P S F data p σ → run P first fuel cs σ = .ok (rs, σ') → SBetween P S F data q σ' := by
  induction cs with
  | nil =>
    intro p q σ rs σ' hs hI h
    cases hs
    simp only [run, Res.ok.injEq, Prod.mk.injEq] at h
    obtain ⟨_, rfl⟩ := h
    exact hI
  | cons c cs ih =>
    intro p q σ rs σ' hs hI h
    simp only [run] at h
    obtain ⟨⟨r, σ1⟩, h1, h⟩ := bind_eq_ok.1 h
    obtain ⟨⟨rs1, σ2⟩, h2, h⟩ := bind_eq_ok.1 h
    simp only [Res.ok.injEq, Prod.mk.injEq] at h
    obtain ⟨_, rfl⟩ := h
    cases hs with
    | search buf cb hd hn =>
      simp only [step, search] at h1
      obtain ⟨⟨x, σa⟩, ha, h1⟩ := bind_eq_ok.1 h1
      simp only [Res.ok.injEq, Prod.mk.injEq] at h1
      obtain ⟨_, rfl⟩ := h1
      obtain ⟨σb, hb, ha⟩ := bind_eq_ok.1 ha
      obtain ⟨y, _, ha⟩ := bind_eq_ok.1 ha
      simp only [Res.ok.injEq, Prod.mk.injEq] at ha
      obtain ⟨_, rfl⟩ := ha
      exact ih hn (searchLoop_sound G Fi hf buf hd hI hb) h2
    | resolve buf cb hd hn =>
      simp only [step, searchResolve] at h1
      obtain ⟨⟨x, σa⟩, ha, h1⟩ := bind_eq_ok.1 h1
      simp only [Res.ok.injEq, Prod.mk.injEq] at h1
      obtain ⟨_, rfl⟩ := h1
      obtain ⟨⟨o, σb⟩, hb, ha⟩ := bind_eq_ok.1 ha
      obtain ⟨y, _, ha⟩ := bind_eq_ok.1 ha
      simp only [Res.ok.injEq, Prod.mk.injEq] at ha
      obtain ⟨_, rfl⟩ := ha
      exact ih hn (resolveLoop_sound G Fi buf hd hI (by simp) hb) h2
    | closeOut cb hn =>
      simp only [step, closeOut] at h1
      obtain ⟨σa, ha, h1⟩ := bind_eq_ok.1 h1
      simp only [Res.ok.injEq, Prod.mk.injEq] at h1
      obtain ⟨_, rfl⟩ := h1
      refine ih hn ?_ h2
      split at ha
      · obtain ⟨a, b, c⟩ := closeLoop_sound G _ hI.active hI.log ha
        exact ⟨by rw [b]; exact hI.active, by rw [c]; exact hI.next, a⟩
      · simp only [Res.ok.injEq] at ha; subst ha; exact hI

end Verif.Vm
