import Verif.Props.Compiled
import Verif.Props.Vm
import Verif.VmSafe
/-!
# C08 and C10 for compiled programs
-/
namespace Verif.Compiler
open Verif.Nfa Verif.Transition Verif.Vm

/-! ## Compiled programs satisfy the conditions of the VM theorems -/

/-- Places that are not after Match. -/
def Loc.before : Loc → Prop
  | .mat1 _ => False
  | .fin => False
  | _ => True

theorem before_outLoc (g : Graph) (v j : Nat) : (outLoc g v j).before := by
  unfold outLoc
  split
  · trivial
  · split
    · trivial
    · split <;> trivial

theorem before_entryOut (g : Graph) (v : Nat) : (entryOut g v).before := by
  unfold entryOut
  split
  · trivial
  · exact before_outLoc g v 0

theorem before_entryMat (g : Graph) (v : Nat) : (entryMat g v).before := by
  unfold entryMat
  split
  · trivial
  · exact before_entryOut g v

theorem before_entryChk (g : Graph) (v : Nat) : (entryChk g v).before := by
  unfold entryChk
  split
  · exact before_entryMat g v
  · trivial

theorem before_entryLab (g : Graph) (v : Nat) : (entryLab g v).before := by
  unfold entryLab
  split
  · exact before_entryChk g v
  · trivial

theorem before_land (g : Graph) (v : Nat) : (land g v).before := by
  unfold land
  split
  · split
    · trivial
    · exact before_entryLab g v
  · exact before_entryLab g v

theorem before_consume {g : Graph} {b : UInt8} {l l' : Loc} (h : consume g b l = some l') : l'.before := by
  cases l with
  | start u =>
    simp only [consume] at h
    split at h
    · simp only [Option.some.injEq] at h; subst h; exact before_entryLab g u
    · cases h
  | tab v =>
    simp only [consume, after] at h
    split at h
    · cases h
    · simp only [Option.some.injEq] at h; subst h; exact before_land g _
    · simp only [Option.some.injEq] at h; subst h; trivial
  | _ => simp [consume] at h

theorem before_fork {g : Graph} {l n t : Loc} (hl : l.before) (h : lop g l = .fork n t) : n.before ∧ t.before := by
  cases l with
  | mat1 v => exact hl.elim
  | out v j =>
    simp only [lop, LOp.fork.injEq] at h
    rw [← h.1, ← h.2]
    exact ⟨before_outLoc g v _, trivial⟩
  | ind v b j =>
    simp only [lop] at h
    split at h
    · cases h
    · split at h
      · simp only [LOp.fork.injEq] at h
        rw [← h.1, ← h.2]
        exact ⟨trivial, before_land g _⟩
      · cases h
  | _ => simp [lop] at h

theorem before_jump {g : Graph} {l t : Loc} (h : lop g l = .jump t) : t.before := by
  cases l with
  | mat1 v =>
    simp only [lop] at h
    split at h <;> cases h
  | last v =>
    simp only [lop, LOp.jump.injEq] at h
    rw [← h]
    trivial
  | ind v b j =>
    simp only [lop] at h
    split at h
    · cases h
    · split at h
      · cases h
      · simp only [LOp.jump.injEq] at h
        rw [← h]
        exact before_land g _
  | _ => simp [lop] at h

theorem lop_chk {g : Graph} {l n : Loc} {i : Nat} (h : lop g l = .check i n) :
    ∃ v, l = .chk v ∧ i = (check g v).getD 0 ∧ n = entryMat g v := by
  cases l with
  | chk v =>
    simp only [lop, LOp.check.injEq] at h
    exact ⟨v, rfl, h.1.symm, h.2.symm⟩
  | mat1 v =>
    simp only [lop] at h
    split at h <;> cases h
  | ind v b j =>
    simp only [lop] at h
    split at h
    · cases h
    · split at h <;> cases h
  | _ => simp [lop] at h

theorem lop_lab {g : Graph} {l n : Loc} {i : Nat} (h : lop g l = .label i n) :
    ∃ v, l = .lab v ∧ i = (g.v v).label.getD 0 ∧ n = entryChk g v := by
  cases l with
  | lab v =>
    simp only [lop, LOp.label.injEq] at h
    exact ⟨v, rfl, h.1.symm, h.2.symm⟩
  | mat1 v =>
    simp only [lop] at h
    split at h <;> cases h
  | ind v b j =>
    simp only [lop] at h
    split at h
    · cases h
    · split at h <;> cases h
  | _ => simp [lop] at h

theorem lop_mat {g : Graph} {l n : Loc} (h : lop g l = .mtch n) : ∃ v, l = .mat v ∧ n = .mat1 v := by
  cases l with
  | mat v =>
    simp only [lop, LOp.mtch.injEq] at h
    exact ⟨v, rfl, h.symm⟩
  | mat1 v =>
    simp only [lop] at h
    split at h <;> cases h
  | ind v b j =>
    simp only [lop] at h
    split at h
    · cases h
    · split at h <;> cases h
  | _ => simp [lop] at h

theorem lop_fin {g : Graph} {l : Loc} (h : lop g l = .finish) :
    l = .fin ∨ ∃ v, l = .mat1 v ∧ (g.v v).out = [] := by
  cases l with
  | mat1 v =>
    simp only [lop] at h
    split at h
    · next ho => exact Or.inr ⟨v, rfl, ho⟩
    · cases h
  | ind v b j =>
    simp only [lop] at h
    split at h
    · cases h
    · split at h <;> cases h
  | fin => exact Or.inl rfl
  | _ => simp [lop] at h

/-- The addresses of places not after Match. -/
def Before (g : Graph) (pc : Nat) : Prop := ∃ l, l.ok g ∧ l.before ∧ addr g l = pc

/-- The addresses right after Match. -/
def After (g : Graph) (pc : Nat) : Prop := pc = guard g + 1 ∨ ∃ v, Loc.ok g (.mat1 v) ∧ addr g (.mat1 v) = pc

theorem progEnd_eq {g : Graph} {P : Program} (h : Compiled g P) : progEnd P = guard g := by
  unfold progEnd
  rw [h.len]
  omega

/-- Places reached before the first byte. -/
def Loc.initial : Loc → Prop
  | .start _ => True
  | .out 0 _ => True
  | .last 0 => True
  | .tab 0 => True
  | _ => False

theorem initial_outLoc {g : Graph} (h : Live g) (j : Nat) : (outLoc g 0 j).initial := by
  unfold outLoc
  split
  · next ho => exact absurd ho (h.live 0 h.pos h.rootMatch)
  · split
    · trivial
    · split <;> trivial

theorem initial_root {g : Graph} (h : Live g) : (entryLab g 0).initial := by
  unfold entryLab entryChk entryMat entryOut
  rw [if_pos h.rootLabel, if_pos (check_root h.toWF), if_neg (by simp [h.rootMatch])]
  split
  · trivial
  · exact initial_outLoc h 0

theorem compiled_guarded {g : Graph} {P : Program} (h : Compiled g P) : Guarded P (Before g) where
  entry := ⟨_, ok_entryLab h.toLive h.pos, before_entryLab g 0, addr_root h.toLive⟩
  halt := ⟨.halt, trivial, trivial, (progEnd_eq h).symm⟩
  haltOp := by rw [progEnd_eq h]; exact op_halt h
  noFinish := by
    rintro pc ⟨l, ok, hb, rfl⟩ hop
    rcases lop_fin ((op_cases h ok hop).2.2.2.2.2.1 rfl) with rfl | ⟨v, rfl, -⟩
    · exact hb
    · exact hb
  fork := by
    rintro pc ⟨l, ok, hb, rfl⟩ hop
    obtain ⟨n, t, hl⟩ := (op_cases h ok hop).1 rfl
    have hs := lop_spec h ok
    rw [hl] at hs
    obtain ⟨b1, b2⟩ := before_fork hb hl
    obtain ⟨k1, k2⟩ := (ok_lop h.toLive ok).1 _ _ hl
    refine ⟨⟨n, k1, b1, hs.2.2⟩, fun a ha => ?_⟩
    rw [hs.2.1] at ha
    exact ⟨t, k2, b2, Option.some.inj ha⟩
  jump := by
    rintro pc a ⟨l, ok, hb, rfl⟩ hop ha
    obtain ⟨t, hl⟩ := (op_cases h ok hop).2.1 rfl
    have hs := lop_spec h ok
    rw [hl] at hs
    rw [hs.2] at ha
    exact ⟨t, (ok_lop h.toLive ok).2.1 _ hl, before_jump hl, Option.some.inj ha⟩
  check := by
    rintro pc i ⟨l, ok, hb, rfl⟩ hop
    obtain ⟨n, hl⟩ := (op_cases h ok hop).2.2.1 _ rfl
    have hs := lop_spec h ok
    rw [hl] at hs
    obtain ⟨v, -, -, rfl⟩ := lop_chk hl
    exact ⟨_, (ok_lop h.toLive ok).2.2.1 _ _ hl, before_entryMat g v, hs.2.1⟩
  label := by
    rintro pc i ⟨l, ok, hb, rfl⟩ hop
    obtain ⟨n, hl⟩ := (op_cases h ok hop).2.2.2.1 _ rfl
    have hs := lop_spec h ok
    rw [hl] at hs
    obtain ⟨v, -, -, rfl⟩ := lop_lab hl
    exact ⟨_, (ok_lop h.toLive ok).2.2.2.1 _ _ hl, before_entryChk g v, hs.2⟩
  cons := by
    rintro pc b pc' ⟨l, ok, hb, rfl⟩ hc
    obtain ⟨op, hop, hre⟩ := cons_reads hc
    have hR := (op_cases h ok hop).2.2.2.2.2.2.2.1 hre
    obtain ⟨l', hl', hz, rfl⟩ := (reads_cons hR _ _).1 hc
    exact ⟨l', ok_consume h.toLive ok hl', before_consume hl', rfl⟩
  init := by
    refine ⟨fun pc => ∃ l, l.ok g ∧ l.initial ∧ addr g l = pc,
      ⟨_, ok_entryLab h.toLive h.pos, initial_root h.toLive, addr_root h.toLive⟩, ?_⟩
    rintro pc ⟨l, ok, hi, rfl⟩
    refine ⟨?_, ?_, ?_, ?_, ?_⟩
    · intro hop
      obtain ⟨n, hl⟩ := (op_cases h ok hop).2.2.2.2.1 rfl
      obtain ⟨v, rfl, -⟩ := lop_mat hl
      exact hi
    · intro i hop
      obtain ⟨n, hl⟩ := (op_cases h ok hop).2.2.2.1 _ rfl
      obtain ⟨v, rfl, -⟩ := lop_lab hl
      exact hi
    · intro hop
      obtain ⟨n, t, hl⟩ := (op_cases h ok hop).1 rfl
      have hs := lop_spec h ok
      rw [hl] at hs
      obtain ⟨k1, k2⟩ := (ok_lop h.toLive ok).1 _ _ hl
      have hin : n.initial ∧ t.initial := by
        cases l with
        | out v j =>
          cases v with
          | zero =>
            simp only [lop, LOp.fork.injEq] at hl
            rw [← hl.1, ← hl.2]
            exact ⟨initial_outLoc h.toLive _, trivial⟩
          | succ => exact hi.elim
        | start => simp [lop] at hl
        | tab v => simp [lop] at hl
        | last v => simp [lop] at hl
        | _ => exact hi.elim
      refine ⟨⟨n, k1, hin.1, hs.2.2⟩, fun a ha => ?_⟩
      rw [hs.2.1] at ha
      exact ⟨t, k2, hin.2, Option.some.inj ha⟩
    · intro hop a ha
      obtain ⟨t, hl⟩ := (op_cases h ok hop).2.1 rfl
      have hs := lop_spec h ok
      rw [hl] at hs
      rw [hs.2] at ha
      refine ⟨t, (ok_lop h.toLive ok).2.1 _ hl, ?_, Option.some.inj ha⟩
      cases l with
      | last v =>
        simp only [lop, LOp.jump.injEq] at hl
        rw [← hl]
        trivial
      | start => simp [lop] at hl
      | tab v => simp [lop] at hl
      | out v j => simp [lop] at hl
      | _ => exact hi.elim
    · intro i hop
      obtain ⟨n, hl⟩ := (op_cases h ok hop).2.2.1 _ rfl
      obtain ⟨v, rfl, -⟩ := lop_chk hl
      exact hi.elim

theorem compiled_finishing {g : Graph} {P : Program} (h : Compiled g P) : Finishing P (Before g) (After g) where
  after := by
    rintro pc ⟨l, ok, hb, rfl⟩ hop
    obtain ⟨n, hl⟩ := (op_cases h ok hop).2.2.2.2.1 rfl
    have hs := lop_spec h ok
    rw [hl] at hs
    obtain ⟨v, rfl, rfl⟩ := lop_mat hl
    exact Or.inr ⟨v, ok, hs.2⟩
  ops := by
    rintro pc (rfl | ⟨v, ok, rfl⟩)
    · exact Or.inl (op_fin h)
    · have hs := lop_spec h ok
      simp only [lop] at hs
      split at hs
      · exact Or.inl hs
      · exact Or.inr (Or.inl hs.1)
  fork := by
    rintro pc (rfl | ⟨v, ok, rfl⟩) hop
    · rw [op_fin h] at hop; cases hop
    · have hs := lop_spec h ok
      simp only [lop] at hs
      split at hs
      · rw [show opAt P (addr g (.mat1 v)) = some .finish from hs] at hop; cases hop
      · next ho =>
        refine ⟨Or.inl ⟨_, ok_entryOut h.toWF ok.2.1 ho, before_entryOut g v, hs.2.2⟩, fun a ha => ?_⟩
        rw [hs.2.1] at ha
        exact Or.inr (Or.inl (Option.some.inj ha).symm)
  jump := by
    rintro pc a (rfl | ⟨v, ok, rfl⟩) hop
    · rw [op_fin h] at hop; cases hop
    · have hs := lop_spec h ok
      simp only [lop] at hs
      split at hs
      · rw [show opAt P (addr g (.mat1 v)) = some .finish from hs] at hop; cases hop
      · rw [hs.1] at hop; cases hop

/-- **C08.** Searching a stream, in any contiguous pieces, with the program compiled
from an automaton: the bytes of every hit reported are accepted by the automaton with
the hit's label. -/
theorem compiled_hits_are_matches {g : Graph} (hg : Live g) {fuel' : Nat} {P : Program}
    (hc : createProgram fuel' g = some (.ok P)) {fuel : Nat} {first : List Thread} {σ₀ : St}
    (hnew : create P fuel = .ok (first, σ₀)) {data : Nat → UInt8} {p q : Nat} {cs : List Call}
    (hs : Stream data p cs q) {rs : List (Option Nat)} {σ : St}
    (hrun : run P first fuel cs σ₀ = .ok (rs, σ)) :
    ∀ h ∈ σ.log, GAccepts g h.label (seg data h.start h.end) := by
  have hC := (compiled_of_createProgram hg hc).1
  intro x hx
  exact gaccepts_of_accepts hC
    (hits_are_matches (compiled_guarded hC) (compiled_finishing hC) hnew hs hrun x hx)

/-! ## Bounds and termination -/

/-- A bound on the number of epsilon instructions a thread executes from a place. -/
def meas (g : Graph) : Loc → Nat
  | .start _ => 0
  | .tab _ => 0
  | .halt => 0
  | .fin => 0
  | .last _ => 1
  | .out v j => (g.v v).out.length - j + 1
  | .mat1 v => (g.v v).out.length + 3
  | .mat v => (g.v v).out.length + 4
  | .chk v => (g.v v).out.length + 5
  | .lab v => (g.v v).out.length + 6
  | .ind v b j => g.n + 7 + ((pivot g v b).length - j) + 1

theorem meas_outLoc (g : Graph) (v j : Nat) : meas g (outLoc g v j) ≤ (g.v v).out.length - j + 1 := by
  unfold outLoc
  split
  · simp [meas]
  · split
    · simp [meas]
    · split <;> simp [meas]

theorem meas_entryOut (g : Graph) (v : Nat) : meas g (entryOut g v) ≤ (g.v v).out.length + 1 := by
  unfold entryOut
  split
  · simp [meas]
  · exact meas_outLoc g v 0

theorem meas_entryMat (g : Graph) (v : Nat) : meas g (entryMat g v) ≤ (g.v v).out.length + 4 := by
  unfold entryMat
  split
  · simp [meas]
  · have := meas_entryOut g v; omega

theorem meas_entryChk (g : Graph) (v : Nat) : meas g (entryChk g v) ≤ (g.v v).out.length + 5 := by
  unfold entryChk
  split
  · have := meas_entryMat g v; omega
  · simp [meas]

theorem meas_entryLab (g : Graph) (v : Nat) : meas g (entryLab g v) ≤ (g.v v).out.length + 6 := by
  unfold entryLab
  split
  · have := meas_entryChk g v; omega
  · simp [meas]

theorem meas_land (g : Graph) (v : Nat) : meas g (land g v) ≤ (g.v v).out.length + 6 := by
  unfold land
  split
  · split
    · simp [meas]
    · exact meas_entryLab g v
  · exact meas_entryLab g v

theorem out_length_le {g : Graph} (h : WF g) {v : Nat} (hv : v < g.n) : (g.v v).out.length ≤ g.n := by
  have hs : (g.v v).out ⊆ List.range g.n := fun u hu => List.mem_range.2 (h.edges v hv u hu).2
  have := ((h.nodup v hv).subperm hs).length_le
  simpa using this

theorem pivot_length_le {g : Graph} (h : WF g) {v : Nat} (b : Nat) (hv : v < g.n) : (pivot g v b).length ≤ g.n := by
  have hs : pivot g v b ⊆ List.range g.n := fun u hu => List.mem_range.2 (h.edges v hv u ((mem_pivot g v b u).1 hu).1).2
  have := ((pivot_nodup g v b).subperm hs).length_le
  simpa using this

theorem meas_le {g : Graph} (h : WF g) {l : Loc} (ok : l.ok g) : meas g l ≤ 2 * g.n + 8 := by
  cases l with
  | start => simp [meas]
  | tab => simp [meas]
  | halt => simp [meas]
  | fin => simp [meas]
  | last => simp [meas]
  | out v j => have := out_length_le h ok.1; simp only [meas]; omega
  | mat1 v => have := out_length_le h ok.2.1; simp only [meas]; omega
  | mat v => have := out_length_le h ok.2.1; simp only [meas]; omega
  | chk v => have := out_length_le h ok.2.1; simp only [meas]; omega
  | lab v => have := out_length_le h ok.2.1; simp only [meas]; omega
  | ind v b j => have := pivot_length_le h b ok.1; simp only [meas]; omega

/-- Epsilon instructions go down. -/
theorem meas_lop {g : Graph} (h : Live g) {l : Loc} (ok : l.ok g) :
    (∀ n t, lop g l = .fork n t → meas g n < meas g l ∧ meas g t < meas g l) ∧
    (∀ t, lop g l = .jump t → meas g t < meas g l) ∧
    (∀ i n, lop g l = .check i n → meas g n < meas g l) ∧ (∀ i n, lop g l = .label i n → meas g n < meas g l) ∧
    (∀ n, lop g l = .mtch n → meas g n < meas g l) := by
  cases l with
  | start u => simp [lop]
  | tab v => simp [lop]
  | halt => simp [lop]
  | fin => simp [lop]
  | lab v =>
    simp only [lop, reduceCtorEq, false_imp_iff, implies_true, LOp.label.injEq, true_and, and_true]
    rintro i n ⟨-, rfl⟩
    have := meas_entryChk g v
    show _ < (g.v v).out.length + 6
    omega
  | chk v =>
    simp only [lop, reduceCtorEq, false_imp_iff, implies_true, LOp.check.injEq, true_and, and_true]
    rintro i n ⟨-, rfl⟩
    have := meas_entryMat g v
    show _ < (g.v v).out.length + 5
    omega
  | mat v =>
    simp only [lop, reduceCtorEq, false_imp_iff, implies_true, LOp.mtch.injEq, true_and]
    rintro n rfl
    simp only [meas]; omega
  | mat1 v =>
    simp only [lop]
    split
    · simp
    · simp only [reduceCtorEq, false_imp_iff, implies_true, LOp.fork.injEq, and_true]
      rintro n t ⟨rfl, rfl⟩
      have := meas_entryOut g v
      show _ < (g.v v).out.length + 3 ∧ 0 < (g.v v).out.length + 3
      omega
  | out v j =>
    simp only [lop, reduceCtorEq, false_imp_iff, implies_true, LOp.fork.injEq, and_true]
    rintro n t ⟨rfl, rfl⟩
    have := meas_outLoc g v (j + 1)
    have := ok.2.2
    show _ < (g.v v).out.length - j + 1 ∧ 0 < (g.v v).out.length - j + 1
    omega
  | last v =>
    simp only [lop, reduceCtorEq, false_imp_iff, implies_true, LOp.jump.injEq, true_and, and_true]
    rintro t rfl
    simp [meas]
  | ind v b j =>
    obtain ⟨hv, ht, hb, h1, hj⟩ := ok
    have hm : ∀ x ∈ pivot g v b, meas g (land g x) ≤ g.n + 6 := by
      intro x hx
      have hx' := (h.edges v hv x ((mem_pivot g v b x).1 hx).1).2
      have := meas_land g x
      have := out_length_le h.toWF hx'
      omega
    simp only [lop]
    split
    · simp
    · next t ts he =>
      rw [he] at hj hm
      split
      · next hj' =>
        simp only [reduceCtorEq, false_imp_iff, implies_true, LOp.fork.injEq, and_true]
        rintro n t' ⟨rfl, rfl⟩
        have hj'' : j < ts.reverse.length := by simpa using hj'
        rw [List.getElem?_eq_getElem hj'', Option.getD_some]
        have hmem := List.getElem_mem hj''
        rw [List.mem_reverse] at hmem
        have := hm _ (List.mem_cons_of_mem _ hmem)
        rw [List.length_cons] at hj
        show g.n + 7 + ((pivot g v b).length - (j + 1)) + 1 < g.n + 7 + ((pivot g v b).length - j) + 1 ∧
          _ < g.n + 7 + ((pivot g v b).length - j) + 1
        rw [he, List.length_cons]
        omega
      · simp only [reduceCtorEq, false_imp_iff, implies_true, LOp.jump.injEq, true_and, and_true]
        rintro t' rfl
        have := hm t (by simp)
        show _ < g.n + 7 + ((pivot g v b).length - j) + 1
        omega

/-- Every way to a match state goes through a labelled state. -/
def Labelled (g : Graph) : Prop :=
  ∀ w v lab, GRun g w v lab → (g.v v).isMatch = true → lab ≠ none

theorem label_le {g : Graph} (h : WF g) {v l : Nat} (hv : v < g.n) (hl : (g.v v).label = some l) : l ≤ maxLabel g := by
  have key : ∀ (xs : List Nat) (m : Nat),
      m ≤ xs.foldl (fun m v => match (g.v v).label with
        | none => m
        | some l => max m l) m ∧
      ∀ v ∈ xs, ∀ l, (g.v v).label = some l → l ≤ xs.foldl (fun m v => match (g.v v).label with
        | none => m
        | some l => max m l) m := by
    intro xs
    induction xs with
    | nil => intro m; simp
    | cons x xs ih =>
      intro m
      rw [List.foldl_cons]
      cases hx : (g.v x).label with
      | none =>
        obtain ⟨i1, i2⟩ := ih m
        refine ⟨i1, fun v hv l hl => ?_⟩
        rcases List.mem_cons.1 hv with rfl | hv
        · rw [hx] at hl; cases hl
        · exact i2 v hv l hl
      | some y =>
        obtain ⟨i1, i2⟩ := ih (max m y)
        dsimp only
        refine ⟨by omega, fun v hv l hl => ?_⟩
        rcases List.mem_cons.1 hv with rfl | hv
        · rw [hx] at hl; cases hl; omega
        · exact i2 v hv l hl
  exact (key (order g) 0).2 v (((order_spec h).2 v).2 hv) l hl

/-- A thread of a compiled program. -/
def Kc (g : Graph) (pc : Nat) (lab : Option Nat) (m : Nat) : Prop :=
  (∀ i, lab = some i → i ≤ maxLabel g) ∧ ∃ l, l.ok g ∧ addr g l = pc ∧ meas g l = m ∧
    (l = .fin → lab ≠ none) ∧ (l = .halt ∨ l = .fin ∨ ∃ w k, LRun g w k l lab)

theorem ne_fin {l : Loc} (h : l.before) : l ≠ .fin := by rintro rfl; exact h

theorem fork_ne_fin {g : Graph} {l n t : Loc} (h : lop g l = .fork n t) :
    n ≠ .fin ∧ (t = .fin → ∃ v, l = .mat1 v) := by
  cases l with
  | mat1 v =>
    simp only [lop] at h
    split at h
    · cases h
    · simp only [LOp.fork.injEq] at h
      rw [← h.1]
      exact ⟨ne_fin (before_entryOut g v), fun _ => ⟨v, rfl⟩⟩
  | out v j =>
    obtain ⟨h1, h2⟩ := before_fork (l := .out v j) trivial h
    exact ⟨ne_fin h1, fun e => (ne_fin h2 e).elim⟩
  | ind v b j =>
    obtain ⟨h1, h2⟩ := before_fork (l := .ind v b j) trivial h
    exact ⟨ne_fin h1, fun e => (ne_fin h2 e).elim⟩
  | _ => simp [lop] at h

theorem compiled_bounded {g : Graph} {P : Program} (h : Compiled g P) (hL : Labelled g)
    (h1 : P.maxLabel = maxLabel g) (h2 : P.maxCheck = maxCheck g) : Bounded P (Kc g) (2 * g.n + 8) where
  lab := by
    rintro pc l m ⟨hl, -⟩
    rw [h1]; exact hl l rfl
  op := by
    rintro pc lab m ⟨-, l, ok, rfl, -⟩
    have hs := lop_spec h ok
    cases hlop : lop g l with
    | read u => rw [hlop] at hs; obtain ⟨⟨o, ho, -⟩, -⟩ := hs; exact ⟨o, ho⟩
    | table u => rw [hlop] at hs; obtain ⟨⟨o, ho, -⟩, -⟩ := hs; exact ⟨o, ho⟩
    | fork n t => rw [hlop] at hs; exact ⟨_, hs.1⟩
    | jump t => rw [hlop] at hs; exact ⟨_, hs.1⟩
    | check i n => rw [hlop] at hs; exact ⟨_, hs.1⟩
    | label i n => rw [hlop] at hs; exact ⟨_, hs.1⟩
    | mtch n => rw [hlop] at hs; exact ⟨_, hs.1⟩
    | finish => rw [hlop] at hs; exact ⟨_, hs⟩
    | halt => rw [hlop] at hs; exact ⟨_, hs⟩
  fork := by
    rintro pc lab m ⟨hb, l, ok, rfl, rfl, hfin, hr⟩ hop
    obtain ⟨n, t, hl⟩ := (op_cases h ok hop).1 rfl
    have hs := lop_spec h ok
    rw [hl] at hs
    obtain ⟨k1, k2⟩ := (ok_lop h.toLive ok).1 _ _ hl
    obtain ⟨m1, m2⟩ := (meas_lop h.toLive ok).1 _ _ hl
    obtain ⟨f1, f2⟩ := fork_ne_fin hl
    have hr : ∃ w k, LRun g w k l lab := by
      rcases hr with rfl | rfl | hr
      · cases hl
      · cases hl
      · exact hr
    obtain ⟨w, k, hr⟩ := hr
    refine ⟨⟨_, m1, hb, n, k1, hs.2.2, rfl, fun e => (f1 e).elim, Or.inr (Or.inr ⟨w, _, hr.fork1 hl⟩)⟩, _, hs.2.1,
      _, m2, hb, t, k2, rfl, rfl, fun e => ?_, Or.inr (Or.inr ⟨w, _, hr.fork2 hl⟩)⟩
    obtain ⟨v, rfl⟩ := f2 e
    exact hL w v lab (lrun_sound h.toLive hr).2.2 ok.2.2
  jump := by
    rintro pc lab m ⟨hb, l, ok, rfl, rfl, hfin, hr⟩ hop
    obtain ⟨t, hl⟩ := (op_cases h ok hop).2.1 rfl
    have hs := lop_spec h ok
    rw [hl] at hs
    have hr : ∃ w k, LRun g w k l lab := by
      rcases hr with rfl | rfl | hr
      · cases hl
      · cases hl
      · exact hr
    obtain ⟨w, k, hr⟩ := hr
    exact ⟨_, hs.2, _, (meas_lop h.toLive ok).2.1 _ hl, hb, t, (ok_lop h.toLive ok).2.1 _ hl, rfl, rfl,
      fun e => (ne_fin (before_jump hl) e).elim, Or.inr (Or.inr ⟨w, _, hr.jump hl⟩)⟩
  check := by
    rintro pc lab m i ⟨hb, l, ok, rfl, rfl, hfin, hr⟩ hop
    obtain ⟨n, hl⟩ := (op_cases h ok hop).2.2.1 _ rfl
    have hs := lop_spec h ok
    rw [hl] at hs
    have hr : ∃ w k, LRun g w k l lab := by
      rcases hr with rfl | rfl | hr
      · cases hl
      · cases hl
      · exact hr
    obtain ⟨w, k, hr⟩ := hr
    refine ⟨by rw [h2]; exact hs.2.2.2, _, (meas_lop h.toLive ok).2.2.1 _ _ hl, hb, n, (ok_lop h.toLive ok).2.2.1 _ _ hl,
      hs.2.1, rfl, fun e => ?_, Or.inr (Or.inr ⟨w, _, hr.check hl⟩)⟩
    obtain ⟨v, -, -, rfl⟩ := lop_chk hl
    exact (ne_fin (before_entryMat g v) e).elim
  label := by
    rintro pc lab m i ⟨hb, l, ok, rfl, rfl, hfin, hr⟩ hop
    obtain ⟨n, hl⟩ := (op_cases h ok hop).2.2.2.1 _ rfl
    have hs := lop_spec h ok
    rw [hl] at hs
    have hr : ∃ w k, LRun g w k l lab := by
      rcases hr with rfl | rfl | hr
      · cases hl
      · cases hl
      · exact hr
    obtain ⟨w, k, hr⟩ := hr
    have hle : i ≤ maxLabel g := by
      obtain ⟨v, rfl, rfl, -⟩ := lop_lab hl
      obtain ⟨-, hv, hne⟩ := ok
      obtain ⟨i, hi⟩ := Option.ne_none_iff_exists'.1 hne
      rw [hi]
      exact label_le h.toWF hv hi
    refine ⟨by rw [h1]; exact hle, _, (meas_lop h.toLive ok).2.2.2.1 _ _ hl, fun j hj => by cases hj; exact hle, n,
      (ok_lop h.toLive ok).2.2.2.1 _ _ hl, hs.2, rfl, fun e => ?_, Or.inr (Or.inr ⟨w, _, hr.label hl⟩)⟩
    obtain ⟨v, -, -, rfl⟩ := lop_lab hl
    exact (ne_fin (before_entryChk g v) e).elim
  mtch := by
    rintro pc lab m ⟨hb, l, ok, rfl, rfl, hfin, hr⟩ hop
    obtain ⟨n, hl⟩ := (op_cases h ok hop).2.2.2.2.1 rfl
    have hs := lop_spec h ok
    rw [hl] at hs
    have hr : ∃ w k, LRun g w k l lab := by
      rcases hr with rfl | rfl | hr
      · cases hl
      · cases hl
      · exact hr
    obtain ⟨w, k, hr⟩ := hr
    have hne : lab ≠ none := by
      obtain ⟨v, rfl, -⟩ := lop_mat hl
      exact hL w v lab (lrun_sound h.toLive hr).2.2 ok.2.2
    exact ⟨hne, _, (meas_lop h.toLive ok).2.2.2.2 _ hl, hb, n, (ok_lop h.toLive ok).2.2.2.2 _ hl,
      hs.2, rfl, fun _ => hne, Or.inr (Or.inr ⟨w, _, hr.mtch hl⟩)⟩
  finish := by
    rintro pc lab m ⟨hb, l, ok, rfl, rfl, hfin, hr⟩ hop
    rcases lop_fin ((op_cases h ok hop).2.2.2.2.2.1 rfl) with rfl | ⟨v, rfl, -⟩
    · exact hfin rfl
    · rcases hr with hr | hr | ⟨w, k, hr⟩
      · cases hr
      · cases hr
      · exact hL w v lab (lrun_sound h.toLive hr).2.2 ok.2.2
  exec := by
    rintro t m ⟨hb, l, ok, hpc, rfl, hfin, hr⟩ hm b
    have hs := lop_spec h ok
    have rd : Reads g P l → (∃ w k, LRun g w k l t.label) → Ok (exec P t b) fun r =>
        ∀ t', r = some t' → ∃ m' ≤ 2 * g.n + 8, Kc g t'.pc t'.label m' := by
      rintro ⟨-, hx⟩ ⟨w, k, hr⟩
      rw [hx t b hpc.symm]
      refine ok_intro (fun t' ht' => ?_)
      cases hc : consume g b l with
      | none => rw [hc] at ht'; cases ht'
      | some l' =>
        rw [hc] at ht'
        dsimp only at ht'
        split at ht'
        · cases ht'
        · next hz =>
          cases ht'
          have ok' := ok_consume h.toLive ok hc
          exact ⟨_, meas_le h.toWF ok', hb, l', ok', rfl, rfl, fun e => (ne_fin (before_consume hc) e).elim,
            Or.inr (Or.inr ⟨_, _, hr.byte hc hz⟩)⟩
    have dead : ∀ o, opAt P (addr g l) = some o → Compiler.reads o = false → o ≠ .finish → Ok (exec P t b) fun r =>
        ∀ t', r = some t' → ∃ m' ≤ 2 * g.n + 8, Kc g t'.pc t'.label m' := by
      intro o ho hno hnf
      rw [hpc] at ho
      unfold Vm.exec
      simp only [ho]
      cases o with
      | finish => exact (hnf rfl).elim
      | fork => exact ok_intro (fun t' ht' => by cases ht')
      | jump => exact ok_intro (fun t' ht' => by cases ht')
      | checkHalt => exact ok_intro (fun t' ht' => by cases ht')
      | label => exact ok_intro (fun t' ht' => by cases ht')
      | «match» => exact ok_intro (fun t' ht' => by cases ht')
      | halt => exact ok_intro (fun t' ht' => by cases ht')
      | other => exact ok_intro (fun t' ht' => by cases ht')
      | _ => simp [reads] at hno
    cases hlop : lop g l with
    | read u =>
      rw [hlop] at hs
      refine rd hs ?_
      rcases hr with rfl | rfl | hr
      · cases hlop
      · cases hlop
      · exact hr
    | table u =>
      rw [hlop] at hs
      refine rd hs ?_
      rcases hr with rfl | rfl | hr
      · cases hlop
      · cases hlop
      · exact hr
    | fork n t => rw [hlop] at hs; exact dead _ hs.1 rfl (by simp)
    | jump t => rw [hlop] at hs; exact dead _ hs.1 rfl (by simp)
    | check i n => rw [hlop] at hs; exact dead _ hs.1 rfl (by simp)
    | label i n => rw [hlop] at hs; exact dead _ hs.1 rfl (by simp)
    | mtch n => rw [hlop] at hs; exact dead _ hs.1 rfl (by simp)
    | halt => rw [hlop] at hs; exact dead _ hs rfl (by simp)
    | finish =>
      rw [hlop] at hs
      have ho : opAt P t.pc = some .finish := by rw [← hpc]; exact hs
      unfold Vm.exec
      simp only [ho]
      exact ok_intro (fun t' ht' => by cases ht'; exact ⟨_, hm, hb, l, ok, hpc, rfl, hfin, hr⟩)
  halt := by
    intro lab hl
    refine ⟨0, by omega, fun i hi => h1 ▸ hl i hi, .halt, trivial, (progEnd_eq h).symm, rfl, fun e => (by cases e), Or.inl rfl⟩
  init := by
    have ok := ok_entryLab h.toLive h.pos
    exact ⟨_, meas_le h.toWF ok, fun i hi => (by cases hi), _, ok, addr_root h.toLive, rfl,
      fun e => (ne_fin (before_entryLab g 0) e).elim, Or.inr (Or.inr ⟨_, _, .init⟩)⟩

/-- The initial threads of a compiled program carry no label. -/
theorem compiled_first {g : Graph} {P : Program} (h : Compiled g P) (hL : Labelled g)
    (h1 : P.maxLabel = maxLabel g) (h2 : P.maxCheck = maxCheck g) {fuel : Nat} (hf : 2 * g.n + 8 < fuel) :
    Ok (create P fuel) fun r => FSafe (Kc g) (2 * g.n + 8) r.1 ∧ StSafe P (Kc g) (2 * g.n + 8) r.2 := by
  have hB := compiled_bounded h hL h1 h2
  obtain ⟨m, hm, hk⟩ := hB.init
  have hpre : StSafe P (Kc g) (2 * g.n + 8) (preInit P) := ⟨by simp [preInit], by simp [preInit], by simp [preInit]⟩
  have he := safe_epSeq hB (cb := false) (off := 0) hf (t := ⟨0, 0, none, none, false⟩) (σ := preInit P) ⟨m, hm, hk⟩ hpre
  obtain ⟨⟨r, σ⟩, hx, hr, hσ⟩ := id he
  have hcr : ∃ first, create P fuel = .ok (first, reset σ) := by
    unfold create
    dsimp only
    rw [hx]
    exact ⟨_, rfl⟩
  obtain ⟨first, hcr⟩ := hcr
  have hfirst := create_run (compiled_guarded h) hcr
  refine ⟨_, hcr, ?_, safe_reset hσ.ends⟩
  intro t ht
  obtain ⟨hS, k, hrun⟩ := hfirst t ht
  obtain ⟨l, ok, ha, hl⟩ := lrun_of_run h hrun
  refine ⟨_, meas_le h.toWF ok, fun i hi => (by cases hi), l, ok, ha, rfl, ?_, Or.inr (Or.inr ⟨_, _, hl⟩)⟩
  rintro rfl
  exact ((compiled_guarded h).noFinish _ hS (by rw [← ha]; exact op_fin h)).elim

/-- **C10.** With the program compiled from an automaton in which every way to a match
state carries a label: making a context and any history of calls on it (searches,
resolving searches, close-outs, starts-with, resets, with any buffers and offsets)
succeeds.  In the model an instruction or operand read outside the program, an access
to the tables of labels, live labels or checks outside their size, and an unlabelled
match are all outcome `ub`; epsilon instructions executed for longer than `fuel` are
outcome `fuel`.  So none of these happens, and at every byte each thread executes at
most `2 * n + 9` epsilon instructions in a row, `n` being the number of states. -/
theorem compiled_never_out_of_bounds {g : Graph} (hg : Live g) (hL : Labelled g) {fuel' : Nat} {P : Program}
    (hc : createProgram fuel' g = some (.ok P)) {fuel : Nat} (hf : 2 * g.n + 9 ≤ fuel) (cs : List Call) :
    ∃ first σ₀ rs σ, create P fuel = .ok (first, σ₀) ∧ run P first fuel cs σ₀ = .ok (rs, σ) := by
  obtain ⟨hC, h1, h2⟩ := compiled_of_createProgram hg hc
  obtain ⟨⟨first, σ₀⟩, e1, hfi, hσ⟩ := compiled_first hC hL h1 h2 (fuel := fuel) (by omega)
  obtain ⟨⟨rs, σ⟩, e2, -⟩ := safe_run (compiled_bounded hC hL h1 h2) hfi (fuel := fuel) (by omega) cs hσ
  exact ⟨first, σ₀, rs, σ, e1, e2⟩

/-! ## Examples -/

theorem labelled_of_match {g : Graph} (h0 : (g.v 0).isMatch = false)
    (h : ∀ v, (g.v v).isMatch = true → (g.v v).label ≠ none) : Labelled g := by
  intro w v lab hr hm
  cases hr with
  | init => rw [h0] at hm; cases hm
  | step _ _ _ =>
    obtain ⟨l, hl⟩ := Option.ne_none_iff_exists'.1 (h _ hm)
    simp [hl]

theorem sample_labelled : Labelled sample := by
  refine labelled_of_match rfl (fun v hv => ?_)
  have h : ∀ v < 7, (sampleVertex v).isMatch = true → (sampleVertex v).label ≠ none := by decide
  by_cases hlt : v < 7
  · exact h v hlt hv
  · have : (sample.v v).isMatch = false := by
      match v, hlt with
      | n + 7, _ => rfl
    rw [this] at hv
    cases hv

example : ∃ fuel P, createProgram fuel sample = some (.ok P) ∧ ∀ cs, ∃ first σ₀ rs σ,
    create P 23 = .ok (first, σ₀) ∧ run P first 23 cs σ₀ = .ok (rs, σ) := by
  obtain ⟨code, hc, -⟩ := layout_consistent_partial sample_wf (encodes_of_small sample_wf (by decide) (by decide))
  obtain ⟨F, hF⟩ := BestPair.filter_found sample (by decide) (by decide) rfl [100]
    ⟨6, by decide, 6, .one (by decide +kernel), rfl⟩
  obtain ⟨r, hr⟩ := hF F (Nat.le_refl _)
  have hP : ∃ P, createProgram F sample = some (.ok P) := by
    unfold createProgram
    rw [hr, hc]
    exact ⟨_, rfl⟩
  obtain ⟨P, hP⟩ := hP
  exact ⟨F, P, hP, compiled_never_out_of_bounds sample_live sample_labelled hP (by decide)⟩

/-- The automaton of `a` whose match state was not given a label. -/
def bareVertex : Nat → Vertex
  | 0 => { out := [1] }
  | 1 => { bytes := BSet.single 97, inn := [0], isMatch := true }
  | _ => {}

@[inherit_doc bareVertex] def bareGraph : Graph := { n := 2, v := bareVertex }

/-- Without `Labelled` the bounds are left: a match without a label makes the VM look up
the label 2^64-1 in the set of live labels (vm.cpp 371). -/
theorem unlabelled_match_out_of_bounds {fuel' : Nat} {P : Program}
    (hc : createProgram fuel' bareGraph = some (.ok P)) :
    ∃ first σ₀, create P 20 = .ok (first, σ₀) ∧ run P first 20 [.search [97] 0 true] σ₀ = .ub := by
  have hcode : P.code = [1 + 97 * 65536, 11, 6, 12, 6] ∧ P.maxLabel = 0 := by
    unfold createProgram at hc
    split at hc
    · cases hc
    · rw [show codegen bareGraph = .ok [1 + 97 * 65536, 11, 6, 12, 6] by decide +kernel] at hc
      simp only [Option.some.injEq, Out.ok.injEq] at hc
      subst hc
      exact ⟨rfl, show maxLabel bareGraph = 0 by decide +kernel⟩
  obtain ⟨code, ml, mc, fo, f⟩ := P
  obtain ⟨h1, h2⟩ := hcode
  dsimp only at h1 h2
  subst h1 h2
  have hs : spawnHere ⟨[1 + 97 * 65536, 11, 6, 12, 6], 0, mc, fo, f⟩ [97] = true := by simp [spawnHere]
  refine ⟨[⟨0, 0, none, none, false⟩], _, rfl, ?_⟩
  simp only [run, step, search, searchLoop, hs]
  rfl

example : ∃ fuel P, createProgram fuel bareGraph = some (.ok P) := by
  obtain ⟨F, hF⟩ := BestPair.filter_found bareGraph (by decide) (by decide) rfl [97]
    ⟨1, by decide, 1, .one (by decide +kernel), rfl⟩
  obtain ⟨r, hr⟩ := hF F (Nat.le_refl _)
  refine ⟨F, ?_⟩
  unfold createProgram
  rw [hr, show codegen bareGraph = .ok [1 + 97 * 65536, 11, 6, 12, 6] by decide +kernel]
  exact ⟨_, rfl⟩

end Verif.Compiler
