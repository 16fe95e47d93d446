import Verif.Props.CompiledCode
/-!
# C12: the compiled program accepts what the automaton accepts
-/
namespace Verif.Compiler
open Verif.Nfa Verif.Transition Verif.Vm

/-! ## Specification -/

/-- The automaton has read `w`, is in state `v` and carries the label of the last
labelled state it went through. -/
inductive GRun (g : Graph) : List UInt8 → Nat → Option Nat → Prop
  | init : GRun g [] 0 none
  | step {w v lab u b} : GRun g w v lab → u ∈ (g.v v).out → (g.v u).bytes.has b = true →
      GRun g (w ++ [b]) u ((g.v u).label.or lab)

/-- The automaton accepts `w` with label `l`: it can read `w` and be in a match state
while carrying `l`. -/
def GAccepts (g : Graph) (l : Nat) (w : List UInt8) : Prop :=
  ∃ v, GRun g w v (some l) ∧ (g.v v).isMatch = true

/-- The condition excluding the defect shown in `zero_landing_loses_match`: if the
initial state has a single successor, no jump table leads to a state (which has no label
and is no match) with just that successor. -/
def NoZero (g : Graph) : Prop :=
  ∀ u, (g.v 0).out = [u] → ∀ v < g.n, isTable g v = true → ∀ t ∈ (g.v v).out,
    (g.v t).out = [u] → (g.v t).label ≠ none ∨ (g.v t).isMatch = true

/-! ## Runs on places -/

inductive LRun (g : Graph) : List UInt8 → List Bool → Loc → Option Nat → Prop
  | init : LRun g [] [] (entryLab g 0) none
  | fork1 {w k l lab n t} : LRun g w k l lab → lop g l = .fork n t → LRun g w (k ++ [false]) n lab
  | fork2 {w k l lab n t} : LRun g w k l lab → lop g l = .fork n t → LRun g w (k ++ [true]) t lab
  | jump {w k l lab t} : LRun g w k l lab → lop g l = .jump t → LRun g w k t lab
  | check {w k l lab i n} : LRun g w k l lab → lop g l = .check i n → LRun g w k n lab
  | label {w k l lab i n} : LRun g w k l lab → lop g l = .label i n → LRun g w k n (some i)
  | mtch {w k l lab n} : LRun g w k l lab → lop g l = .mtch n → LRun g w k n lab
  | byte {w k l lab b l'} : LRun g w k l lab → consume g b l = some l' → addr g l' ≠ 0 →
      LRun g (w ++ [b]) k l' lab

/-- The thread at an address. -/
def thr (pc : Nat) : Thread := ⟨pc, 0, none, none, false⟩

theorem exec_of_cons {P : Program} {b : UInt8} {th : Thread} {pc' : Nat} (h : Cons P b th.pc pc') :
    exec P th b = .ok (some { th with pc := pc' }) := by
  cases h with
  | table f l a h1 h2 h3 h4 h5 => simp [exec, h1, h2, h3, h4, h5]
  | byte x n h1 h2 => simp only [exec, h1]; rw [if_pos h2]
  | bits w h1 h2 h3 => simp [exec, h1, h2, h3]
  | either x y n h1 h2 => simp only [exec, h1]; rw [if_pos h2]
  | range x y n h1 h2 => simp only [exec, h1]; rw [if_pos h2]
  | any h1 => simp [exec, h1]

theorem reads_cons {g : Graph} {P : Program} {l : Loc} (h : Reads g P l) (b : UInt8) (pc' : Nat) :
    Cons P b (addr g l) pc' ↔ ∃ l', consume g b l = some l' ∧ addr g l' ≠ 0 ∧ addr g l' = pc' := by
  obtain ⟨⟨op, hop, hr⟩, hx⟩ := h
  have hx' := hx (thr (addr g l)) b rfl
  constructor
  · intro hc
    have := exec_of_cons (th := thr (addr g l)) hc
    rw [hx'] at this
    cases hl : consume g b l with
    | none => rw [hl] at this; simp at this
    | some l' =>
      rw [hl] at this
      dsimp only at this
      by_cases hz : addr g l' = 0
      · rw [if_pos hz] at this; simp at this
      · rw [if_neg hz] at this
        simp only [Res.ok.injEq, Option.some.injEq, Thread.mk.injEq, and_true] at this
        exact ⟨l', rfl, hz, this⟩
  · rintro ⟨l', hl, hz, rfl⟩
    rw [hl] at hx'
    dsimp only at hx'
    rw [if_neg hz] at hx'
    rcases exec_some hx' with ⟨pc', he, hc⟩ | ⟨-, hf⟩
    · simp only [Thread.mk.injEq, and_true] at he
      rw [he]
      exact hc
    · rw [show (thr (addr g l)).pc = addr g l from rfl, hop] at hf
      simp only [Option.some.injEq] at hf
      subst hf
      simp [reads] at hr

/-- The instruction at a place, from the program. -/
theorem op_cases {g : Graph} {P : Program} (h : Compiled g P) {l : Loc} (hl : l.ok g) {op : Op}
    (hop : opAt P (addr g l) = some op) :
    (op = .fork → ∃ n t, lop g l = .fork n t) ∧ (op = .jump → ∃ t, lop g l = .jump t) ∧
    (∀ i, op = .checkHalt i → ∃ n, lop g l = .check i n) ∧ (∀ i, op = .label i → ∃ n, lop g l = .label i n) ∧
    (op = .match → ∃ n, lop g l = .mtch n) ∧ (op = .finish → lop g l = .finish) ∧
    (op = .halt → lop g l = .halt) ∧ (reads op = true → Reads g P l) ∧ op ≠ .other := by
  have hs := lop_spec h hl
  cases hlop : lop g l with
  | read u =>
    rw [hlop] at hs
    obtain ⟨⟨op', hop', hr⟩, -⟩ := id hs
    rw [hop] at hop'
    simp only [Option.some.injEq] at hop'
    subst hop'
    refine ⟨?_, ?_, ?_, ?_, ?_, ?_, ?_, fun _ => hs, fun e => ?_⟩ <;> intros <;> subst_vars <;> simp [reads] at hr
  | table u =>
    rw [hlop] at hs
    obtain ⟨⟨op', hop', hr⟩, -⟩ := id hs
    rw [hop] at hop'
    simp only [Option.some.injEq] at hop'
    subst hop'
    refine ⟨?_, ?_, ?_, ?_, ?_, ?_, ?_, fun _ => hs, fun e => ?_⟩ <;> intros <;> subst_vars <;> simp [reads] at hr
  | fork n t =>
    rw [hlop] at hs
    have := hs.1
    rw [hop] at this
    simp only [Option.some.injEq] at this
    subst this
    simp [reads]
  | jump t =>
    rw [hlop] at hs
    have := hs.1
    rw [hop] at this
    simp only [Option.some.injEq] at this
    subst this
    simp [reads]
  | check i n =>
    rw [hlop] at hs
    have := hs.1
    rw [hop] at this
    simp only [Option.some.injEq] at this
    subst this
    simp [reads]
  | label i n =>
    rw [hlop] at hs
    have := hs.1
    rw [hop] at this
    simp only [Option.some.injEq] at this
    subst this
    simp [reads]
  | mtch n =>
    rw [hlop] at hs
    have := hs.1
    rw [hop] at this
    simp only [Option.some.injEq] at this
    subst this
    simp [reads]
  | finish =>
    rw [hlop] at hs
    have := hs
    simp only [Spec] at this
    rw [hop] at this
    simp only [Option.some.injEq] at this
    subst this
    simp [reads]
  | halt =>
    rw [hlop] at hs
    have := hs
    simp only [Spec] at this
    rw [hop] at this
    simp only [Option.some.injEq] at this
    subst this
    simp [reads]

theorem reads_of_consume {g : Graph} {P : Program} (h : Compiled g P) {l l' : Loc} (hl : l.ok g) {b : UInt8}
    (hc : consume g b l = some l') : Reads g P l := by
  cases l with
  | start u => exact lop_spec h hl
  | tab v => exact lop_spec h hl
  | _ => simp [consume] at hc

theorem addr_root {g : Graph} (h : Live g) : addr g (entryLab g 0) = 0 := by
  rw [addr_entryLab h h.pos, base, start_root h.toWF]
  simp [evalSize]

theorem run_of_lrun {g : Graph} {P : Program} (h : Compiled g P) {w k l lab} (hr : LRun g w k l lab) :
    l.ok g ∧ Run P w k (addr g l) lab := by
  induction hr with
  | init => exact ⟨ok_entryLab h.toLive h.pos, by rw [addr_root h.toLive]; exact .init⟩
  | fork1 _ hop ih =>
    obtain ⟨ok, r⟩ := ih
    have hs := lop_spec h ok
    rw [hop] at hs
    refine ⟨((ok_lop h.toLive ok).1 _ _ hop).1, ?_⟩
    rw [hs.2.2]
    exact r.fork1 hs.1
  | fork2 _ hop ih =>
    obtain ⟨ok, r⟩ := ih
    have hs := lop_spec h ok
    rw [hop] at hs
    exact ⟨((ok_lop h.toLive ok).1 _ _ hop).2, r.fork2 hs.1 hs.2.1⟩
  | jump _ hop ih =>
    obtain ⟨ok, r⟩ := ih
    have hs := lop_spec h ok
    rw [hop] at hs
    exact ⟨(ok_lop h.toLive ok).2.1 _ hop, r.jump hs.1 hs.2⟩
  | check _ hop ih =>
    obtain ⟨ok, r⟩ := ih
    have hs := lop_spec h ok
    rw [hop] at hs
    refine ⟨(ok_lop h.toLive ok).2.2.1 _ _ hop, ?_⟩
    rw [hs.2.1]
    exact r.check hs.1
  | label _ hop ih =>
    obtain ⟨ok, r⟩ := ih
    have hs := lop_spec h ok
    rw [hop] at hs
    refine ⟨(ok_lop h.toLive ok).2.2.2.1 _ _ hop, ?_⟩
    rw [hs.2]
    exact r.label hs.1
  | mtch _ hop ih =>
    obtain ⟨ok, r⟩ := ih
    have hs := lop_spec h ok
    rw [hop] at hs
    refine ⟨(ok_lop h.toLive ok).2.2.2.2 _ hop, ?_⟩
    rw [hs.2]
    exact r.match hs.1
  | byte _ hc hz ih =>
    obtain ⟨ok, r⟩ := ih
    refine ⟨ok_consume h.toLive ok hc, r.byte ?_⟩
    exact (reads_cons (reads_of_consume h ok hc) _ _).2 ⟨_, hc, hz, rfl⟩

theorem cons_reads {P : Program} {b : UInt8} {pc pc' : Nat} (h : Cons P b pc pc') :
    ∃ op, opAt P pc = some op ∧ reads op = true := by
  cases h with
  | table f l a h1 => exact ⟨_, h1, rfl⟩
  | byte x n h1 => exact ⟨_, h1, rfl⟩
  | bits w h1 => exact ⟨_, h1, rfl⟩
  | either x y n h1 => exact ⟨_, h1, rfl⟩
  | range x y n h1 => exact ⟨_, h1, rfl⟩
  | any h1 => exact ⟨_, h1, rfl⟩

theorem lrun_of_run {g : Graph} {P : Program} (h : Compiled g P) {w k pc lab} (hr : Run P w k pc lab) :
    ∃ l, l.ok g ∧ addr g l = pc ∧ LRun g w k l lab := by
  induction hr with
  | init => exact ⟨_, ok_entryLab h.toLive h.pos, addr_root h.toLive, .init⟩
  | fork1 _ hop ih =>
    obtain ⟨l, ok, rfl, r⟩ := ih
    obtain ⟨n, t, hl⟩ := (op_cases h ok hop).1 rfl
    have hs := lop_spec h ok
    rw [hl] at hs
    exact ⟨n, ((ok_lop h.toLive ok).1 _ _ hl).1, hs.2.2, r.fork1 hl⟩
  | fork2 _ hop ha ih =>
    obtain ⟨l, ok, rfl, r⟩ := ih
    obtain ⟨n, t, hl⟩ := (op_cases h ok hop).1 rfl
    have hs := lop_spec h ok
    rw [hl] at hs
    have := hs.2.1
    rw [ha] at this
    exact ⟨t, ((ok_lop h.toLive ok).1 _ _ hl).2, (Option.some.inj this).symm, r.fork2 hl⟩
  | jump _ hop ha ih =>
    obtain ⟨l, ok, rfl, r⟩ := ih
    obtain ⟨t, hl⟩ := (op_cases h ok hop).2.1 rfl
    have hs := lop_spec h ok
    rw [hl] at hs
    have := hs.2
    rw [ha] at this
    exact ⟨t, (ok_lop h.toLive ok).2.1 _ hl, (Option.some.inj this).symm, r.jump hl⟩
  | check _ hop ih =>
    obtain ⟨l, ok, rfl, r⟩ := ih
    obtain ⟨n, hl⟩ := (op_cases h ok hop).2.2.1 _ rfl
    have hs := lop_spec h ok
    rw [hl] at hs
    exact ⟨n, (ok_lop h.toLive ok).2.2.1 _ _ hl, hs.2.1, r.check hl⟩
  | label _ hop ih =>
    obtain ⟨l, ok, rfl, r⟩ := ih
    obtain ⟨n, hl⟩ := (op_cases h ok hop).2.2.2.1 _ rfl
    have hs := lop_spec h ok
    rw [hl] at hs
    exact ⟨n, (ok_lop h.toLive ok).2.2.2.1 _ _ hl, hs.2, r.label hl⟩
  | «match» _ hop ih =>
    obtain ⟨l, ok, rfl, r⟩ := ih
    obtain ⟨n, hl⟩ := (op_cases h ok hop).2.2.2.2.1 rfl
    have hs := lop_spec h ok
    rw [hl] at hs
    exact ⟨n, (ok_lop h.toLive ok).2.2.2.2 _ hl, hs.2, r.mtch hl⟩
  | byte _ hc ih =>
    obtain ⟨l, ok, rfl, r⟩ := ih
    obtain ⟨op, hop, hre⟩ := cons_reads hc
    have hR := (op_cases h ok hop).2.2.2.2.2.2.2.1 hre
    obtain ⟨l', hl', hz, rfl⟩ := (reads_cons hR _ _).1 hc
    exact ⟨l', ok_consume h.toLive ok hl', rfl, r.byte hl' hz⟩

/-! ## Soundness -/

/-- What a thread at a place knows. -/
def Knows (g : Graph) (w : List UInt8) (lab : Option Nat) : Loc → Prop
  | .start u => ∃ v < g.n, GRun g w v lab ∧ u ∈ (g.v v).out
  | .lab v => v < g.n ∧ GRun g w v ((g.v v).label.or lab)
  | .chk v => v < g.n ∧ GRun g w v lab
  | .mat v => v < g.n ∧ GRun g w v lab
  | .mat1 v => v < g.n ∧ GRun g w v lab
  | .out v _ => v < g.n ∧ GRun g w v lab
  | .last v => v < g.n ∧ GRun g w v lab
  | .tab v => v < g.n ∧ GRun g w v lab
  | .ind v b _ => ∃ w0 c, w = w0 ++ [c] ∧ c.toNat = b ∧ v < g.n ∧ GRun g w0 v lab
  | .halt => True
  | .fin => True

theorem knows_outLoc {g : Graph} {w lab v} (j : Nat) (hv : v < g.n) (h : GRun g w v lab) :
    Knows g w lab (outLoc g v j) := by
  unfold outLoc
  split
  · trivial
  · next u us ho =>
    split
    · exact ⟨hv, h⟩
    · split
      · exact ⟨v, hv, h, by rw [ho]; simp⟩
      · exact ⟨hv, h⟩

theorem knows_entryOut {g : Graph} {w lab v} (hv : v < g.n) (h : GRun g w v lab) :
    Knows g w lab (entryOut g v) := by
  unfold entryOut
  split
  · exact ⟨hv, h⟩
  · exact knows_outLoc 0 hv h

theorem knows_entryMat {g : Graph} {w lab v} (hv : v < g.n) (h : GRun g w v lab) :
    Knows g w lab (entryMat g v) := by
  unfold entryMat
  split
  · exact ⟨hv, h⟩
  · exact knows_entryOut hv h

theorem knows_entryChk {g : Graph} {w lab v} (hv : v < g.n) (h : GRun g w v lab) :
    Knows g w lab (entryChk g v) := by
  unfold entryChk
  split
  · exact knows_entryMat hv h
  · exact ⟨hv, h⟩

theorem knows_entryLab {g : Graph} {w lab v} (hv : v < g.n) (h : GRun g w v ((g.v v).label.or lab)) :
    Knows g w lab (entryLab g v) := by
  unfold entryLab
  split
  · next hn => rw [hn, Option.none_or] at h; exact knows_entryChk hv h
  · exact ⟨hv, h⟩

theorem knows_land {g : Graph} {w lab v} (hv : v < g.n) (h : GRun g w v ((g.v v).label.or lab)) :
    Knows g w lab (land g v) := by
  unfold land
  split
  · next u ho =>
    split
    · next hc => rw [hc.1, Option.none_or] at h; exact ⟨v, hv, h, by rw [ho]; simp⟩
    · exact knows_entryLab hv h
  · exact knows_entryLab hv h

theorem lrun_sound {g : Graph} (h : Live g) {w k l lab} (hr : LRun g w k l lab) : l.ok g ∧ Knows g w lab l := by
  induction hr with
  | init => exact ⟨ok_entryLab h h.pos, knows_entryLab h.pos (by rw [h.rootLabel]; exact .init)⟩
  | @fork1 w k l lab n t _ hop ih =>
    obtain ⟨ok, kn⟩ := ih
    refine ⟨((ok_lop h ok).1 _ _ hop).1, ?_⟩
    cases l with
    | mat1 v =>
      simp only [lop] at hop
      split at hop
      · cases hop
      · simp only [LOp.fork.injEq] at hop
        rw [← hop.1]
        exact knows_entryOut kn.1 kn.2
    | out v j =>
      simp only [lop, LOp.fork.injEq] at hop
      rw [← hop.1]
      exact knows_outLoc _ kn.1 kn.2
    | ind v b j =>
      simp only [lop] at hop
      split at hop
      · cases hop
      · split at hop
        · simp only [LOp.fork.injEq] at hop
          rw [← hop.1]
          exact kn
        · cases hop
    | _ => simp [lop] at hop
  | @fork2 w k l lab n t _ hop ih =>
    obtain ⟨ok, kn⟩ := ih
    refine ⟨((ok_lop h ok).1 _ _ hop).2, ?_⟩
    cases l with
    | mat1 v =>
      simp only [lop] at hop
      split at hop
      · cases hop
      · simp only [LOp.fork.injEq] at hop
        rw [← hop.2]
        trivial
    | out v j =>
      obtain ⟨hv, ht, hj⟩ := ok
      simp only [lop, LOp.fork.injEq] at hop
      rw [← hop.2]
      refine ⟨v, kn.1, kn.2, ?_⟩
      have hj' : j < (g.v v).out.tail.reverse.length := by simp; omega
      rw [List.getElem?_eq_getElem hj', Option.getD_some]
      have := List.getElem_mem hj'
      rw [List.mem_reverse] at this
      exact List.mem_of_mem_tail this
    | ind v b j =>
      obtain ⟨hv, ht, hb, h1, hj⟩ := ok
      obtain ⟨w0, c, rfl, hc, hv', kr⟩ := kn
      simp only [lop] at hop
      split at hop
      · cases hop
      · next t' ts he =>
        split at hop
        · next hlt =>
          simp only [LOp.fork.injEq] at hop
          rw [← hop.2]
          have hj' : j < ts.reverse.length := by simpa using hlt
          rw [List.getElem?_eq_getElem hj', Option.getD_some]
          have := List.getElem_mem hj'
          rw [List.mem_reverse] at this
          have hp : ts.reverse[j] ∈ pivot g v b := by rw [he]; exact List.mem_cons_of_mem _ this
          rw [mem_pivot] at hp
          refine knows_land (h.edges v hv _ hp.1).2 (GRun.step kr hp.1 ?_)
          rw [BSet.has, hc]
          exact hp.2
        · cases hop
    | _ => simp [lop] at hop
  | @jump w k l lab t _ hop ih =>
    obtain ⟨ok, kn⟩ := ih
    refine ⟨(ok_lop h ok).2.1 _ hop, ?_⟩
    cases l with
    | mat1 v =>
      simp only [lop] at hop
      split at hop <;> cases hop
    | last v =>
      obtain ⟨hv, ht, u, us, ho, hf⟩ := ok
      simp only [lop, LOp.jump.injEq, ho, List.head?_cons, Option.getD_some] at hop
      rw [← hop]
      exact ⟨v, kn.1, kn.2, by rw [ho]; simp⟩
    | ind v b j =>
      obtain ⟨hv, ht, hb, h1, hj⟩ := ok
      obtain ⟨w0, c, rfl, hc, hv', kr⟩ := kn
      simp only [lop] at hop
      split at hop
      · cases hop
      · next t' ts he =>
        split at hop
        · cases hop
        · simp only [LOp.jump.injEq] at hop
          rw [← hop]
          have hp : t' ∈ pivot g v b := by rw [he]; simp
          rw [mem_pivot] at hp
          refine knows_land (h.edges v hv _ hp.1).2 (GRun.step kr hp.1 ?_)
          rw [BSet.has, hc]
          exact hp.2
    | _ => simp [lop] at hop
  | @check w k l lab i n _ hop ih =>
    obtain ⟨ok, kn⟩ := ih
    refine ⟨(ok_lop h ok).2.2.1 _ _ hop, ?_⟩
    cases l with
    | chk v =>
      simp only [lop, LOp.check.injEq] at hop
      rw [← hop.2]
      exact knows_entryMat kn.1 kn.2
    | mat1 v =>
      simp only [lop] at hop
      split at hop <;> cases hop
    | ind v b j =>
      simp only [lop] at hop
      split at hop
      · cases hop
      · split at hop <;> cases hop
    | _ => simp [lop] at hop
  | @label w k l lab i n _ hop ih =>
    obtain ⟨ok, kn⟩ := ih
    refine ⟨(ok_lop h ok).2.2.2.1 _ _ hop, ?_⟩
    cases l with
    | lab v =>
      obtain ⟨h0, hv, hne⟩ := ok
      obtain ⟨x, hx⟩ := Option.ne_none_iff_exists'.1 hne
      simp only [lop, LOp.label.injEq, hx, Option.getD_some] at hop
      rw [← hop.2, ← hop.1]
      refine knows_entryChk hv ?_
      have := kn.2
      rw [hx, Option.some_or] at this
      exact this
    | mat1 v =>
      simp only [lop] at hop
      split at hop <;> cases hop
    | ind v b j =>
      simp only [lop] at hop
      split at hop
      · cases hop
      · split at hop <;> cases hop
    | _ => simp [lop] at hop
  | @mtch w k l lab n _ hop ih =>
    obtain ⟨ok, kn⟩ := ih
    refine ⟨(ok_lop h ok).2.2.2.2 _ hop, ?_⟩
    cases l with
    | mat v =>
      simp only [lop, LOp.mtch.injEq] at hop
      rw [← hop]
      exact kn
    | mat1 v =>
      simp only [lop] at hop
      split at hop <;> cases hop
    | ind v b j =>
      simp only [lop] at hop
      split at hop
      · cases hop
      · split at hop <;> cases hop
    | _ => simp [lop] at hop
  | @byte w k l lab b l' _ hc hz ih =>
    obtain ⟨ok, kn⟩ := ih
    refine ⟨ok_consume h ok hc, ?_⟩
    cases l with
    | start u =>
      obtain ⟨v, hv, kr, hu⟩ := kn
      simp only [consume] at hc
      split at hc
      · next hb =>
        simp only [Option.some.injEq] at hc
        rw [← hc]
        exact knows_entryLab ok.2 (kr.step hu hb)
      · cases hc
    | tab v =>
      obtain ⟨hv, kr⟩ := kn
      simp only [consume, after] at hc
      split at hc
      · cases hc
      · next t ht =>
        simp only [Option.some.injEq] at hc
        rw [← hc]
        have hp : t ∈ pivot g v b.toNat := by rw [ht]; simp
        rw [mem_pivot] at hp
        exact knows_land (h.edges v hv _ hp.1).2 (kr.step hp.1 hp.2)
      · simp only [Option.some.injEq] at hc
        rw [← hc]
        exact ⟨w, b, rfl, rfl, hv, kr⟩
    | _ => simp [consume] at hc

theorem gaccepts_of_accepts {g : Graph} {P : Program} (h : Compiled g P) {l : Nat} {w : List UInt8}
    (ha : Vm.Accepts P l w) : GAccepts g l w := by
  obtain ⟨k, pc, hr, hop⟩ := ha
  obtain ⟨loc, ok, rfl, lr⟩ := lrun_of_run h hr
  obtain ⟨n, hn⟩ := (op_cases h ok hop).2.2.2.2.1 rfl
  obtain ⟨-, kn⟩ := lrun_sound h.toLive lr
  cases loc with
  | mat v => exact ⟨v, kn.2, ok.2.2⟩
  | mat1 v =>
    simp only [lop] at hn
    split at hn <;> cases hn
  | ind v b j =>
    simp only [lop] at hn
    split at hn
    · cases hn
    · split at hn <;> cases hn
  | _ => simp [lop] at hn

/-! ## Completeness -/

theorem start_zero {g : Graph} (h : Live g) {u : Nat} (hu0 : u ≠ 0) (hu : u < g.n) (hz : start g u = 0) :
    (g.v 0).out = [u] := by
  have hd := start_disjoint h.toWF hu h.pos hu0
  rw [start_root h.toWF] at hd
  have hsz : 0 < size g u := by
    unfold size evalSize
    rw [if_neg hu0]
    have := trans_size_pos (transOf (g.v u).bytes)
    omega
  have hs0 : size g 0 = 0 := by omega
  have hne := h.live 0 h.pos h.rootMatch
  obtain ⟨a, as, ho⟩ := List.exists_cons_of_ne_nil hne
  have hsz0 : outSize g 0 = 0 := by unfold size otherSize at hs0; omega
  unfold outSize at hsz0
  rw [ho] at hsz0
  dsimp only at hsz0
  split at hsz0
  · simp only [tableSize] at hsz0
    omega
  · have hf : follows g 0 a = true := by
      by_contra hf
      rw [if_neg hf] at hsz0
      omega
    have has : as = [] := by
      rw [if_pos hf] at hsz0
      cases as with
      | nil => rfl
      | cons => simp at hsz0
    subst has
    rw [ho]
    have ha := h.edges 0 h.pos a (by rw [ho]; simp)
    have hsa := start_next h.toWF ha.2 h.pos hf
    rw [start_root h.toWF, hs0] at hsa
    have hau : a = u := by
      by_contra hne
      have hd := start_disjoint h.toWF ha.2 hu hne
      have hsz' : 0 < size g a := by
        unfold size evalSize
        rw [if_neg (by omega)]
        have := trans_size_pos (transOf (g.v a).bytes)
        omega
      omega
    rw [hau]

theorem base_pos {g : Graph} {v : Nat} (h0 : v ≠ 0) : 0 < base g v := by
  unfold base evalSize
  rw [if_neg h0]
  have := trans_size_pos (transOf (g.v v).bytes)
  omega

theorem land_ne_zero {g : Graph} (h : Live g) (hz : NoZero g) {v t : Nat} (hv : v < g.n) (hv' : isTable g v = true)
    (hvt : t ∈ (g.v v).out) : addr g (land g t) ≠ 0 := by
  obtain ⟨h0, ht⟩ := h.edges v hv t hvt
  have h0 : t ≠ 0 := by omega
  have hb := base_pos (g := g) h0
  have he := addr_entryLab h ht
  unfold land
  split
  · next u ho =>
    split
    · next hc =>
      have hu := h.edges t ht u (by rw [ho]; simp)
      intro hs
      rcases hz u (start_zero h (by omega) hu.2 hs) v hv hv' t hvt ho with h1 | h1
      · exact h1 hc.1
      · rw [hc.2] at h1; cases h1
    · omega
  · omega

theorem ind_ne_zero {g : Graph} (v b j : Nat) : addr g (.ind v b j) ≠ 0 := by
  simp only [addr]
  omega

theorem consume_ne_zero {g : Graph} (h : Live g) (hz : NoZero g) {b : UInt8} {l l' : Loc} (ok : l.ok g)
    (hc : consume g b l = some l') : addr g l' ≠ 0 := by
  cases l with
  | start u =>
    simp only [consume] at hc
    split at hc
    · simp only [Option.some.injEq] at hc
      rw [← hc, addr_entryLab h ok.2]
      have := base_pos (g := g) (v := u) (by have := ok.1; omega)
      omega
    · cases hc
  | tab v =>
    simp only [consume, after] at hc
    split at hc
    · cases hc
    · next t ht =>
      simp only [Option.some.injEq] at hc
      rw [← hc]
      have hp : t ∈ pivot g v b.toNat := by rw [ht]; simp
      rw [mem_pivot] at hp
      exact land_ne_zero h hz ok.1 ok.2 hp.1
    · simp only [Option.some.injEq] at hc
      rw [← hc]
      exact ind_ne_zero _ _ _
  | _ => simp [consume] at hc

theorem lrun_entryLab {g : Graph} {w k v lab} (hr : LRun g w k (entryLab g v) lab) :
    LRun g w k (entryChk g v) ((g.v v).label.or lab) := by
  unfold entryLab at hr
  split at hr
  · next hn => rw [hn, Option.none_or]; exact hr
  · next hn =>
    obtain ⟨x, hx⟩ := Option.ne_none_iff_exists'.1 hn
    rw [hx, Option.some_or]
    refine hr.label (i := x) ?_
    simp [lop, hx]

theorem lrun_entryChk {g : Graph} {w k v lab} (hr : LRun g w k (entryChk g v) lab) :
    LRun g w k (entryMat g v) lab := by
  unfold entryChk at hr
  split at hr
  · exact hr
  · exact hr.check (i := (check g v).getD 0) rfl

theorem lrun_entryOut {g : Graph} {w k v lab} (hr : LRun g w k (entryMat g v) lab) (ho : (g.v v).out ≠ []) :
    ∃ k, LRun g w k (entryOut g v) lab := by
  unfold entryMat at hr
  split at hr
  · have h1 : LRun g w k (.mat1 v) lab := hr.mtch rfl
    exact ⟨_, h1.fork1 (t := .fin) (by simp [lop, ho])⟩
  · exact ⟨_, hr⟩

theorem lrun_outLoc {g : Graph} {w v lab u us} (ho : (g.v v).out = u :: us) (j : Nat) (hj : j ≤ us.length) :
    ∀ k, LRun g w k (outLoc g v 0) lab → ∃ k, LRun g w k (outLoc g v j) lab := by
  induction j with
  | zero => intro k hr; exact ⟨k, hr⟩
  | succ j ih =>
    intro k hr
    obtain ⟨k', hr'⟩ := ih (by omega) k hr
    have e : outLoc g v j = .out v j := by
      unfold outLoc
      rw [ho]
      dsimp only
      rw [if_pos (by omega)]
    rw [e] at hr'
    exact ⟨_, hr'.fork1 rfl⟩

theorem lrun_start {g : Graph} {w k v lab u} (ht : isTable g v = false) (hu : u ∈ (g.v v).out)
    (hr : LRun g w k (entryOut g v) lab) : ∃ k, LRun g w k (.start u) lab := by
  unfold entryOut at hr
  rw [if_neg (by simp [ht])] at hr
  obtain ⟨a, as, ho⟩ := List.exists_cons_of_ne_nil (List.ne_nil_of_mem hu)
  rw [ho] at hu
  rcases List.mem_cons.1 hu with rfl | hu
  · obtain ⟨k', hr'⟩ := lrun_outLoc ho as.length (Nat.le_refl _) k hr
    unfold outLoc at hr'
    rw [ho] at hr'
    dsimp only at hr'
    rw [if_neg (by omega)] at hr'
    split at hr'
    · exact ⟨_, hr'⟩
    · exact ⟨_, hr'.jump (by simp [lop, ho])⟩
  · have hu' : u ∈ as.reverse := by simpa using hu
    obtain ⟨j, hj, he⟩ := List.getElem_of_mem hu'
    have hj' : j < as.length := by simpa using hj
    obtain ⟨k', hr'⟩ := lrun_outLoc ho j (by omega) k hr
    have e : outLoc g v j = .out v j := by
      unfold outLoc
      rw [ho]
      dsimp only
      rw [if_pos hj']
    rw [e] at hr'
    refine ⟨_, hr'.fork2 (n := outLoc g v (j + 1)) (t := .start u) ?_⟩
    simp only [lop, ho, List.tail_cons, List.getElem?_eq_getElem hj, Option.getD_some, he]

theorem lrun_ind {g : Graph} {w v b lab t ts} (hp : pivot g v b = t :: ts) (j : Nat) (hj : j ≤ ts.length) :
    ∀ k, LRun g w k (.ind v b 0) lab → ∃ k, LRun g w k (.ind v b j) lab := by
  induction j with
  | zero => intro k hr; exact ⟨k, hr⟩
  | succ j ih =>
    intro k hr
    obtain ⟨k', hr'⟩ := ih (by omega) k hr
    refine ⟨_, hr'.fork1 (t := land g (ts.reverse[j]?.getD 0)) ?_⟩
    simp only [lop, hp]
    rw [if_pos (by omega)]

/-- The thread has arrived in the state, or, by the shortcut of jump tables, past it. -/
def Reached (g : Graph) (w : List UInt8) (v : Nat) (lab : Option Nat) : Prop :=
  (∃ k, LRun g w k (entryChk g v) lab) ∨
  ∃ k u, (g.v v).out = [u] ∧ (g.v v).isMatch = false ∧ LRun g w k (.start u) lab

theorem reached_land {g : Graph} {w k v lab} (hr : LRun g w k (land g v) lab) :
    Reached g w v ((g.v v).label.or lab) := by
  unfold land at hr
  split at hr
  · next u ho =>
    split at hr
    · next hc => rw [hc.1, Option.none_or]; exact Or.inr ⟨k, u, ho, hc.2, hr⟩
    · exact Or.inl ⟨k, lrun_entryLab hr⟩
  · exact Or.inl ⟨k, lrun_entryLab hr⟩

theorem reached_step {g : Graph} (h : Live g) (hz : NoZero g) {w v lab u b} (hv : v < g.n)
    (hr : Reached g w v lab) (hu : u ∈ (g.v v).out) (hb : (g.v u).bytes.has b = true) :
    Reached g (w ++ [b]) u ((g.v u).label.or lab) := by
  have hu' := h.edges v hv u hu
  have viaStart : ∀ k, LRun g w k (.start u) lab → Reached g (w ++ [b]) u ((g.v u).label.or lab) := by
    intro k hr
    have hc : consume g b (.start u) = some (entryLab g u) := by simp [consume, hb]
    exact Or.inl ⟨k, lrun_entryLab (hr.byte hc (consume_ne_zero (l := .start u) h hz hu' hc))⟩
  rcases hr with ⟨k, hr⟩ | ⟨k, u', ho, -, hr⟩
  · obtain ⟨k', hr'⟩ := lrun_entryOut (lrun_entryChk hr) (List.ne_nil_of_mem hu)
    cases ht : isTable g v with
    | false =>
      obtain ⟨k'', hr''⟩ := lrun_start ht hu hr'
      exact viaStart k'' hr''
    | true =>
      unfold entryOut at hr'
      rw [if_pos ht] at hr'
      have hp : u ∈ pivot g v b.toNat := (mem_pivot g v _ u).2 ⟨hu, hb⟩
      cases hpv : pivot g v b.toNat with
      | nil => rw [hpv] at hp; simp at hp
      | cons t ts =>
        cases ts with
        | nil =>
          rw [hpv] at hp
          simp only [List.mem_singleton] at hp
          subst hp
          have hc : consume g b (.tab v) = some (land g u) := by simp [consume, after, hpv]
          exact reached_land (hr'.byte hc (consume_ne_zero (l := .tab v) h hz ⟨hv, ht⟩ hc))
        | cons t' ts =>
          have hc : consume g b (.tab v) = some (.ind v b.toNat 0) := by simp [consume, after, hpv]
          have hr0 := hr'.byte hc (consume_ne_zero (l := .tab v) h hz ⟨hv, ht⟩ hc)
          rw [hpv] at hp
          rcases List.mem_cons.1 hp with rfl | hp
          · obtain ⟨k2, hr2⟩ := lrun_ind hpv (t' :: ts).length (Nat.le_refl _) _ hr0
            refine reached_land (hr2.jump ?_)
            simp only [lop, hpv]
            rw [if_neg (by omega)]
          · have hm : u ∈ (t' :: ts).reverse := List.mem_reverse.2 hp
            obtain ⟨j, hj, he⟩ := List.getElem_of_mem hm
            have hj' : j < (t' :: ts).length := by rw [List.length_reverse] at hj; exact hj
            obtain ⟨k2, hr2⟩ := lrun_ind hpv j (by omega) _ hr0
            refine reached_land (hr2.fork2 (n := .ind v b.toNat (j + 1)) ?_)
            simp only [lop, hpv]
            rw [if_pos hj', List.getElem?_eq_getElem hj, Option.getD_some, he]
  · rw [ho] at hu
    simp only [List.mem_singleton] at hu
    subst hu
    exact viaStart k hr

theorem reached_of_grun {g : Graph} (h : Live g) (hz : NoZero g) {w v lab} (hr : GRun g w v lab) :
    v < g.n ∧ Reached g w v lab := by
  induction hr with
  | init =>
    refine ⟨h.pos, Or.inl ⟨[], ?_⟩⟩
    have := lrun_entryLab (LRun.init (g := g))
    rw [h.rootLabel] at this
    exact this
  | step _ hu hb ih => exact ⟨(h.edges _ ih.1 _ hu).2, reached_step h hz ih.1 ih.2 hu hb⟩

theorem accepts_of_gaccepts {g : Graph} {P : Program} (h : Compiled g P) (hz : NoZero g) {l : Nat} {w : List UInt8}
    (ha : GAccepts g l w) : Vm.Accepts P l w := by
  obtain ⟨v, hr, hm⟩ := ha
  obtain ⟨hv, hre⟩ := reached_of_grun h.toLive hz hr
  rcases hre with ⟨k, lr⟩ | ⟨k, u, -, hm', -⟩
  · have lr' := lrun_entryChk lr
    unfold entryMat at lr'
    rw [if_pos hm] at lr'
    obtain ⟨ok, r⟩ := run_of_lrun h lr'
    exact ⟨k, _, r, (lop_spec h ok).1⟩
  · rw [hm] at hm'; cases hm'

/-! ## The theorem -/

theorem compiled_of_createProgram {g : Graph} (h : Live g) {fuel : Nat} {P : Program}
    (hc : createProgram fuel g = some (.ok P)) : Compiled g P ∧ P.maxLabel = maxLabel g ∧ P.maxCheck = maxCheck g := by
  unfold createProgram at hc
  split at hc
  · cases hc
  · next off f _ =>
    split at hc
    · next code hcode =>
      simp only [Option.some.injEq, Out.ok.injEq] at hc
      subst hc
      have henc : ∀ v < g.n, ∃ ws, encodeState g v = some ws := by
        intro v hv
        cases he : encodeState g v with
        | some ws => exact ⟨ws, rfl⟩
        | none =>
          rw [codegen_threw h.toWF ⟨v, hv, he⟩] at hcode
          cases hcode
      obtain ⟨code', c1, c2, c3, c4, c5⟩ := codegen_spec h.toWF henc
      rw [hcode] at c1
      simp only [Out.ok.injEq] at c1
      subst c1
      exact ⟨⟨h, c3, c4, c5, c2⟩, rfl, rfl⟩
    · cases hc
    · cases hc

/-- **C12.** For every automaton (of the kind described by `Live` and `NoZero`) and
every string of bytes: the compiled program has a run that reads exactly the string
and arrives at Match carrying a label iff the automaton accepts the string with that
label. -/
theorem compiled_language_partial {g : Graph} (h : Live g) (hz : NoZero g) {fuel : Nat} {P : Program}
    (hc : createProgram fuel g = some (.ok P)) (l : Nat) (w : List UInt8) :
    Vm.Accepts P l w ↔ GAccepts g l w :=
  ⟨gaccepts_of_accepts (compiled_of_createProgram h hc).1,
    accepts_of_gaccepts (compiled_of_createProgram h hc).1 hz⟩

/-- Without `NoZero` nothing wrong is accepted. -/
theorem compiled_sound {g : Graph} (h : Live g) {fuel : Nat} {P : Program}
    (hc : createProgram fuel g = some (.ok P)) (l : Nat) (w : List UInt8) :
    Vm.Accepts P l w → GAccepts g l w :=
  gaccepts_of_accepts (compiled_of_createProgram h hc).1

/-! ## Examples -/

theorem sample_live : Live sample where
  toWF := sample_wf
  live := by decide

theorem sample_noZero : NoZero sample := by
  intro u h
  simp [sample, sampleVertex] at h

theorem sample_accepts : GAccepts sample 0 [97, 98, 100, 102, 100] := by
  have h0 := GRun.init (g := sample)
  have h1 := h0.step (u := 1) (b := 97) (by decide) (by decide +kernel)
  have h2 := h1.step (u := 2) (b := 98) (by decide) (by decide +kernel)
  have h3 := h2.step (u := 6) (b := 100) (by decide) (by decide +kernel)
  have h4 := h3.step (u := 5) (b := 102) (by decide) (by decide +kernel)
  have h5 := h4.step (u := 6) (b := 100) (by decide) (by decide +kernel)
  exact ⟨6, h5, rfl⟩

example : ∃ fuel P, createProgram fuel sample = some (.ok P) ∧ Vm.Accepts P 0 [97, 98, 100, 102, 100] := by
  obtain ⟨code, hc, -⟩ := layout_consistent_partial sample_wf (encodes_of_small sample_wf (by decide) (by decide))
  obtain ⟨F, hF⟩ := BestPair.filter_found sample (by decide) (by decide) rfl [100]
    ⟨6, by decide, 6, .one (by decide +kernel), rfl⟩
  obtain ⟨r, hr⟩ := hF F (Nat.le_refl _)
  have hP : ∃ P, createProgram F sample = some (.ok P) := by
    unfold createProgram
    rw [hr, hc]
    exact ⟨_, rfl⟩
  obtain ⟨P, hP⟩ := hP
  exact ⟨F, P, hP, (compiled_language_partial sample_live sample_noZero hP _ _).2 sample_accepts⟩

/-- The automaton of `(a([bB]|c|d))*ae`, determinized: the initial state has the single
successor 1, which three states lead back to. -/
def loopVertex : Nat → Vertex
  | 0 => { out := [1] }
  | 1 => { bytes := BSet.single 97, out := [2, 3, 4, 5], inn := [0, 2, 3, 4] }
  | 2 => { bytes := BSet.single 98 ||| BSet.single 66, out := [1], inn := [1] }
  | 3 => { bytes := BSet.single 99, out := [1], inn := [1] }
  | 4 => { bytes := BSet.single 100, out := [1], inn := [1] }
  | 5 => { bytes := BSet.single 101, inn := [1], isMatch := true, label := some 0 }
  | _ => {}

@[inherit_doc loopVertex] def loopGraph : Graph := { n := 6, v := loopVertex }

theorem loop_live : Live loopGraph where
  pos := by decide
  edges := by decide
  nodup := by decide
  bytes := by
    have h : ∀ v < 6, v ≠ 0 → (loopVertex v).bytes.getLsbD
        (match v with | 1 => 97 | 2 => 98 | 3 => 99 | 4 => 100 | _ => 101) = true := by
      decide +kernel
    intro v hv h0
    refine ⟨_, ?_, h v hv h0⟩
    split <;> decide
  reach := by
    have w0 : BestPair.Walk loopGraph 0 0 := .zero
    have w1 : BestPair.Walk loopGraph 1 1 := w0.step (by decide)
    intro v hv
    have hv' : v < 6 := hv
    match v, hv' with
    | 0, _ => exact ⟨_, w0⟩
    | 1, _ => exact ⟨_, w1⟩
    | 2, _ => exact ⟨2, w1.step (by decide)⟩
    | 3, _ => exact ⟨2, w1.step (by decide)⟩
    | 4, _ => exact ⟨2, w1.step (by decide)⟩
    | 5, _ => exact ⟨2, w1.step (by decide)⟩
  rootLabel := rfl
  rootMatch := rfl
  rootIn := rfl
  live := by decide

theorem loop_runs {w k l lab} (h : LRun loopGraph w k l lab) :
    (l = .start 1 ∧ w.length = 0) ∨ (l = .chk 1 ∧ w.length = 1) ∨ (l = .tab 1 ∧ w.length = 1) ∨
    (l = .lab 5 ∧ w.length = 2) ∨ (l = .mat 5 ∧ w.length = 2) ∨ (l = .mat1 5 ∧ w.length = 2) := by
  have e0 : entryLab loopGraph 0 = .start 1 := by decide +kernel
  have o1 : lop loopGraph (.start 1) = .read 1 := rfl
  have o2 : lop loopGraph (.chk 1) = .check 1 (.tab 1) := by decide +kernel
  have o3 : lop loopGraph (.tab 1) = .table 1 := rfl
  have o4 : lop loopGraph (.lab 5) = .label 0 (.mat 5) := by decide +kernel
  have o5 : lop loopGraph (.mat 5) = .mtch (.mat1 5) := rfl
  have o6 : lop loopGraph (.mat1 5) = .finish := by decide +kernel
  have e1 : entryLab loopGraph 1 = .chk 1 := by decide +kernel
  have ea : addr loopGraph (.start 1) = 0 := by decide +kernel
  have et : ∀ b < 256, after loopGraph 1 b = none ∨ after loopGraph 1 b = some (.start 1) ∨
      after loopGraph 1 b = some (.lab 5) := by decide +kernel
  induction h with
  | init => rw [e0]; simp
  | fork1 _ hop ih => rcases ih with ⟨rfl, _⟩ | ⟨rfl, _⟩ | ⟨rfl, _⟩ | ⟨rfl, _⟩ | ⟨rfl, _⟩ | ⟨rfl, _⟩ <;> simp_all
  | fork2 _ hop ih => rcases ih with ⟨rfl, _⟩ | ⟨rfl, _⟩ | ⟨rfl, _⟩ | ⟨rfl, _⟩ | ⟨rfl, _⟩ | ⟨rfl, _⟩ <;> simp_all
  | jump _ hop ih => rcases ih with ⟨rfl, _⟩ | ⟨rfl, _⟩ | ⟨rfl, _⟩ | ⟨rfl, _⟩ | ⟨rfl, _⟩ | ⟨rfl, _⟩ <;> simp_all
  | check _ hop ih =>
    rcases ih with ⟨rfl, _⟩ | ⟨rfl, _⟩ | ⟨rfl, _⟩ | ⟨rfl, _⟩ | ⟨rfl, _⟩ | ⟨rfl, _⟩ <;> simp_all
  | label _ hop ih =>
    rcases ih with ⟨rfl, _⟩ | ⟨rfl, _⟩ | ⟨rfl, _⟩ | ⟨rfl, _⟩ | ⟨rfl, _⟩ | ⟨rfl, _⟩ <;> simp_all
  | mtch _ hop ih =>
    rcases ih with ⟨rfl, _⟩ | ⟨rfl, _⟩ | ⟨rfl, _⟩ | ⟨rfl, _⟩ | ⟨rfl, _⟩ | ⟨rfl, _⟩ <;> simp_all
  | byte _ hc hz ih =>
    rename_i b l' _
    rcases ih with ⟨rfl, hl⟩ | ⟨rfl, _⟩ | ⟨rfl, hl⟩ | ⟨rfl, _⟩ | ⟨rfl, _⟩ | ⟨rfl, _⟩
    · simp only [consume] at hc
      split at hc
      · rw [e1] at hc
        simp only [Option.some.injEq] at hc
        subst hc
        right; left
        exact ⟨rfl, by simp [hl]⟩
      · cases hc
    · simp [consume] at hc
    · simp only [consume] at hc
      rcases et b.toNat b.toNat_lt with e | e | e
      · rw [e] at hc; cases hc
      · rw [e] at hc
        simp only [Option.some.injEq] at hc
        subst hc
        exact absurd ea hz
      · rw [e] at hc
        simp only [Option.some.injEq] at hc
        subst hc
        right; right; right; left
        exact ⟨rfl, by simp [hl]⟩
    · simp [consume] at hc
    · simp [consume] at hc
    · simp [consume] at hc

/-- Without `NoZero` matches are lost: the address of the state after the initial one is
0, which in a jump table means "no transition". -/
theorem zero_landing_loses_match : GAccepts loopGraph 0 [97, 98, 97, 101] ∧
    ∀ fuel P, createProgram fuel loopGraph = some (.ok P) → ¬ Vm.Accepts P 0 [97, 98, 97, 101] := by
  constructor
  · have h0 := GRun.init (g := loopGraph)
    have h1 := h0.step (u := 1) (b := 97) (by decide) (by decide +kernel)
    have h2 := h1.step (u := 2) (b := 98) (by decide) (by decide +kernel)
    have h3 := h2.step (u := 1) (b := 97) (by decide) (by decide +kernel)
    have h4 := h3.step (u := 5) (b := 101) (by decide) (by decide +kernel)
    exact ⟨5, h4, rfl⟩
  · rintro fuel P hP ⟨k, pc, hr, -⟩
    obtain ⟨l, -, -, lr⟩ := lrun_of_run (compiled_of_createProgram loop_live hP).1 hr
    have := loop_runs lr
    simp at this

end Verif.Compiler
