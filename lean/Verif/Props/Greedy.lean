import Verif.Props.CompiledSafe
import Verif.Props.BestPair
import Verif.VmGreedy
/-!
# C04, C09 and C52: what a search reports

For a program compiled from an automaton, the hits of every keyword are found from left
to right: each starts at the first offset, not before the end of the previous hit, at
which the automaton matches, and no match starting after the last hit is left.  The
hits of a keyword therefore depend on the bytes searched only, not on how they were
divided into buffers.
-/
namespace Verif.Compiler
open Verif.Nfa Verif.Transition Verif.Vm

/-! ## Specification -/

/-- The labels of the automaton guard the keywords: on every way through the automaton
the label does not change once set, the label carried in a state does not depend on the
way taken to it, and a match state carries a label. -/
structure Guards (g : Graph) : Prop where
  once : ∀ {w v lab u x}, GRun g w v lab → u ∈ (g.v v).out → (g.v u).label = some x → lab = none ∨ lab = some x
  same : ∀ {w v lab w' lab'}, GRun g w v lab → GRun g w' v lab' → lab = lab'
  labelled : Labelled g

/-- `acc s e`: there is a match from `s` to `e`.  The list is the non-overlapping
matches from `m` on, each at the leftmost possible start, until no match is left. -/
def Leftmost (acc : Nat → Nat → Prop) : Nat → List (Nat × Nat) → Prop
  | m, [] => ∀ s e, acc s e → s < m
  | m, (s, e) :: hs => acc s e ∧ m ≤ s ∧ (∀ s' e', acc s' e' → m ≤ s' → s ≤ s') ∧ Leftmost acc e hs

/-- The automaton matches, for keyword `l`, the bytes of the stream `buf` (starting at
offset `off`) from `s` to `e`. -/
def MatchAt (g : Graph) (off : Nat) (buf : List UInt8) (l s e : Nat) : Prop :=
  off ≤ s ∧ s < e ∧ e ≤ off + buf.length ∧ GAccepts g l ((buf.drop (s - off)).take (e - s))

/-! ## The conditions of the VM theorems -/

theorem fin_knows {g : Graph} (h : Live g) {w k l lab} (hr : LRun g w k l lab) :
    l = .fin → ∃ v, GRun g w v lab ∧ (g.v v).isMatch = true := by
  induction hr with
  | init => intro e; exact (ne_fin (before_entryLab g 0) e).elim
  | fork1 _ hop ih => intro e; exact ((fork_ne_fin hop).1 e).elim
  | fork2 hr hop ih =>
    intro e
    obtain ⟨v, rfl⟩ := (fork_ne_fin hop).2 e
    obtain ⟨ok, kn⟩ := lrun_sound h hr
    exact ⟨v, kn.2, ok.2.2⟩
  | jump _ hop ih => intro e; exact (ne_fin (before_jump hop) e).elim
  | check _ hop ih =>
    intro e
    obtain ⟨v, -, -, rfl⟩ := lop_chk hop
    exact (ne_fin (before_entryMat g v) e).elim
  | label _ hop ih =>
    intro e
    obtain ⟨v, -, -, rfl⟩ := lop_lab hop
    exact (ne_fin (before_entryChk g v) e).elim
  | mtch _ hop ih =>
    intro e
    obtain ⟨v, -, rfl⟩ := lop_mat hop
    cases e
  | byte _ hc _ ih => intro e; exact (ne_fin (before_consume hc) e).elim

theorem run_acc {P : Program} {l pc : Nat} {lab w k} (h : AccFrom P l pc lab w k) :
    ∀ {w0 k0}, Run P w0 k0 pc lab → ∃ pc', Run P (w0 ++ w) (k0 ++ k) pc' (some l) ∧ opAt P pc' = some .finish := by
  induction h with
  | finish ho => intro w0 k0 hr; exact ⟨_, by simpa using hr, ho⟩
  | fork1 ho _ ih => intro w0 k0 hr; simpa using ih (hr.fork1 ho)
  | fork2 ho ha _ ih => intro w0 k0 hr; simpa using ih (hr.fork2 ho ha)
  | jump ho ha _ ih => intro _ _ hr; exact ih (hr.jump ho ha)
  | check ho _ ih => intro _ _ hr; exact ih (hr.check ho)
  | label ho _ ih => intro _ _ hr; exact ih (hr.label ho)
  | «match» ho _ ih => intro _ _ hr; exact ih (hr.match ho)
  | byte hc _ ih => intro w0 k0 hr; simpa using ih (hr.byte hc)

theorem acc_run {P : Program} {l pc : Nat} {lab w0 k0} (h : Run P w0 k0 pc lab) :
    ∀ {w k}, AccFrom P l pc lab w k → AccFrom P l 0 none (w0 ++ w) (k0 ++ k) := by
  induction h with
  | init => intro w k h; exact h
  | fork1 _ ho ih => intro w k h; simpa using ih (.fork1 ho h)
  | fork2 _ ho ha ih => intro w k h; simpa using ih (.fork2 ho ha h)
  | jump _ ho ha ih => intro w k h; exact ih (.jump ho ha h)
  | check _ ho ih => intro w k h; exact ih (.check ho h)
  | label _ ho ih => intro w k h; exact ih (.label ho h)
  | «match» _ ho ih => intro w k h; exact ih (.match ho h)
  | byte _ hc ih => intro w k h; simpa using ih (.byte hc h)

theorem gaccepts_of_acc {g : Graph} {P : Program} (h : Compiled g P) {l : Nat} {w κ} (ha : AccFrom P l 0 none w κ) :
    GAccepts g l w := by
  obtain ⟨pc, hr, ho⟩ := run_acc ha .init
  obtain ⟨loc, ok, rfl, lr⟩ := lrun_of_run h hr
  rcases lop_fin ((op_cases h ok ho).2.2.2.2.2.1 rfl) with rfl | ⟨v, rfl, -⟩
  · exact fin_knows h.toLive lr rfl
  · exact ⟨v, (lrun_sound h.toLive lr).2.2, ok.2.2⟩

theorem acc_of_gaccepts {g : Graph} {P : Program} (h : Compiled g P) (hz : NoZero g) {l : Nat} {w}
    (ha : GAccepts g l w) : ∃ κ, AccFrom P l 0 none w κ := by
  obtain ⟨k, pc, hr, ho⟩ := accepts_of_gaccepts h hz ha
  obtain ⟨loc, ok, rfl, lr⟩ := lrun_of_run h hr
  obtain ⟨n, hn⟩ := (op_cases h ok ho).2.2.2.2.1 rfl
  have hs := lop_spec h ok
  rw [hn] at hs
  obtain ⟨v, rfl, rfl⟩ := lop_mat hn
  have hr1 := hr.match ho
  have ok1 : Loc.ok g (.mat1 v) := ok
  have hs1 := lop_spec h ok1
  rw [← hs.2] at hr1
  simp only [lop] at hs1
  split at hs1
  · exact ⟨_, by simpa using acc_run hr1 (.finish hs1)⟩
  · exact ⟨_, by simpa using acc_run hr1 (.fork2 hs1.1 hs1.2.1 (.finish (op_fin h)))⟩

/-- A thread about to execute a Label instruction is unlabelled, or labelled so already. -/
theorem lab_knows {g : Graph} (h : Live g) (hG : Guards g) {w k l lab} (hr : LRun g w k l lab) :
    ∀ v, l = .lab v → lab = none ∨ lab = (g.v v).label := by
  have hentry : ∀ {w lab v u} (v' : Nat), GRun g w v lab → u ∈ (g.v v).out → entryLab g u = .lab v' →
      lab = none ∨ lab = (g.v v').label := by
    intro w lab v u v' hg hu he
    unfold entryLab at he
    split at he
    · exfalso
      unfold entryChk entryMat entryOut at he
      split at he
      · split at he
        · cases he
        · split at he
          · cases he
          · unfold outLoc at he
            split at he
            · cases he
            · split at he
              · cases he
              · split at he <;> cases he
      · cases he
    · next hn =>
      cases he
      obtain ⟨x, hx⟩ := Option.ne_none_iff_exists'.1 hn
      rw [hx]
      exact hG.once hg hu hx
  have hland : ∀ {w lab v u} (v' : Nat), GRun g w v lab → u ∈ (g.v v).out → land g u = .lab v' →
      lab = none ∨ lab = (g.v v').label := by
    intro w lab v u v' hg hu he
    unfold land at he
    split at he
    · split at he
      · cases he
      · exact hentry v' hg hu he
    · exact hentry v' hg hu he
  have hOutLoc : ∀ v j v', outLoc g v j ≠ .lab v' := by
    intro v j v' he
    unfold outLoc at he
    split at he
    · cases he
    · split at he
      · cases he
      · split at he <;> cases he
  have hOut : ∀ v v', entryOut g v ≠ .lab v' := by
    intro v v' he
    unfold entryOut at he
    split at he
    · cases he
    · exact hOutLoc _ _ _ he
  have hMat : ∀ v v', entryMat g v ≠ .lab v' := by
    intro v v' he
    unfold entryMat at he
    split at he
    · cases he
    · exact hOut _ _ he
  have hChk : ∀ v v', entryChk g v ≠ .lab v' := by
    intro v v' he
    unfold entryChk at he
    split at he
    · exact hMat _ _ he
    · cases he
  cases hr with
  | init => intro v _; exact Or.inl rfl
  | @fork1 w k l lab n t hr hop =>
    intro v' e
    subst e
    cases l with
    | mat1 v =>
      simp only [lop] at hop
      split at hop
      · cases hop
      · simp only [LOp.fork.injEq] at hop
        exact (hOut _ _ hop.1).elim
    | out v j =>
      simp only [lop, LOp.fork.injEq] at hop
      exact (hOutLoc _ _ _ hop.1).elim
    | ind v b j =>
      simp only [lop] at hop
      split at hop
      · cases hop
      · split at hop
        · simp only [LOp.fork.injEq] at hop
          cases hop.1
        · cases hop
    | _ => simp [lop] at hop
  | @fork2 w k l lab n t hr hop =>
    intro v' e
    subst e
    obtain ⟨ok, kn⟩ := lrun_sound h hr
    cases l with
    | mat1 v =>
      simp only [lop] at hop
      split at hop
      · cases hop
      · simp at hop
    | out v j => simp [lop] at hop
    | ind v b j =>
      obtain ⟨w0, c, rfl, hc, hv', kr⟩ := kn
      simp only [lop] at hop
      split at hop
      · cases hop
      · next t' ts he =>
        split at hop
        · next hlt =>
          simp only [LOp.fork.injEq] at hop
          have hj' : j < ts.reverse.length := by simpa using hlt
          rw [List.getElem?_eq_getElem hj', Option.getD_some] at hop
          have := List.getElem_mem hj'
          rw [List.mem_reverse] at this
          have hp : ts.reverse[j] ∈ pivot g v b := by rw [he]; exact List.mem_cons_of_mem _ this
          rw [mem_pivot] at hp
          exact hland v' kr hp.1 hop.2
        · cases hop
    | _ => simp [lop] at hop
  | @jump w k l lab t hr hop =>
    intro v' e
    subst e
    obtain ⟨ok, kn⟩ := lrun_sound h hr
    cases l with
    | mat1 v =>
      simp only [lop] at hop
      split at hop <;> cases hop
    | last v => simp [lop] at hop
    | ind v b j =>
      obtain ⟨w0, c, rfl, hc, hv', kr⟩ := kn
      simp only [lop] at hop
      split at hop
      · cases hop
      · next t' ts he =>
        split at hop
        · cases hop
        · simp only [LOp.jump.injEq] at hop
          have hp : t' ∈ pivot g v b := by rw [he]; simp
          rw [mem_pivot] at hp
          exact hland v' kr hp.1 hop
    | _ => simp [lop] at hop
  | check hr hop =>
    intro v' e
    subst e
    obtain ⟨v, -, -, e⟩ := lop_chk hop
    exact (hMat _ _ e.symm).elim
  | label hr hop =>
    intro v' e
    subst e
    obtain ⟨v, -, -, e⟩ := lop_lab hop
    exact (hChk _ _ e.symm).elim
  | mtch hr hop =>
    intro v' e
    subst e
    obtain ⟨v, -, e⟩ := lop_mat hop
    cases e
  | @byte w k l lab b l' hr hc hz =>
    intro v' e
    subst e
    obtain ⟨ok, kn⟩ := lrun_sound h hr
    cases l with
    | start u =>
      obtain ⟨v, hv, kr, hu⟩ := kn
      simp only [consume] at hc
      split at hc
      · simp only [Option.some.injEq] at hc
        exact hentry v' kr hu hc
      · cases hc
    | tab v =>
      obtain ⟨hv, kr⟩ := kn
      simp only [consume, after] at hc
      split at hc
      · cases hc
      · next t ht =>
        simp only [Option.some.injEq] at hc
        have hp : t ∈ pivot g v b.toNat := by rw [ht]; simp
        rw [mem_pivot] at hp
        exact hland v' kr hp.1 hc
      · simp at hc
    | _ => simp [consume] at hc

theorem chk_of_op {g : Graph} {P : Program} (h : Compiled g P) {l : Loc} (ok : l.ok g) {i : Nat}
    (ho : opAt P (addr g l) = some (.checkHalt i)) : ∃ v, l = .chk v ∧ check g v = some i := by
  obtain ⟨n, hl⟩ := (op_cases h ok ho).2.2.1 _ rfl
  obtain ⟨v, rfl, hi, -⟩ := lop_chk hl
  refine ⟨v, rfl, ?_⟩
  obtain ⟨x, hx⟩ := Option.ne_none_iff_exists'.1 ok.2.2
  rw [hx, Option.getD_some] at hi
  rw [hx, hi]

theorem compiled_ordered {g : Graph} {P : Program} (h : Compiled g P) (hG : Guards g)
    (h1 : P.maxLabel = maxLabel g) (h2 : P.maxCheck = maxCheck g) :
    Ordered P (Before g) (After g) (Kc g) (2 * g.n + 8) where
  guarded := compiled_guarded h
  finishing := compiled_finishing h
  bounded := compiled_bounded h hG.labelled h1 h2
  label1 := by
    intro w k pc lab i hr ho
    obtain ⟨l, ok, rfl, lr⟩ := lrun_of_run h hr
    obtain ⟨n, hl⟩ := (op_cases h ok ho).2.2.2.1 _ rfl
    obtain ⟨v, rfl, hi, -⟩ := lop_lab hl
    obtain ⟨x, hx⟩ := Option.ne_none_iff_exists'.1 ok.2.2
    have := lab_knows h.toLive hG lr v rfl
    rw [hx, Option.getD_some] at hi
    rw [hx, ← hi] at this
    exact this
  check1 := by
    intro w k pc lab w' k' pc' lab' i hr hr' ho ho'
    obtain ⟨l, ok, rfl, lr⟩ := lrun_of_run h hr
    obtain ⟨l', ok', rfl, lr'⟩ := lrun_of_run h hr'
    obtain ⟨v, rfl, hv⟩ := chk_of_op h ok ho
    obtain ⟨v', rfl, hv'⟩ := chk_of_op h ok' ho'
    obtain rfl := check_inj hv hv'
    exact ⟨rfl, hG.same (lrun_sound h.toLive lr).2.2 (lrun_sound h.toLive lr').2.2⟩
  rank1 := by
    rintro pc lab m m' i ⟨-, l, ok, rfl, rfl, -⟩ ⟨-, l', ok', e, rfl, -⟩ ho
    have ho' := ho
    rw [← e] at ho'
    obtain ⟨v, rfl, hv⟩ := chk_of_op h ok ho
    obtain ⟨v', rfl, hv'⟩ := chk_of_op h ok' ho'
    rw [check_inj hv hv']

theorem compiled_starts {g : Graph} {P : Program} (h : Compiled g P) :
    Starts P (Before g) (fun pc => ∃ l, l.ok g ∧ l.initial ∧ addr g l = pc) where
  zero := ⟨_, ok_entryLab h.toLive h.pos, initial_root h.toLive, addr_root h.toLive⟩
  sub := by
    rintro pc ⟨l, ok, hi, rfl⟩
    refine ⟨l, ok, ?_, rfl⟩
    cases l <;> trivial
  ops := by
    rintro pc ⟨l, ok, hi, rfl⟩
    refine ⟨?_, ?_, ?_, ?_⟩
    · intro hop
      obtain ⟨n, hl⟩ := (op_cases h ok hop).2.2.2.2.1 rfl
      obtain ⟨v, rfl, -⟩ := lop_mat hl
      exact hi
    · intro i hop
      obtain ⟨n, hl⟩ := (op_cases h ok hop).2.2.2.1 _ rfl
      obtain ⟨v, rfl, -⟩ := lop_lab hl
      exact hi
    · intro i hop
      obtain ⟨v, rfl, -⟩ := chk_of_op h ok hop
      exact hi
    · intro hop
      rcases lop_fin ((op_cases h ok hop).2.2.2.2.2.1 rfl) with rfl | ⟨v, rfl, -⟩
      · exact hi
      · exact hi
  fork := by
    rintro pc ⟨l, ok, hi, rfl⟩ hop
    obtain ⟨n, t, hl⟩ := (op_cases h ok hop).1 rfl
    have hs := lop_spec h ok
    rw [hl] at hs
    obtain ⟨k1, k2⟩ := (ok_lop h.toLive ok).1 _ _ hl
    have hin : n.initial ∧ t.initial := by
      cases l with
      | out v j =>
        cases v with
        | zero =>
          simp only [lop, LOp.fork.injEq] at hl
          rw [← hl.1, ← hl.2]
          exact ⟨initial_outLoc h.toLive _, trivial⟩
        | succ => exact hi.elim
      | start => simp [lop] at hl
      | tab v => simp [lop] at hl
      | last v => simp [lop] at hl
      | _ => exact hi.elim
    refine ⟨⟨n, k1, hin.1, hs.2.2⟩, fun a ha => ?_⟩
    rw [hs.2.1] at ha
    exact ⟨t, k2, hin.2, Option.some.inj ha⟩
  jump := by
    rintro pc a ⟨l, ok, hi, rfl⟩ hop ha
    obtain ⟨t, hl⟩ := (op_cases h ok hop).2.1 rfl
    have hs := lop_spec h ok
    rw [hl] at hs
    rw [hs.2] at ha
    refine ⟨t, (ok_lop h.toLive ok).2.1 _ hl, ?_, Option.some.inj ha⟩
    cases l with
    | last v =>
      simp only [lop, LOp.jump.injEq] at hl
      rw [← hl]
      trivial
    | start => simp [lop] at hl
    | tab v => simp [lop] at hl
    | out v j => simp [lop] at hl
    | _ => exact hi.elim

theorem path_snoc {g : Graph} {v w t} (h : Path g v w t) {u : Nat} {b : UInt8} (hu : u ∈ (g.v t).out)
    (hb : (g.v u).bytes.has b = true) : Path g v (w ++ [b]) u := by
  induction h with
  | one h1 => exact .cons h1 hu (.one hb)
  | cons h1 h2 _ ih => exact .cons h1 h2 (ih hu)

theorem path_of_grun {g : Graph} {w v lab} (h : GRun g w v lab) :
    (w = [] ∧ v = 0) ∨ ∃ u ∈ (g.v 0).out, Path g u w v := by
  induction h with
  | init => exact Or.inl ⟨rfl, rfl⟩
  | step _ hu hb ih =>
    right
    rcases ih with ⟨rfl, rfl⟩ | ⟨u', h1, h2⟩
    · exact ⟨_, hu, .one hb⟩
    · exact ⟨u', h1, path_snoc h2 hu hb⟩

theorem matches_of_gaccepts {g : Graph} {l w} (h : GAccepts g l w) (hw : w ≠ []) : Matches g w := by
  obtain ⟨v, hr, hm⟩ := h
  rcases path_of_grun hr with ⟨rfl, -⟩ | ⟨u, hu, hp⟩
  · exact (hw rfl).elim
  · exact ⟨u, hu, v, hp, hm⟩

theorem compiled_filters {g : Graph} (hg : Live g) {fuel' : Nat} {P : Program}
    (hc : createProgram fuel' g = some (.ok P)) : Filters P := by
  intro l w κ rest hA hw hr hp
  have hM := matches_of_gaccepts (gaccepts_of_acc (compiled_of_createProgram hg hc).1 hA) hw
  unfold createProgram at hc
  split at hc
  · cases hc
  · next off f hb =>
    split at hc
    · next code hcode =>
      simp only [Option.some.injEq, Out.ok.injEq] at hc
      subst hc
      unfold spawnHere
      split
      · next hlt =>
        dsimp only at hlt
        have h0 : off < rest.length := by omega
        simp only [List.getElem?_eq_getElem h0, List.getElem?_eq_getElem hlt]
        have e1 : ∀ x y : UInt8, UInt8.ofNat ((x.toNat + 256 * y.toNat) % 256) = x := by
          intro x y
          have := x.toNat_lt
          rw [show (x.toNat + 256 * y.toNat) % 256 = x.toNat by omega, UInt8.ofNat_toNat]
        have e2 : ∀ x y : UInt8, UInt8.ofNat ((x.toNat + 256 * y.toNat) / 256) = y := by
          intro x y
          have := x.toNat_lt
          rw [show (x.toNat + 256 * y.toNat) / 256 = y.toNat by omega, UInt8.ofNat_toNat]
        have e3 : ∀ x y : UInt8, decide (x.toNat + 256 * y.toNat < 65536) = true := by
          intro x y
          have := x.toNat_lt
          have := y.toNat_lt
          simp only [decide_eq_true_eq]; omega
        rw [e1, e2, e3, Bool.true_and]
        rcases hp with ⟨tl, rfl⟩ | ⟨tl, rfl⟩
        · exact BestPair.filter_never_rejects g fuel' off f hb w tl hM _ _
            (List.getElem?_eq_getElem h0) (List.getElem?_eq_getElem hlt)
        · refine BestPair.filter_never_rejects g fuel' off f hb (rest ++ tl) [] hM _ _ ?_ ?_
          · rw [List.append_nil, List.getElem?_append_left h0, List.getElem?_eq_getElem h0]
          · rw [List.append_nil, List.getElem?_append_left hlt, List.getElem?_eq_getElem hlt]
      · rfl
    · cases hc
    · cases hc

/-! ## The stream -/

/-- The bytes of a buffer as a stream. -/
def streamOf (off : Nat) (buf : List UInt8) (i : Nat) : UInt8 := buf.getD (i - off) 0

theorem holds_streamOf (off : Nat) (buf : List UInt8) : Vm.Holds (streamOf off buf) off buf := by
  intro i hi
  unfold streamOf
  rw [show off + i - off = i by omega, List.getD_eq_getElem?_getD, List.getElem?_eq_getElem hi]
  rfl

theorem seg_streamOf {off s e : Nat} {buf : List UInt8} (h1 : off ≤ s) (h2 : e ≤ off + buf.length) :
    seg (streamOf off buf) s e = (buf.drop (s - off)).take (e - s) := by
  apply List.ext_getElem
  · simp [seg]; omega
  · intro i hi hi'
    rw [seg_length] at hi
    simp only [seg, List.getElem_map, List.getElem_range, streamOf, List.getElem_take, List.getElem_drop]
    rw [List.getD_eq_getElem?_getD, List.getElem?_eq_getElem (by omega)]
    simp only [Option.getD_some]
    congr 1
    omega

theorem leftmost_of_greedy {g : Graph} {P : Program} (h : Compiled g P) (hz : NoZero g) {off : Nat}
    {buf : List UInt8} {l m : Nat} {hs : List (Nat × Nat)}
    (hG : Greedy P (streamOf off buf) off (off + buf.length) l m hs) : Leftmost (MatchAt g off buf l) m hs := by
  have conv : ∀ {s e}, MatchAt g off buf l s e → ∃ κ, AccR P (streamOf off buf) off (off + buf.length) l s κ e := by
    rintro s e ⟨a, b, c, d⟩
    obtain ⟨κ, hκ⟩ := acc_of_gaccepts h hz d
    exact ⟨κ, a, b, c, by rw [seg_streamOf a c]; exact hκ⟩
  have conv' : ∀ {s κ e}, AccR P (streamOf off buf) off (off + buf.length) l s κ e → MatchAt g off buf l s e := by
    rintro s κ e ⟨a, b, c, d⟩
    rw [seg_streamOf a c] at d
    exact ⟨a, b, c, gaccepts_of_acc h d⟩
  induction hG with
  | done hd =>
    intro s e ha
    obtain ⟨κ, hκ⟩ := conv ha
    have := hd s κ e hκ
    omega
  | hit hb _ ih =>
    refine ⟨conv' hb.1, hb.2.1, fun s' e' ha hm => ?_, ih⟩
    obtain ⟨κ, hκ⟩ := conv ha
    have := hb.2.2 _ _ _ hκ hm
    by_contra hlt
    exact this (Or.inl (by dsimp only; omega))

/-! ## The theorems -/

theorem compiled_greedy {g : Graph} (hg : Live g) (hG : Guards g) {fuel' : Nat} {P : Program}
    (hc : createProgram fuel' g = some (.ok P)) {fuel : Nat} {first : List Thread} {σ₀ : St}
    (hnew : create P fuel = .ok (first, σ₀)) {off : Nat} {bufs : List (List UInt8)} {rs : List (Option Nat)} {σ : St}
    (hrun : run P first fuel (searches off bufs) σ₀ = .ok (rs, σ)) {l : Nat} (hl : l ≤ P.maxLabel) :
    Greedy P (streamOf off bufs.flatten) off (off + bufs.flatten.length) l 0 (hitsOf l σ.log) := by
  obtain ⟨hC, h1, h2⟩ := compiled_of_createProgram hg hc
  exact greedy_search (compiled_ordered hC hG h1 h2) (compiled_starts hC) (compiled_filters hg hc) hnew
    (holds_streamOf off bufs.flatten) hrun hl

/-- The searches of C04, C09 and C52 do end. -/
theorem searches_end {g : Graph} (hg : Live g) (hG : Guards g) {fuel' : Nat} {P : Program}
    (hc : createProgram fuel' g = some (.ok P)) {fuel : Nat} (hf : 2 * g.n + 9 ≤ fuel) (off : Nat)
    (bufs : List (List UInt8)) : ∃ first σ₀ rs σ, create P fuel = .ok (first, σ₀) ∧
      run P first fuel (searches off bufs) σ₀ = .ok (rs, σ) :=
  compiled_never_out_of_bounds hg hG.labelled hc hf _

theorem label_of_grun {g : Graph} (h : Live g) {w v lab} (hr : GRun g w v lab) :
    v < g.n ∧ ∀ l, lab = some l → l ≤ maxLabel g := by
  induction hr with
  | init => exact ⟨h.pos, fun l e => by cases e⟩
  | @step w v lab u b _ hu hb ih =>
    have hu' := (h.edges _ ih.1 _ hu).2
    refine ⟨hu', fun l e => ?_⟩
    cases hx : (g.v u).label with
    | none => rw [hx, Option.none_or] at e; exact ih.2 l e
    | some x =>
      rw [hx, Option.some_or] at e
      cases e
      exact label_le h.toWF hu' hx

theorem stream_searches {data : Nat → UInt8} (bufs : List (List UInt8)) :
    ∀ off, Vm.Holds data off bufs.flatten → ∃ q, Stream data off (searches off bufs) q := by
  induction bufs with
  | nil => intro off _; exact ⟨_, .closeOut true (.nil off)⟩
  | cons b bs ih =>
    intro off h
    rw [List.flatten_cons] at h
    obtain ⟨h1, h2⟩ := holds_append h
    obtain ⟨q, hq⟩ := ih _ h2
    exact ⟨q, .search b true h1 hq⟩

theorem hits_above {g : Graph} (hg : Live g) {fuel' : Nat} {P : Program}
    (hc : createProgram fuel' g = some (.ok P)) {fuel : Nat} {first : List Thread} {σ₀ : St}
    (hnew : create P fuel = .ok (first, σ₀)) {off : Nat} {bufs : List (List UInt8)} {rs : List (Option Nat)} {σ : St}
    (hrun : run P first fuel (searches off bufs) σ₀ = .ok (rs, σ)) {l : Nat} (hl : ¬ l ≤ P.maxLabel) :
    hitsOf l σ.log = [] := by
  obtain ⟨q, hq⟩ := stream_searches bufs off (holds_streamOf off bufs.flatten)
  have hs := compiled_hits_are_matches hg hc hnew hq hrun
  have hm := (compiled_of_createProgram hg hc).2.1
  unfold hitsOf
  rw [List.map_eq_nil_iff, List.filter_eq_nil_iff]
  intro h hh e
  obtain ⟨v, hr, -⟩ := hs h hh
  have := (label_of_grun hg hr).2 _ rfl
  simp only [beq_iff_eq] at e
  omega

theorem count_hitsOf (h : Hit) (log : List Hit) : log.count h = (hitsOf h.label log).count (h.start, h.end) := by
  induction log with
  | nil => rfl
  | cons x log ih =>
    unfold hitsOf at ih ⊢
    rw [List.count_cons, ih]
    by_cases hl : x.label = h.label
    · rw [List.filter_cons_of_pos (by simpa using hl), List.map_cons, List.count_cons]
      congr 1
      obtain ⟨a, b, c⟩ := x
      obtain ⟨a', b', c'⟩ := h
      simp only at hl
      subst hl
      simp [Hit.mk.injEq]
    · rw [List.filter_cons_of_neg (by simpa using hl), if_neg (by
        simp only [beq_iff_eq]
        rintro rfl
        exact hl rfl)]
      rfl

/-- **C04.** Let the bytes of a stream be given to a fresh context as one sequence of
consecutive buffers or as another, then closed out.  Both searches end, for every
keyword they report the same hits in the same order, and altogether they report the
same hits. -/
theorem cuts_agree {g : Graph} (hg : Live g) (hG : Guards g) {fuel' : Nat} {P : Program}
    (hc : createProgram fuel' g = some (.ok P)) {fuel : Nat} (hf : 2 * g.n + 9 ≤ fuel) (off : Nat)
    {bufs bufs' : List (List UInt8)} (he : bufs.flatten = bufs'.flatten) :
    ∃ first σ₀ rs σ rs' σ', create P fuel = .ok (first, σ₀) ∧
      run P first fuel (searches off bufs) σ₀ = .ok (rs, σ) ∧
      run P first fuel (searches off bufs') σ₀ = .ok (rs', σ') ∧
      (∀ l, hitsOf l σ.log = hitsOf l σ'.log) ∧ σ.log.Perm σ'.log := by
  obtain ⟨first, σ₀, rs, σ, h0, h1⟩ := searches_end hg hG hc hf off bufs
  obtain ⟨first', σ₀', rs', σ', h0', h2⟩ := searches_end hg hG hc hf off bufs'
  rw [h0] at h0'
  cases h0'
  have key : ∀ l, hitsOf l σ.log = hitsOf l σ'.log := by
    intro l
    by_cases hl : l ≤ P.maxLabel
    · have g1 := compiled_greedy hg hG hc h0 h1 hl
      have g2 := compiled_greedy hg hG hc h0 h2 hl
      rw [← he] at g2
      exact greedy_unique g1 g2
    · rw [hits_above hg hc h0 h1 hl, hits_above hg hc h0 h2 hl]
  refine ⟨first, σ₀, rs, σ, rs', σ', h0, h1, h2, key, ?_⟩
  rw [List.perm_iff_count]
  intro h
  rw [count_hitsOf, count_hitsOf, key]

/-- **C52.** The hits of every keyword in a stream, given in any consecutive buffers
to a fresh context and closed out, are the leftmost non-overlapping matches. -/
theorem hits_leftmost_partial {g : Graph} (hg : Live g) (hG : Guards g) (hz : NoZero g) {fuel' : Nat} {P : Program}
    (hc : createProgram fuel' g = some (.ok P)) {fuel : Nat} {first : List Thread} {σ₀ : St}
    (hnew : create P fuel = .ok (first, σ₀)) {off : Nat} {bufs : List (List UInt8)} {rs : List (Option Nat)} {σ : St}
    (hrun : run P first fuel (searches off bufs) σ₀ = .ok (rs, σ)) (l : Nat) :
    Leftmost (MatchAt g off bufs.flatten l) 0 (hitsOf l σ.log) := by
  have hC := (compiled_of_createProgram hg hc).1
  by_cases hl : l ≤ P.maxLabel
  · exact leftmost_of_greedy hC hz (compiled_greedy hg hG hc hnew hrun hl)
  · rw [hits_above hg hc hnew hrun hl]
    rintro s e ⟨-, -, -, v, hr, -⟩
    have := (label_of_grun hg hr).2 _ rfl
    rw [(compiled_of_createProgram hg hc).2.1] at hl
    exact (hl this).elim

theorem leftmost_covers {acc : Nat → Nat → Prop} {hs : List (Nat × Nat)} :
    ∀ {m s e}, Leftmost acc m hs → acc s e → m ≤ s → ∃ h ∈ hs, h.1 ≤ s ∧ s < h.2 := by
  induction hs with
  | nil =>
    intro m s e h ha hm
    have := h s e ha
    omega
  | cons x hs ih =>
    obtain ⟨a, b⟩ := x
    rintro m s e ⟨h1, h2, h3, h4⟩ ha hm
    by_cases hlt : s < b
    · exact ⟨(a, b), by simp, h3 s e ha hm, hlt⟩
    · obtain ⟨h, hh, hx⟩ := ih h4 ha (by omega)
      exact ⟨h, List.mem_cons_of_mem _ hh, hx⟩

/-- **C09.** If the automaton matches the bytes from `s` to `e` of a stream, given in
any consecutive buffers to a fresh context and closed out, then a hit of that keyword
containing offset `s` is reported. -/
theorem matches_are_covered_partial {g : Graph} (hg : Live g) (hG : Guards g) (hz : NoZero g) {fuel' : Nat} {P : Program}
    (hc : createProgram fuel' g = some (.ok P)) {fuel : Nat} {first : List Thread} {σ₀ : St}
    (hnew : create P fuel = .ok (first, σ₀)) {off : Nat} {bufs : List (List UInt8)} {rs : List (Option Nat)} {σ : St}
    (hrun : run P first fuel (searches off bufs) σ₀ = .ok (rs, σ)) {l s e : Nat}
    (hm : MatchAt g off bufs.flatten l s e) : ∃ h ∈ σ.log, h.label = l ∧ h.start ≤ s ∧ s < h.end := by
  obtain ⟨x, hx, h1, h2⟩ := leftmost_covers (hits_leftmost_partial hg hG hz hc hnew hrun l) hm (Nat.zero_le _)
  unfold hitsOf at hx
  rw [List.mem_map] at hx
  obtain ⟨h, hh, rfl⟩ := hx
  rw [List.mem_filter] at hh
  exact ⟨h, hh.1, by simpa using hh.2, h1, h2⟩

/-! ## Examples -/

/-- A way to see that labels guard the keywords: the label each state carries. -/
theorem guards_of_carried {g : Graph} (T : Nat → Option Nat) (h0 : T 0 = none)
    (he : ∀ v, ∀ u ∈ (g.v v).out, T u = (g.v u).label.or (T v) ∧ ((g.v u).label = none ∨ T v = none ∨ T v = (g.v u).label))
    (hm : ∀ v, (g.v v).isMatch = true → T v ≠ none) : Guards g := by
  have key : ∀ {w v lab}, GRun g w v lab → lab = T v := by
    intro w v lab hr
    induction hr with
    | init => exact h0.symm
    | step _ hu hb ih => rw [(he _ _ hu).1, ih]
  refine ⟨?_, ?_, ?_⟩
  · intro w v lab u x hr hu hx
    have := (he _ _ hu).2
    rw [key hr]
    rw [hx] at this
    rcases this with h | h | h
    · cases h
    · exact Or.inl h
    · exact Or.inr h
  · intro w v lab w' lab' h1 h2
    rw [key h1, key h2]
  · intro w v lab hr hmv
    rw [key hr]
    exact hm v hmv

/-- The automaton of the keywords `ab+` and `ac`, with its guard labels. -/
def abcVertex : Nat → Vertex
  | 0 => { out := [1] }
  | 1 => { bytes := BSet.single 97, out := [2, 3], inn := [0] }
  | 2 => { bytes := BSet.single 98, out := [2], inn := [1, 2], isMatch := true, label := some 0 }
  | 3 => { bytes := BSet.single 99, inn := [1], isMatch := true, label := some 1 }
  | _ => {}

@[inherit_doc abcVertex] def abc : Graph := { n := 4, v := abcVertex }

theorem abc_live : Live abc where
  pos := by decide
  edges := by decide
  nodup := by decide
  bytes := by
    have h : ∀ v < 4, v ≠ 0 → (abcVertex v).bytes.getLsbD (match v with | 1 => 97 | 2 => 98 | _ => 99) = true := by
      decide +kernel
    intro v hv h0
    refine ⟨_, ?_, h v hv h0⟩
    split <;> decide
  reach := by
    have w0 : BestPair.Walk abc 0 0 := .zero
    have w1 : BestPair.Walk abc 1 1 := w0.step (by decide)
    have w2 : BestPair.Walk abc 2 2 := w1.step (by decide)
    have w3 : BestPair.Walk abc 2 3 := w1.step (by decide)
    intro v hv
    have hv' : v < 4 := hv
    match v, hv' with
    | 0, _ => exact ⟨_, w0⟩
    | 1, _ => exact ⟨_, w1⟩
    | 2, _ => exact ⟨_, w2⟩
    | 3, _ => exact ⟨_, w3⟩
  rootIn := by decide
  rootLabel := rfl
  rootMatch := rfl
  live := by decide

theorem abc_guards : Guards abc := by
  have hout : ∀ v, ¬ v < 4 → abc.v v = {} := by
    intro v hv
    match v, hv with
    | n + 4, _ => rfl
  refine guards_of_carried (fun v => if v = 2 then some 0 else if v = 3 then some 1 else none) rfl ?_ ?_
  · intro v u hu
    by_cases hv : v < 4
    · have h : ∀ v < 4, ∀ u ∈ (abcVertex v).out,
          (if u = 2 then some 0 else if u = 3 then some 1 else none) =
            (abcVertex u).label.or (if v = 2 then some 0 else if v = 3 then some 1 else none) ∧
          ((abcVertex u).label = none ∨ (if v = 2 then some 0 else if v = 3 then some 1 else none) = none ∨
            (if v = 2 then some 0 else if v = 3 then some 1 else none) = (abcVertex u).label) := by decide
      exact h v hv u hu
    · rw [hout v hv] at hu; cases hu
  · intro v hm
    by_cases hv : v < 4
    · have h : ∀ v < 4, (abcVertex v).isMatch = true →
        (if v = 2 then some 0 else if v = 3 then some 1 else none) ≠ none := by decide
      exact h v hv hm
    · rw [hout v hv] at hm; cases hm

theorem abc_noZero : NoZero abc := by
  intro u _ v hv ht
  have h : ∀ v < 4, isTable abc v = false := by decide +kernel
  rw [h v hv] at ht
  cases ht

theorem abc_program : ∃ F P, createProgram F abc = some (.ok P) := by
  obtain ⟨code, hc, -⟩ := layout_consistent_partial abc_live.toWF (encodes_of_small abc_live.toWF (by decide) (by decide))
  obtain ⟨F, hF⟩ := BestPair.filter_found abc (by decide) (by decide) rfl [97, 99]
    ⟨1, by decide, 3, .cons (u := 3) (by decide +kernel) (by decide) (.one (by decide +kernel)), rfl⟩
  obtain ⟨r, hr⟩ := hF F (Nat.le_refl _)
  refine ⟨F, ?_⟩
  unfold createProgram
  rw [hr, hc]
  exact ⟨_, rfl⟩

/-- In `xabbac` at offset 7 the second keyword matches at 11. -/
theorem abc_match : MatchAt abc 7 [120, 97, 98, 98, 97, 99] 1 11 13 := by
  refine ⟨by decide, by decide, by decide, 3, ?_, rfl⟩
  exact (GRun.init.step (u := 1) (b := 97) (by decide) (by decide +kernel)).step (u := 3) (b := 99)
    (by decide) (by decide +kernel)

example : ∃ F P first σ₀ rs σ rs' σ', createProgram F abc = some (.ok P) ∧ create P 17 = .ok (first, σ₀) ∧
    run P first 17 (searches 7 [[120, 97, 98], [], [98, 97], [99]]) σ₀ = .ok (rs, σ) ∧
    run P first 17 (searches 7 [[120, 97, 98, 98, 97, 99]]) σ₀ = .ok (rs', σ') ∧ σ.log.Perm σ'.log ∧
    ∃ h ∈ σ.log, h.label = 1 ∧ h.start ≤ 11 ∧ 11 < h.end := by
  obtain ⟨F, P, hP⟩ := abc_program
  obtain ⟨first, σ₀, rs, σ, rs', σ', h0, h1, h2, -, h3⟩ := cuts_agree abc_live abc_guards hP (fuel := 17)
    (by decide) 7 (bufs := [[120, 97, 98], [], [98, 97], [99]]) (bufs' := [[120, 97, 98, 98, 97, 99]]) rfl
  exact ⟨F, P, first, σ₀, rs, σ, rs', σ', hP, h0, h1, h2, h3,
    matches_are_covered_partial abc_live abc_guards abc_noZero hP h0 h1 abc_match⟩

end Verif.Compiler
