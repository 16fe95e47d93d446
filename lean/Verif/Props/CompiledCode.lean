import Verif.Props.Layout
import Verif.VmSound
/-!
# The instructions of a compiled automaton, place by place

A compiled automaton's program, described by *places*: each place has an address, the
instruction found there and the places that follow.  The theorems of C10 and C12 are
proved on places.
-/
namespace Verif.Compiler
open Verif.Nfa Verif.Transition Verif.Vm

/-- Places of a compiled program. -/
inductive Loc where
  /-- the transition of a state -/
  | start (u : Nat)
  /-- its label -/
  | lab (v : Nat)
  /-- its check -/
  | chk (v : Nat)
  /-- Match -/
  | mat (v : Nat)
  /-- Finish or Fork after Match -/
  | mat1 (v : Nat)
  /-- a Fork to a successor -/
  | out (v j : Nat)
  /-- the Jump to the first successor -/
  | last (v : Nat)
  /-- the jump table -/
  | tab (v : Nat)
  /-- an instruction of the indirect table of a byte -/
  | ind (v b j : Nat)
  | halt
  | fin
deriving DecidableEq

/-- Instructions with the places they lead to. -/
inductive LOp where
  | read (u : Nat)
  | table (v : Nat)
  | fork (n t : Loc)
  | jump (t : Loc)
  | check (i : Nat) (n : Loc)
  | label (l : Nat) (n : Loc)
  | mtch (n : Loc)
  | finish
  | halt
deriving DecidableEq

def outLoc (g : Graph) (v j : Nat) : Loc :=
  match (g.v v).out with
  | [] => .halt
  | u :: us => if j < us.length then .out v j else if follows g v u then .start u else .last v

def entryOut (g : Graph) (v : Nat) : Loc := if isTable g v then .tab v else outLoc g v 0
def entryMat (g : Graph) (v : Nat) : Loc := if (g.v v).isMatch then .mat v else entryOut g v
def entryChk (g : Graph) (v : Nat) : Loc := if check g v = none then entryMat g v else .chk v
def entryLab (g : Graph) (v : Nat) : Loc := if (g.v v).label = none then entryChk g v else .lab v

/-- Where a jump table leads for a state. -/
def land (g : Graph) (t : Nat) : Loc :=
  match (g.v t).out with
  | [u] => if (g.v t).label = none ∧ (g.v t).isMatch = false then .start u else entryLab g t
  | _ => entryLab g t

/-- Where a jump table leads for a byte. -/
def after (g : Graph) (v b : Nat) : Option Loc :=
  match pivot g v b with
  | [] => none
  | [t] => some (land g t)
  | _ => some (.ind v b 0)

def lop (g : Graph) : Loc → LOp
  | .start u => .read u
  | .lab v => .label ((g.v v).label.getD 0) (entryChk g v)
  | .chk v => .check ((check g v).getD 0) (entryMat g v)
  | .mat v => .mtch (.mat1 v)
  | .mat1 v => if (g.v v).out = [] then .finish else .fork (entryOut g v) .fin
  | .out v j => .fork (outLoc g v (j + 1)) (.start ((g.v v).out.tail.reverse[j]?.getD 0))
  | .last v => .jump (.start ((g.v v).out.head?.getD 0))
  | .tab v => .table v
  | .ind v b j =>
    match pivot g v b with
    | [] => .halt
    | t :: ts =>
      if j < ts.length then .fork (.ind v b (j + 1)) (land g (ts.reverse[j]?.getD 0)) else .jump (land g t)
  | .halt => .halt
  | .fin => .finish

/-- Reading a byte. -/
def consume (g : Graph) (b : UInt8) : Loc → Option Loc
  | .start u => if (g.v u).bytes.has b then some (entryLab g u) else none
  | .tab v => after g v b.toNat
  | _ => none

/-! ## Addresses -/

def base (g : Graph) (v : Nat) : Nat := start g v + evalSize g v
def nLab (g : Graph) (v : Nat) : Nat := if (g.v v).label = none then 0 else 1
def nChk (g : Graph) (v : Nat) : Nat := if check g v = none then 0 else 1
def nMat (g : Graph) (v : Nat) : Nat :=
  if (g.v v).isMatch then 2 + (if (g.v v).out = [] then 0 else 1) else 0
def outA (g : Graph) (v : Nat) : Nat := base g v + nLab g v + nChk g v + nMat g v

/-- Number of entries in the indirect tables before that of the byte. -/
def indOff (g : Graph) (v b : Nat) : Nat :=
  let first := (minAndMax (pivot g v)).1
  ((List.range' first (b - first)).map (indLen (pivot g v))).sum

def addr (g : Graph) : Loc → Nat
  | .start u => start g u
  | .lab v => base g v
  | .chk v => base g v + nLab g v
  | .mat v => base g v + nLab g v + nChk g v
  | .mat1 v => base g v + nLab g v + nChk g v + 1
  | .out v j => outA g v + 2 * j
  | .last v => outA g v + 2 * ((g.v v).out.length - 1)
  | .tab v => outA g v
  | .ind v b j =>
    outA g v + 2 + ((minAndMax (pivot g v)).2 - (minAndMax (pivot g v)).1) + 2 * indOff g v b + 2 * j
  | .halt => guard g
  | .fin => guard g + 1

/-- The places that exist. -/
def Loc.ok (g : Graph) : Loc → Prop
  | .start u => 0 < u ∧ u < g.n
  | .lab v => 0 < v ∧ v < g.n ∧ (g.v v).label ≠ none
  | .chk v => 0 < v ∧ v < g.n ∧ check g v ≠ none
  | .mat v => 0 < v ∧ v < g.n ∧ (g.v v).isMatch = true
  | .mat1 v => 0 < v ∧ v < g.n ∧ (g.v v).isMatch = true
  | .out v j => v < g.n ∧ isTable g v = false ∧ j + 1 < (g.v v).out.length
  | .last v => v < g.n ∧ isTable g v = false ∧ ∃ u us, (g.v v).out = u :: us ∧ follows g v u = false
  | .tab v => v < g.n ∧ isTable g v = true
  | .ind v b j => v < g.n ∧ isTable g v = true ∧ b < 256 ∧ 1 < (pivot g v b).length ∧ j < (pivot g v b).length
  | .halt => True
  | .fin => True

/-- Automata in which every state that is not a match leads somewhere. -/
structure Live (g : Graph) : Prop extends WF g where
  live : ∀ v < g.n, (g.v v).isMatch = false → (g.v v).out ≠ []

theorem size_eq {g : Graph} (v : Nat) : start g v + size g v = outA g v + outSize g v := by
  unfold size otherSize outA base nLab nChk nMat
  omega

theorem check_root {g : Graph} (h : WF g) : check g 0 = none := checks_root g h.rootIn _ _

theorem addr_outLoc {g : Graph} (h : WF g) {v j u : Nat} {us : List Nat} (hv : v < g.n)
    (ht : isTable g v = false) (ho : (g.v v).out = u :: us) (hj : j ≤ us.length) :
    addr g (outLoc g v j) = outA g v + 2 * j := by
  unfold outLoc
  rw [ho]
  dsimp only
  split
  · rfl
  · have e : j = us.length := by omega
    subst e
    split
    · next hf =>
      show start g u = _
      have hu := (h.edges v hv u (by rw [ho]; simp)).2
      rw [start_next h hu hv hf]
      have := size_eq (g := g) v
      unfold outSize at this
      simp only [ho, ht, hf, if_true, Bool.false_eq_true, if_false] at this
      omega
    · show outA g v + 2 * ((g.v v).out.length - 1) = _
      rw [ho]
      simp

theorem addr_entryOut {g : Graph} (h : WF g) {v : Nat} (hv : v < g.n) (ho : (g.v v).out ≠ []) :
    addr g (entryOut g v) = outA g v := by
  unfold entryOut
  split
  · rfl
  · next ht =>
    obtain ⟨u, us, he⟩ := List.exists_cons_of_ne_nil ho
    rw [addr_outLoc h hv (by simpa using ht) he (by omega)]
    omega

theorem addr_entryMat {g : Graph} (h : Live g) {v : Nat} (hv : v < g.n) :
    addr g (entryMat g v) = base g v + nLab g v + nChk g v := by
  unfold entryMat
  split
  · rfl
  · next hm =>
    rw [addr_entryOut h.toWF hv (h.live v hv (by simpa using hm))]
    simp [outA, nMat, hm]

theorem addr_entryChk {g : Graph} (h : Live g) {v : Nat} (hv : v < g.n) :
    addr g (entryChk g v) = base g v + nLab g v := by
  unfold entryChk
  split
  · next hc =>
    rw [addr_entryMat h hv]
    simp [nChk, hc]
  · rfl

theorem addr_entryLab {g : Graph} (h : Live g) {v : Nat} (hv : v < g.n) :
    addr g (entryLab g v) = base g v := by
  unfold entryLab
  split
  · next hc =>
    rw [addr_entryChk h hv]
    simp [nLab, hc]
  · rfl

theorem addr_land {g : Graph} (h : Live g) {v : Nat} (hv : v < g.n) : addr g (land g v) = landing g v := by
  have e := addr_entryLab h hv
  unfold land landing
  cases ho : (g.v v).out with
  | nil => exact e
  | cons u us =>
    cases us with
    | cons => exact e
    | nil =>
      dsimp only
      split
      · rfl
      · exact e

theorem ok_outLoc {g : Graph} (h : WF g) {v j u : Nat} {us : List Nat} (hv : v < g.n)
    (ht : isTable g v = false) (ho : (g.v v).out = u :: us) : (outLoc g v j).ok g := by
  unfold outLoc
  rw [ho]
  dsimp only
  split
  · next hj => exact ⟨hv, ht, by rw [ho]; simpa using hj⟩
  · split
    · exact h.edges v hv u (by rw [ho]; simp)
    · next hf => exact ⟨hv, ht, u, us, ho, by simpa using hf⟩

theorem ok_entryOut {g : Graph} (h : WF g) {v : Nat} (hv : v < g.n) (ho : (g.v v).out ≠ []) :
    (entryOut g v).ok g := by
  unfold entryOut
  split
  · next ht => exact ⟨hv, ht⟩
  · next ht =>
    obtain ⟨u, us, he⟩ := List.exists_cons_of_ne_nil ho
    exact ok_outLoc h hv (by simpa using ht) he

theorem ok_entryMat {g : Graph} (h : Live g) {v : Nat} (hv : v < g.n) : (entryMat g v).ok g := by
  unfold entryMat
  split
  · next hm =>
    refine ⟨?_, hv, hm⟩
    by_contra h0
    have h0 : v = 0 := by omega
    subst h0
    rw [h.rootMatch] at hm
    cases hm
  · next hm => exact ok_entryOut h.toWF hv (h.live v hv (by simpa using hm))

theorem ok_entryChk {g : Graph} (h : Live g) {v : Nat} (hv : v < g.n) : (entryChk g v).ok g := by
  unfold entryChk
  split
  · exact ok_entryMat h hv
  · next hm =>
    refine ⟨?_, hv, hm⟩
    by_contra h0
    have h0 : v = 0 := by omega
    subst h0
    exact hm (check_root h.toWF)

theorem ok_entryLab {g : Graph} (h : Live g) {v : Nat} (hv : v < g.n) : (entryLab g v).ok g := by
  unfold entryLab
  split
  · exact ok_entryChk h hv
  · next hm =>
    refine ⟨?_, hv, hm⟩
    by_contra h0
    have h0 : v = 0 := by omega
    subst h0
    exact hm h.rootLabel

theorem ok_land {g : Graph} (h : Live g) {v : Nat} (hv : v < g.n) : (land g v).ok g := by
  unfold land
  split
  · next u ho =>
    split
    · exact h.edges v hv u (by rw [ho]; simp)
    · exact ok_entryLab h hv
  · exact ok_entryLab h hv

theorem ok_after {g : Graph} (h : Live g) {v b : Nat} (hv : v < g.n) (ht : isTable g v = true) (hb : b < 256)
    {l : Loc} (ha : after g v b = some l) : l.ok g := by
  unfold after at ha
  split at ha
  · cases ha
  · next t ht =>
    simp only [Option.some.injEq] at ha
    subst ha
    have : t ∈ pivot g v b := by rw [ht]; simp
    exact ok_land h (h.edges v hv t ((mem_pivot g v b t).1 this).1).2
  · next h1 h2 =>
    simp only [Option.some.injEq] at ha
    subst ha
    have : 1 < (pivot g v b).length := by
      cases hp : pivot g v b with
      | nil => exact absurd hp h1
      | cons a l =>
        cases l with
        | nil => exact absurd hp (h2 a)
        | cons b l => simp
    exact ⟨hv, ht, hb, this, by omega⟩

theorem ok_consume {g : Graph} (h : Live g) {b : UInt8} {l l' : Loc} (hl : l.ok g)
    (hc : consume g b l = some l') : l'.ok g := by
  cases l with
  | start u =>
    simp only [consume] at hc
    split at hc
    · simp only [Option.some.injEq] at hc; subst hc; exact ok_entryLab h hl.2
    · cases hc
  | tab v => exact ok_after h hl.1 hl.2 b.toNat_lt hc
  | _ => simp [consume] at hc

/-- The places an instruction leads to exist. -/
theorem ok_lop {g : Graph} (h : Live g) {l : Loc} (hl : l.ok g) :
    (∀ n t, lop g l = .fork n t → n.ok g ∧ t.ok g) ∧ (∀ t, lop g l = .jump t → t.ok g) ∧
    (∀ i n, lop g l = .check i n → n.ok g) ∧ (∀ i n, lop g l = .label i n → n.ok g) ∧
    (∀ n, lop g l = .mtch n → n.ok g) := by
  cases l with
  | start u => simp [lop]
  | lab v =>
    simp only [lop, reduceCtorEq, false_imp_iff, implies_true, LOp.label.injEq, true_and, and_true]
    rintro i n ⟨-, rfl⟩
    exact ok_entryChk h hl.2.1
  | chk v =>
    simp only [lop, reduceCtorEq, false_imp_iff, implies_true, LOp.check.injEq, true_and, and_true]
    rintro i n ⟨-, rfl⟩
    exact ok_entryMat h hl.2.1
  | mat v =>
    simp only [lop, reduceCtorEq, false_imp_iff, implies_true, LOp.mtch.injEq, true_and]
    rintro n rfl
    exact hl
  | mat1 v =>
    simp only [lop]
    split
    · simp
    · next ho =>
      simp only [reduceCtorEq, false_imp_iff, implies_true, LOp.fork.injEq, and_true]
      rintro n t ⟨rfl, rfl⟩
      exact ⟨ok_entryOut h.toWF hl.2.1 ho, trivial⟩
  | out v j =>
    simp only [lop, reduceCtorEq, false_imp_iff, implies_true, LOp.fork.injEq, and_true]
    rintro n t ⟨rfl, rfl⟩
    obtain ⟨hv, ht, hj⟩ := hl
    have hne : (g.v v).out ≠ [] := by intro e; rw [e] at hj; simp at hj
    obtain ⟨u, us, he⟩ := List.exists_cons_of_ne_nil hne
    refine ⟨ok_outLoc h.toWF hv ht he, ?_⟩
    have hj' : j < us.reverse.length := by rw [he] at hj; simpa using hj
    rw [he, List.tail_cons, List.getElem?_eq_getElem hj', Option.getD_some]
    apply h.edges v hv
    rw [he]
    have := List.getElem_mem hj'
    rw [List.mem_reverse] at this
    exact List.mem_cons_of_mem _ this
  | last v =>
    simp only [lop, reduceCtorEq, false_imp_iff, implies_true, LOp.jump.injEq, true_and, and_true]
    rintro t rfl
    obtain ⟨hv, ht, u, us, ho, hf⟩ := hl
    rw [ho]
    exact h.edges v hv u (by rw [ho]; simp)
  | tab v => simp [lop]
  | ind v b j =>
    obtain ⟨hv, ht, hb, h1, hj⟩ := hl
    simp only [lop]
    have hm : ∀ x ∈ pivot g v b, x < g.n := fun x hx => (h.edges v hv x ((mem_pivot g v b x).1 hx).1).2
    split
    · simp
    · next t ts he =>
      rw [he] at h1 hj hm
      split
      · next hj' =>
        simp only [reduceCtorEq, false_imp_iff, implies_true, LOp.fork.injEq, and_true]
        rintro n t' ⟨rfl, rfl⟩
        refine ⟨⟨hv, ht, hb, by rw [he]; exact h1, by rw [he]; simpa using hj'⟩, ?_⟩
        have hj'' : j < ts.reverse.length := by simpa using hj'
        rw [List.getElem?_eq_getElem hj'', Option.getD_some]
        apply ok_land h
        apply hm
        have := List.getElem_mem hj''
        rw [List.mem_reverse] at this
        exact List.mem_cons_of_mem _ this
      · simp only [reduceCtorEq, false_imp_iff, implies_true, LOp.jump.injEq, true_and, and_true]
        rintro t' rfl
        exact ok_land h (hm t (by simp))
  | halt => simp [lop]
  | fin => simp [lop]

/-! ## The instructions at the addresses -/

/-- The program holds the instructions of every state, then Halt and Finish. -/
structure Compiled (g : Graph) (P : Program) : Prop extends Live g where
  holds : ∀ v < g.n, Holds g P.code v
  halt : P.code[guard g]? = some (mkWord 12 0 0 0)
  fin : P.code[guard g + 1]? = some (mkWord 6 0 0 0)
  len : P.code.length = guard g + 2

theorem at_append {P : Program} {pc : Nat} {a b : List Nat} (h : At P pc (a ++ b)) :
    At P pc a ∧ At P (pc + a.length) b := by
  constructor
  · intro k w hk
    apply h
    have hlt : k < a.length := by
      by_contra hc
      rw [List.getElem?_eq_none (by omega)] at hk
      cases hk
    rw [List.getElem?_append_left hlt]
    exact hk
  · intro k w hk
    have := h (a.length + k) w (by rw [List.getElem?_append_right (by omega)]; rw [Nat.add_sub_cancel_left]; exact hk)
    rw [← Nat.add_assoc] at this
    exact this

theorem at_get {P : Program} {pc k w : Nat} {ws : List Nat} (h : At P pc ws) (hk : ws[k]? = some w) :
    P.code[pc + k]? = some w := h k w hk

/-- The four parts of a state. -/
theorem parts {g : Graph} {P : Program} (h : Compiled g P) {v : Nat} (hv : v < g.n) :
    ∃ e m, e.length = evalSize g v ∧ m.length = nLab g v + nChk g v ∧
      (v ≠ 0 → (transOf (g.v v).bytes).emit = some e ∧ emitMarks g v = some m) ∧
      At P (start g v) e ∧ At P (base g v) m ∧ At P (base g v + nLab g v + nChk g v) (emitMatch g v) ∧
      At P (outA g v) (if isTable g v then jumpTable g v (outA g v) else emitOut g v) := by
  obtain ⟨ws, hws, hget⟩ := h.holds v hv
  have hat : At P (start g v) ws := by
    intro k w hk
    have hlt : k < ws.length := by
      by_contra hc
      rw [List.getElem?_eq_none (by omega)] at hk
      cases hk
    rw [hget k hlt]
    exact hk
  have hp : ∃ e m, e.length = evalSize g v ∧ m.length = nLab g v + nChk g v ∧
      (v ≠ 0 → (transOf (g.v v).bytes).emit = some e ∧ emitMarks g v = some m) ∧
      emitPre g v = some (e ++ m ++ emitMatch g v) := by
    have hne : emitPre g v ≠ none := by
      intro hn
      simp [encodeState, hn] at hws
    unfold emitPre at hne ⊢
    by_cases h0 : v = 0
    · subst h0
      refine ⟨[], [], by simp [evalSize], by simp [nLab, nChk, h.rootLabel, check_root h.toWF], fun hh => absurd rfl hh, ?_⟩
      simp [emitMatch, h.rootMatch]
    · rw [if_neg h0] at hne ⊢
      cases he : (transOf (g.v v).bytes).emit with
      | none => simp [he] at hne
      | some e =>
        cases hm : emitMarks g v with
        | none => simp [he, hm] at hne
        | some m =>
          refine ⟨e, m, ?_, ?_, fun _ => ⟨rfl, rfl⟩, ?_⟩
          · rw [emit_length he, evalSize, if_neg h0]
          · exact emitMarks_length hm
          · simp
  obtain ⟨e, m, he, hm, hem, hpre⟩ := hp
  have hmat : (emitMatch g v).length = nMat g v := emitMatch_length g v
  have hplen : start g v + (e ++ m ++ emitMatch g v).length = outA g v := by
    simp only [List.length_append, he, hm, hmat, outA, base]
    omega
  have hws' : ws = e ++ m ++ emitMatch g v ++ (if isTable g v then jumpTable g v (outA g v) else emitOut g v) := by
    simp only [encodeState, hpre, Option.bind_eq_bind, Option.bind_some, hplen] at hws
    split at hws
    · next ht => rw [if_pos ht]; exact (Option.some.inj hws).symm
    · next ht => rw [if_neg ht]; exact (Option.some.inj hws).symm
  rw [hws'] at hat
  obtain ⟨a1, a2⟩ := at_append hat
  obtain ⟨a3, a4⟩ := at_append a1
  obtain ⟨a5, a6⟩ := at_append a3
  refine ⟨e, m, he, hm, hem, a5, ?_, ?_, ?_⟩
  · rw [he] at a6; exact a6
  · have e1 : start g v + (e ++ m).length = base g v + nLab g v + nChk g v := by
      simp only [List.length_append, he, hm, base]; omega
    rw [e1] at a4; exact a4
  · rw [hplen] at a2; exact a2

theorem decode_label {l : Nat} (h : l < 16777216) : decode (10 + 256 * l) = .label l := by
  have e1 : (10 + 256 * l) % 256 = 10 := by omega
  have e2 : (10 + 256 * l) / 256 % 16777216 = l := by omega
  simp only [decode, e1, e2]

theorem decode_check {l : Nat} (h : l < 16777216) : decode (9 + 256 * l) = .checkHalt l := by
  have e1 : (9 + 256 * l) % 256 = 9 := by omega
  have e2 : (9 + 256 * l) / 256 % 16777216 = l := by omega
  simp only [decode, e1, e2]

theorem decode_table {f l : Nat} (hf : f < 256) (hl : l < 256) : decode (mkWord 0 0 f l) = .jumpTable f l := by
  unfold mkWord
  have e1 : (0 + 256 * 0 + 65536 * f + 16777216 * l) % 256 = 0 := by omega
  have e2 : (0 + 256 * 0 + 65536 * f + 16777216 * l) / 65536 % 256 = f := by omega
  have e3 : (0 + 256 * 0 + 65536 * f + 16777216 * l) / 16777216 % 256 = l := by omega
  simp only [decode, e1, e2, e3]

theorem op_halt {g : Graph} {P : Program} (h : Compiled g P) : opAt P (guard g) = some .halt := by
  rw [opAt_of h.halt]; rfl

theorem op_fin {g : Graph} {P : Program} (h : Compiled g P) : opAt P (guard g + 1) = some .finish := by
  rw [opAt_of h.fin]; rfl

theorem op_lab {g : Graph} {P : Program} (h : Compiled g P) {v l : Nat} (h0 : v ≠ 0) (hv : v < g.n)
    (hl : (g.v v).label = some l) : opAt P (base g v) = some (.label l) := by
  obtain ⟨e, m, -, -, hem, -, hat, -, -⟩ := parts h hv
  obtain ⟨-, hm⟩ := hem h0
  simp only [emitMarks, hl, Option.bind_eq_bind, Option.bind_eq_some_iff, Option.some.injEq] at hm
  obtain ⟨a, ha, c, -, rfl⟩ := hm
  unfold raw24 at ha
  split at ha
  · next hlt =>
    simp only [Option.some.injEq] at ha
    subst ha
    have := at_get hat (k := 0) (w := 10 + 256 * l) (by simp)
    rw [Nat.add_zero] at this
    rw [opAt_of this, decode_label hlt]
  · cases ha

theorem op_chk {g : Graph} {P : Program} (h : Compiled g P) {v i : Nat} (h0 : v ≠ 0) (hv : v < g.n)
    (hc : check g v = some i) : opAt P (base g v + nLab g v) = some (.checkHalt i) := by
  obtain ⟨e, m, -, -, hem, -, hat, -, -⟩ := parts h hv
  obtain ⟨-, hm⟩ := hem h0
  simp only [emitMarks, hc, Option.bind_eq_bind, Option.bind_eq_some_iff, Option.some.injEq] at hm
  obtain ⟨a, ha, c, hc', rfl⟩ := hm
  have hal : a.length = nLab g v := by
    unfold nLab
    cases hx : (g.v v).label with
    | none => rw [hx] at ha; simp at ha; subst ha; simp
    | some y =>
      rw [hx] at ha
      dsimp only [raw24] at ha
      split at ha
      · simp at ha; subst ha; simp
      · simp at ha
  have hat' := (at_append hat).2
  rw [hal] at hat'
  unfold raw24 at hc'
  split at hc'
  · next hlt =>
    simp only [Option.some.injEq] at hc'
    subst hc'
    have := at_get hat' (k := 0) (w := 9 + 256 * i) (by simp)
    rw [Nat.add_zero] at this
    rw [opAt_of this, decode_check hlt]
  · cases hc'

theorem op_mat {g : Graph} {P : Program} (h : Compiled g P) {v : Nat} (hv : v < g.n)
    (hm : (g.v v).isMatch = true) : opAt P (addr g (.mat v)) = some .match ∧
    ((g.v v).out = [] → opAt P (addr g (.mat1 v)) = some .finish) ∧
    ((g.v v).out ≠ [] → opAt P (addr g (.mat1 v)) = some .fork ∧
      P.code[addr g (.mat1 v) + 1]? = some (guard g + 1) ∧ outA g v = addr g (.mat1 v) + 2) := by
  obtain ⟨e, m, -, -, -, -, -, hat, -⟩ := parts h hv
  simp only [emitMatch, hm, if_true] at hat
  refine ⟨?_, ?_, ?_⟩
  · have := at_get hat (k := 0) (w := mkWord 11 0 0 0) (by simp)
    rw [Nat.add_zero] at this
    show opAt P (base g v + nLab g v + nChk g v) = _
    rw [opAt_of this]; rfl
  · intro ho
    rw [if_pos ho] at hat
    have := at_get hat (k := 1) (w := mkWord 6 0 0 0) (by simp)
    show opAt P (base g v + nLab g v + nChk g v + 1) = _
    rw [opAt_of this]; rfl
  · intro ho
    rw [if_neg ho] at hat
    refine ⟨?_, ?_, ?_⟩
    · have := at_get hat (k := 1) (w := mkWord 7 0 0 0) (by simp [fork])
      show opAt P (base g v + nLab g v + nChk g v + 1) = _
      rw [opAt_of this]; rfl
    · exact at_get hat (k := 2) (w := guard g + 1) (by simp [fork])
    · simp only [outA, nMat, hm, ho, if_true, if_false, addr]

theorem forks_get (f : Nat → Nat) (l : List Nat) : ∀ (j : Nat) (hj : j < l.length),
    (l.flatMap fun u => fork (f u))[2 * j]? = some (mkWord 7 0 0 0) ∧
    (l.flatMap fun u => fork (f u))[2 * j + 1]? = some (f l[j]) := by
  induction l with
  | nil => intro j hj; simp at hj
  | cons a l ih =>
    intro j hj
    cases j with
    | zero => simp [fork]
    | succ j =>
      have := ih j (by simpa using hj)
      simp only [List.flatMap_cons, fork] at this ⊢
      rw [show 2 * (j + 1) = 2 * j + 1 + 1 by omega]
      simpa using this

theorem op_out {g : Graph} {P : Program} (h : Compiled g P) {v u : Nat} {us : List Nat} (hv : v < g.n)
    (ht : isTable g v = false) (ho : (g.v v).out = u :: us) :
    (∀ j (hj : j < us.reverse.length), opAt P (outA g v + 2 * j) = some .fork ∧
      P.code[outA g v + 2 * j + 1]? = some (start g us.reverse[j])) ∧
    (follows g v u = false → opAt P (outA g v + 2 * us.length) = some .jump ∧
      P.code[outA g v + 2 * us.length + 1]? = some (start g u)) := by
  obtain ⟨e, m, -, -, -, -, -, -, hat⟩ := parts h hv
  simp only [ht, Bool.false_eq_true, if_false, emitOut, ho] at hat
  obtain ⟨a1, a2⟩ := at_append hat
  constructor
  · intro j hj
    obtain ⟨f1, f2⟩ := forks_get (start g) us.reverse j hj
    have w1 := at_get a1 f1
    have w2 := at_get a1 f2
    exact ⟨by rw [opAt_of w1]; rfl, by rw [Nat.add_assoc]; exact w2⟩
  · intro hf
    simp only [hf, Bool.false_eq_true, if_false, flatMap_fork_length, List.length_reverse] at a2
    have w1 := at_get a2 (k := 0) (w := mkWord 8 0 0 0) (by simp [jump])
    have w2 := at_get a2 (k := 1) (w := start g u) (by simp [jump])
    rw [Nat.add_zero] at w1
    exact ⟨by rw [opAt_of w1]; rfl, w2⟩

theorem tableWords_get (g : Graph) (tbl : Nat → List Nat) (is : List Nat) : ∀ (ind k b : Nat), is[k]? = some b →
    (tableWords g tbl is ind).1[k]? = some (match tbl b with
      | [] => 0
      | [t] => landing g t
      | _ => ind + 2 * ((is.take k).map (indLen tbl)).sum) ∧
    (1 < (tbl b).length → ∀ j w, (indirect g (tbl b))[j]? = some w →
      (tableWords g tbl is ind).2[2 * ((is.take k).map (indLen tbl)).sum + j]? = some w) := by
  induction is with
  | nil => intro ind k b h; simp at h
  | cons i is ih =>
    intro ind k b h
    cases k with
    | zero =>
      simp only [List.getElem?_cons_zero, Option.some.injEq] at h
      subst h
      unfold tableWords
      split
      · next he => simp [he]
      · next t he => simp [he]
      · next h1 h2 =>
        refine ⟨by simp, ?_⟩
        intro hl j w hj
        dsimp only
        have hlt : j < (indirect g (tbl i)).length := by
          by_contra hc
          rw [List.getElem?_eq_none (by omega)] at hj
          cases hj
        simpa [List.getElem?_append_left hlt] using hj
    | succ k =>
      simp only [List.getElem?_cons_succ] at h
      simp only [List.take_succ_cons, List.map_cons, List.sum_cons]
      unfold tableWords
      split
      · next he =>
        have e : indLen tbl i = 0 := by simp [indLen, he]
        rw [e, Nat.zero_add]
        dsimp only
        rw [List.getElem?_cons_succ]
        exact ih ind k b h
      · next t he =>
        have e : indLen tbl i = 0 := by simp [indLen, he]
        rw [e, Nat.zero_add]
        dsimp only
        rw [List.getElem?_cons_succ]
        exact ih ind k b h
      · next h1 h2 =>
        have hl : (tbl i).length > 1 := by
          cases ht : tbl i with
          | nil => exact absurd ht h1
          | cons a l =>
            cases l with
            | nil => exact absurd ht (h2 a)
            | cons b l => simp
        have e : indLen tbl i = (tbl i).length := by simp [indLen, hl]
        rw [e]
        dsimp only
        rw [List.getElem?_cons_succ]
        obtain ⟨i1, i2⟩ := ih (ind + 2 * (tbl i).length) k b h
        refine ⟨?_, ?_⟩
        · rw [i1, show ind + 2 * (tbl i).length + 2 * (List.map (indLen tbl) (List.take k is)).sum =
            ind + 2 * ((tbl i).length + (List.map (indLen tbl) (List.take k is)).sum) by omega]
        · intro hb j w hj
          rw [List.getElem?_append_right (by rw [indirect_length]; omega), indirect_length,
            show 2 * ((tbl i).length + (List.map (indLen tbl) (List.take k is)).sum) + j - 2 * (tbl i).length =
              2 * (List.map (indLen tbl) (List.take k is)).sum + j by omega]
          exact i2 hb j w hj

theorem take_range' (s n k : Nat) (h : k ≤ n) : (List.range' s n).take k = List.range' s k := by
  have := List.range'_append_1 (s := s) (m := k) (n := n - k)
  rw [show k + (n - k) = n by omega] at this
  rw [← this, List.take_left' (by simp)]

theorem op_tab {g : Graph} {P : Program} (h : Compiled g P) {v : Nat} (hv : v < g.n) (ht : isTable g v = true) :
    ∃ f l, minAndMax (pivot g v) = (f, l) ∧ opAt P (outA g v) = some (.jumpTable f l) ∧
      (∀ b < 256, ¬ (f ≤ b ∧ b ≤ l) → pivot g v b = []) ∧
      (∀ b, f ≤ b → b ≤ l → P.code[outA g v + 1 + (b - f)]? = some (match after g v b with
        | none => 0
        | some loc => addr g loc)) ∧
      (∀ b, f ≤ b → b ≤ l → 1 < (pivot g v b).length → ∀ j w, (indirect g (pivot g v b))[j]? = some w →
        P.code[addr g (.ind v b 0) + j]? = some w) := by
  obtain ⟨f, l, h1, h2, h3, -, -, -, h7⟩ := extent_eq (pivot g v) (table_two h.toWF hv ht)
  obtain ⟨e, m, -, -, -, -, -, -, hat⟩ := parts h hv
  simp only [ht, if_true, jumpTable, h3] at hat
  have w0 := at_get hat (k := 0) (w := mkWord 0 0 f l) (by simp)
  rw [Nat.add_zero] at w0
  have hat' : At P (outA g v + 1) ((tableWords g (pivot g v) (List.range' f (l + 1 - f)) (outA g v + 2 + (l - f))).1 ++
      (tableWords g (pivot g v) (List.range' f (l + 1 - f)) (outA g v + 2 + (l - f))).2) := by
    intro k w hk
    have := at_get hat (k := k + 1) (w := w) (by simpa using hk)
    rw [show outA g v + 1 + k = outA g v + (k + 1) by omega]
    exact this
  obtain ⟨a1, a2⟩ := at_append hat'
  rw [(tableWords_length g (pivot g v) _ _).1, List.length_range'] at a2
  have hidx : ∀ b, f ≤ b → b ≤ l → (List.range' f (l + 1 - f))[b - f]? = some b := by
    intro b hb1 hb2
    rw [List.getElem?_range' (by omega)]
    congr 1
    omega
  have hoff : ∀ b, f ≤ b → b ≤ l →
      (((List.range' f (l + 1 - f)).take (b - f)).map (indLen (pivot g v))).sum = indOff g v b := by
    intro b hb1 hb2
    rw [take_range' _ _ _ (by omega)]
    simp only [indOff, h3]
  refine ⟨f, l, h3, ?_, ?_, ?_, ?_⟩
  · rw [opAt_of w0, decode_table (by omega) h2]
  · intro b hb hn
    by_contra hne
    exact hn (h7 b hb hne)
  · intro b hb1 hb2
    obtain ⟨t1, -⟩ := tableWords_get g (pivot g v) _ (outA g v + 2 + (l - f)) (b - f) b (hidx b hb1 hb2)
    rw [at_get a1 t1]
    congr 1
    rw [hoff b hb1 hb2]
    unfold after
    cases hp : pivot g v b with
    | nil => rfl
    | cons t ts =>
      cases ts with
      | nil =>
        dsimp only
        have : t ∈ pivot g v b := by rw [hp]; simp
        rw [addr_land h.toLive (h.edges v hv t ((mem_pivot g v b t).1 this).1).2]
      | cons t' ts =>
        dsimp only
        simp only [addr, h3, Nat.mul_zero, Nat.add_zero]
  · intro b hb1 hb2 hl j w hj
    obtain ⟨-, t2⟩ := tableWords_get g (pivot g v) _ (outA g v + 2 + (l - f)) (b - f) b (hidx b hb1 hb2)
    have := at_get a2 (t2 hl j w hj)
    rw [hoff b hb1 hb2] at this
    simp only [addr, h3]
    rw [← this]
    congr 1
    omega

theorem op_ind {g : Graph} {P : Program} (h : Compiled g P) {v b : Nat} (hv : v < g.n) (ht : isTable g v = true)
    (hb : b < 256) {t : Nat} {ts : List Nat} (hp : pivot g v b = t :: ts) (hl : ts ≠ []) :
    (∀ j (hj : j < ts.reverse.length), opAt P (addr g (.ind v b j)) = some .fork ∧
      P.code[addr g (.ind v b j) + 1]? = some (landing g ts.reverse[j])) ∧
    opAt P (addr g (.ind v b ts.length)) = some .jump ∧
      P.code[addr g (.ind v b ts.length) + 1]? = some (landing g t) := by
  obtain ⟨f, l, -, -, o2, -, o4⟩ := op_tab h hv ht
  have hfl : f ≤ b ∧ b ≤ l := by
    by_contra hc
    rw [o2 b hb hc] at hp
    cases hp
  have hlen : 1 < (pivot g v b).length := by
    rw [hp, List.length_cons]
    have := List.length_pos_iff.2 hl
    omega
  have hget := o4 b hfl.1 hfl.2 hlen
  rw [hp] at hget
  simp only [indirect] at hget
  have hadd : ∀ j, addr g (.ind v b j) = addr g (.ind v b 0) + 2 * j := by intro j; simp [addr]
  constructor
  · intro j hj
    obtain ⟨f1, f2⟩ := forks_get (landing g) ts.reverse j hj
    have l1 : 2 * j + 1 < (ts.reverse.flatMap fun u => fork (landing g u)).length := by
      rw [flatMap_fork_length]; omega
    have w1 := hget (2 * j) _ (by rw [List.getElem?_append_left (by omega)]; exact f1)
    have w2 := hget (2 * j + 1) _ (by rw [List.getElem?_append_left l1]; exact f2)
    rw [hadd]
    exact ⟨by rw [opAt_of w1]; rfl, by rw [Nat.add_assoc]; exact w2⟩
  · have w1 := hget (2 * ts.length) (mkWord 8 0 0 0) (by
      rw [List.getElem?_append_right (by rw [flatMap_fork_length, List.length_reverse]), flatMap_fork_length, List.length_reverse,
        Nat.sub_self]
      rfl)
    have w2 := hget (2 * ts.length + 1) (landing g t) (by
      rw [List.getElem?_append_right (by rw [flatMap_fork_length, List.length_reverse]; omega), flatMap_fork_length,
        List.length_reverse, show 2 * ts.length + 1 - 2 * ts.length = 1 by omega]
      rfl)
    rw [hadd]
    exact ⟨by rw [opAt_of w1]; rfl, by rw [Nat.add_assoc]; exact w2⟩

/-! ## The instruction at each place -/

/-- Instructions that read a byte. -/
def reads : Op → Bool
  | .jumpTable _ _ => true
  | .byte _ _ => true
  | .bitVector => true
  | .either _ _ _ => true
  | .range _ _ _ => true
  | .any => true
  | _ => false

/-- Reading a byte at a place. -/
def Reads (g : Graph) (P : Program) (l : Loc) : Prop :=
  (∃ op, opAt P (addr g l) = some op ∧ reads op = true) ∧
  ∀ (th : Thread) (b : UInt8), th.pc = addr g l →
    exec P th b = .ok (match consume g b l with
      | none => none
      | some l' => if addr g l' = 0 then none else some { th with pc := addr g l' })

theorem emit_op {t : Trans} {ws : List Nat} (h : t.emit = some ws) : ∃ w, ws[0]? = some w ∧ reads (decode w) = true := by
  cases t with
  | byte b =>
    simp only [Trans.emit, Option.some.injEq] at h; subst h
    refine ⟨_, rfl, ?_⟩
    have e1 : mkWord 1 0 b 0 % 256 = 1 := by unfold mkWord; omega
    simp [decode, e1, reads]
  | either a b =>
    simp only [Trans.emit, Option.some.injEq] at h; subst h
    refine ⟨_, rfl, ?_⟩
    have e1 : mkWord 3 0 a b % 256 = 3 := by unfold mkWord; omega
    simp [decode, e1, reads]
  | range a b =>
    simp only [Trans.emit] at h
    split at h
    · simp only [Option.some.injEq] at h; subst h
      exact ⟨_, rfl, by decide⟩
    · split at h
      · cases h
      · simp only [Option.some.injEq] at h; subst h
        refine ⟨_, rfl, ?_⟩
        have e1 : mkWord 4 0 a b % 256 = 4 := by unfold mkWord; omega
        simp [decode, e1, reads]
  | set s =>
    simp only [Trans.emit, Option.some.injEq] at h; subst h
    exact ⟨_, rfl, by decide⟩

theorem trans_size_pos (t : Trans) : 0 < t.size := by cases t <;> simp [Trans.size]

theorem reads_start {g : Graph} {P : Program} (h : Compiled g P) {u : Nat} (h0 : u ≠ 0) (hu : u < g.n) :
    Reads g P (.start u) := by
  obtain ⟨e, m, he, -, hem, hat, -, -, -⟩ := parts h hu
  obtain ⟨hemit, -⟩ := hem h0
  constructor
  · obtain ⟨w, hw, hr⟩ := emit_op hemit
    have := at_get hat hw
    rw [Nat.add_zero] at this
    exact ⟨_, opAt_of this, hr⟩
  · intro th b hpc
    have hpc' : th.pc = start g u := hpc
    have hx := exec_emit (P := P) (getSmallest_ok _) hemit th (by rw [hpc']; exact hat) b
    rw [hx, getSmallest_allowed _ _ b.toNat_lt]
    simp only [consume]
    by_cases hh : (g.v u).bytes.has b = true
    · rw [if_pos hh, if_pos (by exact hh)]
      have hb : addr g (entryLab g u) = th.pc + (getSmallest fun i => (g.v u).bytes.getLsbD i).size := by
        rw [addr_entryLab h.toLive hu, hpc', base, evalSize, if_neg h0]
        rfl
      have hp := trans_size_pos (getSmallest fun i => (g.v u).bytes.getLsbD i)
      dsimp only
      rw [if_neg (by omega), hb]
    · rw [if_neg hh, if_neg (by exact hh)]

theorem reads_tab {g : Graph} {P : Program} (h : Compiled g P) {v : Nat} (hv : v < g.n) (ht : isTable g v = true) :
    Reads g P (.tab v) := by
  obtain ⟨f, l, -, o1, o2, o3, -⟩ := op_tab h hv ht
  constructor
  · exact ⟨_, o1, rfl⟩
  · intro th b hpc
    have hpc' : th.pc = outA g v := hpc
    simp only [exec, hpc', o1, consume]
    by_cases hfl : f ≤ b.toNat ∧ b.toNat ≤ l
    · rw [if_pos hfl, o3 _ hfl.1 hfl.2]
      dsimp only
      cases hafter : after g v b.toNat with
      | none => simp
      | some loc =>
        dsimp only
        by_cases hz : addr g loc = 0
        · simp [hz]
        · simp [hz]
    · rw [if_neg hfl]
      have : after g v b.toNat = none := by
        unfold after
        rw [o2 _ b.toNat_lt hfl]
      rw [this]

/-- What a program holds at a place, for an instruction. -/
def Spec (g : Graph) (P : Program) (l : Loc) : LOp → Prop
  | .read _ => Reads g P l
  | .table _ => Reads g P l
  | .fork n t => opAt P (addr g l) = some .fork ∧ P.code[addr g l + 1]? = some (addr g t) ∧ addr g n = addr g l + 2
  | .jump t => opAt P (addr g l) = some .jump ∧ P.code[addr g l + 1]? = some (addr g t)
  | .check i n => opAt P (addr g l) = some (.checkHalt i) ∧ addr g n = addr g l + 1 ∧ 0 < i ∧ i ≤ maxCheck g
  | .label i n => opAt P (addr g l) = some (.label i) ∧ addr g n = addr g l + 1
  | .mtch n => opAt P (addr g l) = some .match ∧ addr g n = addr g l + 1
  | .finish => opAt P (addr g l) = some .finish
  | .halt => opAt P (addr g l) = some .halt

/-- At every place the program holds the instruction. -/
theorem lop_spec {g : Graph} {P : Program} (h : Compiled g P) {l : Loc} (hl : l.ok g) : Spec g P l (lop g l) := by
  cases l with
  | start u => exact reads_start h (by have := hl.1; omega) hl.2
  | lab v =>
    obtain ⟨h0, hv, hne⟩ := hl
    obtain ⟨l, hlab⟩ := Option.ne_none_iff_exists'.1 hne
    simp only [lop, Spec, hlab, Option.getD_some]
    refine ⟨op_lab h (by omega) hv hlab, ?_⟩
    rw [addr_entryChk h.toLive hv, nLab, hlab]
    rfl
  | chk v =>
    obtain ⟨h0, hv, hne⟩ := hl
    obtain ⟨i, hi⟩ := Option.ne_none_iff_exists'.1 hne
    simp only [lop, Spec, hi, Option.getD_some]
    refine ⟨op_chk h (by omega) hv hi, ?_, check_le hi⟩
    rw [addr_entryMat h.toLive hv, nChk, hi]
    rfl
  | mat v => exact ⟨(op_mat h hl.2.1 hl.2.2).1, rfl⟩
  | mat1 v =>
    obtain ⟨-, o2, o3⟩ := op_mat h hl.2.1 hl.2.2
    simp only [lop]
    split
    · next ho => exact o2 ho
    · next ho =>
      obtain ⟨p1, p2, p3⟩ := o3 ho
      refine ⟨p1, p2, ?_⟩
      rw [addr_entryOut h.toWF hl.2.1 ho, p3]
  | out v j =>
    obtain ⟨hv, ht, hj⟩ := hl
    have hne : (g.v v).out ≠ [] := by intro e; rw [e] at hj; simp at hj
    obtain ⟨u, us, he⟩ := List.exists_cons_of_ne_nil hne
    have hj' : j < us.reverse.length := by rw [he] at hj; simpa using hj
    obtain ⟨o1, -⟩ := op_out h hv ht he
    obtain ⟨p1, p2⟩ := o1 j hj'
    simp only [lop, Spec, he, List.tail_cons, List.getElem?_eq_getElem hj', Option.getD_some]
    refine ⟨p1, p2, ?_⟩
    rw [addr_outLoc h.toWF hv ht he (by rw [List.length_reverse] at hj'; omega)]
    simp only [addr]
    omega
  | last v =>
    obtain ⟨hv, ht, u, us, ho, hf⟩ := hl
    obtain ⟨-, o2⟩ := op_out h hv ht ho
    obtain ⟨p1, p2⟩ := o2 hf
    simp only [lop, Spec, ho, List.head?_cons, Option.getD_some, addr, List.length_cons, Nat.add_sub_cancel]
    exact ⟨p1, p2⟩
  | tab v => exact reads_tab h hl.1 hl.2
  | ind v b j =>
    obtain ⟨hv, ht, hb, h1, hj⟩ := hl
    simp only [lop]
    have hm : ∀ x ∈ pivot g v b, x < g.n := fun x hx => (h.edges v hv x ((mem_pivot g v b x).1 hx).1).2
    split
    · next he => rw [he] at h1; simp at h1
    · next t ts he =>
      rw [he] at h1 hj hm
      have hne : ts ≠ [] := by rintro rfl; simp at h1
      obtain ⟨o1, o2, o3⟩ := op_ind h hv ht hb he hne
      split
      · next hj' =>
        have hj'' : j < ts.reverse.length := by simpa using hj'
        obtain ⟨p1, p2⟩ := o1 j hj''
        have hmem : ts.reverse[j] ∈ t :: ts := by
          have := List.getElem_mem hj''
          rw [List.mem_reverse] at this
          exact List.mem_cons_of_mem _ this
        refine ⟨p1, ?_, ?_⟩
        · rw [p2, List.getElem?_eq_getElem hj'', Option.getD_some, addr_land h.toLive (hm _ hmem)]
        · simp only [addr]; omega
      · next hj' =>
        simp only [List.length_cons] at hj
        have e : j = ts.length := by omega
        subst e
        refine ⟨o2, ?_⟩
        rw [o3, addr_land h.toLive (hm t (by simp))]
  | halt => exact op_halt h
  | fin => exact op_fin h

end Verif.Compiler
