import Verif.VmSound
import Verif.VmSafe
import Mathlib.Data.Fintype.List
import Mathlib.Data.Set.Finite.List
import Mathlib.Order.WellFounded
import Mathlib.Data.Fintype.Order
/-!
# The preferred matches of a program

Runs of a program are ordered by their start and then by their fork decisions.  The
hits of a keyword that the VM should report are defined here (`Greedy`) without any
reference to the VM: the preferred match of the stream, then the preferred one among
those that start at or after its end, and so on.
-/
namespace Verif.Vm

/-! ## Keys -/

/-- The first key separates from the second and goes before it: at the first place
where they differ the first does not take the jump. -/
def Div : List Bool → List Bool → Prop
  | false :: _, true :: _ => True
  | a :: k, b :: k' => a = b ∧ Div k k'
  | _, _ => False

theorem div_nil_right (k : List Bool) : ¬ Div k [] := by
  cases k with
  | nil => simp [Div]
  | cons a k => cases a <;> simp [Div]

theorem div_nil_left (k : List Bool) : ¬ Div [] k := by simp [Div]

theorem div_ft (k k' : List Bool) : Div (false :: k) (true :: k') := trivial
theorem div_tf (k k' : List Bool) : ¬ Div (true :: k) (false :: k') := by simp [Div]
theorem div_same (a : Bool) (k k' : List Bool) : Div (a :: k) (a :: k') ↔ Div k k' := by
  cases a <;> simp [Div]

theorem div_irrefl (k : List Bool) : ¬ Div k k := by
  induction k with
  | nil => exact div_nil_left _
  | cons a k ih => rw [div_same]; exact ih

theorem div_trans {a : List Bool} : ∀ {b c : List Bool}, Div a b → Div b c → Div a c := by
  induction a with
  | nil => intro b c h; exact (div_nil_left _ h).elim
  | cons x a ih =>
    intro b c h1 h2
    cases b with
    | nil => exact (div_nil_right _ h1).elim
    | cons y b =>
      cases c with
      | nil => exact (div_nil_right _ h2).elim
      | cons z c =>
        cases x <;> cases y <;> cases z <;> simp_all [Div]
        · exact ih h1 h2
        · exact ih h1 h2

theorem div_append {a b : List Bool} (x y : List Bool) (h : Div a b) : Div (a ++ x) (b ++ y) := by
  induction a generalizing b with
  | nil => exact (div_nil_left _ h).elim
  | cons c a ih =>
    cases b with
    | nil => exact (div_nil_right _ h).elim
    | cons d b => cases c <;> cases d <;> simp_all [Div]

theorem div_left (p a b : List Bool) : Div (p ++ a) (p ++ b) ↔ Div a b := by
  induction p with
  | nil => rfl
  | cons c p ih => rw [List.cons_append, List.cons_append, div_same, ih]

theorem div_not_prefix {a b : List Bool} (h : Div a b) : ¬ a <+: b ∧ ¬ b <+: a := by
  constructor
  · rintro ⟨t, rfl⟩
    have : Div (a ++ []) (a ++ t) := by simpa using h
    rw [div_left] at this
    exact div_nil_left _ this
  · rintro ⟨t, rfl⟩
    have : Div (b ++ t) (b ++ []) := by simpa using h
    rw [div_left] at this
    exact div_nil_right _ this

theorem div_cases (a b : List Bool) : Div a b ∨ Div b a ∨ a <+: b ∨ b <+: a := by
  induction a generalizing b with
  | nil => simp
  | cons x a ih =>
    cases b with
    | nil => simp
    | cons y b =>
      rcases ih b with h | h | h | h <;> cases x <;> cases y <;> simp_all [Div, List.cons_prefix_cons]

/-- Going before a key extended by a jump. -/
theorem div_snoc_true {a k : List Bool} (h : Div a (k ++ [true])) : Div a k ∨ k ++ [false] <+: a := by
  induction k generalizing a with
  | nil =>
    cases a with
    | nil => exact (div_nil_left _ h).elim
    | cons x a =>
      cases x with
      | false => right; simp
      | true => simp only [List.nil_append, div_same] at h; exact (div_nil_right _ h).elim
  | cons c k ih =>
    cases a with
    | nil => exact (div_nil_left _ h).elim
    | cons x a =>
      cases x <;> cases c <;> simp_all [Div, List.cons_prefix_cons]

theorem div_snoc_false {a k : List Bool} (h : Div a (k ++ [false])) : Div a k := by
  induction k generalizing a with
  | nil =>
    cases a with
    | nil => exact (div_nil_left _ h).elim
    | cons x a =>
      cases x with
      | false => simp only [List.nil_append, div_same] at h; exact (div_nil_right _ h).elim
      | true => exact (div_tf _ _ h).elim
  | cons c k ih =>
    cases a with
    | nil => exact (div_nil_left _ h).elim
    | cons x a => cases x <;> cases c <;> simp_all [Div]

/-- Order of runs: by start, then by key. -/
def Lt (a b : Nat × List Bool) : Prop := a.1 < b.1 ∨ (a.1 = b.1 ∧ Div a.2 b.2)

theorem lt_irrefl (a : Nat × List Bool) : ¬ Lt a a := by
  rintro (h | ⟨-, h⟩)
  · omega
  · exact div_irrefl _ h

theorem lt_trans {a b c : Nat × List Bool} (h1 : Lt a b) (h2 : Lt b c) : Lt a c := by
  rcases h1 with h1 | ⟨e1, h1⟩ <;> rcases h2 with h2 | ⟨e2, h2⟩
  · left; omega
  · left; omega
  · left; omega
  · exact Or.inr ⟨e1.trans e2, div_trans h1 h2⟩

theorem lt_append {s s' : Nat} {k k' : List Bool} (x y : List Bool) (h : Lt (s, k) (s', k')) :
    Lt (s, k ++ x) (s', k' ++ y) := by
  rcases h with h | ⟨e, h⟩
  · exact Or.inl h
  · exact Or.inr ⟨e, div_append x y h⟩

/-! ## Accepting runs -/

/-- From `pc` with label `lab`, reading exactly `w` and taking the fork decisions `k`,
control arrives at Finish with label `l`. -/
inductive AccFrom (P : Program) (l : Nat) : Nat → Option Nat → List UInt8 → List Bool → Prop
  | finish {pc} : opAt P pc = some .finish → AccFrom P l pc (some l) [] []
  | fork1 {pc lab w k} : opAt P pc = some .fork → AccFrom P l (pc + 2) lab w k → AccFrom P l pc lab w (false :: k)
  | fork2 {pc lab w k a} : opAt P pc = some .fork → P.code[pc + 1]? = some a → AccFrom P l a lab w k →
      AccFrom P l pc lab w (true :: k)
  | jump {pc lab w k a} : opAt P pc = some .jump → P.code[pc + 1]? = some a → AccFrom P l a lab w k →
      AccFrom P l pc lab w k
  | check {pc lab w k i} : opAt P pc = some (.checkHalt i) → AccFrom P l (pc + 1) lab w k → AccFrom P l pc lab w k
  | label {pc lab w k i} : opAt P pc = some (.label i) → AccFrom P l (pc + 1) (some i) w k → AccFrom P l pc lab w k
  | match {pc lab w k} : opAt P pc = some .match → AccFrom P l (pc + 1) lab w k → AccFrom P l pc lab w k
  | byte {pc lab b pc' w k} : Cons P b pc pc' → AccFrom P l pc' lab w k → AccFrom P l pc lab (b :: w) k

theorem cons_op {P : Program} {b : UInt8} {pc pc' : Nat} (h : Cons P b pc pc') : ∃ o, opAt P pc = some o ∧
    o ≠ .finish ∧ o ≠ .fork ∧ o ≠ .jump ∧ (∀ i, o ≠ .checkHalt i) ∧ (∀ i, o ≠ .label i) ∧ o ≠ .match ∧ o ≠ .halt := by
  cases h <;> exact ⟨_, by assumption, by simp, by simp, by simp, by simp, by simp, by simp, by simp⟩

theorem cons_det {P : Program} {b : UInt8} {pc p1 p2 : Nat} (h1 : Cons P b pc p1) (h2 : Cons P b pc p2) : p1 = p2 := by
  cases h1 <;> cases h2 <;> simp_all

/-- Accepting runs at an instruction. -/
theorem acc_fork {P : Program} {l pc : Nat} {lab w k} (h : AccFrom P l pc lab w k) (ho : opAt P pc = some .fork) :
    (∃ k', k = false :: k' ∧ AccFrom P l (pc + 2) lab w k') ∨
    ∃ k' a, k = true :: k' ∧ P.code[pc + 1]? = some a ∧ AccFrom P l a lab w k' := by
  cases h with
  | fork1 _ h => exact Or.inl ⟨_, rfl, h⟩
  | fork2 _ ha h => exact Or.inr ⟨_, _, rfl, ha, h⟩
  | byte h _ => obtain ⟨o, h1, h2⟩ := cons_op h; simp_all
  | _ => simp_all

theorem acc_jump {P : Program} {l pc a : Nat} {lab w k} (h : AccFrom P l pc lab w k) (ho : opAt P pc = some .jump)
    (ha : P.code[pc + 1]? = some a) : AccFrom P l a lab w k := by
  cases h with
  | jump _ hb h => rw [ha] at hb; cases hb; exact h
  | byte h _ => obtain ⟨o, h1, h2⟩ := cons_op h; simp_all
  | _ => simp_all

theorem acc_check {P : Program} {l pc i : Nat} {lab w k} (h : AccFrom P l pc lab w k)
    (ho : opAt P pc = some (.checkHalt i)) : AccFrom P l (pc + 1) lab w k := by
  cases h with
  | check _ h => exact h
  | byte h _ => obtain ⟨o, h1, h2⟩ := cons_op h; simp_all
  | _ => simp_all

theorem acc_label {P : Program} {l pc i : Nat} {lab w k} (h : AccFrom P l pc lab w k)
    (ho : opAt P pc = some (.label i)) : AccFrom P l (pc + 1) (some i) w k := by
  cases h with
  | label h1 h => rw [ho] at h1; cases h1; exact h
  | byte h _ => obtain ⟨o, h1, h2⟩ := cons_op h; simp_all
  | _ => simp_all

theorem acc_match {P : Program} {l pc : Nat} {lab w k} (h : AccFrom P l pc lab w k)
    (ho : opAt P pc = some .match) : AccFrom P l (pc + 1) lab w k := by
  cases h with
  | «match» _ h => exact h
  | byte h _ => obtain ⟨o, h1, h2⟩ := cons_op h; simp_all
  | _ => simp_all

theorem acc_finish {P : Program} {l pc : Nat} {lab w k} (h : AccFrom P l pc lab w k)
    (ho : opAt P pc = some .finish) : lab = some l ∧ w = [] ∧ k = [] := by
  cases h with
  | finish _ => exact ⟨rfl, rfl, rfl⟩
  | byte h _ => obtain ⟨o, h1, h2⟩ := cons_op h; simp_all
  | _ => simp_all

theorem acc_halt {P : Program} {l pc : Nat} {lab w k} (h : AccFrom P l pc lab w k)
    (ho : opAt P pc = some .halt) : False := by
  cases h with
  | byte h _ => obtain ⟨o, h1, h2⟩ := cons_op h; simp_all
  | _ => simp_all

/-- At any other instruction a byte is read. -/
theorem acc_read {P : Program} {l pc : Nat} {lab w k} (h : AccFrom P l pc lab w k) {o : Op} (ho : opAt P pc = some o)
    (h1 : o ≠ .finish) (h2 : o ≠ .fork) (h3 : o ≠ .jump) (h4 : ∀ i, o ≠ .checkHalt i) (h5 : ∀ i, o ≠ .label i)
    (h6 : o ≠ .match) : ∃ b pc' w', w = b :: w' ∧ Cons P b pc pc' ∧ AccFrom P l pc' lab w' k := by
  cases h with
  | byte h h' => exact ⟨_, _, _, rfl, h, h'⟩
  | check hc _ => rw [ho] at hc; cases hc; exact (h4 _ rfl).elim
  | label hc _ => rw [ho] at hc; cases hc; exact (h5 _ rfl).elim
  | _ => simp_all

/-- A run followed by an accepting run. -/
theorem acc_of_run {P : Program} {l : Nat} {w k pc lab} (hr : Run P w k pc lab) : ∀ {w' k'},
    AccFrom P l pc lab w' k' → AccFrom P l 0 none (w ++ w') (k ++ k') := by
  induction hr with
  | init => intro w' k' h; simpa using h
  | fork1 _ ho ih => intro w' k' h; have := ih (h.fork1 ho); simpa using this
  | fork2 _ ho ha ih => intro w' k' h; have := ih (h.fork2 ho ha); simpa using this
  | jump _ ho ha ih => intro w' k' h; exact ih (h.jump ho ha)
  | check _ ho ih => intro w' k' h; exact ih (h.check ho)
  | label _ ho ih => intro w' k' h; exact ih (h.label ho)
  | «match» _ ho ih => intro w' k' h; exact ih (h.match ho)
  | byte _ hc ih => intro w' k' h; have := ih (h.byte hc); simpa using this

/-- Two accepting runs over the same stream that do not separate are the same. -/
theorem acc_unique {P : Program} {l l' pc : Nat} {lab w k} (h : AccFrom P l pc lab w k) : ∀ {w' k'},
    AccFrom P l' pc lab w' k' → (w <+: w' ∨ w' <+: w) → (k <+: k' ∨ k' <+: k) → l = l' ∧ w = w' ∧ k = k' := by
  induction h with
  | finish ho =>
    intro w' k' h' _ _
    obtain ⟨e, rfl, rfl⟩ := acc_finish h' ho
    simp_all
  | fork1 ho _ ih =>
    intro w' k' h' hw hk
    rcases acc_fork h' ho with ⟨k1, rfl, h1⟩ | ⟨k1, a, rfl, -, h1⟩
    · obtain ⟨e1, e2, rfl⟩ := ih h1 hw (by simpa [List.cons_prefix_cons] using hk)
      exact ⟨e1, e2, rfl⟩
    · simp [List.cons_prefix_cons] at hk
  | fork2 ho ha _ ih =>
    intro w' k' h' hw hk
    rcases acc_fork h' ho with ⟨k1, rfl, h1⟩ | ⟨k1, a, rfl, hb, h1⟩
    · simp [List.cons_prefix_cons] at hk
    · rw [ha] at hb
      cases hb
      obtain ⟨e1, e2, rfl⟩ := ih h1 hw (by simpa [List.cons_prefix_cons] using hk)
      exact ⟨e1, e2, rfl⟩
  | jump ho ha _ ih => intro w' k' h' hw hk; exact ih (acc_jump h' ho ha) hw hk
  | check ho _ ih => intro w' k' h' hw hk; exact ih (acc_check h' ho) hw hk
  | label ho _ ih => intro w' k' h' hw hk; exact ih (acc_label h' ho) hw hk
  | «match» ho _ ih => intro w' k' h' hw hk; exact ih (acc_match h' ho) hw hk
  | @byte _ _ b _ _ _ hc _ ih =>
    intro w' k' h' hw hk
    obtain ⟨o, h1, h2, h3, h4, h5, h6, h7, h8⟩ := cons_op hc
    obtain ⟨b', pc', w1, rfl, hc', h''⟩ := acc_read h' h1 h2 h3 h4 h5 h6 h7
    rw [List.cons_prefix_cons, List.cons_prefix_cons] at hw
    have hb : b = b' := by
      rcases hw with ⟨e, -⟩ | ⟨e, -⟩
      · exact e
      · exact e.symm
    subst hb
    have := cons_det hc hc'
    subst this
    obtain ⟨e1, rfl, e3⟩ := ih h'' (by simpa using hw) hk
    exact ⟨e1, rfl, e3⟩

theorem exec_cons {P : Program} {b : UInt8} {th : Thread} {pc' : Nat} (h : Cons P b th.pc pc') :
    exec P th b = .ok (some { th with pc := pc' }) := by
  cases h with
  | table f l a h1 h2 h3 h4 h5 => simp [exec, h1, h2, h3, h4, h5]
  | byte x n h1 h2 => simp only [exec, h1]; rw [if_pos h2]
  | bits w h1 h2 h3 => simp [exec, h1, h2, h3]
  | either x y n h1 h2 => simp only [exec, h1]; rw [if_pos h2]
  | range x y n h1 h2 => simp only [exec, h1]; rw [if_pos h2]
  | any h1 => simp [exec, h1]

/-- Accepting runs take boundedly many decisions. -/
theorem acc_length {P : Program} {K : Nat → Option Nat → Nat → Prop} {B : Nat} (hB : Bounded P K B) {l pc : Nat}
    {lab w k} (h : AccFrom P l pc lab w k) : ∀ {m}, K pc lab m → m ≤ B → k.length ≤ m + w.length * (B + 1) := by
  induction h with
  | finish ho => intro m _ _; simp
  | fork1 ho _ ih =>
    intro m hk hm
    obtain ⟨⟨m1, h1, k1⟩, -⟩ := hB.fork hk ho
    have := ih k1 (by omega)
    simp only [List.length_cons]
    omega
  | fork2 ho ha _ ih =>
    intro m hk hm
    obtain ⟨-, b, hb, m1, h1, k1⟩ := hB.fork hk ho
    rw [ha] at hb
    cases hb
    have := ih k1 (by omega)
    simp only [List.length_cons]
    omega
  | jump ho ha _ ih =>
    intro m hk hm
    obtain ⟨b, hb, m1, h1, k1⟩ := hB.jump hk ho
    rw [ha] at hb
    cases hb
    have := ih k1 (by omega)
    omega
  | check ho _ ih =>
    intro m hk hm
    obtain ⟨-, m1, h1, k1⟩ := hB.check hk ho
    have := ih k1 (by omega)
    omega
  | label ho _ ih =>
    intro m hk hm
    obtain ⟨-, m1, h1, k1⟩ := hB.label hk ho
    have := ih k1 (by omega)
    omega
  | «match» ho _ ih =>
    intro m hk hm
    obtain ⟨-, m1, h1, k1⟩ := hB.mtch hk ho
    have := ih k1 (by omega)
    omega
  | @byte pc lab b pc' w k hc _ ih =>
    intro m hk hm
    obtain ⟨r, hx, hr⟩ := hB.exec (t := ⟨pc, 0, none, lab, false⟩) hk hm b
    rw [exec_cons (th := ⟨pc, 0, none, lab, false⟩) hc] at hx
    cases hx
    obtain ⟨m1, h1, k1⟩ := hr _ rfl
    have := ih k1 h1
    simp only [List.length_cons, Nat.add_mul]
    omega

/-! ## The preferred matches -/

theorem seg_prefix (data : Nat → UInt8) (s e e' : Nat) : seg data s e <+: seg data s e' ∨ seg data s e' <+: seg data s e := by
  have key : ∀ a b : Nat, a ≤ b → seg data s a <+: seg data s b := by
    intro a b h
    unfold seg
    refine List.IsPrefix.map _ ?_
    rw [List.prefix_iff_eq_take, List.length_range]
    rw [List.take_range]
    congr 1
    omega
  rcases Nat.le_total e e' with h | h
  · exact Or.inl (key _ _ h)
  · exact Or.inr (key _ _ h)

theorem seg_length (data : Nat → UInt8) (s e : Nat) : (seg data s e).length = e - s := by simp [seg]

theorem seg_cons (data : Nat → UInt8) {s e : Nat} (h : s < e) : seg data s e = data s :: seg data (s + 1) e := by
  unfold seg
  rw [show e - s = (e - (s + 1)) + 1 by omega, List.range_succ_eq_map]
  simp only [List.map_cons, List.map_map, Nat.add_zero, List.cons.injEq, true_and]
  apply List.map_congr_left
  intro a _
  simp only [Function.comp, Nat.succ_eq_add_one]
  congr 1
  omega

theorem seg_append (data : Nat → UInt8) {s i e : Nat} (h1 : s ≤ i) (h2 : i ≤ e) :
    seg data s e = seg data s i ++ seg data i e := by
  obtain ⟨d, rfl⟩ := Nat.le.dest h1
  induction d generalizing s with
  | zero => simp [seg_self]
  | succ d ih =>
    rw [seg_cons data (show s < e by omega), seg_cons data (show s < s + (d + 1) by omega), List.cons_append]
    have := ih (s := s + 1) (by omega) (by omega)
    rw [show s + 1 + d = s + (d + 1) by omega] at this
    rw [this]

section
variable (P : Program) (data : Nat → UInt8) (lo N : Nat)

/-- Keyword `l` matches the stream from `s` to `e` (between offsets `lo` and `N`) by the
run with decisions `κ`. -/
def AccR (l s : Nat) (κ : List Bool) (e : Nat) : Prop :=
  lo ≤ s ∧ s < e ∧ e ≤ N ∧ AccFrom P l 0 none (seg data s e) κ

/-- The preferred match of keyword `l` among those that start at or after `m`. -/
def IsBest (l m s : Nat) (κ : List Bool) (e : Nat) : Prop :=
  AccR P data lo N l s κ e ∧ m ≤ s ∧ ∀ s' κ' e', AccR P data lo N l s' κ' e' → m ≤ s' → ¬ Lt (s', κ') (s, κ)

/-- The matches to report for keyword `l` from offset `m` on. -/
inductive Greedy (l : Nat) : Nat → List (Nat × Nat) → Prop
  | done {m} : (∀ s κ e, AccR P data lo N l s κ e → ¬ m ≤ s) → Greedy l m []
  | hit {m s κ e hs} : IsBest P data lo N l m s κ e → Greedy l e hs → Greedy l m ((s, e) :: hs)

/-- One of the matches to report. -/
inductive Mem (l : Nat) : Nat → Nat → List Bool → Nat → Prop
  | here {m s κ e} : IsBest P data lo N l m s κ e → Mem l m s κ e
  | next {m s₁ κ₁ e₁ s κ e} : IsBest P data lo N l m s₁ κ₁ e₁ → Mem l e₁ s κ e → Mem l m s κ e
end

section
variable {P : Program} {data : Nat → UInt8} {lo N : Nat}

theorem accR_unique {l s κ e κ' e'} (h : AccR P data lo N l s κ e) (h' : AccR P data lo N l s κ' e')
    (hk : κ <+: κ' ∨ κ' <+: κ) : κ = κ' ∧ e = e' := by
  obtain ⟨-, e2, e3⟩ := acc_unique h.2.2.2 h'.2.2.2 (seg_prefix data s e e') hk
  have := congrArg List.length e2
  rw [seg_length, seg_length] at this
  have := h.2.1
  have := h'.2.1
  exact ⟨e3, by omega⟩

theorem best_unique {l m s κ e s' κ' e'} (h : IsBest P data lo N l m s κ e) (h' : IsBest P data lo N l m s' κ' e') :
    s = s' ∧ κ = κ' ∧ e = e' := by
  have h1 := h.2.2 _ _ _ h'.1 h'.2.1
  have h2 := h'.2.2 _ _ _ h.1 h.2.1
  have hs : s = s' := by
    rcases Nat.lt_trichotomy s s' with hh | hh | hh
    · exact (h2 (Or.inl hh)).elim
    · exact hh
    · exact (h1 (Or.inl hh)).elim
  subst hs
  have hk : κ <+: κ' ∨ κ' <+: κ := by
    rcases div_cases κ κ' with hd | hd | hd
    · exact (h2 (Or.inr ⟨rfl, hd⟩)).elim
    · exact (h1 (Or.inr ⟨rfl, hd⟩)).elim
    · exact hd
  obtain ⟨e1, e2⟩ := accR_unique h.1 h'.1 hk
  exact ⟨rfl, e1, e2⟩

theorem mem_acc {l m s κ e} (h : Mem P data lo N l m s κ e) : m ≤ s ∧ AccR P data lo N l s κ e := by
  induction h with
  | here h => exact ⟨h.2.1, h.1⟩
  | next h _ ih =>
    refine ⟨?_, ih.2⟩
    have := h.2.1
    have := h.1.2.1
    omega

theorem mem_best {l m s κ e} (h : Mem P data lo N l m s κ e) : ∃ s₁ κ₁ e₁, IsBest P data lo N l m s₁ κ₁ e₁ ∧
    ((s = s₁ ∧ κ = κ₁ ∧ e = e₁) ∨ e₁ ≤ s ∧ Mem P data lo N l e₁ s κ e) := by
  cases h with
  | here h => exact ⟨s, κ, e, h, Or.inl ⟨rfl, rfl, rfl⟩⟩
  | next h h' => exact ⟨_, _, _, h, Or.inr ⟨(mem_acc h').1, h'⟩⟩

theorem mem_isBest {l m s κ e} (h : Mem P data lo N l m s κ e) : ∃ m', IsBest P data lo N l m' s κ e := by
  induction h with
  | here h => exact ⟨_, h⟩
  | next _ _ ih => exact ih

theorem best_exists {K : Nat → Option Nat → Nat → Prop} {B : Nat} (hB : Bounded P K B) {l m s κ e}
    (h : AccR P data lo N l s κ e) (hm : m ≤ s) : ∃ s₁ κ₁ e₁, IsBest P data lo N l m s₁ κ₁ e₁ := by
  obtain ⟨m0, hm0, hk0⟩ := hB.init
  have hlen : ∀ s' κ' e', AccR P data lo N l s' κ' e' → s' < N ∧ κ'.length ≤ B + N * (B + 1) := by
    intro s' κ' e' h'
    have h1 := acc_length hB h'.2.2.2 hk0 hm0
    rw [seg_length] at h1
    have h2 : (e' - s') * (B + 1) ≤ N * (B + 1) := Nat.mul_le_mul_right _ (by have := h'.2.2.1; omega)
    have := h'.2.1
    have := h'.2.2.1
    omega
  let A := {x : Nat × List Bool // x.1 < N ∧ x.2.length ≤ B + N * (B + 1)}
  have hfin : Finite A := by
    have h1 : Set.Finite {n : Nat | n < N} := Set.finite_lt_nat N
    have h2 : Set.Finite {k : List Bool | k.length ≤ B + N * (B + 1)} := List.finite_length_le Bool _
    exact ((h1.prod h2).subset (fun x hx => hx)).to_subtype
  let r : A → A → Prop := fun a b => Lt a.1 b.1
  have : IsTrans A r := ⟨fun a b c h1 h2 => lt_trans h1 h2⟩
  have : Std.Irrefl r := ⟨fun a => lt_irrefl _⟩
  have wf : WellFounded r := Finite.wellFounded_of_trans_of_irrefl r
  obtain ⟨⟨⟨s1, κ1⟩, hb⟩, ⟨e1, h1, hm1⟩, hmin⟩ := wf.has_min
    {a : A | ∃ e, AccR P data lo N l a.1.1 a.1.2 e ∧ m ≤ a.1.1} ⟨⟨(s, κ), hlen _ _ _ h⟩, e, h, hm⟩
  exact ⟨s1, κ1, e1, h1, hm1, fun s' κ' e' h' hm' => hmin ⟨(s', κ'), hlen _ _ _ h'⟩ ⟨e', h', hm'⟩⟩

theorem greedy_unique {l m hs hs'} (h : Greedy P data lo N l m hs) (h' : Greedy P data lo N l m hs') : hs = hs' := by
  induction h generalizing hs' with
  | done hd =>
    cases h' with
    | done => rfl
    | hit hb _ => exact (hd _ _ _ hb.1 hb.2.1).elim
  | hit hb _ ih =>
    cases h' with
    | done hd => exact (hd _ _ _ hb.1 hb.2.1).elim
    | hit hb' h' =>
      obtain ⟨rfl, -, rfl⟩ := best_unique hb hb'
      rw [ih h']

end
end Verif.Vm
