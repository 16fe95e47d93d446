import Verif.RangeSet
/-! # C25: code-point sets behave as sets -/
namespace Verif.RangeSet

/-- Every way to build a set through the public operations. -/
inductive Expr where
  | empty
  | range (first last : Nat)
  | full
  | insert (e : Expr) (first last : Nat)
  | erase (e : Expr) (first last : Nat)
  | set (e : Expr) (pos : Nat) (value : Bool)
  | flipAll (e : Expr)
  | flipAt (e : Expr) (pos : Nat)
  | union (a b : Expr)
  | inter (a b : Expr)
  | diff (a b : Expr)
  | symm (a b : Expr)
  | reset (e : Expr)

/-- The arguments the class expects: ranges are ordered and inside `[0,N]`,
positions are below `N`; a range given to the two-argument constructor is not
empty (include/rangeset.h:45 stores it unchecked). -/
def Expr.Ok (N : Nat) : Expr → Prop
  | empty => True
  | full => True
  | range f l => f < l ∧ l ≤ N
  | insert e f l => e.Ok N ∧ f ≤ l ∧ l ≤ N
  | erase e f l => e.Ok N ∧ f ≤ l ∧ l ≤ N
  | set e p _ => e.Ok N ∧ p < N
  | flipAll e => e.Ok N
  | flipAt e p => e.Ok N ∧ p < N
  | union a b => a.Ok N ∧ b.Ok N
  | inter a b => a.Ok N ∧ b.Ok N
  | diff a b => a.Ok N ∧ b.Ok N
  | symm a b => a.Ok N ∧ b.Ok N
  | reset e => e.Ok N

/-- What the code computes (`none` = undefined behaviour). -/
def Expr.eval (N : Nat) : Expr → Option Vec
  | empty => some []
  | full => some (setAll N)
  | range f l => some [f, l]
  | insert e f l => do some (RangeSet.insert (← e.eval N) f l)
  | erase e f l => do RangeSet.erase N (← e.eval N) f l
  | set e p v => do setPos N (← e.eval N) p v
  | flipAll e => do RangeSet.flip N (← e.eval N)
  | flipAt e p => do flipPos N (← e.eval N) p
  | union a b => do RangeSet.union (← a.eval N) (← b.eval N)
  | inter a b => do RangeSet.inter N (← a.eval N) (← b.eval N)
  | diff a b => do RangeSet.diff N (← a.eval N) (← b.eval N)
  | symm a b => do RangeSet.symm N (← a.eval N) (← b.eval N)
  | reset e => do let _ ← e.eval N; some []

/-- What the operations mean on mathematical sets of numbers below `N`. -/
def Expr.denote (N : Nat) : Expr → Nat → Prop
  | empty, _ => False
  | full, x => x < N
  | range f l, x => f ≤ x ∧ x < l
  | insert e f l, x => e.denote N x ∨ (f ≤ x ∧ x < l)
  | erase e f l, x => e.denote N x ∧ ¬ (f ≤ x ∧ x < l)
  | set e p v, x => if x = p then v = true else e.denote N x
  | flipAll e, x => x < N ∧ ¬ e.denote N x
  | flipAt e p, x => if x = p then ¬ e.denote N x else e.denote N x
  | union a b, x => a.denote N x ∨ b.denote N x
  | inter a b, x => a.denote N x ∧ b.denote N x
  | diff a b, x => a.denote N x ∧ ¬ b.denote N x
  | symm a b, x => (a.denote N x ∧ ¬ b.denote N x) ∨ (b.denote N x ∧ ¬ a.denote N x)
  | reset _, _ => False

theorem eval_core {N : Nat} (hN : 0 < N) (e : Expr) (h : e.Ok N) :
    ∃ v, e.eval N = some v ∧ WF N v ∧ ∀ x, has v x = true ↔ e.denote N x := by
  induction e with
  | empty => exact ⟨[], rfl, ⟨by simp, by simp, by simp⟩, by simp [has, below, Expr.denote]⟩
  | full =>
    refine ⟨[0, N], rfl, ⟨by simpa using hN, by simp, by simp⟩, ?_⟩
    intro x
    rw [has_pair hN (by simp)]
    simp [Expr.denote, has, below]
  | range f l =>
    obtain ⟨h1, h2⟩ := h
    refine ⟨[f, l], rfl, ⟨by simpa using h1, by simp, by simp; omega⟩, ?_⟩
    intro x
    rw [has_pair h1 (by simp)]
    simp [Expr.denote, has, below]
  | insert e f l ih =>
    obtain ⟨h0, h1, h2⟩ := h
    obtain ⟨v, e1, w, hh⟩ := ih h0
    refine ⟨_, by simp only [Expr.eval, e1]; rfl, insert_wf w h1 h2, ?_⟩
    intro x
    rw [insert_has w h1]
    simp [Expr.denote, hh x]
  | erase e f l ih =>
    obtain ⟨h0, h1, h2⟩ := h
    obtain ⟨v, e1, w, hh⟩ := ih h0
    obtain ⟨v', e2, w2, h3⟩ := erase_spec hN w h1 h2
    refine ⟨v', by simp [Expr.eval, e1, e2], w2, ?_⟩
    intro x
    rw [h3 x]
    simp [Expr.denote, hh x]
    intro _; omega
  | set e p val ih =>
    obtain ⟨h0, h1⟩ := h
    obtain ⟨v, e1, w, hh⟩ := ih h0
    cases val with
    | true =>
      refine ⟨_, by simp [Expr.eval, e1, setPos]; rfl, insert_wf w (by omega) (by omega), ?_⟩
      intro x
      rw [insert_has w (by omega)]
      by_cases hx : x = p
      · subst hx; simp [Expr.denote]
      · have : ¬ (p ≤ x ∧ x < p + 1) := by omega
        simp [Expr.denote, hx, hh x]; omega
    | false =>
      obtain ⟨v', e2, w2, h3⟩ := erase_spec hN w (f := p) (la := p+1) (by omega) (by omega)
      refine ⟨v', by simp [Expr.eval, e1, setPos, e2], w2, ?_⟩
      intro x
      rw [h3 x]
      by_cases hx : x = p
      · subst hx; simp [Expr.denote]
      · simp [Expr.denote, hx, hh x]; omega
  | flipAll e ih =>
    obtain ⟨v, e1, w, hh⟩ := ih h
    obtain ⟨v', e2, w2, h3⟩ := flip_spec hN w
    refine ⟨v', by simp [Expr.eval, e1, e2], w2, ?_⟩
    intro x
    by_cases hx : x < N
    · rw [h3 x hx]; simp [Expr.denote, hx, ← hh x]
    · rw [has_ge w2 (by omega)]; simp [Expr.denote, hx]
  | flipAt e p ih =>
    obtain ⟨h0, h1⟩ := h
    obtain ⟨v, e1, w, hh⟩ := ih h0
    have ht := test_eq_has w p
    cases hp : has v p with
    | false =>
      refine ⟨_, by simp [Expr.eval, e1, flipPos, setPos, ht, hp]; rfl,
        insert_wf w (by omega) (by omega), ?_⟩
      intro x
      rw [insert_has w (by omega)]
      by_cases hx : x = p
      · subst hx; simp [Expr.denote, ← hh x, hp]
      · simp [Expr.denote, hx, hh x]; omega
    | true =>
      obtain ⟨v', e2, w2, h3⟩ := erase_spec hN w (f := p) (la := p+1) (by omega) (by omega)
      refine ⟨v', by simp [Expr.eval, e1, flipPos, setPos, ht, hp, e2], w2, ?_⟩
      intro x
      rw [h3 x]
      by_cases hx : x = p
      · subst hx; simp [Expr.denote, ← hh x, hp]
      · simp [Expr.denote, hx, hh x]; omega
  | union a b iha ihb =>
    obtain ⟨va, ea, wa, ha⟩ := iha h.1
    obtain ⟨vb, eb, wb, hb⟩ := ihb h.2
    obtain ⟨v', e2, w2, h3⟩ := union_spec wa wb
    refine ⟨v', by simp [Expr.eval, ea, eb, e2], w2, ?_⟩
    intro x; rw [h3 x]; simp [Expr.denote, ← ha x, ← hb x]
  | inter a b iha ihb =>
    obtain ⟨va, ea, wa, ha⟩ := iha h.1
    obtain ⟨vb, eb, wb, hb⟩ := ihb h.2
    obtain ⟨v', e2, w2, h3⟩ := inter_spec hN wa wb
    refine ⟨v', by simp [Expr.eval, ea, eb, e2], w2, ?_⟩
    intro x; rw [h3 x]; simp [Expr.denote, ← ha x, ← hb x]
  | diff a b iha ihb =>
    obtain ⟨va, ea, wa, ha⟩ := iha h.1
    obtain ⟨vb, eb, wb, hb⟩ := ihb h.2
    obtain ⟨v', e2, w2, h3⟩ := diff_spec hN wa wb
    refine ⟨v', by simp [Expr.eval, ea, eb, e2], w2, ?_⟩
    intro x; rw [h3 x]; simp [Expr.denote, ← ha x, ← hb x]
  | symm a b iha ihb =>
    obtain ⟨va, ea, wa, ha⟩ := iha h.1
    obtain ⟨vb, eb, wb, hb⟩ := ihb h.2
    obtain ⟨v', e2, w2, h3⟩ := symm_spec hN wa wb
    refine ⟨v', by simp [Expr.eval, ea, eb, e2], w2, ?_⟩
    intro x; rw [h3 x]; simp [Expr.denote, ← ha x, ← hb x]
    cases has va x <;> cases has vb x <;> simp
  | reset e ih =>
    obtain ⟨v, e1, w, hh⟩ := ih h
    exact ⟨[], by simp [Expr.eval, e1], ⟨by simp, by simp, by simp⟩, by simp [has, below, Expr.denote]⟩

/-- **C25.** Every set built by the public operations is built without
undefined behaviour and `test` answers membership in the mathematical set. -/
theorem rangeSet_test {N : Nat} (hN : 0 < N) (e : Expr) (h : e.Ok N) :
    ∃ v, e.eval N = some v ∧ ∀ x, test v x = true ↔ e.denote N x := by
  obtain ⟨v, e1, w, hh⟩ := eval_core hN e h
  exact ⟨v, e1, fun x => by rw [test_eq_has w]; exact hh x⟩

/-- `operator==` decides equality of the denoted sets. -/
theorem rangeSet_eq {N : Nat} (hN : 0 < N) (a b : Expr) (ha : a.Ok N) (hb : b.Ok N) :
    ∃ va vb, a.eval N = some va ∧ b.eval N = some vb ∧
      (va = vb ↔ ∀ x, a.denote N x ↔ b.denote N x) := by
  obtain ⟨va, ea, wa, h1⟩ := eval_core hN a ha
  obtain ⟨vb, eb, wb, h2⟩ := eval_core hN b hb
  refine ⟨va, vb, ea, eb, ?_⟩
  constructor
  · rintro rfl x; rw [← h1 x, ← h2 x]
  · intro h
    apply ext_has wa wb
    intro x
    have := h x
    rw [← h1 x, ← h2 x] at this
    cases q : has va x <;> cases r : has vb x <;> simp_all

/-- `any`, `none`, `all` and `count` agree with the denoted set. -/
theorem rangeSet_queries {N : Nat} (hN : 0 < N) (e : Expr) (h : e.Ok N) :
    ∃ v, e.eval N = some v ∧
      (any v = true ↔ ∃ x, e.denote N x) ∧
      (none v = true ↔ ∀ x, ¬ e.denote N x) ∧
      (all N v = true ↔ ∀ x, x < N → e.denote N x) ∧
      (∀ f : Nat → Bool, (∀ x, f x = true ↔ e.denote N x) →
        count v = ((List.range N).filter f).length) := by
  obtain ⟨v, e1, w, hh⟩ := eval_core hN e h
  have hempty : v = [] ↔ ∀ x, ¬ e.denote N x := by
    constructor
    · rintro rfl x; rw [← hh x]; simp [has, below]
    · intro hx
      apply ext_has w ⟨by simp, by simp, by simp⟩
      intro x
      have := hx x
      rw [← hh x] at this
      simp [has, below] at *
      exact this
  refine ⟨v, e1, ?_, ?_, ?_, ?_⟩
  · simp only [any, Bool.not_eq_true', List.isEmpty_eq_false_iff]
    rw [Ne, hempty]
    simp
  · simp only [none, List.isEmpty_iff]; exact hempty
  · have hfull : all N v = true ↔ v = [0, N] := by
      constructor
      · intro ha
        simp only [all, Bool.and_eq_true, beq_iff_eq] at ha
        obtain ⟨⟨h1, h2⟩, h3⟩ := ha
        match v, h1 with
        | [a, b], _ => simp at h2 h3; subst h2; subst h3; rfl
      · rintro rfl; simp [all]
    rw [hfull]
    have wf : WF N [0, N] := ⟨by simpa using hN, by simp, by simp⟩
    constructor
    · rintro rfl x hx
      rw [← hh x, has_pair hN (by simp)]
      simp [hx]
    · intro hx
      apply ext_has w wf
      intro x
      by_cases hxN : x < N
      · have := hx x hxN
        rw [← hh x] at this
        rw [this, has_pair hN (by simp)]
        simp [hxN]
      · rw [has_ge w (by omega), has_ge wf (by omega)]
  · intro f hf
    rw [count_eq w]
    congr 1
    apply List.filter_congr
    intro x _
    have h1 := hh x
    have h2 := hf x
    cases q : has v x <;> cases r : f x <;> simp_all

/-- Iterating visits ascending, non-empty, separated ranges that cover exactly
the denoted set. -/
theorem rangeSet_iteration {N : Nat} (hN : 0 < N) (e : Expr) (h : e.Ok N) :
    ∃ v, e.eval N = some v ∧
      (ranges v).Pairwise (fun r s => r.2 < s.1) ∧ (∀ r ∈ ranges v, r.1 < r.2 ∧ r.2 ≤ N) ∧
      ∀ x, e.denote N x ↔ ∃ r ∈ ranges v, r.1 ≤ x ∧ x < r.2 := by
  obtain ⟨v, e1, w, hh⟩ := eval_core hN e h
  refine ⟨v, e1, (ranges_sorted w).1, (ranges_sorted w).2, ?_⟩
  intro x
  rw [← hh x, mem_ranges w]
  simp

/-- Construction from a bit set of the full size is exact. -/
theorem rangeSet_fromBits (N : Nat) (b : Nat → Bool) (x : Nat) :
    test (fromBits N N b) x = (decide (x < N) && b x) := by
  obtain ⟨w, _, h⟩ := fromBitsAux_spec N b (N + 1) 0 (by omega)
  rw [fromBits, test_eq_has w, h x]
  simp

/-- Finding: with a smaller bit set (`BN < N`, which the code's static_assert
allows) a run touching the end of the bit set is dropped, because line 79
compares with `N`.  A 4-bit set {2,3} becomes the empty set. -/
theorem rangeSet_fromBits_small_wrong :
    ∃ (N BN : Nat) (b : Nat → Bool) (x : Nat), BN < N ∧ x < BN ∧ b x = true ∧
      test (fromBits N BN b) x = false :=
  ⟨8, 4, fun i => decide (2 ≤ i), 2, by decide⟩

-- Non-vacuity: an expression meeting the hypotheses, with a non-trivial value.
example : (Expr.symm (.insert (.range 2 5) 5 9) (.erase .full 3 7)).Ok 16 := by
  simp [Expr.Ok]
example : (Expr.symm (.insert (.range 2 5) 5 9) (.erase .full 3 7)).eval 16 =
    some [0, 2, 3, 7, 9, 16] := by decide

end Verif.RangeSet
