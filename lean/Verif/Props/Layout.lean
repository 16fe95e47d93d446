import Verif.Compiler
import Verif.Props.BestPair
import Verif.Props.Transition
/-!
# C11: the layout pass and the emission pass agree
-/
namespace Verif.Compiler
open Verif.Nfa Verif.Transition

/-- The automata that reach the compiler: edges stay inside and never enter the
initial state, no parallel edges, every other state accepts some byte and is
reachable, and the initial state is plain. -/
structure WF (g : Graph) : Prop where
  pos : 0 < g.n
  edges : ∀ v < g.n, ∀ u ∈ (g.v v).out, 0 < u ∧ u < g.n
  nodup : ∀ v < g.n, (g.v v).out.Nodup
  bytes : ∀ v < g.n, v ≠ 0 → ∃ b < 256, (g.v v).bytes.getLsbD b = true
  reach : ∀ v < g.n, ∃ d, BestPair.Walk g d v
  rootLabel : (g.v 0).label = none
  rootMatch : (g.v 0).isMatch = false
  rootIn : (g.v 0).inn = []

/-! ## The order of the states -/

/-- Vertices already taken from the queue, in the queue and discovered. -/
structure QInv (n : Nat) (dn queue disc : List Nat) : Prop where
  nodup : (dn ++ queue).Nodup
  mem : ∀ x, x ∈ disc ↔ x ∈ dn ++ queue
  lt : ∀ x ∈ disc, x < n

theorem visitSucc_spec (nb : Bool) (n : Nat) (dn ts : List Nat) : ∀ queue disc : List Nat,
    QInv n dn queue disc → (∀ t ∈ ts, t < n) →
    QInv n dn (visitSucc nb ts queue disc).1 (visitSucc nb ts queue disc).2 ∧
    (∀ t ∈ ts, t ∈ (visitSucc nb ts queue disc).2) ∧ (∀ x ∈ disc, x ∈ (visitSucc nb ts queue disc).2) ∧
    (∀ x ∈ queue, x ∈ (visitSucc nb ts queue disc).1) := by
  induction ts with
  | nil => intro queue disc h _; exact ⟨h, by simp, fun _ h => h, fun _ h => h⟩
  | cons t ts ih =>
    intro queue disc h ht
    unfold visitSucc
    split
    · next hd =>
      obtain ⟨i1, i2, i3, i4⟩ := ih queue disc h (fun x hx => ht x (by simp [hx]))
      refine ⟨i1, ?_, i3, i4⟩
      intro x hx
      rcases List.mem_cons.1 hx with rfl | hx
      · exact i3 _ hd
      · exact i2 x hx
    · next hd =>
      have hnot : t ∉ dn ++ queue := fun hm => hd ((h.mem t).2 hm)
      have hI : QInv n dn (if nb then t :: queue else queue ++ [t]) (t :: disc) := by
        refine ⟨?_, ?_, ?_⟩
        · split
          · rw [List.nodup_middle]
            exact List.nodup_cons.2 ⟨hnot, h.nodup⟩
          · rw [← List.append_assoc, List.nodup_append]
            refine ⟨h.nodup, by simp, ?_⟩
            intro a ha b hb hab
            simp only [List.mem_singleton] at hb
            subst hb hab
            exact hnot ha
        · intro x
          have := h.mem x
          split <;> simp only [List.mem_cons, List.mem_append, List.not_mem_nil, or_false] at this ⊢ <;>
            rw [this] <;> tauto
        · intro x hx
          rcases List.mem_cons.1 hx with rfl | hx
          · exact ht _ (by simp)
          · exact h.lt x hx
      obtain ⟨i1, i2, i3, i4⟩ := ih _ _ hI (fun x hx => ht x (by simp [hx]))
      refine ⟨i1, ?_, fun x hx => i3 x (by simp [hx]), ?_⟩
      · intro x hx
        rcases List.mem_cons.1 hx with rfl | hx
        · exact i3 _ (by simp)
        · exact i2 x hx
      · intro x hx
        apply i4
        split <;> simp [hx]

theorem nodup_length_le {l : List Nat} {n : Nat} (h : l.Nodup) (hl : ∀ x ∈ l, x < n) : l.length ≤ n := by
  have := (List.subperm_of_subset h (l₂ := List.range n) (fun x hx => List.mem_range.2 (hl x hx))).length_le
  simpa using this

theorem visit_spec (g : Graph) (hin : ∀ v < g.n, ∀ u ∈ (g.v v).out, u < g.n) (fuel : Nat) :
    ∀ dn queue disc : List Nat, QInv g.n dn queue disc → g.n ≤ fuel + dn.length →
    (∀ v ∈ dn, ∀ u ∈ (g.v v).out, u ∈ disc) →
    (dn ++ visit g fuel queue disc).Nodup ∧ (∀ x ∈ dn ++ visit g fuel queue disc, x < g.n) ∧
    (∀ v ∈ dn ++ visit g fuel queue disc, ∀ u ∈ (g.v v).out, u ∈ dn ++ visit g fuel queue disc) ∧
    ∀ x ∈ queue, x ∈ visit g fuel queue disc := by
  induction fuel with
  | zero =>
    intro dn queue disc h hl hc
    have hq : queue = [] := by
      have := nodup_length_le h.nodup (fun x hx => h.lt x ((h.mem x).2 hx))
      simp only [List.length_append] at this
      exact List.eq_nil_of_length_eq_zero (by omega)
    subst hq
    simp only [visit, List.append_nil]
    have hm : ∀ x, x ∈ disc ↔ x ∈ dn := by simpa using h.mem
    refine ⟨by simpa using h.nodup, fun x hx => h.lt x ((hm x).2 hx), fun v hv u hu => (hm u).1 (hc v hv u hu), ?_⟩
    simp
  | succ fuel ih =>
    intro dn queue disc h hl hc
    cases queue with
    | nil =>
      have hm : ∀ x, x ∈ disc ↔ x ∈ dn := by simpa using h.mem
      simp only [visit, List.append_nil]
      refine ⟨by simpa using h.nodup, fun x hx => h.lt x ((hm x).2 hx), fun v hv u hu => (hm u).1 (hc v hv u hu), ?_⟩
      simp
    | cons v queue =>
      have hv : v ∈ disc := (h.mem v).2 (by simp)
      have hI : QInv g.n (dn ++ [v]) queue disc :=
        ⟨by simpa using h.nodup, by simpa using h.mem, h.lt⟩
      obtain ⟨s1, s2, s3, s4⟩ := visitSucc_spec (decide ((g.v v).out.length < 2)) g.n (dn ++ [v]) (g.v v).out
        queue disc hI (hin v (h.lt v hv))
      have := ih (dn ++ [v]) _ _ s1 (by simp only [List.length_append, List.length_cons, List.length_nil]; omega) (by
        intro x hx u hu
        rcases List.mem_append.1 hx with hx | hx
        · exact s3 u (hc x hx u hu)
        · simp only [List.mem_singleton] at hx
          subst hx
          exact s2 u hu)
      simp only [visit]
      simp only [List.append_assoc, List.singleton_append] at this
      refine ⟨this.1, this.2.1, this.2.2.1, ?_⟩
      intro x hx
      rcases List.mem_cons.1 hx with rfl | hx
      · simp
      · exact List.mem_cons_of_mem _ (this.2.2.2 x (s4 x hx))

/-- Every state occurs exactly once in the order. -/
theorem order_spec {g : Graph} (h : WF g) : (order g).Nodup ∧ ∀ x, x ∈ order g ↔ x < g.n := by
  have := visit_spec g (fun v hv u hu => (h.edges v hv u hu).2) g.n [] [0] [0]
    ⟨by simp, by simp, by simpa using h.pos⟩ (by simp) (by simp)
  simp only [List.nil_append] at this
  refine ⟨this.1, fun x => ⟨this.2.1 x, fun hx => ?_⟩⟩
  obtain ⟨d, hw⟩ := h.reach x hx
  clear hx
  induction hw with
  | zero => exact this.2.2.2 0 (by simp)
  | step _ hu ih => exact this.2.2.1 _ ih _ hu

/-! ## Sizes -/

theorem pivot_aux (g : Graph) (b : Nat) (us : List Nat) : ∀ acc : List Nat, acc.Nodup →
    let r := us.foldl (fun acc u => if (g.v u).bytes.getLsbD b ∧ u ∉ acc then acc ++ [u] else acc) acc
    r.Nodup ∧ (∀ x, x ∈ r ↔ x ∈ acc ∨ x ∈ us ∧ (g.v x).bytes.getLsbD b = true) := by
  induction us with
  | nil => intro acc h; exact ⟨h, by simp⟩
  | cons u us ih =>
    intro acc h
    dsimp only [List.foldl_cons]
    split
    · next hc =>
      have hnd : (acc ++ [u]).Nodup := by
        rw [List.nodup_append]
        refine ⟨h, by simp, ?_⟩
        intro a ha b hb hab
        simp only [List.mem_singleton] at hb
        subst hb hab
        exact hc.2 ha
      obtain ⟨i1, i2⟩ := ih _ hnd
      refine ⟨i1, fun x => ?_⟩
      rw [i2 x]
      simp only [List.mem_append, List.mem_cons, List.not_mem_nil, or_false]
      constructor
      · rintro ((hx | rfl) | hx)
        · exact Or.inl hx
        · exact Or.inr ⟨Or.inl rfl, hc.1⟩
        · exact Or.inr ⟨Or.inr hx.1, hx.2⟩
      · rintro (hx | ⟨rfl | hx, hb⟩)
        · exact Or.inl (Or.inl hx)
        · exact Or.inl (Or.inr rfl)
        · exact Or.inr ⟨hx, hb⟩
    · next hc =>
      obtain ⟨i1, i2⟩ := ih _ h
      refine ⟨i1, fun x => ?_⟩
      rw [i2 x]
      simp only [List.mem_cons]
      constructor
      · rintro (hx | hx)
        · exact Or.inl hx
        · exact Or.inr ⟨Or.inr hx.1, hx.2⟩
      · rintro (hx | ⟨rfl | hx, hb⟩)
        · exact Or.inl hx
        · by_cases hm : x ∈ acc
          · exact Or.inl hm
          · exact absurd ⟨hb, hm⟩ hc
        · exact Or.inr ⟨hx, hb⟩

theorem mem_pivot (g : Graph) (v b x : Nat) :
    x ∈ pivot g v b ↔ x ∈ (g.v v).out ∧ (g.v x).bytes.getLsbD b = true := by
  have := (pivot_aux g b (g.v v).out [] (by simp)).2 x
  simpa [pivot] using this

theorem pivot_nodup (g : Graph) (v b : Nat) : (pivot g v b).Nodup :=
  (pivot_aux g b (g.v v).out [] (by simp)).1

theorem maxOutbound_ge (tbl : Nat → List Nat) (i : Nat) (hi : i < 256) : (tbl i).length ≤ maxOutbound tbl := by
  unfold maxOutbound
  have : ∀ n, ∀ i < n, (tbl i).length ≤ (List.range n).foldl (fun m i => max m (tbl i).length) 0 := by
    intro n
    induction n with
    | zero => intro i hi; omega
    | succ n ih =>
      intro i hi
      rw [List.range_succ, List.foldl_append]
      simp only [List.foldl_cons, List.foldl_nil]
      by_cases h : i = n
      · subst h; omega
      · have := ih i (by omega); omega
  exact this 256 i hi

/-- A vertex with a jump table has successors on at least two bytes. -/
theorem table_two {g : Graph} (h : WF g) {v : Nat} (hv : v < g.n) (ht : isTable g v = true) :
    ∃ i j, i < j ∧ j < 256 ∧ pivot g v i ≠ [] ∧ pivot g v j ≠ [] := by
  simp only [isTable, Bool.and_eq_true, decide_eq_true_eq] at ht
  obtain ⟨h1, h2⟩ := ht
  -- some successor and one of its bytes
  have hne : (g.v v).out ≠ [] := by intro he; rw [he] at h1; simp at h1
  obtain ⟨u, hu⟩ := List.exists_mem_of_ne_nil _ hne
  obtain ⟨hu0, hun⟩ := h.edges v hv u hu
  obtain ⟨b, hb, hbu⟩ := h.bytes u hun (by omega)
  have hpb : pivot g v b ≠ [] := List.ne_nil_of_mem ((mem_pivot g v b u).2 ⟨hu, hbu⟩)
  by_contra hno
  -- then all successors accept only `b`
  have hall : ∀ x ∈ (g.v v).out, x ∈ pivot g v b := by
    intro x hx
    obtain ⟨hx0, hxn⟩ := h.edges v hv x hx
    obtain ⟨c, hc, hcx⟩ := h.bytes x hxn (by omega)
    have hpc : pivot g v c ≠ [] := List.ne_nil_of_mem ((mem_pivot g v c x).2 ⟨hx, hcx⟩)
    have : c = b := by
      by_contra hcb
      rcases Nat.lt_or_gt_of_ne hcb with hlt | hlt
      · exact hno ⟨c, b, hlt, hb, hpc, hpb⟩
      · exact hno ⟨b, c, hlt, hc, hpb, hpc⟩
    subst this
    exact (mem_pivot g v c x).2 ⟨hx, hcx⟩
  have := (List.subperm_of_subset (h.nodup v hv) hall).length_le
  have := maxOutbound_ge (pivot g v) b hb
  omega

/-- What the indirect table of a column takes, in targets. -/
def indLen (tbl : Nat → List Nat) (i : Nat) : Nat := if (tbl i).length > 1 then (tbl i).length else 0

/-- `calcJumpTableSize`'s loop after `n` rounds. -/
theorem extent_spec (tbl : Nat → List Nat) (n : Nat) :
    let r := (List.range n).foldl (extentStep tbl) (256, 0, 0)
    r.2.2 = ((List.range n).map (indLen tbl)).sum ∧
    ((∀ i < n, tbl i = []) → r.1 = 256 ∧ r.2.1 = 0) ∧
    (∀ i, i < n → n ≤ 256 → tbl i ≠ [] → r.1 ≤ i ∧ i ≤ r.2.1) ∧
    (∀ i, i < n → n ≤ 256 → tbl i ≠ [] → tbl r.1 ≠ [] ∧ tbl r.2.1 ≠ [] ∧ r.1 < n ∧ r.2.1 < n) := by
  induction n with
  | zero => simp
  | succ n ih =>
    intro r
    obtain ⟨s1, s2, s3, s4⟩ := ih
    have hr : r = extentStep tbl ((List.range n).foldl (extentStep tbl) (256, 0, 0)) n := by
      show (List.range (n + 1)).foldl _ _ = _
      rw [List.range_succ, List.foldl_append]
      rfl
    generalize (List.range n).foldl (extentStep tbl) (256, 0, 0) = q at hr s1 s2 s3 s4
    rw [hr]
    unfold extentStep
    dsimp only
    have hsz : (if (tbl n).length > 1 then q.2.2 + (tbl n).length else q.2.2) =
        ((List.range (n + 1)).map (indLen tbl)).sum := by
      rw [List.range_succ, List.map_append, List.sum_append, ← s1]
      simp only [List.map_cons, List.map_nil, List.sum_cons, List.sum_nil, Nat.add_zero, indLen]
      split <;> omega
    by_cases hz : (tbl n).length = 0
    · rw [if_pos hz]
      have hz' : tbl n = [] := List.eq_nil_of_length_eq_zero hz
      refine ⟨hsz, fun ha => s2 (fun i hi => ha i (by omega)), ?_, ?_⟩
      · intro i hi hn hne
        exact s3 i (by
          by_contra hc
          have : i = n := by omega
          subst this; exact hne hz') (by omega) hne
      · intro i hi hn hne
        have hin : i < n := by
          by_contra hc
          have : i = n := by omega
          subst this; exact hne hz'
        obtain ⟨t1, t2, t3, t4⟩ := s4 i hin (by omega) hne
        exact ⟨t1, t2, by dsimp only; omega, by dsimp only; omega⟩
    · rw [if_neg hz]
      have hz' : tbl n ≠ [] := fun hh => hz (by rw [hh]; rfl)
      refine ⟨hsz, fun ha => absurd (ha n (by omega)) hz', ?_, ?_⟩
      · intro i hi hn hne
        dsimp only
        by_cases hin : i = n
        · subst hin; omega
        · have := s3 i (by omega) (by omega) hne
          omega
      · intro i hi hn hne
        dsimp only
        refine ⟨?_, hz', by omega, by omega⟩
        by_cases hq : q.1 ≤ n
        · rw [Nat.min_eq_left hq]
          by_cases hex : ∃ j < n, tbl j ≠ []
          · obtain ⟨j, hj, hjn⟩ := hex
            exact (s4 j hj (by omega) hjn).1
          · have hall : ∀ j < n, tbl j = [] := fun j hj => by
              by_contra hc
              exact hex ⟨j, hj, hc⟩
            have := (s2 hall).1
            omega
        · rw [Nat.min_eq_right (by omega)]; exact hz'

theorem range_split (n k : Nat) (h : k < n) :
    List.range n = List.range k ++ k :: List.range' (k + 1) (n - 1 - k) := by
  rw [List.range_eq_range', List.range_eq_range', ← List.range'_succ]
  have := List.range'_append_1 (s := 0) (m := k) (n := n - 1 - k + 1)
  rw [Nat.zero_add] at this
  rw [this]
  congr 1
  omega

theorem flatMap_fork_length (f : Nat → Nat) (l : List Nat) :
    (l.flatMap fun u => fork (f u)).length = 2 * l.length := by
  induction l with
  | nil => rfl
  | cons a l ih =>
    rw [List.flatMap_cons, List.length_append, ih]
    simp only [fork, List.length_cons, List.length_nil]
    omega

/-- The two computations of the table's extent agree. -/
theorem extent_eq (tbl : Nat → List Nat) (h : ∃ i j, i < j ∧ j < 256 ∧ tbl i ≠ [] ∧ tbl j ≠ []) :
    ∃ first last, first < last ∧ last < 256 ∧ minAndMax tbl = (first, last) ∧
      (tableExtent tbl).1 = first ∧ (tableExtent tbl).2.1 = last ∧
      (tableExtent tbl).2.2 = ((List.range 256).map (indLen tbl)).sum ∧
      (∀ i < 256, tbl i ≠ [] → first ≤ i ∧ i ≤ last) := by
  obtain ⟨i, j, hij, hj, hti, htj⟩ := h
  obtain ⟨s1, -, s3, s4⟩ := extent_spec tbl 256
  obtain ⟨t1, t2, t3, t4⟩ := s4 i (by omega) (Nat.le_refl _) hti
  have ti := s3 i (by omega) (Nat.le_refl _) hti
  have tj := s3 j (by omega) (Nat.le_refl _) htj
  have e : tableExtent tbl = (List.range 256).foldl (extentStep tbl) (256, 0, 0) := rfl
  rw [← e] at s1 s3 t1 t2 t3 t4 ti tj
  refine ⟨(tableExtent tbl).1, (tableExtent tbl).2.1, by omega, t4, ?_, rfl, rfl, s1,
    fun i hi hne => s3 i hi (Nat.le_refl _) hne⟩
  generalize (tableExtent tbl).1 = first at *
  generalize (tableExtent tbl).2.1 = last at *
  have hf : ((List.range 256).find? fun i => decide (tbl i ≠ [])) = some first := by
    rw [List.find?_range_eq_some]
    refine ⟨by simpa using t1, by simpa using t3, ?_⟩
    intro k hk
    simp only [ne_eq, decide_not, Bool.not_not, decide_eq_true_eq]
    by_contra hc
    have := (s3 k (by omega) (Nat.le_refl _) hc).1
    omega
  have hl : ((List.range 256).reverse.find? fun i => decide (first < i ∧ tbl i ≠ [])) = some last := by
    rw [List.find?_eq_some_iff_append]
    refine ⟨by simp only [decide_eq_true_eq]; exact ⟨by omega, t2⟩, (List.range' (last + 1) (255 - last)).reverse,
      (List.range last).reverse, ?_, ?_⟩
    · rw [range_split 256 last t4]
      simp
    · intro k hk
      simp only [List.mem_reverse, List.mem_range'_1] at hk
      simp only [decide_eq_false_iff_not, Bool.not_eq_eq_eq_not, Bool.not_true]
      rintro ⟨-, hne⟩
      have := (s3 k (by omega) (Nat.le_refl _) hne).2
      omega
  unfold minAndMax
  dsimp only
  rw [hf]
  dsimp only [Option.getD_some]
  rw [hl]
  rfl

theorem indirect_length (g : Graph) (ts : List Nat) : (indirect g ts).length = 2 * ts.length := by
  cases ts with
  | nil => rfl
  | cons t ts =>
    simp only [indirect, List.length_append, flatMap_fork_length, List.length_reverse, jump, List.length_cons, List.length_nil]
    omega

theorem tableWords_length (g : Graph) (tbl : Nat → List Nat) (is : List Nat) : ∀ ind,
    (tableWords g tbl is ind).1.length = is.length ∧
    (tableWords g tbl is ind).2.length = 2 * (is.map (indLen tbl)).sum := by
  induction is with
  | nil => intro ind; simp [tableWords]
  | cons i is ih =>
    intro ind
    unfold tableWords
    split
    · next h =>
      obtain ⟨i1, i2⟩ := ih ind
      simp [i1, i2, indLen, h]
    · next t h =>
      obtain ⟨i1, i2⟩ := ih ind
      simp [i1, i2, indLen, h]
    · next h1 h2 =>
      obtain ⟨i1, i2⟩ := ih (ind + 2 * (tbl i).length)
      have hl : (tbl i).length > 1 := by
        cases ht : tbl i with
        | nil => exact absurd ht h1
        | cons a l =>
          cases l with
          | nil => exact absurd ht (h2 a)
          | cons b l => simp
      dsimp only
      simp only [List.length_cons, i1, List.length_append, indirect_length, i2, List.map_cons, List.sum_cons, indLen,
        if_pos hl, true_and]
      omega

theorem sum_outside (f : Nat → Nat) (first last : Nat) (hl : last < 256) (hf : first ≤ last)
    (h : ∀ i < 256, f i ≠ 0 → first ≤ i ∧ i ≤ last) :
    ((List.range' first (last + 1 - first)).map f).sum = ((List.range 256).map f).sum := by
  have e : List.range 256 = List.range' 0 first ++ (List.range' first (last + 1 - first) ++
      List.range' (last + 1) (255 - last)) := by
    have h1 : List.range' first (last + 1 - first) ++ List.range' (last + 1) (255 - last) =
        List.range' first (256 - first) := by
      have := List.range'_append_1 (s := first) (m := last + 1 - first) (n := 255 - last)
      rw [show first + (last + 1 - first) = last + 1 by omega] at this
      rw [this]
      congr 1
      omega
    rw [h1, List.range_eq_range']
    have := List.range'_append_1 (s := 0) (m := first) (n := 256 - first)
    rw [Nat.zero_add] at this
    rw [this]
    congr 1
    omega
  rw [e]
  simp only [List.map_append, List.sum_append]
  have z : ∀ l : List Nat, (∀ i ∈ l, f i = 0) → (l.map f).sum = 0 := by
    intro l hl
    induction l with
    | nil => rfl
    | cons a l ih => simp [hl a (by simp), ih (fun i hi => hl i (by simp [hi]))]
  rw [z (List.range' 0 first), z (List.range' (last + 1) (255 - last))]
  · omega
  · intro i hi
    simp only [List.mem_range'_1] at hi
    by_contra hc
    have := h i (by omega) hc
    omega
  · intro i hi
    simp only [List.mem_range'_1] at hi
    by_contra hc
    have := h i (by omega) hc
    omega

/-- The jump table takes exactly the room the layout pass reserved. -/
theorem jumpTable_length {g : Graph} (h : WF g) {v : Nat} (hv : v < g.n) (ht : isTable g v = true) (a : Nat) :
    (jumpTable g v a).length = tableSize g v := by
  obtain ⟨first, last, h1, h2, h3, h4, h5, h6, h7⟩ := extent_eq (pivot g v) (table_two h hv ht)
  unfold jumpTable tableSize
  dsimp only
  rw [h3]
  dsimp only
  obtain ⟨l1, l2⟩ := tableWords_length g (pivot g v) (List.range' first (last + 1 - first)) (a + 2 + (last - first))
  simp only [List.length_cons, List.length_append, l1, l2, List.length_range', h4, h5, h6]
  rw [sum_outside (indLen (pivot g v)) first last h2 (by omega) (fun i hi hne => h7 i hi (by
    intro he; apply hne; simp [indLen, he]))]
  omega

theorem emitOut_length (g : Graph) (v : Nat) (ht : isTable g v = false) : (emitOut g v).length = outSize g v := by
  unfold emitOut outSize
  split
  · rfl
  · simp only [ht, Bool.false_eq_true, if_false, List.length_append, flatMap_fork_length, List.length_reverse]
    split <;> simp [jump]

theorem emitMarks_length {g : Graph} {v : Nat} {m : List Nat} (h : emitMarks g v = some m) :
    m.length = (if (g.v v).label = none then 0 else 1) + (if check g v = none then 0 else 1) := by
  simp only [emitMarks, Option.bind_eq_bind, Option.bind_eq_some_iff, Option.some.injEq] at h
  obtain ⟨l, hl, c, hc, rfl⟩ := h
  have h1 : l.length = (if (g.v v).label = none then 0 else 1) := by
    cases hx : (g.v v).label with
    | none => rw [hx] at hl; simp at hl; subst hl; simp
    | some y =>
      rw [hx] at hl
      dsimp only [raw24] at hl
      split at hl
      · simp at hl; subst hl; simp
      · simp at hl
  have h2 : c.length = (if check g v = none then 0 else 1) := by
    cases hx : check g v with
    | none => rw [hx] at hc; simp at hc; subst hc; simp
    | some y =>
      rw [hx] at hc
      dsimp only [raw24] at hc
      split at hc
      · simp at hc; subst hc; simp
      · simp at hc
  rw [List.length_append, h1, h2]

theorem emitMatch_length (g : Graph) (v : Nat) : (emitMatch g v).length =
    if (g.v v).isMatch then 2 + (if (g.v v).out = [] then 0 else 1) else 0 := by
  unfold emitMatch
  split
  · split
    · simp
    · simp [fork]
  · rfl

theorem checks_root (g : Graph) (h : (g.v 0).inn = []) (l : List Nat) : ∀ k, checks g l k 0 = none := by
  induction l with
  | nil => intro k; rfl
  | cons v vs ih =>
    intro k
    unfold checks
    split
    · next hd =>
      split
      · next h0 => subst h0; rw [h] at hd; simp at hd
      · exact ih _
    · split
      · rfl
      · exact ih _

/-- The sizes agree for every state. -/
theorem encode_length {g : Graph} (h : WF g) {v : Nat} (hv : v < g.n) {ws : List Nat}
    (he : encodeState g v = some ws) : ws.length = evalSize g v + otherSize g v := by
  have hp : ∀ p, emitPre g v = some p → p.length = evalSize g v + (otherSize g v - outSize g v) := by
    intro p hp
    unfold emitPre at hp
    unfold otherSize
    split at hp
    · next h0 =>
      subst h0
      simp only [Option.some.injEq] at hp
      subst hp
      simp [evalSize, h.rootLabel, h.rootMatch, check, checks_root g h.rootIn]
    · next h0 =>
      simp only [Option.bind_eq_bind, Option.bind_eq_some_iff, Option.some.injEq] at hp
      obtain ⟨e, he, m, hm, rfl⟩ := hp
      simp only [List.length_append, emit_length he, emitMarks_length hm, emitMatch_length, evalSize, if_neg h0]
      omega
  have hge : outSize g v ≤ otherSize g v := by unfold otherSize; omega
  simp only [encodeState, Option.bind_eq_bind, Option.bind_eq_some_iff] at he
  obtain ⟨p, hpp, he⟩ := he
  have hpl := hp p hpp
  split at he
  · next ht =>
    simp only [Option.some.injEq] at he
    subst he
    rw [List.length_append, jumpTable_length h hv ht, hpl]
    have : outSize g v = tableSize g v := by
      unfold outSize
      split
      · next hn => simp [isTable, hn] at ht
      · rw [if_pos ht]
    omega
  · next ht =>
    simp only [Option.some.injEq] at he
    subst he
    rw [List.length_append, emitOut_length g v (by simpa using ht), hpl]
    omega

/-! ## Where the states are -/

/-- The room for a state. -/
abbrev size (g : Graph) (v : Nat) : Nat := evalSize g v + otherSize g v

theorem starts_bounds (g : Graph) (l : List Nat) : ∀ (k v : Nat), v ∈ l → l.Nodup →
    k ≤ starts g l k v ∧ starts g l k v + size g v ≤ k + (l.map (size g)).sum := by
  induction l with
  | nil => intro k v hv; simp at hv
  | cons a l ih =>
    intro k v hv hn
    unfold starts
    simp only [List.map_cons, List.sum_cons]
    split
    · next h => subst h; exact ⟨Nat.le_refl _, by omega⟩
    · next h =>
      have hv' : v ∈ l := by
        rcases List.mem_cons.1 hv with hv | hv
        · exact absurd hv h
        · exact hv
      have := ih (k + (evalSize g a + otherSize g a)) v hv' (List.nodup_cons.1 hn).2
      exact ⟨by omega, by unfold size at this ⊢; omega⟩

theorem starts_disjoint (g : Graph) (l : List Nat) : ∀ (k u v : Nat), u ∈ l → v ∈ l → l.Nodup → u ≠ v →
    starts g l k u + size g u ≤ starts g l k v ∨ starts g l k v + size g v ≤ starts g l k u := by
  induction l with
  | nil => intro k u v hu; simp at hu
  | cons a l ih =>
    intro k u v hu hv hn huv
    have hn' := (List.nodup_cons.1 hn).2
    unfold starts
    by_cases hua : u = a
    · have hva : ¬ v = a := fun h => huv (hua.trans h.symm)
      have hv' : v ∈ l := by
        rcases List.mem_cons.1 hv with hv | hv
        · exact absurd hv hva
        · exact hv
      rw [if_pos hua, if_neg hva]
      have := starts_bounds g l (k + size g a) v hv' hn'
      subst hua
      left; exact this.1
    · have hu' : u ∈ l := by
        rcases List.mem_cons.1 hu with hu | hu
        · exact absurd hu hua
        · exact hu
      rw [if_neg hua]
      by_cases hva : v = a
      · rw [if_pos hva]
        have := starts_bounds g l (k + size g a) u hu' hn'
        subst hva
        right; exact this.1
      · have hv' : v ∈ l := by
          rcases List.mem_cons.1 hv with hv | hv
          · exact absurd hv hva
          · exact hv
        rw [if_neg hva]
        exact ih _ u v hu' hv' hn' huv

theorem starts_next (g : Graph) (l : List Nat) : ∀ (k u v : Nat), u ∈ l → v ∈ l → l.Nodup →
    l.idxOf v + 1 = l.idxOf u → starts g l k u = starts g l k v + size g v := by
  induction l with
  | nil => intro k u v hu; simp at hu
  | cons a l ih =>
    intro k u v hu hv hn hi
    have hn' := (List.nodup_cons.1 hn).2
    have hua : u ≠ a := by rintro rfl; simp at hi
    have hu' : u ∈ l := by
      rcases List.mem_cons.1 hu with hu | hu
      · exact absurd hu hua
      · exact hu
    rw [List.idxOf_cons_ne l (Ne.symm hua)] at hi
    unfold starts
    rw [if_neg hua]
    by_cases hva : v = a
    · subst hva
      rw [if_pos rfl]
      simp only [List.idxOf_cons_self, Nat.zero_add, Nat.succ_eq_add_one] at hi
      have h0 : l.idxOf u = 0 := by omega
      cases l with
      | nil => simp at hu'
      | cons b l =>
        have hub : u = b := by
          by_contra hne
          rw [List.idxOf_cons_ne l (Ne.symm hne)] at h0
          omega
        unfold starts
        rw [if_pos hub]
    · have hv' : v ∈ l := by
        rcases List.mem_cons.1 hv with hv | hv
        · exact absurd hv hva
        · exact hv
      rw [if_neg hva]
      rw [List.idxOf_cons_ne l (Ne.symm hva)] at hi
      exact ih _ u v hu' hv' hn' (by omega)

theorem guard_eq (g : Graph) : guard g = ((order g).map (size g)).sum := rfl

theorem start_le {g : Graph} (h : WF g) {v : Nat} (hv : v < g.n) : start g v + size g v ≤ guard g := by
  obtain ⟨o1, o2⟩ := order_spec h
  have := (starts_bounds g (order g) 0 v ((o2 v).2 hv) o1).2
  rw [Nat.zero_add] at this
  exact this

theorem start_disjoint {g : Graph} (h : WF g) {u v : Nat} (hu : u < g.n) (hv : v < g.n) (huv : u ≠ v) :
    start g u + size g u ≤ start g v ∨ start g v + size g v ≤ start g u := by
  obtain ⟨o1, o2⟩ := order_spec h
  exact starts_disjoint g (order g) 0 u v ((o2 u).2 hu) ((o2 v).2 hv) o1 huv

theorem start_next {g : Graph} (h : WF g) {u v : Nat} (hu : u < g.n) (hv : v < g.n)
    (hf : follows g v u = true) : start g u = start g v + size g v := by
  obtain ⟨o1, o2⟩ := order_spec h
  exact starts_next g (order g) 0 u v ((o2 u).2 hu) ((o2 v).2 hv) o1 (by simpa [follows, rank] using hf)

theorem order_head {g : Graph} (h : WF g) : ∃ l, order g = 0 :: l := by
  unfold order
  have := h.pos
  cases hn : g.n with
  | zero => omega
  | succ n => exact ⟨_, rfl⟩

theorem start_root {g : Graph} (h : WF g) : start g 0 = 0 := by
  obtain ⟨l, hl⟩ := order_head h
  unfold start
  rw [hl]
  simp [starts]

/-! ## The program -/

theorem place_get (code ws : List Nat) (a j : Nat) (h : a + ws.length ≤ code.length) :
    (place code a ws)[j]? = if a ≤ j ∧ j < a + ws.length then ws[j - a]? else code[j]? := by
  unfold place
  have hl : (code.take a).length = a := by rw [List.length_take]; omega
  rw [List.append_assoc, List.getElem?_append, hl]
  by_cases h1 : j < a
  · rw [if_pos h1, if_neg (by omega), List.getElem?_take, if_pos h1]
  · rw [if_neg h1, List.getElem?_append]
    by_cases h2 : j - a < ws.length
    · rw [if_pos h2, if_pos (by omega)]
    · rw [if_neg h2, if_neg (by omega), List.getElem?_drop]
      congr 1
      omega

theorem place_length (code ws : List Nat) (a : Nat) (h : a + ws.length ≤ code.length) :
    (place code a ws).length = code.length := by
  unfold place
  simp only [List.length_append, List.length_take, List.length_drop]
  omega

/-- The state's instructions are in the code. -/
def Holds (g : Graph) (code : List Nat) (v : Nat) : Prop :=
  ∃ ws, encodeState g v = some ws ∧ ∀ i < ws.length, code[start g v + i]? = ws[i]?

theorem encodeAll_spec {g : Graph} (h : WF g) (vs : List Nat) : ∀ (dn code : List Nat),
    (∀ v ∈ vs, v < g.n) → (∀ v ∈ dn, v < g.n) → (dn ++ vs).Nodup → code.length = guard g + 2 →
    (∀ v ∈ dn, Holds g code v) →
    ((∀ v ∈ vs, ∃ ws, encodeState g v = some ws) → ∃ code', encodeAll g vs code = .ok code' ∧
      code'.length = guard g + 2 ∧ ∀ v ∈ dn ++ vs, Holds g code' v) ∧
    ((∃ v ∈ vs, encodeState g v = none) → encodeAll g vs code = .threw) := by
  induction vs with
  | nil =>
    intro dn code _ _ _ hl hd
    exact ⟨fun _ => ⟨code, rfl, hl, by simpa using hd⟩, by simp⟩
  | cons v vs ih =>
    intro dn code hvs hdn hn hl hd
    have hv : v < g.n := hvs v (by simp)
    have hsl := start_le h hv
    cases he : encodeState g v with
    | none =>
      refine ⟨fun hall => ?_, fun _ => ?_⟩
      · obtain ⟨ws, hws⟩ := hall v (by simp)
        rw [he] at hws; cases hws
      · simp [encodeAll, he]
    | some ws =>
      have hlen := encode_length h hv he
      have hfit : start g v + ws.length ≤ code.length := by rw [hlen, hl]; unfold size at hsl; omega
      have hstep : encodeAll g (v :: vs) code = encodeAll g vs (place code (start g v) ws) := by
        rw [encodeAll, he]
        dsimp only
        rw [if_neg (by omega), if_neg (fun hh => hh.2 hlen)]
      have hv' : v ∉ dn := by
        intro hm
        rw [List.nodup_append] at hn
        exact hn.2.2 v hm v (by simp) rfl
      have hdn' : ∀ u ∈ dn ++ [v], Holds g (place code (start g v) ws) u := by
        intro u hu
        rcases List.mem_append.1 hu with hu | hu
        · obtain ⟨us, hus, hget⟩ := hd u hu
          refine ⟨us, hus, fun i hi => ?_⟩
          rw [place_get _ _ _ _ hfit, if_neg, hget i hi]
          have hlu := encode_length h (hdn u hu) hus
          have hne : u ≠ v := fun e => hv' (e ▸ hu)
          have := start_disjoint h (hdn u hu) hv hne
          unfold size at this
          omega
        · simp only [List.mem_singleton] at hu
          subst hu
          refine ⟨ws, he, fun i hi => ?_⟩
          rw [place_get _ _ _ _ hfit, if_pos (by omega), Nat.add_sub_cancel_left]
      obtain ⟨i1, i2⟩ := ih (dn ++ [v]) (place code (start g v) ws) (fun u hu => hvs u (by simp [hu]))
        (by
          intro u hu
          rcases List.mem_append.1 hu with hu | hu
          · exact hdn u hu
          · simp only [List.mem_singleton] at hu; subst hu; exact hv)
        (by simpa using hn) (by rw [place_length _ _ _ hfit, hl]) hdn'
      rw [hstep]
      refine ⟨fun hall => ?_, fun hex => ?_⟩
      · obtain ⟨c, c1, c2, c3⟩ := i1 (fun u hu => hall u (by simp [hu]))
        exact ⟨c, c1, c2, by simpa using c3⟩
      · apply i2
        obtain ⟨u, hu, hu'⟩ := hex
        rcases List.mem_cons.1 hu with rfl | hu
        · rw [he] at hu'; cases hu'
        · exact ⟨u, hu, hu'⟩

/-- The code of a compiled automaton. -/
theorem codegen_spec {g : Graph} (h : WF g) (henc : ∀ v < g.n, ∃ ws, encodeState g v = some ws) :
    ∃ code, codegen g = .ok code ∧ code.length = guard g + 2 ∧ (∀ v < g.n, Holds g code v) ∧
      code[guard g]? = some (mkWord 12 0 0 0) ∧ code[guard g + 1]? = some (mkWord 6 0 0 0) := by
  obtain ⟨c, c1, c2, c3⟩ := (encodeAll_spec h (List.range g.n) [] (List.replicate (guard g + 2) (mkWord 12 0 0 0))
    (by simp) (by simp) (by simpa using List.nodup_range) (by simp) (by simp)).1 (by simpa using henc)
  refine ⟨(c.set (guard g) (mkWord 12 0 0 0)).set (guard g + 1) (mkWord 6 0 0 0), ?_, ?_, ?_, ?_, ?_⟩
  · unfold codegen; rw [c1]
  · simp [c2]
  · intro v hv
    obtain ⟨ws, hws, hget⟩ := c3 v (by simpa using hv)
    refine ⟨ws, hws, fun i hi => ?_⟩
    have h1 := encode_length h hv hws
    have h2 := start_le h hv
    unfold size at h2
    rw [List.getElem?_set_ne (by omega), List.getElem?_set_ne (by omega), hget i hi]
  · rw [List.getElem?_set_ne (by omega), List.getElem?_set_self (by omega)]
  · rw [List.getElem?_set_self (by simp; omega)]

theorem codegen_threw {g : Graph} (h : WF g) (hno : ∃ v < g.n, encodeState g v = none) :
    codegen g = .threw := by
  have := (encodeAll_spec h (List.range g.n) [] (List.replicate (guard g + 2) (mkWord 12 0 0 0))
    (by simp) (by simp) (by simpa using List.nodup_range) (by simp) (by simp)).2 (by simpa using hno)
  unfold codegen
  rw [this]

/-- The instructions of a state. -/
def words (g : Graph) (v : Nat) : List Nat := (encodeState g v).getD []

theorem flatten_get (g : Graph) (l : List Nat) (hsz : ∀ v ∈ l, (words g v).length = size g v) :
    ∀ (k : Nat) (code : List Nat), l.Nodup →
    (∀ v ∈ l, ∀ i < size g v, code[starts g l k v + i]? = (words g v)[i]?) →
    ∀ j < ((l.map (words g)).flatten).length, code[k + j]? = ((l.map (words g)).flatten)[j]? := by
  induction l with
  | nil => intro k code _ _ j hj; simp at hj
  | cons a l ih =>
    intro k code hn hget j hj
    have hsa := hsz a (by simp)
    simp only [List.map_cons, List.flatten_cons, List.length_append] at hj ⊢
    rw [List.getElem?_append]
    split
    · next hlt =>
      have := hget a (by simp) j (by omega)
      unfold starts at this
      rw [if_pos rfl] at this
      exact this
    · next hge =>
      have := ih (fun v hv => hsz v (by simp [hv])) (k + size g a) code (List.nodup_cons.1 hn).2 (by
        intro v hv i hi
        have := hget v (by simp [hv]) i hi
        unfold starts at this
        rw [if_neg (fun e : v = a => (List.nodup_cons.1 hn).1 (e ▸ hv))] at this
        exact this) (j - (words g a).length) (by omega)
      rw [← this]
      congr 1
      omega

/-- **C11.** For every automaton as above, whose labels and check numbers fit: compiling
succeeds; every state is laid out exactly once; the room computed for each state is
the number of instructions emitted for it; the program is these instructions one after
the other, followed by Halt and Finish. -/
theorem layout_consistent_partial {g : Graph} (h : WF g) (henc : ∀ v < g.n, encodeState g v ≠ none) :
    ∃ code, codegen g = .ok code ∧
      (order g).Perm (List.range g.n) ∧
      (∀ v < g.n, (words g v).length = evalSize g v + otherSize g v) ∧
      code = ((order g).map (words g)).flatten ++ [mkWord 12 0 0 0, mkWord 6 0 0 0] := by
  obtain ⟨o1, o2⟩ := order_spec h
  have henc' : ∀ v < g.n, ∃ ws, encodeState g v = some ws := fun v hv =>
    Option.ne_none_iff_exists'.1 (henc v hv)
  obtain ⟨code, c1, c2, c3, c4, c5⟩ := codegen_spec h henc'
  have hw : ∀ v < g.n, (words g v).length = evalSize g v + otherSize g v := by
    intro v hv
    obtain ⟨ws, hws⟩ := henc' v hv
    simp only [words, hws, Option.getD_some]
    exact encode_length h hv hws
  refine ⟨code, c1, ?_, hw, ?_⟩
  · exact (List.perm_ext_iff_of_nodup o1 List.nodup_range).2 (by simpa using o2)
  · have hfl : ((order g).map (words g)).flatten.length = guard g := by
      rw [List.length_flatten, List.map_map, guard_eq]
      congr 1
      apply List.map_congr_left
      intro v hv
      exact hw v ((o2 v).1 hv)
    apply List.ext_getElem?
    intro j
    rw [List.getElem?_append]
    split
    · next hj =>
      have := flatten_get g (order g) (fun v hv => hw v ((o2 v).1 hv)) 0 code o1 (by
        intro v hv i hi
        obtain ⟨ws, hws, hget⟩ := c3 v ((o2 v).1 hv)
        have hl := encode_length h ((o2 v).1 hv) hws
        simp only [words, hws, Option.getD_some]
        exact hget i (by unfold size at hi; omega)) j hj
      rwa [Nat.zero_add] at this
    · next hj =>
      rw [hfl] at hj ⊢
      by_cases e1 : j = guard g
      · subst e1; rw [c4]; simp
      · by_cases e2 : j = guard g + 1
        · subst e2; rw [c5, show guard g + 1 - guard g = 1 by omega]; rfl
        · rw [List.getElem?_eq_none (by omega), List.getElem?_eq_none (by simp; omega)]

/-- Compiling such an automaton never writes outside the program; it fails only when a
label or check number needs more than 24 bits. -/
theorem codegen_never_ub {g : Graph} (h : WF g) : codegen g ≠ .ub ∧
    (codegen g = .threw ↔ ∃ v < g.n, encodeState g v = none) := by
  by_cases hex : ∃ v < g.n, encodeState g v = none
  · rw [codegen_threw h hex]
    exact ⟨by simp, by simpa using hex⟩
  · obtain ⟨code, c1, -⟩ := codegen_spec h (fun v hv => by
      cases he : encodeState g v with
      | none => exact absurd ⟨v, hv, he⟩ hex
      | some ws => exact ⟨ws, rfl⟩)
    rw [c1]
    exact ⟨by simp, by simpa using hex⟩

/-! ## Which automata compile -/

theorem checks_le (g : Graph) (l : List Nat) : ∀ (k u i : Nat), checks g l k u = some i →
    k < i ∧ i ≤ k + (l.filter fun v => (g.v v).inn.length > 1).length := by
  induction l with
  | nil => intro k u i h; simp [checks] at h
  | cons v l ih =>
    intro k u i h
    unfold checks at h
    rw [List.filter_cons]
    by_cases hv : (g.v v).inn.length > 1
    · rw [if_pos hv] at h
      rw [if_pos (decide_eq_true hv), List.length_cons]
      split at h
      · simp only [Option.some.injEq] at h; omega
      · have := ih _ _ _ h; omega
    · rw [if_neg hv] at h
      rw [if_neg (by simpa using hv)]
      split at h
      · cases h
      · exact ih _ _ _ h

theorem check_le {g : Graph} {v i : Nat} (h : check g v = some i) : 0 < i ∧ i ≤ maxCheck g := by
  have := checks_le g _ _ _ _ h
  unfold maxCheck
  omega

theorem checks_inj (g : Graph) (l : List Nat) : ∀ (k u v i : Nat), checks g l k u = some i →
    checks g l k v = some i → u = v := by
  induction l with
  | nil => intro k u v i h; simp [checks] at h
  | cons a l ih =>
    intro k u v i h1 h2
    unfold checks at h1 h2
    by_cases ha : (g.v a).inn.length > 1
    · rw [if_pos ha] at h1 h2
      split at h1
      · next e1 =>
        split at h2
        · next e2 => rw [e1, e2]
        · simp only [Option.some.injEq] at h1
          have := checks_le g _ _ _ _ h2
          omega
      · split at h2
        · simp only [Option.some.injEq] at h2
          have := checks_le g _ _ _ _ h1
          omega
        · exact ih _ _ _ _ h1 h2
    · rw [if_neg ha] at h1 h2
      split at h1
      · cases h1
      · split at h2
        · cases h2
        · exact ih _ _ _ _ h1 h2

/-- Different states have different check numbers. -/
theorem check_inj {g : Graph} {u v i : Nat} (h1 : check g u = some i) (h2 : check g v = some i) : u = v :=
  checks_inj g _ _ _ _ _ h1 h2

theorem maxCheck_le {g : Graph} (h : WF g) : maxCheck g ≤ g.n := by
  obtain ⟨o1, o2⟩ := order_spec h
  unfold maxCheck
  refine Nat.le_trans (List.length_filter_le _ _) ?_
  have := (List.perm_ext_iff_of_nodup o1 (List.nodup_range (n := g.n))).2 (by simpa using o2)
  rw [this.length_eq, List.length_range]

/-- An automaton with less than 2^24 states and labels below 2^24 compiles. -/
theorem encodes_of_small {g : Graph} (h : WF g) (hn : g.n < 16777216)
    (hl : ∀ v < g.n, ∀ l, (g.v v).label = some l → l < 16777216) :
    ∀ v < g.n, encodeState g v ≠ none := by
  intro v hv
  have hpre : ∃ p, emitPre g v = some p := by
    unfold emitPre
    split
    · exact ⟨_, rfl⟩
    · obtain ⟨e, he⟩ := emit_some (getSmallest_ok fun i => (g.v v).bytes.getLsbD i)
      have hm : ∃ m, emitMarks g v = some m := by
        unfold emitMarks
        cases hlab : (g.v v).label with
        | none =>
          cases hc : check g v with
          | none => exact ⟨_, rfl⟩
          | some k =>
            have := check_le hc
            have := maxCheck_le h
            simp [raw24, show k < 16777216 by omega]
        | some l =>
          have hlt := hl v hv l hlab
          cases hc : check g v with
          | none => simp [raw24, hlt]
          | some k =>
            have := check_le hc
            have := maxCheck_le h
            simp [raw24, hlt, show k < 16777216 by omega]
      obtain ⟨m, hm⟩ := hm
      have he' : (transOf (g.v v).bytes).emit = some e := he
      simp [he', hm]
  obtain ⟨p, hp⟩ := hpre
  unfold encodeState
  rw [hp]
  simp only [Option.bind_eq_bind, Option.bind_some]
  split <;> simp

/-! ## Examples -/

/-- `a([bc]+d|c…|e|f)`-like automaton with a jump table, a loop, labels, checks. -/
def sampleVertex : Nat → Vertex
  | 0 => { out := [1, 6] }
  | 1 => { bytes := BSet.single 97, out := [2, 3, 4, 5], inn := [0] }
  | 2 => { bytes := BSet.single 98 ||| BSet.single 99, out := [2, 6], inn := [1, 2] }
  | 3 => { bytes := BSet.single 99, out := [6], inn := [1], label := some 1 }
  | 4 => { bytes := BSet.single 101, out := [6], inn := [1] }
  | 5 => { bytes := BSet.single 102, out := [6], inn := [1] }
  | 6 => { bytes := BSet.single 100, out := [5], inn := [0, 2, 3, 4, 5], isMatch := true, label := some 0 }
  | _ => {}

@[inherit_doc sampleVertex] def sample : Graph := { n := 7, v := sampleVertex }

theorem sample_wf : WF sample where
  pos := by decide
  edges := by decide
  nodup := by decide
  bytes := by
    have h : ∀ v < 7, v ≠ 0 → (sampleVertex v).bytes.getLsbD
        (match v with | 1 => 97 | 2 => 98 | 3 => 99 | 4 => 101 | 5 => 102 | _ => 100) = true := by
      decide +kernel
    intro v hv h0
    refine ⟨_, ?_, h v hv h0⟩
    split <;> decide
  reach := by
    have w0 : BestPair.Walk sample 0 0 := .zero
    have w1 : BestPair.Walk sample 1 1 := w0.step (by decide)
    have w6 : BestPair.Walk sample 1 6 := w0.step (by decide)
    have w2 : BestPair.Walk sample 2 2 := w1.step (by decide)
    have w3 : BestPair.Walk sample 2 3 := w1.step (by decide)
    have w4 : BestPair.Walk sample 2 4 := w1.step (by decide)
    have w5 : BestPair.Walk sample 2 5 := w1.step (by decide)
    intro v hv
    have hv' : v < 7 := hv
    match v, hv' with
    | 0, _ => exact ⟨_, w0⟩
    | 1, _ => exact ⟨_, w1⟩
    | 2, _ => exact ⟨_, w2⟩
    | 3, _ => exact ⟨_, w3⟩
    | 4, _ => exact ⟨_, w4⟩
    | 5, _ => exact ⟨_, w5⟩
    | 6, _ => exact ⟨_, w6⟩
  rootLabel := rfl
  rootMatch := rfl
  rootIn := rfl

example : ∃ code, codegen sample = .ok code ∧ code.length = 39 := by
  obtain ⟨code, h, -, -, hc⟩ := layout_consistent_partial sample_wf (encodes_of_small sample_wf (by decide) (by decide))
  refine ⟨code, h, ?_⟩
  rw [hc]
  decide +kernel

/-- An automaton with parallel edges: one state with four edges to the same state. -/
def parallel : Graph :=
  { n := 3
    v := fun
      | 0 => { out := [1] }
      | 1 => { bytes := BSet.single 98, out := [2, 2, 2, 2], inn := [0] }
      | 2 => { bytes := BSet.single 97, inn := [1, 1, 1, 1], isMatch := true, label := some 0 }
      | _ => {} }

/-- Without the condition on parallel edges the claim is false: the table is sized for
one byte and emitted up to byte 255, beyond the end of the program. -/
theorem parallel_edges_overrun : codegen parallel = .ub := by
  decide +kernel

end Verif.Compiler
