import Verif.Props.Greedy
/-!
# C53: which of several matches is reported

Of the matches starting at the same offset the one reported is decided by the automaton:
the order of the edges leaving a state says which continuation is preferred, and going on
is preferred to stopping.
-/
namespace Verif.Compiler
open Verif.Nfa Verif.Transition Verif.Vm

/-! ## Specification -/

/-- The automaton reads `w` along the states `p`, ending in `v` and carrying `lab`. -/
inductive Way (g : Graph) : List Nat → List UInt8 → Nat → Option Nat → Prop
  | init : Way g [] [] 0 none
  | step {p w v lab u b} : Way g p w v lab → u ∈ (g.v v).out → (g.v u).bytes.has b = true →
      Way g (p ++ [u]) (w ++ [b]) u ((g.v u).label.or lab)

/-- `u` is before the first `u'` in the list. -/
def Earlier (xs : List Nat) (u u' : Nat) : Prop := ∃ a c, xs = a ++ u' :: c ∧ u ∈ a ∧ u' ∉ a

/-- The state a way ends in. -/
def endOf (p : List Nat) : Nat := p.getLast?.getD 0

/-- The way `p` is preferred to `q`: it goes on where `q` stops, or where they part it
takes an earlier edge. -/
def Prefer (g : Graph) (p q : List Nat) : Prop :=
  (∃ u r, p = q ++ u :: r) ∨
  ∃ c u r u' r', p = c ++ u :: r ∧ q = c ++ u' :: r' ∧ Earlier (g.v (endOf c)).out u u'

/-- The automaton matches, for keyword `l` and along `p`, the bytes of the stream `buf`
(starting at offset `off`) from `s` to `e`. -/
def WayAt (g : Graph) (off : Nat) (buf : List UInt8) (l s e : Nat) (p : List Nat) : Prop :=
  off ≤ s ∧ s < e ∧ e ≤ off + buf.length ∧
    ∃ v, Way g p ((buf.drop (s - off)).take (e - s)) v (some l) ∧ (g.v v).isMatch = true

/-- The list is the matches to report from `m` on: each is the leftmost one, and of those
the one along the preferred way, and the next starts at or after its end. -/
def Preferred (g : Graph) (off : Nat) (buf : List UInt8) (l : Nat) : Nat → List (Nat × Nat) → Prop
  | m, [] => ∀ s e p, WayAt g off buf l s e p → s < m
  | m, (s, e) :: hs => m ≤ s ∧ (∃ p, WayAt g off buf l s e p ∧
      ∀ s' e' q, WayAt g off buf l s' e' q → m ≤ s' → s < s' ∨ s = s' ∧ (q = p ∨ Prefer g p q)) ∧
      Preferred g off buf l e hs

/-! ## Keys of ways -/

def mid (g : Graph) (v : Nat) : List Bool := if (g.v v).isMatch then [false] else []

def choose : List Nat → Nat → List Bool
  | [], _ => []
  | x :: xs, u => if u = x then List.replicate xs.length false else List.replicate (xs.reverse.idxOf u) false ++ [true]

def cands (g : Graph) (v : Nat) (b : UInt8) : List Nat := if isTable g v then pivot g v b.toNat else (g.v v).out

def endKey (g : Graph) (v : Nat) : List Bool := if (g.v v).out = [] then [] else [true]

/-- A way with the decisions a thread takes on it. -/
inductive WayK (g : Graph) : List Nat → List UInt8 → List Bool → Nat → Option Nat → Prop
  | init : WayK g [] [] [] 0 none
  | step {p w k v lab u b} : WayK g p w k v lab → u ∈ (g.v v).out → (g.v u).bytes.has b = true →
      WayK g (p ++ [u]) (w ++ [b]) (k ++ mid g v ++ choose (cands g v b) u) u ((g.v u).label.or lab)

theorem wayk_of_way {g : Graph} {p w v lab} (h : Way g p w v lab) : ∃ k, WayK g p w k v lab := by
  induction h with
  | init => exact ⟨_, .init⟩
  | step _ hu hb ih => obtain ⟨k, hk⟩ := ih; exact ⟨_, hk.step hu hb⟩

theorem way_of_wayk {g : Graph} {p w k v lab} (h : WayK g p w k v lab) : Way g p w v lab := by
  induction h with
  | init => exact .init
  | step _ hu hb ih => exact ih.step hu hb

theorem wayk_last {g : Graph} {p w k v lab} (h : WayK g p w k v lab) : v = endOf p := by
  cases h with
  | init => rfl
  | step _ _ _ => simp [endOf]

theorem wayk_length {g : Graph} {p w k v lab} (h : WayK g p w k v lab) : w.length = p.length := by
  induction h with
  | init => rfl
  | step _ _ _ ih => simp [ih]

theorem wayk_lt {g : Graph} (hg : Live g) {p w k v lab} (h : WayK g p w k v lab) : v < g.n := by
  induction h with
  | init => exact hg.pos
  | step _ hu _ ih => exact (hg.edges _ ih _ hu).2

theorem wayk_det {g : Graph} {p w k v lab} (h : WayK g p w k v lab) :
    ∀ {k' v' lab'}, WayK g p w k' v' lab' → k = k' := by
  induction h with
  | init =>
    intro k' v' lab' h'
    generalize hp : ([] : List Nat) = p at h'
    generalize ([] : List UInt8) = w at h'
    cases h' with
    | init => rfl
    | step _ _ _ => simp at hp
  | @step p w k v lab u b h1 hu hb ih =>
    intro k' v' lab' h'
    generalize hp : p ++ [u] = p' at h'
    generalize hw : w ++ [b] = w' at h'
    cases h' with
    | init => simp at hp
    | step h2 _ _ =>
      obtain ⟨rfl, e⟩ := List.append_inj' hp rfl
      obtain ⟨rfl, e'⟩ := List.append_inj' hw rfl
      cases e
      cases e'
      rw [ih h2, wayk_last h1, wayk_last h2]

/-- Cutting a way at a state. -/
theorem wayk_at {g : Graph} {p w k v lab} (h : WayK g p w k v lab) : ∀ {c u r}, p = c ++ u :: r →
    ∃ w1 b w2 k1 k2 lab1, w = w1 ++ b :: w2 ∧ w1.length = c.length ∧ WayK g c w1 k1 (endOf c) lab1 ∧
      u ∈ (g.v (endOf c)).out ∧ (g.v u).bytes.has b = true ∧
      k = k1 ++ mid g (endOf c) ++ choose (cands g (endOf c) b) u ++ k2 := by
  induction h with
  | init => intro c u r e; simp at e
  | @step p w k v lab u' b h1 hu hb ih =>
    intro c u r e
    rcases List.eq_nil_or_concat r with rfl | ⟨r', x, rfl⟩
    · obtain ⟨rfl, e2⟩ := List.append_inj' e rfl
      cases e2
      have hv := wayk_last h1
      refine ⟨w, b, [], k, [], lab, rfl, wayk_length h1, ?_, ?_, hb, ?_⟩
      · rw [← hv]; exact h1
      · rw [← hv]; exact hu
      · rw [← hv]; simp
    · have e' : p ++ [u'] = (c ++ u :: r') ++ [x] := by rw [e]; simp
      obtain ⟨e1, -⟩ := List.append_inj' e' rfl
      obtain ⟨w1, b1, w2, k1, k2, lab1, a1, a2, a3, a4, a5, a6⟩ := ih e1
      exact ⟨w1, b1, w2 ++ [b], k1, k2 ++ mid g v ++ choose (cands g v b) u', lab1, by rw [a1]; simp, a2, a3, a4, a5,
        by rw [a6]; simp⟩

/-! ## Order of keys -/

theorem div_common (x a b : List Bool) (h : Div a b) : Div (x ++ a) (x ++ b) := by
  induction x with
  | nil => exact h
  | cons y x ih => exact (div_same y _ _).2 ih

theorem div_replicate {n m : Nat} (h : m < n) (a b : List Bool) :
    Div (List.replicate n false ++ a) (List.replicate m false ++ true :: b) := by
  induction m generalizing n with
  | zero =>
    obtain ⟨n, rfl⟩ : ∃ n', n = n' + 1 := ⟨n - 1, by omega⟩
    exact div_ft _ _
  | succ m ih =>
    obtain ⟨n, rfl⟩ : ∃ n', n = n' + 1 := ⟨n - 1, by omega⟩
    exact (div_same false _ _).2 (ih (by omega))

theorem choose_div {xs : List Nat} {u u' : Nat} (h : Earlier xs u u') (hn : xs.Nodup) (a b : List Bool) :
    Div (choose xs u ++ a) (choose xs u' ++ b) := by
  obtain ⟨pq, r, rfl, hm, -⟩ := h
  obtain ⟨p, q, rfl⟩ := List.append_of_mem hm
  cases p with
  | nil =>
    simp only [List.nil_append, List.cons_append] at hn ⊢
    rw [List.nodup_cons] at hn
    have hne : u' ≠ u := by rintro rfl; exact hn.1 (by simp)
    have hm : u' ∈ (q ++ u' :: r).reverse := by simp
    simp only [choose, if_pos, if_neg hne, List.append_assoc, List.singleton_append]
    refine div_replicate ?_ _ _
    have := List.idxOf_lt_length_of_mem hm
    simp only [List.length_reverse] at this
    exact this
  | cons x p =>
    simp only [List.cons_append] at hn ⊢
    rw [List.nodup_cons] at hn
    obtain ⟨hx, hn⟩ := hn
    have hu : u ≠ x := by rintro rfl; exact hx (by simp)
    have hu' : u' ≠ x := by rintro rfl; exact hx (by simp)
    simp only [choose, if_neg hu, if_neg hu', List.append_assoc, List.singleton_append]
    have hr : (p ++ (u :: q ++ u' :: r)).reverse = r.reverse ++ u' :: (q.reverse ++ u :: p.reverse) := by simp
    rw [List.append_assoc] at hn
    have hn' := List.nodup_reverse.2 hn
    simp only [List.cons_append] at hr ⊢
    simp only [List.cons_append] at hn'
    rw [hr] at hn' ⊢
    rw [List.nodup_append] at hn'
    obtain ⟨-, h2, h3⟩ := hn'
    have n1 : u' ∉ r.reverse := fun hh => h3 _ hh u' (by simp) rfl
    have n2 : u ∉ r.reverse := fun hh => h3 _ hh u (by simp) rfl
    rw [List.nodup_cons] at h2
    obtain ⟨h4, -⟩ := h2
    have n3 : u' ≠ u := by rintro rfl; exact h4 (by simp)
    rw [List.idxOf_append_of_notMem n1, List.idxOf_append_of_notMem n2, List.idxOf_cons_self, List.idxOf_cons_ne _ n3]
    exact div_replicate (by omega) _ _

theorem pivot_filter {g : Graph} {v : Nat} (b : Nat) (hn : (g.v v).out.Nodup) :
    pivot g v b = (g.v v).out.filter (fun u => (g.v u).bytes.getLsbD b) := by
  unfold pivot
  have key : ∀ (xs acc : List Nat), xs.Nodup → (∀ x ∈ xs, x ∉ acc) →
      xs.foldl (fun acc u => if (g.v u).bytes.getLsbD b ∧ u ∉ acc then acc ++ [u] else acc) acc =
        acc ++ xs.filter (fun u => (g.v u).bytes.getLsbD b) := by
    intro xs
    induction xs with
    | nil => intro acc _ _; simp
    | cons x xs ih =>
      intro acc h1 h2
      rw [List.nodup_cons] at h1
      rw [List.foldl_cons, List.filter_cons]
      have hx := h2 x (by simp)
      by_cases hb : (g.v x).bytes.getLsbD b = true
      · rw [if_pos ⟨hb, hx⟩, if_pos hb, ih _ h1.2]
        · simp
        · intro y hy hya
          rcases List.mem_append.1 hya with hya | hya
          · exact h2 y (by simp [hy]) hya
          · simp only [List.mem_singleton] at hya
            subst hya
            exact h1.1 hy
      · rw [if_neg (fun h => hb h.1), if_neg hb, ih _ h1.2 (fun y hy => h2 y (by simp [hy]))]
  simpa using key _ [] hn (by simp)

theorem cands_nodup {g : Graph} (hg : Live g) {v : Nat} (hv : v < g.n) (b : UInt8) : (cands g v b).Nodup := by
  unfold cands
  split
  · rw [pivot_filter _ (hg.nodup v hv)]
    exact (hg.nodup v hv).filter _
  · exact hg.nodup v hv

theorem cands_earlier {g : Graph} (hg : Live g) {v : Nat} (hv : v < g.n) {b : UInt8} {u u' : Nat}
    (h : Earlier (g.v v).out u u') (h1 : (g.v u).bytes.has b = true) (h2 : (g.v u').bytes.has b = true) :
    Earlier (cands g v b) u u' := by
  unfold cands
  split
  · obtain ⟨x, z, e, hx, hy⟩ := h
    have h1 : (g.v u).bytes.getLsbD b.toNat = true := h1
    have h2 : (g.v u').bytes.getLsbD b.toNat = true := h2
    rw [pivot_filter _ (hg.nodup v hv), e]
    refine ⟨x.filter (fun u => (g.v u).bytes.getLsbD b.toNat),
      z.filter (fun u => (g.v u).bytes.getLsbD b.toNat), ?_, List.mem_filter.2 ⟨hx, h1⟩,
      fun h => hy (List.mem_filter.1 h).1⟩
    rw [List.filter_append, List.filter_cons, if_pos h2]
  · exact h

theorem split_eq {α} {x y : List α} (h : x <+: y ∨ y <+: x) {a b : List α} {c d : α} {a' b' : List α}
    (hx : x = a ++ c :: a') (hy : y = b ++ d :: b') (hl : a.length = b.length) : a = b ∧ c = d := by
  rcases h with ⟨t, rfl⟩ | ⟨t, rfl⟩
  · rw [hx, List.append_assoc] at hy
    obtain ⟨h1, h2⟩ := List.append_inj hy hl
    simp only [List.cons_append, List.cons.injEq] at h2
    exact ⟨h1, h2.1⟩
  · rw [hy, List.append_assoc] at hx
    obtain ⟨h1, h2⟩ := List.append_inj hx hl.symm
    simp only [List.cons_append, List.cons.injEq] at h2
    exact ⟨h1.symm, h2.1.symm⟩

theorem prefer_div {g : Graph} (hg : Live g) {p q : List Nat} (h : Prefer g p q) {w w' k k' v v' lab lab'}
    (h1 : WayK g p w k v lab) (h2 : WayK g q w' k' v' lab') (hw : w <+: w' ∨ w' <+: w)
    (hm : (g.v v').isMatch = true) : Div (k ++ endKey g v) (k' ++ endKey g v') := by
  rcases h with ⟨u, r, e⟩ | ⟨c, u, r, u', r', e, e', hE⟩
  · obtain ⟨w1, b, w2, k1, k2, lab1, a1, a2, a3, a4, a5, a6⟩ := wayk_at h1 e
    have hq := wayk_last h2
    have hlen := wayk_length h2
    have hww : w1 = w' := by
      rcases hw with ⟨t, rfl⟩ | ⟨t, rfl⟩
      · have := congrArg List.length a1
        simp only [List.length_append, List.length_cons] at this hlen
        omega
      · exact (List.append_inj a1 (by omega)).1.symm
    subst hww
    have hk := wayk_det h2 a3
    subst hk
    rw [a6, ← hq]
    have hne : (g.v v').out ≠ [] := by rw [hq]; exact List.ne_nil_of_mem a4
    simp only [mid, hm, if_true, endKey, if_neg hne, List.append_assoc]
    exact div_common _ _ _ (div_ft _ _)
  · obtain ⟨w1, b, w2, k1, k2, lab1, a1, a2, a3, a4, a5, a6⟩ := wayk_at h1 e
    obtain ⟨w1', b', w2', k1', k2', lab1', c1, c2, c3, c4, c5, c6⟩ := wayk_at h2 e'
    obtain ⟨rfl, rfl⟩ := split_eq hw a1 c1 (by rw [a2, c2])
    have hk := wayk_det a3 c3
    subst hk
    have hlt := wayk_lt hg a3
    rw [a6, c6]
    simp only [List.append_assoc]
    refine div_common _ _ _ (div_common _ _ _ (choose_div ?_ (cands_nodup hg hlt b) _ _))
    exact cands_earlier hg hlt hE a5 c5

theorem ways_part (p q : List Nat) : p = q ∨ (∃ u r, p = q ++ u :: r) ∨ (∃ u r, q = p ++ u :: r) ∨
    ∃ c u r u' r', p = c ++ u :: r ∧ q = c ++ u' :: r' ∧ u ≠ u' := by
  induction p generalizing q with
  | nil =>
    cases q with
    | nil => exact Or.inl rfl
    | cons x q => exact Or.inr (Or.inr (Or.inl ⟨x, q, rfl⟩))
  | cons x p ih =>
    cases q with
    | nil => exact Or.inr (Or.inl ⟨x, p, rfl⟩)
    | cons y q =>
      by_cases hxy : x = y
      · subst hxy
        rcases ih q with rfl | ⟨u, r, rfl⟩ | ⟨u, r, rfl⟩ | ⟨c, u, r, u', r', rfl, rfl, hne⟩
        · exact Or.inl rfl
        · exact Or.inr (Or.inl ⟨u, r, rfl⟩)
        · exact Or.inr (Or.inr (Or.inl ⟨u, r, rfl⟩))
        · exact Or.inr (Or.inr (Or.inr ⟨x :: c, u, r, u', r', rfl, rfl, hne⟩))
      · exact Or.inr (Or.inr (Or.inr ⟨[], x, p, y, q, rfl, rfl, hxy⟩))

theorem earlier_total {xs : List Nat} {u u' : Nat} (h1 : u ∈ xs) (h2 : u' ∈ xs) (hne : u ≠ u') :
    Earlier xs u u' ∨ Earlier xs u' u := by
  obtain ⟨a, b, rfl, ha⟩ := List.eq_append_cons_of_mem h1
  by_cases h : u' ∈ a
  · exact Or.inr ⟨a, b, rfl, h, ha⟩
  · left
    have hb : u' ∈ b := by
      rcases List.mem_append.1 h2 with h' | h'
      · exact (h h').elim
      · rcases List.mem_cons.1 h' with h' | h'
        · exact (hne h'.symm).elim
        · exact h'
    obtain ⟨c, d, rfl, hc⟩ := List.eq_append_cons_of_mem hb
    exact ⟨a ++ u :: c, d, by simp, by simp, by simp [h, hc, Ne.symm hne]⟩

/-- Of two ways one is preferred. -/
theorem prefer_total {g : Graph} {p q : List Nat} {w w' k k' v v' lab lab'} (h1 : WayK g p w k v lab)
    (h2 : WayK g q w' k' v' lab') : p = q ∨ Prefer g p q ∨ Prefer g q p := by
  rcases ways_part p q with h | h | h | ⟨c, u, r, u', r', e, e', hne⟩
  · exact Or.inl h
  · exact Or.inr (Or.inl (Or.inl h))
  · exact Or.inr (Or.inr (Or.inl h))
  · obtain ⟨_, _, _, _, _, _, -, -, -, a4, -⟩ := wayk_at h1 e
    obtain ⟨_, _, _, _, _, _, -, -, -, c4, -⟩ := wayk_at h2 e'
    rcases earlier_total a4 c4 hne with h | h
    · exact Or.inr (Or.inl (Or.inr ⟨c, u, r, u', r', e, e', h⟩))
    · exact Or.inr (Or.inr (Or.inr ⟨c, u', r', u, r, e', e, h⟩))

/-! ## Threads and ways -/

/-- What a thread at a place knows. -/
def KnowsK (g : Graph) (w : List UInt8) (k : List Bool) (lab : Option Nat) : Loc → Prop
  | .start u => ∃ p k0 v, WayK g p w k0 v lab ∧ u ∈ (g.v v).out ∧
      ∀ b, (g.v u).bytes.has b = true → k = k0 ++ mid g v ++ choose (cands g v b) u
  | .lab v => ∃ p, WayK g p w k v ((g.v v).label.or lab)
  | .chk v => ∃ p, WayK g p w k v lab
  | .mat v => ∃ p, WayK g p w k v lab
  | .mat1 v => ∃ p, WayK g p w k v lab
  | .out v j => ∃ p k0, WayK g p w k0 v lab ∧ k = k0 ++ mid g v ++ List.replicate j false
  | .last v => ∃ p k0, WayK g p w k0 v lab ∧ k = k0 ++ mid g v ++ List.replicate ((g.v v).out.length - 1) false
  | .tab v => ∃ p k0, WayK g p w k0 v lab ∧ k = k0 ++ mid g v
  | .ind v b j => ∃ p k0 w0 c, w = w0 ++ [c] ∧ c.toNat = b ∧ WayK g p w0 k0 v lab ∧
      k = k0 ++ mid g v ++ List.replicate j false
  | .halt => True
  | .fin => ∃ p k0 v, WayK g p w k0 v lab ∧ (g.v v).isMatch = true ∧ (g.v v).out ≠ [] ∧ k = k0 ++ [true]

theorem knowsK_outLoc {g : Graph} {w p k0 lab v} (j : Nat) (ht : isTable g v = false) (h : WayK g p w k0 v lab)
    (hj : j + 1 ≤ (g.v v).out.length) : KnowsK g w (k0 ++ mid g v ++ List.replicate j false) lab (outLoc g v j) := by
  unfold outLoc
  split
  · trivial
  · next u us ho =>
    rw [ho] at hj
    simp only [List.length_cons] at hj
    split
    · exact ⟨p, k0, h, rfl⟩
    · next hlt =>
      have e : j = us.length := by omega
      split
      · refine ⟨p, k0, v, h, by rw [ho]; simp, fun b _ => ?_⟩
        simp [cands, ht, ho, choose, e]
      · exact ⟨p, k0, h, by rw [ho]; simp [e]⟩

theorem knowsK_entryOut {g : Graph} {w p k0 lab v} (h : WayK g p w k0 v lab) (ho : (g.v v).out ≠ []) :
    KnowsK g w (k0 ++ mid g v) lab (entryOut g v) := by
  unfold entryOut
  split
  · exact ⟨p, k0, h, rfl⟩
  · next ht =>
    have := List.length_pos_iff.2 ho
    simpa using knowsK_outLoc 0 (by simpa using ht) h (by omega)

theorem knowsK_entryMat {g : Graph} (hg : Live g) {w p k lab v} (h : WayK g p w k v lab) :
    KnowsK g w k lab (entryMat g v) := by
  unfold entryMat
  split
  · exact ⟨p, h⟩
  · next hm =>
    have hm : (g.v v).isMatch = false := by simpa using hm
    have := knowsK_entryOut h (hg.live v (wayk_lt hg h) hm)
    simpa [mid, hm] using this

theorem knowsK_entryChk {g : Graph} (hg : Live g) {w p k lab v} (h : WayK g p w k v lab) :
    KnowsK g w k lab (entryChk g v) := by
  unfold entryChk
  split
  · exact knowsK_entryMat hg h
  · exact ⟨p, h⟩

theorem knowsK_entryLab {g : Graph} (hg : Live g) {w p k lab v} (h : WayK g p w k v ((g.v v).label.or lab)) :
    KnowsK g w k lab (entryLab g v) := by
  unfold entryLab
  split
  · next hn => rw [hn, Option.none_or] at h; exact knowsK_entryChk hg h
  · exact ⟨p, h⟩

theorem single_choose {g : Graph} {v u : Nat} (ho : (g.v v).out = [u]) {b : UInt8} :
    choose (cands g v b) u = [] := by
  unfold cands
  split
  · next ht =>
    unfold isTable at ht
    rw [ho] at ht
    simp at ht
  · rw [ho]; simp [choose]

theorem knowsK_land {g : Graph} (hg : Live g) {w p k lab v} (h : WayK g p w k v ((g.v v).label.or lab)) :
    KnowsK g w k lab (land g v) := by
  unfold land
  split
  · next u ho =>
    split
    · next hc =>
      rw [hc.1, Option.none_or] at h
      refine ⟨p, k, v, h, by rw [ho]; simp, fun b _ => ?_⟩
      rw [single_choose ho]
      simp [mid, hc.2]
    · exact knowsK_entryLab hg h
  · exact knowsK_entryLab hg h

theorem lrun_knowsK {g : Graph} (h : Live g) {w k l lab} (hr : LRun g w k l lab) : l.ok g ∧ KnowsK g w k lab l := by
  induction hr with
  | init => exact ⟨ok_entryLab h h.pos, knowsK_entryLab h (by rw [h.rootLabel]; exact .init)⟩
  | @fork1 w k l lab n t _ hop ih =>
    obtain ⟨ok, kn⟩ := ih
    refine ⟨((ok_lop h ok).1 _ _ hop).1, ?_⟩
    cases l with
    | mat1 v =>
      simp only [lop] at hop
      split at hop
      · cases hop
      · next ho =>
        simp only [LOp.fork.injEq] at hop
        rw [← hop.1]
        obtain ⟨p, hw⟩ := kn
        have := knowsK_entryOut hw ho
        simpa [mid, ok.2.2] using this
    | out v j =>
      simp only [lop, LOp.fork.injEq] at hop
      rw [← hop.1]
      obtain ⟨p, k0, hw, rfl⟩ := kn
      have := knowsK_outLoc (j + 1) ok.2.1 hw ok.2.2
      rw [List.replicate_succ'] at this
      simpa using this
    | ind v b j =>
      simp only [lop] at hop
      split at hop
      · cases hop
      · split at hop
        · simp only [LOp.fork.injEq] at hop
          rw [← hop.1]
          obtain ⟨p, k0, w0, c, e1, e2, hw, rfl⟩ := kn
          exact ⟨p, k0, w0, c, e1, e2, hw, by rw [List.replicate_succ']; simp⟩
        · cases hop
    | _ => simp [lop] at hop
  | @fork2 w k l lab n t _ hop ih =>
    obtain ⟨ok, kn⟩ := ih
    refine ⟨((ok_lop h ok).1 _ _ hop).2, ?_⟩
    cases l with
    | mat1 v =>
      simp only [lop] at hop
      split at hop
      · cases hop
      · next ho =>
        simp only [LOp.fork.injEq] at hop
        rw [← hop.2]
        obtain ⟨p, hw⟩ := kn
        exact ⟨p, k, v, hw, ok.2.2, ho, rfl⟩
    | out v j =>
      obtain ⟨hv, ht, hj⟩ := ok
      obtain ⟨p, k0, hw, rfl⟩ := kn
      simp only [lop, LOp.fork.injEq] at hop
      rw [← hop.2]
      cases ho : (g.v v).out with
      | nil => rw [ho] at hj; simp at hj
      | cons x xs =>
        have hnd := h.nodup v hv
        rw [ho] at hj hnd
        simp only [List.length_cons] at hj
        rw [List.nodup_cons] at hnd
        have hj' : j < xs.reverse.length := by simp; omega
        rw [List.tail_cons, List.getElem?_eq_getElem hj', Option.getD_some]
        have hmem := List.getElem_mem hj'
        have hmem' := List.mem_reverse.1 hmem
        refine ⟨p, k0, v, hw, by rw [ho]; exact List.mem_cons_of_mem _ hmem', fun b _ => ?_⟩
        have hne : xs.reverse[j] ≠ x := fun e => hnd.1 (e ▸ hmem')
        simp only [cands, ht, Bool.false_eq_true, if_false, ho, choose]
        rw [if_neg hne, (List.nodup_reverse.2 hnd.2).idxOf_getElem j hj']
        simp
    | ind v b j =>
      obtain ⟨hv, ht, hb, h1, hj⟩ := ok
      obtain ⟨p, k0, w0, c, rfl, hc, hw, rfl⟩ := kn
      simp only [lop] at hop
      split at hop
      · cases hop
      · next t' ts he =>
        split at hop
        · next hlt =>
          simp only [LOp.fork.injEq] at hop
          rw [← hop.2]
          have hnd : (pivot g v b).Nodup := by
            rw [pivot_filter _ (h.nodup v hv)]; exact (h.nodup v hv).filter _
          rw [he, List.nodup_cons] at hnd
          have hj' : j < ts.reverse.length := by simpa using hlt
          rw [List.getElem?_eq_getElem hj', Option.getD_some]
          have hmem := List.mem_reverse.1 (List.getElem_mem hj')
          have hp : ts.reverse[j] ∈ pivot g v b := by rw [he]; exact List.mem_cons_of_mem _ hmem
          rw [mem_pivot] at hp
          have hbt : (g.v ts.reverse[j]).bytes.has c = true := by rw [BSet.has, hc]; exact hp.2
          have := knowsK_land h (hw.step hp.1 hbt)
          have hne : ts.reverse[j] ≠ t' := fun e => hnd.1 (e ▸ hmem)
          have e : choose (cands g v c) ts.reverse[j] = List.replicate j false ++ [true] := by
            simp only [cands, ht, if_true, hc, he, choose]
            rw [if_neg hne, (List.nodup_reverse.2 hnd.2).idxOf_getElem j hj']
          rw [e] at this
          simpa using this
        · cases hop
    | _ => simp [lop] at hop
  | @jump w k l lab t _ hop ih =>
    obtain ⟨ok, kn⟩ := ih
    refine ⟨(ok_lop h ok).2.1 _ hop, ?_⟩
    cases l with
    | mat1 v =>
      simp only [lop] at hop
      split at hop <;> cases hop
    | last v =>
      obtain ⟨hv, ht, u, us, ho, hf⟩ := ok
      obtain ⟨p, k0, hw, rfl⟩ := kn
      simp only [lop, LOp.jump.injEq, ho, List.head?_cons, Option.getD_some] at hop
      rw [← hop]
      exact ⟨p, k0, v, hw, by rw [ho]; simp, fun b _ => by simp [cands, ht, ho, choose]⟩
    | ind v b j =>
      obtain ⟨hv, ht, hb, h1, hj⟩ := ok
      obtain ⟨p, k0, w0, c, rfl, hc, hw, rfl⟩ := kn
      simp only [lop] at hop
      split at hop
      · cases hop
      · next t' ts he =>
        split at hop
        · cases hop
        · next hlt =>
          simp only [LOp.jump.injEq] at hop
          rw [← hop]
          have hp : t' ∈ pivot g v b := by rw [he]; simp
          rw [mem_pivot] at hp
          have hbt : (g.v t').bytes.has c = true := by rw [BSet.has, hc]; exact hp.2
          have := knowsK_land h (hw.step hp.1 hbt)
          have hjl : j = ts.length := by
            rw [he] at hj
            simp only [List.length_cons] at hj
            omega
          have e : choose (cands g v c) t' = List.replicate j false := by
            simp [cands, ht, hc, he, choose, hjl]
          rw [e] at this
          exact this
    | _ => simp [lop] at hop
  | @check w k l lab i n _ hop ih =>
    obtain ⟨ok, kn⟩ := ih
    refine ⟨(ok_lop h ok).2.2.1 _ _ hop, ?_⟩
    obtain ⟨v, rfl, -, rfl⟩ := lop_chk hop
    obtain ⟨p, hw⟩ := kn
    exact knowsK_entryMat h hw
  | @label w k l lab i n _ hop ih =>
    obtain ⟨ok, kn⟩ := ih
    refine ⟨(ok_lop h ok).2.2.2.1 _ _ hop, ?_⟩
    obtain ⟨v, rfl, hi, rfl⟩ := lop_lab hop
    obtain ⟨h0, hv, hne⟩ := ok
    obtain ⟨x, hx⟩ := Option.ne_none_iff_exists'.1 hne
    obtain ⟨p, hw⟩ := kn
    rw [hx, Option.some_or] at hw
    rw [hx, Option.getD_some] at hi
    rw [hi]
    exact knowsK_entryChk h hw
  | @mtch w k l lab n _ hop ih =>
    obtain ⟨ok, kn⟩ := ih
    refine ⟨(ok_lop h ok).2.2.2.2 _ hop, ?_⟩
    obtain ⟨v, rfl, rfl⟩ := lop_mat hop
    exact kn
  | @byte w k l lab b l' _ hc hz ih =>
    obtain ⟨ok, kn⟩ := ih
    refine ⟨ok_consume h ok hc, ?_⟩
    cases l with
    | start u =>
      obtain ⟨p, k0, v, hw, hu, hk⟩ := kn
      simp only [consume] at hc
      split at hc
      · next hb =>
        simp only [Option.some.injEq] at hc
        rw [← hc, hk b hb]
        exact knowsK_entryLab h (hw.step hu hb)
      · cases hc
    | tab v =>
      obtain ⟨p, k0, hw, rfl⟩ := kn
      obtain ⟨hv, ht⟩ := ok
      simp only [consume, after] at hc
      split at hc
      · cases hc
      · next t hpt =>
        simp only [Option.some.injEq] at hc
        rw [← hc]
        have hp : t ∈ pivot g v b.toNat := by rw [hpt]; simp
        rw [mem_pivot] at hp
        have := knowsK_land h (hw.step hp.1 hp.2)
        have e : choose (cands g v b) t = [] := by simp [cands, ht, hpt, choose]
        rw [e, List.append_nil] at this
        exact this
      · simp only [Option.some.injEq] at hc
        rw [← hc]
        exact ⟨p, k0, w, b, rfl, rfl, hw, by simp⟩
    | _ => simp [consume] at hc

theorem way_of_acc {g : Graph} {P : Program} (h : Compiled g P) {l : Nat} {w κ} (ha : AccFrom P l 0 none w κ) :
    ∃ p k v, WayK g p w k v (some l) ∧ (g.v v).isMatch = true ∧ κ = k ++ endKey g v := by
  obtain ⟨pc, hr, ho⟩ := run_acc ha .init
  obtain ⟨loc, ok, rfl, lr⟩ := lrun_of_run h hr
  have kn := (lrun_knowsK h.toLive lr).2
  simp only [List.nil_append] at kn
  rcases lop_fin ((op_cases h ok ho).2.2.2.2.2.1 rfl) with rfl | ⟨v, rfl, hout⟩
  · obtain ⟨p, k0, v, hw, hm, hne, e⟩ := kn
    exact ⟨p, k0, v, hw, hm, by rw [e]; simp [endKey, hne]⟩
  · obtain ⟨p, hw⟩ := kn
    exact ⟨p, _, v, hw, ok.2.2, by simp [endKey, hout]⟩

/-! ## Ways and threads -/

theorem lrun_entryOutK {g : Graph} {w k v lab} (hr : LRun g w k (entryMat g v) lab) (ho : (g.v v).out ≠ []) :
    LRun g w (k ++ mid g v) (entryOut g v) lab := by
  unfold entryMat at hr
  split at hr
  · next hm =>
    have h1 : LRun g w k (.mat1 v) lab := hr.mtch rfl
    simp only [mid, hm, if_true]
    exact h1.fork1 (t := .fin) (by simp [lop, ho])
  · next hm => simpa [mid, hm] using hr

theorem lrun_outLocK {g : Graph} {w k v lab u us} (ho : (g.v v).out = u :: us) (j : Nat) (hj : j ≤ us.length)
    (hr : LRun g w k (outLoc g v 0) lab) : LRun g w (k ++ List.replicate j false) (outLoc g v j) lab := by
  induction j with
  | zero => simpa using hr
  | succ j ih =>
    have hr' := ih (by omega)
    have e : outLoc g v j = .out v j := by
      unfold outLoc
      rw [ho]
      dsimp only
      rw [if_pos (by omega)]
    rw [e] at hr'
    have := hr'.fork1 (n := outLoc g v (j + 1)) rfl
    rw [List.replicate_succ']
    simpa using this

theorem lrun_startK {g : Graph} {w k v lab u} (ht : isTable g v = false) (hu : u ∈ (g.v v).out)
    (hr : LRun g w k (entryOut g v) lab) : LRun g w (k ++ choose (g.v v).out u) (.start u) lab := by
  unfold entryOut at hr
  rw [if_neg (by simp [ht])] at hr
  obtain ⟨a, as, ho⟩ := List.exists_cons_of_ne_nil (List.ne_nil_of_mem hu)
  rw [ho] at hu ⊢
  by_cases hua : u = a
  · subst hua
    have hr' := lrun_outLocK ho as.length (Nat.le_refl _) hr
    unfold outLoc at hr'
    rw [ho] at hr'
    dsimp only at hr'
    rw [if_neg (by omega)] at hr'
    simp only [choose, if_pos]
    split at hr'
    · exact hr'
    · exact hr'.jump (by simp [lop, ho])
  · have hu' : u ∈ as.reverse := by
      rcases List.mem_cons.1 hu with h | h
      · exact (hua h).elim
      · simpa using h
    simp only [choose, if_neg hua]
    have hj := List.idxOf_lt_length_of_mem hu'
    have he := List.getElem_idxOf hj
    generalize as.reverse.idxOf u = j at hj he
    have hj' : j < as.length := by simpa using hj
    have hr' := lrun_outLocK ho j (by omega) hr
    have e : outLoc g v j = .out v j := by
      unfold outLoc
      rw [ho]
      dsimp only
      rw [if_pos hj']
    rw [e] at hr'
    rw [← List.append_assoc]
    refine hr'.fork2 (n := outLoc g v (j + 1)) (t := .start u) ?_
    simp only [lop, ho, List.tail_cons, List.getElem?_eq_getElem hj, Option.getD_some, he]

theorem lrun_indK {g : Graph} {w k v b lab t ts} (hp : pivot g v b = t :: ts) (j : Nat) (hj : j ≤ ts.length)
    (hr : LRun g w k (.ind v b 0) lab) : LRun g w (k ++ List.replicate j false) (.ind v b j) lab := by
  induction j with
  | zero => simpa using hr
  | succ j ih =>
    have hr' := ih (by omega)
    have := hr'.fork1 (n := .ind v b (j + 1)) (t := land g (ts.reverse[j]?.getD 0)) (by
      simp only [lop, hp]
      rw [if_pos (by omega)])
    rw [List.replicate_succ']
    simpa using this

/-- The thread has arrived in the state, or, by the shortcut of jump tables, past it. -/
def ReachedK (g : Graph) (w : List UInt8) (k : List Bool) (v : Nat) (lab : Option Nat) : Prop :=
  LRun g w k (entryChk g v) lab ∨ ∃ u, (g.v v).out = [u] ∧ (g.v v).isMatch = false ∧ LRun g w k (.start u) lab

theorem reachedK_land {g : Graph} {w k v lab} (hr : LRun g w k (land g v) lab) :
    ReachedK g w k v ((g.v v).label.or lab) := by
  unfold land at hr
  split at hr
  · next u ho =>
    split at hr
    · next hc => rw [hc.1, Option.none_or]; exact Or.inr ⟨u, ho, hc.2, hr⟩
    · exact Or.inl (lrun_entryLab hr)
  · exact Or.inl (lrun_entryLab hr)

theorem reachedK_step {g : Graph} (h : Live g) (hz : NoZero g) {w k v lab u b} (hv : v < g.n)
    (hr : ReachedK g w k v lab) (hu : u ∈ (g.v v).out) (hb : (g.v u).bytes.has b = true) :
    ReachedK g (w ++ [b]) (k ++ mid g v ++ choose (cands g v b) u) u ((g.v u).label.or lab) := by
  have hu' := h.edges v hv u hu
  have viaStart : ∀ k, LRun g w k (.start u) lab → ReachedK g (w ++ [b]) k u ((g.v u).label.or lab) := by
    intro k hr
    have hc : consume g b (.start u) = some (entryLab g u) := by simp [consume, hb]
    exact Or.inl (lrun_entryLab (hr.byte hc (consume_ne_zero (l := .start u) h hz hu' hc)))
  rcases hr with hr | ⟨u', ho, hm, hr⟩
  · have hr' := lrun_entryOutK (lrun_entryChk hr) (List.ne_nil_of_mem hu)
    cases ht : isTable g v with
    | false =>
      have hr'' := lrun_startK ht hu hr'
      simp only [cands, ht, Bool.false_eq_true, if_false]
      exact viaStart _ hr''
    | true =>
      unfold entryOut at hr'
      rw [if_pos ht] at hr'
      have hp : u ∈ pivot g v b.toNat := (mem_pivot g v _ u).2 ⟨hu, hb⟩
      simp only [cands, ht, if_true]
      cases hpv : pivot g v b.toNat with
      | nil => rw [hpv] at hp; simp at hp
      | cons t ts =>
        cases ts with
        | nil =>
          rw [hpv] at hp
          simp only [List.mem_singleton] at hp
          subst hp
          have hc : consume g b (.tab v) = some (land g u) := by simp [consume, after, hpv]
          have := reachedK_land (hr'.byte hc (consume_ne_zero (l := .tab v) h hz ⟨hv, ht⟩ hc))
          simpa [choose] using this
        | cons t' ts =>
          have hc : consume g b (.tab v) = some (.ind v b.toNat 0) := by simp [consume, after, hpv]
          have hr0 := hr'.byte hc (consume_ne_zero (l := .tab v) h hz ⟨hv, ht⟩ hc)
          rw [hpv] at hp
          by_cases hut : u = t
          · subst hut
            have hr2 := lrun_indK hpv (t' :: ts).length (Nat.le_refl _) hr0
            have := reachedK_land (hr2.jump (t := land g u) (by
              simp only [lop, hpv]
              rw [if_neg (by omega)]))
            simpa only [choose, if_pos] using this
          · have hp' : u ∈ t' :: ts := by
              rcases List.mem_cons.1 hp with h | h
              · exact (hut h).elim
              · exact h
            have hm : u ∈ (t' :: ts).reverse := List.mem_reverse.2 hp'
            simp only [choose, if_neg hut]
            have hj := List.idxOf_lt_length_of_mem hm
            have he := List.getElem_idxOf hj
            generalize (t' :: ts).reverse.idxOf u = j at hj he
            have hj' : j < (t' :: ts).length := by rw [List.length_reverse] at hj; exact hj
            have hr2 := lrun_indK hpv j (by omega) hr0
            have := reachedK_land (hr2.fork2 (n := .ind v b.toNat (j + 1)) (t := land g u) (by
              simp only [lop, hpv]
              rw [if_pos hj', List.getElem?_eq_getElem hj, Option.getD_some, he]))
            rw [← List.append_assoc]
            exact this
  · have hu0 := hu
    rw [ho] at hu
    simp only [List.mem_singleton] at hu
    subst hu
    have := viaStart k hr
    rw [single_choose ho]
    simpa [mid, hm] using this

theorem reachedK_of_wayk {g : Graph} (h : Live g) (hz : NoZero g) {p w k v lab} (hr : WayK g p w k v lab) :
    ReachedK g w k v lab := by
  induction hr with
  | init =>
    refine Or.inl ?_
    have := lrun_entryLab (LRun.init (g := g))
    rw [h.rootLabel] at this
    exact this
  | step hw hu hb ih => exact reachedK_step h hz (wayk_lt h hw) ih hu hb

theorem acc_of_way {g : Graph} {P : Program} (h : Compiled g P) (hz : NoZero g) {l : Nat} {p w k v}
    (hw : WayK g p w k v (some l)) (hm : (g.v v).isMatch = true) : AccFrom P l 0 none w (k ++ endKey g v) := by
  rcases reachedK_of_wayk h.toLive hz hw with lr | ⟨u, -, hm', -⟩
  · have lr' := lrun_entryChk lr
    unfold entryMat at lr'
    rw [if_pos hm] at lr'
    have lr1 : LRun g w k (.mat1 v) (some l) := lr'.mtch rfl
    obtain ⟨ok1, hr1⟩ := run_of_lrun h lr1
    have hs1 := lop_spec h ok1
    simp only [lop] at hs1
    split at hs1
    · next ho => simpa [endKey, ho] using acc_run hr1 (.finish hs1)
    · next ho =>
      simpa [endKey, ho] using acc_run hr1 (.fork2 hs1.1 hs1.2.1 (.finish (op_fin h)))
  · rw [hm] at hm'; cases hm'

/-! ## The theorem -/

theorem preferred_of_greedy {g : Graph} {P : Program} (h : Compiled g P) (hz : NoZero g) {off : Nat}
    {buf : List UInt8} {l m : Nat} {hs : List (Nat × Nat)}
    (hG : Greedy P (streamOf off buf) off (off + buf.length) l m hs) : Preferred g off buf l m hs := by
  have conv : ∀ {s e p}, WayAt g off buf l s e p → ∃ k v, WayK g p (seg (streamOf off buf) s e) k v (some l) ∧
      (g.v v).isMatch = true ∧ AccR P (streamOf off buf) off (off + buf.length) l s (k ++ endKey g v) e := by
    rintro s e p ⟨a, b, c, v, hw, hm⟩
    obtain ⟨k, hk⟩ := wayk_of_way hw
    rw [← seg_streamOf a c] at hk
    exact ⟨k, v, hk, hm, a, b, c, acc_of_way h hz hk hm⟩
  induction hG with
  | done hd =>
    intro s e p ha
    obtain ⟨k, v, -, -, hκ⟩ := conv ha
    have := hd s _ e hκ
    omega
  | @hit m s κ e hs hb _ ih =>
    refine ⟨hb.2.1, ?_, ih⟩
    obtain ⟨p, k, v, hw, hm, rfl⟩ := way_of_acc h hb.1.2.2.2
    refine ⟨p, ⟨hb.1.1, hb.1.2.1, hb.1.2.2.1, v, ?_, hm⟩, fun s' e' q ha hms => ?_⟩
    · rw [← seg_streamOf hb.1.1 hb.1.2.2.1]
      exact way_of_wayk hw
    · obtain ⟨k', v', hw', hm', hκ⟩ := conv ha
      have hnl := hb.2.2 _ _ _ hκ hms
      rcases Nat.lt_trichotomy s s' with hlt | heq | hgt
      · exact Or.inl hlt
      · subst heq
        refine Or.inr ⟨rfl, ?_⟩
        rcases prefer_total hw' hw with hh | hh | hh
        · exact Or.inl hh
        · exact (hnl (Or.inr ⟨rfl, prefer_div h.toLive hh hw' hw (seg_prefix _ s e' e) hm⟩)).elim
        · exact Or.inr hh
      · exact (hnl (Or.inl hgt)).elim

/-- **C53.** The hits of every keyword in a stream, given in any consecutive buffers to a
fresh context and closed out, are the matches preferred by the automaton. -/
theorem hits_preferred_partial {g : Graph} (hg : Live g) (hG : Guards g) (hz : NoZero g) {fuel' : Nat} {P : Program}
    (hc : createProgram fuel' g = some (.ok P)) {fuel : Nat} {first : List Thread} {σ₀ : St}
    (hnew : create P fuel = .ok (first, σ₀)) {off : Nat} {bufs : List (List UInt8)} {rs : List (Option Nat)} {σ : St}
    (hrun : run P first fuel (searches off bufs) σ₀ = .ok (rs, σ)) (l : Nat) :
    Preferred g off bufs.flatten l 0 (hitsOf l σ.log) := by
  have hC := (compiled_of_createProgram hg hc).1
  by_cases hl : l ≤ P.maxLabel
  · exact preferred_of_greedy hC hz (compiled_greedy hg hG hc hnew hrun hl)
  · have := hits_leftmost_partial hg hG hz hc hnew hrun l
    rw [hits_above hg hc hnew hrun hl] at this ⊢
    rintro s e p ⟨a, b, c, v, hw, hm⟩
    have hr : ∀ {p w v lab}, Way g p w v lab → GRun g w v lab := by
      intro p w v lab h
      induction h with
      | init => exact .init
      | step _ hu hb ih => exact ih.step hu hb
    exact this s e ⟨a, b, c, v, hr hw, hm⟩

theorem prefer_asymm {g : Graph} (hg : Live g) {off : Nat} {buf : List UInt8} {l s e e' : Nat} {p q : List Nat}
    (h1 : WayAt g off buf l s e p) (h2 : WayAt g off buf l s e' q) (h : Prefer g p q) : ¬ Prefer g q p := by
  obtain ⟨a, b, c, v, hw, hm⟩ := h1
  obtain ⟨a', b', c', v', hw', hm'⟩ := h2
  obtain ⟨k, hk⟩ := wayk_of_way hw
  obtain ⟨k', hk'⟩ := wayk_of_way hw'
  rw [← seg_streamOf a c] at hk
  rw [← seg_streamOf a' c'] at hk'
  intro h'
  exact div_irrefl _ (div_trans (prefer_div hg h hk hk' (seg_prefix _ s e e') hm')
    (prefer_div hg h' hk' hk (seg_prefix _ s e' e) hm))

/-- The preferences leave no choice: the matches to report are determined. -/
theorem preferred_unique {g : Graph} (hg : Live g) {off : Nat} {buf : List UInt8} {l : Nat} {hs : List (Nat × Nat)} :
    ∀ {m hs'}, Preferred g off buf l m hs → Preferred g off buf l m hs' → hs = hs' := by
  have hlen : ∀ {s e p}, WayAt g off buf l s e p → e = s + p.length := by
    rintro s e p ⟨a, b, c, v, hw, -⟩
    obtain ⟨k, hk⟩ := wayk_of_way hw
    have := wayk_length hk
    simp only [List.length_take, List.length_drop] at this
    omega
  induction hs with
  | nil =>
    intro m hs' h h'
    cases hs' with
    | nil => rfl
    | cons x hs' =>
      obtain ⟨s, e⟩ := x
      obtain ⟨h1, ⟨p, h2, -⟩, -⟩ := h'
      have := h s e p h2
      omega
  | cons x hs ih =>
    intro m hs' h h'
    obtain ⟨s, e⟩ := x
    obtain ⟨h1, ⟨p, h2, h3⟩, h4⟩ := h
    cases hs' with
    | nil =>
      have := h' s e p h2
      omega
    | cons x' hs' =>
      obtain ⟨s', e'⟩ := x'
      obtain ⟨h1', ⟨p', h2', h3'⟩, h4'⟩ := h'
      have c1 := h3 s' e' p' h2' h1'
      have c2 := h3' s e p h2 h1
      have hs : s = s' := by
        rcases c1 with c1 | c1 <;> rcases c2 with c2 | c2 <;> omega
      subst hs
      have hp : p = p' := by
        rcases c1 with c1 | ⟨-, rfl | c1⟩
        · omega
        · rfl
        · rcases c2 with c2 | ⟨-, rfl | c2⟩
          · omega
          · rfl
          · exact (prefer_asymm hg h2 h2' c1 c2).elim
      subst hp
      have he : e = e' := by rw [hlen h2, hlen h2']
      subst he
      rw [ih h4 h4']

/-! ## Example -/

/-- In `xabbac` at offset 7 the first keyword matches `ab` and `abb`; going on is
preferred. -/
theorem abc_ways : WayAt abc 7 [120, 97, 98, 98, 97, 99] 0 8 10 [1, 2] ∧
    WayAt abc 7 [120, 97, 98, 98, 97, 99] 0 8 11 [1, 2, 2] ∧ Prefer abc [1, 2, 2] [1, 2] ∧
    Earlier (abc.v 1).out 2 3 := by
  have h0 := Way.init (g := abc)
  have h1 := h0.step (u := 1) (b := 97) (by decide) (by decide +kernel)
  have h2 := h1.step (u := 2) (b := 98) (by decide) (by decide +kernel)
  have h3 := h2.step (u := 2) (b := 98) (by decide) (by decide +kernel)
  exact ⟨⟨by decide, by decide, by decide, 2, h2, rfl⟩, ⟨by decide, by decide, by decide, 2, h3, rfl⟩,
    Or.inl ⟨2, [], rfl⟩, [2], [], rfl, by decide, by decide⟩

example : ∃ F P first σ₀ rs σ, createProgram F abc = some (.ok P) ∧ create P 17 = .ok (first, σ₀) ∧
    run P first 17 (searches 7 [[120, 97, 98], [98, 97, 99]]) σ₀ = .ok (rs, σ) ∧
    Preferred abc 7 [120, 97, 98, 98, 97, 99] 0 0 (hitsOf 0 σ.log) := by
  obtain ⟨F, P, hP⟩ := abc_program
  obtain ⟨first, σ₀, rs, σ, h0, h1⟩ := searches_end abc_live abc_guards hP (fuel := 17) (by decide) 7
    [[120, 97, 98], [98, 97, 99]]
  exact ⟨F, P, first, σ₀, rs, σ, hP, h0, h1, hits_preferred_partial abc_live abc_guards abc_noZero hP h0 h1 0⟩

end Verif.Compiler
