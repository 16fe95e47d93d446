import Verif.Props.Follow
/-!
# C55: when merging keeps which match is preferred

`mergeIntoFSM` goes through the new automaton depth first and places each state below the
image of its predecessor, at or after the place of the state placed there before.  It may take
two states of the new automaton for the same.
-/
namespace Verif.Optimizer
open Verif.Nfa Verif.Compiler Verif.Label Verif.NfaBuilder

/-! ## Specification -/

/-- States of an automaton that merging may take for the same: they are entered from such
states only, once, by the same bytes. -/
inductive Twin (g : Graph) : Nat → Nat → Prop
  | refl (v : Nat) : Twin g v v
  | step {h h' t t' : Nat} : Twin g h h' → t ∈ (g.v h).out → t' ∈ (g.v h').out → (g.v t).inn.length = 1 →
      (g.v t').inn.length = 1 → (g.v t).bytes = (g.v t').bytes → (g.v t).label = (g.v t').label →
      ((g.v t).label = none ∨ (g.v t).out = [] ∨ (g.v t').out = []) → Twin g t t'

/-- The automata that stay in order when they are merged into others: no two edges are
parallel; states that may be taken for the same have no common successor, and no cycle goes
through a state that leads to them. -/
structure Orderly (g : Graph) : Prop where
  nodup : ∀ v, (g.v v).out.Nodup
  apart : ∀ h h' t, Twin g h h' → h ≠ h' → t ∈ (g.v h).out → t ∉ (g.v h').out
  line : ∀ h h', Twin g h h' → h ≠ h' → ∀ t, Leads g t h → ∀ a, Leads g t a → t ∉ (g.v a).out

/-! ## Twins -/

theorem Twin.symm {g : Graph} {t t' : Nat} (h : Twin g t t') : Twin g t' t := by
  induction h with
  | refl v => exact .refl v
  | step _ h1 h2 h3 h4 h5 h6 h7 ih => exact .step ih h2 h1 h4 h3 h5.symm h6.symm (by rw [← h6]; tauto)

theorem Twin.inn {g : Graph} {t t' : Nat} (h : Twin g t t') (hne : t ≠ t') : (g.v t).inn.length = 1 := by
  cases h with
  | refl v => exact (hne rfl).elim
  | step _ h1 h2 h3 => exact h3

/-- `p` is the predecessor of `h`, or of its predecessor, and so on, each the only one. -/
inductive Up (g : Graph) : Nat → Nat → Prop
  | one {p h : Nat} : h ∈ (g.v p).out → (g.v h).inn.length = 1 → Up g p h
  | more {p q h : Nat} : Up g p q → h ∈ (g.v q).out → (g.v h).inn.length = 1 → Up g p h

theorem Up.leads {g : Graph} {p h : Nat} (hu : Up g p h) : Leads g p h := by
  induction hu with
  | one h1 _ => exact .step h1 (.refl _)
  | more _ h1 _ ih => exact ih.snoc h1

theorem Up.last {g : Graph} {p h : Nat} (hu : Up g p h) : ∃ a, Leads g p a ∧ h ∈ (g.v a).out := by
  cases hu with
  | one h1 _ => exact ⟨p, .refl _, h1⟩
  | more h1 h2 _ => exact ⟨_, h1.leads, h2⟩

theorem Up.top {g : Graph} {a p h : Nat} (hu : Up g p h) (h1 : p ∈ (g.v a).out) (h2 : (g.v p).inn.length = 1) : Up g a h := by
  induction hu with
  | one h3 h4 => exact .more (.one h1 h2) h3 h4
  | more _ h3 h4 ih => exact .more ih h3 h4

/-- A state is no twin of one above it, unless there is a cycle. -/
theorem Twin.above {g : Graph} (hb : Balanced g) {p t : Nat} (h : Twin g p t) : Up g p t →
    ∃ c, Leads g c t ∧ ∃ a, Leads g c a ∧ c ∈ (g.v a).out := by
  induction h with
  | refl v => exact fun hu => ⟨v, .refl v, hu.last⟩
  | @step P T p t _ h1 h2 h3 h4 _ _ _ ih =>
    intro hu
    have key : Up g P T := by
      obtain ⟨x, hx⟩ := hb.single h4
      have e1 : T = x := (hx T).1 h2
      cases hu with
      | one h5 _ =>
        have : p = T := by rw [e1]; exact (hx p).1 h5
        rw [← this]
        exact .one h1 h3
      | more h5 h6 _ =>
        rw [e1, ← (hx _).1 h6]
        exact h5.top h1 h3
    obtain ⟨c, h5, h6⟩ := ih key
    exact ⟨c, h5.snoc h2, h6⟩

/-! ## The order of the visits -/

/-- `a` was visited before `b`; the last one visited is first in the list. -/
def Before (vis : List (Nat × Nat)) (a b : Nat × Nat) : Prop := ∃ A B, vis = A ++ b :: B ∧ a ∈ B

theorem before_cons {vis : List (Nat × Nat)} {e a b : Nat × Nat} : Before (e :: vis) a b ↔ b = e ∧ a ∈ vis ∨ Before vis a b := by
  constructor
  · rintro ⟨A, B, h1, h2⟩
    cases A with
    | nil =>
      simp only [List.nil_append, List.cons.injEq] at h1
      obtain ⟨rfl, rfl⟩ := h1
      exact .inl ⟨rfl, h2⟩
    | cons x A =>
      simp only [List.cons_append, List.cons.injEq] at h1
      exact .inr ⟨A, B, h1.2, h2⟩
  · rintro (⟨rfl, h⟩ | ⟨A, B, rfl, h⟩)
    · exact ⟨[], vis, rfl, h⟩
    · exact ⟨e :: A, B, rfl, h⟩

theorem Before.left {vis : List (Nat × Nat)} {a b : Nat × Nat} (h : Before vis a b) : a ∈ vis := by
  obtain ⟨A, B, rfl, h⟩ := h
  simp [h]

theorem Before.right {vis : List (Nat × Nat)} {a b : Nat × Nat} (h : Before vis a b) : b ∈ vis := by
  obtain ⟨A, B, rfl, h⟩ := h
  simp

theorem Before.trans {vis : List (Nat × Nat)} (hn : vis.Nodup) {a b c : Nat × Nat} (h : Before vis a b) (h' : Before vis b c) :
    Before vis a c := by
  induction vis with
  | nil => obtain ⟨A, B, e, -⟩ := h; simp at e
  | cons x vis ih =>
    rw [before_cons] at h h' ⊢
    rw [List.nodup_cons] at hn
    rcases h' with ⟨rfl, h'⟩ | h'
    · rcases h with ⟨rfl, h⟩ | h
      · exact (hn.1 h').elim
      · exact .inl ⟨rfl, h.left⟩
    · rcases h with ⟨rfl, h⟩ | h
      · exact (hn.1 h'.left).elim
      · exact .inr (ih hn.2 h h')

/-! ## One edge -/

theorem findMerge_at {m : Merge} {src : Graph} {st di dt : Nat} : ∀ ts i, findMerge m src st ts i = some (di, dt) →
    i ≤ di ∧ ts[di - i]? = some dt := by
  intro ts
  induction ts with
  | nil => intro i h; cases h
  | cons t ts ih =>
    intro i h
    rw [findMerge] at h
    by_cases hc : canMerge m src t st = true
    · rw [if_pos hc] at h
      cases h
      exact ⟨Nat.le_refl _, by simp⟩
    · rw [if_neg hc] at h
      obtain ⟨h1, h2⟩ := ih _ h
      refine ⟨by omega, ?_⟩
      have : di - i = (di - (i + 1)) + 1 := by omega
      rw [this]
      simpa using h2

theorem nodup_idxOf {l : List Nat} (hn : l.Nodup) {i x : Nat} (h : l[i]? = some x) : l.idxOf x = i := by
  obtain ⟨hi, rfl⟩ := List.getElem?_eq_some_iff.1 h
  exact hn.idxOf_getElem i hi

/-- What happens to one edge: the vertex its end is mapped to, and the place of the edge. -/
structure Did (m : Merge) (src : Graph) (t dh dt di : Nat) (m' : Merge) : Prop where
  s2d : ∀ x, m'.s2d x = if x = t then some dt else m.s2d x
  pos : ∀ x, m'.pos x = if x = dh then some di else m.pos x
  how : (m.s2d t = some dt ∧ m'.dst = connect m.dst dh dt ((m.dst.v dh).out.idxOf dt) ∧ di = (m.dst.v dh).out.idxOf dt) ∨
    (m.s2d t = none ∧ m'.dst = m.dst ∧ dt ∈ (m.dst.v dh).out ∧ canMerge m src dt t = true ∧
      (m.dst.v dh).out[di]? = some dt ∧ (m.pos dh).getD 0 ≤ di) ∨
    (m.s2d t = none ∧ dt = m.dst.n ∧ m'.dst = connect (copyVertex m.dst (src.v t)) dh dt di ∧
      di = if m.pos dh = none then 0 else max ((m.pos dh).getD 0) (m.dst.v dh).out.length)

theorem process_did (m : Merge) (src : Graph) (t dh : Nat) : ∃ dt di, Did m src t dh dt di (processChild m src t dh) := by
  cases hst : m.s2d t with
  | some dt =>
    have hpl : place m src t dh = (m.dst, dt, (m.dst.v dh).out.idxOf dt) := by simp [place, hst]
    refine ⟨dt, _, fun x => ?_, fun x => ?_, .inl ⟨hst, ?_, rfl⟩⟩ <;> simp only [processChild, hpl]
  | none =>
    cases hf : findMerge m src t ((m.dst.v dh).out.drop ((m.pos dh).getD 0)) ((m.pos dh).getD 0) with
    | some r =>
      obtain ⟨di, dt⟩ := r
      obtain ⟨hdt1, hcm⟩ := findMerge_some _ _ hf
      obtain ⟨h1, h2⟩ := findMerge_at _ _ hf
      have hdt : dt ∈ (m.dst.v dh).out := List.mem_of_mem_drop hdt1
      have hpl : place m src t dh = (m.dst, dt, di) := by simp only [place, hst, hf]
      refine ⟨dt, di, fun x => ?_, fun x => ?_, .inr (.inl ⟨hst, ?_, hdt, hcm, ?_, h1⟩)⟩
      · simp only [processChild, hpl]
      · simp only [processChild, hpl]
      · simp only [processChild, hpl, connect]
        rw [if_pos hdt]
      · rw [List.getElem?_drop] at h2
        rw [← h2]
        congr 1
        omega
    | none =>
      have hpl : place m src t dh = (copyVertex m.dst (src.v t), m.dst.n,
          if m.pos dh = none then 0 else max ((m.pos dh).getD 0) (m.dst.v dh).out.length) := by
        simp only [place, hst, hf]
      refine ⟨m.dst.n, _, fun x => ?_, fun x => ?_, .inr (.inr ⟨hst, rfl, ?_, rfl⟩)⟩ <;> simp only [processChild, hpl]

theorem canMerge_out {m : Merge} {src : Graph} {dt st : Nat} (h : canMerge m src dt st = true) :
    (src.v st).label = none ∨ (src.v st).out = [] ∧ (m.dst.v dt).out = [] := by
  have h1 := (canMerge_spec h).1
  simp only [canMerge, Bool.and_eq_true, Bool.or_eq_true, beq_iff_eq, List.length_eq_zero_iff] at h
  rw [← h1]
  exact h.1.1.1.1.2

/-- The place of the image of a state among the successors of `d`. -/
def rank (m : Merge) (d x : Nat) : Nat := (m.dst.v d).out.idxOf ((m.s2d x).getD 0)

/-- What holds of the order while merging. -/
structure OInv (dst0 src : Graph) (es vis : List (Nat × Nat)) (m : Merge) : Prop where
  old : ∀ d, (m.dst.v d).out.filter (fun u => decide (u < dst0.n)) = (dst0.v d).out
  sorted : ∀ e e' d, Before vis e e' → m.s2d e.1 = some d → m.s2d e'.1 = some d → rank m d (tl src e) ≤ rank m d (tl src e')
  pos0 : ∀ d, m.pos d = none → ∀ e ∈ vis, m.s2d e.1 ≠ some d
  pos1 : ∀ d k, m.pos d = some k → k < (m.dst.v d).out.length ∧ ∀ e ∈ vis, m.s2d e.1 = some d → rank m d (tl src e) ≤ k
  alone : ∀ t d, t ≠ 0 → m.s2d t = some d → (d < dst0.n ∨ ∃ t', t' ≠ t ∧ m.s2d t' = some d) → (m.dst.v d).inn.length = 1
  twin : ∀ t t' d, m.s2d t = some d → m.s2d t' = some d → Twin src t t'
  ends : ∀ t t' d, t ≠ t' → m.s2d t = some d → m.s2d t' = some d → (src.v t).label ≠ none → (src.v t).out = []
  order : ∀ A B h i, es = A ++ (h, i) :: B → ∀ j < i, (h, j) ∈ vis ∨ (h, j) ∈ A
  above : ∀ A B h i, es = A ++ (h, i) :: B → ∀ e ∈ A, Leads src h e.1
  seq : ∀ A B q k, es = A ++ (q, k) :: B → (q, k) ∉ vis → ∀ h p, Up src p h → m.s2d h ≠ none → m.s2d p = m.s2d q →
    (∃ h', Twin src h h' ∧ h ≠ h') → ∀ j < (src.v h).out.length, (h, j) ∈ vis ∨ (h, j) ∈ A
  mapped : ∀ e ∈ vis, e.1 ≠ 0 → ∃ f, tl src f = e.1 ∧ Before vis f e
  inOrder : ∀ h i j, i < j → (h, j) ∈ vis → Before vis (h, i) (h, j)
  done : ∀ h h' d f f', h ≠ h' → m.s2d h = some d → m.s2d h' = some d → tl src f = h → tl src f' = h' → Before vis f f' →
    ∀ i < (src.v h).out.length, Before vis (h, i) f'

theorem OInv.skip {dst0 src : Graph} {e : Nat × Nat} {es vis : List (Nat × Nat)} {m : Merge} (h : OInv dst0 src (e :: es) vis m)
    (he : e ∈ vis) : OInv dst0 src es vis m := by
  refine { h with order := ?_, above := ?_, seq := ?_ }
  · intro A B h' i hes j hj
    rcases h.order (e :: A) B h' i (by rw [hes]; rfl) j hj with h1 | h1
    · exact .inl h1
    · rcases List.mem_cons.1 h1 with h1 | h1
      · exact .inl (h1 ▸ he)
      · exact .inr h1
  · intro A B h' i hes e' he'
    exact h.above (e :: A) B h' i (by rw [hes]; rfl) e' (by simp [he'])
  · intro A B q k hes hq h' p hu h1 h2 h3 j hj
    rcases h.seq (e :: A) B q k (by rw [hes]; rfl) hq h' p hu h1 h2 h3 j hj with h1 | h1
    · exact .inl h1
    · rcases List.mem_cons.1 h1 with h1 | h1
      · exact .inl (h1 ▸ he)
      · exact .inr h1

theorem oinv_init {dst0 src : Graph} (hd : Base dst0) (hs : Fresh src) : OInv dst0 src (edgesOf src 0) []
    { dst := dst0, s2d := fun x => if x = 0 then some 0 else none, d2s := fun _ => [], pos := fun _ => none } := by
  have h0 : ∀ {t d : Nat}, (if t = 0 then some 0 else none) = some d → t = 0 := by
    intro t d h
    split at h
    · assumption
    · cases h
  have hb : ∀ {a b}, ¬ Before [] a b := fun h => by obtain ⟨A, B, e, -⟩ := h; simp at e
  refine ⟨?_, fun _ _ _ h => (hb h).elim, by simp, by simp, ?_, ?_, ?_, ?_, ?_, ?_, by simp, by simp, fun _ _ _ _ _ _ _ _ _ _ h => (hb h).elim⟩
  · intro d
    exact List.filter_eq_self.2 fun u hu => by simpa using (hd.range d u hu).2.2
  · intro t d ht h; exact (ht (h0 h)).elim
  · intro t t' d h h'; rw [h0 h, h0 h']; exact .refl _
  · intro t t' d hne h h'; exact (hne (by rw [h0 h, h0 h'])).elim
  · intro A B h i he j hj
    right
    -- the edges are in order
    have hlen : A.length = i := by
      have h1 : (edgesOf src 0)[A.length]? = some (h, i) := by rw [he]; simp
      simp only [edgesOf, List.getElem?_map, Option.map_eq_some_iff] at h1
      obtain ⟨x, hx, hxe⟩ := h1
      rw [List.getElem?_range] at hx
      · cases hx; exact (Prod.mk.inj hxe).2
      · by_contra hc
        rw [List.getElem?_eq_none (by simp; omega)] at hx
        cases hx
    have h0' : h = 0 := (mem_edgesOf.1 (show (h, i) ∈ edgesOf src 0 by rw [he]; simp)).1
    have h1 : A[j]? = some (0, j) := by
      have : (edgesOf src 0)[j]? = A[j]? := by rw [he, List.getElem?_append_left (by omega)]
      rw [← this]
      have hl : j < (src.v 0).out.length := by
        have := (mem_edgesOf.1 (show (h, i) ∈ edgesOf src 0 by rw [he]; simp)).2
        simp only at this
        omega
      simp [edgesOf, hl]
    rw [h0']
    exact List.mem_of_getElem? h1
  · intro A B h i he e he'
    have h1 := (mem_edgesOf.1 (show (h, i) ∈ edgesOf src 0 by rw [he]; simp)).1
    have h2 := (mem_edgesOf.1 (show e ∈ edgesOf src 0 by rw [he]; simp [he'])).1
    simp only at h1
    rw [h1, h2]
    exact .refl _
  · intro A B q k _ _ h p hu hm
    have h1 : h = 0 := by
      by_contra hc
      simp [hc] at hm
    subst h1
    obtain ⟨a, -, ha⟩ := hu.last
    have := (hs.range a 0 ha).2.1
    omega

/-- A state above one that is mapped is mapped. -/
theorem MInv.up_mapped {dst0 src : Graph} {vis m} (hs : Fresh src) (h : MInv dst0 src vis m) {p x : Nat} (hu : Up src p x) :
    m.s2d x ≠ none → m.s2d p ≠ none := by
  have key : ∀ {q x : Nat}, x ∈ (src.v q).out → (src.v x).inn.length = 1 → m.s2d x ≠ none → m.s2d q ≠ none := by
    intro q x h1 h2 h3
    obtain ⟨f, hf, rfl⟩ := h.via x (by have := (hs.range q x h1).2.1; omega) h3
    obtain ⟨v1, v2, -⟩ := h.vis1 f hf
    obtain ⟨r, hr⟩ := hs.bal.single h2
    rw [(hr q).1 h1, ← (hr f.1).1 (tl_mem v1)]
    exact v2
  induction hu with
  | one h1 h2 => exact key h1 h2
  | more _ h1 h2 ih => exact fun h3 => ih (key h1 h2 h3)

/-- Splitting the stack after an edge was taken off it. -/
theorem stack_split {src : Graph} {t h i : Nat} {es A B : List (Nat × Nat)} (he : edgesOf src t ++ es = A ++ (h, i) :: B) :
    (h = t ∧ (∀ e ∈ A, e.1 = t) ∧ ∀ j < i, (t, j) ∈ A) ∨ ∃ A', A = edgesOf src t ++ A' ∧ es = A' ++ (h, i) :: B := by
  rcases List.append_eq_append_iff.1 he with ⟨A', h1, h2⟩ | ⟨C, h1, h2⟩
  · exact .inr ⟨A', h1, h2⟩
  · cases C with
    | nil =>
      right
      refine ⟨[], by simpa using h1.symm, by simpa using h2.symm⟩
    | cons c C =>
      simp only [List.cons_append, List.cons.injEq] at h2
      obtain ⟨rfl, -⟩ := h2
      left
      have hm : ∀ j < (src.v t).out.length, (edgesOf src t)[j]? = some (t, j) := by
        intro j hj
        simp [edgesOf, hj]
      have hi := mem_edgesOf.1 (show (h, i) ∈ edgesOf src t by rw [h1]; simp)
      simp only at hi
      have hlen : (edgesOf src t).length = (src.v t).out.length := by simp [edgesOf]
      have hAl : A.length < (src.v t).out.length := by rw [← hlen, h1]; simp
      have hAi : A.length = i := by
        have := hm A.length hAl
        rw [h1] at this
        simp at this
        exact this.2.symm
      refine ⟨hi.1, ?_, ?_⟩
      · intro e he'
        exact (mem_edgesOf.1 (show e ∈ edgesOf src t by rw [h1]; simp [he'])).1
      · intro j hj
        have := hm j (by omega)
        rw [h1, List.getElem?_append_left (by omega)] at this
        exact List.mem_of_getElem? this

theorem oinv_step {dst0 src : Graph} {es vis : List (Nat × Nat)} {m : Merge} (hd : Base dst0) (hs : Fresh src) (hl : LabelsMatch src)
    (hl' : ∀ v < dst0.n, (dst0.v v).isMatch = true ↔ (dst0.v v).label ≠ none) (ho : Orderly src)
    (h : MInv dst0 src vis m) {e : Nat × Nat} {dh : Nat} (hk : Stack src (e :: es) vis m) (hev : e ∉ vis)
    (hh2 : m.s2d e.1 = some dh) (oi : OInv dst0 src (e :: es) vis m) :
    OInv dst0 src (edgesOf src (tl src e) ++ es) (e :: vis) (processChild m src (tl src e) dh) := by
  have hei := (hk.ok e (by simp)).1
  have h' := process_inv hd hs hl hl' h hev hei hh2
  have htm := tl_mem hei
  have ht0 : tl src e ≠ 0 := by have := hs.range _ _ htm; omega
  have hdhn : dh < m.dst.n := h.lt hd hh2
  have hsz := h.size
  obtain ⟨dt, di, did⟩ := process_did m src (tl src e) dh
  generalize hm' : processChild m src (tl src e) dh = m' at *
  generalize ht : tl src e = t at *
  -- a state mapped before has another edge entering it
  have U : m.s2d t ≠ none → (src.v t).inn.length = 1 → False := by
    intro h1 h2
    obtain ⟨f, hf, hft⟩ := h.via t ht0 h1
    exact hev (hs.bal.edge_unique h2 hei (h.vis1 f hf).1 ht hft ▸ hf)
  have hkeep : ∀ {x d}, m.s2d x = some d → m'.s2d x = some d := by
    intro x d hx
    rw [did.s2d]
    split
    · rename_i hxt
      rw [hxt] at hx
      rcases did.how with h1 | h1 | h1
      · rw [← hx, h1.1]
      · rw [h1.1] at hx; cases hx
      · rw [h1.1] at hx; cases hx
    · exact hx
  have hkeep' : ∀ {x}, m.s2d x ≠ none → m'.s2d x = m.s2d x := by
    intro x hx
    obtain ⟨d, hd'⟩ := Option.ne_none_iff_exists'.1 hx
    rw [hd', hkeep hd']
  have hconv : ∀ {x d}, m'.s2d x = some d → x ≠ t → m.s2d x = some d := by
    intro x d hx hne
    rwa [did.s2d, if_neg hne] at hx
  have hmt : m'.s2d t = some dt := by rw [did.s2d, if_pos rfl]
  -- the image of a state mapped before is a new state and not yet a successor
  have hmap : m.s2d t = some dt → dst0.n ≤ dt ∧ dt ∉ (m.dst.v dh).out := by
    intro hst
    have hge : dst0.n ≤ dt := by
      by_contra hc
      exact U (by simp [hst]) (h.one t dt ht0 hst (by omega))
    refine ⟨hge, fun hmem => ?_⟩
    rcases (h.edge _ _).1 hmem with h1 | ⟨f, hf, h1, h2⟩
    · have := (hd.range _ _ h1).2.2; omega
    · by_cases hft : tl src f = t
      · have hfm := tl_mem (h.vis1 f hf).1
        by_cases hfe : f.1 = e.1
        · -- the same edge
          have hi : f.2 = e.2 := by
            have hn := ho.nodup e.1
            have h3 := (h.vis1 f hf).1
            rw [hfe] at h3
            have e1 : (src.v e.1).out[f.2] = t := by
              rw [← hft, ← getD_lt _ h3, tl, hfe]
            have e2 : (src.v e.1).out[e.2] = t := by
              rw [← ht, ← getD_lt _ hei, tl]
            exact (hn.getElem_inj_iff).1 (e1.trans e2.symm)
          exact hev ((Prod.ext hfe hi : f = e) ▸ hf)
        · exact ho.apart _ _ t (oi.twin _ _ _ h1 hh2) hfe (hft ▸ hfm) htm
      · exact U (by simp [hst]) ((oi.twin t (tl src f) dt hst h2).inn (Ne.symm hft))
  -- the successors
  have hout : (∀ d, d ≠ dh → (m'.dst.v d).out = (m.dst.v d).out) ∧
      ((m'.dst = m.dst ∧ (m.dst.v dh).out[di]? = some dt ∧ (m.pos dh).getD 0 ≤ di) ∨
        (dst0.n ≤ dt ∧ dt ∉ (m.dst.v dh).out ∧
          (((m'.dst.v dh).out = (m.dst.v dh).out ++ [dt] ∧ di = (m.dst.v dh).out.length) ∨
            (m.pos dh = none ∧ (m'.dst.v dh).out = dt :: (m.dst.v dh).out ∧ di = 0)))) := by
    rcases did.how with ⟨h1, h2, h3⟩ | ⟨h1, h2, h3, h4, h5, h6⟩ | ⟨h1, h2, h3, h4⟩
    · obtain ⟨h4, h5⟩ := hmap h1
      have hidx : (m.dst.v dh).out.idxOf dt = (m.dst.v dh).out.length := List.idxOf_eq_length h5
      refine ⟨?_, .inr ⟨h4, h5, .inl ⟨?_, by rw [h3, hidx]⟩⟩⟩
      · intro d hdd
        rw [h2, connect, if_neg h5, insertEdge_out, if_neg hdd]
      · rw [h2, connect, if_neg h5, insertEdge_out, if_pos rfl, hidx]
        simp [insertAt]
    · refine ⟨fun d _ => by rw [h2], .inl ⟨h2, h5, h6⟩⟩
    · have hno : (m.dst.v m.dst.n).out = [] := by
        rw [List.eq_nil_iff_forall_not_mem]
        intro x hx
        have := (h.range hd hs hx).1
        omega
      have hcv : ∀ d, ((copyVertex m.dst (src.v t)).v d).out = (m.dst.v d).out := by
        intro d
        simp only [copyVertex]
        split
        · rename_i e1; rw [e1, hno]
        · rfl
      have hnm : dt ∉ (m.dst.v dh).out := by
        intro hx
        have := (h.range hd hs hx).2.2
        omega
      have hnm' : dt ∉ ((copyVertex m.dst (src.v t)).v dh).out := by rw [hcv]; exact hnm
      refine ⟨?_, .inr ⟨by omega, hnm, ?_⟩⟩
      · intro d hdd
        rw [h3, connect, if_neg hnm', insertEdge_out, if_neg hdd, hcv]
      · rw [h3, connect, if_neg hnm', insertEdge_out, if_pos rfl, hcv]
        cases hp : m.pos dh with
        | none =>
          right
          rw [hp] at h4
          simp only [if_true] at h4
          exact ⟨rfl, by simp [insertAt, h4], h4⟩
        | some k =>
          left
          rw [hp] at h4
          have := (oi.pos1 dh k hp).1
          have hdi : di = (m.dst.v dh).out.length := by
            rw [h4]
            simp
            omega
          exact ⟨by rw [hdi]; simp [insertAt], hdi⟩
  obtain ⟨hout1, hout2⟩ := hout
  have hmemv : ∀ {f d}, f ∈ vis → m.s2d f.1 = some d → (m.s2d (tl src f)).getD 0 ∈ (m.dst.v d).out := by
    intro f d hf h1
    obtain ⟨u, hu⟩ := Option.ne_none_iff_exists'.1 (h.vis1 f hf).2.2
    rw [hu]
    exact (h.edge _ _).2 (.inr ⟨f, hf, h1, hu⟩)
  have hidt : (m'.dst.v dh).out.idxOf dt = di ∧ di < (m'.dst.v dh).out.length := by
    rcases hout2 with ⟨h1, h2, -⟩ | ⟨-, h1, ⟨h2, h3⟩ | ⟨-, h2, h3⟩⟩
    · rw [h1]
      exact ⟨nodup_idxOf (h.nodup dh) h2, (List.getElem?_eq_some_iff.1 h2).1⟩
    · rw [h2, h3]
      refine ⟨?_, by simp⟩
      rw [List.idxOf_append_of_notMem h1]; simp
    · rw [h2, h3]
      exact ⟨by simp, by simp⟩
  -- the places of the earlier edges stay
  have hrank : ∀ {f d}, f ∈ vis → m.s2d f.1 = some d → rank m' d (tl src f) = rank m d (tl src f) := by
    intro f d hf h1
    have h2 := hmemv hf h1
    unfold rank
    rw [hkeep' (h.vis1 f hf).2.2]
    by_cases hdd : d = dh
    · subst hdd
      rcases hout2 with ⟨h3, -⟩ | ⟨-, h3, ⟨h4, -⟩ | ⟨h4, -, -⟩⟩
      · rw [h3]
      · rw [h4, List.idxOf_append_of_mem h2]
      · exact (oi.pos0 _ h4 f hf h1).elim
    · rw [hout1 d hdd]
  have hle : ∀ {f}, f ∈ vis → m.s2d f.1 = some dh → rank m dh (tl src f) ≤ di := by
    intro f hf h1
    cases hp : m.pos dh with
    | none => exact (oi.pos0 _ hp f hf h1).elim
    | some k =>
      obtain ⟨h2, h3⟩ := oi.pos1 dh k hp
      have h3 := h3 f hf h1
      rcases hout2 with ⟨-, -, h4⟩ | ⟨-, -, ⟨-, h4⟩ | ⟨h4, -, -⟩⟩
      · rw [hp, Option.getD_some] at h4; omega
      · omega
      · rw [hp] at h4; cases h4
  have hlast : rank m' dh t = di := by
    unfold rank
    rw [hmt]
    exact hidt.1
  have hhead : ∀ {f d}, f ∈ vis → m'.s2d f.1 = some d → m.s2d f.1 = some d := by
    intro f d hf h1
    rwa [hkeep' (h.vis1 f hf).2.1] at h1
  have he1 : m'.s2d e.1 = some dh := hkeep hh2
  -- merged states are twins
  have htw : canMerge m src dt t = true → dt ∈ (m.dst.v dh).out → ∀ x, m.s2d x = some dt →
      Twin src x t ∧ ∃ f ∈ vis, tl src f = x ∧ m.s2d f.1 = some dh ∧ x ∈ (src.v f.1).out ∧ (src.v x).inn.length = 1 := by
    intro hc hmem x hx
    obtain ⟨c1, c2, c3, c4, c5⟩ := canMerge_spec hc
    have hdt0 := (h.range hd hs hmem).2.1
    have hx0 : x ≠ 0 := by
      rintro rfl
      rw [h.zero] at hx; cases hx; omega
    obtain ⟨f, hf, hfx⟩ := h.via x hx0 (by simp [hx])
    obtain ⟨v1, v2, -⟩ := h.vis1 f hf
    obtain ⟨p, hp⟩ := Option.ne_none_iff_exists'.1 v2
    obtain ⟨r, hr⟩ := h.bal.single c2
    have hpd : p = dh := by
      rw [(hr p).1 ((h.edge p dt).2 (.inr ⟨f, hf, hp, by rw [hfx]; exact hx⟩)), ← (hr dh).1 hmem]
    rw [hpd] at hp
    have hxm : x ∈ (src.v f.1).out := hfx ▸ tl_mem v1
    have hinn : (src.v x).inn.length = 1 := by
      have hxd := h.d2s2 x dt hx0 hx
      cases hz : m.d2s dt with
      | nil => rw [hz] at hxd; cases hxd
      | cons z zs =>
        by_cases hxz : x = z
        · rw [hxz]; exact c4 z zs hz
        · exact (oi.twin x z dt hx (h.d2s1 dt z (by rw [hz]; simp)).1).inn hxz
    obtain ⟨-, -, i1, i2, i3⟩ := h.img x dt hx0 hx
    refine ⟨.step (oi.twin _ _ _ hp hh2) hxm htm hinn c3 (i1.symm.trans c5) (i3.symm.trans c1) ?_, f, hf, hfx, hp, hxm, hinn⟩
    rcases canMerge_out hc with h1 | h1
    · exact .inl ((i3.symm.trans c1).trans h1)
    · exact .inr (.inr h1.1)
  -- and everything below the first was done
  have hdn : canMerge m src dt t = true → dt ∈ (m.dst.v dh).out → ∀ x, x ≠ t → m.s2d x = some dt →
      ∀ j < (src.v x).out.length, (x, j) ∈ vis := by
    intro hc hmem x hxt hx j hj
    obtain ⟨h1, f, hf, h2, h3, h4, h5⟩ := htw hc hmem x hx
    rcases oi.seq [] es e.1 e.2 rfl hev x f.1 (.one h4 h5) (by simp [hx]) (by rw [h3, hh2]) ⟨t, h1, hxt⟩ j hj with h6 | h6
    · exact h6
    · cases h6
  have htwin : ∀ x x' d, m'.s2d x = some d → m'.s2d x' = some d → Twin src x x' := by
    have key : ∀ x d, m'.s2d x = some d → m'.s2d t = some d → Twin src x t := by
      intro x d h1 h2
      by_cases hxt : x = t
      · rw [hxt]; exact .refl t
      · rw [hmt] at h2; cases h2
        have h3 := hconv h1 hxt
        rcases did.how with h4 | h4 | h4
        · exact oi.twin _ _ _ h3 h4.1
        · exact (htw h4.2.2.2.1 h4.2.2.1 x h3).1
        · have := h.lt hd h3
          omega
    intro x x' d h1 h2
    by_cases hx' : x' = t
    · subst hx'; exact key x d h1 h2
    · by_cases hx : x = t
      · subst hx; exact (key x' d h2 h1).symm
      · exact oi.twin _ _ _ (hconv h1 hx) (hconv h2 hx')
  refine ⟨?_, ?_, ?_, ?_, ?_, htwin, ?_, ?_, ?_, ?_, ?_, ?_, ?_⟩
  · -- old
    intro d
    by_cases hdd : d = dh
    · subst hdd
      rw [← oi.old]
      rcases hout2 with ⟨h3, -⟩ | ⟨h3, -, ⟨h4, -⟩ | ⟨-, h4, -⟩⟩
      · rw [h3]
      · rw [h4, List.filter_append]
        simp [h3]
      · rw [h4, List.filter_cons]
        simp [h3]
    · rw [hout1 d hdd]; exact oi.old d
  · -- sorted
    intro f f' d hb h1 h2
    rcases before_cons.1 hb with ⟨rfl, h3⟩ | h3
    · rw [he1] at h2; cases h2
      have h4 := hhead h3 h1
      rw [hrank h3 h4, ht, hlast]
      exact hle h3 h4
    · have h4 := hhead h3.left h1
      have h5 := hhead h3.right h2
      rw [hrank h3.left h4, hrank h3.right h5]
      exact oi.sorted f f' d h3 h4 h5
  · -- pos0
    intro d hp f hf h1
    rw [did.pos] at hp
    split at hp
    · cases hp
    · rename_i hne
      rcases List.mem_cons.1 hf with rfl | hf
      · rw [he1] at h1; cases h1; exact hne rfl
      · exact oi.pos0 d hp f hf (hhead hf h1)
  · -- pos1
    intro d k hp
    rw [did.pos] at hp
    split at hp
    · rename_i hde
      subst hde; cases hp
      refine ⟨hidt.2, ?_⟩
      intro f hf h1
      rcases List.mem_cons.1 hf with rfl | hf
      · rw [ht, hlast]
      · rw [hrank hf (hhead hf h1)]
        exact hle hf (hhead hf h1)
    · rename_i hne
      rw [hout1 d hne]
      obtain ⟨h1, h2⟩ := oi.pos1 d k hp
      refine ⟨h1, ?_⟩
      intro f hf h3
      rcases List.mem_cons.1 hf with rfl | hf
      · rw [he1] at h3; cases h3; exact (hne rfl).elim
      · rw [hrank hf (hhead hf h3)]
        exact h2 f hf (hhead hf h3)
  · -- alone
    intro x d hx0 hx hor
    rcases did.how with ⟨h1, h2, -⟩ | ⟨h1, h2, h3, h4, -⟩ | ⟨h1, h2, h3, -⟩
    · have hold : ∀ {y d}, m'.s2d y = some d → m.s2d y = some d := by
        intro y d hy
        by_cases hyt : y = t
        · subst hyt; rw [hmt] at hy; cases hy; exact h1
        · exact hconv hy hyt
      have hne : d ≠ dt := by
        rintro rfl
        by_cases hxt : x = t
        · rcases hor with h3 | ⟨x', h3, h4⟩
          · have := (hmap h1).1; omega
          · exact U (by simp [h1]) ((oi.twin t x' _ h1 (hold h4)).inn (by rw [← hxt]; exact Ne.symm h3))
        · exact U (by simp [h1]) ((oi.twin t x _ h1 (hold hx)).inn (Ne.symm hxt))
      rw [h2, connect, if_neg (hmap h1).2, insertEdge_inn, if_neg hne]
      refine oi.alone x d hx0 (hold hx) ?_
      rcases hor with h3 | ⟨x', h3, h4⟩
      · exact .inl h3
      · exact .inr ⟨x', h3, hold h4⟩
    · rw [h2]
      by_cases hdd : d = dt
      · rw [hdd]; exact (canMerge_spec h4).2.1
      · have hne : ∀ {y}, m'.s2d y = some d → y ≠ t := by
          rintro y hy rfl
          rw [hmt] at hy; cases hy; exact hdd rfl
        refine oi.alone x d hx0 (hconv hx (hne hx)) ?_
        rcases hor with h3 | ⟨x', h3, h4⟩
        · exact .inl h3
        · exact .inr ⟨x', h3, hconv h4 (hne h4)⟩
    · have hdd : d ≠ dt := by
        rintro rfl
        have hun : ∀ y, m'.s2d y = some d → y = t := by
          intro y hy
          by_contra hyt
          have := h.lt hd (hconv hy hyt)
          omega
        rcases hor with h4 | ⟨x', h4, h5⟩
        · omega
        · exact h4 (by rw [hun x hx, hun x' h5])
      have hne : ∀ {y}, m'.s2d y = some d → y ≠ t := by
        rintro y hy rfl
        rw [hmt] at hy; cases hy; exact hdd rfl
      have hi : (m'.dst.v d).inn = (m.dst.v d).inn := by
        have hcv : (copyVertex m.dst (src.v t)).v d = m.dst.v d := by
          simp only [copyVertex]
          rw [if_neg (by omega)]
        rw [h3, connect]
        split
        · rw [hcv]
        · rw [insertEdge_inn, if_neg hdd, hcv]
      rw [hi]
      refine oi.alone x d hx0 (hconv hx (hne hx)) ?_
      rcases hor with h4 | ⟨x', h4, h5⟩
      · exact .inl h4
      · exact .inr ⟨x', h4, hconv h5 (hne h5)⟩
  · -- ends
    intro x x' d hne hx hx' hlab
    by_cases hold : m.s2d x = some d ∧ m.s2d x' = some d
    · exact oi.ends x x' d hne hold.1 hold.2 hlab
    · -- one of them is new
      have hin : x = t ∨ x' = t := by
        by_contra hc
        rw [not_or] at hc
        exact hold ⟨hconv hx hc.1, hconv hx' hc.2⟩
      have hdt : d = dt := by
        rcases hin with rfl | rfl
        · rw [hmt] at hx; exact (Option.some.inj hx).symm
        · rw [hmt] at hx'; exact (Option.some.inj hx').symm
      subst hdt
      have hlabels : (src.v x).label = (src.v t).label := by
        have a := (h'.img x d ?_ hx).2.2.2.2
        have b := (h'.img t d ht0 hmt).2.2.2.2
        · exact a.symm.trans b
        · rintro rfl
          rw [h'.zero] at hx; cases hx
          exact (h'.img t 0 ht0 hmt).1 rfl
      rcases did.how with h1 | h1 | h1
      · exfalso
        apply hold
        constructor
        · by_cases hxt : x = t
          · rw [hxt]; exact h1.1
          · exact hconv hx hxt
        · by_cases hxt : x' = t
          · rw [hxt]; exact h1.1
          · exact hconv hx' hxt
      · obtain ⟨-, -, h3, h4, -⟩ := h1
        rcases canMerge_out h4 with h5 | ⟨h5, h6⟩
        · exact (hlab (hlabels.trans h5)).elim
        · by_cases hxt : x = t
          · rw [hxt]; exact h5
          · by_contra hc
            have hlen : 0 < (src.v x).out.length := List.length_pos_iff.2 hc
            have hv := hdn h4 h3 x hxt (hconv hx hxt) 0 hlen
            have := hmemv hv (hconv hx hxt)
            rw [h6] at this
            cases this
      · have hun : ∀ y, m'.s2d y = some d → y = t := by
          intro y hy
          by_contra hyt
          have := h.lt hd (hconv hy hyt)
          omega
        exact (hne (by rw [hun x hx, hun x' hx'])).elim
  · -- order
    intro A B q i hes j hj
    rcases stack_split hes with ⟨rfl, -, h1⟩ | ⟨A', rfl, h2⟩
    · exact .inr (h1 j hj)
    · rcases oi.order (e :: A') B q i (by rw [h2]; rfl) j hj with h3 | h3
      · exact .inl (by simp [h3])
      · rcases List.mem_cons.1 h3 with h3 | h3
        · exact .inl (by simp [h3])
        · exact .inr (by simp [h3])
  · -- above
    intro A B q i hes f hf
    rcases stack_split hes with ⟨rfl, h1, -⟩ | ⟨A', rfl, h2⟩
    · rw [h1 f hf]; exact .refl _
    · have hab := oi.above (e :: A') B q i (by rw [h2]; rfl)
      rcases List.mem_append.1 hf with h3 | h3
      · rw [(mem_edgesOf.1 h3).1]
        exact (hab e (by simp)).snoc htm
      · exact hab f (by simp [h3])
  · -- seq
    intro A B q k hes hqv x p hu hx hpq htx j hj
    obtain ⟨x', htx1, htx2⟩ := htx
    have hqv' : (q, k) ∉ vis := fun hc => hqv (by simp [hc])
    have hqe : (q, k) ≠ e := fun hc => hqv (by simp [hc])
    rcases stack_split hes with ⟨rfl, h1, -⟩ | ⟨A', rfl, h2⟩
    · rw [hmt] at hpq
      have hcyc : ∀ c, Leads src c x → ∀ a, Leads src c a → c ∈ (src.v a).out → False :=
        fun c h1 a h2 h3 => ho.line x x' htx1 htx2 c h1 a h2 h3
      by_cases hxq : x = q
      · subst hxq
        obtain ⟨c, h3, a, h4, h5⟩ := (htwin p x dt hpq hmt).above hs.bal hu
        exact (hcyc c h3 a h4 h5).elim
      · have hxm : m.s2d x ≠ none := by
          rwa [did.s2d, if_neg hxq] at hx
        have hpm := h.up_mapped hs hu hxm
        rcases did.how with h3 | h3 | h3
        · have hpq' : p = q := by
            by_contra hne
            exact U (by simp [h3.1]) ((oi.twin q p dt h3.1 (hconv hpq hne)).inn (Ne.symm hne))
          subst hpq'
          exfalso
          have hkl : k < (src.v p).out.length := by
            have : (p, k) ∈ edgesOf src p ++ es := by rw [hes]; simp
            rcases List.mem_append.1 this with h4 | h4
            · exact (mem_edgesOf.1 h4).2
            · exact (hk.ok (p, k) (by simp [h4])).1
          rcases hk.all p (by simp [h3.1]) k hkl with h4 | h4
          · exact hqv' h4
          · rcases List.mem_cons.1 h4 with h4 | h4
            · exact hqe h4
            · obtain ⟨A1, B1, hAB⟩ := List.append_of_mem h4
              have h5 := oi.above (e :: A1) B1 p k (by rw [hAB]; rfl) e (by simp)
              exact hcyc p hu.leads e.1 h5 htm
        · obtain ⟨h4, -, h5, h6, -⟩ := h3
          have hpq' : p ≠ q := by
            rintro rfl
            exact hpm h4
          have hp := hconv hpq hpq'
          obtain ⟨h7, f, hf, h8, h9, h10, h11⟩ := htw h6 h5 p hp
          rcases oi.seq [] es e.1 e.2 rfl hev x f.1 (hu.top h10 h11) hxm (by rw [h9, hh2]) ⟨x', htx1, htx2⟩ j hj with h12 | h12
          · exact .inl (by simp [h12])
          · cases h12
        · exfalso
          have hpq' : p = q := by
            by_contra hne
            have := h.lt hd (hconv hpq hne)
            omega
          rw [hpq'] at hpm
          exact hpm h3.1
    · by_cases hxt : x = t
      · subst hxt
        exact .inr (List.mem_append.2 (.inl (mem_edgesOf.2 ⟨rfl, hj⟩)))
      · have hxm : m.s2d x ≠ none := by
          rwa [did.s2d, if_neg hxt] at hx
        have hpm := h.up_mapped hs hu hxm
        have hqm := (hk.ok (q, k) (by rw [h2]; simp)).2
        rw [hkeep' hpm, hkeep' hqm] at hpq
        rcases oi.seq (e :: A') B q k (by rw [h2]; rfl) hqv' x p hu hxm hpq ⟨x', htx1, htx2⟩ j hj with h3 | h3
        · exact .inl (by simp [h3])
        · rcases List.mem_cons.1 h3 with h3 | h3
          · exact .inl (by simp [h3])
          · exact .inr (by simp [h3])
  · -- mapped
    intro f hf hf0
    rcases List.mem_cons.1 hf with rfl | hf
    · obtain ⟨f', h1, h2⟩ := h.via f.1 hf0 (by simp [hh2])
      exact ⟨f', h2, before_cons.2 (.inl ⟨rfl, h1⟩)⟩
    · obtain ⟨f', h1, h2⟩ := oi.mapped f hf hf0
      exact ⟨f', h1, before_cons.2 (.inr h2)⟩
  · -- inOrder
    intro q i j hij hq
    rcases List.mem_cons.1 hq with hq | hq
    · rcases oi.order [] es q j (by rw [hq]; rfl) i hij with h1 | h1
      · exact before_cons.2 (.inl ⟨hq, h1⟩)
      · cases h1
    · exact before_cons.2 (.inr (oi.inOrder q i j hij hq))
  · -- done
    intro x x' d f f' hne hx hx' hf hf' hb i hi
    rcases before_cons.1 hb with ⟨rfl, h1⟩ | h1
    · rw [ht] at hf'
      subst hf'
      rw [hmt] at hx'; cases hx'
      have hxm := hconv hx hne
      rcases did.how with h2 | h2 | h2
      · exact (U (by simp [h2.1]) ((oi.twin _ _ _ h2.1 hxm).inn (Ne.symm hne))).elim
      · exact before_cons.2 (.inl ⟨rfl, hdn h2.2.2.2.1 h2.2.2.1 x hne hxm i hi⟩)
      · have := h.lt hd hxm; omega
    · have a := (h.vis1 f h1.left).2.2
      have b := (h.vis1 f' h1.right).2.2
      rw [hf] at a
      rw [hf'] at b
      rw [hkeep' a] at hx
      rw [hkeep' b] at hx'
      exact before_cons.2 (.inr (oi.done x x' d f f' hne hx hx' hf hf' h1 i hi))

theorem mergeLoop_order {dst0 src : Graph} (hd : Base dst0) (hs : Fresh src) (hl : LabelsMatch src)
    (hl' : ∀ v < dst0.n, (dst0.v v).isMatch = true ↔ (dst0.v v).label ≠ none) (ho : Orderly src) : ∀ fuel es vis m g,
    MInv dst0 src vis m → Stack src es vis m → OInv dst0 src es vis m → mergeLoop src fuel es vis m = some g →
    ∃ vis' m', m'.dst = g ∧ Merged dst0 src vis' m' ∧ OInv dst0 src [] vis' m' ∧ vis'.Nodup := by
  intro fuel
  induction fuel with
  | zero => intro es vis m g _ _ _ h; cases h
  | succ fuel ih =>
    intro es vis m g hi hk oi h
    match es with
    | [] =>
      simp only [mergeLoop, Option.some.injEq] at h
      exact ⟨vis, m, h, ⟨hi, fun h hh i hi => by simpa using hk.all h hh i hi⟩, oi, hk.nodup⟩
    | e :: es =>
      obtain ⟨a, i⟩ := e
      simp only [mergeLoop] at h
      by_cases hv : (a, i) ∈ vis
      · rw [if_pos hv] at h
        exact ih es vis m g hi (stack_skip hk hv) (oi.skip hv) h
      · rw [if_neg hv] at h
        obtain ⟨h1, h2⟩ := hk.ok (a, i) (by simp)
        obtain ⟨dh, hdh⟩ := Option.ne_none_iff_exists'.1 h2
        simp only at hdh
        rw [hdh, Option.getD_some] at h
        exact ih _ _ _ g (process_inv hd hs hl hl' hi hv h1 hdh) (stack_step dh hk hv)
          (oinv_step hd hs hl hl' ho hi hk hv hdh oi) h

/-! ## The keywords there before -/

/-- What holds of the states of the combined automaton while another is merged into it. -/
structure KInv (dst0 src : Graph) (m : Merge) : Prop where
  old : ∀ d, (m.dst.v d).out.filter (fun u => decide (u < dst0.n)) = (dst0.v d).out
  alone : ∀ t d, t ≠ 0 → m.s2d t = some d → d < dst0.n → (m.dst.v d).inn.length = 1

theorem filter_insertAt {l : List Nat} {i x n : Nat} (h : n ≤ x) :
    (insertAt l i x).filter (fun u => decide (u < n)) = l.filter (fun u => decide (u < n)) := by
  have h1 : l.filter (fun u => decide (u < n)) =
      (l.take i).filter (fun u => decide (u < n)) ++ (l.drop i).filter (fun u => decide (u < n)) := by
    rw [← List.filter_append, List.take_append_drop]
  rw [h1, insertAt, List.filter_append, List.filter_cons]
  simp [h]

theorem kinv_step {dst0 src : Graph} {vis : List (Nat × Nat)} {m : Merge} (hd : Base dst0) (hs : Fresh src)
    (h : MInv dst0 src vis m) {e : Nat × Nat} {dh : Nat} (hei : e.2 < (src.v e.1).out.length) (hev : e ∉ vis)
    (hh2 : m.s2d e.1 = some dh) (ki : KInv dst0 src m) : KInv dst0 src (processChild m src (tl src e) dh) := by
  have htm := tl_mem hei
  have ht0 : tl src e ≠ 0 := by have := hs.range _ _ htm; omega
  have hsz := h.size
  obtain ⟨dt, di, did⟩ := process_did m src (tl src e) dh
  generalize hm' : processChild m src (tl src e) dh = m' at *
  generalize ht : tl src e = t at *
  have hmap : m.s2d t = some dt → dst0.n ≤ dt := by
    intro hst
    by_contra hc
    obtain ⟨f, hf, hft⟩ := h.via t ht0 (by simp [hst])
    exact hev (hs.bal.edge_unique (h.one t dt ht0 hst (by omega)) hei (h.vis1 f hf).1 ht hft ▸ hf)
  have hconn : ∀ {g : Graph} {k d}, dst0.n ≤ dt → ((connect g dh dt k).v d).out.filter (fun u => decide (u < dst0.n)) =
      (g.v d).out.filter (fun u => decide (u < dst0.n)) := by
    intro g k d hge
    rw [connect]
    split
    · rfl
    · rw [insertEdge_out]
      split
      · exact filter_insertAt hge
      · rfl
  have hinn : ∀ {g : Graph} {k d}, dst0.n ≤ dt → d < dst0.n → ((connect g dh dt k).v d).inn = (g.v d).inn := by
    intro g k d hge hlt
    rw [connect]
    split
    · rfl
    · rw [insertEdge_inn, if_neg (by omega)]
  rcases did.how with ⟨h1, h2, -⟩ | ⟨h1, h2, h3, h4, -⟩ | ⟨h1, h2, h3, -⟩
  · refine ⟨fun d => by rw [h2, hconn (hmap h1)]; exact ki.old d, ?_⟩
    intro x d hx0 hx hlt
    rw [h2, hinn (hmap h1) hlt]
    rw [did.s2d] at hx
    split at hx
    · cases hx; have := hmap h1; omega
    · exact ki.alone x d hx0 hx hlt
  · refine ⟨fun d => by rw [h2]; exact ki.old d, ?_⟩
    intro x d hx0 hx hlt
    rw [h2]
    rw [did.s2d] at hx
    split at hx
    · cases hx; exact (canMerge_spec h4).2.1
    · exact ki.alone x d hx0 hx hlt
  · have hno : (m.dst.v m.dst.n).out = [] := by
      rw [List.eq_nil_iff_forall_not_mem]
      intro x hx
      have := (h.range hd hs hx).1
      omega
    have hcv : ∀ d, ((copyVertex m.dst (src.v t)).v d).out = (m.dst.v d).out := by
      intro d
      simp only [copyVertex]
      split
      · rename_i e1; rw [e1, hno]
      · rfl
    refine ⟨fun d => by rw [h3, hconn (by omega), hcv]; exact ki.old d, ?_⟩
    intro x d hx0 hx hlt
    have hcv' : (copyVertex m.dst (src.v t)).v d = m.dst.v d := by
      simp only [copyVertex]
      rw [if_neg (by omega)]
    rw [h3, hinn (by omega) hlt, hcv']
    rw [did.s2d] at hx
    split at hx
    · cases hx; omega
    · exact ki.alone x d hx0 hx hlt

theorem mergeLoop_keeps {dst0 src : Graph} (hd : Base dst0) (hs : Fresh src) (hl : LabelsMatch src)
    (hl' : ∀ v < dst0.n, (dst0.v v).isMatch = true ↔ (dst0.v v).label ≠ none) : ∀ fuel es vis m g,
    MInv dst0 src vis m → Stack src es vis m → KInv dst0 src m → mergeLoop src fuel es vis m = some g →
    ∃ vis' m', m'.dst = g ∧ Merged dst0 src vis' m' ∧ KInv dst0 src m' := by
  intro fuel
  induction fuel with
  | zero => intro es vis m g _ _ _ h; cases h
  | succ fuel ih =>
    intro es vis m g hi hk oi h
    match es with
    | [] =>
      simp only [mergeLoop, Option.some.injEq] at h
      exact ⟨vis, m, h, ⟨hi, fun h hh i hi => by simpa using hk.all h hh i hi⟩, oi⟩
    | e :: es =>
      obtain ⟨a, i⟩ := e
      simp only [mergeLoop] at h
      by_cases hv : (a, i) ∈ vis
      · rw [if_pos hv] at h
        exact ih es vis m g hi (stack_skip hk hv) oi h
      · rw [if_neg hv] at h
        obtain ⟨h1, h2⟩ := hk.ok (a, i) (by simp)
        obtain ⟨dh, hdh⟩ := Option.ne_none_iff_exists'.1 h2
        simp only at hdh
        rw [hdh, Option.getD_some] at h
        exact ih _ _ _ g (process_inv hd hs hl hl' hi hv h1 hdh) (stack_step dh hk hv)
          (kinv_step hd hs hi h1 hv hdh oi) h

/-! ## Ways -/

theorem earlier_filter {l : List Nat} {P : Nat → Bool} {u u' : Nat} (h : Earlier (l.filter P) u u') : Earlier l u u' := by
  obtain ⟨a, c, h1, h2, h3⟩ := h
  have hP : P u' = true := by
    have : u' ∈ l.filter P := by rw [h1]; simp
    exact (List.mem_filter.1 this).2
  have hmem : u' ∈ l := by
    have : u' ∈ l.filter P := by rw [h1]; simp
    exact (List.mem_filter.1 this).1
  obtain ⟨A, C, hA, hl⟩ := List.eq_append_cons_of_mem hmem
  refine ⟨A, C, hA, ?_, hl⟩
  rw [hA, List.filter_append, List.filter_cons, if_pos hP] at h1
  -- the first place of `u'` is the same
  have hn : u' ∉ A.filter P := fun hx => hl (List.mem_filter.1 hx).1
  have : ∀ (x y c d : List Nat), u' ∉ x → u' ∉ y → x ++ u' :: c = y ++ u' :: d → x = y := by
    intro x
    induction x with
    | nil =>
      intro y c d _ hy he
      cases y with
      | nil => rfl
      | cons z y => simp at he; simp [he.1] at hy
    | cons z x ih =>
      intro y c d hx hy he
      cases y with
      | nil => simp at he; simp [he.1] at hx
      | cons z' y =>
        simp only [List.cons_append, List.cons.injEq] at he
        rw [he.1, ih y c d (by simp at hx; exact hx.2) (by simp at hy; exact hy.2) he.2]
  have heq := this _ _ _ _ hn h3 h1
  rw [← heq] at h2
  exact (List.mem_filter.1 h2).1

theorem earlier_idx {l : List Nat} {u u' : Nat} (h : l.idxOf u < l.idxOf u') (hm : u' ∈ l) : Earlier l u u' := by
  obtain ⟨A, C, hA, hl⟩ := List.eq_append_cons_of_mem hm
  refine ⟨A, C, hA, ?_, hl⟩
  by_contra hc
  rw [hA, List.idxOf_append_of_notMem hc, List.idxOf_append_of_notMem hl] at h
  simp at h

/-- Merging an automaton into the combined one keeps which matches of the keywords there are
preferred. -/
theorem merge_keeps {dst src dst' : Graph} (hd : Base dst) (hl : LabelsMatch dst) (hs : Fresh src) (hl' : LabelsMatch src)
    {fuel : Nat} (h : mergeIntoFSM fuel dst src = some dst') {l : Nat} (hu : ∀ v, (src.v v).label ≠ some l)
    (hL : LabelsMatch dst') {off : Nat} {buf : List UInt8} {m : Nat} {hits : List (Nat × Nat)} :
    Preferred dst off buf l m hits ↔ Preferred dst' off buf l m hits := by
  obtain ⟨vis, mm, rfl, hm, ki⟩ := mergeLoop_keeps hd hs hl' (fun v _ => hl.labels v) fuel _ _ _ _ (init_inv hd hs)
    (init_stack dst src) ⟨fun d => List.filter_eq_self.2 fun u hu => by simpa using (hd.range d u hu).2.2, by
      intro t d ht h1
      simp only at h1
      rw [if_neg ht] at h1
      cases h1⟩ h
  have fwd : ∀ {v p w t}, v < dst.n → Steps dst v p w t → Steps mm.dst v p w t ∧ t < dst.n := by
    intro v p w t hv hst
    induction hst with
    | stop => exact ⟨.stop, hv⟩
    | go h1 h2 _ ih =>
      have hlt := (hd.range _ _ h1).2.2
      obtain ⟨a, b⟩ := ih hlt
      exact ⟨.go ((hm.edge _ _).2 (.inl h1)) (by rw [(hm.data _ hlt).1]; exact h2) a, b⟩
  have bwd : ∀ {p w d lab}, Way mm.dst p w d lab → d < dst.n → ∃ lab', Way dst p w d lab' := by
    intro p w d lab hw
    induction hw with
    | init => exact fun _ => ⟨_, .init⟩
    | @step p w v lab u b _ h1 h2 ih =>
      intro hlt
      have hu : u ∈ (dst.v v).out := by
        rcases (hm.edge _ _).1 h1 with h3 | ⟨f, hf, h3, h4⟩
        · exact h3
        · have h0 := (hs.range _ _ (tl_mem (hm.vis1 f hf).1)).2.1
          have hu0 := (hm.img _ u (by omega) h4).1
          obtain ⟨q, hq⟩ := hd.pred u hlt hu0
          obtain ⟨r, hr⟩ := hm.bal.single (ki.alone _ u (by omega) h4 hlt)
          rw [(hr v).1 h1, ← (hr q).1 ((hm.edge _ _).2 (.inl hq))]
          exact hq
      obtain ⟨lab', hw'⟩ := ih (hd.range _ _ hu).1
      exact ⟨_, hw'.step hu (by rw [← (hm.data _ hlt).1]; exact h2)⟩
  refine preferred_transfer hl hL (fun p p' => p' = p) ?_ ?_ ?_
  · intro s e p hw
    rw [wayAt_labels hl] at hw
    obtain ⟨a, b, c, t, h1, h2, h3⟩ := hw
    obtain ⟨h4, h5⟩ := fwd hd.pos h1
    refine ⟨p, rfl, (wayAt_labels hL).2 ⟨a, b, c, t, h4, ?_, ?_⟩⟩
    · rw [(hm.data t h5).2.1]; exact h2
    · rw [(hm.data t h5).2.2]; exact h3
  · intro s e p hw
    rw [wayAt_labels hL] at hw
    obtain ⟨a, b, c, t, h1, h2, h3⟩ := hw
    have ht : t < dst.n := by
      by_contra hc
      by_cases htn : t < mm.dst.n
      · obtain ⟨x, h4, h5⟩ := hm.new t (by omega) htn
        have := (hm.img x t h4 h5).2.2.2.2
        rw [h3] at this
        exact hu x this.symm
      · have : ∀ {v p w t}, v < mm.dst.n → Steps mm.dst v p w t → t < mm.dst.n := by
          intro v p w t hv hst
          induction hst with
          | stop => exact hv
          | go g1 _ _ ih => exact ih (hm.range hd hs g1).2.2
        exact htn (this (by have := hm.size; have := hd.pos; omega) h1)
    obtain ⟨lab, hw⟩ := way_of_steps h1 .init
    simp only [List.nil_append] at hw
    obtain ⟨lab', hw'⟩ := bwd hw ht
    refine ⟨p, rfl, (wayAt_labels hl).2 ⟨a, b, c, t, steps_of_way hw', ?_, ?_⟩⟩
    · rw [← (hm.data t ht).2.1]; exact h2
    · rw [← (hm.data t ht).2.2]; exact h3
  · rintro s e e' p q p' q' - - rfl rfl h1
    rcases h1 with h1 | h1 | ⟨c, u, r, u', r', h1, h2, h3⟩
    · exact .inl h1
    · exact .inr (.inl h1)
    · rw [← ki.old] at h3
      exact .inr (.inr ⟨c, u, r, u', r', h1, h2, earlier_filter h3⟩)

/-! ## The new keyword -/

/-- The state of the combined automaton a state is mapped to. -/
def image (m : Merge) (v : Nat) : Nat := (m.s2d v).getD 0

theorem steps_image {dst0 src : Graph} {vis m} (hs : Fresh src) (h : Merged dst0 src vis m) {v p w t} (hst : Steps src v p w t) :
    m.s2d v ≠ none → Steps m.dst (image m v) (p.map (image m)) w (image m t) ∧ m.s2d t ≠ none := by
  induction hst with
  | stop => exact fun hv => ⟨.stop, hv⟩
  | @go v u b p w t h1 h2 _ ih =>
    intro hv
    obtain ⟨dv, hdv⟩ := Option.ne_none_iff_exists'.1 hv
    obtain ⟨du, hdu, he⟩ := h.edge_src h1 hdv
    have hi : image m v = dv := by simp [image, hdv]
    have hi' : image m u = du := by simp [image, hdu]
    obtain ⟨a, b⟩ := ih (by simp [hdu])
    refine ⟨?_, b⟩
    rw [List.map_cons]
    refine .go (by rw [hi, hi']; exact he) ?_ a
    have h0 := (hs.range v u h1).2.1
    rw [hi', (h.img u du (by omega) hdu).2.2.1]
    exact h2

/-- A way into the image of a state is the image of a way into it. -/
theorem way_lift {dst0 src : Graph} {vis m} (hd : Base dst0) (hs : Fresh src) (h : Merged dst0 src vis m)
    (oi : OInv dst0 src [] vis m) {p' w d lab} (hw : Way m.dst p' w d lab) : ∀ t, m.s2d t = some d →
      ∃ p lab', p' = p.map (image m) ∧ Way src p w t lab' := by
  induction hw with
  | init =>
    intro t ht
    have : t = 0 := by
      by_contra hc
      exact (h.img t 0 hc ht).1 rfl
    subst this
    exact ⟨[], _, rfl, .init⟩
  | @step p' w v lab u b _ h1 h2 ih =>
    intro t ht
    have hu0 := (h.range hd hs h1).2.1
    have ht0 : t ≠ 0 := by
      rintro rfl
      rw [h.zero] at ht; cases ht; omega
    have key : ∃ f ∈ vis, tl src f = t ∧ m.s2d f.1 = some v := by
      by_cases hc : u < dst0.n ∨ ∃ t', t' ≠ t ∧ m.s2d t' = some u
      · obtain ⟨f, hf, hft⟩ := h.via t ht0 (by simp [ht])
        obtain ⟨q, hq⟩ := Option.ne_none_iff_exists'.1 (h.vis1 f hf).2.1
        obtain ⟨r, hr⟩ := h.bal.single (oi.alone t u ht0 ht hc)
        refine ⟨f, hf, hft, ?_⟩
        rw [hq, (hr v).1 h1, ← (hr q).1 ((h.edge _ _).2 (.inr ⟨f, hf, hq, by rw [hft]; exact ht⟩))]
      · rw [not_or, not_exists] at hc
        rcases (h.edge _ _).1 h1 with h3 | ⟨f, hf, h3, h4⟩
        · exact absurd (hd.range _ _ h3).2.2 hc.1
        · refine ⟨f, hf, ?_, h3⟩
          by_contra hne
          exact hc.2 _ ⟨hne, h4⟩
    obtain ⟨f, hf, hft, hfv⟩ := key
    obtain ⟨p, lab', h3, h4⟩ := ih f.1 hfv
    have hm := tl_mem (h.vis1 f hf).1
    rw [hft] at hm
    refine ⟨p ++ [t], _, ?_, h4.step hm ?_⟩
    · rw [h3]; simp [image, ht]
    · rw [← (h.img t u ht0 ht).2.2.1]; exact h2

theorem earlier_images {dst0 src : Graph} {vis m} (h : Merged dst0 src vis m)
    (oi : OInv dst0 src [] vis m) {f f' : Nat × Nat} {d : Nat} (hb : Before vis f f') (h1 : m.s2d f.1 = some d)
    (h2 : m.s2d f'.1 = some d) (hne : image m (tl src f) ≠ image m (tl src f')) :
    Earlier (m.dst.v d).out (image m (tl src f)) (image m (tl src f')) := by
  have hmem : ∀ {f}, f ∈ vis → m.s2d f.1 = some d → image m (tl src f) ∈ (m.dst.v d).out := by
    intro f hf h1
    obtain ⟨u, hu⟩ := Option.ne_none_iff_exists'.1 (h.vis1 f hf).2.2
    rw [image, hu]
    exact (h.edge _ _).2 (.inr ⟨f, hf, h1, hu⟩)
  refine earlier_idx (lt_of_le_of_ne (oi.sorted f f' d hb h1 h2) ?_) (hmem hb.right h2)
  intro hc
  exact hne ((List.idxOf_inj (hmem hb.left h1)).1 hc)

/-- Of two ways through states taken for the same, the one through the state first met is
preferred, or they become one. -/
theorem images_prefer {dst0 src : Graph} {vis m} (hs : Fresh src) (hl : LabelsMatch src) (ho : Orderly src) (h : Merged dst0 src vis m)
    (oi : OInv dst0 src [] vis m) (hn : vis.Nodup) : ∀ (r r' : List Nat) (x x' d : Nat) (f f' : Nat × Nat) (w w' : List UInt8) (t t' : Nat),
    x ≠ x' → m.s2d x = some d → m.s2d x' = some d → tl src f = x → tl src f' = x' → Before vis f f' →
    Steps src x r w t → Steps src x' r' w' t' → (src.v t).isMatch = true → (src.v t').isMatch = true →
    r.map (image m) = r'.map (image m) ∨ PreferFrom m.dst d (r.map (image m)) (r'.map (image m)) := by
  intro r
  induction r with
  | nil =>
    intro r' x x' d f f' w w' t t' hne hx hx' hf hf' hb hst hst' hm hm'
    cases hst
    have hx'0 : ∀ {z f}, f ∈ vis → tl src f = z → z ≠ 0 := by
      intro z f hf e
      have := (hs.range _ _ (tl_mem (h.vis1 f hf).1)).2.1
      omega
    have hlab : (src.v x').label = (src.v x).label := by
      rw [← (h.img x' d (hx'0 hb.right hf') hx').2.2.2.2, (h.img x d (hx'0 hb.left hf) hx).2.2.2.2]
    have hout := oi.ends x' x d (Ne.symm hne) hx' hx (by rw [hlab]; exact (hl.labels x).1 hm)
    cases hst' with
    | stop => exact .inl rfl
    | go h1 => rw [hout] at h1; cases h1
  | cons a r ih =>
    intro r' x x' d f f' w w' t t' hne hx hx' hf hf' hb hst hst' hm hm'
    cases hst with
    | @go _ _ b _ w2 _ h1 h2 h3 =>
      cases hst' with
      | stop => exact .inr (.inl ⟨_, _, rfl⟩)
      | @go _ a' b' r2 w3 _ h4 h5 h6 =>
        obtain ⟨i, hi, hia⟩ := List.getElem_of_mem h1
        obtain ⟨j, hj, hja⟩ := List.getElem_of_mem h4
        have hfi : tl src (x, i) = a := by simp only [tl]; rw [getD_lt _ hi, hia]
        have hfj : tl src (x', j) = a' := by simp only [tl]; rw [getD_lt _ hj, hja]
        have hvj : (x', j) ∈ vis := h.done x' (by simp [hx']) j hj
        have hb1 := oi.done x x' d f f' hne hx hx' hf hf' hb i hi
        have htw := oi.twin x' x d hx' hx
        have hx'0 : x' ≠ 0 := by
          have := (hs.range _ _ (tl_mem (h.vis1 f' hb.right).1)).2.1
          omega
        obtain ⟨f2, g1, g2⟩ := oi.mapped _ hvj hx'0
        have hff : f2 = f' := hs.bal.edge_unique (htw.inn (Ne.symm hne)) (h.vis1 f2 g2.left).1 (h.vis1 f' hb.right).1 g1 hf'
        subst hff
        have hbij : Before vis (x, i) (x', j) := hb1.trans hn g2
        by_cases hS : image m a = image m a'
        · have haa : a ≠ a' := by
            rintro rfl
            exact ho.apart x x' a htw.symm hne h1 h4
          obtain ⟨da, hda, -⟩ := h.edge_src h1 hx
          obtain ⟨da', hda', -⟩ := h.edge_src h4 hx'
          have hdd : da' = da := by simpa [image, hda, hda'] using hS.symm
          subst hdd
          have hi : image m a = da' := by simp [image, hda]
          rcases ih r2 a a' da' (x, i) (x', j) w2 w3 t t' haa hda hda' hfi hfj hbij h3 h6 hm hm' with h7 | h7
          · left
            rw [List.map_cons, List.map_cons, h7, hS]
          · right
            rw [List.map_cons, List.map_cons, ← hS, hi]
            exact h7.cons
        · right
          right
          refine ⟨[], image m a, r.map (image m), image m a', r2.map (image m), rfl, rfl, ?_⟩
          have := earlier_images h oi hbij hx hx' (by rw [hfi, hfj]; exact hS)
          rw [hfi, hfj] at this
          exact this

/-- C55: merging an orderly automaton into the combined one keeps which matches of its
keyword are preferred. -/
theorem merge_orderly {dst src dst' : Graph} (hd : Base dst) (hl : LabelsMatch dst) (hs : Fresh src) (hl' : LabelsMatch src)
    (ho : Orderly src) {fuel : Nat} (h : mergeIntoFSM fuel dst src = some dst') {l : Nat} (hu : ∀ v, (dst.v v).label ≠ some l)
    (hL : LabelsMatch dst') {off : Nat} {buf : List UInt8} {m : Nat} {hits : List (Nat × Nat)} :
    Preferred src off buf l m hits ↔ Preferred dst' off buf l m hits := by
  obtain ⟨vis, mm, rfl, hm, oi, hn⟩ := mergeLoop_order hd hs hl' (fun v _ => hl.labels v) ho fuel _ _ _ _ (init_inv hd hs)
    (init_stack dst src) (oinv_init hd hs) h
  have h00 : image mm 0 = 0 := by simp [image, hm.zero]
  have hne0 : ∀ {t}, (src.v t).isMatch = true → t ≠ 0 := by
    rintro t h1 rfl
    rw [hl'.root] at h1; cases h1
  have hend : ∀ c, endOf (c.map (image mm)) = image mm (endOf c) := by
    intro c
    unfold endOf
    rw [List.getLast?_map]
    cases c.getLast? with
    | none => simp [h00]
    | some x => rfl
  have hsplit : ∀ {c : List Nat} {v p w t}, Steps src v (c ++ p) w t → mm.s2d v ≠ none →
      mm.s2d (c.getLast?.getD v) ≠ none ∧ ∃ w', Steps src (c.getLast?.getD v) p w' t := by
    intro c
    induction c with
    | nil => intro v p w t h1 h2; exact ⟨h2, w, h1⟩
    | cons a c ih =>
      intro v p w t h1 h2
      cases h1 with
      | go h3 h4 h5 =>
        obtain ⟨dv, hdv⟩ := Option.ne_none_iff_exists'.1 h2
        obtain ⟨da, hda, -⟩ := hm.edge_src h3 hdv
        have hg : (a :: c).getLast?.getD v = c.getLast?.getD a := by
          cases c with
          | nil => rfl
          | cons y c => simp [List.getLast?_cons]
        rw [hg]
        exact ih h5 (by simp [hda])
  refine preferred_transfer hl' hL (fun p p' => p' = p.map (image mm)) ?_ ?_ ?_
  · intro s e p hw
    rw [wayAt_labels hl'] at hw
    obtain ⟨a, b, c, t, h1, h2, h3⟩ := hw
    obtain ⟨h4, h5⟩ := steps_image hs hm h1 (by simp [hm.zero])
    rw [h00] at h4
    obtain ⟨d, hd'⟩ := Option.ne_none_iff_exists'.1 h5
    have hi : image mm t = d := by simp [image, hd']
    obtain ⟨-, -, -, h6, h7⟩ := hm.img t d (hne0 h2) hd'
    refine ⟨_, rfl, (wayAt_labels hL).2 ⟨a, b, c, _, h4, ?_, ?_⟩⟩
    · rw [hi, h6]; exact h2
    · rw [hi, h7]; exact h3
  · intro s e p' hw
    rw [wayAt_labels hL] at hw
    obtain ⟨a, b, c, d, h1, h2, h3⟩ := hw
    have hdn : d < mm.dst.n := by
      have : ∀ {v p w t}, v < mm.dst.n → Steps mm.dst v p w t → t < mm.dst.n := by
        intro v p w t hv hst
        induction hst with
        | stop => exact hv
        | go g1 _ _ ih => exact ih (hm.range hd hs g1).2.2
      exact this (by have := hm.size; have := hd.pos; omega) h1
    have hge : dst.n ≤ d := by
      by_contra hc
      have := (hm.data d (by omega)).2.2
      rw [h3] at this
      exact hu d this.symm
    obtain ⟨t, ht0, ht⟩ := hm.new d hge hdn
    obtain ⟨lab, hw⟩ := way_of_steps h1 .init
    simp only [List.nil_append] at hw
    obtain ⟨p, lab', h4, h5⟩ := way_lift hd hs hm oi hw t ht
    obtain ⟨-, -, -, h6, h7⟩ := hm.img t d ht0 ht
    refine ⟨p, h4, (wayAt_labels hl').2 ⟨a, b, c, t, steps_of_way h5, ?_, ?_⟩⟩
    · rw [← h6]; exact h2
    · rw [← h7]; exact h3
  · rintro s e e' p q p' q' hp hq rfl rfl hor
    rcases hor with rfl | ⟨u, r, rfl⟩ | ⟨c, u, r, u', r', rfl, rfl, h3⟩
    · exact .inl rfl
    · exact .inr (.inl ⟨image mm u, r.map (image mm), by simp⟩)
    · rw [wayAt_labels hl'] at hp hq
      obtain ⟨-, -, -, t, h4, h5, -⟩ := hp
      obtain ⟨-, -, -, t', h6, h7, -⟩ := hq
      obtain ⟨g1, w1, h8⟩ := hsplit h4 (by simp [hm.zero])
      obtain ⟨-, w2, h9⟩ := hsplit h6 (by simp [hm.zero])
      change mm.s2d (endOf c) ≠ none at g1
      change Steps src (endOf c) _ _ _ at h8 h9
      obtain ⟨dv, hdv⟩ := Option.ne_none_iff_exists'.1 g1
      have hiv : image mm (endOf c) = dv := by simp [image, hdv]
      obtain ⟨A, C, hAC, hA, hA'⟩ := h3
      cases h8 with
      | go k1 _ k2 =>
        cases h9 with
        | go k3 _ k4 =>
          obtain ⟨i, hi, hiu⟩ := List.getElem_of_mem hA
          have hlen : i < (src.v (endOf c)).out.length := by rw [hAC]; simp; omega
          have hlen' : A.length < (src.v (endOf c)).out.length := by rw [hAC]; simp
          have hu1 : tl src (endOf c, i) = u := by
            simp only [tl]
            rw [getD_lt _ hlen]
            simp only [hAC]
            rw [List.getElem_append_left hi, hiu]
          have hu2 : tl src (endOf c, A.length) = u' := by
            simp only [tl]
            rw [getD_lt _ hlen']
            simp [hAC]
          have hvis := hm.done (endOf c) g1 A.length hlen'
          have hbf := oi.inOrder (endOf c) i A.length hi hvis
          have huu : u ≠ u' := by rintro rfl; exact hA' hA
          by_cases hS : image mm u = image mm u'
          · obtain ⟨du, hdu, -⟩ := hm.edge_src k1 hdv
            obtain ⟨du', hdu', -⟩ := hm.edge_src k3 hdv
            have hdd : du' = du := by simpa [image, hdu, hdu'] using hS.symm
            subst hdd
            have hiu' : image mm u = du' := by simp [image, hdu]
            rcases images_prefer hs hl' ho hm oi hn r r' u u' du' _ _ _ _ t t' huu hdu hdu' hu1 hu2 hbf k2 k4 h5 h7 with h10 | h10
            · left
              simp only [List.map_append, List.map_cons, h10, hS]
            · right
              rcases h10 with ⟨y, z, h11⟩ | ⟨c2, y, z, y', z', h11, h12, h13⟩
              · left
                exact ⟨y, z, by simp only [List.map_append, List.map_cons, h11, hS, List.append_assoc, List.cons_append]⟩
              · right
                refine ⟨c.map (image mm) ++ du' :: c2, y, z, y', z', ?_, ?_, ?_⟩
                · simp only [List.map_append, List.map_cons, h11, hiu', List.append_assoc, List.cons_append]
                · rw [← hS.symm.trans hiu']
                  simp only [List.map_append, List.map_cons, h12, List.append_assoc, List.cons_append]
                · have : endOf (c.map (image mm) ++ du' :: c2) = c2.getLast?.getD du' := by
                    unfold endOf
                    cases c2 with
                    | nil => simp
                    | cons y c2 => simp [List.getLast?_append, List.getLast?_cons]
                  rw [this]
                  exact h13
          · right
            right
            refine ⟨c.map (image mm), image mm u, r.map (image mm), image mm u', r'.map (image mm), by simp, by simp, ?_⟩
            rw [hend, hiv]
            have := earlier_images hm oi hbf hdv hdv (by rw [hu1, hu2]; exact hS)
            rwa [hu1, hu2] at this

end Verif.Optimizer
