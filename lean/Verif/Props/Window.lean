import Verif.Props.Decoders
/-!
# C36: decoding a hit and its context

Specification: `goodRun` is the number of characters (non-errors) at the end of a
list; `rawErrors` reports bytes as error values.
-/
namespace Verif.Decoders

open Verif.Utf Verif.Transforms

/-- Number of characters at the end of a list, after its last error. -/
def goodRun (l : List (Int × Nat)) : Nat :=
  (l.reverse.takeWhile (fun x => decide (0 ≤ x.1))).length

/-- The bytes from `p` to `q`, each as an error value. -/
def rawErrors (buf : List Nat) (p q : Nat) : List (Int × Nat) :=
  (tag p (slice buf p q)).map (fun x => (-x.1 - 1, x.2))

/-- Number of error values. -/
def errors (l : List (Int × Nat)) : Nat := (l.filter (fun x => decide (x.1 < 0))).length

theorem negs_eq_errors (l : List (Int × Nat)) : negs l = errors l := by
  unfold negs errors; rw [List.countP_eq_length_filter]

/-! ## Decodings -/

theorem decoded_bounds {c : Charset} {bs : List Nat} {off : Nat} {out : List (Int × Nat)}
    (h : Decoded c bs off out) :
    (∀ x ∈ out, off ≤ x.2 ∧ x.2 < off + bs.length) ∧ out.Pairwise (fun a b => a.2 < b.2) ∧
    out.length ≤ bs.length ∧ (bs ≠ [] → out ≠ []) := by
  induction h with
  | done => simp
  | @char cp enc rest off out h t ih =>
    have hl := (spec_length h).1
    simp only [List.length_append, List.mem_cons, List.length_cons, List.pairwise_cons]
    refine ⟨?_, ⟨?_, ih.2.1⟩, ?_, by simp⟩
    · rintro x (rfl | hx)
      · simp only; omega
      · have := ih.1 x hx; omega
    · intro x hx; have := ih.1 x hx; omega
    · have := ih.2.2.1; omega
  | @error b rest off out h t ih =>
    simp only [List.mem_cons, List.length_cons, List.pairwise_cons]
    refine ⟨?_, ⟨?_, ih.2.1⟩, ?_, by simp⟩
    · rintro x (rfl | hx)
      · simp only; omega
      · have := ih.1 x hx; omega
    · intro x hx; have := ih.1 x hx; omega
    · have := ih.2.2.1; omega

theorem decoded_value {c : Charset} {bs : List Nat} {off : Nat} {out : List (Int × Nat)}
    (h : Decoded c bs off out) (hb : Bytes bs) : ∀ x ∈ out, -256 ≤ x.1 := by
  induction h with
  | done => simp
  | @char cp enc rest off out h t ih =>
    rintro x hx
    rcases List.mem_cons.mp hx with rfl | hx
    · simp only; omega
    · exact ih (fun b hb' => hb b (by simp [hb'])) x hx
  | @error b rest off out h t ih =>
    rintro x hx
    rcases List.mem_cons.mp hx with rfl | hx
    · have := hb b (by simp); simp only; omega
    · exact ih (fun b hb' => hb b (by simp [hb'])) x hx

theorem decoded_suffix {c : Charset} {A : List (Int × Nat)} :
    ∀ {bs : List Nat} {off : Nat} {B : List (Int × Nat)}, Decoded c bs off (A ++ B) →
    ∃ n, A.length ≤ n ∧ n ≤ bs.length ∧ Decoded c (bs.drop n) (off + n) B := by
  induction A with
  | nil => intro bs off B h; exact ⟨0, by simp, by simp, by simpa using h⟩
  | cons a A ih =>
    intro bs off B h
    generalize ho : a :: A ++ B = o at h
    cases h with
    | done => simp at ho
    | @char cp enc rest _ out h t =>
      simp only [List.cons_append, List.cons.injEq] at ho
      obtain ⟨-, rfl⟩ := ho
      obtain ⟨n, h1, h2, h3⟩ := ih t
      have := (spec_length h).1
      refine ⟨enc.length + n, by simp; omega, by simp; omega, ?_⟩
      rw [← Nat.add_assoc]
      rw [List.drop_append, List.drop_of_length_le (by omega), List.nil_append]
      rw [show enc.length + n - enc.length = n by omega]
      exact h3
    | @error b rest _ out h t =>
      simp only [List.cons_append, List.cons.injEq] at ho
      obtain ⟨-, rfl⟩ := ho
      obtain ⟨n, h1, h2, h3⟩ := ih t
      refine ⟨n + 1, by simp; omega, by simp; omega, ?_⟩
      rw [show off + (n + 1) = off + 1 + n by omega]
      simpa using h3

/-! ## Reading -/

theorem produces_readAll {buf : List Nat} {s : Shape} {e : Nat} :
    ∀ (l : List (Int × Nat)) (n : Nat) (st : s.State), l.length < n → (∀ x ∈ l, x.1 ≠ END) →
      Produces buf s st l e → (readAll buf s n st).1 = l := by
  intro l
  induction l with
  | nil =>
    intro n st hn hl h
    cases n with
    | zero => simp at hn
    | succ n =>
      have := (produces_step.mp h).1
      simp only [readAll, this]
      simp
  | cons x l ih =>
    intro n st hn hl h
    cases n with
    | zero => simp at hn
    | succ n =>
      obtain ⟨h1, h2⟩ := produces_step.mp h
      simp only [List.getD_cons_zero] at h1
      have := ih n _ (by simpa using hn) (fun y hy => hl y (by simp [hy])) h2
      simp only [readAll, h1]
      rw [if_neg (hl x (by simp))]
      simp only [this]

theorem produces_hitLoop {buf : List Nat} {s : Shape} {e hend : Nat} (he : hend ≤ e) :
    ∀ (l : List (Int × Nat)) (n : Nat) (st : s.State),
      (l.filter (fun x => decide (x.2 < hend))).length ≤ n →
      l.Pairwise (fun a b => a.2 < b.2) → Produces buf s st l e →
      ∃ hit rest, l = hit ++ rest ∧ (∀ x ∈ hit, x.2 < hend) ∧ (∀ x ∈ rest, hend ≤ x.2) ∧
        (hitLoop buf s hend n st).1 = hit ∧
        (hitLoop buf s hend n st).2.1 = rest.getD 0 (END, e) ∧
        Produces buf s (hitLoop buf s hend n st).2.2 (rest.drop 1) e := by
  intro l
  induction l with
  | nil =>
    intro n st hn hp h
    obtain ⟨h1, h2⟩ := produces_step.mp h
    refine ⟨[], [], rfl, by simp, by simp, ?_⟩
    cases n with
    | zero => exact ⟨rfl, h1, h2⟩
    | succ n =>
      simp only [hitLoop, h1]
      rw [if_neg (by simpa using he)]
      exact ⟨rfl, rfl, h2⟩
  | cons x l ih =>
    intro n st hn hp h
    obtain ⟨h1, h2⟩ := produces_step.mp h
    simp only [List.getD_cons_zero] at h1
    obtain ⟨hx, hp'⟩ := List.pairwise_cons.mp hp
    by_cases hlt : x.2 < hend
    · have hn' : (l.filter (fun x => decide (x.2 < hend))).length + 1 ≤ n := by
        rw [List.filter_cons_of_pos (by simpa using hlt)] at hn; simpa using hn
      cases n with
      | zero => omega
      | succ n =>
        obtain ⟨hit, rest, e1, e2, e3, e4, e5, e6⟩ := ih n _ (by omega) hp' h2
        refine ⟨x :: hit, rest, by rw [e1]; rfl, ?_, e3, ?_⟩
        · intro y hy
          rcases List.mem_cons.mp hy with rfl | hy
          · exact hlt
          · exact e2 y hy
        · simp only [hitLoop, h1]
          rw [if_pos hlt]
          exact ⟨by rw [e4], e5, e6⟩
    · refine ⟨[], x :: l, rfl, by simp, ?_, ?_⟩
      · intro y hy
        rcases List.mem_cons.mp hy with rfl | hy
        · omega
        · have := hx y hy; omega
      · cases n with
        | zero => exact ⟨rfl, h1, h2⟩
        | succ n =>
          simp only [hitLoop, h1]
          rw [if_neg hlt]
          exact ⟨rfl, rfl, h2⟩

theorem produces_trailLoop {buf : List Nat} {s : Shape} {e : Nat} :
    ∀ (n : Nat) (l : List (Int × Nat)) (st : s.State), (∀ x ∈ l, x.1 ≠ END) →
      Produces buf s st (l.drop 1) e →
      (trailLoop buf s n (l.getD 0 (END, e)) st).1 = l.take (n + 1) ∧
      (trailLoop buf s n (l.getD 0 (END, e)) st).2 = l.getD (min (n + 1) l.length) (END, e) := by
  intro n
  induction n with
  | zero =>
    intro l st hl h
    cases l with
    | nil => unfold trailLoop; simp
    | cons x l =>
      have h1 := (produces_step.mp h).1
      unfold trailLoop
      simp only [List.getD_cons_zero]
      rw [if_neg (hl x (by simp))]
      simp only [h1]
      simp
  | succ n ih =>
    intro l st hl h
    cases l with
    | nil => unfold trailLoop; simp
    | cons x l =>
      obtain ⟨h1, h2⟩ := produces_step.mp h
      simp only [List.drop_succ_cons, List.drop_zero] at h1 h2
      have := ih l _ (fun y hy => hl y (by simp [hy])) h2
      unfold trailLoop
      simp only [List.getD_cons_zero]
      rw [if_neg (hl x (by simp))]
      simp only [h1]
      rw [this.1, this.2]
      simp

/-! ## Leading context -/

theorem padLeft_eq (buf : List Nat) (leading : Nat) : ∀ (l : Nat) (ctx : List (Int × Nat)),
    l ≤ buf.length →
    padLeft buf leading l ctx = rawErrors buf (l - (leading - ctx.length)) l ++ ctx := by
  intro l
  induction l with
  | zero => intro ctx _; simp [padLeft, rawErrors, slice, tag]
  | succ l ih =>
    intro ctx hl
    unfold padLeft
    by_cases h : ctx.length < leading
    · rw [if_pos h, ih _ (by omega)]
      have e : ∀ p, p ≤ l → rawErrors buf p (l + 1) =
          rawErrors buf p l ++ [(-((buf.getD l 0 : Nat) : Int) - 1, l)] := by
        intro p hp
        have e1 : slice buf p (l + 1) = slice buf p l ++ [buf.getD l 0] := by
          unfold slice
          have hlt : l - p < (buf.drop p).length := by rw [List.length_drop]; omega
          rw [show l + 1 - p = (l - p) + 1 by omega, List.take_succ_eq_append_getElem hlt]
          rw [List.getElem_drop]
          have : buf.getD l 0 = buf[l] := by simp [List.getElem?_eq_getElem (show l < buf.length by omega)]
          rw [this]
          have e2 : p + (l - p) = l := by omega
          simp only [e2]
        have ht : ∀ (xs : List Nat) (off y : Nat), tag off (xs ++ [y]) = tag off xs ++ [((y : Int), off + xs.length)] := by
          intro xs
          induction xs with
          | nil => intro off y; simp [tag]
          | cons a xs ih => intro off y; simp [tag, ih]; omega
        unfold rawErrors
        rw [e1, ht, List.map_append]
        have : p + (slice buf p l).length = l := by
          unfold slice; rw [List.length_take, List.length_drop]; omega
        rw [this]; rfl
      rw [e _ (by omega)]
      simp only [List.length_cons, List.append_assoc, List.singleton_append]
      rw [show l - (leading - (ctx.length + 1)) = l + 1 - (leading - ctx.length) by omega]
    · rw [if_neg h, show leading - ctx.length = 0 by omega]
      simp [rawErrors, slice, tag]

theorem rawErrors_neg {buf : List Nat} {p q : Nat} : ∀ x ∈ rawErrors buf p q, x.1 < 0 := by
  intro x hx
  obtain ⟨y, hy, rfl⟩ := List.mem_map.mp hx
  have : ∀ (l : List Nat) off, ∀ y ∈ tag off l, 0 ≤ y.1 := by
    intro l
    induction l with
    | nil => simp [tag]
    | cons a l ih =>
      intro off y hy
      rcases List.mem_cons.mp hy with rfl | hy
      · simp
      · exact ih _ y hy
  have := this _ _ y hy
  simp only; omega

theorem goodRun_append_neg {A B : List (Int × Nat)} (h : ∀ x ∈ A, x.1 < 0) :
    goodRun (A ++ B) = goodRun B := by
  unfold goodRun
  rw [List.reverse_append]
  have hA : ∀ (p : Int × Nat → Bool) (l r : List (Int × Nat)), (∀ x ∈ r, p x = false) →
      (l ++ r).takeWhile p = l.takeWhile p := by
    intro p l r hr
    induction l with
    | nil => cases r with
      | nil => rfl
      | cons a r => simp [hr a (by simp)]
    | cons a l ih => simp only [List.cons_append, List.takeWhile_cons, ih]
  rw [hA]
  intro x hx
  have := h x (by simpa using hx)
  simpa using this

theorem goodRun_neg_cons {A B : List (Int × Nat)} {x : Int × Nat} (h : x.1 < 0) :
    goodRun (A ++ x :: B) = goodRun B := by
  unfold goodRun
  rw [List.reverse_append, List.reverse_cons]
  have hA : ∀ (p : Int × Nat → Bool) (l r : List (Int × Nat)) (x), p x = false →
      (l ++ [x] ++ r).takeWhile p = l.takeWhile p := by
    intro p l r x hr
    induction l with
    | nil => simp [hr]
    | cons a l ih =>
      simp only [List.cons_append, List.takeWhile_cons]
      rw [ih]
  rw [hA]
  simpa using h

/-- What a decoder delivers on each range, abstractly. -/
structure Reads (buf : List Nat) (s : Shape) (D : Nat → Nat → List (Int × Nat)) : Prop where
  produces : ∀ p q, p ≤ q → q ≤ buf.length → ∀ st, Produces buf s (s.reset st p q) (D p q) q
  bounds : ∀ p q, p ≤ q → q ≤ buf.length → ∀ x ∈ D p q, p ≤ x.2 ∧ x.2 < q
  sorted : ∀ p q, p ≤ q → q ≤ buf.length → (D p q).Pairwise (fun a b => a.2 < b.2)
  length : ∀ p q, p ≤ q → q ≤ buf.length → (D p q).length ≤ q - p
  value : ∀ p q, p ≤ q → q ≤ buf.length → ∀ x ∈ D p q, x.1 ≠ END
  suffix : ∀ p q, p ≤ q → q ≤ buf.length → ∀ A x B, D p q = A ++ x :: B → B ≠ [] →
    ∃ p', p < p' ∧ p' < q ∧ D p' q = B

/-- The candidate for the leading context starting at `l`. -/
def cand (buf : List Nat) (D : Nat → Nat → List (Int × Nat)) (leading hbeg l : Nat) :
    List (Int × Nat) :=
  rawErrors buf (l - (leading - (D l hbeg).length)) l ++ D l hbeg

/-- `b` is at least as good as the candidate `x`. -/
def NotWorse (x : List (Int × Nat)) (b : Best) : Prop :=
  goodRun x < b.adj ∨ (goodRun x = b.adj ∧ U32 - 1 - errors x ≤ b.inv)

/-- `b` is the record of candidate `x`. -/
def IsBest (leading : Nat) (x : List (Int × Nat)) (b : Best) : Prop :=
  b = ⟨goodRun x, U32 - 1 - errors x, x.drop (x.length - leading)⟩

theorem leadStep_spec {buf : List Nat} {s : Shape} {D} (R : Reads buf s D) {leading hbeg l : Nat}
    (hl : l < hbeg) (hh : hbeg ≤ buf.length) (b : Best) (st : s.State) :
    (IsBest leading (cand buf D leading hbeg l) (leadStep buf s leading hbeg l b st).1 ∧
        (b.adj < goodRun (cand buf D leading hbeg l) ∨ (b.adj = goodRun (cand buf D leading hbeg l) ∧
          b.inv ≤ U32 - 1 - errors (cand buf D leading hbeg l)))) ∨
      ((leadStep buf s leading hbeg l b st).1 = b ∧
        ¬ (b.adj < goodRun (cand buf D leading hbeg l) ∨
          (b.adj = goodRun (cand buf D leading hbeg l) ∧
            b.inv ≤ U32 - 1 - errors (cand buf D leading hbeg l)))) := by
  have hr : (readAll buf s (hbeg - l + 1) (s.reset st l hbeg)).1 = D l hbeg :=
    produces_readAll _ _ _ (by have := R.length l hbeg (by omega) hh; omega)
      (R.value l hbeg (by omega) hh) (R.produces l hbeg (by omega) hh st)
  have hc : padLeft buf leading l (readAll buf s (hbeg - l + 1) (s.reset st l hbeg)).1 =
      cand buf D leading hbeg l := by
    rw [hr, padLeft_eq _ _ _ _ (by omega)]; rfl
  unfold leadStep
  simp only [hc]
  rw [negs_eq_errors]
  rw [show adjGood = goodRun from rfl]
  by_cases h : b.adj < goodRun (cand buf D leading hbeg l) ∨
      (b.adj = goodRun (cand buf D leading hbeg l) ∧
        b.inv ≤ U32 - 1 - errors (cand buf D leading hbeg l))
  · rw [if_pos h]; exact .inl ⟨rfl, h⟩
  · rw [if_neg h]
    exact .inr ⟨rfl, h⟩

theorem leadLoop_spec {buf : List Nat} {s : Shape} {D} (R : Reads buf s D) {leading hbeg : Nat}
    (hh : hbeg ≤ buf.length) (st : s.State) :
    ∀ k, k ≤ hbeg →
      (k = 0 ∧ (leadLoop buf s leading hbeg k (⟨0, 0, []⟩, st)).1 = ⟨0, 0, []⟩) ∨
      (∃ j, 1 ≤ j ∧ j ≤ k ∧ IsBest leading (cand buf D leading hbeg (hbeg - j))
          (leadLoop buf s leading hbeg k (⟨0, 0, []⟩, st)).1 ∧
        ∀ i, 1 ≤ i → i ≤ k → NotWorse (cand buf D leading hbeg (hbeg - i))
          (leadLoop buf s leading hbeg k (⟨0, 0, []⟩, st)).1) := by
  intro k
  induction k with
  | zero => intro _; exact .inl ⟨rfl, rfl⟩
  | succ k ih =>
    intro hk
    right
    obtain ⟨r, hr⟩ : ∃ r, r = leadLoop buf s leading hbeg k (⟨0, 0, []⟩, st) := ⟨_, rfl⟩
    have hstep : (leadLoop buf s leading hbeg (k + 1) (⟨0, 0, []⟩, st)) =
        leadStep buf s leading hbeg (hbeg - (k + 1)) r.1 r.2 := by rw [hr]; rfl
    rw [← hr] at ih
    rw [hstep]
    have sp := leadStep_spec R (leading := leading) (l := hbeg - (k + 1)) (hbeg := hbeg) (by omega) hh
      r.1 r.2
    rcases sp with ⟨h1, h2⟩ | ⟨h1, h2⟩
    · refine ⟨k + 1, by omega, by omega, h1, fun i hi hik => ?_⟩
      rcases Nat.lt_or_ge k i with hlt | hle
      · have : i = k + 1 := by omega
        subst this
        rw [h1]; exact .inr ⟨rfl, Nat.le_refl _⟩
      · rcases ih (by omega) with ⟨h0, -⟩ | ⟨j, -, -, -, hall⟩
        · omega
        · have := hall i hi hle
          rw [h1]
          unfold NotWorse at this ⊢
          simp only
          omega
    · rcases ih (by omega) with ⟨h0, hb⟩ | ⟨j, hj1, hj2, hj3, hall⟩
      · subst h0
        rw [hb] at h1 h2
        exfalso; apply h2; simp only; omega
      · refine ⟨j, hj1, by omega, by rw [h1]; exact hj3, fun i hi hik => ?_⟩
        rcases Nat.lt_or_ge k i with hlt | hle
        · have : i = k + 1 := by omega
          subst this
          rw [h1]; unfold NotWorse; omega
        · rw [h1]; exact hall i hi hle

theorem errors_append (A B : List (Int × Nat)) : errors (A ++ B) = errors A + errors B := by
  simp [errors]

theorem errors_le (l : List (Int × Nat)) : errors l ≤ l.length := List.length_filter_le _ _

/-- The best leading context has no errors outside the part that is kept. -/
theorem best_errors {buf : List Nat} {s : Shape} {D} (R : Reads buf s D) {leading hbeg j k : Nat}
    (hh : hbeg ≤ buf.length) (hU : buf.length < U32) (hl : 1 ≤ leading) (hj : 1 ≤ j) (hjk : j ≤ k)
    (hk : k ≤ hbeg) {b : Best} (hb : IsBest leading (cand buf D leading hbeg (hbeg - j)) b)
    (hall : ∀ i, 1 ≤ i → i ≤ k → NotWorse (cand buf D leading hbeg (hbeg - i)) b) :
    errors b.cps = errors (cand buf D leading hbeg (hbeg - j)) := by
  obtain ⟨x, hx⟩ : ∃ x, x = cand buf D leading hbeg (hbeg - j) := ⟨_, rfl⟩
  rw [← hx] at hb ⊢
  have hsplit := List.take_append_drop (x.length - leading) x
  have hcps : b.cps = x.drop (x.length - leading) := by rw [hb]
  by_cases h0 : errors (x.take (x.length - leading)) = 0
  · rw [hcps]
    conv => rhs; rw [← hsplit, errors_append, h0]
    omega
  · exfalso
    have hlong : leading < x.length := by
      by_cases h : leading < x.length
      · exact h
      · rw [show x.length - leading = 0 by omega] at h0
        exact absurd rfl h0
    -- a longer candidate is not padded
    have hD : x = D (hbeg - j) hbeg := by
      have hpad : hbeg - j - (leading - (D (hbeg - j) hbeg).length) = hbeg - j ∨
          x.length ≤ leading := by
        by_cases h : (D (hbeg - j) hbeg).length < leading
        · right
          rw [hx]; unfold cand rawErrors slice
          rw [List.length_append, List.length_map, tag_length, List.length_take]
          omega
        · left; omega
      rcases hpad with h | h
      · rw [hx]; unfold cand; rw [h]
        simp [rawErrors, slice, tag]
      · omega
    -- an error in the part cut off
    obtain ⟨y, hy, hneg⟩ : ∃ y ∈ x.take (x.length - leading), y.1 < 0 := by
      unfold errors at h0
      obtain ⟨y, hy⟩ := List.exists_mem_of_length_pos (Nat.pos_of_ne_zero h0)
      exact ⟨y, (List.mem_filter.mp hy).1, by simpa using (List.mem_filter.mp hy).2⟩
    obtain ⟨A, B, hAB⟩ := List.append_of_mem hy
    obtain ⟨B', hB'⟩ : ∃ B', B' = B ++ x.drop (x.length - leading) := ⟨_, rfl⟩
    have hxe : x = A ++ y :: B' := by
      rw [hB', ← List.cons_append, ← List.append_assoc, ← hAB, hsplit]
    have hBl : leading ≤ B'.length := by
      rw [hB', List.length_append, List.length_drop]; omega
    obtain ⟨p', hp1, hp2, hp3⟩ := R.suffix (hbeg - j) hbeg (by omega) hh A y B' (by rw [← hD, hxe])
      (by intro h; rw [h] at hBl; simp at hBl; omega)
    have hc' : cand buf D leading hbeg p' = B' := by
      unfold cand
      rw [hp3, show leading - B'.length = 0 by omega]
      simp [rawErrors, slice, tag]
    have hnw := hall (hbeg - p') (by omega) (by omega)
    rw [show hbeg - (hbeg - p') = p' by omega, hc'] at hnw
    have hg : goodRun x = goodRun B' := by rw [hxe]; exact goodRun_neg_cons hneg
    have he : errors B' < errors x := by
      rw [hxe, errors_append]
      have : errors (y :: B') = errors B' + 1 := by
        unfold errors
        rw [List.filter_cons_of_pos (by simpa using hneg)]; rfl
      omega
    have hxl : x.length ≤ buf.length := by
      have := R.length (hbeg - j) hbeg (by omega) hh
      rw [← hD] at this; omega
    have := errors_le x
    unfold NotWorse at hnw
    rw [hb] at hnw
    simp only at hnw
    omega

theorem cand_nil {buf : List Nat} {s : Shape} {D} (R : Reads buf s D) {hbeg : Nat}
    (hh : hbeg ≤ buf.length) : D hbeg hbeg = [] :=
  List.eq_nil_of_length_eq_zero (by have := R.length hbeg hbeg (by omega) hh; omega)

/-- The window, for any decoder. -/
theorem window_spec {buf : List Nat} {s : Shape} {D} (R : Reads buf s D) (st : s.State)
    (hbeg hend leading trailing : Nat) (h1 : hbeg ≤ hend) (h2 : hend ≤ buf.length)
    (hm : 1 ≤ s.maxLen) :
    let w := window buf s st hbeg hend leading trailing
    let lim := min (hend + trailing * s.maxLen) buf.length
    ∃ l pre hit post rest, w.cps = pre ++ hit ++ post ++ [(END, (rest.head?.map (·.2)).getD lim)] ∧
      w.hitBegin = pre.length ∧ w.hitEnd = pre.length + hit.length ∧
      D hbeg lim = hit ++ post ++ rest ∧
      (∀ x ∈ hit, x.2 < hend) ∧ (∀ x ∈ post ++ rest, hend ≤ x.2) ∧
      post.length = min trailing (post ++ rest).length ∧
      l ≤ hbeg ∧ pre <:+ cand buf D leading hbeg l ∧
      pre.length = min leading (cand buf D leading hbeg l).length ∧
      (∀ l', l' < hbeg → hbeg - l' ≤ leading * s.maxLen →
        goodRun (cand buf D leading hbeg l') ≤ goodRun (cand buf D leading hbeg l)) ∧
      (buf.length < U32 →
        ((0 < hbeg ∧ 0 < leading) → w.bad = errors (pre ++ hit ++ post) % U32) ∧
        ((hbeg = 0 ∨ leading = 0) → pre = [] ∧
          w.bad = (errors (hit ++ post) + (U32 - 1)) % U32)) := by
  intro w lim
  have hlim : hend ≤ lim := Nat.le_min.mpr ⟨by omega, h2⟩
  have hlimb : lim ≤ buf.length := Nat.min_le_right _ _
  obtain ⟨k, hk⟩ : ∃ k, k = min hbeg (leading * s.maxLen) := ⟨_, rfl⟩
  obtain ⟨r, hr⟩ : ∃ r, r = leadLoop buf s leading hbeg k (⟨0, 0, []⟩, st) := ⟨_, rfl⟩
  have hP := R.produces hbeg lim (by omega) hlimb r.2
  obtain ⟨hit, more, e1, e2, e3, e4, e5, e6⟩ := produces_hitLoop hlim _ (buf.length - hbeg) _
    (Nat.le_trans (List.length_filter_le _ _)
      (Nat.le_trans (R.length hbeg lim (by omega) hlimb) (by omega)))
    (R.sorted hbeg lim (by omega) hlimb) hP
  have hmoreE : ∀ x ∈ more, x.1 ≠ END := fun x hx =>
    R.value hbeg lim (by omega) hlimb x (by rw [e1]; simp [hx])
  obtain ⟨t1, t2⟩ := produces_trailLoop (trailing - 1) more _ hmoreE e6
  rw [← e5] at t1 t2
  have hmore0 : trailing = 0 → more = [] := by
    intro h0
    cases more with
    | nil => rfl
    | cons x xs =>
      have a := e3 x (by simp)
      have b := (R.bounds hbeg lim (by omega) hlimb x (by rw [e1]; simp)).2
      have : lim = hend := by show min _ _ = _; rw [h0]; omega
      omega
  have htake : more.take (trailing - 1 + 1) = more.take trailing := by
    by_cases h0 : trailing = 0
    · rw [hmore0 h0]; simp
    · rw [show trailing - 1 + 1 = trailing by omega]
  have hw : w = Window.mk (r.1.cps ++ hit ++ more.take trailing ++
        [(END, ((more.drop trailing).head?.map (·.2)).getD lim)])
      r.1.cps.length (r.1.cps.length + hit.length)
      (((U32 - 1 - r.1.inv) + negs hit + negs (more.take trailing)) % U32) := by
    show window buf s st hbeg hend leading trailing = _
    unfold window
    simp only [← hk, ← hr]
    change Window.mk (r.1.cps ++ (hitLoop buf s hend (buf.length - hbeg) (s.reset r.2 hbeg lim)).1 ++
        (trailLoop buf s (trailing - 1) (hitLoop buf s hend (buf.length - hbeg) (s.reset r.2 hbeg lim)).2.1
          (hitLoop buf s hend (buf.length - hbeg) (s.reset r.2 hbeg lim)).2.2).1 ++
        [(END, (trailLoop buf s (trailing - 1) (hitLoop buf s hend (buf.length - hbeg) (s.reset r.2 hbeg lim)).2.1
          (hitLoop buf s hend (buf.length - hbeg) (s.reset r.2 hbeg lim)).2.2).2.2)])
        r.1.cps.length
        (r.1.cps.length + (hitLoop buf s hend (buf.length - hbeg) (s.reset r.2 hbeg lim)).1.length)
        ((U32 - 1 - r.1.inv + negs (hitLoop buf s hend (buf.length - hbeg) (s.reset r.2 hbeg lim)).1 +
          negs (trailLoop buf s (trailing - 1) (hitLoop buf s hend (buf.length - hbeg) (s.reset r.2 hbeg lim)).2.1
          (hitLoop buf s hend (buf.length - hbeg) (s.reset r.2 hbeg lim)).2.2).1) % U32) = _
    rw [t1, t2, e4, htake]
    congr 3
    · have : (more.getD (min (trailing - 1 + 1) more.length) (END, lim)).2 =
          ((more.drop trailing).head?.map (·.2)).getD lim := by
        rw [List.head?_drop, List.getD_eq_getElem?_getD]
        by_cases h0 : trailing = 0
        · rw [hmore0 h0]; simp
        · by_cases hle : trailing ≤ more.length
          · rw [show min (trailing - 1 + 1) more.length = trailing by omega]
            cases more[trailing]? <;> rfl
          · rw [show min (trailing - 1 + 1) more.length = more.length by omega]
            rw [List.getElem?_eq_none (Nat.le_refl _), List.getElem?_eq_none (by omega)]
            rfl
      rw [this]
  have hpost : (more.take trailing).length = min trailing (more.take trailing ++ more.drop trailing).length := by
    rw [List.take_append_drop, List.length_take]
  have hDD : D hbeg lim = hit ++ more.take trailing ++ more.drop trailing := by
    rw [List.append_assoc, List.take_append_drop]; exact e1
  have hrest : ∀ x ∈ more.take trailing ++ more.drop trailing, hend ≤ x.2 := by
    rw [List.take_append_drop]; exact e3
  rcases leadLoop_spec R (leading := leading) (by omega : hbeg ≤ buf.length) st k
      (by rw [hk]; exact Nat.min_le_left _ _) with ⟨hk0, hb⟩ | ⟨j, hj1, hjk, hbest, hall⟩
  · rw [← hr] at hb
    have hz : hbeg = 0 ∨ leading = 0 := by
      rcases Nat.eq_zero_or_pos hbeg with h | h
      · exact .inl h
      · rcases Nat.eq_zero_or_pos leading with h' | h'
        · exact .inr h'
        · have : 0 < leading * s.maxLen := Nat.mul_pos h' (by omega)
          omega
    have hcn : cand buf D leading hbeg hbeg = rawErrors buf (hbeg - leading) hbeg := by
      unfold cand; rw [cand_nil R (by omega)]; simp
    have hcn' : cand buf D leading hbeg hbeg = [] := by
      rw [hcn]
      have : hbeg - leading = hbeg := by omega
      rw [this]; simp [rawErrors, slice, tag]
    refine ⟨hbeg, [], hit, more.take trailing, more.drop trailing, ?_, ?_, ?_, hDD, e2, hrest, hpost,
      Nat.le_refl _, List.nil_suffix, ?_, ?_, ?_⟩
    · rw [hw, hb]
    · rw [hw, hb]
    · rw [hw, hb]
    · rw [hcn']; simp
    · intro l' hl' hr'
      exfalso
      rcases hz with h | h
      · omega
      · rw [h] at hr'; simp at hr'; omega
    · intro _
      refine ⟨fun h => by omega, fun _ => ⟨rfl, ?_⟩⟩
      rw [hw, hb, errors_append, negs_eq_errors, negs_eq_errors]
      simp only
      congr 1; omega
  · rw [← hr] at hbest hall
    have hkl : k ≤ hbeg := by omega
    have hpos : 0 < hbeg ∧ 0 < leading := by
      refine ⟨by omega, Nat.pos_of_ne_zero fun h => ?_⟩
      rw [h] at hk; simp at hk; omega
    refine ⟨hbeg - j, r.1.cps, hit, more.take trailing, more.drop trailing, ?_, ?_, ?_, hDD, e2, hrest,
      hpost, by omega, ?_, ?_, ?_, ?_⟩
    · rw [hw]
    · rw [hw]
    · rw [hw]
    · rw [hbest]; exact List.drop_suffix _ _
    · rw [hbest]; simp only [List.length_drop]; omega
    · intro l' hl' hr'
      have := hall (hbeg - l') (by omega) (by omega)
      rw [show hbeg - (hbeg - l') = l' by omega] at this
      unfold NotWorse at this
      rw [hbest] at this
      simp only at this
      omega
    · intro hU
      refine ⟨fun _ => ?_, fun h => by omega⟩
      have hbe := best_errors R (by omega : hbeg ≤ buf.length) hU hpos.2 hj1 hjk hkl hbest hall
      have hinv : U32 - 1 - r.1.inv = errors r.1.cps := by
        rw [hbe]
        have hx : errors (cand buf D leading hbeg (hbeg - j)) ≤ U32 - 1 := by
          have a := errors_le (cand buf D leading hbeg (hbeg - j))
          have b := R.length (hbeg - j) hbeg (by omega) (by omega)
          have c : (cand buf D leading hbeg (hbeg - j)).length ≤ hbeg := by
            unfold cand rawErrors slice
            rw [List.length_append, List.length_map, tag_length, List.length_take]
            omega
          omega
        have : r.1.inv = U32 - 1 - errors (cand buf D leading hbeg (hbeg - j)) := by rw [hbest]
        omega
      rw [hw, errors_append, errors_append, negs_eq_errors, negs_eq_errors]
      simp only
      rw [hinv]

theorem reads_chain (c : Charset) (ts : List ByteT) (ht : ∀ t ∈ ts, t.Valid) (buf : List Nat)
    (hb : Bytes buf) :
    ∃ D, Reads buf (chain [] c ts) D ∧ ∀ p q, p ≤ q → q ≤ buf.length →
      Decoded c ((slice buf p q).map (undoAll ts)) p (D p q) := by
  have hB : ∀ p q, Bytes ((slice buf p q).map (undoAll ts)) := by
    intro p q x hx
    obtain ⟨b, hb', rfl⟩ := List.mem_map.mp hx
    exact undoAll_lt ht (hb b (List.mem_of_mem_drop (List.mem_of_mem_take hb')))
  have ex : ∀ p q, ∃ out, p ≤ q → q ≤ buf.length →
      Decoded c ((slice buf p q).map (undoAll ts)) p out := by
    intro p q
    by_cases h : p ≤ q ∧ q ≤ buf.length
    · obtain ⟨o, ho, -⟩ := decoder_stream [] c ts ht buf hb p q h.1 h.2 (Shape.init _)
      exact ⟨o, fun _ _ => ho⟩
    · exact ⟨[], fun h1 h2 => absurd ⟨h1, h2⟩ h⟩
  have ⟨D, hD⟩ : ∃ D : Nat → Nat → List (Int × Nat), ∀ p q, p ≤ q → q ≤ buf.length →
      Decoded c ((slice buf p q).map (undoAll ts)) p (D p q) :=
    ⟨fun p q => (ex p q).choose, fun p q => (ex p q).choose_spec⟩
  have hlen : ∀ p q, p ≤ q → q ≤ buf.length →
      ((slice buf p q).map (undoAll ts)).length = q - p := by
    intro p q h1 h2
    unfold slice
    rw [List.length_map, List.length_take, List.length_drop]; omega
  refine ⟨D, ⟨?_, ?_, ?_, ?_, ?_, ?_⟩, hD⟩
  · intro p q h1 h2 st n
    obtain ⟨o, ho, hs⟩ := decoder_stream [] c ts ht buf hb p q h1 h2 st
    have := decoded_unique ho (hD p q h1 h2) (hB p q)
    rw [hs n, this]
    simp [unrotAll]
  · intro p q h1 h2 x hx
    have := (decoded_bounds (hD p q h1 h2)).1 x hx
    rw [hlen p q h1 h2] at this; omega
  · intro p q h1 h2
    exact (decoded_bounds (hD p q h1 h2)).2.1
  · intro p q h1 h2
    have := (decoded_bounds (hD p q h1 h2)).2.2.1
    rwa [hlen p q h1 h2] at this
  · intro p q h1 h2 x hx
    have := decoded_value (hD p q h1 h2) (hB p q) x hx
    unfold END; omega
  · intro p q h1 h2 A x B hAB hne
    have hd := hD p q h1 h2
    rw [hAB, show A ++ x :: B = (A ++ [x]) ++ B by simp] at hd
    obtain ⟨n, hn1, hn2, hn3⟩ := decoded_suffix hd
    rw [hlen p q h1 h2] at hn2
    simp only [List.length_append, List.length_singleton] at hn1
    have hdrop : ((slice buf p q).map (undoAll ts)).drop n = (slice buf (p + n) q).map (undoAll ts) := by
      rw [← List.map_drop]
      congr 1
      unfold slice
      rw [List.drop_take, List.drop_drop]
      congr 1; omega
    rw [hdrop] at hn3
    refine ⟨p + n, by omega, ?_, decoded_unique (hD _ _ (by omega) h2) hn3 (hB _ _)⟩
    rcases Nat.lt_or_ge (p + n) q with h | h
    · exact h
    · exfalso
      have : slice buf (p + n) q = [] := by
        unfold slice; rw [show q - (p + n) = 0 by omega]; simp
      rw [this] at hn3
      have := (decoded_bounds hn3).2.2.1
      simp at this
      exact hne this

theorem maxLen_pos (c : Charset) (ts : List ByteT) : 1 ≤ (chain [] c ts).maxLen := by
  have h : ∀ ts : List ByteT, (byteChain ts).maxLen = 1 := by
    intro ts
    induction ts with
    | nil => rfl
    | cons t ts ih => cases t <;> exact ih
  have : (chain [] c ts).maxLen = (charsetDecoder c (byteChain ts)).maxLen := rfl
  rw [this]
  cases c <;> simp only [charsetDecoder, Shape.maxLen, h] <;> omega

/-- **C36** `lg_read_window` (for the character sets lightgrep decodes itself, any
byte transforms).  Let `ctx` be the decoding of some range ending where the hit
begins.  The result is: context before the hit, the hit, context after it, and END.

* The hit and what follows are the decoding of the data from the hit's first byte,
  up to the data the trailing context may use; the reported hit range covers
  exactly the entries that start inside the hit.
* There are at most `trailing` entries after the hit, and fewer only if the decoding
  ends; at most `leading` before it, the last ones of `ctx` after padding with
  undecoded bytes, and fewer only if the data ends.
* No other starting position for the leading context gives more good characters
  directly before the hit.

`_partial`: the property also says the return value is the number of entries that
are not characters.  That is the content of `window_bad_count_partial` and is
refuted by `window_bad_count_wrong`. -/
theorem window_decodes_partial (c : Charset) (ts : List ByteT) (ht : ∀ t ∈ ts, t.Valid)
    (buf : List Nat) (hb : Bytes buf) (st : (chain [] c ts).State)
    (hbeg hend leading trailing : Nat) (h1 : hbeg ≤ hend) (h2 : hend ≤ buf.length) :
    let text := fun p q => (slice buf p q).map (undoAll ts)
    let lim := min (hend + trailing * (chain [] c ts).maxLen) buf.length
    let w := window buf (chain [] c ts) st hbeg hend leading trailing
    ∃ l ctx pad pre hit post rest,
      w.cps = pre ++ hit ++ post ++ [(END, (rest.head?.map (·.2)).getD lim)] ∧
      w.hitBegin = pre.length ∧ w.hitEnd = pre.length + hit.length ∧
      Decoded c (text hbeg lim) hbeg (hit ++ post ++ rest) ∧
      (∀ x ∈ hit, x.2 < hend) ∧ (∀ x ∈ post ++ rest, hend ≤ x.2) ∧
      post.length = min trailing (post ++ rest).length ∧
      l ≤ hbeg ∧ Decoded c (text l hbeg) l ctx ∧
      pad = rawErrors buf (l - (leading - ctx.length)) l ∧
      pre <:+ pad ++ ctx ∧ pre.length = min leading (pad ++ ctx).length ∧
      (∀ l' ctx', l' < hbeg → hbeg - l' ≤ leading * (chain [] c ts).maxLen →
        Decoded c (text l' hbeg) l' ctx' → goodRun ctx' ≤ goodRun ctx) := by
  intro text lim w
  obtain ⟨D, R, hD⟩ := reads_chain c ts ht buf hb
  have hB : ∀ p q, Bytes ((slice buf p q).map (undoAll ts)) := by
    intro p q x hx
    obtain ⟨b, hb', rfl⟩ := List.mem_map.mp hx
    exact undoAll_lt ht (hb b (List.mem_of_mem_drop (List.mem_of_mem_take hb')))
  obtain ⟨l, pre, hit, post, rest, a1, a2, a3, a4, a5, a6, a7, a8, a9, a10, a11, -⟩ :=
    window_spec R st hbeg hend leading trailing h1 h2 (maxLen_pos c ts)
  have hlim1 : hbeg ≤ min (hend + trailing * (chain [] c ts).maxLen) buf.length := by
    have : hend ≤ min (hend + trailing * (chain [] c ts).maxLen) buf.length :=
      Nat.le_min.mpr ⟨by omega, h2⟩
    omega
  refine ⟨l, D l hbeg, _, pre, hit, post, rest, a1, a2, a3, ?_, a5, a6, a7, a8,
    hD l hbeg a8 (by omega), rfl, a9, a10, ?_⟩
  · rw [← a4]; exact hD _ _ hlim1 (Nat.min_le_right _ _)
  · intro l' ctx' hl' hr hd
    have e := decoded_unique hd (hD l' hbeg (by omega) (by omega)) (hB _ _)
    have := a11 l' hl' hr
    unfold cand at this
    rw [goodRun_append_neg rawErrors_neg, goodRun_append_neg rawErrors_neg] at this
    rw [e]; exact this

/-- **C36, return value (partial).** When leading context is requested and the hit
does not begin at the start of the buffer, the return value is the number of
entries that are not characters (END not counted). -/
theorem window_bad_count_partial (c : Charset) (ts : List ByteT) (ht : ∀ t ∈ ts, t.Valid)
    (buf : List Nat) (hb : Bytes buf) (hU : buf.length < 2 ^ 32) (st : (chain [] c ts).State)
    (hbeg hend leading trailing : Nat) (h1 : hbeg ≤ hend) (h2 : hend ≤ buf.length)
    (h0 : 0 < hbeg) (hl : 0 < leading) :
    let w := window buf (chain [] c ts) st hbeg hend leading trailing
    w.bad = errors w.cps.dropLast % 2 ^ 32 := by
  intro w
  obtain ⟨D, R, hD⟩ := reads_chain c ts ht buf hb
  obtain ⟨l, pre, hit, post, rest, a1, a2, a3, a4, a5, a6, a7, a8, a9, a10, a11, a12⟩ :=
    window_spec R st hbeg hend leading trailing h1 h2 (maxLen_pos c ts)
  have := (a12 (by unfold U32; omega)).1 ⟨h0, hl⟩
  show (window buf (chain [] c ts) st hbeg hend leading trailing).bad =
    errors (window buf (chain [] c ts) st hbeg hend leading trailing).cps.dropLast % 2 ^ 32
  rw [a1, List.dropLast_concat]
  exact this

/-- **C36, negation.** When no leading context is requested, or the hit begins at the
start of the buffer, the return value is always wrong: one less than the number of
entries that are not characters, modulo 2^32.  In particular data without any bad
byte is reported to have 4294967295 of them. -/
theorem window_bad_count_wrong (c : Charset) (ts : List ByteT) (ht : ∀ t ∈ ts, t.Valid)
    (buf : List Nat) (hb : Bytes buf) (hU : buf.length < 2 ^ 32) (st : (chain [] c ts).State)
    (hbeg hend leading trailing : Nat) (h1 : hbeg ≤ hend) (h2 : hend ≤ buf.length)
    (h0 : hbeg = 0 ∨ leading = 0) :
    let w := window buf (chain [] c ts) st hbeg hend leading trailing
    (w.bad + 1) % 2 ^ 32 = errors w.cps.dropLast % 2 ^ 32 ∧ w.bad ≠ errors w.cps.dropLast % 2 ^ 32 := by
  intro w
  obtain ⟨D, R, hD⟩ := reads_chain c ts ht buf hb
  obtain ⟨l, pre, hit, post, rest, a1, a2, a3, a4, a5, a6, a7, a8, a9, a10, a11, a12⟩ :=
    window_spec R st hbeg hend leading trailing h1 h2 (maxLen_pos c ts)
  obtain ⟨hp, hbad⟩ := (a12 (by unfold U32; omega)).2 h0
  subst hp
  show ((window buf (chain [] c ts) st hbeg hend leading trailing).bad + 1) % 2 ^ 32 =
    errors (window buf (chain [] c ts) st hbeg hend leading trailing).cps.dropLast % 2 ^ 32 ∧
    (window buf (chain [] c ts) st hbeg hend leading trailing).bad ≠
    errors (window buf (chain [] c ts) st hbeg hend leading trailing).cps.dropLast % 2 ^ 32
  rw [a1, List.dropLast_concat, hbad]
  simp only [List.nil_append]
  unfold U32
  omega

/-! ## The trailing context is what follows the hit -/

/-- The most bytes a character takes. -/
def Charset.width : Charset → Nat
  | .ascii => 1
  | _ => 4

theorem maxLen_eq (c : Charset) (ts : List ByteT) : (chain [] c ts).maxLen = c.width := by
  have h : ∀ ts : List ByteT, (byteChain ts).maxLen = 1 := by
    intro ts
    induction ts with
    | nil => rfl
    | cons t ts ih => cases t <;> exact ih
  have : (chain [] c ts).maxLen = (charsetDecoder c (byteChain ts)).maxLen := rfl
  rw [this]
  cases c <;> simp only [charsetDecoder, Shape.maxLen, h, Charset.width]

theorem spec_width {c : Charset} {cp : Nat} {enc : List Nat} (h : c.spec cp = some enc) :
    enc.length ≤ c.width := by
  cases c with
  | ascii =>
    simp only [Charset.spec] at h
    split at h
    · cases h; simp [Charset.width]
    · exact absurd h (by simp)
  | utf8 => exact (spec_length h).2
  | utf16 le => exact (spec_length h).2
  | utf32 le => exact (spec_length h).2

theorem width_pos (c : Charset) : 1 ≤ c.width := by cases c <;> simp [Charset.width]

/-- Data cut off behind a decoded part still decodes to that part. -/
theorem decoded_take {c : Charset} {A : List (Int × Nat)} :
    ∀ {bs : List Nat} {off : Nat} {B : List (Int × Nat)}, Decoded c bs off (A ++ B) →
    ∃ n, n ≤ bs.length ∧ n ≤ A.length * c.width ∧ Decoded c (bs.drop n) (off + n) B ∧
      ∀ m, n ≤ m → ∀ B', Decoded c ((bs.take m).drop n) (off + n) B' →
        Decoded c (bs.take m) off (A ++ B') := by
  induction A with
  | nil =>
    intro bs off B h
    exact ⟨0, by simp, by simp, by simpa using h, fun m _ B' h' => by simpa using h'⟩
  | cons a A ih =>
    intro bs off B h
    generalize ho : a :: A ++ B = o at h
    cases h with
    | done => simp at ho
    | @char cp enc rest _ out h t =>
      simp only [List.cons_append, List.cons.injEq] at ho
      obtain ⟨rfl, rfl⟩ := ho
      obtain ⟨n, h1, h2, h3, h4⟩ := ih t
      have hw := spec_width h
      have hd : ∀ k (l : List Nat), (enc ++ l).drop (enc.length + k) = l.drop k := by
        intro k l
        rw [List.drop_append, List.drop_of_length_le (by omega), List.nil_append,
          show enc.length + k - enc.length = k by omega]
      refine ⟨enc.length + n, by simp; omega, ?_, ?_, ?_⟩
      · rw [List.length_cons, Nat.add_mul]; omega
      · rw [← Nat.add_assoc, hd]; exact h3
      · intro m hm B' h'
        have ht : (enc ++ rest).take m = enc ++ rest.take (m - enc.length) := by
          rw [List.take_append, List.take_of_length_le (by omega)]
        rw [ht] at h' ⊢
        rw [hd, ← Nat.add_assoc] at h'
        exact .char h (h4 (m - enc.length) (by omega) B' h')
    | @error b rest _ out h t =>
      simp only [List.cons_append, List.cons.injEq] at ho
      obtain ⟨rfl, rfl⟩ := ho
      obtain ⟨n, h1, h2, h3, h4⟩ := ih t
      have := width_pos c
      refine ⟨n + 1, by simp; omega, ?_, ?_, ?_⟩
      · rw [List.length_cons, Nat.add_mul]; omega
      · rw [show off + (n + 1) = off + 1 + n by omega]; simpa using h3
      · intro m hm B' h'
        obtain ⟨m', rfl⟩ : ∃ m', m = m' + 1 := ⟨m - 1, by omega⟩
        rw [show off + (n + 1) = off + 1 + n by omega] at h'
        simp only [List.take_succ_cons, List.drop_succ_cons] at h' ⊢
        refine .error (fun cp enc hs hp => h cp enc hs ?_) (h4 m' (by omega) B' h')
        refine hp.trans ?_
        rw [List.cons_prefix_cons]
        exact ⟨rfl, List.take_prefix _ _⟩

theorem split_at {hend : Nat} : ∀ {a b a' b' : List (Int × Nat)}, a ++ b = a' ++ b' →
    (∀ x ∈ a, x.2 < hend) → (∀ x ∈ b, hend ≤ x.2) → (∀ x ∈ a', x.2 < hend) →
    (∀ x ∈ b', hend ≤ x.2) → a = a' ∧ b = b' := by
  intro a
  induction a with
  | nil =>
    intro b a' b' h _ hb ha' _
    cases a' with
    | nil => exact ⟨rfl, h⟩
    | cons x a' =>
      exfalso
      have := ha' x (by simp)
      have := hb x (by simp at h; rw [h]; simp)
      omega
  | cons x a ih =>
    intro b a' b' h ha hb ha' hb'
    cases a' with
    | nil =>
      exfalso
      have := ha x (by simp)
      have := hb' x (by simp at h; rw [← h]; simp)
      omega
    | cons y a' =>
      simp only [List.cons_append, List.cons.injEq] at h
      obtain ⟨rfl, h⟩ := h
      obtain ⟨rfl, rfl⟩ := ih h (fun z hz => ha z (by simp [hz])) hb
        (fun z hz => ha' z (by simp [hz])) hb'
      exact ⟨rfl, rfl⟩

/-- **C36, the hit and what follows.**  If the data decodes, from the first byte of
the hit to the end of the data, to `hit` followed by the decoding `more` of the data
after the hit, then the window shows exactly `hit` as the hit, and after it the first
`trailing` entries of `more`. -/
theorem window_trailing (c : Charset) (ts : List ByteT) (ht : ∀ t ∈ ts, t.Valid)
    (buf : List Nat) (hb : Bytes buf) (st : (chain [] c ts).State)
    (hbeg hend leading trailing : Nat) (h1 : hbeg ≤ hend) (h2 : hend ≤ buf.length)
    {hit more : List (Int × Nat)}
    (hfull : Decoded c ((slice buf hbeg buf.length).map (undoAll ts)) hbeg (hit ++ more))
    (hin : ∀ x ∈ hit, x.2 < hend)
    (hmore : Decoded c ((slice buf hend buf.length).map (undoAll ts)) hend more) :
    let w := window buf (chain [] c ts) st hbeg hend leading trailing
    ∃ pre e, w.cps = pre ++ hit ++ more.take trailing ++ [(END, e)] ∧
      w.hitBegin = pre.length ∧ w.hitEnd = pre.length + hit.length := by
  intro w
  have hB : ∀ p q, Bytes ((slice buf p q).map (undoAll ts)) := by
    intro p q x hx
    obtain ⟨b, hb', rfl⟩ := List.mem_map.mp hx
    exact undoAll_lt ht (hb b (List.mem_of_mem_drop (List.mem_of_mem_take hb')))
  obtain ⟨l, ctx, pad, pre, hit0, post0, rest0, a1, a2, a3, a4, a5, a6, a7, -⟩ :=
    window_decodes_partial c ts ht buf hb st hbeg hend leading trailing h1 h2
  rw [maxLen_eq] at a1 a4
  obtain ⟨lim, hlim⟩ : ∃ lim, lim = min (hend + trailing * c.width) buf.length := ⟨_, rfl⟩
  rw [← hlim] at a1 a4
  obtain ⟨full, hfu⟩ : ∃ full, full = (slice buf hbeg buf.length).map (undoAll ts) := ⟨_, rfl⟩
  rw [← hfu] at hfull
  have hfl : full.length = buf.length - hbeg := by
    rw [hfu]; unfold slice; rw [List.length_map, List.length_take, List.length_drop]; omega
  have hml : ((slice buf hend buf.length).map (undoAll ts)).length = buf.length - hend := by
    unfold slice; rw [List.length_map, List.length_take, List.length_drop]; omega
  have hsl : (slice buf hbeg lim).map (undoAll ts) = full.take (lim - hbeg) := by
    rw [hfu, ← List.map_take]
    congr 1
    unfold slice
    rw [List.take_take]
    congr 1; omega
  -- the hit takes the bytes up to `hend`
  obtain ⟨n1, b1, -, b3, b4⟩ := decoded_take hfull
  have hn1 : n1 = hend - hbeg := by
    cases more with
    | nil =>
      have e1 : full.drop n1 = [] := by
        rcases List.eq_nil_or_concat (full.drop n1) with h | ⟨_, _, h⟩
        · exact h
        · exact absurd rfl ((decoded_bounds b3).2.2.2 (by rw [h]; simp))
      have e2 : (slice buf hend buf.length).map (undoAll ts) = [] := by
        rcases List.eq_nil_or_concat ((slice buf hend buf.length).map (undoAll ts)) with h | ⟨_, _, h⟩
        · exact h
        · exact absurd rfl ((decoded_bounds hmore).2.2.2 (by rw [h]; simp))
      have := congrArg List.length e1
      have := congrArg List.length e2
      rw [hml] at this
      simp at *
      omega
    | cons x xs =>
      have f : ∀ {bs off}, Decoded c bs off (x :: xs) → x.2 = off := by
        intro bs off h
        cases h <;> rfl
      have := f b3
      have := f hmore
      omega
  have hmb : ∀ x ∈ more, hend ≤ x.2 := fun x hx => ((decoded_bounds hmore).1 x hx).1
  -- the context takes at most `width` bytes per entry
  have hsplit : (hit ++ more.take trailing) ++ more.drop trailing = hit ++ more := by
    rw [List.append_assoc, List.take_append_drop]
  obtain ⟨n2, c1, c2, c3, c4⟩ := decoded_take (A := more.take trailing) (B := more.drop trailing)
    (by rw [List.take_append_drop]; exact b3)
  have hn2 : n1 + n2 ≤ lim - hbeg := by
    have : n2 ≤ trailing * c.width :=
      Nat.le_trans c2 (Nat.mul_le_mul_right _ (List.length_take_le _ _))
    rw [List.length_drop] at c1
    omega
  -- decode what is left
  have hex : ∃ B', Decoded c ((full.take (lim - hbeg)).drop (n1 + n2)) (hbeg + n1 + n2) B' := by
    obtain ⟨o, ho, -⟩ := decoder_stream [] c ts ht buf hb (hbeg + n1 + n2) lim (by omega) (by omega)
      (Shape.init _)
    refine ⟨o, ?_⟩
    have : (slice buf (hbeg + n1 + n2) lim).map (undoAll ts) =
        (full.take (lim - hbeg)).drop (n1 + n2) := by
      rw [← hsl, ← List.map_drop]
      congr 1
      unfold slice
      rw [List.drop_take, List.drop_drop]
      congr 1
      · omega
      · congr 1; omega
    rw [← this]; exact ho
  obtain ⟨B', hB'⟩ := hex
  have d1 : Decoded c ((full.take (lim - hbeg)).drop n1) (hbeg + n1) (more.take trailing ++ B') := by
    have := c4 (lim - hbeg - n1) (by omega) B' (by
      rw [show (full.drop n1).take (lim - hbeg - n1) = (full.take (lim - hbeg)).drop n1 by
        rw [List.drop_take], List.drop_drop]
      exact hB')
    rwa [show (full.drop n1).take (lim - hbeg - n1) = (full.take (lim - hbeg)).drop n1 by
        rw [List.drop_take]] at this
  have d2 := b4 (lim - hbeg) (by omega) _ d1
  change Decoded c ((slice buf hbeg lim).map (undoAll ts)) hbeg _ at a4
  rw [hsl] at a4
  have hu := decoded_unique a4 d2 (by rw [← hsl]; exact hB _ _)
  have hB'off : ∀ x ∈ B', hend ≤ x.2 := fun x hx => by
    have := ((decoded_bounds hB').1 x hx).1
    omega
  rw [List.append_assoc] at hu
  obtain ⟨rfl, hpr⟩ := split_at hu a5 a6 hin (by
    intro x hx
    rcases List.mem_append.mp hx with h | h
    · exact hmb x (List.mem_of_mem_take h)
    · exact hB'off x h)
  have hpost : post0 = more.take trailing := by
    rw [hpr] at a7
    have hlen : post0.length = (more.take trailing).length := by
      rw [a7, List.length_append, List.length_take]
      by_cases hle : trailing ≤ more.length
      · omega
      · have : B' = [] := by
          have e0 : more.drop trailing = [] := List.drop_eq_nil_of_le (by omega)
          rw [e0] at c3
          have e1 : (full.drop n1).drop n2 = [] := by
            rcases List.eq_nil_or_concat ((full.drop n1).drop n2) with h | ⟨_, _, h⟩
            · exact h
            · exact absurd rfl ((decoded_bounds c3).2.2.2 (by rw [h]; simp))
          have e2 : (full.take (lim - hbeg)).drop (n1 + n2) = [] := by
            rw [List.drop_drop] at e1
            have := congrArg List.length e1
            rw [List.length_drop] at this
            apply List.drop_eq_nil_of_le
            rw [List.length_take]
            simp at this
            omega
          rw [e2] at hB'
          have := (decoded_bounds hB').2.2.1
          exact List.eq_nil_of_length_eq_zero (by simpa using this)
        rw [this]; simp
    have := List.append_inj hpr hlen
    exact this.1
  rw [hpost] at a1
  exact ⟨pre, _, a1, a2, a3⟩

/-- "aé!" in UTF-8 with the hit on é: the hypotheses of `window_trailing` hold. -/
example : Decoded .utf8 ((slice [0x61, 0xC3, 0xA9, 0x21] 1 4).map (undoAll [])) 1
      ([(0xE9, 1)] ++ [(0x21, 3)]) ∧
    Decoded .utf8 ((slice [0x61, 0xC3, 0xA9, 0x21] 3 4).map (undoAll [])) 3 [(0x21, 3)] :=
  ⟨.char (cp := 0xE9) (enc := [0xC3, 0xA9]) (rest := [0x21]) (by decide)
    (.char (cp := 0x21) (enc := [0x21]) (rest := []) (by decide) .done),
   .char (cp := 0x21) (enc := [0x21]) (rest := []) (by decide) .done⟩

/-! ## C57: the text of a hit -/

theorem decoded_scalar {c : Charset} {bs : List Nat} {off : Nat} {out : List (Int × Nat)}
    (h : Decoded c bs off out) : ∀ x ∈ out, 0 ≤ x.1 → Scalar x.1.toNat := by
  induction h with
  | done => simp
  | @char cp enc rest off out h t ih =>
    intro x hx h0
    rcases List.mem_cons.mp hx with rfl | hx
    · simp only [Int.toNat_natCast]
      cases c with
      | ascii =>
        simp only [Charset.spec] at h
        split at h
        · rename_i hlt; exact .inl (by omega)
        · exact absurd h (by simp)
      | utf8 =>
        simp only [Charset.spec] at h; split at h
        · assumption
        · exact absurd h (by simp)
      | utf16 le =>
        simp only [Charset.spec] at h; split at h
        · assumption
        · exact absurd h (by simp)
      | utf32 le =>
        simp only [Charset.spec] at h; split at h
        · assumption
        · exact absurd h (by simp)
    · exact ih x hx h0
  | @error b rest off out h t ih =>
    intro x hx h0
    rcases List.mem_cons.mp hx with rfl | hx
    · simp only at h0; omega
    · exact ih x hx h0

theorem spec8_ne_zero {c : Nat} (h : 0 < c) : ∀ b ∈ spec8 c, b ≠ 0 := by
  intro b hb
  unfold spec8 at hb
  split at hb
  · simp at hb; omega
  · split at hb
    · simp at hb; omega
    · split at hb <;> (simp at hb; omega)

/-- The character shown for an entry: the character itself, or the replacement for an
error or a null character. -/
def shownAs (repl : Nat) (x : Int × Nat) : Nat := if 0 < x.1 then x.1.toNat else repl

theorem rangeToUtf8_eq {repl : Nat} (hr : Scalar repl) {l : List (Int × Nat)}
    (hl : ∀ x ∈ l, 0 ≤ x.1 → Scalar x.1.toNat) :
    rangeToUtf8 repl l = (l.map (shownAs repl)).flatMap spec8 := by
  induction l with
  | nil => rfl
  | cons x l ih =>
    have hx := hl x (by simp)
    have ih := ih (fun y hy => hl y (by simp [hy]))
    unfold rangeToUtf8 at ih ⊢
    rw [List.flatMap_cons, List.map_cons, List.flatMap_cons, ih]
    congr 1
    unfold shownAs
    rw [cpToUtf8_spec]
    by_cases h : 0 < x.1
    · have h' : ¬ x.1 ≤ 0 := by omega
      simp only [if_pos h, if_neg h']
      rw [if_pos ⟨by omega, hx (by omega)⟩]
    · have h' : x.1 ≤ 0 := by omega
      simp only [if_neg h, if_pos h']
      rw [if_pos ⟨by omega, by simpa using hr⟩]
      simp

/-- **C57** `lg_hit_context`.  The entries of the window (C36) are shown one by one,
errors and null characters as the replacement: the string returned is the UTF-8 of
the shown characters and a terminating null, and no other byte of it is null; reading
it back gives the shown characters; the reported byte range is exactly the text of
the entries of the hit; the data range is that from the first entry to the END
entry. -/
theorem hit_context_text (c : Charset) (ts : List ByteT) (ht : ∀ t ∈ ts, t.Valid)
    (buf : List Nat) (hb : Bytes buf) (st : (chain [] c ts).State)
    (dataOffset hbeg hend size repl : Nat) (h1 : hbeg ≤ hend) (h2 : hend ≤ buf.length)
    (hr : Scalar repl) (hr0 : 0 < repl) :
    let w := window buf (chain [] c ts) st hbeg hend size size
    let r := hitContext buf (chain [] c ts) st dataOffset hbeg hend size repl
    let shown := w.cps.dropLast.map (shownAs repl)
    r.utf8 = shown.flatMap spec8 ++ [0] ∧
    (∀ b ∈ shown.flatMap spec8, b ≠ 0) ∧
    patternText r.utf8.dropLast = some (shown.map some) ∧
    r.hit.1 = ((shown.take w.hitBegin).flatMap spec8).length ∧
    r.hit.2 = ((shown.take w.hitEnd).flatMap spec8).length ∧
    (r.utf8.take r.hit.2).drop r.hit.1 =
      ((shown.take w.hitEnd).drop w.hitBegin).flatMap spec8 ∧
    r.outer = (dataOffset + (w.cps.headD (0, 0)).2, dataOffset + (w.cps.getLastD (0, 0)).2) ∧
    r.bad = w.bad := by
  intro w r shown
  obtain ⟨l, ctx, pad, pre, hit, post, rest, a1, a2, a3, a4, -, -, -, -, a9, a10, a11, -⟩ :=
    window_decodes_partial c ts ht buf hb st hbeg hend size size h1 h2
  obtain ⟨e, a1⟩ : ∃ e, w.cps = pre ++ hit ++ post ++ [(END, e)] := ⟨_, a1⟩
  change w.hitBegin = _ at a2
  change w.hitEnd = _ at a3
  have hdl : w.cps.dropLast = pre ++ hit ++ post := by rw [a1, List.dropLast_concat]
  have hsc : ∀ x ∈ pre ++ hit ++ post, 0 ≤ x.1 → Scalar x.1.toNat := by
    intro x hx h0
    rw [List.append_assoc] at hx
    rcases List.mem_append.mp hx with hx | hx
    · rcases List.mem_append.mp (a11.subset hx) with h | h
      · rw [a10] at h
        have := rawErrors_neg x h
        omega
      · exact decoded_scalar a9 x h h0
    · exact decoded_scalar a4 x (by
        rcases List.mem_append.mp hx with h | h <;> simp [h]) h0
  have hA : rangeToUtf8 repl (w.cps.take w.hitBegin) = (pre.map (shownAs repl)).flatMap spec8 := by
    rw [a1, a2, List.append_assoc, List.append_assoc, List.take_left']
    · exact rangeToUtf8_eq hr fun x hx => hsc x (by simp [hx])
    · rfl
  have hBt : w.cps.take w.hitEnd = pre ++ hit := by
    rw [a1, a3, List.append_assoc, List.take_left']
    simp
  have hBe : rangeToUtf8 repl ((w.cps.take w.hitEnd).drop w.hitBegin) =
      (hit.map (shownAs repl)).flatMap spec8 := by
    rw [hBt, a2, List.drop_left']
    · exact rangeToUtf8_eq hr fun x hx => hsc x (by simp [hx])
    · rfl
  have hC : rangeToUtf8 repl ((w.cps.take (w.cps.length - 1)).drop w.hitEnd) =
      (post.map (shownAs repl)).flatMap spec8 := by
    rw [← List.dropLast_eq_take, hdl, a3, List.drop_left']
    · exact rangeToUtf8_eq hr fun x hx => hsc x (by simp [hx])
    · simp
  have hshown : shown = pre.map (shownAs repl) ++ hit.map (shownAs repl) ++
      post.map (shownAs repl) := by
    show w.cps.dropLast.map _ = _
    rw [hdl, List.map_append, List.map_append]
  have hsS : ∀ y ∈ shown, Scalar y ∧ 0 < y := by
    intro y hy
    obtain ⟨x, hx, rfl⟩ := List.mem_map.mp hy
    rw [hdl] at hx
    unfold shownAs
    by_cases h : 0 < x.1
    · rw [if_pos h]; exact ⟨hsc x hx (by omega), by omega⟩
    · rw [if_neg h]; exact ⟨hr, hr0⟩
  have hutf : r.utf8 = shown.flatMap spec8 ++ [0] := by
    show rangeToUtf8 repl (w.cps.take w.hitBegin) ++
      rangeToUtf8 repl ((w.cps.take w.hitEnd).drop w.hitBegin) ++
      rangeToUtf8 repl ((w.cps.take (w.cps.length - 1)).drop w.hitEnd) ++ [0] = _
    rw [hA, hBe, hC, hshown, List.flatMap_append, List.flatMap_append]
  have hb1 : r.hit.1 = ((pre.map (shownAs repl)).flatMap spec8).length := by
    show (rangeToUtf8 repl (w.cps.take w.hitBegin)).length = _
    rw [hA]
  have hb2 : r.hit.2 = ((pre.map (shownAs repl)).flatMap spec8).length +
      ((hit.map (shownAs repl)).flatMap spec8).length := by
    show (rangeToUtf8 repl (w.cps.take w.hitBegin)).length +
      (rangeToUtf8 repl ((w.cps.take w.hitEnd).drop w.hitBegin)).length = _
    rw [hA, hBe]
  have ht1 : shown.take w.hitBegin = pre.map (shownAs repl) := by
    rw [hshown, a2, List.append_assoc, List.take_left']
    simp
  have ht2 : shown.take w.hitEnd = pre.map (shownAs repl) ++ hit.map (shownAs repl) := by
    rw [hshown, a3, List.take_left']
    simp
  refine ⟨hutf, ?_, ?_, by rw [hb1, ht1], ?_, ?_, rfl, rfl⟩
  · intro b hb
    obtain ⟨y, hy, hb⟩ := List.mem_flatMap.mp hb
    exact spec8_ne_zero (hsS y hy).2 b hb
  · rw [hutf, List.dropLast_concat]
    rw [← patternText_decodes shown fun y hy => (hsS y hy).1]
    congr 1
    clear_value shown
    clear hutf hshown ht1 ht2
    induction shown with
    | nil => rfl
    | cons y ys ih =>
      rw [List.flatMap_cons, List.flatMap_cons, ih fun z hz => hsS z (by simp [hz]), cpToUtf8_spec,
        if_pos ⟨by omega, by simpa using (hsS y (by simp)).1⟩]
      simp
  · rw [hb2, ht2, List.flatMap_append, List.length_append]
  · rw [hutf, hb1, hb2, ht2, hshown, a2, List.flatMap_append, List.flatMap_append,
      List.append_assoc, List.take_left' (by simp), List.drop_left' rfl, List.drop_left' (by simp)]

/-- "é" and a bad byte in UTF-8 with the hit on é and U+FFFD as replacement. -/
example :
    hitContext [0x61, 0xC3, 0xA9, 0xFF] (chain [] .utf8 []) (Shape.init _) 100 1 3 1 0xFFFD =
      ⟨[0x61, 0xC3, 0xA9, 0xEF, 0xBF, 0xBD, 0], (100, 104), (1, 3), 1⟩ := by decide +kernel

/-- "aé!" in UTF-8 with the hit on é, one character of context on each side, and
the same hit at the very start of the data. -/
example :
    window [0x61, 0xC3, 0xA9, 0x21] (chain [] .utf8 []) (Shape.init _) 1 3 1 1 =
      ⟨[(0x61, 0), (0xE9, 1), (0x21, 3), (END, 4)], 1, 2, 0⟩ ∧
    window [0xC3, 0xA9, 0x21] (chain [] .utf8 []) (Shape.init _) 0 2 1 1 =
      ⟨[(0xE9, 0), (0x21, 2), (END, 3)], 0, 1, 4294967295⟩ := by decide +kernel

end Verif.Decoders
