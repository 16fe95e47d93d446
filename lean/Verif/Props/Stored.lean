import Verif.Props.Compiled
import Verif.Props.Marshal
/-!
# Compiled programs fit in the file format

Every number in a compiled program fits in the 32 bits that the file format has for it,
as long as the program has fewer than 2^32 instructions; so what is written is read back
unchanged (C37), whatever was compiled.
-/
namespace Verif.Stored

open Verif.Compiler Verif.Nfa Verif.Transition Verif.Vm Verif.Marshal

/-! ## The filter offset -/

theorem argmin_lt (best bc : Nat) (i : Nat) (ps : List BestPair.Pairs) (h : best < i) :
    BestPair.argmin best bc i ps < i + ps.length := by
  induction ps generalizing best bc i with
  | nil => simpa [BestPair.argmin] using h
  | cons p ps ih =>
    unfold BestPair.argmin
    split
    · have := ih i (BestPair.count p) (i + 1) (by omega); simp only [List.length_cons]; omega
    · have := ih best bc (i + 1) (by omega); simp only [List.length_cons]; omega

theorem loop_lmin (g : Graph) : ∀ (fuel : Nat) (next : List (Nat × Nat)) (b : List BestPair.Pairs) (lmin : Nat)
    (r : List BestPair.Pairs × Nat), BestPair.loop g fuel next b lmin = some r → r.2 ≤ lmin := by
  intro fuel
  induction fuel with
  | zero =>
    intro next b lmin r h
    cases next with
    | nil => simp only [BestPair.loop, Option.some.injEq] at h; subst h; exact Nat.le_refl _
    | cons _ _ => simp [BestPair.loop] at h
  | succ fuel ih =>
    intro next b lmin r h
    cases next with
    | nil => simp only [BestPair.loop, Option.some.injEq] at h; subst h; exact Nat.le_refl _
    | cons x next =>
      obtain ⟨d, u⟩ := x
      unfold BestPair.loop at h
      split at h
      · simp only [Option.some.injEq] at h; subst h; exact Nat.le_refl _
      · have := ih _ _ _ _ h
        split at this <;> omega

theorem bestPair_off {g : Graph} {fuel off : Nat} {f : BestPair.Pairs} (h : BestPair.bestPair fuel g = some (off, f)) :
    off < 2 ^ 32 := by
  unfold BestPair.bestPair at h
  split at h
  · cases h
  · next b lmin hl =>
    have hm : lmin ≤ 4294967294 := loop_lmin g _ _ _ _ _ hl
    split at h
    · cases h
    · next p ps hb =>
      have hlen := congrArg List.length hb
      simp only [List.length_take, List.length_cons] at hlen
      have hi := argmin_lt 0 (BestPair.count p) 1 ps (by omega)
      cases hq : (p :: ps)[BestPair.argmin 0 (BestPair.count p) 1 ps]? with
      | none => simp [hq] at h
      | some q =>
        simp only [hq, Option.map_some, Option.some.injEq, Prod.mk.injEq] at h
        omega

/-! ## The instruction words -/

theorem emit_words {s : ByteSet.Bits} {ws : List Nat} (h : (getSmallest s).emit = some ws) : ∀ w ∈ ws, w < 2 ^ 32 := by
  have hok := getSmallest_ok s
  generalize getSmallest s = t at h hok
  intro w hw
  cases t with
  | byte b =>
    simp only [Trans.emit, Option.some.injEq] at h; subst h
    simp only [List.mem_singleton] at hw
    have : b < 256 := hok
    subst hw; unfold mkWord; omega
  | either a b =>
    simp only [Trans.emit, Option.some.injEq] at h; subst h
    simp only [List.mem_singleton] at hw
    have : a < 256 ∧ b < 256 := hok
    subst hw; unfold mkWord; omega
  | range a b =>
    have : a ≤ b ∧ b < 256 := hok
    simp only [Trans.emit] at h
    split at h
    · simp only [Option.some.injEq] at h; subst h
      simp only [List.mem_singleton] at hw
      subst hw; unfold mkWord; omega
    · split at h
      · cases h
      · simp only [Option.some.injEq] at h; subst h
        simp only [List.mem_singleton] at hw
        subst hw; unfold mkWord; omega
  | set q =>
    simp only [Trans.emit, Option.some.injEq] at h; subst h
    simp only [List.mem_cons, List.mem_map] at hw
    rcases hw with rfl | ⟨k, -, rfl⟩
    · unfold mkWord; omega
    · exact bitsFrom_lt q 32 _

theorem raw24_words {op val : Nat} {ws : List Nat} (hop : op < 256) (h : raw24 op val = some ws) :
    ∀ w ∈ ws, w < 2 ^ 32 := by
  unfold raw24 at h
  split at h
  · simp only [Option.some.injEq] at h; subst h
    intro w hw
    simp only [List.mem_singleton] at hw
    omega
  · cases h

theorem marks_words {g : Graph} {v : Nat} {m : List Nat} (h : emitMarks g v = some m) : ∀ w ∈ m, w < 2 ^ 32 := by
  simp only [emitMarks, Option.bind_eq_bind, Option.bind_eq_some_iff, Option.some.injEq] at h
  obtain ⟨l, hl, c, hc, rfl⟩ := h
  intro w hw
  rcases List.mem_append.1 hw with hw | hw
  · cases hx : (g.v v).label with
    | none => rw [hx] at hl; simp only [Option.some.injEq] at hl; subst hl; simp at hw
    | some y => rw [hx] at hl; exact raw24_words (by omega) hl w hw
  · cases hx : check g v with
    | none => rw [hx] at hc; simp only [Option.some.injEq] at hc; subst hc; simp at hw
    | some y => rw [hx] at hc; exact raw24_words (by omega) hc w hw

theorem match_words {g : Graph} {v : Nat} (hg : guard g + 1 < 2 ^ 32) : ∀ w ∈ emitMatch g v, w < 2 ^ 32 := by
  intro w hw
  unfold emitMatch at hw
  split at hw
  · split at hw <;> simp only [fork, mkWord, List.mem_cons, List.not_mem_nil, or_false] at hw <;> omega
  · simp at hw

theorem forks_words {f : Nat → Nat} {l : List Nat} (h : ∀ u ∈ l, f u < 2 ^ 32) :
    ∀ w ∈ l.flatMap (fun t => fork (f t)), w < 2 ^ 32 := by
  intro w hw
  simp only [List.mem_flatMap, fork, List.mem_cons, List.not_mem_nil, or_false] at hw
  obtain ⟨u, hu, rfl | rfl⟩ := hw
  · unfold mkWord; omega
  · exact h u hu

theorem jump_words {a : Nat} (h : a < 2 ^ 32) : ∀ w ∈ jump a, w < 2 ^ 32 := by
  intro w hw
  simp only [jump, mkWord, List.mem_cons, List.not_mem_nil, or_false] at hw
  omega

theorem start_lt {g : Graph} (h : WF g) (hg : guard g + 1 < 2 ^ 32) {v : Nat} (hv : v < g.n) : start g v < 2 ^ 32 := by
  have := start_le h hv
  omega

theorem landing_lt {g : Graph} (h : WF g) (hg : guard g + 1 < 2 ^ 32) {v : Nat} (hv : v < g.n) :
    landing g v < 2 ^ 32 := by
  have h1 : start g v + evalSize g v < 2 ^ 32 := by
    have := start_le h hv
    unfold size at this
    omega
  unfold landing
  split
  · next u hu =>
    split
    · exact start_lt h hg (h.edges v hv u (by simp [hu])).2
    · exact h1
  · exact h1

theorem out_words {g : Graph} (h : WF g) (hg : guard g + 1 < 2 ^ 32) {v : Nat} (hv : v < g.n) :
    ∀ w ∈ emitOut g v, w < 2 ^ 32 := by
  intro w hw
  have hs : ∀ u ∈ (g.v v).out, start g u < 2 ^ 32 := fun u hu => start_lt h hg (h.edges v hv u hu).2
  unfold emitOut at hw
  split at hw
  · simp at hw
  · next u us hu =>
    rw [hu] at hs
    rcases List.mem_append.1 hw with hw | hw
    · exact forks_words (fun x hx => hs x (by simp at hx; simp [hx])) w hw
    · split at hw
      · simp at hw
      · exact jump_words (hs u (by simp)) w hw

theorem indirect_words {g : Graph} {ts : List Nat} (h : ∀ u ∈ ts, landing g u < 2 ^ 32) :
    ∀ w ∈ indirect g ts, w < 2 ^ 32 := by
  intro w hw
  cases ts with
  | nil => simp [indirect] at hw
  | cons t ts =>
    rcases List.mem_append.1 hw with hw | hw
    · exact forks_words (fun x hx => h x (by simp at hx; simp [hx])) w hw
    · exact jump_words (h t (by simp)) w hw

theorem tableWords_words {g : Graph} {tbl : Nat → List Nat} (h : ∀ i, ∀ u ∈ tbl i, landing g u < 2 ^ 32)
    (is : List Nat) : ∀ ind, ind + (tableWords g tbl is ind).2.length < 2 ^ 32 →
    ∀ w ∈ (tableWords g tbl is ind).1 ++ (tableWords g tbl is ind).2, w < 2 ^ 32 := by
  induction is with
  | nil => intro ind _ w hw; simp [tableWords] at hw
  | cons i is ih =>
    intro ind hb w hw
    unfold tableWords at hw hb
    split at hw
    · next hi =>
      rw [hi] at hb
      simp only [List.cons_append, List.mem_cons] at hw
      rcases hw with rfl | hw
      · omega
      · exact ih ind hb w hw
    · next t hi =>
      rw [hi] at hb
      simp only [List.cons_append, List.mem_cons] at hw
      rcases hw with rfl | hw
      · exact h i t (by simp [hi])
      · exact ih ind hb w hw
    · next h1 h2 =>
      have hb' : ind + (indirect g (tbl i) ++ (tableWords g tbl is (ind + 2 * (tbl i).length)).2).length < 2 ^ 32 := by
        revert hb
        cases ht : tbl i with
        | nil => exact absurd ht h1
        | cons a l =>
          cases l with
          | nil => exact absurd ht (h2 a)
          | cons b l => exact id
      rw [List.length_append, indirect_length] at hb'
      simp only [List.cons_append, List.mem_cons, List.mem_append] at hw
      rcases hw with rfl | hw | hw | hw
      · omega
      · exact ih _ (by omega) w (List.mem_append_left _ hw)
      · exact indirect_words (h i) w hw
      · exact ih _ (by omega) w (List.mem_append_right _ hw)

theorem table_words {g : Graph} (h : WF g) (hg : guard g + 1 < 2 ^ 32) {v a : Nat} (hv : v < g.n)
    (ht : isTable g v = true) (ha : a + (jumpTable g v a).length < 2 ^ 32) : ∀ w ∈ jumpTable g v a, w < 2 ^ 32 := by
  obtain ⟨first, last, h1, h2, h3, -⟩ := extent_eq (pivot g v) (table_two h hv ht)
  intro w hw
  unfold jumpTable at hw ha
  dsimp only at hw ha
  rw [h3] at hw ha
  dsimp only at hw ha
  obtain ⟨l1, -⟩ := tableWords_length g (pivot g v) (List.range' first (last + 1 - first)) (a + 2 + (last - first))
  simp only [List.length_cons, List.length_append, l1, List.length_range'] at ha
  simp only [List.mem_cons] at hw
  rcases hw with rfl | hw
  · unfold mkWord; omega
  · exact tableWords_words (fun i u hu => landing_lt h hg (h.edges v hv u ((mem_pivot g v i u).1 hu).1).2) _ _
      (by omega) w hw

theorem state_words {g : Graph} (h : WF g) (hg : guard g + 1 < 2 ^ 32) {v : Nat} (hv : v < g.n) {ws : List Nat}
    (he : encodeState g v = some ws) : ∀ w ∈ ws, w < 2 ^ 32 := by
  have hlen := encode_length h hv he
  have hle := start_le h hv
  unfold size at hle
  simp only [encodeState, Option.bind_eq_bind, Option.bind_eq_some_iff] at he
  obtain ⟨p, hp, he⟩ := he
  have hpw : ∀ w ∈ p, w < 2 ^ 32 := by
    intro w hw
    unfold emitPre at hp
    split at hp
    · simp only [Option.some.injEq] at hp; subst hp; simp at hw
    · simp only [Option.bind_eq_bind, Option.bind_eq_some_iff, Option.some.injEq] at hp
      obtain ⟨e, hew, m, hm, rfl⟩ := hp
      simp only [List.mem_append] at hw
      rcases hw with (hw | hw) | hw
      · exact emit_words hew w hw
      · exact marks_words hm w hw
      · exact match_words hg w hw
  intro w hw
  split at he
  · next ht =>
    simp only [Option.some.injEq] at he
    rw [← he] at hw hlen
    rw [List.length_append] at hlen
    rcases List.mem_append.1 hw with hw | hw
    · exact hpw w hw
    · exact table_words h hg hv ht (by omega) w hw
  · simp only [Option.some.injEq] at he
    rw [← he] at hw
    rcases List.mem_append.1 hw with hw | hw
    · exact hpw w hw
    · exact out_words h hg hv w hw

/-! ## Labels and checks -/

theorem maxLabel_lt {g : Graph} {b : Nat} (l : List Nat) : ∀ m, m < b →
    (∀ v ∈ l, ∀ k, (g.v v).label = some k → k < b) →
    l.foldl (fun m v => match (g.v v).label with
      | none => m
      | some l => max m l) m < b := by
  induction l with
  | nil => intro m hm _; exact hm
  | cons a l ih =>
    intro m hm h
    rw [List.foldl_cons]
    apply ih _ _ (fun v hv => h v (by simp [hv]))
    split
    · exact hm
    · next k hk => exact Nat.max_lt.2 ⟨hm, h a (by simp) k hk⟩

theorem label_lt {g : Graph} (h : WF g) {v k : Nat} (henc : encodeState g v ≠ none)
    (hk : (g.v v).label = some k) : k < 2 ^ 32 := by
  by_cases h0 : v = 0
  · subst h0; rw [h.rootLabel] at hk; cases hk
  · by_contra hc
    apply henc
    have hr : raw24 10 k = none := by unfold raw24; rw [if_neg (by omega)]
    have hm : emitMarks g v = none := by simp [emitMarks, hk, hr]
    have hp : emitPre g v = none := by
      unfold emitPre
      rw [if_neg h0]
      cases (transOf (g.v v).bytes).emit <;> simp [hm]
    simp [encodeState, hp]

theorem checks_sum {g : Graph} (h : WF g) (l : List Nat) :
    (l.filter fun v => (g.v v).inn.length > 1).length ≤ (l.map (size g)).sum := by
  induction l with
  | nil => simp
  | cons a l ih =>
    rw [List.filter_cons, List.map_cons, List.sum_cons]
    split
    · next ha =>
      have h0 : a ≠ 0 := by
        rintro rfl
        rw [h.rootIn] at ha
        simp at ha
      have := trans_size_pos (transOf (g.v a).bytes)
      have : 1 ≤ size g a := by unfold size evalSize; rw [if_neg h0]; omega
      simp only [List.length_cons]
      omega
    · omega

theorem maxCheck_le_guard {g : Graph} (h : WF g) : maxCheck g ≤ guard g := by
  rw [guard_eq]
  exact checks_sum h (order g)

/-! ## The theorem -/

/-- Every number of a compiled program fits in the file format, if the program has at most
2^32 instructions. -/
theorem compiled_storable {g : Graph} (hg : Live g) {fuel : Nat} {P : Program}
    (hc : createProgram fuel g = some (.ok P)) (hlen : P.code.length ≤ 2 ^ 32) : ProgStorable P := by
  obtain ⟨hC, hl, hk⟩ := compiled_of_createProgram hg hc
  have henc : ∀ v < g.n, encodeState g v ≠ none := by
    intro v hv he
    obtain ⟨ws, hws, -⟩ := hC.holds v hv
    rw [he] at hws; cases hws
  have hgd : guard g + 1 < 2 ^ 32 := by have := hC.len; omega
  have o2 := (order_spec hg.toWF).2
  refine ⟨?_, ?_, ?_, ?_, ?_⟩
  · rw [hl]
    exact maxLabel_lt _ _ (by omega) fun v hv k hk => label_lt hg.toWF (henc v ((o2 v).1 hv)) hk
  · rw [hk]
    have := maxCheck_le_guard hg.toWF
    omega
  · unfold createProgram at hc
    split at hc
    · cases hc
    · next off f hb =>
      split at hc
      · simp only [Option.some.injEq, Out.ok.injEq] at hc
        subst hc
        exact bestPair_off hb
      · cases hc
      · cases hc
  · obtain ⟨code, c1, -, -, c4⟩ := layout_consistent_partial hg.toWF henc
    have hcode : P.code = code := by
      unfold createProgram at hc
      rw [c1] at hc
      split at hc
      · cases hc
      · simp only [Option.some.injEq, Out.ok.injEq] at hc
        subst hc; rfl
    rw [hcode, c4]
    intro w hw
    simp only [List.mem_append, List.mem_flatten, List.mem_map] at hw
    rcases hw with ⟨ws, ⟨v, hv, rfl⟩, hw⟩ | hw
    · have hv' := (o2 v).1 hv
      cases he : encodeState g v with
      | none => exact absurd he (henc v hv')
      | some ws =>
        simp only [words, he, Option.getD_some] at hw
        exact state_words hg.toWF hgd hv' he w hw
    · simp only [mkWord, List.mem_cons, List.not_mem_nil, or_false] at hw
      omega
  · intro k hk
    unfold createProgram at hc
    split at hc
    · cases hc
    · split at hc
      · simp only [Option.some.injEq, Out.ok.injEq] at hc
        subst hc
        simp only [show ¬ k < 65536 by omega, decide_false, Bool.false_and]
      · cases hc
      · cases hc

end Verif.Stored
