import Verif.Marshal
/-!
# C37, C38: serialized programs

Specification: reading back gives the same pattern list and the same program, for
every pattern list and program a C++ object can hold (`Storable`).
-/
namespace Verif.Marshal

open Verif.Vm (Program)

/-- What the fields of the C++ objects can hold: strings of non-zero bytes, 64-bit
user indices. -/
def Info.Storable (p : Info) : Prop :=
  (∀ b ∈ p.pattern, b ≠ 0 ∧ b < 256) ∧ (∀ b ∈ p.chain, b ≠ 0 ∧ b < 256) ∧ p.idx < 2 ^ 64

/-- 32-bit counters and instruction words, a 65536-bit filter. -/
def ProgStorable (P : Program) : Prop :=
  P.maxLabel < 2 ^ 32 ∧ P.maxCheck < 2 ^ 32 ∧ P.filterOff < 2 ^ 32 ∧
  (∀ w ∈ P.code, w < 2 ^ 32) ∧ ∀ k, 65536 ≤ k → P.filter k = false

theorem le_length (n x : Nat) : (le n x).length = n := by
  induction n generalizing x with
  | zero => rfl
  | succ n ih => simp [le, ih]

theorem ofLe_le (n x : Nat) (h : x < 256 ^ n) : ofLe (le n x) = x := by
  induction n generalizing x with
  | zero => simp at h; simp [le, ofLe, h]
  | succ n ih =>
    have : x / 256 < 256 ^ n := by
      rw [Nat.div_lt_iff_lt_mul (by omega), Nat.mul_comm]; rwa [Nat.pow_succ, Nat.mul_comm] at h
    simp only [le, ofLe, ih _ this]
    omega

theorem load_append (A B C : List Nat) (n : Nat) (hB : B.length = n) :
    load (A ++ B ++ C) n A.length = some (ofLe B) := by
  unfold load
  rw [if_pos (by simp; omega)]
  congr 2
  rw [List.append_assoc, List.drop_left, List.take_append_of_le_length (by omega),
    List.take_of_length_le (by omega)]

theorem strlen_append (A B C : List Nat) (hB : ∀ b ∈ B, b ≠ 0) :
    strlenAt (A ++ B ++ [0] ++ C) A.length = some B.length := by
  unfold strlenAt
  have e : (A ++ B ++ [0] ++ C).drop A.length = B ++ 0 :: C := by
    simp only [List.append_assoc, List.drop_left]
    simp
  have t : (B ++ 0 :: C).takeWhile (fun b => decide (b ≠ 0)) = B := by
    rw [List.takeWhile_append_of_pos (by intro b hb; simpa using hB b hb)]
    simp
  rw [e, t]
  simp only [List.length_append, List.length_singleton]
  rw [if_pos (by omega)]

theorem marshallInfo_length (p : Info) :
    (marshallInfo p).length = p.pattern.length + 1 + p.chain.length + 1 + 8 := by
  simp [marshallInfo, le_length]; omega

theorem mapSize_eq (ps : List Info) : mapSize ps = (marshallMap ps).length := by
  have : ∀ (ps : List Info) (a : Nat),
      ps.foldl (fun s p => s + p.pattern.length + 1 + p.chain.length + 1 + 8) a =
        a + (marshallMap ps).length := by
    intro ps
    induction ps with
    | nil => intro a; simp [marshallMap]
    | cons p ps ih =>
      intro a
      rw [List.foldl_cons, ih]
      simp only [marshallMap, List.flatMap_cons, List.length_append, marshallInfo_length]
      omega
  rw [mapSize, this]; omega

theorem unmarshallLoop_eq (ps : List Info) (hp : ∀ p ∈ ps, p.Storable) :
    ∀ (A C : List Nat) (n : Nat), (marshallMap ps).length < n →
      unmarshallLoop (A ++ marshallMap ps ++ C) (A.length + (marshallMap ps).length) n A.length =
        some ps := by
  induction ps with
  | nil =>
    intro A C n hn
    cases n with
    | zero => simp at hn
    | succ n => simp [unmarshallLoop, marshallMap]
  | cons p ps ih =>
    intro A C n hn
    cases n with
    | zero => simp at hn
    | succ n =>
      have hm : marshallMap (p :: ps) = marshallInfo p ++ marshallMap ps := by simp [marshallMap]
      have hl := marshallInfo_length p
      have hs := hp p (by simp)
      obtain ⟨R, hR⟩ : ∃ R, R = marshallMap ps := ⟨_, rfl⟩
      obtain ⟨M, hM⟩ : ∃ M, M = A ++ marshallMap (p :: ps) ++ C := ⟨_, rfl⟩
      rw [← hM]
      rw [hm, List.length_append] at hn
      have e1 : M = A ++ p.pattern ++ [0] ++ (p.chain ++ [0] ++ le 8 p.idx ++ R ++ C) := by
        rw [hM, hm, ← hR]; simp [marshallInfo]
      have e2 : M = (A ++ p.pattern ++ [0]) ++ p.chain ++ [0] ++ (le 8 p.idx ++ R ++ C) := by
        rw [e1]; simp
      have e3 : M = (A ++ p.pattern ++ [0] ++ p.chain ++ [0]) ++ le 8 p.idx ++ (R ++ C) := by
        rw [e1]; simp
      have e4 : M = (A ++ p.pattern ++ [0] ++ p.chain ++ [0] ++ le 8 p.idx) ++ R ++ C := by
        rw [e1]; simp
      have s1 : strlenAt M A.length = some p.pattern.length := by
        rw [e1]; exact strlen_append _ _ _ fun b hb => (hs.1 b hb).1
      have l2 : A.length + p.pattern.length + 1 = (A ++ p.pattern ++ [0]).length := by simp; omega
      have s2 : strlenAt M (A.length + p.pattern.length + 1) = some p.chain.length := by
        rw [l2, e2]; exact strlen_append _ _ _ fun b hb => (hs.2.1 b hb).1
      have l3 : A.length + p.pattern.length + 1 + p.chain.length + 1 =
          (A ++ p.pattern ++ [0] ++ p.chain ++ [0]).length := by simp; omega
      have s3 : load M 8 (A.length + p.pattern.length + 1 + p.chain.length + 1) = some p.idx := by
        rw [l3, e3, load_append _ _ _ _ (le_length 8 _), ofLe_le _ _ (by
          have := hs.2.2; omega)]
      have l4 : A.length + p.pattern.length + 1 + p.chain.length + 1 + 8 =
          (A ++ p.pattern ++ [0] ++ p.chain ++ [0] ++ le 8 p.idx).length := by
        simp [le_length]; omega
      have s4 : unmarshallLoop M (A.length + (marshallMap (p :: ps)).length) n
          (A.length + p.pattern.length + 1 + p.chain.length + 1 + 8) = some ps := by
        have := ih (fun q hq => hp q (by simp [hq]))
          (A ++ p.pattern ++ [0] ++ p.chain ++ [0] ++ le 8 p.idx) C n (by omega)
        rw [← hR, ← e4, ← l4] at this
        rw [hm, List.length_append, hl, ← hR]
        rw [← this]
        congr 1; omega
      have t1 : (M.drop A.length).take p.pattern.length = p.pattern := by
        rw [e1]; simp
      have t2 : (M.drop (A.length + p.pattern.length + 1)).take p.chain.length = p.chain := by
        rw [l2, e2]
        generalize A ++ p.pattern ++ [0] = Q
        simp
      unfold unmarshallLoop
      rw [if_pos (by rw [hm, List.length_append, hl]; omega)]
      simp only [s1, s2, s3, s4, t1, t2, Option.bind_eq_bind, Option.bind_some]
      rfl

theorem testBit_pack (f : Nat → Bool) (b k : Nat) (hk : k < 8) :
    decide (packByte f b &&& (1 <<< k) ≠ 0) = f (b + k) := by
  have key : ∀ x0 x1 x2 x3 x4 x5 x6 x7 : Bool, ∀ k : Fin 8,
      decide ((x0.toNat ||| (x1.toNat <<< 1) ||| (x2.toNat <<< 2) ||| (x3.toNat <<< 3) |||
        (x4.toNat <<< 4) ||| (x5.toNat <<< 5) ||| (x6.toNat <<< 6) ||| (x7.toNat <<< 7)) &&&
          (1 <<< (k : Nat)) ≠ 0) = [x0, x1, x2, x3, x4, x5, x6, x7].getD k false := by
    decide +kernel
  have := key (f b) (f (b + 1)) (f (b + 2)) (f (b + 3)) (f (b + 4)) (f (b + 5)) (f (b + 6))
    (f (b + 7)) ⟨k, hk⟩
  unfold packByte
  rw [this]
  match k, hk with
  | 0, _ => rfl
  | 1, _ => rfl
  | 2, _ => rfl
  | 3, _ => rfl
  | 4, _ => rfl
  | 5, _ => rfl
  | 6, _ => rfl
  | 7, _ => rfl

theorem marshallProg_length (P : Program) : (marshallProg P).length = progSize P := by
  have : (P.code.flatMap (le 4)).length = P.code.length * 4 := by
    induction P.code with
    | nil => rfl
    | cons w l ih => simp only [List.flatMap_cons, List.length_append, le_length, ih, List.length_cons]; omega
  simp only [marshallProg, List.length_append, le_length, List.length_map, List.length_range, this,
    progSize]

theorem words_read (ws : List Nat) (hw : ∀ w ∈ ws, w < 2 ^ 32) (A : List Nat) :
    (List.range ws.length).map (fun k => ofLe (((A ++ ws.flatMap (le 4)).drop (A.length + 4 * k)).take 4))
      = ws := by
  apply List.ext_getElem?
  intro k
  rw [List.getElem?_map]
  by_cases hk : k < ws.length
  · rw [List.getElem?_range hk, Option.map_some, List.getElem?_eq_getElem hk]
    congr 1
    rw [List.drop_append, List.drop_of_length_le (by omega), List.nil_append,
      show A.length + 4 * k - A.length = 4 * k by omega]
    have : ∀ (ws : List Nat) (k : Nat) (hk : k < ws.length),
        ((ws.flatMap (le 4)).drop (4 * k)).take 4 = le 4 ws[k] := by
      intro ws
      induction ws with
      | nil => intro k hk; simp at hk
      | cons w ws ih =>
        intro k hk
        cases k with
        | zero =>
          simp only [List.flatMap_cons, Nat.mul_zero, List.drop_zero, List.getElem_cons_zero]
          rw [List.take_append_of_le_length (by rw [le_length]; omega),
            List.take_of_length_le (by rw [le_length]; omega)]
        | succ k =>
          simp only [List.flatMap_cons, List.getElem_cons_succ]
          rw [List.drop_append, List.drop_of_length_le (by rw [le_length]; omega), List.nil_append,
            le_length, show 4 * (k + 1) - 4 = 4 * k by omega]
          exact ih k (by simpa using hk)
    rw [this ws k hk]
    exact ofLe_le 4 _ (by have := hw ws[k] (List.getElem_mem hk); omega)
  · rw [List.getElem?_eq_none (by simpa using hk), List.getElem?_eq_none (by simpa using hk)]
    rfl

theorem unmarshallProg_eq (P : Program) (h : ProgStorable P) (A : List Nat)
    (hs : progSize P < 2 ^ 64) :
    unmarshallProg (A ++ marshallProg P) A.length (progSize P) = some P := by
  have hl := marshallProg_length P
  obtain ⟨F, hF⟩ : ∃ F, F = (List.range (256 * 256 / 8)).map (fun b => packByte P.filter (8 * b)) :=
    ⟨_, rfl⟩
  have hFl : F.length = 8192 := by rw [hF, List.length_map, List.length_range]
  have hmp : marshallProg P =
      le 4 P.maxLabel ++ le 4 P.maxCheck ++ le 4 P.filterOff ++ F ++ P.code.flatMap (le 4) := by
    rw [hF]; rfl
  have hps : progSize P = 8204 + P.code.length * 4 := by
    show 4 + 4 + 4 + 256 * 256 / 8 + P.code.length * 4 = _
    omega
  have hic : (progSize P + 2 ^ 64 - (4 + 4 + 4 + 256 * 256 / 8)) % 2 ^ 64 / 4 = P.code.length := by
    rw [hps] at hs ⊢
    omega
  obtain ⟨M, hM⟩ : ∃ M, M = A ++ marshallProg P := ⟨_, rfl⟩
  rw [← hM]
  have hMl : M.length = A.length + progSize P := by rw [hM, List.length_append, hl]
  have e1 : M = A ++ le 4 P.maxLabel ++ (le 4 P.maxCheck ++ le 4 P.filterOff ++ F ++ P.code.flatMap (le 4)) := by
    rw [hM, hmp]; simp
  have e2 : M = (A ++ le 4 P.maxLabel) ++ le 4 P.maxCheck ++ (le 4 P.filterOff ++ F ++ P.code.flatMap (le 4)) := by
    rw [hM, hmp]; simp
  have e3 : M = (A ++ le 4 P.maxLabel ++ le 4 P.maxCheck) ++ le 4 P.filterOff ++ (F ++ P.code.flatMap (le 4)) := by
    rw [hM, hmp]; simp
  have e4 : M = (A ++ le 4 P.maxLabel ++ le 4 P.maxCheck ++ le 4 P.filterOff) ++ F ++ P.code.flatMap (le 4) := by
    rw [hM, hmp]; simp
  have r1 : load M 4 A.length = some P.maxLabel := by
    rw [e1, load_append _ _ _ _ (le_length 4 _), ofLe_le _ _ (by have := h.1; omega)]
  have r2 : load M 4 (A.length + 4) = some P.maxCheck := by
    have : A.length + 4 = (A ++ le 4 P.maxLabel).length := by simp [le_length]
    rw [this, e2, load_append _ _ _ _ (le_length 4 _), ofLe_le _ _ (by have := h.2.1; omega)]
  have r3 : load M 4 (A.length + 8) = some P.filterOff := by
    have : A.length + 8 = (A ++ le 4 P.maxLabel ++ le 4 P.maxCheck).length := by simp [le_length]
    rw [this, e3, load_append _ _ _ _ (le_length 4 _), ofLe_le _ _ (by have := h.2.2.1; omega)]
  have hpre : (A ++ le 4 P.maxLabel ++ le 4 P.maxCheck ++ le 4 P.filterOff).length = A.length + 12 := by
    simp [le_length]
  have r4 : (fun k => decide (k < 65536) && filterBit M (A.length + 12) k) = P.filter := by
    funext k
    by_cases hk : k < 65536
    · have hkd : k / 8 < 8192 := by omega
      have : M.getD (A.length + 12 + k / 8) 0 = packByte P.filter (8 * (k / 8)) := by
        rw [e4, ← hpre, List.append_assoc, List.getD_eq_getElem?_getD,
          List.getElem?_append_right (by omega)]
        rw [show ∀ x y : Nat, x + y - x = y by omega]
        rw [List.getElem?_append_left (by omega), hF, List.getElem?_map,
          List.getElem?_range (by omega)]
        rfl
      unfold filterBit
      rw [this, testBit_pack _ _ _ (by omega), decide_eq_true hk, Bool.true_and]
      congr 1; omega
    · rw [decide_eq_false hk, Bool.false_and, h.2.2.2.2 k (by omega)]
  have r5 : (List.range P.code.length).map
      (fun k => ofLe ((M.drop (A.length + 12 + 8192 + 4 * k)).take 4)) = P.code := by
    have := words_read P.code h.2.2.2.1
      (A ++ le 4 P.maxLabel ++ le 4 P.maxCheck ++ le 4 P.filterOff ++ F)
    rw [← e4] at this
    have hpre' : (A ++ le 4 P.maxLabel ++ le 4 P.maxCheck ++ le 4 P.filterOff ++ F).length =
        A.length + 12 + 8192 := by rw [List.length_append, hpre, hFl]
    rw [hpre'] at this
    exact this
  unfold unmarshallProg
  simp only [hic, r1, r2, r3, r4, r5]
  rw [if_pos (by rw [hMl, hps]; omega)]
  rfl

theorem writeProgram_length (ps : List Info) (P : Program) :
    (writeProgram ps P).length = 8 + mapSize ps + 8 + progSize P := by
  simp only [writeProgram, List.length_append, le_length, mapSize_eq, marshallProg_length]

/-- **C37** Reading what was written gives back the pattern list and the program,
and `lg_program_size` is the number of bytes written; for every pattern list and
program that fits in an `int`, at every address. -/
theorem write_read (ps : List Info) (P : Program) (hp : ∀ p ∈ ps, p.Storable) (hP : ProgStorable P)
    (base : Nat) (hsize : (writeProgram ps P).length < 2 ^ 31)
    (hbase : base + (writeProgram ps P).length < 2 ^ 64) :
    readProgram base (writeProgram ps P) = .ok ps P ∧
      programSize ps P = (writeProgram ps P).length := by
  have hwl := writeProgram_length ps P
  refine ⟨?_, by unfold programSize; omega⟩
  have hml := mapSize_eq ps
  have hpl := marshallProg_length P
  obtain ⟨M, hM⟩ : ∃ M, M = writeProgram ps P := ⟨_, rfl⟩
  rw [← hM] at hwl hsize hbase ⊢
  have e1 : M = [] ++ le 8 (mapSize ps) ++ (marshallMap ps ++ le 8 (progSize P) ++ marshallProg P) := by
    rw [hM]; simp [writeProgram, hml, hpl]
  have e2 : M = le 8 (mapSize ps) ++ marshallMap ps ++ (le 8 (progSize P) ++ marshallProg P) := by
    rw [e1]; simp
  have e3 : M = (le 8 (mapSize ps) ++ marshallMap ps) ++ le 8 (progSize P) ++ marshallProg P := by
    rw [e1]; simp
  have e4 : M = (le 8 (mapSize ps) ++ marshallMap ps ++ le 8 (progSize P)) ++ marshallProg P := by
    rw [e1]; simp
  have r1 : load M 8 0 = some (mapSize ps) := by
    have := load_append [] (le 8 (mapSize ps))
      (marshallMap ps ++ le 8 (progSize P) ++ marshallProg P) 8 (le_length 8 _)
    rw [← e1, ofLe_le _ _ (by omega)] at this
    exact this
  have r2 : unmarshallMap M 8 (mapSize ps) = some ps := by
    have := unmarshallLoop_eq ps hp (le 8 (mapSize ps)) (le 8 (progSize P) ++ marshallProg P)
      (mapSize ps + 1) (by omega)
    rw [← e2, le_length, ← hml] at this
    exact this
  have l3 : 8 + mapSize ps = (le 8 (mapSize ps) ++ marshallMap ps).length := by
    rw [List.length_append, le_length, hml]
  have r3 : load M 8 (8 + mapSize ps) = some (progSize P) := by
    rw [l3, e3, load_append _ _ _ _ (le_length 8 _), ofLe_le _ _ (by omega)]
  have r4 : unmarshallProg M (8 + mapSize ps + 8) (progSize P) = some P := by
    have l4 : 8 + mapSize ps + 8 = (le 8 (mapSize ps) ++ marshallMap ps ++ le 8 (progSize P)).length := by
      rw [List.length_append, ← l3, le_length]
    rw [l4, e4]
    exact unmarshallProg_eq P hP _ (by omega)
  unfold readProgram ptrAdd
  simp only [r1, r2, r3, r4]
  rw [if_neg (by omega), if_neg (by omega), if_neg (by omega), if_neg (by omega)]

theorem load_take {M : List Nat} {n i k : Nat} (h : i + n ≤ k) : load (M.take k) n i = load M n i := by
  unfold load
  rw [List.length_take]
  by_cases h1 : i + n ≤ M.length
  · rw [if_pos (by omega), if_pos h1, List.drop_take, List.take_take, Nat.min_eq_left (by omega)]
  · rw [if_neg (by omega), if_neg h1]

/-- **C38** Every proper prefix of a written program is refused: no handle, and no
read outside the prefix. -/
theorem truncated_refused (ps : List Info) (P : Program) (hp : ∀ p ∈ ps, p.Storable)
    (base : Nat) (hsize : (writeProgram ps P).length < 2 ^ 31)
    (hbase : base + (writeProgram ps P).length < 2 ^ 64) (k : Nat)
    (hk : k < (writeProgram ps P).length) :
    readProgram base ((writeProgram ps P).take k) = .null := by
  have hwl := writeProgram_length ps P
  have hml := mapSize_eq ps
  have hpl := marshallProg_length P
  obtain ⟨M, hM⟩ : ∃ M, M = writeProgram ps P := ⟨_, rfl⟩
  rw [← hM] at hwl hsize hbase hk ⊢
  have hkl : (M.take k).length = k := by rw [List.length_take]; omega
  have e1 : M = [] ++ le 8 (mapSize ps) ++ (marshallMap ps ++ le 8 (progSize P) ++ marshallProg P) := by
    rw [hM]; simp [writeProgram, hml, hpl]
  have r1 : load M 8 0 = some (mapSize ps) := by
    have := load_append [] (le 8 (mapSize ps))
      (marshallMap ps ++ le 8 (progSize P) ++ marshallProg P) 8 (le_length 8 _)
    rw [← e1, ofLe_le _ _ (by omega)] at this
    exact this
  have l3 : 8 + mapSize ps = (le 8 (mapSize ps) ++ marshallMap ps).length := by
    rw [List.length_append, le_length, hml]
  have r3 : load M 8 (8 + mapSize ps) = some (progSize P) := by
    rw [l3, show M = (le 8 (mapSize ps) ++ marshallMap ps) ++ le 8 (progSize P) ++ marshallProg P by
      rw [e1]; simp]
    rw [load_append _ _ _ _ (le_length 8 _), ofLe_le _ _ (by omega)]
  unfold readProgram ptrAdd
  rw [hkl]
  by_cases h8 : k < 8
  · rw [if_pos (by omega)]
  rw [if_neg (by omega), load_take (by omega), r1]
  simp only
  by_cases h9 : k < 8 + mapSize ps
  · rw [if_pos (by omega)]
  rw [if_neg (by omega)]
  have r2 : unmarshallMap (M.take k) 8 (mapSize ps) = some ps := by
    have := unmarshallLoop_eq ps hp (le 8 (mapSize ps))
      ((le 8 (progSize P) ++ marshallProg P).take (k - (8 + mapSize ps)))
      (mapSize ps + 1) (by omega)
    have ht : M.take k = le 8 (mapSize ps) ++ marshallMap ps ++
        (le 8 (progSize P) ++ marshallProg P).take (k - (8 + mapSize ps)) := by
      rw [show M = (le 8 (mapSize ps) ++ marshallMap ps) ++ (le 8 (progSize P) ++ marshallProg P) by
        rw [e1]; simp]
      rw [List.take_append, List.take_of_length_le (by rw [← l3]; omega), ← l3]
    rw [← ht, le_length, ← hml] at this
    exact this
  rw [r2]
  simp only
  by_cases h10 : k < 8 + mapSize ps + 8
  · rw [if_pos (by omega)]
  rw [if_neg (by omega), load_take (by omega), r3]
  simp only
  rw [if_pos (by omega)]

/-- A small program with two patterns meets the hypotheses. -/
def demoProgram : Program :=
  { code := [0x0B, 0x01000005, 0], maxLabel := 1, maxCheck := 3, filterOff := 1
    filter := fun k => decide (k = 97 ∨ k = 24930) }

example : ProgStorable demoProgram ∧
    (∀ p ∈ [(⟨[97], [65, 83], 7⟩ : Info), ⟨[98, 43], [85], 2 ^ 40⟩], p.Storable) ∧
    (writeProgram [⟨[97], [65, 83], 7⟩, ⟨[98, 43], [85], 2 ^ 40⟩] demoProgram).length = 8258 := by
  refine ⟨⟨by decide, by decide, by decide, by decide, ?_⟩, ?_, ?_⟩
  · intro k hk; simp [demoProgram]; omega
  · intro p hp
    simp at hp
    rcases hp with rfl | rfl <;> simp [Info.Storable]
  · rw [writeProgram_length]; rfl

/-- Malformed input, outside C38: a pattern-list length near 2^64 makes the bounds
check wrap around, and a serialized program length below the header size makes the
instruction count wrap; both then read outside the buffer. -/
theorem malformed_not_refused :
    readProgram 0x1000 (le 8 (2 ^ 64 - 9)) = .ub ∧
    readProgram 0x1000 (le 8 0 ++ le 8 0) = .ub := by
  constructor
  · have hl : load (le 8 (2 ^ 64 - 9)) 8 0 = some (2 ^ 64 - 9) := by decide +kernel
    have hs : strlenAt (le 8 (2 ^ 64 - 9)) 8 = none := by decide +kernel
    have hu : unmarshallMap (le 8 (2 ^ 64 - 9)) 8 (2 ^ 64 - 9) = none := by
      unfold unmarshallMap
      rw [show 2 ^ 64 - 9 + 1 = (2 ^ 64 - 9) + 1 from rfl]
      unfold unmarshallLoop
      rw [if_pos (by omega), hs]
      rfl
    unfold readProgram ptrAdd
    rw [if_neg (by rw [le_length]; omega), hl]
    simp only
    rw [if_neg (by rw [le_length]; omega), hu]
  · have hl : load (le 8 0 ++ le 8 0) 8 0 = some 0 := by decide +kernel
    have hl2 : load (le 8 0 ++ le 8 0) 8 8 = some 0 := by decide +kernel
    have hu : unmarshallMap (le 8 0 ++ le 8 0) 8 0 = some [] := by decide +kernel
    have hlen : (le 8 0 ++ le 8 0).length = 16 := by decide
    unfold readProgram ptrAdd
    simp only [hl, hu, hlen, Nat.add_zero, hl2]
    rw [if_neg (by omega), if_neg (by omega), if_neg (by omega), if_neg (by omega)]
    have : unmarshallProg (le 8 0 ++ le 8 0) (8 + 8) 0 = none := by
      unfold unmarshallProg
      simp only
      rw [if_neg (by rw [hlen]; omega)]
    rw [this]

end Verif.Marshal
