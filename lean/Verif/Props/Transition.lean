import Verif.Transition
/-!
# C29: the chosen transition encodes exactly its byte set
-/
namespace Verif.Transition

open Verif.ByteSet (Bits)
open Verif.Vm

/-- What the classification state says about the bytes below `n`. -/
def Fits (s : Bits) (n : Nat) : Cls → Prop
  | .none => ∀ c < n, s c = false
  | .one low high => low = high ∧ low < n ∧ ∀ c < n, s c = decide (c = low)
  | .range low high => low ≤ high ∧ high < n ∧ ∀ c < n, s c = decide (low ≤ c ∧ c ≤ high)
  | .two low high => low < n ∧ high < n ∧ ∀ c < n, s c = decide (c = low ∨ c = high)

theorem scan_allowed (s : Bits) : ∀ n i c, i + n = 256 → Fits s i c →
    (∀ b < 256, (scan s n i c).allowed b = s b) ∧
      (∀ lo hi, scan s n i c = .range lo hi → lo ≤ hi ∧ hi < 256) ∧
      (∀ lo hi, scan s n i c = .either lo hi → lo < 256 ∧ hi < 256) ∧
      (∀ b, scan s n i c = .byte b → b < 256) := by
  intro n
  induction n with
  | zero =>
    intro i c hi hf
    have hi : i = 256 := by omega
    subst hi
    cases c with
    | none => simp [scan, choose, Trans.allowed]
    | one low high =>
      obtain ⟨rfl, h2, h3⟩ := hf
      refine ⟨fun b hb => ?_, ?_, ?_, ?_⟩
      · rw [h3 b hb]; simp [scan, choose, Trans.allowed]; grind
      · simp [scan, choose]
      · simp [scan, choose]
      · simp only [scan, choose, Trans.byte.injEq]; rintro _ rfl; exact h2
    | range low high =>
      obtain ⟨h1, h2, h3⟩ := hf
      refine ⟨fun b hb => ?_, ?_, ?_, ?_⟩
      · rw [h3 b hb]; simp [scan, choose, Trans.allowed]
      · simp only [scan, choose, Trans.range.injEq]; rintro _ _ ⟨rfl, rfl⟩; exact ⟨h1, h2⟩
      · simp [scan, choose]
      · simp [scan, choose]
    | two low high =>
      obtain ⟨h1, h2, h3⟩ := hf
      refine ⟨fun b hb => ?_, ?_, ?_, ?_⟩
      · rw [h3 b hb]; simp [scan, choose, Trans.allowed]; grind
      · simp [scan, choose]
      · simp only [scan, choose, Trans.either.injEq]; rintro _ _ ⟨rfl, rfl⟩; exact ⟨h1, h2⟩
      · simp [scan, choose]
  | succ n ih =>
    intro i c hi hf
    have early : (∀ b < 256, (Trans.set s).allowed b = s b) ∧
      (∀ lo hi, Trans.set s = .range lo hi → lo ≤ hi ∧ hi < 256) ∧
      (∀ lo hi, Trans.set s = .either lo hi → lo < 256 ∧ hi < 256) ∧
      (∀ b, Trans.set s = .byte b → b < 256) := by simp [Trans.allowed]
    have key : ∀ c', Fits s (i + 1) c' → _ := fun c' h => ih (i + 1) c' (by omega) h
    unfold scan
    by_cases hs : s i = true
    · rw [if_pos hs]
      cases c with
      | none =>
        refine key _ ⟨rfl, by omega, fun c hc => ?_⟩
        by_cases h : c = i
        · simp [h, hs]
        · rw [hf c (by omega)]; simp [h]
      | one low high =>
        obtain ⟨rfl, h2, h3⟩ := hf
        dsimp only
        by_cases hne : (low + 1) % 256 ≠ i
        · rw [if_pos hne]
          refine key _ ⟨by omega, by omega, fun c hc => ?_⟩
          by_cases h : c = i
          · simp [h, hs]
          · rw [h3 c (by omega)]; simp [h]
        · rw [if_neg hne]
          refine key _ ⟨by omega, by omega, fun c hc => ?_⟩
          by_cases h : c = i
          · subst h; rw [hs]; symm; rw [decide_eq_true_iff]; omega
          · rw [h3 c (by omega)]; apply decide_eq_decide.mpr; omega
      | range low high =>
        obtain ⟨h1, h2, h3⟩ := hf
        dsimp only
        by_cases hne : (high + 1) % 256 = i
        · rw [if_pos hne]
          refine key _ ⟨by omega, by omega, fun c hc => ?_⟩
          by_cases h : c = i
          · subst h; rw [hs]; symm; rw [decide_eq_true_iff]; omega
          · rw [h3 c (by omega)]; apply decide_eq_decide.mpr; omega
        · rw [if_neg hne]; exact early
      | two low high => exact early
    · rw [if_neg hs]
      have hs : s i = false := by simpa using hs
      apply key
      cases c with
      | none =>
        intro c hc
        by_cases h : c = i
        · simp [h, hs]
        · exact hf c (by omega)
      | one low high =>
        obtain ⟨h1, h2, h3⟩ := hf
        refine ⟨h1, by omega, fun c hc => ?_⟩
        by_cases h : c = i
        · subst h; rw [hs]; simp; omega
        · exact h3 c (by omega)
      | range low high =>
        obtain ⟨h1, h2, h3⟩ := hf
        refine ⟨h1, by omega, fun c hc => ?_⟩
        by_cases h : c = i
        · subst h; rw [hs]; simp; omega
        · exact h3 c (by omega)
      | two low high =>
        obtain ⟨h1, h2, h3⟩ := hf
        refine ⟨by omega, by omega, fun c hc => ?_⟩
        by_cases h : c = i
        · subst h; rw [hs]; simp; omega
        · exact h3 c (by omega)

/-- A transition whose data are bytes and whose ranges are in order. -/
def Trans.Ok : Trans → Prop
  | .byte b => b < 256
  | .either a b => a < 256 ∧ b < 256
  | .range a b => a ≤ b ∧ b < 256
  | .set _ => True

theorem getSmallest_ok (s : Bits) : (getSmallest s).Ok := by
  have h := scan_allowed s 256 0 .none (by omega) (by intro c hc; omega)
  obtain ⟨_, h2, h3, h4⟩ := h
  unfold Trans.Ok
  cases hg : getSmallest s with
  | byte b => exact h4 b hg
  | either a b => exact h3 a b hg
  | range a b => exact h2 a b hg
  | set s => trivial

/-- **C29** (choice).  The chosen transition allows exactly the bytes of the set. -/
theorem getSmallest_allowed (s : Bits) (b : Nat) (hb : b < 256) :
    (getSmallest s).allowed b = s b :=
  (scan_allowed s 256 0 .none (by omega) (by intro c hc; omega)).1 b hb

theorem bitsFrom_bit (s : Bits) : ∀ n i j, j < n → (bitsFrom s n i / 2 ^ j % 2 = 1 ↔ s (i + j) = true) := by
  intro n
  induction n with
  | zero => intro i j h; omega
  | succ n ih =>
    intro i j hj
    cases j with
    | zero =>
      simp only [bitsFrom, Nat.pow_zero, Nat.div_one, Nat.add_zero]
      by_cases h : s i = true <;> simp [h] <;> omega
    | succ j =>
      have h1 : bitsFrom s (n + 1) i / 2 ^ (j + 1) = bitsFrom s n (i + 1) / 2 ^ j := by
        rw [Nat.pow_succ, Nat.mul_comm, ← Nat.div_div_eq_div_mul]
        congr 1
        simp only [bitsFrom]; split <;> omega
      rw [h1, ih (i + 1) j (by omega)]
      have : i + 1 + j = i + (j + 1) := by omega
      rw [this]

theorem bitsFrom_lt (s : Bits) : ∀ n i, bitsFrom s n i < 2 ^ n := by
  intro n
  induction n with
  | zero => intro i; simp [bitsFrom]
  | succ n ih =>
    intro i
    have := ih (i + 1)
    simp only [bitsFrom, Nat.pow_succ]; split <;> omega

/-- The words of a transition are as many as the layout pass counted. -/
theorem emit_length {t : Trans} {ws : List Nat} (h : t.emit = some ws) : ws.length = t.size := by
  cases t with
  | byte b => simp only [Trans.emit, Option.some.injEq] at h; subst h; rfl
  | either a b => simp only [Trans.emit, Option.some.injEq] at h; subst h; rfl
  | range a b =>
    simp only [Trans.emit] at h
    split at h
    · simp only [Option.some.injEq] at h; subst h; rfl
    · split at h
      · exact absurd h (by simp)
      · simp only [Option.some.injEq] at h; subst h; rfl
  | set s => simp only [Trans.emit, Option.some.injEq] at h; subst h; simp [Trans.size]

theorem emit_some {t : Trans} (h : t.Ok) : ∃ ws, t.emit = some ws := by
  unfold Trans.emit
  cases t with
  | range a b =>
    have : ¬ b < a := by have := h.1; omega
    by_cases h2 : a = 0 ∧ b = 255 <;> simp [h2, this]
  | _ => simp

/-- `ws` is in the program from address `pc` on. -/
def At (P : Program) (pc : Nat) (ws : List Nat) : Prop :=
  ∀ k w, ws[k]? = some w → P.code[pc + k]? = some w

theorem opAt_of {P : Program} {pc w : Nat} (h : P.code[pc]? = some w) : opAt P pc = some (decode w) := by
  simp [opAt, h]

/-- Executing the words of a transition consumes the byte and steps over them
iff the transition allows the byte. -/
theorem exec_emit {P : Program} {t : Trans} {ws : List Nat} (hok : t.Ok) (he : t.emit = some ws)
    (th : Thread) (hat : At P th.pc ws) (b : UInt8) :
    exec P th b = if t.allowed b.toNat then .ok (some { th with pc := th.pc + t.size }) else .ok none := by
  have hb : b.toNat < 256 := b.toNat_lt
  cases t with
  | byte x =>
    simp only [Trans.emit, Option.some.injEq] at he; subst he
    have h0 := opAt_of (hat 0 _ rfl)
    rw [Nat.add_zero] at h0
    have hx : x < 256 := hok
    have hd : decode (mkWord 1 0 x 0) = .byte x false := by
      have e1 : mkWord 1 0 x 0 % 256 = 1 := by unfold mkWord; omega
      have e2 : mkWord 1 0 x 0 / 65536 % 256 = x := by unfold mkWord; omega
      have e3 : mkWord 1 0 x 0 / 256 % 256 % 2 = 0 := by unfold mkWord; omega
      simp [decode, e1, e2, e3]
    unfold exec
    rw [h0, hd]
    simp [Trans.allowed, Trans.size]
  | either x y =>
    simp only [Trans.emit, Option.some.injEq] at he; subst he
    have h0 := opAt_of (hat 0 _ rfl)
    rw [Nat.add_zero] at h0
    obtain ⟨hx, hy⟩ := hok
    have hd : decode (mkWord 3 0 x y) = .either x y false := by
      have e1 : mkWord 3 0 x y % 256 = 3 := by unfold mkWord; omega
      have e2 : mkWord 3 0 x y / 65536 % 256 = x := by unfold mkWord; omega
      have e4 : mkWord 3 0 x y / 16777216 % 256 = y := by unfold mkWord; omega
      have e3 : mkWord 3 0 x y / 256 % 256 % 2 = 0 := by unfold mkWord; omega
      simp [decode, e1, e2, e3, e4]
    unfold exec
    rw [h0, hd]
    simp [Trans.allowed, Trans.size]
  | range x y =>
    obtain ⟨hx, hy⟩ := hok
    simp only [Trans.emit] at he
    by_cases hany : x = 0 ∧ y = 255
    · rw [if_pos hany] at he
      simp only [Option.some.injEq] at he; subst he
      have h0 := opAt_of (hat 0 _ rfl)
      rw [Nat.add_zero] at h0
      have hd : decode (mkWord 5 0 0 0) = .any := by decide
      unfold exec
      rw [h0, hd]
      obtain ⟨rfl, rfl⟩ := hany
      have : b.toNat ≤ 255 := by omega
      simp [Trans.allowed, Trans.size, this]
    · rw [if_neg hany, if_neg (by omega)] at he
      simp only [Option.some.injEq] at he; subst he
      have h0 := opAt_of (hat 0 _ rfl)
      rw [Nat.add_zero] at h0
      have hd : decode (mkWord 4 0 x y) = .range x y false := by
        have e1 : mkWord 4 0 x y % 256 = 4 := by unfold mkWord; omega
        have e2 : mkWord 4 0 x y / 65536 % 256 = x := by unfold mkWord; omega
        have e4 : mkWord 4 0 x y / 16777216 % 256 = y := by unfold mkWord; omega
        have e3 : mkWord 4 0 x y / 256 % 256 % 2 = 0 := by unfold mkWord; omega
        simp [decode, e1, e2, e3, e4]
      unfold exec
      rw [h0, hd]
      simp [Trans.allowed, Trans.size]
  | set s =>
    simp only [Trans.emit, Option.some.injEq] at he; subst he
    have h0 := opAt_of (hat 0 _ rfl)
    rw [Nat.add_zero] at h0
    have hk : b.toNat / 32 < 8 := by omega
    have h1 := hat (b.toNat / 32 + 1) (bitsFrom s 32 (32 * (b.toNat / 32))) (by
      rw [List.getElem?_cons_succ, List.getElem?_map, List.getElem?_range hk]; rfl)
    have hd : decode (mkWord 2 0 0 0) = .bitVector := by decide
    have hb2 := bitsFrom_bit s 32 (32 * (b.toNat / 32)) (b.toNat % 32) (by omega)
    have e : 32 * (b.toNat / 32) + b.toNat % 32 = b.toNat := by omega
    rw [e] at hb2
    have e2 : th.pc + 1 + b.toNat / 32 = th.pc + (b.toNat / 32 + 1) := by omega
    unfold exec
    rw [h0, hd]
    simp only [e2, h1, Trans.allowed, Trans.size, hb2]
    by_cases hs : s b.toNat = true
    · exact (if_pos hs).trans (if_pos hs).symm
    · exact (if_neg hs).trans (if_neg hs).symm

/-- **C29** The chosen transition encodes exactly its byte set: for every byte
set, a transition is chosen whose instruction words (always emitted), placed
anywhere in a program and executed by the VM on any byte, let the thread
continue right behind them iff the byte is in the set, and kill it otherwise. -/
theorem smallest_transition_exact (s : Bits) :
    ∃ ws, (getSmallest s).emit = some ws ∧
      ∀ (P : Program) (th : Thread) (b : UInt8), At P th.pc ws →
        exec P th b =
          if s b.toNat then .ok (some { th with pc := th.pc + ws.length }) else .ok none := by
  obtain ⟨ws, hws⟩ := emit_some (getSmallest_ok s)
  refine ⟨ws, hws, fun P th b hat => ?_⟩
  rw [exec_emit (getSmallest_ok s) hws th hat b, getSmallest_allowed s _ b.toNat_lt, emit_length hws]

/-- The set {a, c} becomes an Either. -/
example : (getSmallest (fun c => c == 97 || c == 99)).emit = some [mkWord 3 0 97 99] := by
  decide +kernel

/-! ## Sharing of transitions -/

theorem memLess_total : ∀ (a b : List Nat), a.length = b.length →
    memLess a b = false → memLess b a = false → a = b := by
  intro a
  induction a with
  | nil => intro b hl _ _; simpa using hl.symm
  | cons x xs ih =>
    intro b hl h1 h2
    cases b with
    | nil => simp at hl
    | cons y ys =>
      unfold memLess at h1 h2
      split at h1
      · simp at h1
      · split at h1
        · rename_i h3; rw [if_pos h3] at h2; simp at h2
        · rename_i h3 h4
          rw [if_neg h4, if_neg h3] at h2
          have : x = y := by omega
          rw [this, ih ys (by simpa using hl) h1 h2]

theorem bytesOf_inj {s t : Bits} (h : bytesOf s = bytesOf t) (c : Nat) (hc : c < 256) : s c = t c := by
  have h1 : (bytesOf s)[c / 8]? = (bytesOf t)[c / 8]? := by rw [h]
  have hk : c / 8 < 32 := by omega
  simp only [bytesOf, List.getElem?_map, List.getElem?_range hk, Option.map_some,
    Option.some.injEq] at h1
  have e : 8 * (c / 8) + c % 8 = c := by omega
  have hs := bitsFrom_bit s 8 (8 * (c / 8)) (c % 8) (by omega)
  have ht := bitsFrom_bit t 8 (8 * (c / 8)) (c % 8) (by omega)
  rw [e] at hs ht
  rw [h1] at hs
  have := hs.symm.trans ht
  cases h2 : s c <;> cases h3 : t c <;> simp_all

/-- Two transitions are equivalent for the comparator only if they allow the
same bytes. -/
theorem less_total {a b : Trans} (h1 : less a b = false) (h2 : less b a = false) :
    ∀ c < 256, a.allowed c = b.allowed c := by
  intro c hc
  cases a with
  | byte a =>
    cases b with
    | byte b => simp [less] at h1 h2; rw [show a = b by omega]
    | _ => simp [less] at h1
  | either a1 a2 =>
    cases b with
    | byte b => simp [less] at h2
    | either b1 b2 =>
      simp only [less] at h1 h2
      have e1 : a1 = b1 := by
        by_cases g1 : a1 < b1
        · simp [g1] at h1
        · by_cases g2 : b1 < a1
          · simp [g2] at h2
          · omega
      subst e1
      simp at h1 h2
      rw [show a2 = b2 by omega]
    | _ => simp [less] at h1
  | range a1 a2 =>
    cases b with
    | byte b => simp [less] at h2
    | either b1 b2 => simp [less] at h2
    | range b1 b2 =>
      simp only [less] at h1 h2
      have e1 : a1 = b1 := by
        by_cases g1 : a1 < b1
        · simp [g1] at h1
        · by_cases g2 : b1 < a1
          · simp [g2] at h2
          · omega
      subst e1
      simp at h1 h2
      rw [show a2 = b2 by omega]
    | set s => simp [less] at h1
  | set s =>
    cases b with
    | set t => exact bytesOf_inj (memLess_total _ _ (by simp [bytesOf]) h1 h2) c hc
    | _ => simp [less] at h2

/-- **C29** (sharing).  Whatever exemplars exist already, the factory returns a
transition that allows the same bytes as the one asked for. -/
theorem factory_get_allowed (ex : List Trans) (t : Trans) :
    ∀ c < 256, (get ex t).1.allowed c = t.allowed c := by
  intro c hc
  unfold get
  split
  · rename_i e he
    have := List.find?_some he
    simp only [Bool.and_eq_true, Bool.not_eq_true'] at this
    exact less_total this.1 this.2 c hc
  · rfl

end Verif.Transition
