import Verif.Listing
import Verif.Props.Graphviz
import Verif.Props.Layout
import Verif.Props.Session
/-!
# C114: the listing of a program says what the program is
-/
namespace Verif.Listing
open Verif.Cmd (Str decimal)
open Verif.Graphviz (str split_at decimal_eq not_digit)
open Verif.Transition (mkWord)

/-! ## Specification -/

/-- An instruction with its operands. -/
inductive Item where
  | byte (b : Nat) (neg : Bool)
  | either (a b : Nat) (neg : Bool)
  | range (a b : Nat) (neg : Bool)
  | any
  | bits (ws : List Nat)
  | jump (a : Nat)
  | fork (a : Nat)
  | table (first last : Nat) (ws : List Nat)
  | check (k : Nat)
  | label (l : Nat)
  | adjust (n : Nat)
  | «match»
  | halt
  | finish

/-- The flag `NEGATE`. -/
def flag (neg : Bool) : Nat := if neg then 1 else 0

/-- The word of the instruction. -/
def Item.word : Item → Nat
  | .byte b neg => mkWord 1 (flag neg) b 0
  | .either a b neg => mkWord 3 (flag neg) a b
  | .range a b neg => mkWord 4 (flag neg) a b
  | .any => mkWord 5 0 0 0
  | .bits _ => mkWord 2 0 0 0
  | .jump _ => mkWord 8 0 0 0
  | .fork _ => mkWord 7 0 0 0
  | .table first last _ => mkWord 0 0 first last
  | .check k => 9 + 256 * k
  | .label l => 10 + 256 * l
  | .adjust n => 13 + 256 * n
  | .match => mkWord 11 0 0 0
  | .halt => mkWord 12 0 0 0
  | .finish => mkWord 6 0 0 0

/-- The words of the operands. -/
def Item.data : Item → List Nat
  | .bits ws => ws
  | .jump a => [a]
  | .fork a => [a]
  | .table _ _ ws => ws
  | _ => []

/-- The operands have their sizes. -/
def Item.Fits : Item → Prop
  | .byte b _ => b < 256
  | .either a b _ => a < 256 ∧ b < 256
  | .range a b _ => a < 256 ∧ b < 256
  | .bits ws => ws.length = 8
  | .table first last ws => first ≤ last ∧ last < 256 ∧ ws.length = last + 1 - first
  | .check k => k < 16777216
  | .label l => l < 16777216
  | .adjust n => n < 16777216
  | _ => True

/-- A sequence of instructions with their operands. -/
def Laid (code : List Nat) : Prop := ∃ items : List Item, (∀ x ∈ items, x.Fits) ∧ code = items.flatMap fun x => x.word :: x.data

/-! ## Proofs -/

theorem hex_digits : ∀ n, ∀ d ∈ hex n, 48 ≤ d ∧ d ≠ 10 ∧ d ≠ 47 := by
  have hd : ∀ k < 16, 48 ≤ (Nat.digitChar k).toNat ∧ (Nat.digitChar k).toNat ≠ 10 ∧ (Nat.digitChar k).toNat ≠ 47 := by decide
  intro n
  induction n using Nat.strongRecOn with
  | ind n ih =>
    intro d h
    unfold hex at h
    by_cases hn : n < 16
    · rw [Nat.toDigits_of_lt_base hn] at h
      simp only [List.map_cons, List.map_nil, List.mem_singleton] at h
      exact h ▸ hd n hn
    · rw [Nat.toDigits_of_base_le (by decide) (by omega), List.map_append, List.mem_append] at h
      rcases h with h | h
      · exact ih (n / 16) (by omega) d h
      · simp only [List.map_cons, List.map_nil, List.mem_singleton] at h
        exact h ▸ hd _ (by omega)

theorem hex_inj : ∀ {n m : Nat}, hex n = hex m → n = m := by
  have hd : ∀ k < 16, ∀ j < 16, (Nat.digitChar k).toNat = (Nat.digitChar j).toNat → k = j := by decide
  have hp : ∀ k, (hex k) ≠ [] := fun k h => by
    unfold hex at h
    exact Nat.toDigits_ne_nil (List.map_eq_nil_iff.1 h)
  intro n
  induction n using Nat.strongRecOn with
  | ind n ih =>
    intro m h
    have h1 : ∀ k, k < 16 → hex k = [(Nat.digitChar k).toNat] := fun k hk => by
      unfold hex; rw [Nat.toDigits_of_lt_base hk]; rfl
    have h2 : ∀ k, ¬ k < 16 → hex k = hex (k / 16) ++ [(Nat.digitChar (k % 16)).toNat] := fun k hk => by
      unfold hex; rw [Nat.toDigits_of_base_le (by decide) (by omega), List.map_append]; rfl
    by_cases hn : n < 16 <;> by_cases hm : m < 16
    · rw [h1 n hn, h1 m hm] at h
      exact hd n hn m hm (List.cons.inj h).1
    · rw [h1 n hn, h2 m hm] at h
      have := congrArg List.length h
      have hl := List.length_pos_iff.2 (hp (m / 16))
      simp at this
      exact absurd this (hp _)
    · rw [h2 n hn, h1 m hm] at h
      have := congrArg List.length h
      simp at this
      exact absurd this (hp _)
    · rw [h2 n hn, h2 m hm] at h
      obtain ⟨e1, e2⟩ := List.append_inj' h rfl
      have := ih (n / 16) (by omega) e1
      have := hd _ (Nat.mod_lt n (by decide)) _ (Nat.mod_lt m (by decide)) (List.cons.inj e2).1
      omega

theorem padded_chars {k n c : Nat} (h : c = 10 ∨ c = 47) : c ∉ pad 48 k (hex n) := by
  intro m
  rcases List.mem_append.1 m with m | m
  · have := List.eq_of_mem_replicate m
    omega
  · have := hex_digits n c m
    omega

theorem showByte_inj {a b : Nat} {r s : Str} (h : showByte a ++ r = showByte b ++ s) : a = b ∧ r = s := by
  unfold showByte at h
  have h : str "0x" ++ (pad 48 2 (hex a) ++ 47 :: 39 :: a :: r) = str "0x" ++ (pad 48 2 (hex b) ++ 47 :: 39 :: b :: s) := by
    simpa [str] using h
  have h := (split_at (padded_chars (.inr rfl)) (padded_chars (.inr rfl)) (List.append_cancel_left h)).2
  simp only [List.cons.injEq, true_and] at h
  exact h

theorem testNot_inj {a b : Bool} {r s : Str} {x y : Nat} (h : testNot (flag a) ++ (showByte x ++ r) = testNot (flag b) ++ (showByte y ++ s)) :
    a = b ∧ x = y ∧ r = s := by
  cases a <;> cases b
  · exact ⟨rfl, showByte_inj h⟩
  · simp [testNot, flag, showByte, str] at h
  · simp [testNot, flag, showByte, str] at h
  · exact ⟨rfl, showByte_inj (List.append_cancel_left h)⟩

theorem decimal_inj {a b : Nat} {r s : Str} (h : decimal a ++ 10 :: r = decimal b ++ 10 :: s) : a = b ∧ r = s := by
  obtain ⟨h1, h2⟩ := split_at (not_digit (by omega)) (not_digit (by omega)) h
  exact ⟨decimal_eq h1, h2⟩

theorem showWord_inj {a b : Nat} {r s : Str} (h : showWord a ++ 10 :: r = showWord b ++ 10 :: s) : a = b ∧ r = s := by
  unfold showWord at h
  have h : str "0x" ++ (pad 48 8 (hex a) ++ 47 :: (decimal a ++ 10 :: r)) = str "0x" ++ (pad 48 8 (hex b) ++ 47 :: (decimal b ++ 10 :: s)) := by
    simpa [str] using h
  exact decimal_inj (split_at (padded_chars (.inr rfl)) (padded_chars (.inr rfl)) (List.append_cancel_left h)).2

/-- The text of an instruction. -/
def Item.text : Item → Str
  | .byte b neg => str "Byte " ++ testNot (flag neg) ++ showByte b ++ str "'"
  | .either a b neg => str "Either " ++ testNot (flag neg) ++ showByte a ++ str "', " ++ showByte b ++ str "'"
  | .range a b neg => str "Range " ++ testNot (flag neg) ++ showByte a ++ str "'-" ++ showByte b ++ str "'"
  | .any => str "Any"
  | .bits _ => str "BitVector"
  | .jump a => str "Jump " ++ showWord a
  | .fork a => str "Fork " ++ showWord a
  | .table a b _ => str "JmpTblRange " ++ showByte a ++ str "'-" ++ showByte b ++ str "'"
  | .check k => str "CheckHalt " ++ showWord k
  | .label l => str "Label " ++ decimal l
  | .adjust n => str "AdjustStart -" ++ decimal n
  | .match => str "Match"
  | .halt => str "Halt"
  | .finish => str "Finish"

theorem word_parts {op a b c : Nat} (h1 : op < 256) (h2 : a < 256) (h3 : b < 256) (h4 : c < 256) :
    mkWord op a b c % 256 = op ∧ mkWord op a b c / 256 % 256 = a ∧ mkWord op a b c / 65536 % 256 = b ∧ mkWord op a b c / 16777216 % 256 = c := by
  unfold mkWord
  omega

theorem flag_lt (neg : Bool) : flag neg < 256 := by cases neg <;> decide

theorem text_eq {x : Item} (hx : x.Fits) {next : Nat} (hn : ∀ a l, x.data = a :: l → next = a) : toString x.word next = x.text := by
  cases x with
  | byte b neg =>
    obtain ⟨e1, e2, e3, e4⟩ := word_parts (op := 1) (by decide) (flag_lt neg) hx (by decide : 0 < 256)
    unfold toString Item.word
    simp only [e1, e2, e3]
    rfl
  | either a b neg =>
    obtain ⟨e1, e2, e3, e4⟩ := word_parts (op := 3) (by decide) (flag_lt neg) hx.1 hx.2
    unfold toString Item.word
    simp only [e1, e2, e3, e4]
    rfl
  | range a b neg =>
    obtain ⟨e1, e2, e3, e4⟩ := word_parts (op := 4) (by decide) (flag_lt neg) hx.1 hx.2
    unfold toString Item.word
    simp only [e1, e2, e3, e4]
    rfl
  | table a b ws =>
    have hx : a ≤ b ∧ b < 256 ∧ _ := hx
    obtain ⟨e1, e2, e3, e4⟩ := word_parts (op := 0) (a := 0) (b := a) (c := b) (by decide) (by decide) (by omega) (by omega)
    unfold toString Item.word
    simp only [e1, e3, e4]
    rfl
  | check k =>
    have hx : k < 16777216 := hx
    unfold toString Item.word
    simp only [show (9 + 256 * k) % 256 = 9 by omega, show (9 + 256 * k) / 256 % 16777216 = k by omega]
    rfl
  | label k =>
    have hx : k < 16777216 := hx
    unfold toString Item.word
    simp only [show (10 + 256 * k) % 256 = 10 by omega, show (10 + 256 * k) / 256 % 16777216 = k by omega]
    rfl
  | adjust k =>
    have hx : k < 16777216 := hx
    unfold toString Item.word
    simp only [show (13 + 256 * k) % 256 = 13 by omega, show (13 + 256 * k) / 256 % 16777216 = k by omega]
    rfl
  | jump a => rw [hn a [] rfl]; rfl
  | fork a => rw [hn a [] rfl]; rfl
  | any => rfl
  | bits ws => rfl
  | «match» => rfl
  | halt => rfl
  | finish => rfl

theorem operands_eq {x : Item} (hx : x.Fits) : operands x.word = x.data.length := by
  cases x with
  | byte b neg =>
    obtain ⟨e1, -⟩ := word_parts (op := 1) (by decide) (flag_lt neg) hx (by decide : 0 < 256)
    unfold operands Item.word
    rw [e1]
    rfl
  | either a b neg =>
    obtain ⟨e1, -⟩ := word_parts (op := 3) (by decide) (flag_lt neg) hx.1 hx.2
    unfold operands Item.word
    rw [e1]
    rfl
  | range a b neg =>
    obtain ⟨e1, -⟩ := word_parts (op := 4) (by decide) (flag_lt neg) hx.1 hx.2
    unfold operands Item.word
    rw [e1]
    rfl
  | table a b ws =>
    have hx : a ≤ b ∧ b < 256 ∧ ws.length = b + 1 - a := hx
    obtain ⟨e1, -, e3, e4⟩ := word_parts (op := 0) (a := 0) (b := a) (c := b) (by decide) (by decide) (by omega) (by omega)
    unfold operands Item.word
    rw [e1, e3, e4]
    exact hx.2.2.symm
  | check k =>
    unfold operands Item.word
    rw [show (9 + 256 * k) % 256 = 9 by omega]
    rfl
  | label k =>
    unfold operands Item.word
    rw [show (10 + 256 * k) % 256 = 10 by omega]
    rfl
  | adjust k =>
    unfold operands Item.word
    rw [show (13 + 256 * k) % 256 = 13 by omega]
    rfl
  | bits ws => exact Eq.symm hx
  | jump a => rfl
  | fork a => rfl
  | any => rfl
  | «match» => rfl
  | halt => rfl
  | finish => rfl

/-- The first two letters of the name. -/
def Item.kind : Item → List Nat
  | .byte .. => [66, 121]
  | .either .. => [69, 105]
  | .range .. => [82, 97]
  | .any => [65, 110]
  | .bits _ => [66, 105]
  | .jump _ => [74, 117]
  | .fork _ => [70, 111]
  | .table .. => [74, 109]
  | .check _ => [67, 104]
  | .label _ => [76, 97]
  | .adjust _ => [65, 100]
  | .match => [77, 97]
  | .halt => [72, 97]
  | .finish => [70, 105]

theorem text_kind (x : Item) (r : Str) : (x.text ++ r).take 2 = x.kind := by
  cases x <;> simp [Item.text, Item.kind, str]

/-- The first line of an instruction says what it is. -/
theorem text_inj {x y : Item} {r s : Str} (h : x.text ++ 10 :: r = y.text ++ 10 :: s) : x.word = y.word ∧ r = s := by
  have hk : x.kind = y.kind := by rw [← text_kind x, h, text_kind]
  cases x <;> cases y <;> first | (exfalso; simp [Item.kind] at hk; done) | skip
  case byte.byte a n b m =>
    simp only [Item.text, List.append_assoc] at h
    obtain ⟨rfl, rfl, h1⟩ := testNot_inj (List.append_cancel_left h)
    exact ⟨rfl, (List.cons.inj (List.append_cancel_left h1)).2⟩
  case either.either a a' n b b' m =>
    simp only [Item.text, List.append_assoc] at h
    obtain ⟨rfl, rfl, h1⟩ := testNot_inj (List.append_cancel_left h)
    obtain ⟨rfl, h2⟩ := showByte_inj (List.append_cancel_left h1)
    exact ⟨rfl, (List.cons.inj (List.append_cancel_left h2)).2⟩
  case range.range a a' n b b' m =>
    simp only [Item.text, List.append_assoc] at h
    obtain ⟨rfl, rfl, h1⟩ := testNot_inj (List.append_cancel_left h)
    obtain ⟨rfl, h2⟩ := showByte_inj (List.append_cancel_left h1)
    exact ⟨rfl, (List.cons.inj (List.append_cancel_left h2)).2⟩
  case table.table a a' n b b' m =>
    simp only [Item.text, List.append_assoc] at h
    obtain ⟨rfl, h1⟩ := showByte_inj (List.append_cancel_left h)
    obtain ⟨rfl, h2⟩ := showByte_inj (List.append_cancel_left h1)
    exact ⟨rfl, (List.cons.inj (List.append_cancel_left h2)).2⟩
  case jump.jump a b =>
    simp only [Item.text, List.append_assoc] at h
    exact ⟨rfl, (showWord_inj (List.append_cancel_left h)).2⟩
  case fork.fork a b =>
    simp only [Item.text, List.append_assoc] at h
    exact ⟨rfl, (showWord_inj (List.append_cancel_left h)).2⟩
  case check.check a b =>
    simp only [Item.text, List.append_assoc] at h
    obtain ⟨rfl, h1⟩ := showWord_inj (List.append_cancel_left h)
    exact ⟨rfl, h1⟩
  case label.label a b =>
    simp only [Item.text, List.append_assoc] at h
    obtain ⟨rfl, h1⟩ := decimal_inj (List.append_cancel_left h)
    exact ⟨rfl, h1⟩
  case adjust.adjust a b =>
    simp only [Item.text, List.append_assoc] at h
    obtain ⟨rfl, h1⟩ := decimal_inj (List.append_cancel_left h)
    exact ⟨rfl, h1⟩
  all_goals exact ⟨rfl, (List.cons.inj (List.append_cancel_left h)).2⟩

theorem operandLine_inj {w i j x y : Nat} {r s : Str} (h : operandLine w i j x ++ r = operandLine w i j y ++ s) : x = y ∧ r = s := by
  have key : ∀ {p : Str}, p ++ (hex x ++ 10 :: r) = p ++ (hex y ++ 10 :: s) → x = y ∧ r = s := fun h => by
    obtain ⟨h1, h2⟩ := split_at (fun m => (hex_digits _ _ m).2.1 rfl) (fun m => (hex_digits _ _ m).2.1 rfl) (List.append_cancel_left h)
    exact ⟨hex_inj h1, h2⟩
  unfold operandLine at h
  split at h
  · exact key (p := printIndex i ++ pad 32 3 (hex (w / 65536 % 256 + j)) ++ str ": ") (by simpa using h)
  · exact key (p := pad 48 8 (hex i) ++ [9]) (by simpa using h)
  · exact key (p := printIndex i) (by simpa using h)

theorem operandLines_inj {w : Nat} {r s : Str} : ∀ {xs ys : List Nat} {i j : Nat}, xs.length = ys.length →
    operandLines w i j xs ++ r = operandLines w i j ys ++ s → xs = ys ∧ r = s
  | [], [], _, _, _, h => ⟨rfl, h⟩
  | [], _ :: _, _, _, hl, _ => by simp at hl
  | _ :: _, [], _, _, hl, _ => by simp at hl
  | x :: xs, y :: ys, i, j, hl, h => by
    simp only [operandLines, List.append_assoc] at h
    obtain ⟨e1, h⟩ := operandLine_inj h
    obtain ⟨e2, h⟩ := operandLines_inj (by simpa using hl) h
    exact ⟨by rw [e1, e2], h⟩

/-- The lines of instructions from an index on. -/
def texts : Nat → List Item → Str
  | _, [] => []
  | i, x :: xs => printIndex i ++ x.text ++ [10] ++ operandLines x.word (i + 1) 0 x.data ++ texts (i + 1 + x.data.length) xs

theorem listFrom_items : ∀ (items : List Item) (n i : Nat), (∀ x ∈ items, x.Fits) → (items.flatMap fun x => x.word :: x.data).length ≤ n →
    listFrom n i (items.flatMap fun x => x.word :: x.data) = some (texts i items)
  | [], n, i, _, _ => by cases n <;> rfl
  | x :: xs, 0, i, _, hn => by simp at hn
  | x :: xs, n + 1, i, hx, hn => by
    have hf := hx x (by simp)
    have ho := operands_eq hf
    have ih := listFrom_items xs n (i + 1 + x.data.length) (fun y hy => hx y (by simp [hy])) (by
      simp only [List.flatMap_cons, List.length_append, List.length_cons] at hn
      omega)
    simp only [List.flatMap_cons, List.cons_append, listFrom]
    rw [if_neg (by rw [ho, List.length_append]; omega), ho, List.drop_left, List.take_left, ih, text_eq hf (by
      intro a l e
      rw [e]
      rfl)]
    rfl

theorem texts_inj : ∀ {xs ys : List Item} {i : Nat}, (∀ x ∈ xs, x.Fits) → (∀ x ∈ ys, x.Fits) → texts i xs = texts i ys →
    (xs.flatMap fun x => x.word :: x.data) = ys.flatMap fun x => x.word :: x.data
  | [], [], _, _, _, _ => rfl
  | [], y :: ys, i, _, _, h => by
    have := congrArg List.length h
    simp [texts, printIndex] at this
  | x :: xs, [], i, _, _, h => by
    have := congrArg List.length h
    simp [texts, printIndex] at this
  | x :: xs, y :: ys, i, hx, hy, h => by
    simp only [texts, List.append_assoc] at h
    obtain ⟨h1, h⟩ := text_inj (List.append_cancel_left h)
    have hl : x.data.length = y.data.length := by
      rw [← operands_eq (hx x (by simp)), ← operands_eq (hy y (by simp)), h1]
    rw [h1, hl] at h
    obtain ⟨h2, h⟩ := operandLines_inj hl h
    have ih := texts_inj (fun z hz => hx z (by simp [hz])) (fun z hz => hy z (by simp [hz])) h
    simp only [List.flatMap_cons, h1, h2, ih]

/-- **C114.** Instructions with their operands are listed without reading behind the end, and their listing says what they
are. -/
theorem listing_read {c d : List Nat} (hc : Laid c) (hd : Laid d) : (∃ t, listing c = some t) ∧ (listing c = listing d → c = d) := by
  obtain ⟨xs, hx, rfl⟩ := hc
  obtain ⟨ys, hy, rfl⟩ := hd
  have h1 := listFrom_items xs _ 0 hx (Nat.le_refl _)
  have h2 := listFrom_items ys _ 0 hy (Nat.le_refl _)
  unfold listing
  rw [h1, h2]
  refine ⟨⟨_, rfl⟩, fun h => texts_inj hx hy (i := 0) ?_⟩
  exact List.append_cancel_right (Option.some.inj h)

/-! ## Compiled programs -/

section
open Verif.Compiler

theorem Laid.append {c d : List Nat} (hc : Laid c) (hd : Laid d) : Laid (c ++ d) := by
  obtain ⟨xs, hx, rfl⟩ := hc
  obtain ⟨ys, hy, rfl⟩ := hd
  exact ⟨xs ++ ys, fun z hz => (List.mem_append.1 hz).elim (hx z) (hy z), by rw [List.flatMap_append]⟩

theorem Laid.nil : Laid [] := ⟨[], by simp, rfl⟩

theorem Laid.one {x : Item} (h : x.Fits) : Laid (x.word :: x.data) := ⟨[x], by simpa using h, by simp⟩

theorem Laid.flatten : ∀ {l : List (List Nat)}, (∀ c ∈ l, Laid c) → Laid l.flatten
  | [], _ => .nil
  | c :: l, h => by
    rw [List.flatten_cons]
    exact (h c (by simp)).append (Laid.flatten fun d hd => h d (by simp [hd]))

theorem laid_fork (a : Nat) : Laid (fork a) := Laid.one (x := .fork a) trivial

theorem laid_jump (a : Nat) : Laid (jump a) := Laid.one (x := .jump a) trivial

theorem laid_forks (f : Nat → Nat) (l : List Nat) : Laid (l.flatMap fun u => fork (f u)) := by
  rw [List.flatMap_def]
  exact .flatten fun c hc => by
    obtain ⟨u, -, rfl⟩ := List.mem_map.1 hc
    exact laid_fork _

theorem laid_indirect (g : Nfa.Graph) (ts : List Nat) : Laid (indirect g ts) := by
  cases ts with
  | nil => exact .nil
  | cons t ts => exact (laid_forks _ _).append (laid_jump _)

theorem laid_tables (g : Nfa.Graph) (tbl : Nat → List Nat) : ∀ (is : List Nat) (ind : Nat), Laid (tableWords g tbl is ind).2
  | [], _ => .nil
  | i :: is, ind => by
    unfold tableWords
    split
    · exact laid_tables g tbl is ind
    · exact laid_tables g tbl is ind
    · exact (laid_indirect g _).append (laid_tables g tbl is _)

theorem laid_table {g : Nfa.Graph} (h : WF g) {v : Nat} (hv : v < g.n) (ht : isTable g v = true) (a : Nat) : Laid (jumpTable g v a) := by
  obtain ⟨first, last, h1, h2, h3, -⟩ := extent_eq (pivot g v) (table_two h hv ht)
  unfold jumpTable
  dsimp only
  rw [h3]
  dsimp only
  obtain ⟨l1, -⟩ := tableWords_length g (pivot g v) (List.range' first (last + 1 - first)) (a + 2 + (last - first))
  rw [← List.cons_append]
  refine .append (.one (x := .table first last _) ⟨by omega, h2, ?_⟩) (laid_tables _ _ _ _)
  rw [l1, List.length_range']

theorem laid_emit {s : ByteSet.Bits} {ws : List Nat} (h : (Transition.getSmallest s).emit = some ws) : Laid ws := by
  have hok := Transition.getSmallest_ok s
  cases hg : Transition.getSmallest s with
  | byte b =>
    rw [hg] at h hok
    cases h
    exact .one (x := .byte b false) hok
  | either a b =>
    rw [hg] at h hok
    cases h
    exact .one (x := .either a b false) hok
  | range a b =>
    rw [hg] at h hok
    have hok : a ≤ b ∧ b < 256 := hok
    simp only [Transition.Trans.emit] at h
    split at h
    · cases h
      exact .one (x := .any) trivial
    · split at h
      · cases h
      · cases h
        exact .one (x := .range a b false) ⟨by omega, hok.2⟩
  | set t =>
    rw [hg] at h
    cases h
    exact .one (x := .bits _) (by simp [Item.Fits])

theorem laid_raw {op k : Nat} {ws : List Nat} (h : raw24 op k = some ws) (ho : op = 9 ∨ op = 10) : Laid ws := by
  unfold raw24 at h
  split at h
  · rename_i hk
    cases h
    rcases ho with rfl | rfl
    · exact .one (x := .check k) hk
    · exact .one (x := .label k) hk
  · cases h

theorem laid_marks {g : Nfa.Graph} {v : Nat} {ws : List Nat} (h : emitMarks g v = some ws) : Laid ws := by
  unfold emitMarks at h
  simp only [Option.bind_eq_bind, Option.bind_eq_some_iff] at h
  obtain ⟨l, h1, c, h2, h3⟩ := h
  cases h3
  refine .append ?_ ?_
  · split at h1
    · cases h1; exact .nil
    · exact laid_raw h1 (.inr rfl)
  · split at h2
    · cases h2; exact .nil
    · exact laid_raw h2 (.inl rfl)

theorem laid_match (g : Nfa.Graph) (v : Nat) : Laid (emitMatch g v) := by
  unfold emitMatch
  split
  · rw [← List.singleton_append]
    refine Laid.append (.one (x := .match) trivial) ?_
    by_cases ho : (g.v v).out = []
    · rw [if_pos ho]
      exact .one (x := .finish) trivial
    · rw [if_neg ho]
      exact laid_fork _
  · exact .nil

theorem laid_out (g : Nfa.Graph) (v : Nat) : Laid (emitOut g v) := by
  unfold emitOut
  split
  · exact .nil
  · refine (laid_forks _ _).append ?_
    split
    · exact .nil
    · exact laid_jump _

theorem laid_words {g : Nfa.Graph} (h : WF g) {v : Nat} (hv : v < g.n) {ws : List Nat} (hw : encodeState g v = some ws) : Laid ws := by
  unfold encodeState at hw
  simp only [Option.bind_eq_bind, Option.bind_eq_some_iff] at hw
  obtain ⟨p, h1, h2⟩ := hw
  have hp : Laid p := by
    unfold emitPre at h1
    split at h1
    · cases h1; exact .nil
    · simp only [Option.bind_eq_bind, Option.bind_eq_some_iff] at h1
      obtain ⟨e, h3, m, h4, h5⟩ := h1
      cases h5
      exact ((laid_emit h3).append (laid_marks h4)).append (laid_match g v)
  split at h2
  · rename_i ht
    cases h2
    exact hp.append (laid_table h hv ht _)
  · cases h2
    exact hp.append (laid_out g v)

theorem codegen_laid {g : Nfa.Graph} (h : WF g) {code : List Nat} (hc : codegen g = .ok code) : Laid code := by
  have henc : ∀ v < g.n, encodeState g v ≠ none := fun v hv hn => by
    rw [codegen_threw h ⟨v, hv, hn⟩] at hc
    cases hc
  obtain ⟨code', c1, c2, -, c4⟩ := layout_consistent_partial h henc
  rw [hc] at c1
  cases c1
  rw [c4]
  refine .append (.flatten fun c m => ?_) (Laid.append (c := [mkWord 12 0 0 0]) (.one (x := .halt) trivial) (.one (x := .finish) trivial))
  obtain ⟨v, hv, rfl⟩ := List.mem_map.1 m
  have hv : v < g.n := by simpa using c2.mem_iff.1 hv
  obtain ⟨ws, hws⟩ := Option.ne_none_iff_exists'.1 (henc v hv)
  rw [words, hws]
  exact laid_words h hv hws

end

end Verif.Listing
