import Verif.Props.Alternatives
/-!
# C107 from the text: `fox|fa|foxes`

The texts that list strings with `|` between them are of the kind that `listed_hits` is about.
-/
namespace Verif.Session
open Verif.Encoders Verif.Chain Verif.Nfa Verif.NfaBuilder Verif.Fsm Verif.Subset
open Verif.Regex (Tree)
open Verif.Parser (Env PatternOpts LTok Means Re Opts)

/-! ## Specification -/

/-- A string as it is written in a pattern: with a backslash before every character that has a meaning
somewhere in a pattern: `| ( ) ? + * . [ ] ^ $ - { } & ~ < = ! \`. -/
def written (w : List Nat) : List Nat :=
  w.flatMap fun c =>
    if c ∈ [124, 40, 41, 63, 43, 42, 46, 91, 93, 94, 36, 45, 123, 125, 38, 126, 60, 61, 33, 92] then [92, c] else [c]

/-- The strings with `|` between them. -/
def anyOf : List (List Nat) → List Nat
  | [] => []
  | [w] => written w
  | w :: ws => written w ++ 124 :: anyOf ws

/-- The request asks, case-sensitively and in UTF-8, for any of these strings of characters. -/
structure AsksFor (r : Request) (ws : List (List Nat)) : Prop where
  pattern : r.opts.fixed = false
  cased : r.opts.caseless = false
  any : ws ≠ []
  nonempty : ∀ w ∈ ws, w ≠ []
  scalar : ∀ w ∈ ws, ∀ c ∈ w, c ≠ 0 ∧ Utf.Scalar c
  text : r.expr.map UInt8.toNat = (anyOf ws).flatMap Utf.spec8

/-- The bytes of the strings, without those that have characters the encoding does not have. -/
def bytesOfAll (enc : Nat → List Nat) (ws : List (List Nat)) : List (List UInt8) :=
  (ws.filter fun w => w.all fun c => decide (enc c ≠ [])).map fun w => toBytes (w.flatMap enc)

/-! ## The tokens -/

theorem anyOf_cons (w w' : List Nat) (ws : List (List Nat)) : anyOf (w :: w' :: ws) = written w ++ 124 :: anyOf (w' :: ws) := rfl

theorem lex_step {env : Env} {N n : Nat} {c : Int} {t rest : List Int} {tok : Parser.Tok}
    (e : Parser.lexOne env false c t = (tok, rest)) :
    ∃ a b, Parser.lex env false N (n + 1) (c :: t) = ⟨tok, a, b⟩ :: Parser.lex env false N n rest := by
  rw [Parser.lex]
  simp only [e]
  exact ⟨_, _, rfl⟩

theorem lex_written (env : Env) (N : Nat) (rest : List Int) : ∀ (w : List Nat) (n : Nat),
    (written w).length + rest.length ≤ n → 0 ∉ w →
    ∃ us m, rest.length ≤ m ∧ List.Forall₂ Means us (w.map fun c : Nat => (c : Int)) ∧
      Parser.lex env false N n ((written w).map (fun c : Nat => (c : Int)) ++ rest) = us ++ Parser.lex env false N m rest
  | [], n, h, _ => ⟨[], n, by simpa [written] using h, .nil, rfl⟩
  | c :: t, n, h, h0 => by
    have h1 : ¬ (c : Int) < 1 := by
      have : c ≠ 0 := fun e => h0 (by simp [e])
      omega
    have h0' : 0 ∉ t := fun e => h0 (by simp [e])
    have hq : written (c :: t) = (if c ∈ [124, 40, 41, 63, 43, 42, 46, 91, 93, 94, 36, 45, 123, 125, 38, 126, 60, 61, 33, 92]
        then [92, c] else [c]) ++ written t := by simp [written]
    rw [hq] at h ⊢
    by_cases hm : c ∈ [124, 40, 41, 63, 43, 42, 46, 91, 93, 94, 36, 45, 123, 125, 38, 126, 60, 61, 33, 92]
    · rw [if_pos hm] at h ⊢
      simp only [List.length_append, List.length_cons, List.length_nil] at h
      obtain ⟨n, rfl⟩ : ∃ m, n = m + 1 := ⟨n - 1, by omega⟩
      obtain ⟨us, m, a1, a2, a3⟩ := lex_written env N rest t n (by omega) h0'
      have hm' : (c : Int) ∈ Parser.metas := by
        simp only [Parser.metas, List.mem_cons, List.not_mem_nil, or_false] at hm ⊢
        omega
      have e : Parser.lexOne env false 92 ((c : Int) :: ((written t).map (fun c : Nat => (c : Int)) ++ rest)) =
          (.char c, (written t).map (fun c : Nat => (c : Int)) ++ rest) := by
        simp [Parser.lexOne, Parser.symbols, Parser.escape, hm']
      obtain ⟨a, b, hl⟩ := lex_step (N := N) (n := n) e
      refine ⟨⟨.char c, a, b⟩ :: us, m, a1, .cons (Or.inl (by simp)) a2, ?_⟩
      show _ = _ :: (us ++ _)
      rw [← a3]
      exact hl
    · rw [if_neg hm] at h ⊢
      simp only [List.length_append, List.length_cons, List.length_nil] at h
      obtain ⟨n, rfl⟩ : ∃ m, n = m + 1 := ⟨n - 1, by omega⟩
      obtain ⟨us, m, a1, a2, a3⟩ := lex_written env N rest t n (by omega) h0'
      have hm' := hm
      simp only [List.mem_cons, List.not_mem_nil, or_false, not_or] at hm'
      obtain ⟨tok, e, hmean⟩ : ∃ tok, Parser.lexOne env false (c : Int) ((written t).map (fun c : Nat => (c : Int)) ++ rest) =
          (tok, (written t).map (fun c : Nat => (c : Int)) ++ rest) ∧ ∀ a b, Means ⟨tok, a, b⟩ c := by
        by_cases hs : (c : Int) ∈ Parser.symbols
        · refine ⟨.sym c, by simp [Parser.lexOne, h1, hs], fun a b => Or.inr (Or.inr ⟨by simp, ?_⟩)⟩
          simp only [Parser.symbols, List.mem_cons, List.not_mem_nil, or_false] at hs ⊢
          omega
        · have g1 : (c : Int) ≠ 38 := by omega
          have g2 : (c : Int) ≠ 126 := by omega
          have g3 : (c : Int) ≠ 45 := by omega
          have g4 : (c : Int) ≠ 92 := by omega
          by_cases hd : 48 ≤ (c : Int) ∧ (c : Int) ≤ 57
          · exact ⟨.digit c, by simp [Parser.lexOne, h1, hs, g1, g2, g3, g4, hd], fun a b => Or.inr (Or.inl (by simp))⟩
          · exact ⟨.char c, by simp [Parser.lexOne, h1, hs, g1, g2, g3, g4]; omega, fun a b => Or.inl (by simp)⟩
      obtain ⟨a, b, hl⟩ := lex_step (N := N) (n := n) e
      refine ⟨_ :: us, m, a1, .cons (hmean a b) a2, ?_⟩
      show _ = _ :: (us ++ _)
      rw [← a3]
      exact hl

/-- The tokens of strings with a `|` before each. -/
inductive Barred : List LTok → List (List Nat) → Prop
  | nil : Barred [] []
  | cons {x us w vs ws} : x.tok = .sym 124 → List.Forall₂ Means us (w.map fun c : Nat => (c : Int)) → Barred vs ws →
      Barred (x :: (us ++ vs)) (w :: ws)

theorem lex_anyOf (env : Env) (N : Nat) : ∀ (ws : List (List Nat)) (w : List Nat) (n : Nat), (anyOf (w :: ws)).length ≤ n →
    (∀ v ∈ w :: ws, 0 ∉ v) → ∃ us vs, List.Forall₂ Means us (w.map fun c : Nat => (c : Int)) ∧ Barred vs ws ∧
      Parser.lex env false N n ((anyOf (w :: ws)).map fun c : Nat => (c : Int)) = us ++ vs
  | [], w, n, h, h0 => by
    obtain ⟨us, m, a1, a2, a3⟩ := lex_written env N [] w n (by simpa [anyOf] using h) (h0 w (by simp))
    refine ⟨us, [], a2, .nil, ?_⟩
    rw [List.append_nil] at a3
    rw [anyOf, a3]
    cases m <;> rfl
  | w' :: ws, w, n, h, h0 => by
    rw [anyOf_cons] at h ⊢
    obtain ⟨us, m, a1, a2, a3⟩ := lex_written env N ((124 :: anyOf (w' :: ws)).map fun c : Nat => (c : Int)) w n
      (by simpa using h) (h0 w (by simp))
    rw [List.length_map, List.length_cons] at a1
    obtain ⟨m, rfl⟩ : ∃ k, m = k + 1 := ⟨m - 1, by omega⟩
    obtain ⟨us', vs', b1, b2, b3⟩ := lex_anyOf env N ws w' m (by omega) (fun v hv => h0 v (by simp [List.mem_cons.1 hv]))
    have e : Parser.lexOne env false 124 ((anyOf (w' :: ws)).map fun c : Nat => (c : Int)) =
        (.sym 124, (anyOf (w' :: ws)).map fun c : Nat => (c : Int)) := by
      simp [Parser.lexOne, Parser.symbols]
    obtain ⟨a, b, hl⟩ := lex_step (N := N) (n := m) e
    refine ⟨us, ⟨.sym 124, a, b⟩ :: (us' ++ vs'), a2, .cons rfl b1 b2, ?_⟩
    rw [List.map_append, a3, ← b3, ← hl]
    rfl

/-! ## The tree -/

theorem re_append {env : Env} {o : Opts} (ho : o.cased = true) : ∀ (us : List LTok) (w : List Nat),
    List.Forall₂ Means us (w.map fun c : Nat => (c : Int)) → ∀ {b p t j}, Re env (.concat b) o p t o j →
    ∃ b' j', Re env (.concat b') o (p ++ us) (fixedTree t w) o j'
  | [], [], _, b, p, t, j, h => ⟨b, j, by simpa [fixedTree] using h⟩
  | u :: us, c :: w, hm, b, p, t, j, h => by
    cases hm with
    | cons hu hus =>
      obtain ⟨-, -, -, -, -, -, -, h8, h9⟩ := hu.plain
      have ha : Re env (.rep true) o [u] (.leaf (.lit c)) o 1 :=
        .atom (.simple (by rw [h9]; simp [Parser.literal, ho, bind, Except.bind]))
      have hc := Re.cat h ha (fun _ hs => by obtain ⟨x, xs, e, hx⟩ := hs; simp_all)
      obtain ⟨b', j', hr⟩ := re_append ho us w hus hc
      exact ⟨b', j', by simpa [fixedTree] using hr⟩
  | [], _ :: _, hm, _, _, _, _, _ => by cases hm
  | _ :: _, [], hm, _, _, _, _, _ => by cases hm

theorem re_word {env : Env} {o : Opts} (ho : o.cased = true) {us : List LTok} {c : Nat} {w : List Nat}
    (hm : List.Forall₂ Means us ((c :: w).map fun c : Nat => (c : Int))) :
    ∃ b j, Re env (.concat b) o us (fixedTree (.leaf (.lit c)) w) o j := by
  cases hm with
  | cons hu hus =>
    obtain ⟨-, -, -, -, -, -, -, h8, h9⟩ := hu.plain
    have ha : Re env (.rep true) o [_] (.leaf (.lit c)) o 1 :=
      .atom (.simple (by rw [h9]; simp [Parser.literal, ho, bind, Except.bind]))
    exact re_append ho _ w hus (.rep ha)

theorem fixedTree_spelled : ∀ (w : List Nat) (t : Tree Node), Spelled t → Spelled (fixedTree t w)
  | [], _, h => h
  | c :: w, t, h => fixedTree_spelled w (.cat t (.leaf (.lit c))) ⟨h, trivial⟩

theorem bytesOfAll_append {enc : Nat → List Nat} (a b : List (List Nat)) :
    bytesOfAll enc (a ++ b) = bytesOfAll enc a ++ bytesOfAll enc b := by
  simp [bytesOfAll]

theorem fixedTree_listed {enc : Nat → List Nat} : ∀ (w v : List Nat) (t : Tree Node), listed enc t = bytesOfAll enc [v] →
    listed enc (fixedTree t w) = bytesOfAll enc [v ++ w]
  | [], v, t, h => by simpa [fixedTree] using h
  | c :: w, v, t, h => by
    have := fixedTree_listed w (v ++ [c]) (.cat t (.leaf (.lit c))) (by
      rw [listed, h, listed]
      by_cases hc : enc c = []
      · simp [bytesOfAll, hc]
      · simp only [bytesOfAll, List.filter_cons, List.filter_nil, List.all_append, List.all_cons, List.all_nil, hc, if_false]
        cases v.all fun c => decide (enc c ≠ []) <;> simp [hc, toBytes])
    simpa [fixedTree] using this

theorem re_anyOf {env : Env} {o : Opts} (ho : o.cased = true) {vs : List LTok} {ws : List (List Nat)} (hb : Barred vs ws) :
    ∀ {b p t j}, (∀ w ∈ ws, w ≠ []) → Re env (.alt b) o p t o j → Lists t →
    ∃ b' t' j', Re env (.alt b') o (p ++ vs) t' o j' ∧ Lists t' ∧ ∀ enc, listed enc t' = listed enc t ++ bytesOfAll enc ws := by
  induction hb with
  | nil => intro b p t j _ h hl; exact ⟨b, t, j, by simpa using h, hl, fun enc => by simp [bytesOfAll]⟩
  | @cons x us w vs ws hx hm _ ih =>
    intro b p t j hne h hl
    obtain ⟨c, w, rfl⟩ := List.exists_cons_of_ne_nil (hne w (by simp))
    obtain ⟨b1, j1, hw⟩ := re_word (env := env) ho hm
    have hs : Spelled (fixedTree (.leaf (.lit c)) w) := fixedTree_spelled w _ trivial
    obtain ⟨b', t', j', hr, hl', hls⟩ := ih (fun w hw => hne w (by simp [hw])) (.alt h hx hw) ⟨hl, hs.lists⟩
    refine ⟨b', t', j', by simpa using hr, hl', fun enc => ?_⟩
    rw [hls, listed, fixedTree_listed w [c] _ (by by_cases hc : enc c = [] <;> simp [listed, bytesOfAll, hc]),
      List.append_assoc, ← bytesOfAll_append]
    rfl

/-- Strings with `|` between them are read as alternatives, in order. -/
theorem AsksFor.parsed {env : Env} {r : Request} {ws : List (List Nat)} (h : AsksFor r ws) :
    ∃ t j, Text.parseText env r.opts r.expr = .ok (t, j) ∧ Lists t ∧ ∀ enc, listed enc t = bytesOfAll enc ws := by
  have hsc : ∀ ws : List (List Nat), (∀ w ∈ ws, ∀ c ∈ w, Utf.Scalar c) → ∀ c ∈ anyOf ws, Utf.Scalar c := by
    have h1 : ∀ w : List Nat, (∀ c ∈ w, Utf.Scalar c) → ∀ c ∈ written w, Utf.Scalar c := by
      intro w hw c hc
      obtain ⟨x, hx, hc⟩ := List.mem_flatMap.1 hc
      split at hc
      · rcases List.mem_cons.1 hc with rfl | hc
        · simp [Utf.Scalar]
        · rw [List.mem_singleton.1 hc]; exact hw x hx
      · rw [List.mem_singleton.1 hc]; exact hw x hx
    intro ws
    induction ws with
    | nil => intro _ c hc; cases hc
    | cons w ws ih =>
      intro hw c hc
      cases ws with
      | nil => exact h1 w (hw w (by simp)) c hc
      | cons w' ws =>
        rw [anyOf_cons] at hc
        rcases List.mem_append.1 hc with hc | hc
        · exact h1 w (hw w (by simp)) c hc
        · rcases List.mem_cons.1 hc with rfl | hc
          · simp [Utf.Scalar]
          · exact ih (fun w hw' => hw w (by simp [List.mem_cons.1 hw'])) c hc
  have hcp : Text.codePoints r.expr = some ((anyOf ws).map fun c : Nat => (c : Int)) := by
    have hscal := hsc ws (fun w hw c hc => (h.scalar w hw c hc).2)
    unfold Text.codePoints
    have enc : ∀ c ∈ anyOf ws, Utf.spec8 c = Utf.cpToUtf8 c := by
      intro c hc
      rw [Utf.cpToUtf8_spec, if_pos ⟨by omega, by simpa using hscal c hc⟩]; simp
    have hd := Utf.patternText_decodes (anyOf ws) hscal
    rw [h.text, List.flatMap_def, List.map_congr_left enc, ← List.flatMap_def, hd]
    simp
  obtain ⟨w, ws, rfl⟩ := List.exists_cons_of_ne_nil h.any
  obtain ⟨c, w, rfl⟩ := List.exists_cons_of_ne_nil (h.nonempty w (by simp))
  obtain ⟨us, vs, h1, h2, h3⟩ := lex_anyOf env (anyOf ((c :: w) :: ws)).length ws (c :: w) _ (Nat.le_refl _)
    (fun v hv h0 => (h.scalar v hv 0 h0).1 rfl)
  obtain ⟨b, j, hw⟩ := re_word (env := env) (o := ⟨true, !r.opts.unicode⟩) rfl h1
  have hs : Spelled (fixedTree (.leaf (.lit c)) w) := fixedTree_spelled w _ trivial
  obtain ⟨b', t', j', hr, hl, hls⟩ := re_anyOf rfl h2 (fun w hw => h.nonempty w (by simp [hw])) (.concat hw) hs.lists
  refine ⟨t', j' + 1, ?_, hl, fun enc => ?_⟩
  · rw [Text.parseText, hcp]
    unfold Parser.parse
    rw [h.pattern, h.cased]
    dsimp only
    rw [List.length_map, h3]
    exact (Parser.parse_iff_derives _ _ _ _ _).2 ⟨b', _, j', hr, rfl⟩
  · rw [hls, fixedTree_listed w [c] _ (by by_cases hc : enc c = [] <;> simp [listed, bytesOfAll, hc]), ← bytesOfAll_append]
    rfl

/-! ## The theorem -/

/-- **C107** A request asks for any of a list of strings, as in `fox|fa|foxes`, and is accepted, whatever else
is asked for in the same program.  Then the hits with its number are, from left to right and without overlaps,
the places where one of the strings occurs in the encoding of the request, each with the end of the first in the
list of those that occur there, for every division of the stream into buffers. -/
theorem any_of_hits [Build] {env : Env} (he : env.Sound) {rs : List Request} {os : List (Option Nat)} {g : Graph}
    {P : Vm.Program} (h : Compiled env rs os g P) {i l : Nat} {r : Request} (hr : rs[i]? = some r) (ho : os[i]? = some (some l))
    {ws : List (List Nat)} (hw : AsksFor r ws) :
    ∃ k ts, Reads r.chain k ts ∧ bytesOfAll (charBytes k ts) ws ≠ [] ∧ (∀ w ∈ bytesOfAll (charBytes k ts) ws, w ≠ []) ∧
      ∀ {fuel : Nat} {first : List Vm.Thread} {σ₀ : Vm.St}, Vm.create P fuel = .ok (first, σ₀) →
      ∀ {off : Nat} {bufs : List (List UInt8)} {res : List (Option Nat)} {σ : Vm.St},
        Vm.run P first fuel (Vm.searches off bufs) σ₀ = .ok (res, σ) →
        Vm.hitsOf l σ.log = firstListed (bytesOfAll (charBytes k ts) ws) off 0 bufs.flatten := by
  obtain ⟨t, j, hp, hl, hls⟩ := hw.parsed (env := env)
  obtain ⟨k, ts, a1, a2, a3, a4⟩ := listed_hits he h hr ho hp hl
  rw [hls] at a2 a3 a4
  exact ⟨k, ts, a1, a2, a3, a4⟩

/-! ## Example -/

-- `fox|fa\.|é`
example : anyOf [[102, 111, 120], [102, 97, 46], [233]] = [102, 111, 120, 124, 102, 97, 92, 46, 124, 233] := by decide

example : AsksFor ⟨[0x66, 0x6f, 0x78, 0x7c, 0x66, 0x61, 0x5c, 0x2e, 0x7c, 0xc3, 0xa9], ⟨false, false, false⟩, name "UTF-8"⟩
    [[102, 111, 120], [102, 97, 46], [233]] :=
  ⟨rfl, rfl, by simp, by simp, by simp [Utf.Scalar], by decide⟩

end Verif.Session
