import Verif.Props.Faults
/-!
# C72, continued: where a pattern is refused there is no way to go on
-/
namespace Verif.Parser

open Verif.Regex (Tree UNB)
open Verif.Encoders (Node)

/-! ## Specification -/

/-- The tokens are those of a pattern. -/
def Accepted (env : Env) (o : Opts) (ts : List LTok) : Prop := ∃ b t o' k, Re env (.alt b) o ts t o' k

/-- The message is not about something that is not closed. -/
def Final (k : ErrKind) : Prop := k ≠ .unmatchedParen ∧ k ≠ .unmatchedBracket

/-- `z` after `p` is the token that ends at `e`, or for a missing operand possibly the token
after the one that ends there. -/
def AtEnd (p : List LTok) (z : LTok) (k : ErrKind) (e : Nat) : Prop :=
  z.last = e ∨ k = .missingOperand ∧ ∃ p' x, p = p' ++ [x] ∧ x.last = e

/-! ## Functions that look at one token ahead -/

/-- The same first token, or none. -/
def Hd (ts us : List LTok) : Prop := ts.head? = us.head?

theorem Hd.nil {us} (h : Hd [] us) : us = [] := by
  cases us with
  | nil => rfl
  | cons => cases h

theorem Hd.cons {t ts us} (h : Hd (t :: ts) us) : ∃ us', us = t :: us' := by
  cases us with
  | nil => cases h
  | cons u us => cases h; exact ⟨us, rfl⟩

theorem hd_append {p ts us} (h : Hd ts us) : Hd (p ++ ts) (p ++ us) := by
  cases p with
  | nil => exact h
  | cons => rfl

variable {α β γ : Type}

/-- The error is decided by the tokens up to the end of its range. -/
def Decides (n : Nat) (f : Nat → List LTok → Except Err α) (ts : List LTok) : Err → Prop
  | .report k _ e => Final k → ∃ p z q, ts = p ++ z :: q ∧ AtEnd p z k e ∧
      ∀ m, n ≤ m → ∀ q', ∃ b' e', f m (p ++ z :: q') = .error (.report k b' e')
  | _ => True

/-- What `f` makes of `ts` does not depend on what follows the next token, nor on fuel. -/
def Steady (n : Nat) (f : Nat → List LTok → Except Err (α × List LTok)) (ts : List LTok) : Prop :=
  (∀ c ws, f n ts = .ok (c, ws) →
    ∃ p, ts = p ++ ws ∧ ∀ m, n ≤ m → ∀ ws', Hd ws ws' → f m (p ++ ws') = .ok (c, ws')) ∧
  (∀ e, f n ts = .error e → Decides n f ts e)

theorem AtEnd.append {a p z k e} (h : AtEnd p z k e) : AtEnd (a ++ p) z k e := by
  rcases h with h | ⟨h, p', x, rfl, hx⟩
  · exact Or.inl h
  · exact Or.inr ⟨h, a ++ p', x, by simp, hx⟩

theorem Steady.congr {n : Nat} {f f' : Nat → List LTok → Except Err (α × List LTok)} {a ts}
    (hs : Steady n f' ts) (h : ∀ m, n ≤ m → ∀ ts', Hd ts ts' → f m (a ++ ts') = f' m ts') :
    Steady n f (a ++ ts) := by
  have h0 := h n (Nat.le_refl _) ts rfl
  constructor
  · intro c ws hc
    rw [h0] at hc
    obtain ⟨p, rfl, hp⟩ := hs.1 c ws hc
    refine ⟨a ++ p, by simp, fun m hm ws' hw => ?_⟩
    rw [List.append_assoc, h m hm _ (hd_append hw)]
    exact hp m hm ws' hw
  · intro e he
    rw [h0] at he
    have := hs.2 e he
    cases e with
    | report k b e =>
      intro hk
      obtain ⟨p, z, q, rfl, hz, hp⟩ := this hk
      refine ⟨a ++ p, z, q, by simp, hz.append, fun m hm q' => ?_⟩
      obtain ⟨b', e', h'⟩ := hp m hm q'
      refine ⟨b', e', ?_⟩
      rw [List.append_assoc, h m hm _ (hd_append (show Hd (z :: q) (z :: q') from rfl)), h']
    | _ => trivial

theorem Steady.succ {n : Nat} {f : Nat → List LTok → Except Err (α × List LTok)} {ts}
    (hs : Steady n (fun m => f (m + 1)) ts) : Steady (n + 1) f ts := by
  constructor
  · intro c ws hc
    obtain ⟨p, e, hp⟩ := hs.1 c ws hc
    refine ⟨p, e, fun m hm ws' hw => ?_⟩
    obtain ⟨m, rfl⟩ : ∃ j, m = j + 1 := ⟨m - 1, by omega⟩
    exact hp m (by omega) ws' hw
  · intro e he
    have := hs.2 e he
    cases e with
    | report k b e =>
      intro hk
      obtain ⟨p, z, q, e, hz, hp⟩ := this hk
      refine ⟨p, z, q, e, hz, fun m hm q' => ?_⟩
      obtain ⟨m, rfl⟩ : ∃ j, m = j + 1 := ⟨m - 1, by omega⟩
      exact hp m (by omega) q'
    | _ => trivial

theorem steady_ret (n : Nat) (c : α) (ts : List LTok) : Steady n (fun _ ts => .ok (c, ts)) ts := by
  constructor
  · intro c' ws h
    cases h
    exact ⟨[], rfl, fun _ _ _ _ => rfl⟩
  · intro e h; cases h

theorem steady_none (n : Nat) {e : Err} (he : ∀ k b f, e = .report k b f → ¬ Final k) (ts : List LTok) :
    Steady (α := α) n (fun _ _ => .error e) ts := by
  constructor
  · intro c ws h; cases h
  · intro e' h
    cases h
    cases e with
    | report k b f => exact fun hk => absurd hk (he k b f rfl)
    | _ => trivial

theorem steady_report (n : Nat) (k : ErrKind) (b : Nat) (z : LTok) (ts : List LTok) :
    Steady (α := α) n (fun _ _ => .error (.report k b z.last)) (z :: ts) := by
  constructor
  · intro c ws h; cases h
  · intro e h
    cases h
    exact fun _ => ⟨[], z, ts, rfl, Or.inl rfl, fun _ _ _ => ⟨_, _, rfl⟩⟩

theorem unexpected_cases (t : LTok) :
    (∀ ts, unexpected (t :: ts) = .report .invalidEscape t.first t.last) ∨ (∀ ts, unexpected (t :: ts) = .thrown) ∨
    (∀ ts, unexpected (t :: ts) = .report .nonatomicRepetition t.first t.last) := by
  by_cases h1 : t.tok = .bad
  · exact Or.inl fun _ => by simp only [unexpected, if_pos h1]
  · by_cases h2 : t.tok = .noProp
    · exact Or.inr (Or.inl fun _ => by simp only [unexpected, if_neg h1, if_pos h2])
    · exact Or.inr (Or.inr fun _ => by simp only [unexpected, if_neg h1, if_neg h2])

theorem steady_unexpected (n : Nat) (ts : List LTok) :
    Steady (α := α) n (fun _ ts => .error (unexpected ts)) ts := by
  cases ts with
  | nil =>
    constructor
    · intro _ _ h; cases h
    · intro e h; cases h; trivial
  | cons t ts =>
    constructor
    · intro _ _ h; cases h
    intro e h
    cases h
    rcases unexpected_cases t with h | h | h
    · rw [h]
      exact fun _ => ⟨[], t, ts, rfl, Or.inl rfl, fun _ _ q' => ⟨_, _, congrArg Except.error (h q')⟩⟩
    · rw [h]; trivial
    · rw [h]
      exact fun _ => ⟨[], t, ts, rfl, Or.inl rfl, fun _ _ q' => ⟨_, _, congrArg Except.error (h q')⟩⟩

/-- Errors are passed on, except that the end of the text becomes something not closed. -/
def Wraps (w : Err → Err) : Prop :=
  (∀ k b e, w (.report k b e) = .report k b e) ∧
  ∀ e, (∀ k b f, e ≠ .report k b f) → ∀ k b f, w e = .report k b f → ¬ Final k

theorem wraps_id : Wraps id := ⟨fun _ _ _ => rfl, fun _ h k b f h' => absurd h' (h k b f)⟩

theorem wraps_unclosed {kk : ErrKind} (hk : ¬ Final kk) (t : LTok) : Wraps (unclosed kk t) := by
  refine ⟨fun _ _ _ => rfl, fun e h k b f h' => ?_⟩
  cases e with
  | report k b e => exact absurd rfl (h _ _ _)
  | eof => cases h'; exact hk
  | _ => cases h'

theorem bracket_notFinal : ¬ Final .unmatchedBracket := fun h => h.2 rfl
theorem paren_notFinal : ¬ Final .unmatchedParen := fun h => h.1 rfl

/-- First `g`, then `h` on the rest. -/
def andThen (w : Err → Err) (g : Nat → List LTok → Except Err (α × List LTok))
    (h : α → Nat → List LTok → Except Err (β × List LTok)) (m : Nat) (ts : List LTok) : Except Err (β × List LTok) :=
  match g m ts with
  | .error e => .error (w e)
  | .ok (c, ws) => h c m ws

theorem Steady.andThen {n : Nat} {w : Err → Err} (hw : Wraps w) {g : Nat → List LTok → Except Err (α × List LTok)}
    {h : α → Nat → List LTok → Except Err (β × List LTok)} {ts} (hg : Steady n g ts)
    (hh : ∀ c ws, g n ts = .ok (c, ws) → Steady n (h c) ws) : Steady n (andThen w g h) ts := by
  constructor
  · intro c ws hc
    unfold Parser.andThen at hc
    cases hg' : g n ts with
    | error e => rw [hg'] at hc; cases hc
    | ok r =>
      obtain ⟨d, vs⟩ := r
      rw [hg'] at hc
      obtain ⟨p, rfl, hp⟩ := hg.1 _ _ hg'
      obtain ⟨p', rfl, hp'⟩ := (hh _ _ hg').1 _ _ hc
      refine ⟨p ++ p', by simp, fun m hm ws' hw' => ?_⟩
      unfold Parser.andThen
      rw [List.append_assoc, hp m hm _ (hd_append hw')]
      exact hp' m hm ws' hw'
  · intro e he
    unfold Parser.andThen at he
    cases hg' : g n ts with
    | error x =>
      rw [hg'] at he
      have he := Except.error.inj he
      have hd := hg.2 _ hg'
      cases e with
      | report k b f =>
        intro hk
        cases x with
        | report k' b' f' =>
          rw [hw.1] at he
          cases he
          obtain ⟨p, z, q, e, hz, hp⟩ := hd hk
          refine ⟨p, z, q, e, hz, fun m hm q' => ?_⟩
          obtain ⟨b', e', h'⟩ := hp m hm q'
          refine ⟨b', e', ?_⟩
          unfold Parser.andThen
          rw [h']
          simp only [hw.1]
        | _ => exact absurd hk (hw.2 _ (fun _ _ _ h => by cases h) _ _ _ he)
      | _ => trivial
    | ok r =>
      obtain ⟨d, vs⟩ := r
      rw [hg'] at he
      obtain ⟨p, rfl, hp⟩ := hg.1 _ _ hg'
      have hd := (hh _ _ hg').2 _ he
      cases e with
      | report k b f =>
        intro hk
        obtain ⟨p', z, q, rfl, hz, hp'⟩ := hd hk
        refine ⟨p ++ p', z, q, by simp, hz.append, fun m hm q' => ?_⟩
        obtain ⟨b', e', h'⟩ := hp' m hm q'
        refine ⟨b', e', ?_⟩
        unfold Parser.andThen
        rw [List.append_assoc, hp m hm _ (hd_append (show Hd (z :: q) (z :: q') from rfl))]
        exact h'
      | _ => trivial

/-- One more function that does not look at the tokens. -/
theorem Steady.of_eq {n : Nat} {f f' : Nat → List LTok → Except Err (α × List LTok)} {ts}
    (hs : Steady n f' ts) (h : ∀ m, n ≤ m → ∀ ts', Hd ts ts' → f m ts' = f' m ts') : Steady n f ts :=
  Steady.congr (a := []) hs h

/-! ## Repetitions and switches -/

theorem steady_number (n : Nat) : ∀ (ts : List LTok) (v : Nat), Steady n (fun _ => number v) ts
  | [], v => Steady.of_eq (steady_ret n v []) (fun m _ ts' h => by rw [h.nil]; rfl)
  | t :: ts, v => by
    cases hd : digitTok t.tok with
    | none =>
      refine Steady.of_eq (steady_ret n v _) (fun m _ ts' h => ?_)
      obtain ⟨us, rfl⟩ := h.cons
      simp only [number, hd]
    | some d =>
      by_cases hv : v * 10 + d < 2 ^ 31
      · refine Steady.congr (a := [t]) (steady_number n ts (v * 10 + d)) (fun m _ ts' h => ?_)
        simp only [List.singleton_append, number, hd, if_pos hv]
      · refine Steady.congr (a := [t]) (steady_none n (e := .ub) (fun _ _ _ h => by cases h) ts) (fun m _ ts' h => ?_)
        simp only [List.singleton_append, number, hd, if_neg hv]

theorem steady_eof (n : Nat) (ts : List LTok) : Steady (α := α) n (fun _ _ => .error .eof) ts :=
  steady_none n (fun _ _ _ h => by cases h) ts

theorem steady_ub (n : Nat) (ts : List LTok) : Steady (α := α) n (fun _ _ => .error .ub) ts :=
  steady_none n (fun _ _ _ h => by cases h) ts

theorem steady_readNumber (n : Nat) (ts : List LTok) : Steady n (fun _ => readNumber) ts := by
  cases ts with
  | nil => exact Steady.of_eq (steady_eof n _) (fun m _ ts' h => by rw [h.nil]; rfl)
  | cons t ts =>
    cases hd : digitTok t.tok with
    | none =>
      refine Steady.of_eq (steady_unexpected n _) (fun m _ ts' h => ?_)
      obtain ⟨us, rfl⟩ := h.cons
      simp only [readNumber, hd]
    | some d =>
      refine Steady.congr (a := [t]) (steady_number n ts d) (fun m _ ts' h => ?_)
      simp only [List.singleton_append, readNumber, hd]

/-- The optional `?`, and what it becomes. -/
theorem steady_nongreedy (n : Nat) (g : Bool → α) (ts : List LTok) :
    Steady n (fun _ ts => .ok (g (nongreedy ts).1, (nongreedy ts).2)) ts := by
  cases ts with
  | nil => exact Steady.of_eq (steady_ret n (g false) []) (fun m _ ts' h => by rw [h.nil]; rfl)
  | cons t ts =>
    by_cases ht : t.tok = .sym 63
    · refine Steady.congr (a := [t]) (steady_ret n (g true) ts) (fun m _ ts' h => ?_)
      simp only [List.singleton_append, nongreedy, if_pos ht]
    · refine Steady.of_eq (steady_ret n (g false) _) (fun m _ ts' h => ?_)
      obtain ⟨us, rfl⟩ := h.cons
      simp only [nongreedy, if_neg ht]

/-- The result of `quantifier` as a pair. -/
def pk : Except Err (α × β × List LTok) → Except Err ((α × β) × List LTok)
  | .ok (a, b, ws) => .ok ((a, b), ws)
  | .error e => .error e

/-- The result of `body` as a pair. -/
def pk3 : Except Err (α × β × γ × List LTok) → Except Err ((α × β × γ) × List LTok)
  | .ok (a, b, c, ws) => .ok ((a, b, c), ws)
  | .error e => .error e

/-- The end of `{n,m}`. -/
def countedEnd (f n : Nat) (m : Nat) : List LTok → Except Err ((Option (Bool × Nat × Nat) × Nat) × List LTok)
  | [] => .error .eof
  | z :: zs =>
    if z.tok = .sym 125 then
      if n > m then
        .error (.report .reversedRepetition f
          (if (nongreedy zs).1 then (zs.head?.map (·.last)).getD z.last else z.last))
      else .ok ((some ((nongreedy zs).1, n, m), 3), (nongreedy zs).2)
    else .error (unexpected (z :: zs))

theorem steady_countedEnd (n f lo hi : Nat) (ts : List LTok) : Steady n (fun _ => countedEnd f lo hi) ts := by
  cases ts with
  | nil => exact Steady.of_eq (steady_eof n _) (fun m _ ts' h => by rw [h.nil]; rfl)
  | cons z zs =>
    by_cases hz : z.tok = .sym 125
    · by_cases hlo : lo > hi
      · refine ⟨fun c ws h => ?_, fun e h => ?_⟩
        · simp [countedEnd, hz, hlo] at h
        · simp only [countedEnd, if_pos hz, if_pos hlo] at h
          cases h
          intro hk
          have any : ∀ q', ∃ b' e', countedEnd f lo hi (z :: q') = .error (.report .reversedRepetition b' e') := by
            intro q'
            simp only [countedEnd, if_pos hz, if_pos hlo]
            exact ⟨_, _, rfl⟩
          cases zs with
          | nil => exact ⟨[], z, [], rfl, Or.inl (by simp [nongreedy]), fun m _ q' => any q'⟩
          | cons y ys =>
            by_cases hy : y.tok = .sym 63
            · exact ⟨[z], y, ys, rfl, Or.inl (by simp [nongreedy, hy]), fun m _ q' => any _⟩
            · exact ⟨[], z, y :: ys, rfl, Or.inl (by simp [nongreedy, hy]), fun m _ q' => any q'⟩
      · refine Steady.congr (a := [z]) (steady_nongreedy n (fun b => (some (b, lo, hi), 3)) zs) (fun m _ ts' h => ?_)
        simp only [List.singleton_append, countedEnd, if_pos hz, if_neg hlo]
    · refine Steady.of_eq (steady_unexpected n _) (fun m _ ts' h => ?_)
      obtain ⟨us, rfl⟩ := h.cons
      simp only [countedEnd, if_neg hz]

/-- What follows the first number. -/
def countedMid (f n : Nat) : List LTok → Except Err ((Option (Bool × Nat × Nat) × Nat) × List LTok)
  | [] => .error .eof
  | x :: ws =>
    if x.tok = .sym 125 then .ok ((some ((nongreedy ws).1, n, n), 2), (nongreedy ws).2)
    else if x.tok = .sym 44 then
      match ws with
      | [] => .error .eof
      | y :: xs =>
        if y.tok = .sym 125 then .ok ((some ((nongreedy xs).1, n, UNB), 2), (nongreedy xs).2)
        else andThen id (fun _ => readNumber) (fun m _ => countedEnd f n m) 0 ws
    else .error (unexpected (x :: ws))

theorem steady_countedMid (n f lo : Nat) (ts : List LTok) : Steady n (fun _ => countedMid f lo) ts := by
  cases ts with
  | nil => exact Steady.of_eq (steady_eof n _) (fun m _ ts' h => by rw [h.nil]; rfl)
  | cons x ws =>
    by_cases h1 : x.tok = .sym 125
    · refine Steady.congr (a := [x]) (steady_nongreedy n (fun b => (some (b, lo, lo), 2)) ws) (fun m _ ts' h => ?_)
      simp only [List.singleton_append, countedMid, if_pos h1]
    · by_cases h2 : x.tok = .sym 44
      · cases ws with
        | nil =>
          refine Steady.congr (a := [x]) (steady_eof n []) (fun m _ ts' h => ?_)
          rw [h.nil]
          simp only [List.append_nil, countedMid, if_neg h1, if_pos h2]
        | cons y xs =>
          by_cases h3 : y.tok = .sym 125
          · refine Steady.congr (a := [x, y]) (steady_nongreedy n (fun b => (some (b, lo, UNB), 2)) xs)
              (fun m _ ts' h => ?_)
            simp only [List.cons_append, List.nil_append, countedMid, if_neg h1, if_pos h2, if_pos h3]
          · refine Steady.congr (a := [x]) (f' := andThen id (fun _ => readNumber) (fun m _ => countedEnd f lo m))
              (Steady.andThen wraps_id (steady_readNumber n (y :: xs))
                (fun c ws _ => steady_countedEnd n f lo c ws)) (fun m _ ts' h => ?_)
            obtain ⟨us, rfl⟩ := h.cons
            simp only [List.singleton_append, countedMid, if_neg h1, if_pos h2, if_neg h3]
            rfl
      · refine Steady.of_eq (steady_unexpected n _) (fun m _ ts' h => ?_)
        obtain ⟨us, rfl⟩ := h.cons
        simp only [countedMid, if_neg h1, if_neg h2]

theorem counted_eq (f : Nat) (ts : List LTok) :
    pk (counted f ts) = andThen id (fun _ => readNumber) (fun n _ => countedMid f n) 0 ts := by
  unfold counted andThen
  beta_reduce
  cases readNumber ts with
  | error e => rfl
  | ok r =>
    obtain ⟨n, vs⟩ := r
    cases vs with
    | nil => rfl
    | cons x ws =>
      simp only [countedMid]
      split
      · rfl
      · split
        · cases ws with
          | nil => rfl
          | cons y xs =>
            simp only
            split
            · rfl
            · unfold andThen
              beta_reduce
              cases readNumber (y :: xs) with
              | error e => rfl
              | ok r =>
                obtain ⟨m, vs⟩ := r
                cases vs with
                | nil => rfl
                | cons z zs =>
                  simp only [countedEnd]
                  split
                  · split
                    · rfl
                    · rfl
                  · rfl
        · rfl

theorem steady_quantifier (n : Nat) (ts : List LTok) : Steady n (fun _ ts => pk (quantifier ts)) ts := by
  cases ts with
  | nil => exact Steady.of_eq (steady_ret n (none, 0) []) (fun m _ ts' h => by rw [h.nil]; rfl)
  | cons t ts =>
    by_cases h1 : t.tok = .sym 42
    · refine Steady.congr (a := [t]) (steady_nongreedy n (fun b => (some (b, 0, UNB), 1)) ts) (fun m _ ts' h => ?_)
      simp only [List.singleton_append, quantifier, if_pos h1, pk]
    by_cases h2 : t.tok = .sym 43
    · refine Steady.congr (a := [t]) (steady_nongreedy n (fun b => (some (b, 1, UNB), 1)) ts) (fun m _ ts' h => ?_)
      simp only [List.singleton_append, quantifier, if_neg h1, if_pos h2, pk]
    by_cases h3 : t.tok = .sym 63
    · refine Steady.congr (a := [t]) (steady_nongreedy n (fun b => (some (b, 0, 1), 1)) ts) (fun m _ ts' h => ?_)
      simp only [List.singleton_append, quantifier, if_neg h1, if_neg h2, if_pos h3, pk]
    by_cases h4 : t.tok = .sym 123
    · refine Steady.congr (a := [t])
        (f' := andThen id (fun _ => readNumber) (fun n _ => countedMid t.first n))
        (Steady.andThen wraps_id (steady_readNumber n ts) (fun c ws _ => steady_countedMid n _ c ws)) (fun m _ ts' h => ?_)
      simp only [List.singleton_append, quantifier, if_neg h1, if_neg h2, if_neg h3, if_pos h4]
      rw [counted_eq]
      rfl
    · refine Steady.of_eq (steady_ret n (none, 0) _) (fun m _ ts' h => ?_)
      obtain ⟨us, rfl⟩ := h.cons
      simp only [quantifier, if_neg h1, if_neg h2, if_neg h3, if_neg h4, pk]

theorem steady_switches (n : Nat) : ∀ (ts : List LTok) (on seen : Bool) (o : Opts),
    Steady n (fun _ => switches on seen o) ts
  | [], on, seen, o => Steady.of_eq (steady_eof n _) (fun m _ ts' h => by rw [h.nil]; rfl)
  | t :: ts, on, seen, o => by
    by_cases h1 : t.tok = .sym 97
    · refine Steady.congr (a := [t]) (steady_switches n ts on true { o with ascii := on }) (fun m _ ts' h => ?_)
      simp only [List.singleton_append, switches, if_pos h1]
    by_cases h2 : t.tok = .sym 105
    · refine Steady.congr (a := [t]) (steady_switches n ts on true { o with cased := !on }) (fun m _ ts' h => ?_)
      simp only [List.singleton_append, switches, if_neg h1, if_pos h2]
    by_cases h3 : t.tok = .sym 45 ∧ on = true
    · refine Steady.congr (a := [t]) (steady_switches n ts false false o) (fun m _ ts' h => ?_)
      simp only [List.singleton_append, switches, if_neg h1, if_neg h2, if_pos h3]
    by_cases h4 : t.tok = .sym 41 ∧ seen = true
    · refine Steady.congr (a := [t]) (steady_ret n o ts) (fun m _ ts' h => ?_)
      simp only [List.singleton_append, switches, if_neg h1, if_neg h2, if_neg h3, if_pos h4]
    · refine Steady.of_eq (steady_unexpected n _) (fun m _ ts' h => ?_)
      obtain ⟨us, rfl⟩ := h.cons
      simp only [switches, if_neg h1, if_neg h2, if_neg h3, if_neg h4]

/-! ## Classes -/

/-- `charclass` with its token. -/
def cls (env : Env) (o : Opts) (m : Nat) : List LTok → Except Err ((Cls × Nat) × List LTok)
  | [] => .error .eof
  | t :: ts => pk (charclass env o m t ts)

theorem hyphenNext_hd {ts us : List LTok} (h : Hd ts us) : hyphenNext us = hyphenNext ts := by
  cases ts with
  | nil => rw [h.nil]
  | cons t ts => obtain ⟨us, rfl⟩ := h.cons; rfl

theorem steady_fuel (n : Nat) (ts : List LTok) : Steady (α := α) n (fun _ _ => .error .fuel) ts :=
  steady_none n (fun _ _ _ h => by cases h) ts

theorem steady_zero {f : Nat → List LTok → Except Err (α × List LTok)} {ts} (h : f 0 ts = .error .fuel) :
    Steady 0 f ts := by
  constructor
  · intro c ws h'; rw [h] at h'; cases h'
  · intro e h'; rw [h] at h'; cases h'; trivial

/-- A class that ends an element. -/
theorem Steady.map {n : Nat} {g : Nat → List LTok → Except Err (α × List LTok)} {ts} (hg : Steady n g ts) (F : α → β) :
    Steady n (Parser.andThen id g (fun c _ ws => .ok (F c, ws))) ts :=
  Steady.andThen wraps_id hg (fun c ws _ => steady_ret n (F c) ws)

theorem steady_notFinal (n : Nat) {k : ErrKind} (hk : ¬ Final k) (b f : Nat) (ts : List LTok) :
    Steady (α := α) n (fun _ _ => .error (.report k b f)) ts :=
  steady_none n (fun _ _ _ h => by cases h; exact hk) ts

theorem steady_cc (env : Env) (o : Opts) : ∀ n : Nat,
    (∀ ts, Steady n (cls env o) ts) ∧
    (∀ first ts, Steady n (fun m ts => pk (ccAtom env o m first ts)) ts) ∧
    (∀ t neg c k ts, Steady n (fun m ts => pk (ccItems env o m t neg c k ts)) ts) := by
  intro n
  induction n with
  | zero =>
    refine ⟨fun ts => ?_, fun first ts => steady_zero rfl, fun t neg c k ts => steady_zero rfl⟩
    cases ts with
    | nil => exact Steady.of_eq (steady_eof 0 _) (fun m _ ts' h => by rw [h.nil]; rfl)
    | cons t ts => exact steady_zero rfl
  | succ n ih =>
    obtain ⟨ih1, ih2, ih3⟩ := ih
    refine ⟨fun ts => ?_, fun first ts => ?_, fun t neg c k ts => ?_⟩
    · cases ts with
      | nil => exact Steady.of_eq (steady_eof _ _) (fun m _ ts' h => by rw [h.nil]; rfl)
      | cons t ts =>
        refine Steady.succ ?_
        by_cases hset : ∃ s, t.tok = .set s
        · obtain ⟨s, hs⟩ := hset
          cases hv : env.named o.ascii (!o.cased) s with
          | some v =>
            refine Steady.congr (a := [t]) (steady_ret n (⟨v, 0, true⟩, 1) ts) (fun m _ ts' h => ?_)
            simp only [List.singleton_append, cls]
            rw [charclass.eq_def]
            simp only [hs, hv, pk]
          | none =>
            refine Steady.congr (a := [t]) (steady_ub n ts) (fun m _ ts' h => ?_)
            simp only [List.singleton_append, cls]
            rw [charclass.eq_def]
            simp only [hs, hv, pk]
        by_cases hb : t.tok = .sym 91
        · cases ts with
          | nil =>
            refine Steady.congr (a := [t]) (steady_notFinal n bracket_notFinal t.first t.last []) (fun m _ ts' h => ?_)
            rw [h.nil]
            simp only [List.append_nil, cls]
            rw [charclass.eq_def]
            simp only [hb, unclosed, pk]
          | cons u us =>
            by_cases hu : u.tok = .sym 94
            · cases us with
              | nil =>
                refine Steady.congr (a := [t, u]) (steady_notFinal n bracket_notFinal t.first t.last []) (fun m _ ts' h => ?_)
                rw [h.nil]
                simp only [List.append_nil, cls]
                rw [charclass.eq_def]
                simp only [hb, if_pos hu, unclosed, pk]
              | cons v vs =>
                by_cases hv : (setOp v.tok).isSome = true
                · refine Steady.congr (a := [t, u]) (steady_report n .missingOperand v.first v vs) (fun m _ ts' h => ?_)
                  obtain ⟨us, rfl⟩ := h.cons
                  simp only [List.cons_append, List.nil_append, cls]
                  rw [charclass.eq_def]
                  simp only [hb, if_pos hu, if_pos hv, pk]
                · refine Steady.congr (a := [t, u])
                    (f' := andThen (unclosed .unmatchedBracket t) (fun m ts => pk (ccAtom env o m false ts))
                      (fun c m ts => pk (ccItems env o m t true c.1 c.2 ts)))
                    (Steady.andThen (wraps_unclosed bracket_notFinal t) (ih2 false (v :: vs))
                      (fun c ws _ => ih3 _ _ _ _ _)) (fun m _ ts' h => ?_)
                  obtain ⟨us, rfl⟩ := h.cons
                  simp only [List.cons_append, List.nil_append, cls]
                  rw [charclass.eq_def]
                  simp only [hb, if_pos hu, if_neg hv, andThen]
                  cases ccAtom env o m false (v :: us) <;> rfl
            · by_cases hv : (setOp u.tok).isSome = true
              · refine Steady.congr (a := [t]) (steady_report n .missingOperand u.first u us) (fun m _ ts' h => ?_)
                obtain ⟨us, rfl⟩ := h.cons
                simp only [List.singleton_append, cls]
                rw [charclass.eq_def]
                simp only [hb, if_neg hu, if_pos hv, pk]
              · refine Steady.congr (a := [t])
                  (f' := andThen (unclosed .unmatchedBracket t) (fun m ts => pk (ccAtom env o m true ts))
                    (fun c m ts => pk (ccItems env o m t false c.1 c.2 ts)))
                  (Steady.andThen (wraps_unclosed bracket_notFinal t) (ih2 true (u :: us))
                    (fun c ws _ => ih3 _ _ _ _ _)) (fun m _ ts' h => ?_)
                obtain ⟨us, rfl⟩ := h.cons
                simp only [List.singleton_append, cls]
                rw [charclass.eq_def]
                simp only [hb, if_neg hu, if_neg hv, andThen]
                cases ccAtom env o m true (u :: us) <;> rfl
        · refine Steady.of_eq (steady_unexpected n _) (fun m _ ts' h => ?_)
          obtain ⟨us, rfl⟩ := h.cons
          simp only [cls]
          rw [charclass.eq_def]
          simp only
          split
          · rename_i s hs; exact absurd ⟨s, hs⟩ hset
          · rename_i hs; exact absurd hs hb
          · rfl
    · cases ts with
      | nil => exact Steady.succ (Steady.of_eq (steady_eof n _) (fun m _ ts' h => by rw [h.nil]; rfl))
      | cons t ts =>
        refine Steady.succ ?_
        cases hc : (if first then ccFirst t.tok else ccNotFirst t.tok) with
        | some c =>
          cases hh : hyphenNext ts with
          | false =>
            refine Steady.congr (a := [t]) (steady_ret n (chars c (c + 1), 1) ts) (fun m _ ts' h => ?_)
            simp only [List.singleton_append]
            rw [ccAtom.eq_def]
            simp only [hc, hyphenNext_hd h, hh]
            rfl
          | true =>
            obtain ⟨y, ey, hy⟩ := hyphenNext_tail hh
            have hh' : ∀ vs, hyphenNext (y :: vs) = true := fun vs => by simp [hyphenNext, hy]
            cases hts : ts.tail with
            | nil =>
              rw [hts] at ey
              subst ey
              refine Steady.congr (a := [t, y]) (steady_eof n []) (fun m _ ts' h => ?_)
              rw [h.nil]
              simp only [List.append_nil]
              rw [ccAtom.eq_def]
              simp only [hc, hh, List.tail_cons]
              rfl
            | cons v vs =>
              rw [hts] at ey
              subst ey
              cases hd : ccNotFirst v.tok with
              | some d =>
                by_cases hdc : d ≤ c
                · refine Steady.congr (a := [t, y]) (steady_report n .reversedChars t.first v vs) (fun m _ ts' h => ?_)
                  obtain ⟨us, rfl⟩ := h.cons
                  simp only [List.cons_append, List.nil_append]
                  rw [ccAtom.eq_def]
                  simp only [hc, hh', List.tail_cons, hd, if_pos hdc, pk, if_true]
                · refine Steady.congr (a := [t, y, v]) (steady_ret n (chars c (d + 1), 1) vs) (fun m _ ts' h => ?_)
                  simp only [List.cons_append, List.nil_append]
                  rw [ccAtom.eq_def]
                  simp only [hc, hh', List.tail_cons, hd, if_neg hdc, pk, if_true]
              | none =>
                refine Steady.congr (a := [t, y])
                  (Steady.map (ih1 (v :: vs)) (fun x => ({ x.1 with cps := RangeSet.insert (RangeSet.insert x.1.cps c (c + 1)) 45 46 }, x.2)))
                  (fun m _ ts' h => ?_)
                obtain ⟨us, rfl⟩ := h.cons
                simp only [List.cons_append, List.nil_append]
                rw [ccAtom.eq_def]
                simp only [hc, hh', List.tail_cons, hd, andThen, cls, if_true]
                cases charclass env o m v us <;> rfl
        | none =>
          cases hb : byteTok t.tok with
          | some b =>
            cases hh : hyphenNext ts with
            | false =>
              refine Steady.congr (a := [t]) (steady_ret n (byteSet (Encoders.setByte 0 b), 1) ts) (fun m _ ts' h => ?_)
              simp only [List.singleton_append]
              rw [ccAtom.eq_def]
              simp only [hc, hb, hyphenNext_hd h, hh]
              rfl
            | true =>
              obtain ⟨y, ey, hy⟩ := hyphenNext_tail hh
              have hh' : ∀ vs, hyphenNext (y :: vs) = true := fun vs => by simp [hyphenNext, hy]
              cases hts : ts.tail with
              | nil =>
                rw [hts] at ey
                subst ey
                refine Steady.congr (a := [t, y]) (steady_eof n []) (fun m _ ts' h => ?_)
                rw [h.nil]
                simp only [List.append_nil]
                rw [ccAtom.eq_def]
                simp only [hc, hb, hh, List.tail_cons]
                rfl
              | cons v vs =>
                rw [hts] at ey
                subst ey
                cases hd : byteTok v.tok with
                | some d =>
                  by_cases hdc : d ≤ b
                  · refine Steady.congr (a := [t, y]) (steady_report n .reversedBytes t.first v vs) (fun m _ ts' h => ?_)
                    obtain ⟨us, rfl⟩ := h.cons
                    simp only [List.cons_append, List.nil_append]
                    rw [ccAtom.eq_def]
                    simp only [hc, hb, hh', List.tail_cons, hd, if_pos hdc, pk, if_true]
                  · cases hs : Encoders.setRange 0 b (d + 1) with
                    | some s =>
                      refine Steady.congr (a := [t, y, v]) (steady_ret n (byteSet s, 1) vs) (fun m _ ts' h => ?_)
                      simp only [List.cons_append, List.nil_append]
                      rw [ccAtom.eq_def]
                      simp only [hc, hb, hh', List.tail_cons, hd, if_neg hdc, hs, pk, if_true]
                    | none =>
                      refine Steady.congr (a := [t, y, v]) (steady_ub n vs) (fun m _ ts' h => ?_)
                      simp only [List.cons_append, List.nil_append]
                      rw [ccAtom.eq_def]
                      simp only [hc, hb, hh', List.tail_cons, hd, if_neg hdc, hs, pk, if_true]
                | none =>
                  refine Steady.congr (a := [t, y])
                    (Steady.map (ih1 (v :: vs))
                      (fun x => ({ x.1 with cps := RangeSet.insert x.1.cps 45 46, brk := Encoders.setByte x.1.brk b }, x.2)))
                    (fun m _ ts' h => ?_)
                  obtain ⟨us, rfl⟩ := h.cons
                  simp only [List.cons_append, List.nil_append]
                  rw [ccAtom.eq_def]
                  simp only [hc, hb, hh', List.tail_cons, hd, andThen, cls, if_true]
                  cases charclass env o m v us <;> rfl
          | none =>
            by_cases h45 : t.tok = .sym 45
            · refine Steady.congr (a := [t]) (steady_ret n (chars 45 46, 1) ts) (fun m _ ts' h => ?_)
              simp only [List.singleton_append]
              rw [ccAtom.eq_def]
              simp only [hc, hb, if_pos h45, pk]
            · refine Steady.of_eq (ih1 (t :: ts)) (fun m _ ts' h => ?_)
              obtain ⟨us, rfl⟩ := h.cons
              simp only [cls]
              rw [ccAtom.eq_def]
              simp only [hc, hb, if_neg h45]
    · cases ts with
      | nil =>
        exact Steady.succ (Steady.of_eq (steady_notFinal n bracket_notFinal t.first t.last _)
          (fun m _ ts' h => by rw [h.nil]; rfl))
      | cons u us =>
        refine Steady.succ ?_
        have fold : ∀ (op : SetOp) (ts : List LTok), Steady n
            (andThen (unclosed .unmatchedBracket t) (fun m ts => pk (ccAtom env o m false ts))
              (fun d m ts => match Cls.combine op c d.1 with
                | some c' => pk (ccItems env o m t neg c' (k + d.2) ts)
                | none => .error .ub)) ts := by
          intro op ts
          refine Steady.andThen (wraps_unclosed bracket_notFinal t) (ih2 false ts) (fun d ws _ => ?_)
          cases Cls.combine op c d.1 with
          | some c' => exact ih3 _ _ _ _ _
          | none => exact steady_ub n ws
        by_cases hu : u.tok = .sym 93
        · cases he : (if neg then closeNeg env o t.first u.last c else closePos env o t.first u.last c) with
          | ok c' =>
            refine Steady.congr (a := [u]) (steady_ret n (c', k) us) (fun m _ ts' h => ?_)
            simp only [List.singleton_append]
            rw [ccItems.eq_def]
            simp only [if_pos hu, he, pk]
          | error e =>
            have hx : e = .ub ∨ e = .report .emptyClass t.first u.last := by
              cases neg with
              | true =>
                rcases closeNeg_error (by simpa using he) with rfl | ⟨rfl, -⟩
                · exact Or.inl rfl
                · exact Or.inr rfl
              | false =>
                rcases closePos_error (by simpa using he) with rfl | ⟨rfl, -⟩
                · exact Or.inl rfl
                · exact Or.inr rfl
            rcases hx with rfl | rfl
            · refine Steady.congr (a := [u]) (steady_ub n us) (fun m _ ts' h => ?_)
              simp only [List.singleton_append]
              rw [ccItems.eq_def]
              simp only [if_pos hu, he, pk]
            · refine Steady.of_eq (steady_report n .emptyClass t.first u us) (fun m _ ts' h => ?_)
              obtain ⟨us, rfl⟩ := h.cons
              rw [ccItems.eq_def]
              simp only [if_pos hu, he, pk]
        · cases hs : setOp u.tok with
          | some op =>
            cases us with
            | nil =>
              refine Steady.congr (a := [u]) (steady_notFinal n bracket_notFinal t.first t.last []) (fun m _ ts' h => ?_)
              rw [h.nil]
              simp only [List.append_nil]
              rw [ccItems.eq_def]
              simp only [if_neg hu, hs, unclosed, pk]
            | cons v vs =>
              by_cases hv : v.tok = .sym 93 ∨ v.tok = u.tok
              · refine ⟨fun c' ws h => ?_, fun e h => ?_⟩
                · simp only at h
                  rw [ccItems.eq_def] at h
                  simp only [if_neg hu, hs, if_pos hv, pk] at h
                  cases h
                · simp only at h
                  rw [ccItems.eq_def] at h
                  simp only [if_neg hu, hs, if_pos hv, pk] at h
                  cases h
                  refine fun _ => ⟨[u], v, vs, rfl, Or.inr ⟨rfl, [], u, rfl, rfl⟩, fun m _ q' => ⟨u.first, u.last, ?_⟩⟩
                  simp only [List.singleton_append]
                  rw [ccItems.eq_def]
                  simp only [if_neg hu, hs, if_pos hv, pk]
              · refine Steady.congr (a := [u]) (fold op (v :: vs)) (fun m _ ts' h => ?_)
                obtain ⟨us, rfl⟩ := h.cons
                simp only [List.singleton_append]
                rw [ccItems.eq_def]
                simp only [if_neg hu, hs, if_neg hv, andThen]
                cases ccAtom env o m false (v :: us) with
                | error e => rfl
                | ok r =>
                  simp only [pk]
                  cases Cls.combine op c r.1 <;> rfl
          | none =>
            refine Steady.of_eq (fold .union (u :: us)) (fun m _ ts' h => ?_)
            obtain ⟨us, rfl⟩ := h.cons
            rw [ccItems.eq_def]
            simp only [if_neg hu, hs, andThen]
            cases ccAtom env o m false (u :: us) with
            | error e => rfl
            | ok r =>
              simp only [pk]
              cases Cls.combine .union c r.1 <;> rfl

/-! ## Patterns -/

theorem queryNext_hd {ts us : List LTok} (h : Hd ts us) : queryNext us = queryNext ts := by
  cases ts with
  | nil => rw [h.nil]
  | cons t ts => obtain ⟨us, rfl⟩ := h.cons; rfl

theorem startsSwitch_hd {ts us : List LTok} (h : Hd ts us) : startsSwitch us = startsSwitch ts := by
  cases ts with
  | nil => rw [h.nil]
  | cons t ts => obtain ⟨us, rfl⟩ := h.cons; rfl

theorem steady_finish (n : Nat) (l c : Option (Tree Node)) (o : Opts) (k : Nat) (ts : List LTok) :
    Steady n (fun _ ts => pk3 (finish l c ts o k)) ts := by
  cases c with
  | none => exact steady_unexpected n ts
  | some c => exact steady_ret n ((joinAlt l c).1, o, k + (joinAlt l c).2) ts

/-- The closing parenthesis. -/
def close (u : LTok) (h : Nat → List LTok → Except Err (α × List LTok)) (m : Nat) : List LTok → Except Err (α × List LTok)
  | [] => .error (unclosed .unmatchedParen u .eof)
  | w :: ws => if w.tok = .sym 41 then h m ws else .error (unclosed .unmatchedParen u (unexpected (w :: ws)))

theorem unclosed_unexpected (k : ErrKind) (u w : LTok) (ws : List LTok) :
    unclosed k u (unexpected (w :: ws)) = unexpected (w :: ws) := by
  rcases unexpected_cases w with h | h | h <;> rw [h] <;> rfl

theorem steady_close (n : Nat) (u : LTok) {h : Nat → List LTok → Except Err (α × List LTok)}
    (hh : ∀ ts, Steady n h ts) (ts : List LTok) : Steady n (close u h) ts := by
  cases ts with
  | nil =>
    exact Steady.of_eq (steady_notFinal n paren_notFinal u.first u.last []) (fun m _ ts' h => by rw [h.nil]; rfl)
  | cons w ws =>
    by_cases hw : w.tok = .sym 41
    · refine Steady.congr (a := [w]) (hh ws) (fun m _ ts' h => ?_)
      simp only [List.singleton_append, close, if_pos hw]
    · refine Steady.of_eq (steady_unexpected n _) (fun m _ ts' h => ?_)
      obtain ⟨us, rfl⟩ := h.cons
      simp only [close, if_neg hw, unclosed_unexpected]

/-- The tokens after `(?`, if they start a lookaround. -/
theorem lookKind_cases (ts : List LTok) :
    (∃ kind a vs, ts = a ++ vs ∧ ∀ vs', lookKind (a ++ vs') = some (kind, vs')) ∨
    (lookKind ts = none ∧ ∃ a z, (∀ vs', Hd z vs' → lookKind (a ++ vs') = none) ∧ ts = a ++ z ∧
      (∀ vs', Hd z vs' → startsSwitch (a ++ vs') = startsSwitch ts) ∧
      ((∃ x, a = [x] ∧ x.tok = .sym 60) ∨ a = [] ∧ ∀ x xs, z = x :: xs → x.tok ≠ .sym 60)) := by
  cases ts with
  | nil =>
    exact Or.inr ⟨rfl, [], [], fun vs h => by rw [h.nil]; rfl, rfl, fun vs h => by rw [h.nil]; rfl,
      Or.inr ⟨rfl, fun _ _ h => by cases h⟩⟩
  | cons t ts =>
    by_cases h1 : t.tok = .sym 61
    · refine Or.inl ⟨2, [t], ts, rfl, fun vs' => ?_⟩
      cases vs' <;> simp [lookKind, h1]
    by_cases h2 : t.tok = .sym 33
    · refine Or.inl ⟨3, [t], ts, rfl, fun vs' => ?_⟩
      cases vs' <;> simp [lookKind, h2]
    by_cases h3 : t.tok = .sym 60
    · cases ts with
      | nil =>
        refine Or.inr ⟨by simp [lookKind, h3], [t], [], fun vs h => by rw [h.nil]; simp [lookKind, h3], rfl, fun vs h => rfl,
          Or.inl ⟨t, rfl, h3⟩⟩
      | cons u us =>
        by_cases h4 : u.tok = .sym 61
        · exact Or.inl ⟨0, [t, u], us, rfl, fun vs' => by simp [lookKind, h3, h4]⟩
        by_cases h5 : u.tok = .sym 33
        · exact Or.inl ⟨1, [t, u], us, rfl, fun vs' => by simp [lookKind, h3, h5]⟩
        refine Or.inr ⟨by simp [lookKind, h3, h4, h5], [t], u :: us, fun vs h => ?_, rfl, fun vs h => rfl, Or.inl ⟨t, rfl, h3⟩⟩
        obtain ⟨vs, rfl⟩ := h.cons
        simp [lookKind, h3, h4, h5]
    · have none' : ∀ us, lookKind (t :: us) = none := by
        intro us
        cases us <;> simp [lookKind, h1, h2, h3]
      refine Or.inr ⟨none' ts, [], t :: ts, fun vs h => ?_, rfl, fun vs h => ?_, Or.inr ⟨rfl, fun _ _ h => by cases h; exact h3⟩⟩
      · obtain ⟨vs, rfl⟩ := h.cons; exact none' _
      · obtain ⟨vs, rfl⟩ := h.cons; rfl

theorem steady_body (env : Env) : ∀ n : Nat,
    (∀ o l c sw k ts, Steady n (fun m ts => pk3 (body env m o l c sw k ts)) ts) ∧
    (∀ o l c k t ts, Steady n (fun m ts => pk3 (afterAtom env m o l c k t ts)) ts) := by
  intro n
  induction n with
  | zero => exact ⟨fun o l c sw k ts => steady_zero rfl, fun o l c k t ts => steady_zero rfl⟩
  | succ n ih =>
    obtain ⟨ih1, ih2⟩ := ih
    refine ⟨fun o l c sw k ts => Steady.succ ?_, fun o l c k t ts => Steady.succ ?_⟩
    · cases ts with
      | nil => exact Steady.of_eq (steady_finish n l c o k []) (fun m _ ts' h => by rw [h.nil]; rfl)
      | cons u us =>
        by_cases h1 : u.tok = .sym 124
        · cases c with
          | none =>
            refine Steady.of_eq (steady_unexpected n _) (fun m _ ts' h => ?_)
            obtain ⟨us, rfl⟩ := h.cons
            rw [body.eq_def]
            simp only [if_pos h1, pk3]
          | some c =>
            refine Steady.congr (a := [u]) (ih1 o (some (joinAlt l c).1) none false (k + (joinAlt l c).2) us) (fun m _ ts' h => ?_)
            simp only [List.singleton_append]
            rw [body.eq_def]
            simp only [if_pos h1]
        by_cases h2 : u.tok = .kill
        · cases c with
          | none =>
            refine Steady.of_eq (steady_unexpected n _) (fun m _ ts' h => ?_)
            obtain ⟨us, rfl⟩ := h.cons
            rw [body.eq_def]
            simp only [if_neg h1, if_pos h2, pk3]
          | some c =>
            refine Steady.congr (a := [u]) (ih1 o l (some (.look 0 c)) false (k + 1) us) (fun m _ ts' h => ?_)
            simp only [List.singleton_append]
            rw [body.eq_def]
            simp only [if_neg h1, if_pos h2]
        by_cases h3 : u.tok = .sym 40
        · cases hq : queryNext us with
          | false =>
            refine Steady.congr (a := [u])
              (f' := andThen (unclosed .unmatchedParen u) (fun m ts => pk3 (body env m o none none true 0 ts))
                (fun x => close u (fun m ts => pk3 (afterAtom env m o l c (k + x.2.2) x.1 ts))))
              (Steady.andThen (wraps_unclosed paren_notFinal u) (ih1 _ _ _ _ _ us)
                (fun x ws _ => steady_close n u (fun ts => ih2 _ _ _ _ _ ts) ws)) (fun m _ ts' h => ?_)
            simp only [List.singleton_append]
            rw [body.eq_def]
            simp only [if_neg h1, if_neg h2, if_pos h3, queryNext_hd h, hq, andThen]
            cases body env m o none none true 0 ts' with
            | error e => rfl
            | ok r =>
              obtain ⟨t, o', j, vs⟩ := r
              cases vs with
              | nil => rfl
              | cons w ws =>
                simp only [pk3, close, Bool.false_eq_true, if_false]
                by_cases hw : w.tok = .sym 41
                · simp only [if_pos hw]
                · simp only [if_neg hw]
          | true =>
            obtain ⟨y, ey, hy⟩ := queryNext_tail hq
            generalize us.tail = vs at ey
            subst ey
            have hq' : ∀ vs, queryNext (y :: vs) = true := fun vs => by simp [queryNext, hy]
            rcases lookKind_cases vs with ⟨kind, a, xs, rfl, hk⟩ | ⟨hk, a, z, hn, rfl, hs, hz⟩
            · refine Steady.congr (a := u :: y :: a)
                (f' := andThen (unclosed .unmatchedParen u) (fun m ts => pk3 (body env m o none none true 0 ts))
                  (fun x => close u (fun m ts => pk3 (afterAtom env m x.2.1 l c (k + (x.2.2 + 1)) (.look kind x.1) ts))))
                (Steady.andThen (wraps_unclosed paren_notFinal u) (ih1 _ _ _ _ _ xs)
                  (fun x ws _ => steady_close n u (fun ts => ih2 _ _ _ _ _ ts) ws)) (fun m _ ts' h => ?_)
              simp only [List.cons_append]
              rw [body.eq_def]
              simp only [if_neg h1, if_neg h2, if_pos h3, hq', if_true, List.tail_cons, hk, andThen]
              cases body env m o none none true 0 ts' with
              | error e => rfl
              | ok r =>
                obtain ⟨t, o', j, vs⟩ := r
                cases vs with
                | nil => rfl
                | cons w ws =>
                  simp only [pk3, close]
                  by_cases hw : w.tok = .sym 41
                  · simp only [if_pos hw]
                  · simp only [if_neg hw]
            · by_cases hsw : ((sw || c.isSome) && startsSwitch (a ++ z)) = true
              · have ha : a = [] := by
                  rcases hz with ⟨x, rfl, hx⟩ | ⟨rfl, -⟩
                  · simp [startsSwitch, hx] at hsw
                  · rfl
                subst ha
                refine Steady.congr (a := [u, y])
                  (f' := andThen (unclosed .unmatchedParen u) (fun m ts => switches true false o ts)
                    (fun o' m ts => pk3 (body env m o' l c sw k ts)))
                  (Steady.andThen (wraps_unclosed paren_notFinal u) (steady_switches n _ _ _ _)
                    (fun x ws _ => ih1 _ _ _ _ _ ws)) (fun m _ ts' h => ?_)
                have h' : Hd z ts' := h
                have e1 := hn ts' h'
                have e2 := hs ts' h'
                simp only [List.nil_append] at e1 e2 hsw
                simp only [List.cons_append, List.nil_append]
                rw [body.eq_def]
                simp only [if_neg h1, if_neg h2, if_pos h3, hq', if_true, List.tail_cons, e1, e2, hsw, andThen]
                cases switches true false o ts' <;> rfl
              · have e4 : ∀ vs', Hd z vs' → ((sw || c.isSome) && startsSwitch (a ++ vs')) = false := by
                  intro vs' h
                  rw [hs vs' h]
                  simpa using hsw
                have run : ∀ m vs', Hd z vs' → pk3 (body env (m + 1) o l c sw k (u :: y :: (a ++ vs'))) =
                    .error (unclosed .unmatchedParen u (badGroup (a ++ vs'))) := by
                  intro m vs' h
                  rw [body.eq_def]
                  simp only [if_neg h1, if_neg h2, if_pos h3, hq', if_true, List.tail_cons, hn vs' h, e4 vs' h,
                    Bool.false_eq_true, if_false, pk3]
                have bad : ∀ vs', Hd z vs' → badGroup (a ++ vs') = unexpected vs' := by
                  intro vs' h
                  rcases hz with ⟨x, rfl, hx⟩ | ⟨rfl, hz⟩
                  · simp [badGroup, hx]
                  · cases z with
                    | nil => rw [h.nil]; rfl
                    | cons x xs =>
                      obtain ⟨us, rfl⟩ := h.cons
                      simp [badGroup, hz x xs rfl]
                have key : Steady n (fun m ts => pk3 (body env (m + 1) o l c sw k ts)) ((u :: y :: a) ++ z) := by
                  cases z with
                  | nil =>
                    refine Steady.congr (steady_notFinal n paren_notFinal u.first u.last []) (fun m _ ts' h => ?_)
                    rw [List.cons_append, List.cons_append, run m ts' h, bad ts' h, h.nil]
                    rfl
                  | cons x xs =>
                    refine Steady.congr (steady_unexpected n (x :: xs)) (fun m _ ts' h => ?_)
                    rw [List.cons_append, List.cons_append, run m ts' h, bad ts' h]
                    obtain ⟨us, rfl⟩ := h.cons
                    rw [unclosed_unexpected]
                exact key
        by_cases h4 : startsClass u.tok = true
        · refine Steady.of_eq
            (f' := andThen id (cls env o) (fun x m ts =>
              pk3 (afterAtom env m o l c (k + x.2) (.leaf (.cls x.1.cps x.1.brk x.1.additive)) ts)))
            (Steady.andThen wraps_id ((steady_cc env o n).1 (u :: us)) (fun x ws _ => ih2 _ _ _ _ _ ws)) (fun m _ ts' h => ?_)
          obtain ⟨us, rfl⟩ := h.cons
          rw [body.eq_def]
          simp only [if_neg h1, if_neg h2, if_neg h3, if_pos h4, andThen, cls]
          cases charclass env o m u us <;> rfl
        · cases ha : simpleAtom env o u.tok with
          | none =>
            refine Steady.of_eq (steady_finish n l c o k _) (fun m _ ts' h => ?_)
            obtain ⟨us, rfl⟩ := h.cons
            rw [body.eq_def]
            simp only [if_neg h1, if_neg h2, if_neg h3, if_neg h4, ha]
          | some r =>
            cases r with
            | error x =>
              refine Steady.congr (a := [u]) (steady_ub n us) (fun m _ ts' h => ?_)
              simp only [List.singleton_append]
              rw [body.eq_def]
              simp only [if_neg h1, if_neg h2, if_neg h3, if_neg h4, ha, simple_error ha, pk3]
            | ok r =>
              obtain ⟨t, j⟩ := r
              refine Steady.congr (a := [u]) (ih2 o l c (k + j) t us) (fun m _ ts' h => ?_)
              simp only [List.singleton_append]
              rw [body.eq_def]
              simp only [if_neg h1, if_neg h2, if_neg h3, if_neg h4, ha]
    · refine Steady.of_eq
        (f' := andThen id (fun _ ts => pk (quantifier ts)) (fun q m ts =>
          pk3 (body env m o l (some (joinCat c (repeated t q.1)).1) false
            (k + (q.2 + (joinCat c (repeated t q.1)).2)) ts)))
        (Steady.andThen wraps_id (steady_quantifier n ts) (fun q ws _ => ih1 _ _ _ _ _ ws)) (fun m _ ts' h => ?_)
      rw [afterAtom.eq_def]
      simp only [andThen]
      cases quantifier ts' <;> rfl

/-- **C72** When tokens are refused with a message other than that something is not closed, no
tokens that are the same up to the end of the range of the message are those of a pattern. -/
theorem tokens_doomed {env : Env} {o : Opts} {ts : List LTok} (hne : ts ≠ []) {k : ErrKind} {b e : Nat}
    (h : parseTokens env o ts = .error (.report k b e)) (hk : Final k) :
    ∃ p z q, ts = p ++ z :: q ∧ AtEnd p z k e ∧ ∀ q', ¬ Accepted env o (p ++ z :: q') := by
  -- the parser never gets past `z`
  have key : ∃ p z q, ts = p ++ z :: q ∧ AtEnd p z k e ∧ ∀ m, fuelFor ts ≤ m → ∀ q',
      (∃ b' e', body env m o none none true 0 (p ++ z :: q') = .error (.report k b' e')) ∨
      (∃ t o' j ws, body env m o none none true 0 (p ++ z :: q') = .ok (t, o', j, z :: ws)) := by
    obtain ⟨s1, s2⟩ := (steady_body env (fuelFor ts)).1 o none none true 0 ts
    unfold parseTokens at h
    split at h
    · cases h
    · rename_i t o' j us hus hb
      have he := Except.error.inj h
      cases us with
      | nil => exact absurd rfl hus
      | cons z us =>
        obtain ⟨p, rfl, hp⟩ := s1 (t, o', j) (z :: us) (by simp only [hb, pk3])
        refine ⟨p, z, us, rfl, ?_, fun m hm q' => Or.inr ⟨t, o', j, q', ?_⟩⟩
        · left
          rcases unexpected_cases z with h' | h' | h' <;> rw [h'] at he <;> cases he <;> rfl
        · have := hp m hm (z :: q') rfl
          simp only at this
          cases hbb : body env m o none none true 0 (p ++ z :: q') with
          | error x => rw [hbb] at this; cases this
          | ok r =>
            obtain ⟨t1, o1, j1, w1⟩ := r
            rw [hbb] at this
            cases this
            rfl
    · rw [if_neg hne] at h; cases h
    · rename_i x hb
      cases h
      obtain ⟨p, z, q, e, hz, hp⟩ := s2 (.report k b e) (by simp only [hb, pk3]) hk
      refine ⟨p, z, q, e, hz, fun m hm q' => Or.inl ?_⟩
      obtain ⟨b', e', h'⟩ := hp m hm q'
      refine ⟨b', e', ?_⟩
      simp only at h'
      cases hbb : body env m o none none true 0 (p ++ z :: q') with
      | error x => rw [hbb] at h'; cases h'; rfl
      | ok r => rw [hbb] at h'; cases h'
  obtain ⟨p, z, q, hts, hz, hm⟩ := key
  refine ⟨p, z, q, hts, hz, fun q' ⟨b, t, o', j, hre⟩ => ?_⟩
  obtain ⟨m, hm', l', c', k', rfl, rfl, hr⟩ := re_complete hre
  have := hr (fuelFor ts + fuelFor (p ++ z :: q')) (by simp only [fuelFor]; omega) 0 [] ⟨not_startsWith_nil, fun _ =>
    ⟨not_startsWith_nil, not_startsWith_nil, not_startsWith_nil⟩⟩
  rw [List.append_nil] at this
  obtain ⟨N, hN⟩ : ∃ N, fuelFor ts + fuelFor (p ++ z :: q') - m = N + 1 :=
    ⟨fuelFor ts + fuelFor (p ++ z :: q') - m - 1, by simp only [fuelFor]; omega⟩
  rw [hN, body, finish] at this
  rcases hm _ (Nat.le_add_right _ _) q' with ⟨b', e', h'⟩ | ⟨t', o'', j', ws, h'⟩
  · rw [this] at h'; cases h'
  · rw [this] at h'; cases h'

/-- **C72** The same for the text of a pattern. -/
theorem text_doomed {env : Env} {p : PatternOpts} {text : List Int} (hne : text ≠ []) {k : ErrKind} {b e : Nat}
    (h : parse env p text = .error (.report k b e)) (hk : Final k) :
    ∃ s z q, lex env p.fixed text.length text.length text = s ++ z :: q ∧ AtEnd s z k e ∧
      ∀ q', ¬ Accepted env (Meaning.startOpts p) (s ++ z :: q') :=
  tokens_doomed (by rw [ne_eq, lex_nil (Nat.le_refl _)]; exact hne) h hk

/-! ## Classes with nothing in them -/

open Meaning in
/-- **C72** What an empty class says: nothing is left of its characters, in both cases if case is
ignored, and its bytes; for `[^…]`, nothing is left of the others. -/
theorem nothing_says {R : Reading} {env : Env} (hR : R.Of env) (he : env.Sound) {s : List LTok}
    (hs : ∀ x ∈ s, x.tok.Ok) (h : Nothing env s) :
    (∃ o op M, ClassSays R o (.expr false op) s M ∧ R.close o M.chars = ∅ ∧ M.bytes = ∅) ∨
    (∃ o op M x q, s = x :: q ∧ x.tok = .sym 94 ∧ ClassSays R o (.expr true op) q M ∧
      (M.chars.Nonempty ∧ Cps \ R.close o M.chars = ∅ ∨ M.chars = ∅ ∧ M.bytes.Nonempty ∧ M.bytesᶜ = ∅)) := by
  cases h with
  | @pos o op _ c k h hc =>
    obtain ⟨M, hM, hd⟩ := cc_says hR he h hs
    refine Or.inl ⟨o, op, M, hM, ?_⟩
    by_contra hcon
    have : (R.close o M.chars).Nonempty ∨ M.bytes.Nonempty := by
      rcases Set.eq_empty_or_nonempty (R.close o M.chars) with h1 | h1
      · rcases Set.eq_empty_or_nonempty M.bytes with h2 | h2
        · exact absurd ⟨h1, h2⟩ hcon
        · exact Or.inr h2
      · exact Or.inl h1
    obtain ⟨c', hc', -⟩ := (pos_denotes (o := o) hR he hd).1 this
    rw [hc] at hc'
    cases hc'
  | @neg o op x q c k hx h hc =>
    obtain ⟨M, hM, hd⟩ := cc_says hR he h (fun y hy => hs y (List.mem_cons_of_mem _ hy))
    refine Or.inr ⟨o, op, M, x, q, rfl, hx, hM, ?_⟩
    rcases Set.eq_empty_or_nonempty M.chars with h1 | h1
    · have h3 := neg_denotes' (env := env) (o := o) hd h1
      rcases Set.eq_empty_or_nonempty M.bytes with h2 | h2
      · obtain ⟨c', hc', -⟩ := h3.2 h2
        rw [hc] at hc'
        cases hc'
      · refine Or.inr ⟨h1, h2, ?_⟩
        by_contra hcon
        obtain ⟨c', hc', -⟩ := (h3.1 h2).1 (Set.nonempty_iff_ne_empty.2 hcon)
        rw [hc] at hc'
        cases hc'
    · refine Or.inl ⟨h1, ?_⟩
      by_contra hcon
      obtain ⟨c', hc', -⟩ := (neg_denotes (o := o) hR he hd h1).1 (Set.nonempty_iff_ne_empty.2 hcon)
      rw [hc] at hc'
      cases hc'

/-! ## Examples -/

/-- What `parse` reports, if it does. -/
def reported (text : List Int) : Option (ErrKind × Nat × Nat) :=
  match parse plain ⟨false, false, false⟩ text with
  | .error (.report k b e) => some (k, b, e)
  | _ => none

/-- `a\y`, `[b-a]`, `a{2,1}?`, `(a`, `[a`, `[a&&]`, `[a&&b]`, `a**`. -/
example :
    reported [97, 92, 121] = some (.invalidEscape, 1, 3) ∧
    reported [91, 98, 45, 97, 93] = some (.reversedChars, 1, 4) ∧
    reported [97, 123, 50, 44, 49, 125, 63] = some (.reversedRepetition, 1, 7) ∧
    reported [40, 97] = some (.unmatchedParen, 0, 1) ∧
    reported [91, 97] = some (.unmatchedBracket, 0, 1) ∧
    reported [91, 97, 38, 38, 93] = some (.missingOperand, 2, 4) ∧
    reported [91, 97, 38, 38, 98, 93] = some (.emptyClass, 0, 6) ∧
    reported [97, 42, 42] = some (.nonatomicRepetition, 2, 3) := by decide +kernel

/-- The second star of `a**`: nothing that begins with `a**` is a pattern. -/
example : ∃ s z q, lex plain false 3 3 [97, 42, 42] = s ++ z :: q ∧ z.last = 3 ∧
    ∀ q', ¬ Accepted plain ⟨true, true⟩ (s ++ z :: q') := by
  have h : parse plain ⟨false, false, false⟩ [97, 42, 42] = .error (.report .nonatomicRepetition 2 3) := by
    have h : (match parse plain ⟨false, false, false⟩ [97, 42, 42] with
      | .error (.report .nonatomicRepetition 2 3) => true | _ => false) = true := by decide +kernel
    split at h
    · assumption
    · cases h
  obtain ⟨s, z, q, h1, h2, h3⟩ := text_doomed (by simp) h ⟨by simp, by simp⟩
  refine ⟨s, z, q, h1, ?_, h3⟩
  rcases h2 with h2 | ⟨h2, -⟩
  · exact h2
  · cases h2

end Verif.Parser
