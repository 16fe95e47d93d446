import Verif.VmInd
/-!
# Invariants of the search loop

Order of threads by start, extent of matches, blocking, and the relation
between the hit log and `MatchEnds`.
-/
namespace Verif.Vm

/-- One byte moves a resting program counter (src/lib/vm.cpp:190-235), stated
without reference to threads. -/
inductive Cons (P : Program) (b : UInt8) (pc : Nat) : Nat → Prop
  | table (first last a : Nat) : opAt P pc = some (.jumpTable first last) →
      first ≤ b.toNat → b.toNat ≤ last → P.code[pc + 1 + (b.toNat - first)]? = some a → a ≠ 0 →
      Cons P b pc a
  | byte (x : Nat) (neg : Bool) : opAt P pc = some (.byte x neg) →
      ((b.toNat == x) ^^ neg) = true → Cons P b pc (pc + 1)
  | bits (w : Nat) : opAt P pc = some .bitVector → P.code[pc + 1 + b.toNat / 32]? = some w →
      w / 2 ^ (b.toNat % 32) % 2 = 1 → Cons P b pc (pc + 9)
  | either (x y : Nat) (neg : Bool) : opAt P pc = some (.either x y neg) →
      ((b.toNat == x || b.toNat == y) ^^ neg) = true → Cons P b pc (pc + 1)
  | range (x y : Nat) (neg : Bool) : opAt P pc = some (.range x y neg) →
      ((decide (x ≤ b.toNat) && decide (b.toNat ≤ y)) ^^ neg) = true → Cons P b pc (pc + 1)
  | any : opAt P pc = some .any → Cons P b pc (pc + 1)

/-- `exec` either moves the program counter by `Cons`, or leaves a waiting
(finished) thread alone. -/
theorem exec_some {P t b t'} (h : exec P t b = .ok (some t')) :
    (∃ pc', t' = { t with pc := pc' } ∧ Cons P b t.pc pc') ∨
    (t' = t ∧ opAt P t.pc = some .finish) := by
  simp only [exec] at h
  cases hop : opAt P t.pc with
  | none => rw [hop] at h; simp at h
  | some op =>
    rw [hop] at h
    cases op with
    | jumpTable first last =>
      simp only at h
      split at h
      · rename_i hr
        cases ha : P.code[t.pc + 1 + (b.toNat - first)]? with
        | none => rw [ha] at h; simp at h
        | some a =>
          rw [ha] at h
          simp only at h
          split at h
          · rename_i hne
            simp only [Res.ok.injEq, Option.some.injEq] at h
            exact Or.inl ⟨a, h.symm, .table first last a hop hr.1 hr.2 ha hne⟩
          · simp at h
      · simp at h
    | byte x neg =>
      simp only at h
      split at h
      · rename_i hc
        simp only [Res.ok.injEq, Option.some.injEq] at h
        exact Or.inl ⟨_, h.symm, .byte x neg hop hc⟩
      · simp at h
    | bitVector =>
      simp only at h
      cases ha : P.code[t.pc + 1 + b.toNat / 32]? with
      | none => rw [ha] at h; simp at h
      | some w =>
        rw [ha] at h
        simp only at h
        split at h
        · rename_i hc
          simp only [Res.ok.injEq, Option.some.injEq] at h
          exact Or.inl ⟨_, h.symm, .bits w hop ha hc⟩
        · simp at h
    | either x y neg =>
      simp only at h
      split at h
      · rename_i hc
        simp only [Res.ok.injEq, Option.some.injEq] at h
        exact Or.inl ⟨_, h.symm, .either x y neg hop hc⟩
      · simp at h
    | range x y neg =>
      simp only at h
      split at h
      · rename_i hc
        simp only [Res.ok.injEq, Option.some.injEq] at h
        exact Or.inl ⟨_, h.symm, .range x y neg hop hc⟩
      · simp at h
    | any =>
      simp only [Res.ok.injEq, Option.some.injEq] at h
      exact Or.inl ⟨_, h.symm, .any hop⟩
    | finish =>
      simp only [Res.ok.injEq, Option.some.injEq] at h
      exact Or.inr ⟨h.symm, rfl⟩
    | fork => simp at h
    | jump => simp at h
    | checkHalt i => simp at h
    | label l => simp at h
    | «match» => simp at h
    | halt => simp at h
    | other => simp at h

/-- A program never reaches Finish without executing Match first: `S` is a set
of addresses closed under all steps except Match that contains no Finish. -/
structure Guarded (P : Program) (S : Nat → Prop) : Prop where
  entry : S 0
  halt : S (progEnd P)
  haltOp : opAt P (progEnd P) = some .halt
  noFinish : ∀ pc, S pc → opAt P pc ≠ some .finish
  fork : ∀ pc, S pc → opAt P pc = some .fork → S (pc + 2) ∧ ∀ a, P.code[pc + 1]? = some a → S a
  jump : ∀ pc a, S pc → opAt P pc = some .jump → P.code[pc + 1]? = some a → S a
  check : ∀ pc i, S pc → opAt P pc = some (.checkHalt i) → S (pc + 1)
  label : ∀ pc l, S pc → opAt P pc = some (.label l) → S (pc + 1)
  cons : ∀ pc b pc', S pc → Cons P b pc pc' → S pc'
  /-- nothing is labelled or matched before the first byte -/
  init : ∃ E : Nat → Prop, E 0 ∧ ∀ pc, E pc →
    opAt P pc ≠ some .match ∧ (∀ l, opAt P pc ≠ some (.label l)) ∧
    (opAt P pc = some .fork → E (pc + 2) ∧ ∀ a, P.code[pc + 1]? = some a → E a) ∧
    (opAt P pc = some .jump → ∀ a, P.code[pc + 1]? = some a → E a) ∧
    (∀ i, opAt P pc = some (.checkHalt i) → E (pc + 1))

/-- Facts about a thread when the next byte to read is at `off`; `o` is where
the search began. -/
structure TOk (S : Nat → Prop) (o off : Nat) (t : Thread) : Prop where
  lo : o ≤ t.start
  hi : t.start < off
  none : t.end = none → S t.pc
  some : ∀ e, t.end = some e → t.start ≤ e ∧ e < off

/-- The first thread of a list is neither waiting at Finish nor at Halt. -/
def HeadLive (P : Program) (l : List Thread) : Prop :=
  ∀ t, l.head? = some t → opAt P t.pc ≠ some .finish ∧ opAt P t.pc ≠ some .halt

/-- Facts about the log when `off` bytes have been read. -/
structure LogOk (o off : Nat) (σ : St) : Prop where
  bounds : ∀ h ∈ σ.log, o ≤ h.start ∧ h.start < h.end ∧ h.end ≤ off
  ends : ∀ h ∈ σ.log, ∃ m, σ.matchEnds[h.label]? = some m ∧ h.end ≤ m
  apart : σ.log.Pairwise (fun a b => a.label = b.label → a.end ≤ b.start)
  upper : ∀ (l m : Nat), σ.matchEnds[l]? = some m → m ≤ off

/-- Invariant between two bytes. -/
structure Inv (P : Program) (S : Nat → Prop) (o off : Nat) (σ : St) : Prop where
  next : σ.next = []
  checks : σ.checks = []
  liveNone : σ.liveNone = false
  live : σ.live = []
  len : σ.matchEnds.length = P.maxLabel + 1
  threads : ∀ t ∈ σ.active, TOk S o off t
  sorted : σ.active.Pairwise (fun a b => a.start ≤ b.start)
  head : HeadLive P σ.active
  log : LogOk o off σ

/-- Invariant inside the frame for the byte at `off`, while a thread that
started at `s` runs. -/
structure FInv (P : Program) (S : Nat → Prop) (o off s : Nat) (σ : St) : Prop where
  len : σ.matchEnds.length = P.maxLabel + 1
  active : ∀ t ∈ σ.active, TOk S o (off + 1) t ∧ s ≤ t.start
  activeSorted : σ.active.Pairwise (fun a b => a.start ≤ b.start)
  next : ∀ t ∈ σ.next, TOk S o (off + 1) t ∧ t.start ≤ s
  nextSorted : σ.next.Pairwise (fun a b => a.start ≤ b.start)
  liveNone : σ.liveNone = true → σ.next ≠ []
  live : σ.live ≠ [] → σ.next ≠ []
  head : HeadLive P σ.next
  log : LogOk o (off + 1) σ

/-- Facts about the running thread. -/
structure TRun (S : Nat → Prop) (o off s : Nat) (t : Thread) : Prop where
  start : t.start = s
  ok : TOk S o (off + 1) t

/-- Every thread after a kill comes from one before, only its program counter
may have been sent to Halt. -/
theorem mem_kill {P t off rest i} (h : i ∈ kill P t off rest) :
    ∃ j ∈ rest, i.start = j.start ∧ i.end = j.end ∧ i.label = j.label ∧ i.lead = j.lead ∧
      (i.pc = j.pc ∨ i.pc = progEnd P) := by
  unfold kill at h
  simp only at h
  have die : ∀ j : Thread, let k := (if j.label = t.label then { j with pc := progEnd P } else j)
      k.start = j.start ∧ k.end = j.end ∧ k.label = j.label ∧ k.lead = j.lead ∧
      (k.pc = j.pc ∨ k.pc = progEnd P) := by
    intro j; simp only; split <;> simp
  split at h
  · split at h
    · obtain ⟨j, hj, rfl⟩ := List.mem_map.1 h
      exact ⟨j, hj, die j⟩
    · rcases List.mem_append.1 h with h | h
      · obtain ⟨j, hj, rfl⟩ := List.mem_map.1 h
        exact ⟨j, (List.takeWhile_sublist _).mem hj, die j⟩
      · exact ⟨i, (List.dropWhile_sublist _).mem h, rfl, rfl, rfl, rfl, Or.inl rfl⟩
  · exact ⟨i, h, rfl, rfl, rfl, rfl, Or.inl rfl⟩

theorem kill_starts (P : Program) (t : Thread) (off : Nat) (rest : List Thread) :
    (kill P t off rest).map (·.start) = rest.map (·.start) := by
  have die : ∀ j : Thread, (if j.label = t.label then { j with pc := progEnd P } else j).start = j.start := by
    intro j; split <;> rfl
  unfold kill
  simp only
  split
  · split
    · rw [List.map_map]; apply List.map_congr_left; intro a _; exact die a
    · rw [List.map_append, List.map_map]
      conv => rhs; rw [← List.takeWhile_append_dropWhile (p := fun i => i.start == t.start) (l := rest),
        List.map_append]
      congr 1
      apply List.map_congr_left; intro a _; exact die a
  · rfl

theorem kill_length (P : Program) (t : Thread) (off : Nat) (rest : List Thread) :
    (kill P t off rest).length = rest.length := by
  have := congrArg List.length (kill_starts P t off rest)
  simpa using this

theorem pairwise_start {l : List Thread} :
    l.Pairwise (fun a b => a.start ≤ b.start) ↔ (l.map (·.start)).Pairwise (· ≤ ·) := by
  rw [List.pairwise_map]

theorem kill_sorted {P t off} {rest : List Thread} (h : rest.Pairwise (fun a b => a.start ≤ b.start)) :
    (kill P t off rest).Pairwise (fun a b => a.start ≤ b.start) := by
  rw [pairwise_start, kill_starts, ← pairwise_start]; exact h

/-- What `pushLive` does. -/
theorem pushLive_ok {t σ σ'} (h : pushLive t σ = .ok σ') :
    σ'.next = σ.next ++ [t] ∧ σ'.active = σ.active ∧ σ'.checks = σ.checks ∧
    σ'.matchEnds = σ.matchEnds ∧ σ'.matchEndsMax = σ.matchEndsMax ∧ σ'.log = σ.log ∧
    (σ'.liveNone = (σ.liveNone || t.label.isNone)) ∧
    (∀ l, l ∈ σ'.live ↔ l ∈ σ.live ∨ t.label = some l) ∧
    (∀ l, t.label = some l → l < σ.matchEnds.length) := by
  unfold pushLive at h
  cases hl : t.label with
  | none =>
    rw [hl] at h
    simp only [Res.ok.injEq] at h
    subst h
    simp
  | some l =>
    rw [hl] at h
    simp only at h
    split at h
    · rename_i hlt
      simp only [Res.ok.injEq] at h
      subst h
      refine ⟨rfl, rfl, rfl, rfl, rfl, rfl, by simp, ?_, by simp; exact hlt⟩
      intro k
      simp only
      split
      · rename_i hc
        have : l ∈ σ.live := by simpa using hc
        constructor
        · exact Or.inl
        · rintro (h | h)
          · exact h
          · simp at h; subst h; exact this
      · simp only [List.mem_cons, Option.some.injEq]
        constructor
        · rintro (h | h)
          · exact Or.inr h.symm
          · exact Or.inl h
        · rintro (h | h)
          · exact Or.inr h
          · exact Or.inl h.symm
    · simp at h

theorem unblocked_false {σ l} (h : unblocked σ l = .ok false) :
    σ.liveNone = true ∨ ∃ k, l = some k ∧ k ∈ σ.live := by
  unfold unblocked at h
  split at h
  · rename_i hn; exact Or.inl hn
  · cases l with
    | none => simp [liveFind] at h
    | some k =>
      simp only [liveFind] at h
      split at h
      · simp only [*, Res.ok.injEq] at h
        rename_i b heq
        split at heq
        · simp only [Res.ok.injEq] at heq
          subst heq
          refine Or.inr ⟨k, rfl, ?_⟩
          simpa using h
        · simp at heq
      · simp at h
      · simp at h

theorem unblocked_true {σ l} (h : unblocked σ l = .ok true) :
    σ.liveNone = false ∧ ∃ k, l = some k ∧ k ∉ σ.live ∧ k < σ.matchEnds.length := by
  unfold unblocked at h
  split at h
  · simp at h
  · rename_i hn
    cases l with
    | none => simp [liveFind] at h
    | some k =>
      simp only [liveFind] at h
      refine ⟨by simpa using hn, k, rfl, ?_⟩
      split at h
      · rename_i b heq
        split at heq
        · rename_i hlt
          simp only [Res.ok.injEq] at heq h
          subst heq
          exact ⟨by simpa using h, hlt⟩
        · simp at heq
      · simp at h
      · simp at h

theorem headLive_append {P : Program} {l : List Thread} {t : Thread} (h : HeadLive P l)
    (ht : l = [] → opAt P t.pc ≠ some .finish ∧ opAt P t.pc ≠ some .halt) : HeadLive P (l ++ [t]) := by
  intro u hu
  cases l with
  | nil => simp at hu; subst hu; exact ht rfl
  | cons a r => simp at hu; exact h u (by simpa using hu)

theorem logOk_emit {o off s : Nat} {S : Nat → Prop} {cb : Bool} {t : Thread} {l m : Nat} {σ : St}
    (hT : TRun S o off s t) (hend : t.end ≠ none)
    (hl : LogOk o (off + 1) σ) (hm : σ.matchEnds[l]? = some m) (hle : m ≤ t.start) :
    LogOk o (off + 1) (emitted cb t l σ) := by
  obtain ⟨e, he⟩ : ∃ e, t.end = some e := by
    cases h : t.end with
    | none => exact absurd h hend
    | some e => exact ⟨e, rfl⟩
  obtain ⟨hse, heo⟩ := hT.ok.some e he
  have hlen : l < σ.matchEnds.length := (List.getElem?_eq_some_iff.1 hm).1
  have hep : endPlus t.end = e + 1 := by simp [endPlus, he]
  have mono : ∀ (k x : Nat), σ.matchEnds[k]? = some x → ∃ y, (σ.matchEnds.set l (e+1))[k]? = some y ∧ x ≤ y := by
    intro k x hk
    by_cases hkl : l = k
    · subst hkl
      refine ⟨e + 1, by rw [List.getElem?_set_self hlen], ?_⟩
      rw [hm] at hk; simp at hk; omega
    · exact ⟨x, by rw [List.getElem?_set_ne hkl]; exact hk, Nat.le_refl _⟩
  have hup : ∀ (k x : Nat), (σ.matchEnds.set l (e+1))[k]? = some x → x ≤ off + 1 := by
    intro k x hk
    by_cases hkl : l = k
    · subst hkl; rw [List.getElem?_set_self hlen] at hk; simp at hk; omega
    · rw [List.getElem?_set_ne hkl] at hk; exact hl.upper k x hk
  cases cb with
  | false =>
    constructor
    · simpa [emitted] using hl.bounds
    · intro h hh
      simp only [emitted, Bool.false_eq_true, if_false] at hh
      obtain ⟨x, hx, hxe⟩ := hl.ends h hh
      obtain ⟨y, hy, hxy⟩ := mono _ _ hx
      exact ⟨y, by simpa [emitted, hep] using hy, by omega⟩
    · simpa [emitted] using hl.apart
    · intro k x hk; exact hup k x (by simpa [emitted, hep] using hk)
  | true =>
    constructor
    · intro h hh
      simp only [emitted, if_true, List.mem_append, List.mem_singleton] at hh
      rcases hh with hh | hh
      · exact hl.bounds h hh
      · subst hh
        have := hT.ok.lo
        simp only [hep]
        refine ⟨this, by omega, by omega⟩
    · intro h hh
      simp only [emitted, if_true, List.mem_append, List.mem_singleton] at hh
      rcases hh with hh | hh
      · obtain ⟨x, hx, hxe⟩ := hl.ends h hh
        obtain ⟨y, hy, hxy⟩ := mono _ _ hx
        exact ⟨y, by simpa [emitted, hep] using hy, by omega⟩
      · subst hh
        refine ⟨e + 1, ?_, by simp [hep]⟩
        simp only [emitted, hep]
        rw [List.getElem?_set_self hlen]
    · simp only [emitted, if_true]
      rw [List.pairwise_append]
      refine ⟨hl.apart, by simp, ?_⟩
      intro a ha b hb hlab
      simp only [List.mem_singleton] at hb
      subst hb
      simp only at hlab ⊢
      obtain ⟨x, hx, hxe⟩ := hl.ends a ha
      rw [hlab, hm] at hx
      simp at hx
      omega
    · intro k x hk; exact hup k x (by simpa [emitted, hep] using hk)

theorem logOk_congr {o off : Nat} {σ σ' : St} (h : LogOk o off σ) (h1 : σ'.log = σ.log)
    (h2 : σ'.matchEnds = σ.matchEnds) : LogOk o off σ' where
  bounds := by rw [h1]; exact h.bounds
  ends := by rw [h1, h2]; exact h.ends
  apart := by rw [h1]; exact h.apart
  upper := by rw [h2]; exact h.upper

/-- All primitive actions keep the frame invariant. -/
theorem ep_hyps {P : Program} {S : Nat → Prop} (G : Guarded P S) (cb : Bool) (o off s : Nat) :
    EpHyps P cb off (TRun S o off s) (FInv P S o off s) where
  fork1 := fun t h hop => ⟨h.start, h.ok.lo, h.ok.hi, fun he => (G.fork _ (h.ok.none he) hop).1, h.ok.some⟩
  fork2 := fun t a h hop ha =>
    ⟨h.start, h.ok.lo, h.ok.hi, fun he => (G.fork _ (h.ok.none he) hop).2 a ha, h.ok.some⟩
  jump := fun t a h hop ha => ⟨h.start, h.ok.lo, h.ok.hi, fun he => G.jump _ a (h.ok.none he) hop ha, h.ok.some⟩
  check := fun t i h hop => ⟨h.start, h.ok.lo, h.ok.hi, fun he => G.check _ i (h.ok.none he) hop, h.ok.some⟩
  label := fun t l h hop => ⟨h.start, h.ok.lo, h.ok.hi, fun he => G.label _ l (h.ok.none he) hop, h.ok.some⟩
  «match» := fun t u h _ => ⟨h.start, h.ok.lo, h.ok.hi, fun he => by simp at he, fun e he => by
    simp at he; subst he; have := h.ok.hi; exact ⟨by simp; omega, by omega⟩⟩
  kill := by
    intro t σ hT hop hI
    refine { hI with active := ?_, activeSorted := kill_sorted hI.activeSorted, log := logOk_congr hI.log rfl rfl }
    intro i hi
    obtain ⟨j, hj, h1, h2, h3, _, h4⟩ := mem_kill hi
    obtain ⟨hj1, hj2⟩ := hI.active j hj
    refine ⟨⟨by rw [h1]; exact hj1.lo, by rw [h1]; exact hj1.hi, ?_, ?_⟩, by rw [h1]; exact hj2⟩
    · intro he
      rcases h4 with h4 | h4
      · rw [h4]; exact hj1.none (by rw [← h2]; exact he)
      · rw [h4]; exact G.halt
    · intro e he; rw [h1]; exact hj1.some e (by rw [← h2]; exact he)
  emit := by
    intro t σ l m hT hop hI hl hm hle _
    have hend : t.end ≠ none := fun he => G.noFinish _ (hT.ok.none he) hop
    exact { hI with
      len := by simpa [emitted] using hI.len
      log := logOk_emit hT hend hI.log hm hle }
  push := by
    intro t σ σ' hT hI hR h
    obtain ⟨h1, h2, h3, h4, h5, h6, h7, h8, h9⟩ := pushLive_ok h
    refine ⟨by rw [h4]; exact hI.len, by rw [h2]; exact hI.active, by rw [h2]; exact hI.activeSorted,
      ?_, ?_, fun _ => by rw [h1]; simp, fun _ => by rw [h1]; simp, ?_, logOk_congr hI.log h6 h4⟩
    · intro i hi
      rw [h1] at hi
      rcases List.mem_append.1 hi with hi | hi
      · exact hI.next i hi
      · simp at hi; subst hi; exact ⟨hT.ok, by rw [hT.start]; exact Nat.le_refl _⟩
    · rw [h1, List.pairwise_append]
      refine ⟨hI.nextSorted, by simp, ?_⟩
      intro a ha b hb
      simp at hb; subst hb
      rw [hT.start]; exact (hI.next a ha).2
    · rw [h1]
      apply headLive_append hI.head
      intro hnil
      rcases hR with ⟨op, hop, hr⟩ | ⟨hop, hu⟩
      · rw [hop]
        constructor <;> (intro hc; simp only [Option.some.injEq] at hc; subst hc; simp [Op.resting] at hr)
      · rcases unblocked_false hu with hb | ⟨k, _, hk⟩
        · exact absurd hnil (hI.liveNone hb)
        · exact absurd hnil (hI.live (fun hc => by rw [hc] at hk; simp at hk))
  lock := fun t σ i _ hI _ _ => { hI with log := logOk_congr hI.log rfl rfl }

/-- The frame invariant can move to a later start. -/
theorem FInv.mono {P S o off s s'} {σ : St} (h : FInv P S o off s σ) (hs : s ≤ s')
    (ha : ∀ t ∈ σ.active, s' ≤ t.start) : FInv P S o off s' σ :=
  { h with
    active := fun t ht => ⟨(h.active t ht).1, ha t ht⟩
    next := fun t ht => ⟨(h.next t ht).1, Nat.le_trans (h.next t ht).2 hs⟩ }

theorem tok_after_exec {P S o off} (G : Guarded P S) {t t' b} (h : TOk S o off t)
    (hx : exec P t b = .ok (some t')) : TOk S o off t' ∧ t'.start = t.start := by
  rcases exec_some hx with ⟨pc', rfl, hc⟩ | ⟨rfl, _⟩
  · exact ⟨⟨h.lo, h.hi, fun he => G.cons _ _ _ (h.none he) hc, h.some⟩, rfl⟩
  · exact ⟨h, rfl⟩

theorem runActive_inv {P S} (G : Guarded P S) {cb fuel o off b} (n : Nat) : ∀ {s σ σ'},
    FInv P S o off s σ → runActive P cb fuel off b n σ = .ok σ' → σ.active.length ≤ n →
    ∃ s', s ≤ s' ∧ s' ≤ max s off ∧ FInv P S o off s' σ' ∧ σ'.active = [] := by
  induction n with
  | zero =>
    intro s σ σ' hI h hn
    simp only [runActive, Res.ok.injEq] at h
    subst h
    exact ⟨s, Nat.le_refl _, by omega, hI, List.length_eq_zero_iff.1 (by omega)⟩
  | succ n ih =>
    intro s σ σ' hI h hn
    simp only [runActive] at h
    cases ha : σ.active with
    | nil =>
      rw [ha] at h
      simp only [Res.ok.injEq] at h
      subst h
      exact ⟨s, Nat.le_refl _, by omega, hI, ha⟩
    | cons t rest =>
      rw [ha] at h
      simp only at h
      obtain ⟨σ1, h1, h⟩ := bind_eq_ok.1 h
      have hsrt := hI.activeSorted
      rw [ha] at hsrt
      have ht := hI.active t (by rw [ha]; simp)
      have hI0 : FInv P S o off t.start { σ with active := rest } := by
        have hI' : FInv P S o off s { σ with active := rest } :=
          { hI with
            active := fun u hu => hI.active u (by rw [ha]; simp [show u ∈ rest from hu])
            activeSorted := hsrt.of_cons
            log := logOk_congr hI.log rfl rfl }
        exact hI'.mono ht.2 (fun u hu => (List.pairwise_cons.1 hsrt).1 u hu)
      have hI1 : FInv P S o off t.start σ1 := by
        apply execThread_inv (ep_hyps G cb o off t.start) (fun t' hx => ?_) hI0 h1
        obtain ⟨hk, hs⟩ := tok_after_exec G ht.1 hx
        exact ⟨hs, hk⟩
      have hlen : σ1.active.length ≤ n := by
        have : σ1.active.length = rest.length := by
          have key : (fun σ : St => σ.active.length = rest.length) σ1 := by
            apply execThread_inv (P := P) (T := fun _ => True) (I := fun σ => σ.active.length = rest.length)
              (H := ?_) (fun _ _ => trivial) (by simp) h1
            exact {
              fork1 := fun _ _ _ => trivial, fork2 := fun _ _ _ _ _ => trivial,
              jump := fun _ _ _ _ _ => trivial, check := fun _ _ _ _ => trivial,
              label := fun _ _ _ _ => trivial, «match» := fun _ _ _ _ => trivial,
              kill := fun t σ _ _ h => by simp only [kill_length]; exact h
              emit := fun t σ l m _ _ h _ _ _ _ => h
              push := fun t σ σ' _ h _ hp => by
                obtain ⟨_, h2, _⟩ := pushLive_ok hp; rw [h2]; exact h
              lock := fun _ _ _ _ h _ _ => h }
          exact key
        rw [this]; rw [ha] at hn; simp at hn; exact hn
      obtain ⟨s', hs1, hs2, hI', hnil⟩ := ih hI1 h hlen
      have : t.start < off + 1 := ht.1.hi
      exact ⟨s', Nat.le_trans ht.2 hs1, by omega, hI', hnil⟩

theorem TOk.mono {S o off off'} {t : Thread} (h : TOk S o off t) (ho : off ≤ off') : TOk S o off' t :=
  ⟨h.lo, by have := h.hi; omega, h.none, fun e he => by have := h.some e he; omega⟩

theorem LogOk.mono {o off off'} {σ : St} (h : LogOk o off σ) (ho : off ≤ off') : LogOk o off' σ :=
  ⟨fun x hx => by have := h.bounds x hx; omega, h.ends, h.apart,
   fun l m hm => by have := h.upper l m hm; omega⟩

theorem Inv.mono {P S o off off'} {σ : St} (h : Inv P S o off σ) (ho : off ≤ off') : Inv P S o off' σ :=
  { h with threads := fun t ht => (h.threads t ht).mono ho, log := h.log.mono ho }

/-- `Inv` between frames gives the frame invariant at the start of the frame. -/
theorem Inv.toF {P S o off} {σ : St} (h : Inv P S o off σ) : FInv P S o off 0 σ where
  len := h.len
  active := fun t ht => ⟨(h.threads t ht).mono (by omega), by omega⟩
  activeSorted := h.sorted
  next := by rw [h.next]; simp
  nextSorted := by rw [h.next]; simp
  liveNone := by rw [h.liveNone]; simp
  live := by rw [h.live]; simp
  head := by rw [h.next]; intro t ht; simp at ht
  log := h.log.mono (by omega)

theorem FInv.cleanup {P S o off s} {σ : St} (h : FInv P S o off s σ) :
    Inv P S o (off + 1) (cleanup σ) where
  next := rfl
  checks := rfl
  liveNone := rfl
  live := rfl
  len := h.len
  threads := fun t ht => (h.next t ht).1
  sorted := h.nextSorted
  head := h.head
  log := logOk_congr h.log rfl rfl

/-- Initial threads are at guarded addresses. -/
def FirstOk (S : Nat → Prop) (first : List Thread) : Prop := ∀ t ∈ first, S t.pc

theorem newThreads_finv {P S o off s first} {σ : St} (h : FInv P S o off s σ) (ho : o ≤ off)
    (hs : s ≤ off) (hf : FirstOk S first) :
    FInv P S o off off { σ with active := newThreads first off } :=
  { h with
    active := by
      intro t ht
      simp only [newThreads, List.mem_map] at ht
      obtain ⟨u, hu, rfl⟩ := ht
      exact ⟨⟨ho, by simp, fun _ => hf u hu, by simp⟩, Nat.le_refl _⟩
    activeSorted := by
      simp only [newThreads, List.pairwise_map]
      apply List.pairwise_of_forall
      intros; exact Nat.le_refl _
    next := fun t ht => ⟨(h.next t ht).1, Nat.le_trans (h.next t ht).2 hs⟩
    log := logOk_congr h.log rfl rfl }

theorem frame_inv {P S} (G : Guarded P S) {first cb fuel o off b sp} {σ σ' : St}
    (hf : FirstOk S first) (ho : o ≤ off) (hI : Inv P S o off σ)
    (h : frame P first cb fuel off b sp σ = .ok σ') : Inv P S o (off + 1) σ' := by
  simp only [frame] at h
  obtain ⟨σ1, h1, h⟩ := bind_eq_ok.1 h
  obtain ⟨s1, _, hs2, hI1, _⟩ := runActive_inv G _ hI.toF h1 (Nat.le_refl _)
  obtain ⟨σ2, h2, h⟩ := bind_eq_ok.1 h
  simp only [Res.ok.injEq] at h
  subst h
  cases sp with
  | false =>
    simp only [Bool.false_eq_true, if_false, Res.ok.injEq] at h2
    subst h2
    exact hI1.cleanup
  | true =>
    simp only [if_true] at h2
    obtain ⟨s2, _, _, hI2, _⟩ := runActive_inv G _
      (newThreads_finv (first := first) hI1 ho (by omega) hf) h2 (by simp [newThreads])
    exact hI2.cleanup

theorem searchLoop_inv {P S} (G : Guarded P S) {first cb fuel o} (hf : FirstOk S first)
    (buf : List UInt8) : ∀ {off : Nat} {σ σ' : St}, o ≤ off → Inv P S o off σ →
    searchLoop P first cb fuel buf off σ = .ok σ' → Inv P S o (off + buf.length) σ' := by
  induction buf with
  | nil =>
    intro off σ σ' _ hI h
    simp only [searchLoop, Res.ok.injEq] at h
    subst h; exact hI
  | cons b bs ih =>
    intro off σ σ' ho hI h
    simp only [searchLoop] at h
    obtain ⟨σ1, h1, h⟩ := bind_eq_ok.1 h
    have := ih (by omega) (frame_inv G hf ho hI h1) h
    simp only [List.length_cons]
    rw [show off + (bs.length + 1) = off + 1 + bs.length by omega]
    exact this

theorem resolveActive_eq {P cb fuel off b} (n : Nat) : ∀ {h h' : Bool} {σ σ' : St},
    resolveActive P cb fuel off b n h σ = .ok (h', σ') → runActive P cb fuel off b n σ = .ok σ' := by
  induction n with
  | zero =>
    intro h h' σ σ' he
    simp only [resolveActive, Res.ok.injEq, Prod.mk.injEq] at he
    simp only [runActive, he.2]
  | succ n ih =>
    intro h h' σ σ' he
    simp only [resolveActive] at he
    simp only [runActive]
    cases ha : σ.active with
    | nil =>
      rw [ha] at he
      simp only [Res.ok.injEq, Prod.mk.injEq] at he
      simp only [he.2]
    | cons t rest =>
      rw [ha] at he
      simp only at he ⊢
      obtain ⟨r, _, he⟩ := bind_eq_ok.1 he
      obtain ⟨σ1, h1, he⟩ := bind_eq_ok.1 he
      rw [h1]
      exact ih he

theorem resolveLoop_inv {P S} (G : Guarded P S) {cb fuel o}
    (buf : List UInt8) : ∀ {off off' : Nat} {real : Bool} {σ σ' : St}, o ≤ off → Inv P S o off σ →
    resolveLoop P cb fuel buf off real σ = .ok (off', σ') →
    Inv P S o off' σ' ∧ off ≤ off' ∧ off' ≤ off + buf.length := by
  induction buf with
  | nil =>
    intro off off' real σ σ' _ hI h
    simp only [resolveLoop, Res.ok.injEq, Prod.mk.injEq] at h
    obtain ⟨rfl, rfl⟩ := h
    exact ⟨hI, Nat.le_refl _, by omega⟩
  | cons b bs ih =>
    intro off off' real σ σ' ho hI h
    simp only [resolveLoop] at h
    split at h
    · simp only [Res.ok.injEq, Prod.mk.injEq] at h
      obtain ⟨rfl, rfl⟩ := h
      exact ⟨hI, Nat.le_refl _, by omega⟩
    · obtain ⟨⟨r, σ1⟩, h1, h⟩ := bind_eq_ok.1 h
      have h1 := resolveActive_eq _ h1
      obtain ⟨s1, _, hs2, hI1, _⟩ := runActive_inv G _ hI.toF h1 (Nat.le_refl _)
      obtain ⟨a1, a2, a3⟩ := ih (by omega) hI1.cleanup h
      refine ⟨a1, by omega, ?_⟩
      simp only [List.length_cons]; omega

theorem leftmostLive_eq {P S o off} {σ : St} (hI : Inv P S o off σ) {x r : Nat}
    (h : leftmostLive P x σ.active = .ok r) :
    r = match σ.active with
      | [] => x
      | t :: _ => t.start := by
  cases ha : σ.active with
  | nil => rw [ha] at h; simpa [leftmostLive] using h.symm
  | cons t ts =>
    rw [ha] at h
    have hh := hI.head t (by rw [ha]; rfl)
    simp only [leftmostLive] at h
    cases hop : opAt P t.pc with
    | none => rw [hop] at h; simp at h
    | some op =>
      rw [hop] at h hh
      cases op <;> simp at h hh <;> exact h.symm

/-- Close-out keeps log facts (threads stay as they are). -/
theorem closeLoop_inv {P S} (G : Guarded P S) {o off} (ts : List Thread) : ∀ {σ σ' : St},
    (∀ t ∈ ts, TOk S o off t) → LogOk o off σ → σ.matchEnds.length = P.maxLabel + 1 →
    closeLoop P ts σ = .ok σ' →
    LogOk o off σ' ∧ σ'.active = σ.active ∧ σ'.next = σ.next ∧ σ'.checks = σ.checks ∧
    σ'.liveNone = σ.liveNone ∧ σ'.live = σ.live ∧ σ'.matchEnds.length = P.maxLabel + 1 := by
  induction ts with
  | nil =>
    intro σ σ' _ hl hlen h
    simp only [closeLoop, Res.ok.injEq] at h
    subst h; exact ⟨hl, rfl, rfl, rfl, rfl, rfl, hlen⟩
  | cons t ts ih =>
    intro σ σ' ht hl hlen h
    simp only [closeLoop] at h
    have hts : ∀ u ∈ ts, TOk S o off u := fun u hu => ht u (by simp [hu])
    cases hop : opAt P t.pc with
    | none => rw [hop] at h; simp at h
    | some op =>
      rw [hop] at h
      have hgen : op ≠ .finish → closeLoop P ts σ = .ok σ' := by
        intro hne
        cases op <;> simp at h hne <;> exact h
      by_cases hfin : op = .finish
      · subst hfin
        simp only at h
        cases hlab : t.label with
        | none => rw [hlab] at h; simp at h
        | some l =>
          rw [hlab] at h
          simp only at h
          cases hm : σ.matchEnds[l]? with
          | none => rw [hm] at h; simp at h
          | some m =>
            rw [hm] at h
            simp only at h
            split at h
            · rename_i hle
              have htk := ht t (by simp)
              have hend : t.end ≠ none := fun he => G.noFinish _ (htk.none he) hop
              have hoff : ∃ x, off = x + 1 := ⟨off - 1, by have := htk.hi; omega⟩
              obtain ⟨x, rfl⟩ := hoff
              have hE := logOk_emit (cb := true) (s := t.start) ⟨rfl, htk⟩ hend hl hm hle
              have hE' := logOk_congr hE (σ' := { σ with matchEnds := σ.matchEnds.set l (endPlus t.end)
                                                         log := σ.log ++ [⟨t.start, endPlus t.end, l⟩] })
                (by simp [emitted]) (by simp [emitted])
              obtain ⟨a1, a2, a3, a4, a5, a6, a7⟩ := ih hts hE' (by simpa using hlen) h
              exact ⟨a1, a2, a3, a4, a5, a6, a7⟩
            · exact ih hts hl hlen h
      · exact ih hts hl hlen (hgen hfin)

theorem closeOut_inv {P S} (G : Guarded P S) {o off cb} {σ σ' : St} (hI : Inv P S o off σ)
    (h : closeOut P cb σ = .ok σ') : Inv P S o off σ' := by
  simp only [closeOut] at h
  split at h
  · obtain ⟨a1, a2, a3, a4, a5, a6, a7⟩ := closeLoop_inv G σ.active hI.threads hI.log hI.len h
    exact ⟨by rw [a3, hI.next], by rw [a4, hI.checks], by rw [a5, hI.liveNone], by rw [a6, hI.live], a7,
      by rw [a2]; exact hI.threads, by rw [a2]; exact hI.sorted, by rw [a2]; exact hI.head, a1⟩
  · simp only [Res.ok.injEq] at h; subst h; exact hI

/-- A freshly reset state satisfies the invariant at every offset. -/
theorem inv_fresh {P : Program} {S : Nat → Prop} (o : Nat) : Inv P S o o (preInit P) where
  next := rfl
  checks := rfl
  liveNone := rfl
  live := rfl
  len := by simp [preInit]
  threads := by simp [preInit]
  sorted := by simp [preInit]
  head := by intro t ht; simp [preInit] at ht
  log := ⟨by simp [preInit], by simp [preInit], by simp [preInit], by
    intro l m hm
    simp only [preInit, List.getElem?_replicate] at hm
    split at hm <;> simp at hm; omega⟩

/-- The constructor: the context is reset and the initial threads are
guarded. -/
theorem create_spec {P S} (G : Guarded P S) {fuel first σ} (h : create P fuel = .ok (first, σ)) :
    σ = preInit P ∧ FirstOk S first := by
  simp only [create] at h
  obtain ⟨⟨r, σ1⟩, h1, h⟩ := bind_eq_ok.1 h
  simp only [Res.ok.injEq, Prod.mk.injEq] at h
  obtain ⟨hf, hs⟩ := h
  obtain ⟨E, hE0, hE⟩ := G.init
  let T : Thread → Prop := fun t => E t.pc ∧ S t.pc ∧ t.end = none
  have H : EpHyps P false 0 T
      (fun σ => σ.matchEnds.length = P.maxLabel + 1 ∧ (∀ t ∈ σ.next, S t.pc) ∧ σ.log = []) :=
    { fork1 := fun t h hop => ⟨((hE _ h.1).2.2.1 hop).1, (G.fork _ h.2.1 hop).1, h.2.2⟩
      fork2 := fun t a h hop ha => ⟨((hE _ h.1).2.2.1 hop).2 a ha, (G.fork _ h.2.1 hop).2 a ha, h.2.2⟩
      jump := fun t a h hop ha => ⟨(hE _ h.1).2.2.2.1 hop a ha, G.jump _ a h.2.1 hop ha, h.2.2⟩
      check := fun t i h hop => ⟨(hE _ h.1).2.2.2.2 i hop, G.check _ i h.2.1 hop, h.2.2⟩
      label := fun t l h hop => absurd hop ((hE _ h.1).2.1 l)
      «match» := fun t u h hop => absurd hop (hE _ h.1).1
      kill := fun t σ _ _ h => h
      emit := fun t σ l m _ _ h _ _ _ _ => ⟨by simpa [emitted] using h.1, h.2.1, by simpa [emitted] using h.2.2⟩
      push := fun t σ σ' hT hI _ hp => by
        obtain ⟨h1, h2, h3, h4, h5, h6, _⟩ := pushLive_ok hp
        refine ⟨by rw [h4]; exact hI.1, ?_, by rw [h6]; exact hI.2.2⟩
        intro u hu
        rw [h1] at hu
        rcases List.mem_append.1 hu with hu | hu
        · exact hI.2.1 u hu
        · simp at hu; subst hu; exact hT.2.1
      lock := fun _ _ _ _ h _ _ => h }
  obtain ⟨⟨hl, hn, hlog⟩, hr⟩ := epSeq_inv H (t := ⟨0, 0, none, none, false⟩)
    ⟨hE0, G.entry, rfl⟩ ⟨by simp [preInit], by simp [preInit], rfl⟩ h1
  constructor
  · rw [← hs]; simp [reset, preInit, hl, hlog]
  · rw [← hf]
    cases r with
    | none => exact hn
    | some t' =>
      intro t ht
      rcases List.mem_append.1 ht with ht | ht
      · exact hn t ht
      · simp at ht; subst ht; exact (hr _ rfl).1.2.1

end Verif.Vm
