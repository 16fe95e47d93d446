import Verif.Props.ClassTables
/-! # C32, C56: the prepared tables, the cache and ASCII -/
namespace Verif.Encoders
open Verif.Nfa Verif.NfaBuilder Verif.Utf

/-- `encs` is a right answer to a request for the code points in `rs`: it accepts their
encodings and nothing else, and the automaton builder can use it. -/
def Answers (u : Utf) (rs : List (Nat × Nat)) (encs : List Enc) : Prop :=
  (∀ w, Denotes encs w ↔ ∃ c, InRanges rs c ∧ w = toBytes (u.spec c)) ∧
    ∀ brk additive, LeafOk (.cls encs brk additive)

theorem inRanges_any {c : Nat} : InRanges anyKey c ↔ Scalar c := by
  unfold InRanges anyKey Scalar
  constructor
  · rintro ⟨r, hr, h⟩
    simp only [List.mem_cons, List.not_mem_nil, or_false] at hr
    rcases hr with rfl | rfl <;> simp only at h <;> omega
  · intro h
    by_cases h1 : c < 0xD800
    · exact ⟨_, List.mem_cons_self, by omega, h1⟩
    · exact ⟨(0xE000, 0x110000), by simp, by simp only; omega, by simp only; omega⟩

/-- The prepared entries are right. -/
theorem anyEntry_answers (u : Utf) : Answers u anyKey u.anyEntry := by
  refine ⟨fun w => ?_, fun brk additive => ?_⟩
  · simp only [inRanges_any]
    have key : (∃ c, Scalar c ∧ w = toBytes (u.spec c)) ↔ ∃ c, Scalar c ∧ w.map UInt8.toNat = u.spec c := by
      constructor
      · rintro ⟨c, h, h'⟩; exact ⟨c, h, (eq_toBytes (spec_bytes u h)).1 h'⟩
      · rintro ⟨c, h, h'⟩; exact ⟨c, h, (eq_toBytes (spec_bytes u h)).2 h'⟩
    rw [key]
    cases u with
    | utf8 =>
      rw [any8]
      exact ⟨fun h => scalar_iff_wf h, fun ⟨c, h, h'⟩ => by rw [h']; exact spec8_wf h⟩
    | utf16 le => exact any16 le w
    | utf32 le => exact any32 le w
  · have p1 : ∀ {a b : Nat}, a < b → b ≤ 256 → ofPairs [(a, b)] ≠ 0 := fun {a b} h hb =>
      ne_zero_of_has ((ofPairs_one (by omega) hb (UInt8.ofNat a)).2 ⟨by rw [ofNat_toNat (by omega)], by rw [ofNat_toNat (by omega)]; exact h⟩)
    have p2 : ∀ {a b c d : Nat}, a < b → b ≤ 256 → c ≤ d → d ≤ 256 → ofPairs [(a, b), (c, d)] ≠ 0 := fun {a b c d} h hb h' hd =>
      ne_zero_of_has ((ofPairs_two (by omega) hb h' hd (UInt8.ofNat a)).2
        (.inl ⟨by rw [ofNat_toNat (by omega)], by rw [ofNat_toNat (by omega)]; exact h⟩))
    have p3 : ∀ {b : Nat}, b < 256 → setByte 0 b ≠ 0 := fun h =>
      ne_zero_of_has ((single_iff h (UInt8.ofNat _)).2 (ofNat_toNat h))
    cases u with
    | utf8 =>
      simp only [LeafOk, Utf.anyEntry, List.tail_cons, List.forall_mem_cons, List.not_mem_nil, false_imp_iff, implies_true, and_true]
      refine ⟨by simp, by simp, ?_⟩
      refine ⟨?_, ⟨?_, ?_⟩, ⟨?_, ?_, ?_⟩, ⟨?_, ?_, ?_⟩, ⟨?_, ?_, ?_⟩, ⟨?_, ?_, ?_, ?_⟩, ⟨?_, ?_, ?_, ?_⟩, ?_, ?_, ?_, ?_⟩ <;>
        first | with_reducible exact p1 (by omega) (by omega) | with_reducible exact p3 (by omega) | with_reducible exact p2 (by omega) (by omega) (by omega) (by omega)
    | utf16 le =>
      cases le <;>
      · simp only [LeafOk, Utf.anyEntry, List.tail_cons, List.forall_mem_cons, List.not_mem_nil, false_imp_iff, implies_true, and_true]
        refine ⟨by simp, by simp, ?_⟩
        refine ⟨⟨?_, ?_⟩, ?_, ?_, ?_, ?_⟩ <;>
          first | with_reducible exact p1 (by omega) (by omega) | with_reducible exact p3 (by omega) | with_reducible exact p2 (by omega) (by omega) (by omega) (by omega)
    | utf32 le =>
      cases le <;>
      · simp only [LeafOk, Utf.anyEntry, List.tail_cons, List.forall_mem_cons, List.not_mem_nil, false_imp_iff, implies_true, and_true]
        refine ⟨by simp, by simp, ?_⟩
        refine ⟨⟨?_, ?_, ?_, ?_⟩, ?_, ?_, ?_, ?_⟩ <;>
          first | with_reducible exact p1 (by omega) (by omega) | with_reducible exact p3 (by omega) | with_reducible exact p2 (by omega) (by omega) (by omega) (by omega)

/-- A request that the builder can make: the ranges of a set of scalar values. -/
def Request (rs : List (Nat × Nat)) : Prop := Apart rs ∧ ∀ c, InRanges rs c → Scalar c

theorem cachedAll_spec (u : Utf) : ∀ (rss : List (List (Nat × Nat))) (c : Cache),
    (∀ k v, c.lookup k = some v → Answers u k v) → (∀ rs ∈ rss, Request rs) →
    ∃ c' out, cachedAll u.writeSet c rss = some (c', out) ∧ List.Forall₂ (Answers u) rss out := by
  intro rss
  induction rss with
  | nil => intro c _ _; exact ⟨c, [], rfl, .nil⟩
  | cons rs rss ih =>
    intro c hc hr
    have h0 := hr rs List.mem_cons_self
    cases hl : c.lookup rs with
    | some v =>
      obtain ⟨c', out, e, h⟩ := ih c hc fun x hx => hr x (List.mem_cons_of_mem _ hx)
      refine ⟨c', v :: out, ?_, .cons (hc _ _ hl) h⟩
      simp only [cachedAll, cachedWrite, hl, Option.bind_eq_bind, Option.bind_some, e]
    | none =>
      obtain ⟨encs, he, h1, h2⟩ := utf_class_exact u h0.1 h0.2
      obtain ⟨c', out, e, h⟩ := ih ((rs, encs) :: c) (fun k v hk => by
        rw [List.lookup_cons] at hk
        by_cases hkr : k = rs
        · subst hkr
          simp only [beq_self_eq_true, Option.some.injEq] at hk
          subst hk
          exact ⟨h1, h2⟩
        · rw [beq_false_of_ne hkr] at hk
          exact hc k v hk) fun x hx => hr x (List.mem_cons_of_mem _ hx)
      refine ⟨c', encs :: out, ?_, .cons ⟨h1, h2⟩ h⟩
      simp only [cachedAll, cachedWrite, hl, he, Option.map_some, Option.bind_eq_bind, Option.bind_some, e]

/-- **C56.** However many classes an encoder has been asked for before, and in whatever
order, the answer to the next one accepts exactly the encodings of its members: neither
the prepared entries nor the entries made on the way change an answer. -/
theorem cache_keeps_answers (u : Utf) (rss : List (List (Nat × Nat))) (h : ∀ rs ∈ rss, Request rs) :
    ∃ c out, cachedAll u.writeSet [(anyKey, u.anyEntry)] rss = some (c, out) ∧ List.Forall₂ (Answers u) rss out := by
  refine cachedAll_spec u rss _ (fun k v hk => ?_) h
  rw [List.lookup_cons] at hk
  by_cases hkr : k = anyKey
  · subst hkr
    simp only [beq_self_eq_true, Option.some.injEq] at hk
    subst hk
    exact anyEntry_answers u
  · rw [beq_false_of_ne hkr] at hk
    simp at hk

-- Any code point, a class, and both again.
example : ∀ rs ∈ [anyKey, [(0x61, 0x64)], anyKey, [(0x61, 0x64)]], Request rs := by
  intro rs h
  simp only [List.mem_cons, List.not_mem_nil, or_false] at h
  have h1 : Request anyKey := ⟨⟨by decide, by decide⟩, fun c h => inRanges_any.1 h⟩
  have h2 : Request [(0x61, 0x64)] := ⟨⟨by simp, by simp⟩, fun c ⟨r, hr, h⟩ => by
    simp only [List.mem_singleton] at hr
    subst hr
    unfold Scalar; simp only at h; omega⟩
  rcases h with rfl | rfl | rfl | rfl
  · exact h1
  · exact h2
  · exact h1
  · exact h2

/-! ## ASCII -/

theorem asciiLoop_spec : ∀ (rs : List (Nat × Nat)) (s : BSet), Apart rs →
    ∃ t, asciiLoop s rs = some t ∧ ∀ x : UInt8, t.has x = true ↔ s.has x = true ∨ (InRanges rs x.toNat ∧ x.toNat < 0x80) := by
  intro rs
  induction rs with
  | nil => intro s _; exact ⟨s, rfl, fun x => by simp [InRanges]⟩
  | cons r rs ih =>
    intro s ha
    obtain ⟨hp, hn⟩ := ha
    rw [List.pairwise_cons] at hp
    have h0 := hn r List.mem_cons_self
    have hin : ∀ c, InRanges (r :: rs) c ↔ (r.1 ≤ c ∧ c < r.2) ∨ InRanges rs c := by
      intro c; simp only [InRanges, List.mem_cons, exists_eq_or_imp]
    have hafter : ∀ c, InRanges rs c → r.2 < c := by
      rintro c ⟨q, hq, hc⟩
      have := hp.1 q hq
      omega
    unfold asciiLoop
    by_cases h1 : r.1 > 0x7F
    · rw [if_pos h1]
      refine ⟨s, rfl, fun x => ?_⟩
      constructor
      · exact .inl
      · rintro (h | ⟨h, h'⟩)
        · exact h
        · rcases (hin _).1 h with h | h
          · omega
          · have := hafter _ h; omega
    · rw [if_neg h1]
      by_cases h2 : r.2 > 0x7F
      · rw [if_pos h2]
        obtain ⟨t, ht, hx⟩ := setRange_has (s := s) (a := r.1) (b := 0x80) (by omega) (by omega)
        refine ⟨t, ht, fun x => ?_⟩
        rw [hx, Bool.or_eq_true, decide_eq_true_eq, hin]
        constructor
        · rintro (h | h)
          · exact .inl h
          · exact .inr ⟨.inl (by omega), by omega⟩
        · rintro (h | ⟨h | h, h'⟩)
          · exact .inl h
          · exact .inr (by omega)
          · have := hafter _ h; omega
      · rw [if_neg h2]
        obtain ⟨t, ht, hx⟩ := setRange_has (s := s) (a := r.1) (b := r.2) (by omega) (by omega)
        obtain ⟨t', ht', hx'⟩ := ih t ⟨hp.2, fun q hq => hn q (List.mem_cons_of_mem _ hq)⟩
        refine ⟨t', by rw [ht]; exact ht', fun x => ?_⟩
        rw [hx', hx, Bool.or_eq_true, decide_eq_true_eq, hin]
        constructor
        · rintro ((h | h) | h)
          · exact .inl h
          · exact .inr ⟨.inl h, by omega⟩
          · exact .inr ⟨.inr h.1, h.2⟩
        · rintro (h | ⟨h | h, h'⟩)
          · exact .inl (.inl h)
          · exact .inl (.inr h)
          · exact .inr ⟨h, h'⟩

/-- **C32 (ASCII).** A class becomes the bytes of its members below 128. -/
theorem ascii_class_exact {rs : List (Nat × Nat)} (ha : Apart rs) :
    ∃ encs, asciiSet rs = some encs ∧
      (∀ w, Denotes encs w ↔ ∃ c, InRanges rs c ∧ c < 0x80 ∧ w = [UInt8.ofNat c]) ∧
      ((∃ c, InRanges rs c ∧ c < 0x80) → ∀ brk additive, LeafOk (.cls encs brk additive)) := by
  obtain ⟨t, ht, hx⟩ := asciiLoop_spec rs 0 ha
  refine ⟨[[t]], by unfold asciiSet; rw [ht]; rfl, fun w => ?_, ?_⟩
  · rw [denotes_singleton, fits1]
    constructor
    · rintro ⟨x, h, rfl⟩
      rw [hx, has_zero] at h
      exact ⟨x.toNat, by simpa using h.resolve_left (by simp) |>.1, by simpa using h.resolve_left (by simp) |>.2, by simp⟩
    · rintro ⟨c, h, h', rfl⟩
      exact ⟨_, (hx _).2 (.inr (by rw [ofNat_toNat (by omega)]; exact ⟨h, h'⟩)), rfl⟩
  · rintro ⟨c, h, h'⟩ brk additive
    refine ⟨by simp, by simp, fun e he s hs => ?_⟩
    rw [List.mem_singleton] at he
    subst he
    rw [List.mem_singleton] at hs
    subst hs
    exact ne_zero_of_has ((hx (UInt8.ofNat c)).2 (.inr (by rw [ofNat_toNat (by omega)]; exact ⟨h, h'⟩)))

end Verif.Encoders
