import Verif.Props.Fsm
import Verif.Props.Preferred
/-!
# C55: merging can change which match is preferred

`mergeIntoFSM` merges states with the same bytes when they are entered from the same
state only.  Merging a later branch of a pattern with an earlier one gives the
continuations of the later branch the place of the earlier one.
-/
namespace Verif.Optimizer
open Verif.Nfa Verif.Regex Verif.NfaBuilder Verif.Fsm Verif.Compiler

/-- The ways of reading the bytes. -/
def ways (g : Graph) (w : List UInt8) : List (List Nat × Nat × Option Nat) :=
  w.foldl (fun S b => S.flatMap fun x => ((g.v x.2.1).out.filter fun u => (g.v u).bytes.has b).map
    fun u => (x.1 ++ [u], u, (g.v u).label.or x.2.2)) [([], 0, none)]

theorem ways_snoc (g : Graph) (w : List UInt8) (b : UInt8) : ways g (w ++ [b]) =
    (ways g w).flatMap fun x => ((g.v x.2.1).out.filter fun u => (g.v u).bytes.has b).map
      fun u => (x.1 ++ [u], u, (g.v u).label.or x.2.2) := by
  simp [ways, List.foldl_append]

theorem mem_ways {g : Graph} {p w v lab} : Way g p w v lab ↔ (p, v, lab) ∈ ways g w := by
  constructor
  · intro h
    induction h with
    | init => simp [ways]
    | @step p w v lab u b _ hu hb ih =>
      rw [ways_snoc, List.mem_flatMap]
      exact ⟨_, ih, List.mem_map.2 ⟨u, List.mem_filter.2 ⟨hu, hb⟩, rfl⟩⟩
  · induction w using List.reverseRecOn generalizing p v lab with
    | nil =>
      intro h
      simp only [ways, List.foldl_nil, List.mem_singleton, Prod.mk.injEq] at h
      obtain ⟨rfl, rfl, rfl⟩ := h
      exact .init
    | append_singleton w b ih =>
      intro h
      rw [ways_snoc, List.mem_flatMap] at h
      obtain ⟨x, hx, hm⟩ := h
      obtain ⟨u, hu, he⟩ := List.mem_map.1 hm
      rw [List.mem_filter] at hu
      cases he
      exact (ih hx).step hu.1 hu.2

/-- All matches of the bytes, for keyword 0. -/
def matches0 (g : Graph) (buf : List UInt8) : List (Nat × Nat × List Nat) :=
  (List.range buf.length).flatMap fun s => (List.range (buf.length + 1)).flatMap fun e =>
    if s < e then ((ways g ((buf.drop s).take (e - s))).filter fun x => (g.v x.2.1).isMatch && x.2.2 == some 0).map
      fun x => (s, e, x.1)
    else []

theorem mem_matches0 {g : Graph} {buf : List UInt8} {s e : Nat} {p : List Nat} :
    WayAt g 0 buf 0 s e p ↔ (s, e, p) ∈ matches0 g buf := by
  simp only [matches0, List.mem_flatMap, List.mem_range]
  constructor
  · rintro ⟨-, h1, h2, v, h3, h4⟩
    refine ⟨s, by omega, e, by omega, ?_⟩
    rw [if_pos h1]
    exact List.mem_map.2 ⟨(p, v, some 0), List.mem_filter.2 ⟨mem_ways.1 h3, by simp [h4]⟩, rfl⟩
  · rintro ⟨s', h1, e', h2, h3⟩
    split at h3
    · obtain ⟨⟨p', v, lab⟩, hx, he⟩ := List.mem_map.1 h3
      rw [List.mem_filter] at hx
      simp only [Bool.and_eq_true, beq_iff_eq] at hx
      obtain ⟨hx, hm, hl⟩ := hx
      subst hl
      simp only [Prod.mk.injEq] at he
      obtain ⟨rfl, rfl, rfl⟩ := he
      exact ⟨Nat.zero_le _, by omega, by omega, v, mem_ways.2 hx, hm⟩
    · cases h3

/-- `(?:a(?:ce)??|a(?:[cx][bd]|c??))b`. -/
def branches : Tree Leaf :=
  .cat (.alt (.cat (.leaf (.lit [97])) (.rep true 0 1 (.cat (.leaf (.lit [99])) (.leaf (.lit [101])))))
      (.cat (.leaf (.lit [97])) (.alt
        (.cat (.leaf (.cls [[BSet.single 99 ||| BSet.single 120]] 0 true)) (.leaf (.cls [[BSet.single 98 ||| BSet.single 100]] 0 true)))
        (.rep true 0 1 (.leaf (.lit [99]))))))
    (.leaf (.lit [98]))

theorem branches_sane : Sane branches := by
  refine ⟨by simp [branches, Ok, UNB], by simp [branches, NoLook], by simp [branches, NoDead], ?_⟩
  simp [branches, AllLeaves, LeafOk, BSet.single]

/-- C55 is false: in "acbb" the pattern prefers "acbb" when its automaton is built, and
"acb" once that has been merged into an empty FSM. -/
theorem merge_reorders : ∃ p p' g, build 0 (some branches) = .good p ∧ pruneBranches 60 p = some p' ∧
    mergeIntoFSM 60 Graph.init p' = some g ∧
    Preferred p 0 [97, 99, 98, 98] 0 0 [(0, 4)] ∧ Preferred g 0 [97, 99, 98, 98] 0 0 [(0, 3)] := by
  have h : (match build 0 (some branches) with
    | .good p => (match (pruneBranches 60 p).bind (mergeIntoFSM 60 Graph.init) with
      | some g => matches0 p [97, 99, 98, 98] == [(0, 3, [4, 7, 8]), (0, 4, [4, 5, 6, 8])] &&
          (p.v 4).out == [5, 8, 7] &&
          matches0 g [97, 99, 98, 98] == [(0, 3, [1, 3, 2]), (0, 4, [1, 5, 6, 2])] && (g.v 1).out == [2, 3, 5]
      | none => false)
    | _ => false) = true := by decide +kernel
  cases h1 : build 0 (some branches) with
  | threw => rw [h1] at h; cases h
  | empty => rw [h1] at h; cases h
  | good p =>
    rw [h1] at h
    cases h2 : pruneBranches 60 p with
    | none => simp [h2] at h
    | some p' =>
      simp only [h2, Option.bind_some] at h
      cases h3 : mergeIntoFSM 60 Graph.init p' with
      | none => simp [h3] at h
      | some g =>
        simp only [h3, Bool.and_eq_true, beq_iff_eq] at h
        obtain ⟨⟨⟨a1, a2⟩, a3⟩, a4⟩ := h
        refine ⟨p, p', g, rfl, h2, h3, ?_, ?_⟩
        · refine ⟨Nat.zero_le _, ⟨[4, 5, 6, 8], ?_, ?_⟩, ?_⟩
          · rw [mem_matches0, a1]; simp
          · intro s e q hq _
            rw [mem_matches0, a1] at hq
            simp only [List.mem_cons, Prod.mk.injEq, List.not_mem_nil, or_false] at hq
            rcases hq with ⟨rfl, rfl, rfl⟩ | ⟨rfl, rfl, rfl⟩
            · refine .inr ⟨rfl, .inr (.inr ⟨[4], 5, [6, 8], 7, [8], rfl, rfl, ?_⟩)⟩
              show Earlier (p.v 4).out 5 7
              rw [a2]
              exact ⟨[5, 8], [], rfl, by decide, by decide⟩
            · exact .inr ⟨rfl, .inl rfl⟩
          · intro s e q hq
            rw [mem_matches0, a1] at hq
            simp only [List.mem_cons, Prod.mk.injEq, List.not_mem_nil, or_false] at hq
            omega
        · refine ⟨Nat.zero_le _, ⟨[1, 3, 2], ?_, ?_⟩, ?_⟩
          · rw [mem_matches0, a3]; simp
          · intro s e q hq _
            rw [mem_matches0, a3] at hq
            simp only [List.mem_cons, Prod.mk.injEq, List.not_mem_nil, or_false] at hq
            rcases hq with ⟨rfl, rfl, rfl⟩ | ⟨rfl, rfl, rfl⟩
            · exact .inr ⟨rfl, .inl rfl⟩
            · refine .inr ⟨rfl, .inr (.inr ⟨[1], 3, [2], 5, [6, 2], rfl, rfl, ?_⟩)⟩
              show Earlier (g.v 1).out 3 5
              rw [a4]
              exact ⟨[2, 3], [], rfl, by decide, by decide⟩
          · intro s e q hq
            rw [mem_matches0, a3] at hq
            simp only [List.mem_cons, Prod.mk.injEq, List.not_mem_nil, or_false] at hq
            omega

end Verif.Optimizer
