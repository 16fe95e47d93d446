import Verif.VmResolve
import Verif.Props.Starts
/-!
# C77: lg_search_resolve finishes what was begun and begins nothing new

Data is searched and then followed further with lg_search_resolve, which stops as soon as
nothing is left to follow.  What is reported are the hits that searching everything would
have reported, except those that start in the part that was only followed.
-/
namespace Verif.Compiler
open Verif.Nfa Verif.Transition Verif.Vm

theorem stream_resolves {data : Nat → UInt8} (bufs more : List (List UInt8)) :
    ∀ off, Vm.Holds data off (bufs.flatten ++ more.flatten) → ∃ q, Stream data off (resolves off bufs more) q := by
  induction bufs with
  | nil =>
    induction more with
    | nil => intro off _; exact ⟨_, .closeOut true (.nil off)⟩
    | cons b bs ih =>
      intro off h
      simp only [List.flatten_nil, List.nil_append, List.flatten_cons] at h ih
      obtain ⟨h1, h2⟩ := holds_append h
      obtain ⟨q, hq⟩ := ih _ h2
      exact ⟨q, .resolve b true h1 hq⟩
  | cons b bs ih =>
    intro off h
    rw [List.flatten_cons, List.append_assoc] at h
    obtain ⟨h1, h2⟩ := holds_append h
    obtain ⟨q, hq⟩ := ih _ h2
    exact ⟨q, .search b true h1 hq⟩

/-- **C77.** A stream is given to a fresh context in any consecutive buffers: the first of them
(`bufs`) to lg_search, the others (`more`) to lg_search_resolve; then the context is closed out.
This ends, as does searching all the buffers with lg_search and closing out, and for every
keyword the hits reported are, in order, the hits of that search that start in the first
buffers.  Altogether the hits reported are those. -/
theorem resolve_agrees {g : Graph} (hg : Live g) (hG : Guards g) {fuel' : Nat} {P : Program}
    (hc : createProgram fuel' g = some (.ok P)) {fuel : Nat} (hf : 2 * g.n + 9 ≤ fuel) (off : Nat)
    (bufs more : List (List UInt8)) :
    ∃ first σ₀ rs σ rs' σ', create P fuel = .ok (first, σ₀) ∧
      run P first fuel (resolves off bufs more) σ₀ = .ok (rs, σ) ∧
      run P first fuel (searches off (bufs ++ more)) σ₀ = .ok (rs', σ') ∧
      (∀ l, hitsOf l σ.log = (hitsOf l σ'.log).filter (fun h => h.1 < off + bufs.flatten.length)) ∧
      σ.log.Perm (σ'.log.filter (fun h => h.start < off + bufs.flatten.length)) := by
  obtain ⟨first, σ₀, rs, σ, h0, h1⟩ := compiled_never_out_of_bounds hg hG.labelled hc hf (resolves off bufs more)
  obtain ⟨first', σ₀', rs', σ', h0', h2⟩ := searches_end hg hG hc hf off (bufs ++ more)
  rw [h0] at h0'
  cases h0'
  obtain ⟨hC, e1, e2⟩ := compiled_of_createProgram hg hc
  have key : ∀ l, hitsOf l σ.log = (hitsOf l σ'.log).filter (fun h => h.1 < off + bufs.flatten.length) := by
    intro l
    by_cases hl : l ≤ P.maxLabel
    · have g2 := compiled_greedy hg hG hc h0 h2 hl
      rw [List.flatten_append, List.length_append, ← Nat.add_assoc] at g2
      exact resolve_greedy (compiled_ordered hC hG e1 e2) (compiled_starts hC) (compiled_filters hg hc) h0
        (holds_streamOf off _) h1 hl g2
    · rw [hits_above hg hc h0 h2 hl, List.filter_nil]
      obtain ⟨q, hq⟩ := stream_resolves bufs more off (holds_streamOf off _)
      have hs := compiled_hits_are_matches hg hc h0 hq h1
      unfold hitsOf
      rw [List.map_eq_nil_iff, List.filter_eq_nil_iff]
      intro h hh e
      obtain ⟨v, hr, -⟩ := hs h hh
      have := (label_of_grun hg hr).2 _ rfl
      simp only [beq_iff_eq] at e
      omega
  refine ⟨first, σ₀, rs, σ, rs', σ', h0, h1, h2, key, ?_⟩
  rw [List.perm_iff_count]
  intro h
  rw [count_hitsOf, count_hitsOf, key]
  congr 1
  unfold hitsOf
  rw [List.filter_map, List.filter_filter, List.filter_filter]
  congr 1
  apply List.filter_congr
  intro x _
  simp [Bool.and_comm]

/-- So nothing is reported that starts in the part only followed, and every match that starts in
the part searched lies, with its first byte, in a hit of its keyword.

What is missing: programs with the landing-address defect (`NoZero`, see
`zero_landing_loses_match`). -/
theorem resolve_covers_partial {g : Graph} (hg : Live g) (hG : Guards g) (hz : NoZero g) {fuel' : Nat} {P : Program}
    (hc : createProgram fuel' g = some (.ok P)) {fuel : Nat} (hf : 2 * g.n + 9 ≤ fuel) {off : Nat}
    {bufs more : List (List UInt8)} {first : List Thread} {σ₀ : St} (hnew : create P fuel = .ok (first, σ₀))
    {rs : List (Option Nat)} {σ : St} (hrun : run P first fuel (resolves off bufs more) σ₀ = .ok (rs, σ)) :
    (∀ h ∈ σ.log, h.start < off + bufs.flatten.length) ∧
    ∀ l s e, MatchAt g off (bufs.flatten ++ more.flatten) l s e → s < off + bufs.flatten.length →
      ∃ h ∈ σ.log, h.label = l ∧ h.start ≤ s ∧ s < h.end := by
  obtain ⟨first', σ₀', rs1, σ1, rs', σ', h0, h1, h2, -, hp⟩ := resolve_agrees hg hG hc hf off bufs more
  rw [hnew] at h0
  cases h0
  rw [hrun] at h1
  cases h1
  refine ⟨fun h hh => by simpa using (List.mem_filter.1 (hp.subset hh)).2, ?_⟩
  intro l s e hm hs
  rw [← List.flatten_append] at hm
  obtain ⟨h, hh, a, b, c⟩ := matches_are_covered_partial hg hG hz hc hnew h2 hm
  exact ⟨h, hp.symm.subset (List.mem_filter.2 ⟨hh, by simpa using (by omega : h.start < off + bufs.flatten.length)⟩), a, b, c⟩

/-- In `xab` the first keyword of `abc`, `ab+`, has begun; it ends in what follows, `bac`, in
which nothing new is begun although the second keyword, `ac`, is there. -/
example : ∃ F P first σ₀ rs σ, createProgram F abc = some (.ok P) ∧ create P 17 = .ok (first, σ₀) ∧
    run P first 17 (resolves 7 [[120], [97, 98]] [[98], [97, 99]]) σ₀ = .ok (rs, σ) ∧
    (∃ h ∈ σ.log, h.label = 0 ∧ h.start ≤ 8 ∧ 8 < h.end) ∧ ∀ h ∈ σ.log, h.start < 10 := by
  obtain ⟨F, P, hP⟩ := abc_program
  obtain ⟨first, σ₀, rs, σ, rs', σ', h0, h1, -⟩ := resolve_agrees abc_live abc_guards hP (fuel := 17)
    (by decide) 7 [[120], [97, 98]] [[98], [97, 99]]
  obtain ⟨a, b⟩ := resolve_covers_partial abc_live abc_guards abc_noZero hP (by decide) h0 h1
  refine ⟨F, P, first, σ₀, rs, σ, hP, h0, h1, b 0 8 11 ?_ (by decide), a⟩
  refine ⟨by decide, by decide, by decide, 2, ?_, rfl⟩
  exact ((GRun.init.step (u := 1) (b := 97) (by decide) (by decide +kernel)).step (u := 2) (b := 98)
    (by decide) (by decide +kernel)).step (u := 2) (b := 98) (by decide) (by decide +kernel)

end Verif.Compiler
