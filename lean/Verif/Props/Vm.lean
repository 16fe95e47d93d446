import Verif.VmSound
/-!
# C01, C02, C03, C05, C06, C07, C08: histories of calls on one search context

A context is made by `create` (lg_create_context) and used by a list of `Call`s
(lg_search, lg_search_resolve, lg_closeout_search, lg_starts_with,
lg_reset_context), executed by `run`, which gives the values returned and the
state, whose `log` lists the callback invocations.

`Guarded P S` is the only hypothesis on programs: no path reaches Finish
without passing Match first and nothing matches before a byte is read.  The
programs made by the compiler satisfy it (Props/CompiledSafe.lean).  C02, C05 and
C07 need no hypothesis on the program at all.
-/
namespace Verif.Vm

/-- The program the compiler makes for the single pattern `ab`. -/
def abProgram : Program :=
  { code := [1 + 97 * 65536, 10, 1 + 98 * 65536, 11, 6, 12, 6], maxLabel := 0, maxCheck := 0,
    filterOff := 0, filter := fun _ => true }

/-- Addresses of `abProgram` reachable before Match. -/
def abSafe (pc : Nat) : Prop := pc = 0 ∨ pc = 1 ∨ pc = 2 ∨ pc = 3 ∨ pc = 5

theorem abGuarded : Guarded abProgram abSafe := by
  have ops : opAt abProgram 0 = some (.byte 97 false) ∧ opAt abProgram 1 = some (.label 0) ∧
      opAt abProgram 2 = some (.byte 98 false) ∧ opAt abProgram 3 = some .match ∧
      opAt abProgram 5 = some .halt := by decide
  obtain ⟨o0, o1, o2, o3, o5⟩ := ops
  constructor
  · left; rfl
  · right; right; right; right; decide
  · decide
  · rintro pc (rfl | rfl | rfl | rfl | rfl) <;> simp [*]
  · rintro pc (rfl | rfl | rfl | rfl | rfl) <;> simp [*]
  · rintro pc a (rfl | rfl | rfl | rfl | rfl) <;> simp [*]
  · rintro pc i (rfl | rfl | rfl | rfl | rfl) <;> simp [*]
  · rintro pc l (rfl | rfl | rfl | rfl | rfl) <;> simp [*, abSafe]
  · rintro pc b pc' (rfl | rfl | rfl | rfl | rfl) h <;> cases h <;> simp_all [abSafe]
  · refine ⟨fun pc => pc = 0, rfl, ?_⟩
    rintro pc rfl
    simp [o0]

/-- C01.  On a new context, in any session whose offsets do not go back, two
hits of the same keyword are disjoint and in order (`Pairwise` relates every
earlier to every later hit). -/
theorem hits_of_keyword_apart {P : Program} {S : Nat → Prop} (G : Guarded P S) {fuel : Nat}
    {first : List Thread} {σ₀ : St} (hnew : create P fuel = .ok (first, σ₀))
    {p q : Nat} {cs : List Call} (hs : Session p cs q) {rs : List (Option Nat)} {σ : St}
    (hrun : run P first fuel cs σ₀ = .ok (rs, σ)) :
    σ.log.Pairwise (fun earlier later => earlier.label = later.label → earlier.end ≤ later.start) := by
  obtain ⟨rfl, hf⟩ := create_spec G hnew
  exact (run_inv G hf cs hs (Nat.le_refl p) (inv_fresh p) hrun).log.apart

/-- C03.  In a session over data from `p` to `q`, every hit is a non-empty
window inside `[p, q)`. -/
theorem hit_windows_inside_data {P : Program} {S : Nat → Prop} (G : Guarded P S) {fuel : Nat}
    {first : List Thread} {σ₀ : St} (hnew : create P fuel = .ok (first, σ₀))
    {p q : Nat} {cs : List Call} (hs : Session p cs q) {rs : List (Option Nat)} {σ : St}
    (hrun : run P first fuel cs σ₀ = .ok (rs, σ)) :
    ∀ h ∈ σ.log, p ≤ h.start ∧ h.start < h.end ∧ h.end ≤ q := by
  obtain ⟨rfl, hf⟩ := create_spec G hnew
  exact (run_inv G hf cs hs (Nat.le_refl p) (inv_fresh p) hrun).log.bounds

/-- C06.  Whatever happened before (`pre`), the value `x` returned by a search
or resolve call bounds from below the start of every hit reported by any
continuation (`post`). -/
theorem return_value_bounds_later_hits {P : Program} {S : Nat → Prop} (G : Guarded P S) {fuel : Nat}
    {first : List Thread} {σ₀ : St} (hnew : create P fuel = .ok (first, σ₀))
    {p q : Nat} {pre post : List Call} {c : Call} (hs : Session p (pre ++ c :: post) q)
    {rs₁ rs₂ : List (Option Nat)} {x : Nat} {σ₁ σ₂ σ₃ : St}
    (hpre : run P first fuel pre σ₀ = .ok (rs₁, σ₁))
    (hc : step P first fuel c σ₁ = .ok (some x, σ₂))
    (hpost : run P first fuel post σ₂ = .ok (rs₂, σ₃)) :
    ∃ later, σ₃.log = σ₂.log ++ later ∧ ∀ h ∈ later, x ≤ h.start := by
  obtain ⟨rfl, hf⟩ := create_spec G hnew
  have hsplit : ∀ {a b : List Call} {p : Nat}, Session p (a ++ b) q → ∃ m, Session p a m ∧ Session m b q := by
    intro a
    induction a with
    | nil => intro b p h; exact ⟨p, .nil p, h⟩
    | cons d ds ih =>
      intro b p h
      cases h with
      | search buf off cb h hn =>
        obtain ⟨m, h1, h2⟩ := ih hn; exact ⟨m, .search buf off cb h h1, h2⟩
      | resolve buf off cb h hn =>
        obtain ⟨m, h1, h2⟩ := ih hn; exact ⟨m, .resolve buf off cb h h1, h2⟩
      | closeOut cb hn =>
        obtain ⟨m, h1, h2⟩ := ih hn; exact ⟨m, .closeOut cb h1, h2⟩
  obtain ⟨m, h1, h2⟩ := hsplit hs
  obtain ⟨m', h3, h4⟩ := h2.cons_inv
  have hI := run_inv G hf pre h1 (Nat.le_refl p) (inv_fresh p) hpre
  obtain ⟨hI2, hx⟩ := step_inv G hf h3 h1.le hI hc
  obtain ⟨hxq, hxt⟩ := hx x rfl
  have hI3 : Inv P S x m' (clearLog σ₂) := hI2.clear hxt
  have hp := run_prefix P first fuel σ₂.log post (clearLog σ₂)
  rw [relog_clear, hpost] at hp
  cases hr : run P first fuel post (clearLog σ₂) with
  | ub => rw [hr] at hp; simp at hp
  | fuel => rw [hr] at hp; simp at hp
  | ok r =>
    rw [hr] at hp
    simp only [map_okk, Res.ok.injEq, Prod.mk.injEq] at hp
    refine ⟨r.2.log, by rw [hp.2]; simp [relog], ?_⟩
    intro h hh
    exact ((run_inv G hf post h4 hxq hI3 (rs := r.1) (σ' := r.2) hr).log.bounds h hh).1

example : ∃ first σ₀ rs σ, create abProgram 10 = .ok (first, σ₀) ∧
    Session 0 [.search [120, 97] 0 true, .search [98, 97, 98] 2 true, .closeOut true] 5 ∧
    run abProgram first 10 [.search [120, 97] 0 true, .search [98, 97, 98] 2 true, .closeOut true] σ₀
      = .ok (rs, σ) ∧ rs = [some 1, some 5, none] ∧ σ.log = [⟨1, 3, 0⟩, ⟨3, 5, 0⟩] := by
  refine ⟨_, _, _, _, rfl, ?_, rfl, by decide, by decide⟩
  exact .search _ _ _ (by decide) (.search _ _ _ (by decide) (.closeOut _ (.nil _)))

/-- The offsets matter for C01: when a later call uses a smaller offset, a
window can even end before it starts, and hits of one keyword overlap. -/
theorem decreasing_offsets_break_order : ∃ first σ₀ rs σ, create abProgram 10 = .ok (first, σ₀) ∧
    run abProgram first 10 [.search [97, 98] 10 true, .search [97] 100 true, .search [98] 0 true,
      .search [97, 98] 5 true, .search [97, 98] 11 true] σ₀ = .ok (rs, σ) ∧
    σ.log = [⟨10, 12, 0⟩, ⟨100, 1, 0⟩, ⟨5, 7, 0⟩, ⟨11, 13, 0⟩] :=
  ⟨_, _, _, _, rfl, rfl, by decide⟩

/-- C02.  Whatever was done before (`pre`), after a reset the calls `post`
behave as on a new context: they succeed or fail alike, return the same values
and report the same hits, the hits reported before staying in front. -/
theorem reset_is_fresh {P : Program} {fuel : Nat} {first : List Thread} {σ₀ : St}
    (hnew : create P fuel = .ok (first, σ₀)) (pre post : List Call) {rs₁ : List (Option Nat)} {σ₁ : St}
    (hpre : run P first fuel (pre ++ [.reset]) σ₀ = .ok (rs₁, σ₁)) :
    run P first fuel post σ₁ =
      (run P first fuel post σ₀).map (fun r => (r.1, { r.2 with log := σ₁.log ++ r.2.log })) := by
  have hfresh := create_state hnew (create_log hnew)
  rw [run_append] at hpre
  obtain ⟨⟨ra, σa⟩, ha, hpre⟩ := bind_eq_ok.1 hpre
  simp only [run, step, bind_ok, Res.ok.injEq, Prod.mk.injEq] at hpre
  obtain ⟨_, rfl⟩ := hpre
  have hlen := run_len pre ha
  have hσ : reset σa = relog true σa.log σ₀ := by
    rw [hfresh] at hlen ⊢
    simp only [preInit, List.length_replicate] at hlen
    simp [reset, relog, preInit, hlen]
  rw [hσ, run_prefix]
  have : (relog true σa.log σ₀).log = σa.log := by rw [hfresh]; simp [relog, preInit]
  rw [this]
  rfl

example : ∃ first σ₀ rs₁ σ₁, create abProgram 10 = .ok (first, σ₀) ∧
    run abProgram first 10 ([.search [97, 98, 97] 50 true] ++ [.reset]) σ₀ = .ok (rs₁, σ₁) ∧
    (∃ rs σ, run abProgram first 10 [.search [98, 97, 98] 0 true] σ₁ = .ok (rs, σ) ∧
      σ.log = [⟨50, 52, 0⟩, ⟨1, 3, 0⟩]) :=
  ⟨_, _, _, _, rfl, rfl, _, _, rfl, by decide⟩

/-- C01 and C03 after a reset: the hits of a session that follows a reset are
apart per keyword and lie inside the data of that session, whatever happened
before the reset. -/
theorem hits_apart_after_reset {P : Program} {S : Nat → Prop} (G : Guarded P S) {fuel : Nat}
    {first : List Thread} {σ₀ : St} (hnew : create P fuel = .ok (first, σ₀)) (pre : List Call)
    {rs₁ : List (Option Nat)} {σ₁ : St} (hpre : run P first fuel (pre ++ [.reset]) σ₀ = .ok (rs₁, σ₁))
    {p q : Nat} {cs : List Call} (hs : Session p cs q) {rs : List (Option Nat)} {σ : St}
    (hrun : run P first fuel cs σ₁ = .ok (rs, σ)) :
    ∃ hits, σ.log = σ₁.log ++ hits ∧
      hits.Pairwise (fun earlier later => earlier.label = later.label → earlier.end ≤ later.start) ∧
      ∀ h ∈ hits, p ≤ h.start ∧ h.start < h.end ∧ h.end ≤ q := by
  rw [reset_is_fresh hnew pre cs hpre] at hrun
  cases hr : run P first fuel cs σ₀ with
  | ub => rw [hr] at hrun; simp at hrun
  | fuel => rw [hr] at hrun; simp at hrun
  | ok r =>
    rw [hr] at hrun
    simp only [map_okk, Res.ok.injEq, Prod.mk.injEq] at hrun
    obtain ⟨rfl, rfl⟩ := hrun
    exact ⟨r.2.log, rfl, hits_of_keyword_apart G hnew hs (rs := r.1) (σ := r.2) hr,
      hit_windows_inside_data G hnew hs (rs := r.1) (σ := r.2) hr⟩

/-- C08, program level.  In a contiguous session over the stream `data`, every
hit's bytes are accepted by the program for that keyword: some
nondeterministic run (`Run`) of the program reads exactly those bytes and
arrives at Match with that label. -/
theorem hits_are_matches {P : Program} {S F : Nat → Prop} (G : Guarded P S) (Fi : Finishing P S F)
    {fuel : Nat} {first : List Thread} {σ₀ : St} (hnew : create P fuel = .ok (first, σ₀))
    {data : Nat → UInt8} {p q : Nat} {cs : List Call} (hs : Stream data p cs q)
    {rs : List (Option Nat)} {σ : St} (hrun : run P first fuel cs σ₀ = .ok (rs, σ)) :
    ∀ h ∈ σ.log, Accepts P h.label (seg data h.start h.end) := by
  have hf := create_run G hnew
  obtain ⟨rfl, _⟩ := create_spec G hnew
  exact (run_sound G Fi hf cs hs ⟨by simp [preInit], rfl, by simp [preInit, Sound]⟩ hrun).log

theorem abFinishing : Finishing abProgram abSafe (fun pc => pc = 4) := by
  constructor
  · rintro pc (rfl | rfl | rfl | rfl | rfl) h
    · revert h; decide
    · revert h; decide
    · revert h; decide
    · rfl
    · revert h; decide
  · rintro pc rfl; left; decide
  · rintro pc rfl h; exact absurd h (by decide)
  · rintro pc a rfl h; exact absurd h (by decide)

example : Stream (fun i => if i % 2 = 0 then 97 else 98) 0
      [.search [97, 98, 97] 0 true, .search [98] 3 true, .closeOut true] 4 ∧
    ∃ first σ₀ rs σ, create abProgram 10 = .ok (first, σ₀) ∧
      run abProgram first 10 [.search [97, 98, 97] 0 true, .search [98] 3 true, .closeOut true] σ₀
        = .ok (rs, σ) ∧ σ.log = [⟨0, 2, 0⟩, ⟨2, 4, 0⟩] := by
  refine ⟨.search _ _ (fun i h => ?_) (.search _ _ (fun i h => ?_) (.closeOut _ (.nil _))),
    _, _, _, _, rfl, rfl, by decide⟩
  · match i, h with
    | 0, _ => rfl
    | 1, _ => rfl
    | 2, _ => rfl
  · match i, h with
    | 0, _ => rfl

/-- C05, first half.  On a new context every hit of lg_starts_with starts at
the given offset. -/
theorem startsWith_hits_at_start {P : Program} {fuel : Nat} {first : List Thread} {σ₀ : St}
    (hnew : create P fuel = .ok (first, σ₀)) (buf : List UInt8) (off : Nat) (cb : Bool)
    {r : Option Nat} {σ : St} (h : step P first fuel (.startsWith buf off cb) σ₀ = .ok (r, σ)) :
    ∀ hit ∈ σ.log, hit.start = off := by
  have hfresh := create_state hnew (create_log hnew)
  subst hfresh
  simp only [step, startsWith] at h
  obtain ⟨σ1, h1, h⟩ := bind_eq_ok.1 h
  simp only [Res.ok.injEq, Prod.mk.injEq] at h
  obtain ⟨rfl, rfl⟩ := h
  split at h1
  · obtain ⟨σ2, h2, h1⟩ := bind_eq_ok.1 h1
    obtain ⟨σ3, h3, h1⟩ := bind_eq_ok.1 h1
    simp only [Res.ok.injEq] at h1
    subst h1
    obtain ⟨a, b⟩ := startsLoop_starts (s := off) buf ⟨by
        intro t ht
        simp only [preInit, newThreads, List.nil_append, List.mem_map] at ht
        obtain ⟨u, _, rfl⟩ := ht
        rfl, by simp [preInit], by simp [preInit]⟩ h2
    simp only [closeOut] at h3
    simp only [reset]
    split at h3
    · exact closeLoop_starts _ a b h3
    · simp only [Res.ok.injEq] at h3; subst h3; exact b
  · simp only [Res.ok.injEq] at h1; subst h1; simp [preInit]

/-- C05, second half.  After lg_starts_with on a new context, every later
history behaves as on a new context. -/
theorem startsWith_leaves_fresh {P : Program} {fuel : Nat} {first : List Thread} {σ₀ : St}
    (hnew : create P fuel = .ok (first, σ₀)) (buf : List UInt8) (off : Nat) (cb : Bool)
    {r : Option Nat} {σ : St} (h : step P first fuel (.startsWith buf off cb) σ₀ = .ok (r, σ))
    (post : List Call) :
    run P first fuel post σ =
      (run P first fuel post σ₀).map (fun x => (x.1, { x.2 with log := σ.log ++ x.2.log })) := by
  have hfresh := create_state hnew (create_log hnew)
  have hlen := step_len h
  have hσ : σ = relog true σ.log σ₀ := by
    subst hfresh
    simp only [step, startsWith] at h
    obtain ⟨σ1, h1, h⟩ := bind_eq_ok.1 h
    simp only [Res.ok.injEq, Prod.mk.injEq] at h
    obtain ⟨rfl, rfl⟩ := h
    split at h1
    · obtain ⟨σ2, h2, h1⟩ := bind_eq_ok.1 h1
      obtain ⟨σ3, h3, h1⟩ := bind_eq_ok.1 h1
      simp only [Res.ok.injEq] at h1
      subst h1
      simp only [reset, preInit, List.length_replicate] at hlen
      simp [reset, relog, preInit, hlen]
    · simp only [Res.ok.injEq] at h1; subst h1; simp [relog, preInit]
  have := run_prefix P first fuel σ.log post σ₀
  rw [← hσ] at this
  exact this

example : ∃ first σ₀ r σ, create abProgram 10 = .ok (first, σ₀) ∧
    step abProgram first 10 (.startsWith [97, 98, 97, 98] 7 true) σ₀ = .ok (r, σ) ∧
    σ.log = [⟨7, 9, 0⟩] ∧ σ.active = [] :=
  ⟨_, _, _, _, rfl, rfl, by decide, by decide⟩

/-- On a context that is in the middle of a search, lg_starts_with also reports
matches begun earlier: "new or reset" in C05 is needed. -/
theorem startsWith_on_used_context : ∃ first σ₀ rs σ, create abProgram 10 = .ok (first, σ₀) ∧
    run abProgram first 10 [.search [97] 0 true, .startsWith [98] 1 true] σ₀ = .ok (rs, σ) ∧
    σ.log = [⟨0, 2, 0⟩] :=
  ⟨_, _, _, _, rfl, rfl, by decide⟩

/-- C07.  In any state of any program, a search or resolve call without a
callback returns the same value as with one, and afterwards every history
`post` returns the same values and reports the same hits; with the callback the
only difference is that the call's own hits are in the log, after the older and
before the newer ones. -/
theorem callback_does_not_influence (P : Program) (first : List Thread) (fuel : Nat) (σ : St)
    (c : Bool → Call)
    (hc : (∃ buf off, c = .search buf off) ∨ (∃ buf off, c = .resolve buf off)) (post : List Call)
    {rs : List (Option Nat)} {σ' : St}
    (h : run P first fuel (c true :: post) σ = .ok (rs, σ')) :
    ∃ own later σ'', σ'.log = σ.log ++ own ++ later ∧
      run P first fuel (c false :: post) σ = .ok (rs, σ'') ∧
      σ''.log = σ.log ++ later ∧ clearLog σ'' = clearLog σ' := by
  have hstep : ∀ L, step P first fuel (c false) (relog false L (clearLog σ)) =
      (step P first fuel (c true) (clearLog σ)).map (fun r => (r.1, relog false L r.2)) := by
    intro L
    rcases hc with ⟨buf, off, rfl⟩ | ⟨buf, off, rfl⟩
    · simp only [step, search_relog P first false]
      cases search P first true fuel buf off (clearLog σ) <;> rfl
    · simp only [step, searchResolve_relog P false]
      cases searchResolve P true fuel buf off (clearLog σ) <;> rfl
  have hf := hstep σ.log
  have hσ : relog false σ.log (clearLog σ) = σ := by simp [relog, clearLog]
  rw [hσ] at hf
  have ht := step_prefix P first fuel σ.log (c true) (clearLog σ)
  rw [relog_clear] at ht
  simp only [run] at h ⊢
  rw [ht] at h
  rw [hf]
  cases h1 : step P first fuel (c true) (clearLog σ) with
  | ub => rw [h1] at h; simp at h
  | fuel => rw [h1] at h; simp at h
  | ok r =>
    obtain ⟨x, τ⟩ := r
    rw [h1] at h
    simp only [map_okk, bind_ok] at h ⊢
    -- both continue from states that differ only in the log
    have e1 : relog true σ.log τ = relog true (σ.log ++ τ.log) (clearLog τ) := by simp [relog, clearLog]
    have e2 : relog false σ.log τ = relog true σ.log (clearLog τ) := by simp [relog, clearLog]
    rw [e1, run_prefix] at h
    rw [e2, run_prefix]
    cases h2 : run P first fuel post (clearLog τ) with
    | ub => rw [h2] at h; simp at h
    | fuel => rw [h2] at h; simp at h
    | ok s =>
      rw [h2] at h
      simp only [map_okk, bind_ok, Res.ok.injEq, Prod.mk.injEq] at h ⊢
      obtain ⟨h3, h4⟩ := h
      exact ⟨τ.log, s.2.log, _, by rw [← h4]; simp [relog], ⟨h3, rfl⟩, by simp [relog],
        by rw [← h4]; simp [clearLog, relog]⟩

example : ∃ rs σ', run abProgram [⟨0, 0, none, none, false⟩] 10
    [.search [97, 98, 97] 0 true, .search [98] 3 true] (preInit abProgram) = .ok (rs, σ') ∧
    σ'.log = [⟨0, 2, 0⟩, ⟨2, 4, 0⟩] :=
  ⟨_, _, rfl, by decide⟩

/-- Close-out is different: without a callback it forgets to record where the
final hits ended, so a later search may overlap them (the reason C07 is about
search and resolve only). -/
theorem closeOut_callback_matters : ∃ (P : Program) (first : List Thread) (σ₀ : St),
    create P 10 = .ok (first, σ₀) ∧
    ∃ rs σ rs' σ', run P first 10 [.search [97, 98] 0 true, .closeOut true] σ₀ = .ok (rs, σ) ∧
      run P first 10 [.search [97, 98] 0 true, .closeOut false] σ₀ = .ok (rs', σ') ∧
      clearLog σ ≠ clearLog σ' := by
  -- the program for `ab+`: a, label 0, b, match, fork to Finish, b loop
  refine ⟨{ code := [1 + 97 * 65536, 10, 1 + 98 * 65536, 11, 7, 9, 8, 2, 12, 6], maxLabel := 0, maxCheck := 0,
            filterOff := 0, filter := fun _ => true }, _, _, rfl, _, _, _, _, rfl, rfl, ?_⟩
  decide

end Verif.Vm
