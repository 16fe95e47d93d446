import Verif.Props.Refusals
import Verif.Props.Defined
import Verif.Props.Pipeline
import Verif.Props.CompiledSafe
/-!
# C102: everything comes to an end

The other modules speak about what is the result if there is one: the loops of the model have a
step budget.  Here: patterns of every kind can be added, whatever was added before, the automaton is
made and compiled, and every history of calls on a context comes to an end, with the same results
for all sufficiently large budgets.
-/
namespace Verif.BestPair
open Verif.Nfa

theorem loop_grows (g : Graph) : ∀ (fuel : Nat) {next : List (Nat × Nat)} {b : List Pairs} {lmin : Nat} {r : List Pairs × Nat},
    loop g fuel next b lmin = some r → loop g (fuel + 1) next b lmin = some r := by
  intro fuel
  induction fuel with
  | zero =>
    intro next b lmin r h
    cases next with
    | nil => unfold loop at h ⊢; exact h
    | cons p next => unfold loop at h; cases h
  | succ n ih =>
    intro next b lmin r h
    cases next with
    | nil => unfold loop at h ⊢; exact h
    | cons p next =>
      obtain ⟨d, v⟩ := p
      unfold loop at h ⊢
      split at h
      · next hd => rw [if_pos hd]; exact h
      · next hd => rw [if_neg hd]; exact ih h

/-- A larger budget does not change the filter. -/
theorem bestPair_grows {g : Graph} {f f' : Nat} (hf : f ≤ f') {r : Nat × Pairs} (h : bestPair f g = some r) :
    bestPair f' g = some r := by
  induction hf with
  | refl => exact h
  | @step m _ ih =>
    unfold bestPair at ih ⊢
    cases hl : loop g m [(0, 0)] [] 4294967294 with
    | none => rw [hl] at ih; cases ih
    | some q =>
      rw [hl] at ih
      rw [loop_grows g m hl]
      exact ih

end Verif.BestPair

namespace Verif.Session
open Verif.Encoders Verif.Chain Verif.Nfa Verif.NfaBuilder Verif.Fsm Verif.Subset Verif.Defined
open Verif.Regex (Tree lang NoLook NoDead NgFlat NoNg AllLeaves weight UNB SamePlaces langRoot)
open Verif.Parser (Env PatternOpts)
open Verif.Vm (Call)
open Verif.Optimizer (Combined combined_init)

/-! ## Requests -/

theorem request_ends [Build] {env : Env} (he : env.Sound) {r : Request} (hm : Modest env r)
    (hd : Text.parseAndReduce env r.opts r.expr ≠ .error .ub) {s : State} (hf : FactoryOk s.factory) (hg : Combined s.graph) :
    ∃ s' o F, ∀ fuel ≥ F, request fuel env s r = some (s', o) := by
  unfold request
  split
  · next h => exact absurd h hd
  · exact ⟨_, _, 0, fun _ _ => rfl⟩
  · next u hu =>
    unfold addTree
    cases hget : s.factory.get r.chain with
    | none => exact ⟨_, _, 0, fun _ _ => rfl⟩
    | some ec =>
      obtain ⟨e, c⟩ := ec
      obtain ⟨heo, hco, k, ts, hrd, hsp⟩ := (chain_meaning hf r.chain).1 e c hget
      dsimp only
      cases u with
      | none => exact ⟨_, _, 0, fun _ _ => by simp [Fsm.addPattern, build]; exact ⟨rfl, rfl⟩⟩
      | some u =>
        unfold Text.parseAndReduce at hu
        cases hpt : Text.parseText env r.opts r.expr with
        | error _ => rw [hpt] at hu; cases hu
        | ok tk =>
          obtain ⟨t, j⟩ := tk
          rw [hpt] at hu
          dsimp only at hu
          rw [Text.shortcuts_are_sound he hm.2 hpt] at hu
          split at hu
          · cases hu
          · next u' hu' =>
            cases hu
            obtain ⟨hok, hlv⟩ := parseText_ok he hpt
            have hw := hm.1 t j hpt
            obtain ⟨s1, s2, s3, s4⟩ := Regex.reduce_sane Node.Ok (.lit 120) trivial hok hw hlv hu'
            obtain ⟨c2, t2, e1, e2, e3, e4, e5, e6, e7⟩ := leaves_exact heo u hco s4
            have hmk := (leaves_present heo u hco s4 e1).2
            have hend : ∃ r F, ∀ fuel ≥ F, Fsm.addPattern fuel s.graph s.count (some t2) = some r := by
              by_cases hmake : AllLeaves Makes t2
              · exact add_pattern_ends hg _ ⟨e4 s3, e5 s2, e6 s1, e7 (present_writable (hmk.1 hmake))⟩
              · have hb : build s.count (some t2) = .threw := by
                  by_contra hb
                  exact hmake ((build_threw (e5 s2)).1 hb)
                exact ⟨_, 0, fun _ _ => by rw [Fsm.addPattern, hb]⟩
            obtain ⟨⟨g', o'⟩, F, h⟩ := hend
            by_cases ho : o' = .added
            · refine ⟨{ s with graph := g', factory := s.factory.put r.chain c2, count := s.count + 1 }, some s.count, F,
                fun fuel hfl => ?_⟩
              simp only [e1, h fuel hfl, Option.bind_eq_bind, Option.bind_some, if_pos ho]
            · refine ⟨{ s with graph := g', factory := s.factory.put r.chain c2 }, none, F, fun fuel hfl => ?_⟩
              simp only [e1, h fuel hfl, Option.bind_eq_bind, Option.bind_some, if_neg ho]

/-- What is known between two requests. -/
structure Steady [Build] (s : State) : Prop where
  factory : FactoryOk s.factory
  graph : Combined s.graph
  unused : ∀ k, s.count ≤ k → Unused s.graph k

theorem steady_init [Build] : Steady .init := ⟨factory_init, combined_init, fun k _ v => by simp [State.init, Graph.init]⟩

theorem steady_step [Build] {env : Env} (he : env.Sound) {r : Request} (hm : Modest env r) {fuel : Nat} {s s' : State}
    {o : Option Nat} (hs : Steady s) (h : request fuel env s r = some (s', o)) : Steady s' := by
  obtain ⟨hf, ⟨-, hg, hc⟩ | ⟨t, -, hc, hacc, hadd⟩⟩ := request_step he hm hs.factory h
  · exact ⟨hf, hg ▸ hs.graph, fun k hk => hg ▸ hs.unused k (by omega)⟩
  · obtain ⟨b1, b2, -⟩ := (add_pattern hs.graph (hs.unused _ (Nat.le_refl _)) hacc.sane hadd).2.2 rfl
    exact ⟨hf, b1, fun k hk => b2 k (hs.unused k (by omega)) (by omega)⟩

theorem requests_end [Build] {env : Env} (he : env.Sound) : ∀ (rs : List Request) {s : State}, (∀ r ∈ rs, Modest env r) →
    (∀ r ∈ rs, Text.parseAndReduce env r.opts r.expr ≠ .error .ub) → Steady s →
    ∃ s' os F, ∀ fuel ≥ F, requests fuel env s rs = some (s', os)
  | [], s, _, _, _ => ⟨s, [], 0, fun _ _ => rfl⟩
  | r :: rs, s, hm, hd, hs => by
    obtain ⟨s1, o, F1, h1⟩ := request_ends he (hm r (by simp)) (hd r (by simp)) hs.factory hs.graph
    obtain ⟨s2, os, F2, h2⟩ := requests_end he rs (fun r hr => hm r (by simp [hr])) (fun r hr => hd r (by simp [hr]))
      (steady_step he (hm r (by simp)) hs (h1 F1 (Nat.le_refl _)))
    refine ⟨s2, o :: os, max F1 F2, fun fuel hf => ?_⟩
    simp only [requests, h1 fuel (by omega), h2 fuel (by omega), Option.bind_eq_bind, Option.bind_some]

/-! ## Programs -/

/-- An accepted pattern matches something. -/
theorem lang_inhabited {sem : Leaf → Language UInt8} {t : Tree Leaf} (hok : Regex.Ok t) (hn : NoLook t)
    (h : AllLeaves (fun l => ∃ w, w ∈ sem l) t) : ∃ w, w ∈ lang sem t := by
  induction t with
  | leaf a => exact h
  | alt l r ihl ihr =>
    obtain ⟨w, hw⟩ := ihl hok.1 hn.1 h.1
    exact ⟨w, (Language.mem_add _ _ _).2 (.inl hw)⟩
  | cat l r ihl ihr =>
    obtain ⟨w, hw⟩ := ihl hok.1 hn.1 h.1
    obtain ⟨w', hw'⟩ := ihr hok.2 hn.2 h.2
    exact ⟨w ++ w', Language.append_mem_mul hw hw'⟩
  | rep ng m M t ih =>
    obtain ⟨w, hw⟩ := ih hok.2.2.2 hn h
    have pow : ∀ k, ∃ w, w ∈ lang sem t ^ k := by
      intro k
      induction k with
      | zero => exact ⟨[], by rw [pow_zero]; rfl⟩
      | succ k ih =>
        obtain ⟨x, hx⟩ := ih
        exact ⟨x ++ w, by rw [pow_succ]; exact Language.append_mem_mul hx hw⟩
    obtain ⟨x, hx⟩ := pow m
    exact ⟨x, m, Nat.le_refl _, .inr hok.1, hx⟩
  | look k t => exact hn.elim

theorem takes_inhabited {l : Nat} {t : Tree Leaf} (hs : Sane t) (h : Takes l t) : ∃ w, w ∈ lang leafSem t := by
  have hm := (build_threw hs.noLook).1 h.1
  refine lang_inhabited hs.ok hs.noLook ?_
  have key : ∀ u : Tree Leaf, AllLeaves Makes u → AllLeaves LeafOk u → AllLeaves (fun l => ∃ w, w ∈ leafSem l) u := by
    intro u
    induction u with
    | leaf a => exact fun h1 h2 => (makes_iff h2).1 h1
    | alt l r ihl ihr => exact fun h1 h2 => ⟨ihl h1.1 h2.1, ihr h1.2 h2.2⟩
    | cat l r ihl ihr => exact fun h1 h2 => ⟨ihl h1.1 h2.1, ihr h1.2 h2.2⟩
    | rep ng m M t ih => exact ih
    | look k t ih => exact ih
  exact key t hm hs.leaves

/-- `session_ends` for requests whose texts are parsed without undefined behaviour. -/
theorem session_ends_of_defined [Build] {env : Env} (he : env.Sound) {rs : List Request} (hm : ∀ r ∈ rs, Modest env r)
    (hd : ∀ r ∈ rs, Text.parseAndReduce env r.opts r.expr ≠ .error .ub) :
    ∃ s os F, (∀ fuel ≥ F, requests fuel env .init rs = some (s, os)) ∧
      ((∀ o ∈ os, o = none) → ∀ det depth fuel, finalizeGraph fuel det depth s.graph = some (.error ())) ∧
      ((∃ o ∈ os, o ≠ none) → ∀ det depth, ∃ g F, (∀ fuel ≥ F, finalizeGraph fuel det depth s.graph = some (.ok g)) ∧
        (depth = 0 ∨ g.n ≤ depth → g.n < 16777216 → os.length < 16777216 →
          ∃ P F, (∀ fuel ≥ F, Compiler.createProgram fuel g = some (.ok P)) ∧ Compiled env rs os g P ∧
            ∀ fuel ≥ 2 * g.n + 9, ∀ cs : List Call, ∃ first σ₀ replies σ,
              Vm.create P fuel = .ok (first, σ₀) ∧ Vm.run P first fuel cs σ₀ = .ok (replies, σ))) := by
  obtain ⟨s, os, F, h⟩ := requests_end he rs hm hd steady_init
  obtain ⟨ps, p1, p2, p3, p4, p5⟩ := requests_spec he rs hm factory_init (h F (Nat.le_refl _))
  have hps : Patterns ps := by
    refine ⟨?_, fun p hp => ?_⟩
    · rw [p3]; exact List.nodup_range'
    · obtain ⟨i, r, -, -, ha⟩ := p5 p hp
      exact ha.sane
  have hlen : ps.length ≤ os.length := by
    have := congrArg List.length p2
    rw [List.length_range'] at this
    rw [← this]
    exact List.length_filterMap_le _ _
  have hlab : ∀ p ∈ ps, p.1 < ps.length := by
    intro p hp
    have : p.1 ∈ ps.map (·.1) := List.mem_map.2 ⟨p, hp, rfl⟩
    rw [p3, List.mem_range'_1] at this
    have h0 : State.init.count = 0 := rfl
    omega
  obtain ⟨c1, c2, c3, c4⟩ := add_all combined_init hps (fun p _ v => by simp [Graph.init]) p1
  refine ⟨s, os, F, h, fun hnone det depth fuel => ?_, fun hsome det depth => ?_⟩
  · rw [finalize_throws c1]
    have : ps = [] := by
      have : os.filterMap id = [] := by
        rw [List.filterMap_eq_nil_iff]
        exact fun o ho => hnone o ho
      rw [this] at p2
      cases ps with
      | nil => rfl
      | cons => simp [List.range'] at p2
    subst this
    intro l w hw
    obtain ⟨u, hu, -⟩ := (c3 l (by simp) w).1 hw
    simp [State.init, Graph.init] at hu
  · obtain ⟨r, F1, h1⟩ := finalize_ends c1 det depth
    cases r with
    | error x =>
      exfalso
      have hno := (finalize_throws c1 F1 det depth).1 (h1 F1 (Nat.le_refl _))
      obtain ⟨o, ho, hne⟩ := hsome
      obtain ⟨l, rfl⟩ := Option.ne_none_iff_exists'.1 hne
      have hmem : l ∈ os.filterMap id := List.mem_filterMap.2 ⟨some l, ho, rfl⟩
      rw [p2, ← p3] at hmem
      obtain ⟨p, hp, rfl⟩ := List.mem_map.1 hmem
      obtain ⟨i, r, -, -, ha⟩ := p5 p hp
      obtain ⟨w, hw⟩ := takes_inhabited ha.sane ha.takes
      obtain ⟨w', -, hw'⟩ := (c4 p hp).2 ha.takes w hw
      exact hno _ _ hw'
    | ok g =>
      refine ⟨g, F1, h1, fun hdep hsmall hos => ?_⟩
      have hfin := h1 F1 (Nat.le_refl _)
      have hnd := finalized_parallel hps p1 hfin hdep
      obtain ⟨F3, h3⟩ := finalized_search_ends hps p1 hfin hnd hsmall (fun p hp => by have := hlab p hp; omega)
      obtain ⟨P, hP, -⟩ := h3 F3 (Nat.le_refl _)
      have hmono : ∀ fuel ≥ F3, Compiler.createProgram fuel g = some (.ok P) := by
        intro fuel hfl
        unfold Compiler.createProgram at hP ⊢
        cases hb : BestPair.bestPair F3 g with
        | none => rw [hb] at hP; cases hP
        | some q =>
          rw [hb] at hP
          rw [BestPair.bestPair_grows hfl hb]
          exact hP
      have hcomp : Compiled env rs os g P := ⟨hm, ⟨F, F1, F3, s, det, depth, h F (Nat.le_refl _), hfin, hP⟩, hnd⟩
      refine ⟨P, F3, hmono, hcomp, fun fuel hfl cs => ?_⟩
      have hM : Made ps g P := ⟨hps, ⟨F, F1, F3, s.graph, det, depth, p1, hfin, hP⟩, hnd⟩
      obtain ⟨f1, f2, -, -⟩ := hM.facts
      exact Compiler.compiled_never_out_of_bounds f1 f2.labelled hP hfl cs

/-- **C102** Whatever the requests are, they are answered; if one of them was accepted, an automaton is made
of them and, unless there are 2^24 states or patterns, a program; and whatever is then done with
a context for it comes to an end.  If none was accepted, making the automaton ends with an
exception.  The results are the same for all sufficiently large budgets. -/
theorem session_ends [Build] {env : Env} (he : env.Sound) (hs : env.Shortens) (ht : Total env) {rs : List Request}
    (hm : ∀ r ∈ rs, Modest env r) (hc : ∀ r ∈ rs, Complete r.expr) (hn : ∀ r ∈ rs, SmallCounts (r.expr.map UInt8.toNat)) :
    ∃ s os F, (∀ fuel ≥ F, requests fuel env .init rs = some (s, os)) ∧
      ((∀ o ∈ os, o = none) → ∀ det depth fuel, finalizeGraph fuel det depth s.graph = some (.error ())) ∧
      ((∃ o ∈ os, o ≠ none) → ∀ det depth, ∃ g F, (∀ fuel ≥ F, finalizeGraph fuel det depth s.graph = some (.ok g)) ∧
        (depth = 0 ∨ g.n ≤ depth → g.n < 16777216 → os.length < 16777216 →
          ∃ P F, (∀ fuel ≥ F, Compiler.createProgram fuel g = some (.ok P)) ∧ Compiled env rs os g P ∧
            ∀ fuel ≥ 2 * g.n + 9, ∀ cs : List Call, ∃ first σ₀ replies σ,
              Vm.create P fuel = .ok (first, σ₀) ∧ Vm.run P first fuel cs σ₀ = .ok (replies, σ))) := by
  refine session_ends_of_defined he hm fun r hr h => ?_
  exact (parsing_defined_partial he hs ht r.opts (hc r hr) (hn r hr) _ h).1 rfl

/-! ## Example -/

attribute [local instance] Build.plain

/-- The requests of C97's example, of which two are accepted, meet the hypotheses. -/
theorem asked_fine : ∀ r ∈ asked, Modest Parser.plain r ∧ Complete r.expr ∧ SmallCounts (r.expr.map UInt8.toNat) := by
  intro r hr
  refine ⟨(asked_modest r hr).1, ?_, ?_⟩
  · have e : (∃ c : Nat, c = 0xE9 ∧ r.expr.map UInt8.toNat = [0xC3, 0xA9]) ∨ ∃ b, r.expr.getLast? = some b ∧ b.toNat < 128 := by
      simp only [asked, List.mem_cons, List.not_mem_nil, or_false] at hr
      rcases hr with rfl | rfl | rfl | rfl | rfl | rfl | rfl
      · exact .inr ⟨98, rfl, by decide⟩
      · exact .inl ⟨_, rfl, rfl⟩
      · exact .inl ⟨_, rfl, rfl⟩
      · exact .inr ⟨98, rfl, by decide⟩
      · exact .inr ⟨98, rfl, by decide⟩
      · exact .inr ⟨98, rfl, by decide⟩
      · exact .inr ⟨42, rfl, by decide⟩
    rcases e with ⟨c, rfl, e⟩ | e
    · exact .inl ⟨[0xE9], by simp [Utf.Scalar], by rw [e]; decide⟩
    · exact .inr e
  · have hno : ∀ r ∈ asked, ∀ x ∈ r.expr.map UInt8.toNat, x ≠ 123 ∧ x ≠ 44 := by decide +kernel
    intro b ds hi hb _
    have := hno r hr b (hi.subset (by simp))
    omega

-- So they are answered, one of them is accepted, and an automaton results, at any depth.
example : ∃ s os F, (∀ fuel ≥ F, requests fuel Parser.plain .init asked = some (s, os)) ∧ (∃ o ∈ os, o ≠ none) ∧
    ∀ depth, ∃ g F, ∀ fuel ≥ F, finalizeGraph fuel false depth s.graph = some (.ok g) := by
  obtain ⟨s, os, F, h, -, h2⟩ := session_ends Parser.plain_sound Parser.plain_shortens plain_total
    (fun r hr => (asked_fine r hr).1) (fun r hr => (asked_fine r hr).2.1) (fun r hr => (asked_fine r hr).2.2)
  obtain ⟨s0, h0⟩ := asked_answers
  have hm := fun r hr => (asked_fine r hr).1
  have hdec := ((requests_decided Parser.plain_sound asked hm factory_init h0).2 0 _ rfl).1 ⟨0, rfl⟩
  obtain ⟨l, hl⟩ := ((requests_decided Parser.plain_sound asked hm factory_init (h F (Nat.le_refl _))).2 0 _ rfl).2 hdec
  have hsome : ∃ o ∈ os, o ≠ none := ⟨some l, List.mem_of_getElem? hl, by simp⟩
  refine ⟨s, os, F, h, hsome, fun depth => ?_⟩
  obtain ⟨g, F, hg, -⟩ := h2 hsome false depth
  exact ⟨g, F, hg⟩

end Verif.Session
