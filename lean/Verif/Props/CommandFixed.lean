import Verif.Props.EndToEnd
import Verif.Props.Caseless
/-!
# Fixed strings on the command line

**C105**.  The command with `-F` prints, for each keyword in each encoding, its occurrences in each
input; with `-i`, those of the texts that differ from it in case only.  Composes C96, C103 and C104.
-/
namespace Verif.Session
open Verif.Chain (Build FactoryOk)
open Verif.Parser (Env)
open Verif.Regex
open Verif.Fsm (NoUnb)

/-- The texts of fixed strings are modest. -/
theorem fixed_modest {env : Env} {r : Request} (hf : r.opts.fixed = true) (hc : r.opts.caseless = false)
    (hlen : r.expr.length < 2 ^ 30) : Modest env r := by
  refine ⟨fun t j hpt => ?_, by omega⟩
  obtain ⟨cs, hL, hne, h0⟩ := literally_of_parsed hf hc hpt
  obtain ⟨c, ds, j', rfl, hp⟩ := hL.parsed (env := env) hne h0
  rw [hp] at hpt
  cases hpt
  have hw : weight (fixedTree (.leaf (.lit c)) ds) = 1 + ds.length :=
    (fixedTree_plain ds (.leaf (.lit c)) (by simp [NgFlat, NoDead, NoUnb, NoLook, NoNg])).2
  have h1 : ∀ xs : List Nat, xs.length ≤ (xs.flatMap Utf.spec8).length := by
    intro xs
    induction xs with
    | nil => simp
    | cons x xs ih =>
      rw [List.flatMap_cons, List.length_append, List.length_cons]
      have : 1 ≤ (Utf.spec8 x).length := by unfold Utf.spec8; repeat' split
                                            all_goals simp
      omega
  have := h1 (c :: ds)
  rw [← hL.text, List.length_map, List.length_cons] at this
  rw [hw]
  simp only [UNB]
  omega

/-- The number of patterns is that of the requests accepted. -/
theorem requests_count [Build] {env : Env} (he : env.Sound) {fuel : Nat} : ∀ (rs : List Request) {s s' : State} {os : List (Option Nat)},
    (∀ r ∈ rs, Modest env r) → FactoryOk s.factory → requests fuel env s rs = some (s', os) →
    s'.count = s.count + (os.filterMap id).length
  | [], s, s', os, _, _, h => by
    cases h
    rfl
  | r :: rs, s, s', os, hm, hf, h => by
    simp only [requests, Option.bind_eq_bind, Option.bind_eq_some_iff, Option.some.injEq, Prod.mk.injEq] at h
    obtain ⟨⟨s1, o⟩, h1, ⟨s2, os'⟩, h2, rfl, rfl⟩ := h
    obtain ⟨hf1, hstep⟩ := request_step he (hm r (by simp)) hf h1
    have ih := requests_count he rs (fun r hr => hm r (by simp [hr])) hf1 h2
    rcases hstep with ⟨rfl, hg, hc⟩ | ⟨t', rfl, hc, hacc, hadd⟩
    · rw [ih, hc]; rfl
    · rw [ih, hc]; simp; omega

/-- Every list of acceptable requests is accepted, in order, and gives an automaton and a program, with
which everything comes to an end. -/
theorem acceptable_compiled [Build] {env : Env} (he : env.Sound) {rs : List Request}
    (hp : ∀ r ∈ rs, Modest env r ∧ Text.parseAndReduce env r.opts r.expr ≠ .error .ub ∧ Acceptable env r) (hne : rs ≠ [])
    (hmany : rs.length < 16777216) :
    ∃ s F, (∀ fuel ≥ F, requests fuel env .init rs = some (s, (List.range rs.length).map some)) ∧
      ∀ det depth, ∃ g F, (∀ fuel ≥ F, Subset.finalizeGraph fuel det depth s.graph = some (.ok g)) ∧
        (depth = 0 ∨ g.n ≤ depth → g.n < 16777216 →
          ∃ P F, (∀ fuel ≥ F, Compiler.createProgram fuel g = some (.ok P)) ∧ Compiled env rs ((List.range rs.length).map some) g P ∧
            ∀ fuel ≥ 2 * g.n + 9, ∀ cs : List Vm.Call, ∃ first σ₀ replies σ,
              Vm.create P fuel = .ok (first, σ₀) ∧ Vm.run P first fuel cs σ₀ = .ok (replies, σ)) := by
  obtain ⟨s, os, F, h1, -, h3⟩ := session_ends_of_defined he (fun r hr => (hp r hr).1) (fun r hr => (hp r hr).2.1)
  obtain ⟨q1, q2, q3⟩ := accepted_iff_partial he (fun r hr => (hp r hr).1) (h1 F (Nat.le_refl _))
  have hall : ∀ o ∈ os, ∃ l, o = some l := by
    intro o ho
    obtain ⟨i, hi, rfl⟩ := List.getElem_of_mem ho
    have hi' : i < rs.length := by omega
    obtain ⟨l, hl⟩ := (q3 i rs[i] (List.getElem?_eq_getElem hi')).1 (hp _ (List.getElem_mem hi')).2.2
    rw [List.getElem?_eq_getElem hi] at hl
    exact ⟨l, by simpa using hl⟩
  have hmap : os = (os.filterMap id).map some := by
    clear q1 q2 q3 h1 h3
    induction os with
    | nil => rfl
    | cons o os ih =>
      obtain ⟨l, rfl⟩ := hall o (by simp)
      have := ih (fun o ho => hall o (by simp [ho]))
      show some l :: os = some l :: (os.filterMap id).map some
      rw [← this]
  have hos : os = (List.range rs.length).map some := by
    have hl := congrArg List.length hmap
    rw [List.length_map, q1] at hl
    rw [hmap, q2, ← hl]
  subst hos
  refine ⟨s, F, h1, fun det depth => ?_⟩
  have hsome : ∃ o ∈ (List.range rs.length).map some, o ≠ none := by
    have := List.length_pos_iff.2 hne
    exact ⟨some 0, List.mem_map.2 ⟨0, List.mem_range.2 this, rfl⟩, by simp⟩
  obtain ⟨g, F1, g1, g2⟩ := h3 hsome det depth
  exact ⟨g, F1, g1, fun hd hn => g2 hd hn (by simpa using hmany)⟩

end Verif.Session

namespace Verif.Handles
open Verif.Marshal (Info)
open Verif.Chain (Build)
open Verif.Session (Request State KeyOf Searchable occurrences)
open Verif.Parser (Env)

/-- What a program made from requests reports in an input for a fixed string. -/
theorem compiled_fixed [Build] {env : Env} (he : env.Sound) {rs : List Request}
    {os : List (Option Nat)} {g : Nfa.Graph} {P : Vm.Program} (hC : Session.Compiled env rs os g P)
    {C : Cmd.Conf} (hP : C.P = P) (hbs : 0 < C.blockSize)
    {σ₀ : Vm.St} (hnew : Vm.create C.P C.fuel = .ok (C.first, σ₀)) {w : Cmd.World} {lists inputs : List Cmd.Str} {s : Cmd.CmdSt}
    (hs : Cmd.searchCommand C w lists inputs σ₀ = .ok s) {i l : Nat} {r : Request} (hr : rs[i]? = some r)
    (ho : os[i]? = some (some l)) (hf : r.opts.fixed = true) (hc : r.opts.caseless = false) :
    ∃ key, KeyOf r key ∧ key ≠ [] ∧ ∀ v ∈ Cmd.opened (Cmd.allVisits w C.mmap C.recursive lists inputs),
      hitsFor l ((Cmd.reportsOf C σ₀ v).map Prod.snd) = occurrences key 0 0 v.content := by
  subst hP
  obtain ⟨key, hk, hne, hh⟩ := Session.fixed_hits he hC hr ho hf hc
  refine ⟨key, hk, hne, fun v hvm => ?_⟩
  obtain ⟨-, hv, -, -⟩ := Cmd.inputs_searched_alone hnew hs
  obtain ⟨_, σ, hrun, hrep⟩ := hv v hvm
  obtain ⟨bufs, b1, b2⟩ := Cmd.fileCalls v.content hbs
  rw [b1] at hrun
  rw [reports_of C σ₀ v hrep, hh hnew hrun, b2]

/-- **C105**.  A search command with fixed strings on its command line: a program, if one is made,
has accepted exactly the keywords that can be searched for, it prints a line for each hit in each
input, and the hits of each accepted keyword in an encoding are its occurrences in the input, shown
with that keyword, encoding and number. -/
theorem command_fixed_hits [Build] {fuel depth : Nat} {env : Env} (he : env.Sound) {cast : List Nat → Option Bool} {o : CmdOptions}
    (h : Sensible (realFront env cast) o) (hn : o.patterns ≠ []) (hlen : ∀ p ∈ o.patterns, p.length < 2 ^ 30)
    (hF : o.literal = true) (hi : o.caseInsensitive = false)
    {g : Nfa.Graph} {P : Vm.Program} {infos : List Info} (hc : commandProgram fuel depth env cast o = some (g, P, infos))
    (hd : depth = 0 ∨ g.n ≤ depth) {C : Cmd.Conf} (hP : C.P = P) (hbs : 0 < C.blockSize)
    (hinfo : ∀ m c k i, infos[k]? = some i → (C.display m c).info k = ⟨i.pattern, i.chain, i.idx⟩)
    {σ₀ : Vm.St} (hnew : Vm.create C.P C.fuel = .ok (C.first, σ₀)) {w : Cmd.World} {lists inputs : List Cmd.Str} {s : Cmd.CmdSt}
    (hs : Cmd.searchCommand C w lists inputs σ₀ = .ok s) :
    ∃ os : List (Option Nat), os.length = (commandRequests o).length ∧
      let vs := Cmd.opened (Cmd.allVisits w C.mmap C.recursive lists inputs)
      s.out.text = Cmd.printed C.fmt (vs.flatMap (Cmd.linesOf C σ₀)) ∧
      (∀ v ∈ vs, ∀ x ∈ Cmd.reportsOf C σ₀ v, ∃ i : Nat, os[i]? = some (some x.2.kw)) ∧
      ∀ (i : Nat) (r : Request) (e : Info), (commandRequests o)[i]? = some r → (commandEntries o)[i]? = some e →
        ((∃ l, os[i]? = some (some l)) ↔ Searchable r) ∧
        ∀ l, os[i]? = some (some l) → ∃ key, KeyOf r key ∧ key ≠ [] ∧
          ∀ v ∈ vs, (C.display v.mapped v.content).info l = ⟨e.pattern, e.chain, e.idx⟩ ∧
            hitsFor l ((Cmd.reportsOf C σ₀ v).map Prod.snd) = occurrences key 0 0 v.content := by
  have hreq : ∀ r ∈ commandRequests o, r.opts = ⟨true, false, o.unicode⟩ ∧ r.expr.length < 2 ^ 30 := by
    intro r hr
    unfold commandRequests at hr
    simp only [List.mem_flatMap, List.mem_map] at hr
    obtain ⟨p, hp, e, -, rfl⟩ := hr
    exact ⟨by simp [hF, hi], by simpa [ofBytes] using hlen p hp⟩
  have hm : ∀ r ∈ commandRequests o, Session.Modest env r := fun r hr =>
    Session.fixed_modest (by rw [(hreq r hr).1]) (by rw [(hreq r hr).1]) (hreq r hr).2
  obtain ⟨os, hC, hl, hinf⟩ := command_compiled h hn hm hc hd he
  obtain ⟨h1, h2⟩ := compiled_hits he (commandEntries_length o) hC hinf hP hbs hinfo hnew hs
  refine ⟨os, hl, h1, fun v hv x hx => ?_, fun i r e hr hE => ?_⟩
  · obtain ⟨i, r, e, -, -, a, -⟩ := (h2 v hv).1 x hx
    exact ⟨i, a⟩
  obtain ⟨hopt, hlr⟩ := hreq r (List.mem_of_getElem? hr)
  have hf : r.opts.fixed = true := by rw [hopt]
  have hcs : r.opts.caseless = false := by rw [hopt]
  refine ⟨?_, fun l ho => ?_⟩
  · obtain ⟨_, _, _, s', _, _, hq, -⟩ := hC.made
    exact Session.fixed_accepted he hm hq hr hf hcs hlr
  · obtain ⟨key, k1, k2, k3⟩ := compiled_fixed he hC hP hbs hnew hs hr ho hf hcs
    exact ⟨key, k1, k2, fun v hv => ⟨hinfo _ _ _ _ ((hinf i l ho).trans hE), k3 v hv⟩⟩

/-- The automaton made of these requests, with this determinization depth, has `n` states. -/
def _root_.Verif.Session.States [Build] (env : Env) (rs : List Request) (depth n : Nat) : Prop :=
  ∃ s os g F F', (∀ fuel ≥ F, Session.requests fuel env .init rs = some (s, os)) ∧
    (∀ fuel ≥ F', Verif.Subset.finalizeGraph fuel false depth s.graph = some (.ok g)) ∧ g.n = n

/-- There is no choice of the number of states. -/
theorem _root_.Verif.Session.States.unique [Build] {env : Env} {rs : List Request} {depth n m : Nat}
    (h : Session.States env rs depth n) (h' : Session.States env rs depth m) : n = m := by
  obtain ⟨s, os, g, F, F', a, b, rfl⟩ := h
  obtain ⟨t, os', g', K, K', a', b', rfl⟩ := h'
  have e := (a (max F K) (by omega)).symm.trans (a' (max F K) (by omega))
  cases e
  have e := (b (max F' K') (by omega)).symm.trans (b' (max F' K') (by omega))
  cases e
  rfl

/-- A search command that asks for these items, all acceptable, makes a program, searches all its inputs
and comes to an end. -/
theorem items_work [Build] {env : Env} (he : env.Sound) {cast : List Nat → Option Bool} {o : CmdOptions} {depth : Nat} {xs : List Item}
    (hf : ∀ fuel, (commandFsm fuel depth env cast o).1 =
      (runCalls (realEngine fuel depth) (one [] (some (.init, .init))) (xs.flatMap (Item.calls (realFront env cast)))).1)
    (hx : ∀ x ∈ xs, x.Clean) (hne : xs ≠ [])
    (hp : ∀ r ∈ xs.map Item.req, Session.Modest env r ∧ Text.parseAndReduce env r.opts r.expr ≠ .error .ub ∧ Session.Acceptable env r)
    (hmany : xs.length < 16777216) :
    ∃ g : Nfa.Graph, Session.States env (xs.map Item.req) depth g.n ∧ ∀ _ : depth = 0 ∨ g.n ≤ depth, g.n < 16777216 →
      ∃ P F, (∀ fuel ≥ F, commandProgram fuel depth env cast o = some (g, P, xs.map Prod.fst)) ∧
        Session.Compiled env (xs.map Item.req) ((List.range xs.length).map some) g P ∧
        ∀ C : Cmd.Conf, C.P = P → 0 < C.blockSize → 2 * g.n + 9 ≤ C.fuel →
          (∀ m c k i, (xs.map Prod.fst)[k]? = some i → (C.display m c).info k = ⟨i.pattern, i.chain, i.idx⟩) →
          ∃ first σ₀, Vm.create P C.fuel = .ok (first, σ₀) ∧ (C.first = first → ∀ w lists inputs,
            ∃ s, Cmd.searchCommand C w lists inputs σ₀ = .ok s ∧
              let vs := Cmd.opened (Cmd.allVisits w C.mmap C.recursive lists inputs)
              s.out.text = Cmd.printed C.fmt (vs.flatMap (Cmd.linesOf C σ₀)) ∧
              ∀ v ∈ vs, ∀ x ∈ Cmd.reportsOf C σ₀ v, x.2.kw < xs.length) := by
  have hm : ∀ r ∈ xs.map Item.req, Session.Modest env r := fun r hr => (hp r hr).1
  have hlx : (xs.map Item.req).length = xs.length := List.length_map ..
  obtain ⟨s, F, h1, h2⟩ := Session.acceptable_compiled he hp (fun h => hne (List.map_eq_nil_iff.1 h)) (by rw [hlx]; exact hmany)
  rw [hlx] at h1
  obtain ⟨g, F1, g1, g2⟩ := h2 false depth
  refine ⟨g, ⟨s, _, g, F, F1, h1, g1, rfl⟩, fun hd hN => ?_⟩
  obtain ⟨P, F2, p1, hC, -⟩ := g2 hd hN
  rw [hlx] at hC
  have hprog : ∀ fuel ≥ max F (max F1 F2), commandProgram fuel depth env cast o = some (g, P, xs.map Prod.fst) := by
    intro fuel hfuel
    have f1 : fuel ≥ F := by omega
    have f2 : fuel ≥ F1 := by omega
    have f3 : fuel ≥ F2 := by omega
    unfold commandProgram
    rw [hf]
    rcases one_items fuel depth env cast xs [] .init .init hx with ⟨m', -, a2⟩ | ⟨g', f', m', os, a1, a2, a3, a4⟩
    · have := h1 fuel f1
      rw [show (⟨Nfa.Graph.init, Chain.Factory.init, ([] : List Info).length⟩ : State) = State.init from rfl] at a2
      rw [a2] at this
      cases this
    · rw [show (⟨Nfa.Graph.init, Chain.Factory.init, ([] : List Info).length⟩ : State) = State.init from rfl, h1 fuel f1] at a2
      have hcount := Session.requests_count he _ hm Chain.factory_init (h1 fuel f1)
      cases a2
      rw [a1]
      simp only [one, List.getElem?_cons_zero, List.nil_append, List.getD_cons_zero]
      have e1 := g1 fuel f2
      simp only at e1
      rw [e1]
      simp only [p1 fuel f3, Option.some.injEq, Prod.mk.injEq, true_and]
      have hlen : m'.length = xs.length := by
        simp only [List.nil_append] at hcount
        rw [hcount]
        have : ((List.range xs.length).map some).filterMap id = List.range xs.length := by
          rw [List.filterMap_map]
          exact List.filterMap_some
        rw [this, List.length_range]
        exact Nat.zero_add _
      apply List.ext_getElem?
      intro i
      by_cases hlt : i < xs.length
      · have := a4 i i (by simp [hlt])
        rw [List.nil_append] at this
        rw [this, List.getElem?_map]
      · rw [List.getElem?_eq_none (by omega), List.getElem?_eq_none (by rw [List.length_map]; omega)]
  refine ⟨P, _, hprog, hC, fun C hP hbs hfl hinfo => ?_⟩
  subst hP
  have hinf : ∀ (i : Nat) l, ((List.range xs.length).map some)[i]? = some (some l) →
      (xs.map Prod.fst)[l]? = (xs.map Prod.fst)[i]? := by
    intro i l hi
    rw [List.getElem?_map] at hi
    obtain ⟨x, hx, hxl⟩ := Option.map_eq_some_iff.1 hi
    obtain ⟨hlt, rfl⟩ := List.getElem?_eq_some_iff.1 hx
    rw [List.getElem_range] at hxl
    cases hxl
    rfl
  obtain ⟨ps, hM, -⟩ := hC.made' he
  obtain ⟨a, b, ⟨f, c⟩, -⟩ := hM.facts
  obtain ⟨first, σ₀, -, -, h0, -⟩ := Compiler.compiled_never_out_of_bounds a b.labelled c hfl []
  refine ⟨first, σ₀, h0, fun hfirst w lists inputs => ?_⟩
  subst hfirst
  obtain ⟨s', hs, -⟩ := Cmd.command_ends a b c hfl h0 hbs w lists inputs
  obtain ⟨r1, r2⟩ := compiled_hits he (by simp) hC hinf rfl hbs hinfo h0 hs
  refine ⟨s', hs, r1, fun v hv x hx => ?_⟩
  obtain ⟨i, r, e, hr, -, ho, -⟩ := (r2 v hv).1 x hx
  rw [List.getElem?_map] at ho
  obtain ⟨y, hy, hyl⟩ := Option.map_eq_some_iff.1 ho
  cases hyl
  exact List.mem_range.1 (List.mem_of_getElem? hy)

/-- **C96**.  A search command whose keywords are all acceptable makes a program, searches all its inputs and
comes to an end.  It prints a line for each hit, with the keyword, encoding and number it belongs to. -/
theorem command_works [Build] {env : Env} (he : env.Sound) {cast : List Nat → Option Bool} {o : CmdOptions}
    (h : Sensible (realFront env cast) o) (hn : o.patterns ≠ [])
    (hp : ∀ r ∈ commandRequests o, Session.Modest env r ∧ Text.parseAndReduce env r.opts r.expr ≠ .error .ub ∧ Session.Acceptable env r)
    (hmany : (commandRequests o).length < 16777216) (depth : Nat) :
    ∃ g : Nfa.Graph, Session.States env (commandRequests o) depth g.n ∧ ∀ _ : depth = 0 ∨ g.n ≤ depth, g.n < 16777216 →
      ∃ P F, (∀ fuel ≥ F, commandProgram fuel depth env cast o = some (g, P, commandEntries o)) ∧
        Session.Compiled env (commandRequests o) ((List.range (commandRequests o).length).map some) g P ∧
        ∀ C : Cmd.Conf, C.P = P → 0 < C.blockSize → 2 * g.n + 9 ≤ C.fuel →
          (∀ m c k i, (commandEntries o)[k]? = some i → (C.display m c).info k = ⟨i.pattern, i.chain, i.idx⟩) →
          ∃ first σ₀, Vm.create P C.fuel = .ok (first, σ₀) ∧ (C.first = first → ∀ w lists inputs,
            ∃ s, Cmd.searchCommand C w lists inputs σ₀ = .ok s ∧
              let vs := Cmd.opened (Cmd.allVisits w C.mmap C.recursive lists inputs)
              s.out.text = Cmd.printed C.fmt (vs.flatMap (Cmd.linesOf C σ₀)) ∧
              ∀ v ∈ vs, ∀ x ∈ Cmd.reportsOf C σ₀ v, x.2.kw < (commandRequests o).length) := by
  have hne : commandRequests o ≠ [] := by
    unfold commandRequests
    intro hnil
    rw [List.flatMap_eq_nil_iff] at hnil
    obtain ⟨p, ps, hp⟩ := List.exists_cons_of_ne_nil hn
    have := hnil p (by simp [hp])
    exact h.some (List.map_eq_nil_iff.1 this)
  have hr : (commandItems o 0 o.patterns).map Item.req = commandRequests o := commandItems_req o _ _
  have hi : (commandItems o 0 o.patterns).map Prod.fst = commandEntries o := commandItems_info o _ _
  have hl : (commandItems o 0 o.patterns).length = (commandRequests o).length := by rw [← hr, List.length_map]
  have := items_work (depth := depth) (cast := cast) (xs := commandItems o 0 o.patterns) he (fun fuel => by
    unfold commandFsm
    rw [(command_line_partial (realEngine fuel depth) (realFront env cast) _ 0 h hn).1, commandItems_calls]
    rfl) (commandItems_clean h _ _ h.patterns) (fun h0 => hne (by rw [← hr, h0]; rfl)) (hr ▸ hp) (by rw [hl]; exact hmany)
  rwa [hr, hi, hl] at this

/-- **C96** for keyword files.  A search command whose keyword files ask for something, and for
acceptable keywords only, makes a program, searches all its inputs and comes to an end. -/
theorem files_work [Build] {env : Env} (he : env.Sound) {cast : List Nat → Option Bool} {o : CmdOptions}
    (hn : o.patterns = []) (hz : ∀ e ∈ o.encodings, 0 ∉ e) (hne : fileItems env cast o ≠ [])
    (hp : ∀ r ∈ (fileItems env cast o).map Item.req,
      Session.Modest env r ∧ Text.parseAndReduce env r.opts r.expr ≠ .error .ub ∧ Session.Acceptable env r)
    (hmany : (fileItems env cast o).length < 16777216) (depth : Nat) :
    ∃ g : Nfa.Graph, Session.States env ((fileItems env cast o).map Item.req) depth g.n ∧ ∀ _ : depth = 0 ∨ g.n ≤ depth, g.n < 16777216 →
      ∃ P F, (∀ fuel ≥ F, commandProgram fuel depth env cast o = some (g, P, (fileItems env cast o).map Prod.fst)) ∧
        Session.Compiled env ((fileItems env cast o).map Item.req) ((List.range (fileItems env cast o).length).map some) g P ∧
        ∀ C : Cmd.Conf, C.P = P → 0 < C.blockSize → 2 * g.n + 9 ≤ C.fuel →
          (∀ m c k i, ((fileItems env cast o).map Prod.fst)[k]? = some i → (C.display m c).info k = ⟨i.pattern, i.chain, i.idx⟩) →
          ∃ first σ₀, Vm.create P C.fuel = .ok (first, σ₀) ∧ (C.first = first → ∀ w lists inputs,
            ∃ s, Cmd.searchCommand C w lists inputs σ₀ = .ok s ∧
              let vs := Cmd.opened (Cmd.allVisits w C.mmap C.recursive lists inputs)
              s.out.text = Cmd.printed C.fmt (vs.flatMap (Cmd.linesOf C σ₀)) ∧
              ∀ v ∈ vs, ∀ x ∈ Cmd.reportsOf C σ₀ v, x.2.kw < (fileItems env cast o).length) :=
  items_work he (fun fuel => by
    unfold commandFsm
    rw [files_in_order (realEngine fuel depth) (realFront env cast) 0 hn]
    unfold fileItems
    rw [List.flatMap_assoc]
    simp only [listItems_calls]
    rfl) (fileItems_clean hz) hne hp hmany

/-- **C105**.  A search command whose keywords are fixed strings that can be searched for makes a
program, searches all its inputs and comes to an end.  It prints a line for each hit, and the hits
in an input for a keyword in an encoding are its occurrences, shown with that keyword, encoding and
number. -/
theorem command_fixed_works [Build] {env : Env} (he : env.Sound) {cast : List Nat → Option Bool} {o : CmdOptions}
    (h : Sensible (realFront env cast) o) (hn : o.patterns ≠ []) (hk : ∀ r ∈ commandRequests o, Searchable r)
    (hmany : (commandRequests o).length < 16777216) (depth : Nat) :
    ∃ g : Nfa.Graph, Session.States env (commandRequests o) depth g.n ∧ ∀ _ : depth = 0 ∨ g.n ≤ depth, g.n < 16777216 →
      ∃ P F, (∀ fuel ≥ F, commandProgram fuel depth env cast o = some (g, P, commandEntries o)) ∧
        ∀ C : Cmd.Conf, C.P = P → 0 < C.blockSize → 2 * g.n + 9 ≤ C.fuel →
          (∀ m c k i, (commandEntries o)[k]? = some i → (C.display m c).info k = ⟨i.pattern, i.chain, i.idx⟩) →
          ∃ first σ₀, Vm.create P C.fuel = .ok (first, σ₀) ∧ (C.first = first → ∀ w lists inputs,
            ∃ s, Cmd.searchCommand C w lists inputs σ₀ = .ok s ∧
              let vs := Cmd.opened (Cmd.allVisits w C.mmap C.recursive lists inputs)
              s.out.text = Cmd.printed C.fmt (vs.flatMap (Cmd.linesOf C σ₀)) ∧
              ∀ v ∈ vs,
                (∀ x ∈ Cmd.reportsOf C σ₀ v, x.2.kw < (commandRequests o).length) ∧
                ∀ (i : Nat) (r : Request) (e : Info), (commandRequests o)[i]? = some r → (commandEntries o)[i]? = some e →
                  (C.display v.mapped v.content).info i = ⟨e.pattern, e.chain, e.idx⟩ ∧
                  ∃ key, KeyOf r key ∧ hitsFor i ((Cmd.reportsOf C σ₀ v).map Prod.snd) = occurrences key 0 0 v.content) := by
  obtain ⟨g, hS, hg⟩ := command_works he h hn (fun r hr => Session.searchable_parsed (hk r hr)) hmany depth
  refine ⟨g, hS, fun hd hN => ?_⟩
  obtain ⟨P, F, h1, hC, h2⟩ := hg hd hN
  refine ⟨P, F, h1, fun C hP hbs hfl hinfo => ?_⟩
  obtain ⟨first, σ₀, h3, h4⟩ := h2 C hP hbs hfl hinfo
  refine ⟨first, σ₀, h3, fun hfirst w lists inputs => ?_⟩
  obtain ⟨s, hs, r1, r2⟩ := h4 hfirst w lists inputs
  refine ⟨s, hs, r1, fun v hv => ⟨r2 v hv, fun i r e hr hE => ⟨hinfo _ _ _ _ hE, ?_⟩⟩⟩
  subst hP hfirst
  obtain ⟨cs, -, -, hL, -⟩ := hk r (List.mem_of_getElem? hr)
  have hlt : i < (commandRequests o).length := (List.getElem?_eq_some_iff.1 hr).1
  obtain ⟨key, k1, -, k3⟩ := compiled_fixed he hC rfl hbs h3 hs (l := i) hr (by simp [hlt]) hL.fixed hL.cased
  exact ⟨key, k1, k3 v hv⟩

/-! ## Without regard to case -/

/-- What a program made from requests reports in an input for a fixed string in either case. -/
theorem compiled_caseless [Build] {env : Env} (he : env.Sound) {V : Bool → Nat → Nat → Prop} (hV : Session.FoldsAs env V) {rs : List Request}
    {os : List (Option Nat)} {g : Nfa.Graph} {P : Vm.Program} (hC : Session.Compiled env rs os g P)
    {C : Cmd.Conf} (hP : C.P = P) (hbs : 0 < C.blockSize)
    {σ₀ : Vm.St} (hnew : Vm.create C.P C.fuel = .ok (C.first, σ₀)) {w : Cmd.World} {lists inputs : List Cmd.Str} {s : Cmd.CmdSt}
    (hs : Cmd.searchCommand C w lists inputs σ₀ = .ok s) {i l : Nat} {r : Request} (hr : rs[i]? = some r)
    (ho : os[i]? = some (some l)) (hf : r.opts.fixed = true) (hc : r.opts.caseless = true) :
    ∃ cs k ts, Session.Caselessly r cs ∧ cs ≠ [] ∧ Chain.Reads r.chain k ts ∧
      ∀ v ∈ Cmd.opened (Cmd.allVisits w C.mmap C.recursive lists inputs), ∀ hits,
        Compiler.Leftmost (Session.CaselessAt (V (!r.opts.unicode)) k ts cs 0 v.content) 0 hits ↔
          hits = hitsFor l ((Cmd.reportsOf C σ₀ v).map Prod.snd) := by
  subst hP
  obtain ⟨cs, k, ts, hL, hne, hrd, hh⟩ := Session.caseless_hits he hV hC hr ho hf hc
  refine ⟨cs, k, ts, hL, hne, hrd, fun v hvm => ?_⟩
  obtain ⟨-, hv, -, -⟩ := Cmd.inputs_searched_alone hnew hs
  obtain ⟨_, σ, hrun, hrep⟩ := hv v hvm
  obtain ⟨bufs, b1, b2⟩ := Cmd.fileCalls v.content hbs
  rw [b1] at hrun
  rw [reports_of C σ₀ v hrep, ← b2]
  exact hh hnew hrun

/-- **C105**.  A search command with fixed strings, without regard to case, on its command line: a
program, if one is made, has accepted exactly the keywords that can be searched for, it prints a line
for each hit in each input, and the hits of each accepted keyword in an encoding are the leftmost
non-overlapping places where the input has a text that stands for the keyword, shown with that
keyword, encoding and number. -/
theorem command_caseless_hits [Build] {fuel depth : Nat} {env : Env} (he : env.Sound) {V : Bool → Nat → Nat → Prop}
    (hV : Session.FoldsAs env V) {cast : List Nat → Option Bool} {o : CmdOptions}
    (h : Sensible (realFront env cast) o) (hn : o.patterns ≠ []) (hlen : ∀ p ∈ o.patterns, p.length < 2 ^ 30)
    (hF : o.literal = true) (hi : o.caseInsensitive = true)
    {g : Nfa.Graph} {P : Vm.Program} {infos : List Info} (hc : commandProgram fuel depth env cast o = some (g, P, infos))
    (hd : depth = 0 ∨ g.n ≤ depth) {C : Cmd.Conf} (hP : C.P = P) (hbs : 0 < C.blockSize)
    (hinfo : ∀ m c k i, infos[k]? = some i → (C.display m c).info k = ⟨i.pattern, i.chain, i.idx⟩)
    {σ₀ : Vm.St} (hnew : Vm.create C.P C.fuel = .ok (C.first, σ₀)) {w : Cmd.World} {lists inputs : List Cmd.Str} {s : Cmd.CmdSt}
    (hs : Cmd.searchCommand C w lists inputs σ₀ = .ok s) :
    ∃ os : List (Option Nat), os.length = (commandRequests o).length ∧
      let vs := Cmd.opened (Cmd.allVisits w C.mmap C.recursive lists inputs)
      s.out.text = Cmd.printed C.fmt (vs.flatMap (Cmd.linesOf C σ₀)) ∧
      (∀ v ∈ vs, ∀ x ∈ Cmd.reportsOf C σ₀ v, ∃ i : Nat, os[i]? = some (some x.2.kw)) ∧
      ∀ (i : Nat) (r : Request) (e : Info), (commandRequests o)[i]? = some r → (commandEntries o)[i]? = some e →
        ((∃ l, os[i]? = some (some l)) ↔ Session.CaselesslySearchable V r) ∧
        ∀ l, os[i]? = some (some l) → ∃ cs k ts, Session.Caselessly r cs ∧ cs ≠ [] ∧ Chain.Reads r.chain k ts ∧
          ∀ v ∈ vs, (C.display v.mapped v.content).info l = ⟨e.pattern, e.chain, e.idx⟩ ∧
            ∀ hits, Compiler.Leftmost (Session.CaselessAt (V (!o.unicode)) k ts cs 0 v.content) 0 hits ↔
              hits = hitsFor l ((Cmd.reportsOf C σ₀ v).map Prod.snd) := by
  have hreq : ∀ r ∈ commandRequests o, r.opts = ⟨true, true, o.unicode⟩ ∧ r.expr.length < 2 ^ 30 := by
    intro r hr
    unfold commandRequests at hr
    simp only [List.mem_flatMap, List.mem_map] at hr
    obtain ⟨p, hp, e, -, rfl⟩ := hr
    exact ⟨by simp [hF, hi], by simpa [ofBytes] using hlen p hp⟩
  have hm : ∀ r ∈ commandRequests o, Session.Modest env r := fun r hr =>
    Session.caseless_modest hV (by rw [(hreq r hr).1]) (by rw [(hreq r hr).1]) (hreq r hr).2
  obtain ⟨os, hC, hl, hinf⟩ := command_compiled h hn hm hc hd he
  obtain ⟨h1, h2⟩ := compiled_hits he (commandEntries_length o) hC hinf hP hbs hinfo hnew hs
  refine ⟨os, hl, h1, fun v hv x hx => ?_, fun i r e hr hE => ?_⟩
  · obtain ⟨i, r, e, -, -, a, -⟩ := (h2 v hv).1 x hx
    exact ⟨i, a⟩
  obtain ⟨hopt, hlr⟩ := hreq r (List.mem_of_getElem? hr)
  have hf : r.opts.fixed = true := by rw [hopt]
  have hcs : r.opts.caseless = true := by rw [hopt]
  refine ⟨?_, fun l ho => ?_⟩
  · obtain ⟨_, _, _, s', _, _, hq, -⟩ := hC.made
    exact Session.caseless_accepted he hV hm hq hr hf hcs hlr
  · obtain ⟨cs, k, ts, k1, k2, k3, k4⟩ := compiled_caseless he hV hC hP hbs hnew hs hr ho hf hcs
    rw [show r.opts.unicode = o.unicode by rw [hopt]] at k4
    exact ⟨cs, k, ts, k1, k2, k3, fun v hv => ⟨hinfo _ _ _ _ ((hinf i l ho).trans hE), k4 v hv⟩⟩

/-- **C105**.  A search command whose keywords are fixed strings that can be searched for without regard
to case makes a program, searches all its inputs and comes to an end.  It prints a line for each hit,
and the hits in an input for a keyword in an encoding are the leftmost non-overlapping places where it
has a text that stands for the keyword. -/
theorem command_caseless_works [Build] {env : Env} (he : env.Sound) {V : Bool → Nat → Nat → Prop} (hV : Session.FoldsAs env V)
    {cast : List Nat → Option Bool} {o : CmdOptions}
    (h : Sensible (realFront env cast) o) (hn : o.patterns ≠ []) (hk : ∀ r ∈ commandRequests o, Session.CaselesslySearchable V r)
    (hmany : (commandRequests o).length < 16777216) (depth : Nat) :
    ∃ g : Nfa.Graph, Session.States env (commandRequests o) depth g.n ∧ ∀ _ : depth = 0 ∨ g.n ≤ depth, g.n < 16777216 →
      ∃ P F, (∀ fuel ≥ F, commandProgram fuel depth env cast o = some (g, P, commandEntries o)) ∧
        ∀ C : Cmd.Conf, C.P = P → 0 < C.blockSize → 2 * g.n + 9 ≤ C.fuel →
          (∀ m c k i, (commandEntries o)[k]? = some i → (C.display m c).info k = ⟨i.pattern, i.chain, i.idx⟩) →
          ∃ first σ₀, Vm.create P C.fuel = .ok (first, σ₀) ∧ (C.first = first → ∀ w lists inputs,
            ∃ s, Cmd.searchCommand C w lists inputs σ₀ = .ok s ∧
              let vs := Cmd.opened (Cmd.allVisits w C.mmap C.recursive lists inputs)
              s.out.text = Cmd.printed C.fmt (vs.flatMap (Cmd.linesOf C σ₀)) ∧
              ∀ v ∈ vs,
                (∀ x ∈ Cmd.reportsOf C σ₀ v, x.2.kw < (commandRequests o).length) ∧
                ∀ (i : Nat) (r : Request) (e : Info), (commandRequests o)[i]? = some r → (commandEntries o)[i]? = some e →
                  (C.display v.mapped v.content).info i = ⟨e.pattern, e.chain, e.idx⟩ ∧
                  ∃ cs k ts, Session.Caselessly r cs ∧ cs ≠ [] ∧ Chain.Reads r.chain k ts ∧
                    ∀ hits, Compiler.Leftmost (Session.CaselessAt (V (!r.opts.unicode)) k ts cs 0 v.content) 0 hits ↔
                      hits = hitsFor i ((Cmd.reportsOf C σ₀ v).map Prod.snd)) := by
  obtain ⟨g, hS, hg⟩ := command_works he h hn (fun r hr => Session.caseless_parsed hV (hk r hr)) hmany depth
  refine ⟨g, hS, fun hd hN => ?_⟩
  obtain ⟨P, F, h1, hC, h2⟩ := hg hd hN
  refine ⟨P, F, h1, fun C hP hbs hfl hinfo => ?_⟩
  obtain ⟨first, σ₀, h3, h4⟩ := h2 C hP hbs hfl hinfo
  refine ⟨first, σ₀, h3, fun hfirst w lists inputs => ?_⟩
  obtain ⟨s, hs, r1, r2⟩ := h4 hfirst w lists inputs
  refine ⟨s, hs, r1, fun v hv => ⟨r2 v hv, fun i r e hr hE => ⟨hinfo _ _ _ _ hE, ?_⟩⟩⟩
  subst hP hfirst
  obtain ⟨cs, -, -, hL, -⟩ := hk r (List.mem_of_getElem? hr)
  have hlt : i < (commandRequests o).length := (List.getElem?_eq_some_iff.1 hr).1
  obtain ⟨cs, k, ts, k1, k2, k3, k4⟩ := compiled_caseless he hV hC rfl hbs h3 hs (l := i) hr (by simp [hlt]) hL.fixed hL.caseless
  exact ⟨cs, k, ts, k1, k2, k3, k4 v hv⟩

/-! ## Keyword files -/

/-- **C105** for keyword files.  A search command with keyword files, some of whose lines ask for fixed
strings: a program, if one is made, has accepted exactly those fixed strings that can be searched for,
and the hits of each in an encoding are its occurrences in the input or, without regard to case, the
leftmost non-overlapping places where the input has a text that stands for it, shown with that keyword
and encoding and the number of the line. -/
theorem file_fixed_hits [Build] {fuel depth : Nat} {env : Env} (he : env.Sound) {V : Bool → Nat → Nat → Prop}
    (hV : Session.FoldsAs env V) {cast : List Nat → Option Bool} {o : CmdOptions}
    (hn : o.patterns = []) (hz : ∀ e ∈ o.encodings, 0 ∉ e) (hm : ∀ r ∈ (fileItems env cast o).map Item.req, Session.Modest env r)
    {g : Nfa.Graph} {P : Vm.Program} {infos : List Info} (hc : commandProgram fuel depth env cast o = some (g, P, infos))
    (hd : depth = 0 ∨ g.n ≤ depth) {C : Cmd.Conf} (hP : C.P = P) (hbs : 0 < C.blockSize)
    (hinfo : ∀ m c k i, infos[k]? = some i → (C.display m c).info k = ⟨i.pattern, i.chain, i.idx⟩)
    {σ₀ : Vm.St} (hnew : Vm.create C.P C.fuel = .ok (C.first, σ₀)) {w : Cmd.World} {lists inputs : List Cmd.Str} {s : Cmd.CmdSt}
    (hs : Cmd.searchCommand C w lists inputs σ₀ = .ok s) :
    ∃ os : List (Option Nat), os.length = (fileItems env cast o).length ∧
      let vs := Cmd.opened (Cmd.allVisits w C.mmap C.recursive lists inputs)
      s.out.text = Cmd.printed C.fmt (vs.flatMap (Cmd.linesOf C σ₀)) ∧
      (∀ v ∈ vs, ∀ x ∈ Cmd.reportsOf C σ₀ v, ∃ i : Nat, os[i]? = some (some x.2.kw)) ∧
      ∀ (i : Nat) (y : Item), (fileItems env cast o)[i]? = some y → y.2.fixed = true → y.1.pattern.length < 2 ^ 30 →
        (y.2.caseInsensitive = false →
          ((∃ l, os[i]? = some (some l)) ↔ Searchable y.req) ∧
          ∀ l, os[i]? = some (some l) → ∃ key, KeyOf y.req key ∧ key ≠ [] ∧
            ∀ v ∈ vs, (C.display v.mapped v.content).info l = ⟨y.1.pattern, y.1.chain, y.1.idx⟩ ∧
              hitsFor l ((Cmd.reportsOf C σ₀ v).map Prod.snd) = occurrences key 0 0 v.content) ∧
        (y.2.caseInsensitive = true →
          ((∃ l, os[i]? = some (some l)) ↔ Session.CaselesslySearchable V y.req) ∧
          ∀ l, os[i]? = some (some l) → ∃ cs k ts, Session.Caselessly y.req cs ∧ cs ≠ [] ∧ Chain.Reads y.req.chain k ts ∧
            ∀ v ∈ vs, (C.display v.mapped v.content).info l = ⟨y.1.pattern, y.1.chain, y.1.idx⟩ ∧
              ∀ hits, Compiler.Leftmost (Session.CaselessAt (V (!y.2.unicode)) k ts cs 0 v.content) 0 hits ↔
                hits = hitsFor l ((Cmd.reportsOf C σ₀ v).map Prod.snd)) := by
  obtain ⟨os, hC, hl, hinf⟩ := files_compiled hn hz hm hc hd he
  obtain ⟨h1, h2⟩ := compiled_hits he (by simp) hC hinf hP hbs hinfo hnew hs
  refine ⟨os, hl, h1, fun v hv x hx => ?_, fun i y hy hf hlen => ?_⟩
  · obtain ⟨i, r, e, -, -, a, -⟩ := (h2 v hv).1 x hx
    exact ⟨i, a⟩
  have hr : ((fileItems env cast o).map Item.req)[i]? = some y.req := by rw [List.getElem?_map, hy]; rfl
  have hE : ((fileItems env cast o).map Prod.fst)[i]? = some y.1 := by rw [List.getElem?_map, hy]; rfl
  have hlr : y.req.expr.length < 2 ^ 30 := by simpa [Item.req, ofBytes] using hlen
  obtain ⟨_, _, _, s', _, _, hq, -⟩ := hC.made
  refine ⟨fun hcs => ⟨Session.fixed_accepted he hm hq hr hf hcs hlr, fun l ho => ?_⟩,
    fun hcs => ⟨Session.caseless_accepted he hV hm hq hr hf hcs hlr, fun l ho => ?_⟩⟩
  · obtain ⟨key, k1, k2, k3⟩ := compiled_fixed he hC hP hbs hnew hs hr ho hf hcs
    exact ⟨key, k1, k2, fun v hv => ⟨hinfo _ _ _ _ ((hinf i l ho).trans hE), k3 v hv⟩⟩
  · obtain ⟨cs, k, ts, k1, k2, k3, k4⟩ := compiled_caseless he hV hC hP hbs hnew hs hr ho hf hcs
    exact ⟨cs, k, ts, k1, k2, k3, fun v hv => ⟨hinfo _ _ _ _ ((hinf i l ho).trans hE), k4 v hv⟩⟩

/-! ## Example -/

section
attribute [local instance] Build.plain

/-- `-F -p 'a*' -e ASCII -e UTF-16LE` -/
def exFixed : CmdOptions :=
  ⟨[[97, 42]], [], [[65, 83, 67, 73, 73], [85, 84, 70, 45, 49, 54, 76, 69]], true, false, false⟩

theorem exFixed_sensible : Sensible (realFront Parser.plain exCast) exFixed := by
  refine ⟨?_, by simp [exFixed], ?_, rfl, rfl⟩
  · intro p hp
    simp only [exFixed, List.mem_cons, List.not_mem_nil, or_false] at hp
    subst hp
    simp [Plain]
  · intro p hp
    simp only [exFixed, List.mem_cons, List.not_mem_nil, or_false] at hp
    rcases hp with rfl | rfl <;> simp [Plain]

/-- The hypotheses of `command_fixed_works` are met. -/
theorem exFixed_searchable : ∀ r ∈ commandRequests exFixed, Searchable r := by
  intro r hr
  simp only [commandRequests, exFixed, List.flatMap_cons, List.flatMap_nil, List.map_cons, List.map_nil,
    List.append_nil, List.mem_cons, List.not_mem_nil, or_false] at hr
  rcases hr with rfl | rfl
  · refine ⟨[97, 42], .std .ascii, [], ⟨rfl, rfl, by simp [Utf.Scalar], by decide⟩, by simp, by simp, by simp, Session.ascii_reads,
      fun _ => .inl rfl, ?_⟩
    simp [Session.charBytes, Chain.Coding.spec, Decoders.Charset.spec]
  · refine ⟨[97, 42], .std (.utf16 true), [], ⟨rfl, rfl, by simp [Utf.Scalar], by decide⟩, by simp, by simp, by simp,
      Chain.exact_reads (Chain.name "UTF-16LE", _) (by simp [Chain.exact]), by simp, ?_⟩
    simp [Session.charBytes, Chain.Coding.spec, Decoders.Charset.spec, Utf.Scalar, Utf.spec16, Utf.unit16]

-- So, with a small enough automaton, the command ends on files and standard input.
example : ∃ g : Nfa.Graph, Session.States Parser.plain (commandRequests exFixed) 4294967295 g.n ∧ ∀ _ : g.n ≤ 4294967295, g.n < 16777216 → ∃ P F, ∀ fuel ≥ F,
    commandProgram fuel 4294967295 Parser.plain exCast exFixed = some (g, P, commandEntries exFixed) := by
  obtain ⟨g, hS, h⟩ := command_fixed_works Parser.plain_sound exFixed_sensible (by simp [exFixed]) exFixed_searchable
    (by simp [commandRequests, exFixed]) 4294967295
  refine ⟨g, hS, fun h1 h2 => ?_⟩
  obtain ⟨P, F, h3, -⟩ := h (.inr h1) h2
  exact ⟨P, F, h3⟩

set_option maxHeartbeats 1000000 in
set_option maxRecDepth 10000 in
/-- The automaton is small enough, so that `command_fixed_hits` applies too. -/
theorem exFixed_program : ∃ g P infos, commandProgram 40 4294967295 Parser.plain exCast exFixed = some (g, P, infos) ∧
    g.n ≤ 100 ∧ infos = commandEntries exFixed := by
  have h : (match commandProgram 40 4294967295 Parser.plain exCast exFixed with
      | some (g, _, infos) => decide (g.n ≤ 100) && decide (infos = commandEntries exFixed)
      | none => false) = true := by decide +kernel
  cases h1 : commandProgram 40 4294967295 Parser.plain exCast exFixed with
  | none => rw [h1] at h; cases h
  | some x =>
    obtain ⟨g, P, infos⟩ := x
    simp only [h1, Bool.and_eq_true, decide_eq_true_eq] at h
    exact ⟨g, P, infos, rfl, h.1, h.2⟩

/-- `-F -i -p 'a*' -e ASCII -e UTF-16LE` -/
def exCaseless : CmdOptions := { exFixed with caseInsensitive := true }

theorem exCaseless_sensible : Sensible (realFront Parser.plain exCast) exCaseless :=
  ⟨exFixed_sensible.patterns, exFixed_sensible.some, exFixed_sensible.encodings, rfl, rfl⟩

/-- The hypotheses of `command_caseless_works` are met. -/
theorem exCaseless_searchable : ∀ r ∈ commandRequests exCaseless, Session.CaselesslySearchable (fun _ => Session.SameLetter) r := by
  intro r hr
  simp only [commandRequests, exCaseless, exFixed, List.flatMap_cons, List.flatMap_nil, List.map_cons, List.map_nil,
    List.append_nil, List.mem_cons, List.not_mem_nil, or_false] at hr
  rcases hr with rfl | rfl
  · refine ⟨[97, 42], .std .ascii, [], ⟨rfl, rfl, by simp [Utf.Scalar], by decide⟩, by simp, by simp, by simp, Session.ascii_reads,
      fun _ => .inl rfl, fun c hc => ⟨c, .inl rfl, ?_⟩⟩
    revert c
    simp [Session.charBytes, Chain.Coding.spec, Decoders.Charset.spec]
  · refine ⟨[97, 42], .std (.utf16 true), [], ⟨rfl, rfl, by simp [Utf.Scalar], by decide⟩, by simp, by simp, by simp,
      Chain.exact_reads (Chain.name "UTF-16LE", _) (by simp [Chain.exact]), by simp, fun c hc => ⟨c, .inl rfl, ?_⟩⟩
    revert c
    simp [Session.charBytes, Chain.Coding.spec, Decoders.Charset.spec, Utf.Scalar, Utf.spec16, Utf.unit16]

example : ∃ g : Nfa.Graph, Session.States Parser.plain (commandRequests exCaseless) 4294967295 g.n ∧ ∀ _ : g.n ≤ 4294967295, g.n < 16777216 → ∃ P F, ∀ fuel ≥ F,
    commandProgram fuel 4294967295 Parser.plain exCast exCaseless = some (g, P, commandEntries exCaseless) := by
  obtain ⟨g, hS, h⟩ := command_caseless_works Parser.plain_sound Session.folds_plain exCaseless_sensible (by simp [exCaseless, exFixed])
    exCaseless_searchable (by simp [commandRequests, exCaseless, exFixed]) 4294967295
  refine ⟨g, hS, fun h1 h2 => ?_⟩
  obtain ⟨P, F, h3, -⟩ := h (.inr h1) h2
  exact ⟨P, F, h3⟩

/-- `-k` of a file with the lines `a*<tab>ASCII<tab>1` and `b<tab>UTF-16LE<tab>1<tab>1` -/
def exFixedFile : CmdOptions :=
  ⟨[], [some ([97, 42, 9, 65, 83, 67, 73, 73, 9, 49, 10] ++ [98, 9, 85, 84, 70, 45, 49, 54, 76, 69, 9, 49, 9, 49])], [[65, 83, 67, 73, 73]],
    false, false, false⟩

theorem exFixedFile_items : fileItems Parser.plain exCast exFixedFile =
    [(⟨[97, 42], [65, 83, 67, 73, 73], 0⟩, ⟨true, false, false⟩),
      (⟨[98], [85, 84, 70, 45, 49, 54, 76, 69], 1⟩, ⟨true, true, false⟩)] := by
  unfold fileItems
  rw [show exFixedFile.files.filterMap id =
    [[97, 42, 9, 65, 83, 67, 73, 73, 9, 49, 10, 98, 9, 85, 84, 70, 45, 49, 54, 76, 69, 9, 49, 9, 49]] from rfl]
  simp only [exFixedFile, textLines, ← tokens_eq, List.flatMap_cons, List.flatMap_nil]
  rw [show tokens (fun c => c == 10 || c == 13)
      (cstr [97, 42, 9, 65, 83, 67, 73, 73, 9, 49, 10, 98, 9, 85, 84, 70, 45, 49, 54, 76, 69, 9, 49, 9, 49]) =
      [[97, 42, 9, 65, 83, 67, 73, 73, 9, 49], [98, 9, 85, 84, 70, 45, 49, 54, 76, 69, 9, 49, 9, 49]] by decide +kernel]
  simp only [listItems, lineItems, lineBlank, lineEncs, lineOpts, ← tokens_eq]
  rw [show tokens (fun c => c == 9) [97, 42, 9, 65, 83, 67, 73, 73, 9, 49] = [[97, 42], [65, 83, 67, 73, 73], [49]] by decide +kernel,
    show tokens (fun c => c == 9) [98, 9, 85, 84, 70, 45, 49, 54, 76, 69, 9, 49, 9, 49] =
      [[98], [85, 84, 70, 45, 49, 54, 76, 69], [49], [49]] by decide +kernel]
  simp only [List.getElem?_cons_succ, List.getElem?_cons_zero, List.getElem?_nil]
  rw [show tokens (fun c => c == 44) [65, 83, 67, 73, 73] = [[65, 83, 67, 73, 73]] by decide +kernel,
    show tokens (fun c => c == 44) [85, 84, 70, 45, 49, 54, 76, 69] = [[85, 84, 70, 45, 49, 54, 76, 69]] by decide +kernel]
  rfl

-- With a keyword file: the hypotheses of `files_work` and `file_fixed_hits` are met.
example : ∃ g : Nfa.Graph, Session.States Parser.plain ((fileItems Parser.plain exCast exFixedFile).map Item.req) 4294967295 g.n ∧ ∀ _ : g.n ≤ 4294967295, g.n < 16777216 → ∃ P F, ∀ fuel ≥ F,
    commandProgram fuel 4294967295 Parser.plain exCast exFixedFile =
      some (g, P, [⟨[97, 42], [65, 83, 67, 73, 73], 0⟩, ⟨[98], [85, 84, 70, 45, 49, 54, 76, 69], 1⟩]) := by
  obtain ⟨g, hS, h⟩ := files_work (o := exFixedFile) (cast := exCast) Parser.plain_sound rfl (by simp [exFixedFile])
    (by rw [exFixedFile_items]; simp) (by
      rw [exFixedFile_items]
      intro r hr
      simp only [List.map_cons, List.map_nil, List.mem_cons, List.not_mem_nil, or_false, Item.req] at hr
      rcases hr with rfl | rfl
      · refine Session.searchable_parsed ?_
        refine ⟨[97, 42], .std .ascii, [], ⟨rfl, rfl, by simp [Utf.Scalar], by decide⟩, by simp, by simp, by simp, Session.ascii_reads,
          fun _ => .inl rfl, ?_⟩
        simp [Session.charBytes, Chain.Coding.spec, Decoders.Charset.spec]
      · refine Session.caseless_parsed Session.folds_plain ?_
        refine ⟨[98], .std (.utf16 true), [], ⟨rfl, rfl, by simp [Utf.Scalar], by decide⟩, by simp, by simp, by simp,
          Chain.exact_reads (Chain.name "UTF-16LE", _) (by simp [Chain.exact]), by simp, fun c hc => ⟨c, .inl rfl, ?_⟩⟩
        revert c
        simp [Session.charBytes, Chain.Coding.spec, Decoders.Charset.spec, Utf.Scalar, Utf.spec16, Utf.unit16])
    (by rw [exFixedFile_items]; simp) 4294967295
  refine ⟨g, hS, fun h1 h2 => ?_⟩
  obtain ⟨P, F, h3, -⟩ := h (.inr h1) h2
  rw [exFixedFile_items] at h3
  exact ⟨P, F, h3⟩
end

end Verif.Handles
