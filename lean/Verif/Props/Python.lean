import Verif.Python
import Verif.Props.Session
import Verif.Props.Vm
import Verif.Props.Window
/-!
# C90, C91, C92: the Python binding
-/
namespace Verif.Python
open Verif.Parser (Env PatternOpts)
open Verif.Regex (Tree)
open Verif.Encoders (Node)
open Verif.Utf (Scalar spec8)
open Verif.Session (Request requests Compiled Matches Modest)

/-! ## Specification -/

/-- The UTF-8 of a text. -/
def utf8 (s : List Nat) : List UInt8 := (s.flatMap spec8).map UInt8.ofNat

/-- The pattern infos for a list of entries: one for every encoding of every entry, in order, with the
entry's place in the list. -/
def infosOf (es : List Entry) : List Info :=
  es.zipIdx.flatMap fun e => e.1.encs.map fun c => ⟨cString (utf8 e.1.text), cString (utf8 c), e.2⟩

/-- The requests for a list of entries: one for every encoding of every entry. -/
def requestsOf (es : List Entry) : List Request :=
  es.flatMap fun e => e.encs.map fun c => ⟨cString (utf8 e.text), e.opts, cString (utf8 c)⟩

/-! ## Strings -/

theorem cp_spec (c : Nat) : Utf.cpToUtf8 c = if Scalar c then spec8 c else [] := by
  rw [Utf.cpToUtf8_spec]
  by_cases h : Scalar c
  · rw [if_pos ⟨by omega, by simpa using h⟩, if_pos h]; simp
  · rw [if_neg (by simpa using h), if_neg h]

theorem encode_some {s : List Nat} {b : List UInt8} (h : encode s = some b) : (∀ c ∈ s, Scalar c) ∧ b = utf8 s := by
  unfold encode at h
  split at h
  · next ha =>
    have hs : ∀ c ∈ s, Scalar c := by
      intro c hc
      have := List.all_eq_true.1 ha c hc
      rw [cp_spec] at this
      by_contra hn
      rw [if_neg hn] at this
      simp at this
    refine ⟨hs, ?_⟩
    injection h with h
    rw [← h, utf8]
    congr 1
    clear ha h
    induction s with
    | nil => rfl
    | cons c s ih =>
      rw [List.flatMap_cons, List.flatMap_cons, ih fun d hd => hs d (by simp [hd]), cp_spec, if_pos (hs c (by simp))]
  · cases h

/-! ## Patterns -/

theorem addEncs_spec [Chain.Build] {fuel : Nat} {env : Env} {text : List UInt8} {p : PatternOpts} {t : Option (Tree Node)} {i : Nat}
    (ht : Text.parseAndReduce env p text = .ok t) : ∀ (encs : List (List Nat)) {f f' : Fsm},
    addEncs fuel text t i encs f = .ok f' →
    f'.infos = f.infos ++ encs.map (fun c => ⟨text, cString (utf8 c), i⟩) ∧
    ∃ os, requests fuel env f.state (encs.map fun c => ⟨text, p, cString (utf8 c)⟩) = some (f'.state, os) ∧
      os = (List.range' f.state.count encs.length).map some ∧ f'.state.count = f.state.count + encs.length
  | [], f, f', h => by
    cases h
    exact ⟨by simp, [], rfl, rfl, rfl⟩
  | e :: es, f, f', h => by
    rw [addEncs] at h
    split at h
    · cases h
    · next b hb =>
      obtain ⟨-, rfl⟩ := encode_some hb
      split at h
      · cases h
      · cases h
      · next s l hs =>
        have hl : l = f.state.count ∧ s.count = f.state.count + 1 := by
          unfold Session.addTree at hs
          split at hs
          · cases hs
          · split at hs
            · obtain ⟨r, -, hr⟩ := Option.map_eq_some_iff.1 hs
              cases hr
            · obtain ⟨a, -, hs⟩ := Option.bind_eq_some_iff.1 hs
              obtain ⟨r, -, hs⟩ := Option.bind_eq_some_iff.1 hs
              dsimp only at hs
              split at hs
              · cases hs; exact ⟨rfl, rfl⟩
              · cases hs
        obtain ⟨rfl, hc⟩ := hl
        obtain ⟨h1, os, h2, h3, h4⟩ := addEncs_spec ht es h
        refine ⟨by rw [h1]; simp, some f.state.count :: os, ?_, ?_, ?_⟩
        · rw [List.map_cons, requests]
          have : Session.request fuel env f.state ⟨text, p, cString (utf8 e)⟩ = some (s, some f.state.count) := by
            unfold Session.request
            rw [ht]
            exact hs
          rw [this]
          simp only [Option.bind_eq_bind, Option.bind_some]
          rw [h2]
          rfl
        · rw [h3, hc, List.length_cons, List.range'_succ, List.map_cons]
        · rw [h4, hc, List.length_cons]; omega

theorem requests_append [Chain.Build] {fuel : Nat} {env : Env} : ∀ (a b : List Request) {s s' s'' : Session.State} {os os' : List (Option Nat)},
    requests fuel env s a = some (s', os) → requests fuel env s' b = some (s'', os') →
    requests fuel env s (a ++ b) = some (s'', os ++ os')
  | [], b, s, s', s'', os, os', h, h' => by cases h; exact h'
  | r :: a, b, s, s', s'', os, os', h, h' => by
    rw [requests] at h
    obtain ⟨x, hx, h⟩ := Option.bind_eq_some_iff.1 h
    obtain ⟨y, hy, h⟩ := Option.bind_eq_some_iff.1 h
    cases h
    rw [List.cons_append, requests, hx]
    simp only [Option.bind_eq_bind, Option.bind_some]
    rw [requests_append a b hy h']
    rfl

theorem addPatterns_spec [Chain.Build] {fuel : Nat} {env : Env} : ∀ (es : List Entry) {i : Nat} {f f' : Fsm},
    addPatterns fuel env i es f = .ok f' →
    f'.infos = f.infos ++ (es.zipIdx i).flatMap (fun e => e.1.encs.map fun c => ⟨cString (utf8 e.1.text), cString (utf8 c), e.2⟩) ∧
    ∃ os, requests fuel env f.state (requestsOf es) = some (f'.state, os) ∧
      os = (List.range' f.state.count (requestsOf es).length).map some ∧
      f'.state.count = f.state.count + (requestsOf es).length ∧
      ∀ e ∈ es, e.text ≠ [] ∧ e.encs ≠ [] ∧ (∀ c ∈ e.text, Scalar c)
  | [], i, f, f', h => by
    cases h
    exact ⟨by simp, [], rfl, rfl, rfl, by simp⟩
  | e :: es, i, f, f', h => by
    rw [addPatterns] at h
    split at h
    · cases h
    next h1 =>
    split at h
    · cases h
    next h2 =>
    split at h
    · cases h
    · cases h
    · next text t hp =>
      split at h
      · next f1 h3 =>
        unfold parse at hp
        split at hp
        · cases hp
        · next b hb =>
          obtain ⟨hsc, rfl⟩ := encode_some hb
          split at hp
          · cases hp
          · cases hp
          · next t' ht =>
            cases hp
            obtain ⟨a1, os, a2, a3, a4⟩ := addEncs_spec ht e.encs h3
            obtain ⟨b1, os', b2, b3, b4, b5⟩ := addPatterns_spec es h
            have hlen : (requestsOf (e :: es)).length = e.encs.length + (requestsOf es).length := by
              simp [requestsOf]
            refine ⟨?_, os ++ os', ?_, ?_, ?_, ?_⟩
            · rw [b1, a1, List.zipIdx_cons, List.flatMap_cons, List.append_assoc]
            · rw [requestsOf, List.flatMap_cons]
              exact requests_append _ _ a2 b2
            · rw [a3, b3, a4, hlen, ← List.map_append, ← List.range'_append]
              simp
            · rw [b4, a4, hlen]; omega
            · intro x hx
              rcases List.mem_cons.1 hx with rfl | hx
              · exact ⟨h1, h2, hsc⟩
              · exact b5 x hx
      · cases h
      · cases h

/-- Infos and requests go together. -/
theorem infos_requests (es : List Entry) (k : Nat) (r : Request) (h : (requestsOf es)[k]? = some r) :
    ∃ info e c, (infosOf es)[k]? = some info ∧ es[info.user]? = some e ∧ c ∈ e.encs ∧
      info.pattern = cString (utf8 e.text) ∧ info.chain = cString (utf8 c) ∧ r = ⟨info.pattern, e.opts, info.chain⟩ := by
  have key : ∀ (es : List Entry) (i k : Nat) (r : Request), (requestsOf es)[k]? = some r →
      ∃ info e c, ((es.zipIdx i).flatMap (fun e => e.1.encs.map fun c =>
          (⟨cString (utf8 e.1.text), cString (utf8 c), e.2⟩ : Info)))[k]? = some info ∧
        i ≤ info.user ∧ es[info.user - i]? = some e ∧ c ∈ e.encs ∧
        info.pattern = cString (utf8 e.text) ∧ info.chain = cString (utf8 c) ∧ r = ⟨info.pattern, e.opts, info.chain⟩ := by
    intro es
    induction es with
    | nil => intro i k r h; simp [requestsOf] at h
    | cons e es ih =>
      intro i k r h
      rw [requestsOf, List.flatMap_cons, List.getElem?_append] at h
      rw [List.zipIdx_cons, List.flatMap_cons, List.getElem?_append]
      simp only [List.length_map] at h ⊢
      split at h
      · next hk =>
        rw [if_pos hk]
        rw [List.getElem?_map] at h ⊢
        obtain ⟨c, hc, hr⟩ := Option.map_eq_some_iff.1 h
        rw [hc]
        exact ⟨_, e, c, rfl, Nat.le_refl _, by simp, List.mem_of_getElem? hc, rfl, rfl, hr.symm⟩
      · next hk =>
        rw [if_neg hk]
        obtain ⟨info, e', c, a1, a2, a3, a4⟩ := ih (i + 1) _ r h
        refine ⟨info, e', c, a1, by omega, ?_, a4⟩
        rw [show info.user - i = info.user - (i + 1) + 1 by omega, List.getElem?_cons_succ]
        exact a3
  obtain ⟨info, e, c, a1, -, a3, a4⟩ := key es 0 k r h
  exact ⟨info, e, c, a1, a3, a4⟩

/-- **C91** The infos of the patterns of a list: the list was added without an exception. -/
theorem patterns_added [Chain.Build] {fuel : Nat} {env : Env} {es : List Entry} {f : Fsm}
    (h : addPatterns fuel env 0 es .init = .ok f) :
    f.infos = infosOf es ∧ requests fuel env .init (requestsOf es) =
      some (f.state, (List.range (requestsOf es).length).map some) := by
  obtain ⟨h1, os, h2, h3, -⟩ := addPatterns_spec es h
  refine ⟨by simpa [Fsm.init, infosOf] using h1, ?_⟩
  rw [List.range_eq_range', show (List.range' 0 (requestsOf es).length).map some = os from h3.symm]
  exact h2

/-- **C91** `make_program_from_patterns` and a search of a stream: every hit is recorded with the place of
an entry in the list, the entry's text and one of its encodings, and the bytes of the hit match that
text with the entry's options in that encoding. -/
theorem hits_named [Chain.Build] {env : Env} (he : env.Sound) {es : List Entry} (hm : ∀ r ∈ requestsOf es, Modest env r)
    {f1 : Nat} {f : Fsm} (h : addPatterns f1 env 0 es .init = .ok f)
    {f2 f3 : Nat} {det : Bool} {depth : Nat} {g : Nfa.Graph} {P : Vm.Program}
    (hfin : Subset.finalizeGraph f2 det depth f.state.graph = some (.ok g)) (hP : Compiler.createProgram f3 g = some (.ok P))
    (hd : ∀ v, (g.v v).out.Nodup)
    {fuel : Nat} {first : List Vm.Thread} {σ₀ : Vm.St} (hnew : Vm.create P fuel = .ok (first, σ₀))
    {data : Nat → UInt8} {p q : Nat} {cs : List Vm.Call} (hs : Vm.Stream data p cs q)
    {res : List (Option Nat)} {σ : Vm.St} (hrun : Vm.run P first fuel cs σ₀ = .ok (res, σ)) :
    (σ.log.foldl (Acc.callback f.infos) .empty).hits.length = σ.log.length ∧
    ∀ x ∈ (σ.log.foldl (Acc.callback f.infos) .empty).hits, ∃ e c, es[x.keywordIndex]? = some e ∧ c ∈ e.encs ∧
      x.pattern = cString (utf8 e.text) ∧ x.encChain = cString (utf8 c) ∧
      Matches env ⟨x.pattern, e.opts, x.encChain⟩ (Vm.seg data x.start x.stop) := by
  obtain ⟨hi, hr⟩ := patterns_added h
  have hc : Compiled env (requestsOf es) ((List.range (requestsOf es).length).map some) g P :=
    ⟨hm, ⟨f1, f2, f3, f.state, det, depth, hr, hfin, hP⟩, hd⟩
  have hits := (Session.text_hits_match he hc).2 hnew hs hrun
  have named : ∀ x ∈ σ.log, ∃ info e c, f.infos[x.label]? = some info ∧ es[info.user]? = some e ∧ c ∈ e.encs ∧
      info.pattern = cString (utf8 e.text) ∧ info.chain = cString (utf8 c) ∧
      Matches env ⟨info.pattern, e.opts, info.chain⟩ (Vm.seg data x.start x.end) := by
    intro x hx
    obtain ⟨i, r, h1, h2, h3⟩ := hits x hx
    have hl : i = x.label := by
      rw [List.getElem?_map] at h2
      obtain ⟨y, hy, h2⟩ := Option.map_eq_some_iff.1 h2
      rw [List.getElem?_range (by
        have := (List.getElem?_eq_some_iff.1 hy).1
        simpa using this)] at hy
      cases hy
      cases h2
      rfl
    subst hl
    obtain ⟨info, e, c, b1, b2, b3, b4, b5, b6⟩ := infos_requests es _ r h1
    rw [b6] at h3
    exact ⟨info, e, c, by rw [hi]; exact b1, b2, b3, b4, b5, h3⟩
  clear hits hc hrun
  have key : ∀ (log : List Vm.Hit) (a : Acc), (∀ x ∈ log, ∃ info e c, f.infos[x.label]? = some info ∧ es[info.user]? = some e ∧
      c ∈ e.encs ∧ info.pattern = cString (utf8 e.text) ∧ info.chain = cString (utf8 c) ∧
      Matches env ⟨info.pattern, e.opts, info.chain⟩ (Vm.seg data x.start x.end)) →
      (log.foldl (Acc.callback f.infos) a).hits.length = a.hits.length + log.length ∧
      ∀ y ∈ (log.foldl (Acc.callback f.infos) a).hits, y ∈ a.hits ∨ ∃ e c, es[y.keywordIndex]? = some e ∧ c ∈ e.encs ∧
        y.pattern = cString (utf8 e.text) ∧ y.encChain = cString (utf8 c) ∧
        Matches env ⟨y.pattern, e.opts, y.encChain⟩ (Vm.seg data y.start y.stop) := by
    intro log
    induction log with
    | nil => intro a _; exact ⟨rfl, fun y hy => .inl hy⟩
    | cons x log ih =>
      intro a hl
      obtain ⟨info, e, c, b1, b2, b3, b4, b5, b6⟩ := hl x (by simp)
      have hx : a.callback f.infos x = a.add x info := by unfold Acc.callback; rw [b1]
      obtain ⟨i1, i2⟩ := ih (a.add x info) fun y hy => hl y (by simp [hy])
      rw [List.foldl_cons, hx]
      refine ⟨by rw [i1]; simp [Acc.add]; omega, fun y hy => ?_⟩
      rcases i2 y hy with h | h
      · rcases List.mem_append.1 h with h | h
        · exact .inl h
        · simp only [List.mem_singleton] at h
          subst h
          exact .inr ⟨e, c, b2, b3, b4, b5, b6⟩
      · exact .inr h
  obtain ⟨k1, k2⟩ := key σ.log .empty named
  refine ⟨by simpa [Acc.empty] using k1, fun x hx => ?_⟩
  rcases k2 x hx with h | h
  · simp [Acc.empty] at h
  · exact h

attribute [local instance] Chain.Build.plain

/-- A list of two entries: "a(b|c)d" in ASCII and the text "ef" in UTF-16LE and ASCII. -/
def entries : List Entry :=
  [⟨[97, 40, 98, 124, 99, 41, 100], [[65, 83, 67, 73, 73]], ⟨false, false, false⟩⟩,
    ⟨[101, 102], [[117, 116, 102, 45, 49, 54, 108, 101], [65, 83, 67, 73, 73]], ⟨true, false, false⟩⟩]

theorem entries_modest : ∀ r ∈ requestsOf entries, Modest Parser.plain r := by
  have e : requestsOf entries = [⟨[97, 40, 98, 124, 99, 41, 100], ⟨false, false, false⟩, [65, 83, 67, 73, 73]⟩,
      ⟨[101, 102], ⟨true, false, false⟩, [117, 116, 102, 45, 49, 54, 108, 101]⟩,
      ⟨[101, 102], ⟨true, false, false⟩, [65, 83, 67, 73, 73]⟩] := by
    simp [requestsOf, entries, utf8, cString, spec8]
  rw [e]
  intro r hr
  simp only [List.mem_cons, List.not_mem_nil, or_false] at hr
  have two : ∀ ch, ch.all (fun c : UInt8 => decide (c ≠ 0)) = true → 
      Modest Parser.plain ⟨[101, 102], ⟨true, false, false⟩, ch⟩ := by
    intro ch hch
    obtain ⟨j, h⟩ := Session.parsesTo_iff (env := Parser.plain) (r := ⟨[101, 102], ⟨true, false, false⟩, ch⟩)
      (t := .cat (.leaf (.lit 101)) (.leaf (.lit 102)))
      (show Session.parsesTo Parser.plain ⟨[101, 102], ⟨true, false, false⟩, []⟩ _ = true by decide +kernel)
    exact ⟨Session.parsed_of h (by simp [Regex.weight, Regex.UNB]), by simpa using hch⟩
  rcases hr with rfl | rfl | rfl
  · obtain ⟨j, h⟩ := Session.parsesTo_iff (env := Parser.plain)
      (r := ⟨[97, 40, 98, 124, 99, 41, 100], ⟨false, false, false⟩, [65, 83, 67, 73, 73]⟩)
      (t := .cat (.cat (.leaf (.lit 97)) (.alt (.leaf (.lit 98)) (.leaf (.lit 99)))) (.leaf (.lit 100))) (by decide +kernel)
    exact ⟨Session.parsed_of h (by simp [Regex.weight, Regex.UNB]), by decide⟩
  · exact two _ (by decide)
  · exact two _ (by decide)

theorem entries_added : ∃ f g, addPatterns 60 Parser.plain 0 entries .init = .ok f ∧
    Subset.finalizeGraph 60 false 4294967295 f.state.graph = some (.ok g) ∧ g.n < 16777216 ∧
    f.infos.map (·.user) = [0, 1, 1] := by
  have h : (match addPatterns 60 Parser.plain 0 entries .init with
      | .ok f => decide (f.infos.map (·.user) = [0, 1, 1]) && (match Subset.finalizeGraph 60 false 4294967295 f.state.graph with
          | some (.ok g) => decide (g.n < 16777216)
          | _ => false)
      | _ => false) = true := by decide +kernel
  split at h
  · next f h1 =>
    simp only [Bool.and_eq_true, decide_eq_true_eq] at h
    obtain ⟨h2, h⟩ := h
    split at h
    · next g h3 => exact ⟨f, g, h1, h3, of_decide_eq_true h, h2⟩
    · cases h
  · cases h

/-- The hypotheses of `hits_named` are met by the two entries. -/
example : ∃ f g P first σ₀ res σ, addPatterns 60 Parser.plain 0 entries .init = .ok f ∧
    (∀ r ∈ requestsOf entries, Modest Parser.plain r) ∧
    Subset.finalizeGraph 60 false 4294967295 f.state.graph = some (.ok g) ∧ (∃ f3, Compiler.createProgram f3 g = some (.ok P)) ∧
    (∀ v, (g.v v).out.Nodup) ∧ Vm.create P 60000000 = .ok (first, σ₀) ∧
    Vm.run P first 60000000 (Vm.searches 0 [[97, 99, 100, 101, 0], [102, 0]]) σ₀ = .ok (res, σ) := by
  obtain ⟨f, g, h1, h2, h3, -⟩ := entries_added
  obtain ⟨-, hr⟩ := patterns_added h1
  obtain ⟨ps, p1, p2, p3, -, p5⟩ := Session.requests_spec Parser.plain_sound _ entries_modest Chain.factory_init hr
  have hps : Fsm.Patterns ps := by
    refine ⟨by rw [p3]; exact List.nodup_range', fun p hp => ?_⟩
    obtain ⟨i, r, -, -, ha⟩ := p5 p hp
    exact ha.sane
  have hd := Verif.Fsm.finalized_parallel hps p1 h2 (Or.inr (by omega))
  obtain ⟨F, hF⟩ := Verif.Fsm.finalized_search_ends hps p1 h2 hd h3 (by
    intro p hp
    have hl : ps.length = 3 := by
      have := congrArg List.length p2
      simpa [requestsOf, entries] using this.symm
    have : p.1 ∈ ps.map (·.1) := List.mem_map_of_mem hp
    rw [p3, List.mem_range'_1, hl] at this
    have : Session.State.init.count = 0 := rfl
    omega)
  obtain ⟨P, hP, hrun⟩ := hF F (Nat.le_refl _)
  obtain ⟨first, σ₀, res, σ, r1, r2⟩ := hrun 60000000 (by omega) 0 [[97, 99, 100, 101, 0], [102, 0]]
  exact ⟨f, g, P, first, σ₀, res, σ, h1, entries_modest, h2, ⟨F, hP⟩, hd, r1, r2⟩

/-- A pattern with a null character is cut there without a complaint: "a" U+0000 "b" is added as "a". -/
theorem null_cuts : ∃ f, addPatterns 60 Parser.plain 0 [⟨[97, 0, 98], [[65, 83, 67, 73, 73]], ⟨true, false, false⟩⟩] .init = .ok f ∧
    f.infos = [⟨[97], [65, 83, 67, 73, 73], 0⟩] := by
  have h : (match addPatterns 60 Parser.plain 0 [⟨[97, 0, 98], [[65, 83, 67, 73, 73]], ⟨true, false, false⟩⟩] .init with
      | .ok f => decide (f.infos = [⟨[97], [65, 83, 67, 73, 73], 0⟩])
      | _ => false) = true := by decide +kernel
  split at h
  · next f h1 => exact ⟨f, h1, of_decide_eq_true h⟩
  · cases h

/-- Two user indices that the FSM cannot tell apart. -/
theorem user_index_wraps : userIndex 4294967301 = userIndex 5 := by decide

/-- Of a buffer whose items have two bytes only the first half is searched. -/
theorem half_searched : bufRange ⟨[97, 0, 98, 0], 2⟩ = [97, 0] := by decide

/-- **C92** A buffer of bytes is searched whole. -/
theorem buffer_whole (b : List UInt8) : bufRange ⟨b, 1⟩ = b := by simp [bufRange, Buf.len]

/-! ## The accumulator -/

/-- The counts are those of the hits. -/
def Tally (a : Acc) : Prop := ∀ p, a.counts p = (a.hits.filter fun x => x.pattern = p).length

theorem tally_callback {infos : List Info} {a : Acc} (h : Tally a) (x : Vm.Hit) : Tally (a.callback infos x) := by
  intro p
  unfold Acc.callback
  split
  · exact h p
  · next i _ =>
    simp only [Acc.add, List.filter_append, List.length_append]
    by_cases hp : p = i.pattern
    · subst hp; simp [h i.pattern]
    · have : ¬ i.pattern = p := fun e => hp e.symm
      simp [hp, this, h p]

theorem tally_fold {infos : List Info} : ∀ (xs : List Vm.Hit) {a : Acc}, Tally a → Tally (xs.foldl (Acc.callback infos) a)
  | [], _, h => h
  | x :: xs, _, h => tally_fold xs (tally_callback h x)

/-- **C90** After every history of methods, `KeyCounts[p]` is the number of entries of `Hits` with the
pattern `p`. -/
theorem counts_tally {P : Vm.Program} {first : List Vm.Thread} {fuel : Nat} {infos : List Info} {σ₀ : Vm.St}
    {os : List Op} {rs : List (Option Nat)} {s : Py} (h : runs P first fuel infos os ⟨σ₀, .empty⟩ = .ok (rs, s)) (p : List UInt8) :
    s.acc.counts p = (s.acc.hits.filter fun x => x.pattern = p).length := by
  have key : ∀ (os : List Op) (s : Py) (rs : List (Option Nat)) (s' : Py), Tally s.acc →
      runs P first fuel infos os s = .ok (rs, s') → Tally s'.acc := by
    intro os
    induction os with
    | nil =>
      intro s rs s' ht h
      simp only [runs, Vm.Res.ok.injEq, Prod.mk.injEq] at h
      rw [← h.2]; exact ht
    | cons o os ih =>
      intro s rs s' ht h
      simp only [runs] at h
      obtain ⟨⟨r, s1⟩, h1, h⟩ := Vm.bind_eq_ok.1 h
      obtain ⟨⟨r', s2⟩, h2, h⟩ := Vm.bind_eq_ok.1 h
      simp only [Vm.Res.ok.injEq, Prod.mk.injEq] at h
      obtain ⟨-, rfl⟩ := h
      refine ih s1 _ _ ?_ h2
      have other : ∀ {o : Op}, (do
            let (rs, σ) ← Vm.run P first fuel o.calls s.ctx
            let acc := (σ.log.drop s.ctx.log.length).foldl (Acc.callback infos) s.acc
            .ok (o.result rs acc, ⟨σ, acc⟩) : Vm.Res (Option Nat × Py)) = .ok (r, s1) → Tally s1.acc := by
        intro o h1
        obtain ⟨⟨ra, σ⟩, -, h1⟩ := Vm.bind_eq_ok.1 h1
        simp only [Vm.Res.ok.injEq, Prod.mk.injEq] at h1
        obtain ⟨-, rfl⟩ := h1
        exact tally_fold _ ht
      cases o
      case clear =>
        simp only [Op.run, Vm.Res.ok.injEq, Prod.mk.injEq] at h1
        obtain ⟨-, rfl⟩ := h1
        intro p; rfl
      all_goals exact other h1
  exact key os _ rs s (fun p => rfl) h p

example : ∃ first σ₀ rs s, Vm.create Vm.abProgram 10 = .ok (first, σ₀) ∧
    runs Vm.abProgram first 10 [⟨[97], [], 3⟩] [.search [97, 98, 97] 0, .clear, .search [98, 97, 98] 3, .closeout] ⟨σ₀, .empty⟩ = .ok (rs, s) ∧
    s.acc.hits = [⟨2, 4, 3, [97], []⟩, ⟨4, 6, 3, [97], []⟩] ∧ s.acc.counts [97] = 2 ∧ rs = [some 2, none, some 6, none] :=
  ⟨_, _, _, _, rfl, rfl, by decide, by decide, by decide⟩

/-- When a search can say that later hits start at 0 or after, Python's caller gets `None` instead of 0. -/
theorem none_for_zero : ∃ first σ₀ s, Vm.create Vm.abProgram 10 = .ok (first, σ₀) ∧
    (∃ σ, Vm.run Vm.abProgram first 10 [.search [97] 0 true] σ₀ = .ok ([some 0], σ)) ∧
    runs Vm.abProgram first 10 [] [.search [97] 0] ⟨σ₀, .empty⟩ = .ok ([none], s) :=
  ⟨_, _, _, rfl, ⟨_, rfl⟩, rfl⟩

/-! ## Buffers -/

/-- The hits that a new context `σ₀` reports for a buffer searched by itself: with `Context.search` and
`closeout`, or with `Context.startswith`. -/
inductive Alone (P : Vm.Program) (first : List Vm.Thread) (fuel : Nat) (σ₀ : Vm.St) : Op → List Vm.Hit → Prop where
  | search {data : List UInt8} {rs : List (Option Nat)} {σ : Vm.St} :
      Vm.run P first fuel [.search data 0 true, .closeOut true] σ₀ = .ok (rs, σ) → Alone P first fuel σ₀ (.searchBuffer data) σ.log
  | startswith {data : List UInt8} {rs : List (Option Nat)} {σ : Vm.St} :
      Vm.run P first fuel [.startsWith data 0 true] σ₀ = .ok (rs, σ) →
      Alone P first fuel σ₀ (.searchBufferStartswith data) σ.log

/-- The methods that search one buffer. -/
def Op.IsBuffer : Op → Prop
  | .searchBuffer _ => True
  | .searchBufferStartswith _ => True
  | _ => False

/-- One buffer on a new context. -/
theorem buffer_calls {P : Vm.Program} {fuel : Nat} {first : List Vm.Thread} {σ₀ : Vm.St}
    (hnew : Vm.create P fuel = .ok (first, σ₀)) {o : Op} (ho : o.IsBuffer) {rs : List (Option Nat)} {σ : Vm.St}
    (h : Vm.run P first fuel o.calls σ₀ = .ok (rs, σ)) : Alone P first fuel σ₀ o σ.log ∧
    ∀ post, Vm.run P first fuel post σ = (Vm.run P first fuel post σ₀).map (fun r => (r.1, Vm.relog true σ.log r.2)) := by
  have hfresh := Vm.create_state hnew (Vm.create_log hnew)
  have hreset : ∀ (pre : List Vm.Call), Vm.run P first fuel (pre ++ [.reset]) σ₀ = .ok (rs, σ) →
      (∃ r a, Vm.run P first fuel pre σ₀ = .ok (r, a) ∧ a.log = σ.log) ∧
      ∀ post, Vm.run P first fuel post σ = (Vm.run P first fuel post σ₀).map (fun r => (r.1, Vm.relog true σ.log r.2)) := by
    intro pre h
    refine ⟨?_, fun post => Vm.reset_is_fresh hnew pre post h⟩
    rw [Vm.run_append] at h
    obtain ⟨⟨ra, a⟩, ha, h⟩ := Vm.bind_eq_ok.1 h
    simp only [Vm.run, Vm.step, Vm.bind_ok, Vm.Res.ok.injEq, Prod.mk.injEq] at h
    obtain ⟨-, rfl⟩ := h
    exact ⟨ra, a, ha, rfl⟩
  cases o <;> simp only [Op.IsBuffer] at ho
  case searchBuffer data =>
    obtain ⟨⟨r, a, ha, hl⟩, h2⟩ := hreset [.search data 0 true, .closeOut true] h
    exact ⟨hl ▸ .search ha, h2⟩
  case searchBufferStartswith data =>
    obtain ⟨⟨r, a, ha, hl⟩, h2⟩ := hreset [.startsWith data 0 true, .closeOut true] h
    refine ⟨?_, h2⟩
    rw [show ([.startsWith data 0 true, .closeOut true] : List Vm.Call) = [.startsWith data 0 true] ++ [.closeOut true] from rfl,
      Vm.run_append] at ha
    obtain ⟨⟨rb, b⟩, hb, ha⟩ := Vm.bind_eq_ok.1 ha
    have hstep : ∃ r, Vm.step P first fuel (.startsWith data 0 true) σ₀ = .ok (r, b) := by
      simp only [Vm.run] at hb
      obtain ⟨⟨rc, c⟩, hc, hb⟩ := Vm.bind_eq_ok.1 hb
      simp only [Vm.bind_ok, Vm.Res.ok.injEq, Prod.mk.injEq] at hb
      obtain ⟨-, rfl⟩ := hb
      exact ⟨rc, hc⟩
    obtain ⟨rc, hc⟩ := hstep
    dsimp only at ha
    rw [Vm.startsWith_leaves_fresh hnew data 0 true hc [.closeOut true]] at ha
    have hclose : Vm.run P first fuel [.closeOut true] σ₀ = .ok ([none], σ₀) := by
      rw [hfresh]; rfl
    rw [hclose] at ha
    simp only [Vm.map_okk, Vm.bind_ok, Vm.Res.ok.injEq, Prod.mk.injEq] at ha
    obtain ⟨-, rfl⟩ := ha
    rw [← hl]
    simp only [Vm.create_log hnew, List.append_nil]
    exact .startswith hb

/-- **C90** Every sequence of `searchBuffer` and `searchBufferStartswith` on a new context, with any
accumulator: each buffer is searched as if it were alone, the hits for it (`logs[i]`) are appended
to the accumulator in order, and each call returns the number of hits the accumulator has by then. -/
theorem buffers_alone {P : Vm.Program} {fuel : Nat} {first : List Vm.Thread} {σ₀ : Vm.St} {infos : List Info}
    (hnew : Vm.create P fuel = .ok (first, σ₀)) {os : List Op} (hos : ∀ o ∈ os, o.IsBuffer) {a : Acc}
    {rs : List (Option Nat)} {s : Py} (h : runs P first fuel infos os ⟨σ₀, a⟩ = .ok (rs, s)) :
    ∃ logs : List (List Vm.Hit), List.Forall₂ (Alone P first fuel σ₀) os logs ∧
      s.acc = logs.flatten.foldl (Acc.callback infos) a ∧
      rs = (List.range os.length).map fun i =>
        some ((logs.take (i + 1)).flatten.foldl (Acc.callback infos) a).hits.length := by
  have key : ∀ (os : List Op) (σ : Vm.St) (a : Acc) (rs : List (Option Nat)) (s : Py), (∀ o ∈ os, o.IsBuffer) →
      (∀ post, Vm.run P first fuel post σ = (Vm.run P first fuel post σ₀).map (fun r => (r.1, Vm.relog true σ.log r.2))) →
      runs P first fuel infos os ⟨σ, a⟩ = .ok (rs, s) →
      ∃ logs : List (List Vm.Hit), List.Forall₂ (Alone P first fuel σ₀) os logs ∧
        s.acc = logs.flatten.foldl (Acc.callback infos) a ∧
        rs = (List.range os.length).map fun i =>
          some ((logs.take (i + 1)).flatten.foldl (Acc.callback infos) a).hits.length := by
    intro os
    induction os with
    | nil =>
      intro σ a rs s _ _ h
      simp only [runs, Vm.Res.ok.injEq, Prod.mk.injEq] at h
      obtain ⟨rfl, rfl⟩ := h
      exact ⟨[], .nil, rfl, rfl⟩
    | cons o os ih =>
      intro σ a rs s hos hσ h
      have ho := hos o (by simp)
      simp only [runs] at h
      obtain ⟨⟨r, s1⟩, h1, h⟩ := Vm.bind_eq_ok.1 h
      obtain ⟨⟨rs', s2⟩, h2, h⟩ := Vm.bind_eq_ok.1 h
      simp only [Vm.Res.ok.injEq, Prod.mk.injEq] at h
      obtain ⟨rfl, rfl⟩ := h
      have one : ∃ τ rt, Vm.run P first fuel o.calls σ₀ = .ok (rt, τ) ∧
          s1 = ⟨Vm.relog true σ.log τ, τ.log.foldl (Acc.callback infos) a⟩ ∧ r = some s1.acc.hits.length := by
        have go : (do
            let (rs, σ') ← Vm.run P first fuel o.calls σ
            let acc := (σ'.log.drop σ.log.length).foldl (Acc.callback infos) a
            .ok (o.result rs acc, ⟨σ', acc⟩) : Vm.Res (Option Nat × Py)) = .ok (r, s1) → ∃ τ rt,
              Vm.run P first fuel o.calls σ₀ = .ok (rt, τ) ∧
              s1 = ⟨Vm.relog true σ.log τ, τ.log.foldl (Acc.callback infos) a⟩ ∧ r = some s1.acc.hits.length := by
          intro h1
          rw [hσ] at h1
          cases hr : Vm.run P first fuel o.calls σ₀ with
          | ub => rw [hr] at h1; simp at h1
          | fuel => rw [hr] at h1; simp at h1
          | ok x =>
            obtain ⟨rt, τ⟩ := x
            rw [hr] at h1
            simp only [Vm.map_okk, Vm.bind_ok, Vm.Res.ok.injEq, Prod.mk.injEq] at h1
            obtain ⟨rfl, rfl⟩ := h1
            refine ⟨τ, rt, rfl, ?_, ?_⟩
            · simp [Vm.relog]
            · cases o <;> simp only [Op.IsBuffer] at ho <;> rfl
        cases o <;> simp only [Op.IsBuffer] at ho
        all_goals exact go h1
      obtain ⟨τ, rt, e1, rfl, rfl⟩ := one
      obtain ⟨hA, hF⟩ := buffer_calls hnew ho e1
      obtain ⟨logs, l1, l2, l3⟩ := ih _ _ _ _ (fun o ho => hos o (by simp [ho])) (fun post => by
        rw [Vm.run_prefix, hF]
        cases Vm.run P first fuel post σ₀ <;> simp [Vm.relog]) h2
      refine ⟨τ.log :: logs, .cons hA l1, ?_, ?_⟩
      · rw [l2, List.flatten_cons, List.foldl_append]
      · rw [l3, List.length_cons, List.range_succ_eq_map, List.map_cons, List.map_map]
        simp [Function.comp_def]
  refine key os σ₀ a rs s hos (fun post => ?_) h
  rw [Vm.create_log hnew]
  cases Vm.run P first fuel post σ₀ <;> simp [Vm.relog]

example : ∃ first σ₀ rs s, Vm.create Vm.abProgram 10 = .ok (first, σ₀) ∧
    runs Vm.abProgram first 10 [⟨[97], [], 3⟩] [.searchBuffer [97, 98, 97], .searchBuffer [98], .searchBufferStartswith [97, 98, 97, 98]]
      ⟨σ₀, .empty⟩ = .ok (rs, s) ∧
    s.acc.hits = [⟨0, 2, 3, [97], []⟩, ⟨0, 2, 3, [97], []⟩] ∧ rs = [some 1, some 1, some 2] :=
  ⟨_, _, _, _, rfl, rfl, by decide, by decide⟩

/-- After a search that was not closed, `searchBuffer` is not a search of the buffer alone: it reports a
hit that begins in the earlier data. -/
theorem buffer_after_search : ∃ first σ₀ rs s, Vm.create Vm.abProgram 10 = .ok (first, σ₀) ∧
    runs Vm.abProgram first 10 [⟨[97], [], 3⟩] [.search [97] 0, .searchBuffer [98]] ⟨σ₀, .empty⟩ = .ok (rs, s) ∧
    s.acc.hits = [⟨0, 1, 3, [97], []⟩] :=
  ⟨_, _, _, _, rfl, rfl, by decide⟩

end Verif.Python
