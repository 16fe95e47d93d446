import Verif.CmdEngine
import Verif.Props.CmdLine
import Verif.Props.SearchCmd
import Verif.Props.PumpedText
/-!
# From the command line to the lines printed

**C96**.  The keywords of a command line become a program, and the inputs are searched with it.
`command_hits_partial` (keywords) and `file_hits_partial` (keyword files) compose what is proved of the parts: the options (C76), the parser and the rewriter
(C18, C58), the encoders (C65), the automaton, the compiler and the search (C54, C68) and the
command (C80).
-/
namespace Verif.Session
open Verif.Chain (Build)
open Verif.Parser (Env)
open Verif.Nfa (Graph)

theorem session_searches (bufs : List (List UInt8)) : ∀ off, Vm.Session off (Vm.searches off bufs) (off + bufs.flatten.length) := by
  induction bufs with
  | nil => intro off; exact .closeOut true (.nil off)
  | cons b bs ih =>
    intro off
    have := ih (off + b.length)
    rw [Nat.add_assoc, ← List.length_append] at this
    exact .search b off true (Nat.le_refl _) this

/-- **C67** for a stream in pieces: every hit is a match, at its place, of an accepted request. -/
theorem text_hits_at [Build] {env : Env} (he : env.Sound) {rs : List Request} {os : List (Option Nat)} {g : Graph}
    {P : Vm.Program} (h : Compiled env rs os g P)
    {fuel : Nat} {first : List Vm.Thread} {σ₀ : Vm.St} (hnew : Vm.create P fuel = .ok (first, σ₀))
    {off : Nat} {bufs : List (List UInt8)} {res : List (Option Nat)} {σ : Vm.St}
    (hrun : Vm.run P first fuel (Vm.searches off bufs) σ₀ = .ok (res, σ)) :
    ∀ x ∈ σ.log, ∃ (i : Nat) (r : Request), rs[i]? = some r ∧ os[i]? = some (some x.label) ∧
      MatchAt env r off bufs.flatten x.start x.end := by
  intro x hx
  obtain ⟨ps, hM, -⟩ := h.made' he
  obtain ⟨a, -, ⟨f, c⟩, -⟩ := hM.facts
  have hC := (Compiler.compiled_of_createProgram a c).1
  obtain ⟨b1, b2, b3⟩ := Vm.hit_windows_inside_data (Compiler.compiled_guarded hC) hnew (session_searches bufs off) hrun x hx
  obtain ⟨q, hq⟩ := Compiler.stream_searches bufs off (Compiler.holds_streamOf off bufs.flatten)
  obtain ⟨i, r, h1, h2, h3⟩ := (text_hits_match he h).2 hnew hq hrun x hx
  rw [Compiler.seg_streamOf b1 b3] at h3
  exact ⟨i, r, h1, h2, b1, b2, b3, h3⟩

end Verif.Session

namespace Verif.Handles
open Verif.Marshal (Info)
open Verif.Chain (Build FactoryOk)
open Verif.Session (Request State request requests addTree)
open Verif.Parser (Env)
open Verif.Regex
open Verif.Fsm (NoUnb)

/-! ## Specification -/

/-- What a command line asks for: each keyword in each encoding, with the options given. -/
def commandRequests (o : CmdOptions) : List Request :=
  o.patterns.flatMap fun p => o.encodings.map fun e => ⟨ofBytes p, ⟨o.literal, o.caseInsensitive, o.unicode⟩, ofBytes e⟩

/-- How the hits of each of these are to be labelled: the keyword, the encoding and the number of
the keyword. -/
def commandEntries (o : CmdOptions) : List Info :=
  o.patterns.zipIdx.flatMap fun p => o.encodings.map fun e => ⟨p.1, e, p.2⟩

/-- The places of the hits with this label. -/
def hitsFor (l : Nat) (hs : List Cmd.SHit) : List (Nat × Nat) := (hs.filter fun h => h.kw == l).map fun h => (h.start, h.stop)

/-! ## Proofs -/

theorem commandEntries_length (o : CmdOptions) : (commandEntries o).length = (commandRequests o).length := by
  unfold commandEntries commandRequests
  simp [List.length_flatMap]

/-- A request with what is written into the table of patterns. -/
abbrev Item := Info × Opts

def Item.req (x : Item) : Request := ⟨ofBytes x.1.pattern, ⟨x.2.fixed, x.2.caseInsensitive, x.2.unicode⟩, ofBytes x.1.chain⟩

def Item.calls (F : Front ParsedTree) (x : Item) : List (Call ParsedTree) :=
  match F.parse x.1.pattern x.2 with
  | none => []
  | some t => [.add 0 t x.1.pattern x.1.chain x.1.idx]

/-- No NUL. -/
def Item.Clean (x : Item) : Prop := cstr x.1.pattern = x.1.pattern ∧ cstr x.1.chain = x.1.chain

/-- The one FSM of the command. -/
def one (m : List Info) (G : Machine) : World Machine := ⟨[m], [some (G, 0)], []⟩

theorem one_add [Build] (fuel depth : Nat) (m : List Info) (G : Machine) (t : ParsedTree) {x : Item} (hx : x.Clean) :
    (step (realEngine fuel depth) (one m G) (.add 0 t x.1.pattern x.1.chain x.1.idx)).1 =
      match (realEngine fuel depth).add G t x.1.chain m.length with
      | (G', true) => one (m ++ [x.1]) G'
      | (G', false) => one m G' := by
  simp only [step, addPattern, one, List.getElem?_cons_zero, List.getD_cons_zero, hx.2]
  cases h : (realEngine fuel depth).add G t x.1.chain m.length with
  | mk g' b =>
    cases b with
    | false => simp
    | true =>
      have : ¬ (World.useCount ⟨[m], [some (G, 0)], []⟩ 0 > 1) := by simp [World.useCount, holds]
      simp [this, pushInfo, hx.1, hx.2]

theorem one_dead [Build] (fuel depth : Nat) {F : Front ParsedTree} : ∀ (xs : List Item) (m : List Info), (∀ x ∈ xs, x.Clean) →
    ∃ m', (runCalls (realEngine fuel depth) (one m none) (xs.flatMap (Item.calls F))).1 = one m' none
  | [], m, _ => ⟨m, rfl⟩
  | x :: xs, m, hx => by
    rw [List.flatMap_cons, runCalls_append]
    have h1 : ∃ m1, (runCalls (realEngine fuel depth) (one m none) (x.calls F)).1 = one m1 none := by
      unfold Item.calls
      split
      · exact ⟨m, rfl⟩
      · next t ht =>
        simp only [runCalls]
        rw [one_add fuel depth m none t (hx x (by simp))]
        exact ⟨m ++ [x.1], rfl⟩
    obtain ⟨m1, h1⟩ := h1
    rw [h1]
    exact one_dead fuel depth xs m1 fun y hy => hx y (by simp [hy])

/-- The calls for items are the requests for them. -/
theorem one_items [Build] (fuel depth : Nat) (env : Env) (cast : List Nat → Option Bool) : ∀ (xs : List Item) (m : List Info)
    (g : Nfa.Graph) (f : Chain.Factory), (∀ x ∈ xs, x.Clean) →
    (∃ m', (runCalls (realEngine fuel depth) (one m (some (g, f))) (xs.flatMap (Item.calls (realFront env cast)))).1 = one m' none ∧
      requests fuel env ⟨g, f, m.length⟩ (xs.map Item.req) = none) ∨
    ∃ g' f' m' os, (runCalls (realEngine fuel depth) (one m (some (g, f))) (xs.flatMap (Item.calls (realFront env cast)))).1 =
        one (m ++ m') (some (g', f')) ∧
      requests fuel env ⟨g, f, m.length⟩ (xs.map Item.req) = some (⟨g', f', (m ++ m').length⟩, os) ∧
      os.length = xs.length ∧
      ∀ (i : Nat) l, os[i]? = some (some l) → (m ++ m')[l]? = xs[i]?.map Prod.fst
  | [], m, g, f, _ => .inr ⟨g, f, [], [], by simp [runCalls], by simp [requests], rfl, by simp⟩
  | x :: xs, m, g, f, hx => by
    have hc := hx x (by simp)
    have hxs : ∀ y ∈ xs, y.Clean := fun y hy => hx y (by simp [hy])
    have key : (∃ m1, (runCalls (realEngine fuel depth) (one m (some (g, f))) (x.calls (realFront env cast))).1 = one m1 none ∧
          request fuel env ⟨g, f, m.length⟩ x.req = none) ∨
        (∃ g1 f1, (runCalls (realEngine fuel depth) (one m (some (g, f))) (x.calls (realFront env cast))).1 = one m (some (g1, f1)) ∧
          request fuel env ⟨g, f, m.length⟩ x.req = some (⟨g1, f1, m.length⟩, none)) ∨
        ∃ g1 f1, (runCalls (realEngine fuel depth) (one m (some (g, f))) (x.calls (realFront env cast))).1 =
            one (m ++ [x.1]) (some (g1, f1)) ∧
          request fuel env ⟨g, f, m.length⟩ x.req = some (⟨g1, f1, m.length + 1⟩, some m.length) := by
      unfold request Item.calls realFront
      simp only [Item.req]
      cases hp : Text.parseAndReduce env ⟨x.2.fixed, x.2.caseInsensitive, x.2.unicode⟩ (ofBytes x.1.pattern) with
      | error e =>
        by_cases he : e = .ub
        · subst he
          refine .inl ⟨m ++ [x.1], ?_, rfl⟩
          simp only [runCalls]
          rw [one_add fuel depth m _ none hc]
          rfl
        · refine .inr (.inl ⟨g, f, ?_, ?_⟩)
          · cases e <;> first | exact absurd rfl he | rfl
          · cases e <;> first | exact absurd rfl he | rfl
      | ok t =>
        simp only [runCalls]
        rw [one_add fuel depth m _ (some t) hc]
        simp only [realEngine]
        generalize ha : addTree fuel ⟨g, f, m.length⟩ (ofBytes x.1.chain) t = at'
        cases at' with
        | none => exact .inl ⟨m ++ [x.1], rfl, rfl⟩
        | some r =>
          obtain ⟨⟨g1, f1, n⟩, o⟩ := r
          have hn : (o = none ∧ n = m.length) ∨ (o = some m.length ∧ n = m.length + 1) := by
            unfold addTree at ha
            split at ha
            · cases ha; exact .inl ⟨rfl, rfl⟩
            · split at ha
              · simp only [Option.map_eq_some_iff, Prod.mk.injEq, State.mk.injEq] at ha
                obtain ⟨_, _, ⟨_, _, h⟩, h'⟩ := ha
                exact .inl ⟨h'.symm, h.symm⟩
              · simp only [Option.bind_eq_bind, Option.bind_eq_some_iff, Option.some.injEq] at ha
                obtain ⟨_, _, r, _, ha⟩ := ha
                split at ha
                · cases ha; exact .inr ⟨rfl, rfl⟩
                · cases ha; exact .inl ⟨rfl, rfl⟩
          rcases hn with ⟨rfl, rfl⟩ | ⟨rfl, rfl⟩
          · exact .inr (.inl ⟨g1, f1, rfl, rfl⟩)
          · exact .inr (.inr ⟨g1, f1, rfl, rfl⟩)
    rw [List.flatMap_cons, runCalls_append, List.map_cons, requests]
    rcases key with ⟨m1, h1, h2⟩ | ⟨g1, f1, h1, h2⟩ | ⟨g1, f1, h1, h2⟩
    · rw [h1, h2]
      obtain ⟨m', hm⟩ := one_dead fuel depth (F := realFront env cast) xs m1 hxs
      exact .inl ⟨m', hm, rfl⟩
    · rw [h1, h2]
      rcases one_items fuel depth env cast xs m g1 f1 hxs with ⟨m', a1, a2⟩ | ⟨g', f', m', os, a1, a2, a3, a4⟩
      · exact .inl ⟨m', a1, by simp [a2]⟩
      · refine .inr ⟨g', f', m', none :: os, a1, by simp [a2], by simp [a3], ?_⟩
        intro i l hi
        cases i with
        | zero => simp at hi
        | succ i => exact a4 i l (by simpa using hi)
    · rw [h1, h2]
      rcases one_items fuel depth env cast xs (m ++ [x.1]) g1 f1 hxs with ⟨m', a1, a2⟩ | ⟨g', f', m', os, a1, a2, a3, a4⟩
      · rw [List.length_append] at a2
        simp only [List.length_singleton] at a2
        exact .inl ⟨m', a1, by simp [a2]⟩
      · rw [List.length_append] at a2
        rw [List.append_assoc] at a1 a2 a4
        refine .inr ⟨g', f', [x.1] ++ m', some m.length :: os, a1, ?_, by simp [a3], ?_⟩
        · simp only [List.length_singleton] at a2
          simp [a2]
        · intro i l hi
          cases i with
          | zero =>
            simp only [List.getElem?_cons_zero, Option.some.injEq] at hi
            subst hi
            simp
          | succ i => exact a4 i l (by simpa using hi)

theorem cstr_clean {l : List Nat} (h : ∀ c ∈ l, c ≠ 0) : cstr l = l := by
  unfold cstr
  induction l with
  | nil => rfl
  | cons a l ih =>
    rw [List.takeWhile_cons_of_pos (by simpa using h a (by simp)), ih fun c hc => h c (by simp [hc])]

/-- The items of a command line. -/
def commandItems (o : CmdOptions) : Nat → List (List Nat) → List Item
  | _, [] => []
  | n, p :: ps => (o.encodings.map fun e => (⟨⟨p, e, n⟩, ⟨o.literal, o.caseInsensitive, o.unicode⟩⟩ : Item)) ++ commandItems o (n + 1) ps

theorem commandItems_calls (F : Front ParsedTree) (o : CmdOptions) : ∀ (ps : List (List Nat)) (n : Nat),
    cmdCalls F 0 o n ps = (commandItems o n ps).flatMap (Item.calls F)
  | [], n => rfl
  | p :: ps, n => by
    rw [cmdCalls, commandItems, List.flatMap_append, commandItems_calls F o ps (n + 1)]
    congr 1
    rw [List.flatMap_map]
    unfold Item.calls
    simp only
    cases F.parse p ⟨o.literal, o.caseInsensitive, o.unicode⟩ with
    | none => simp
    | some t => induction o.encodings with
      | nil => rfl
      | cons e es ih => simp [ih]

theorem commandItems_req (o : CmdOptions) : ∀ (ps : List (List Nat)) (n : Nat), (commandItems o n ps).map Item.req =
    ps.flatMap fun p => o.encodings.map fun e => ⟨ofBytes p, ⟨o.literal, o.caseInsensitive, o.unicode⟩, ofBytes e⟩
  | [], n => rfl
  | p :: ps, n => by
    rw [commandItems, List.map_append, commandItems_req o ps (n + 1), List.flatMap_cons, List.map_map]
    rfl

theorem commandItems_info (o : CmdOptions) : ∀ (ps : List (List Nat)) (n : Nat), (commandItems o n ps).map Prod.fst =
    (ps.zipIdx n).flatMap fun p => o.encodings.map fun e => ⟨p.1, e, p.2⟩
  | [], n => rfl
  | p :: ps, n => by
    rw [commandItems, List.map_append, commandItems_info o ps (n + 1), List.zipIdx_cons, List.flatMap_cons, List.map_map]
    rfl

theorem commandItems_clean {F : Front ParsedTree} {o : CmdOptions} (h : Sensible F o) : ∀ (ps : List (List Nat)) (n : Nat),
    (∀ p ∈ ps, Plain p) → ∀ x ∈ commandItems o n ps, x.Clean
  | [], n, _, x, hx => by cases hx
  | p :: ps, n, hp, x, hx => by
    rw [commandItems, List.mem_append] at hx
    rcases hx with hx | hx
    · obtain ⟨e, he, rfl⟩ := List.mem_map.1 hx
      exact ⟨cstr_clean fun c hc => ((hp p (by simp)).2 c hc).1, cstr_clean fun c hc => ((h.encodings e he).1.2 c hc).1⟩
    · exact commandItems_clean h ps (n + 1) (fun q hq => hp q (by simp [hq])) x hx

/-- The program made from items, in order. -/
theorem items_compiled [Build] {fuel depth : Nat} {env : Env} {cast : List Nat → Option Bool} {o : CmdOptions} {xs : List Item}
    (hf : (commandFsm fuel depth env cast o).1 =
      (runCalls (realEngine fuel depth) (one [] (some (.init, .init))) (xs.flatMap (Item.calls (realFront env cast)))).1)
    (hx : ∀ x ∈ xs, x.Clean) (hm : ∀ r ∈ xs.map Item.req, Session.Modest env r)
    {g : Nfa.Graph} {P : Vm.Program} {infos : List Info} (hc : commandProgram fuel depth env cast o = some (g, P, infos))
    (hd : depth = 0 ∨ g.n ≤ depth) (he : env.Sound) :
    ∃ os, Session.Compiled env (xs.map Item.req) os g P ∧ os.length = xs.length ∧
      ∀ (i : Nat) l, os[i]? = some (some l) → infos[l]? = (xs.map Prod.fst)[i]? := by
  unfold commandProgram at hc
  rw [hf] at hc
  rcases one_items fuel depth env cast xs [] .init .init hx with ⟨m', a1, -⟩ | ⟨g', f', m', os, a1, a2, a3, a4⟩
  · rw [a1] at hc; simp [one] at hc
  · rw [a1] at hc
    simp only [one, List.getElem?_cons_zero, List.nil_append, List.getD_cons_zero] at hc
    split at hc
    · next g2 hg2 =>
      split at hc
      · next P2 hP2 =>
        simp only [Option.some.injEq, Prod.mk.injEq] at hc
        obtain ⟨rfl, rfl, rfl⟩ := hc
        obtain ⟨ps, p1, p2, p3, -, p5⟩ := Session.requests_spec he _ hm Chain.factory_init a2
        have hps : Fsm.Patterns ps := by
          refine ⟨by rw [p3]; exact List.nodup_range', fun p hp => ?_⟩
          obtain ⟨i, r, -, -, ha⟩ := p5 p hp
          exact ha.sane
        refine ⟨os, ⟨hm, ⟨fuel, fuel, fuel, _, false, depth, a2, hg2, hP2⟩, Fsm.finalized_parallel hps p1 hg2 hd⟩, a3, ?_⟩
        intro i l hi
        rw [List.getElem?_map]
        exact a4 i l hi
      · cases hc
    · cases hc

/-- **C96**, the program.  The program of a command line is one for its keywords in its
encodings, and the entry under which hits with the label of an accepted keyword are shown is that
keyword's. -/
theorem command_compiled [Build] {fuel depth : Nat} {env : Env} {cast : List Nat → Option Bool} {o : CmdOptions}
    (h : Sensible (realFront env cast) o) (hn : o.patterns ≠ []) (hm : ∀ r ∈ commandRequests o, Session.Modest env r)
    {g : Nfa.Graph} {P : Vm.Program} {infos : List Info} (hc : commandProgram fuel depth env cast o = some (g, P, infos))
    (hd : depth = 0 ∨ g.n ≤ depth) (he : env.Sound) :
    ∃ os, Session.Compiled env (commandRequests o) os g P ∧ os.length = (commandRequests o).length ∧
      ∀ (i : Nat) l, os[i]? = some (some l) → infos[l]? = (commandEntries o)[i]? := by
  have hf : (commandFsm fuel depth env cast o).1 =
      (runCalls (realEngine fuel depth) (one [] (some (.init, .init))) ((commandItems o 0 o.patterns).flatMap
        (Item.calls (realFront env cast)))).1 := by
    unfold commandFsm
    rw [(command_line_partial (realEngine fuel depth) (realFront env cast) _ 0 h hn).1, commandItems_calls]
    rfl
  have hr : (commandItems o 0 o.patterns).map Item.req = commandRequests o := commandItems_req o _ _
  have hi : (commandItems o 0 o.patterns).map Prod.fst = commandEntries o := commandItems_info o _ _
  obtain ⟨os, h1, h2, h3⟩ := items_compiled hf (commandItems_clean h _ _ h.patterns) (hr ▸ hm) hc hd he
  rw [hr] at h1
  rw [hi] at h3
  exact ⟨os, h1, by rw [h2, ← hr, List.length_map], h3⟩

theorem reports_of (C : Cmd.Conf) (σ₀ : Vm.St) (v : Cmd.Visit) {σ : Vm.St}
    (h : (Cmd.reportsOf C σ₀ v).map Prod.snd = σ.log.map fun h => ⟨h.start, h.end, h.label⟩) (l : Nat) :
    hitsFor l ((Cmd.reportsOf C σ₀ v).map Prod.snd) = Vm.hitsOf l σ.log := by
  rw [h]
  unfold hitsFor Vm.hitsOf
  rw [List.filter_map, List.map_map]
  rfl

/-- What a program made from requests prints. -/
theorem compiled_hits [Build] {env : Env} (he : env.Sound) {rs : List Request} {es : List Info} (hl : es.length = rs.length)
    {os : List (Option Nat)} {g : Nfa.Graph} {P : Vm.Program} {infos : List Info} (hC : Session.Compiled env rs os g P)
    (hi : ∀ (i : Nat) l, os[i]? = some (some l) → infos[l]? = es[i]?)
    {C : Cmd.Conf} (hP : C.P = P) (hbs : 0 < C.blockSize)
    (hinfo : ∀ m c k i, infos[k]? = some i → (C.display m c).info k = ⟨i.pattern, i.chain, i.idx⟩)
    {σ₀ : Vm.St} (hnew : Vm.create C.P C.fuel = .ok (C.first, σ₀)) {w : Cmd.World} {lists inputs : List Cmd.Str} {s : Cmd.CmdSt}
    (hs : Cmd.searchCommand C w lists inputs σ₀ = .ok s) :
    let vs := Cmd.opened (Cmd.allVisits w C.mmap C.recursive lists inputs)
    s.out.text = Cmd.printed C.fmt (vs.flatMap (Cmd.linesOf C σ₀)) ∧
    ∀ v ∈ vs,
      (∀ x ∈ Cmd.reportsOf C σ₀ v, ∃ (i : Nat) (r : Request) (e : Info), rs[i]? = some r ∧
        es[i]? = some e ∧ os[i]? = some (some x.2.kw) ∧
        (C.display v.mapped v.content).info x.2.kw = ⟨e.pattern, e.chain, e.idx⟩ ∧
        Session.MatchAt env r 0 v.content x.2.start x.2.stop) ∧
      (¬ Session.Pumped env rs os → ∀ (i l : Nat) (r : Request), rs[i]? = some r →
        os[i]? = some (some l) → Session.Parsed env r NgFlat → Session.Parsed env r Regex.NoBlank →
        Compiler.Leftmost (Session.MatchAt env r 0 v.content) 0 (hitsFor l ((Cmd.reportsOf C σ₀ v).map Prod.snd))) := by
  subst hP
  obtain ⟨-, hv, ht, -⟩ := Cmd.inputs_searched_alone hnew hs
  refine ⟨ht, fun v hvm => ?_⟩
  obtain ⟨_, σ, hrun, hrep⟩ := hv v hvm
  obtain ⟨bufs, b1, b2⟩ := Cmd.fileCalls v.content hbs
  rw [b1] at hrun
  constructor
  · intro x hx
    have hx' : x.2 ∈ σ.log.map fun h => (⟨h.start, h.end, h.label⟩ : Cmd.SHit) := by
      rw [← hrep]; exact List.mem_map_of_mem hx
    obtain ⟨y, hy, hyx⟩ := List.mem_map.1 hx'
    obtain ⟨i, r, h1, h2, h3⟩ := Session.text_hits_at he hC hnew hrun y hy
    rw [← hyx]
    have h4 := hi i _ h2
    have h5 : i < es.length := by
      rw [hl]
      exact (List.getElem?_eq_some_iff.1 h1).1
    rw [List.getElem?_eq_getElem h5] at h4
    exact ⟨i, r, _, h1, List.getElem?_eq_getElem h5, h2, hinfo _ _ _ _ h4, b2 ▸ h3⟩
  · intro hu i l r h1 h2 h3 h4
    have := Session.unpumped_text_hits he hC hu hnew hrun h1 h2 h3 h4
    rwa [b2, ← reports_of C σ₀ v hrep] at this

/-- **C96**, the hits.  A search command with keywords on its command line prints a line for each
hit in each input.  Each hit is of a keyword in one of the encodings, shown with that keyword and
encoding, and its bytes match that.  And for each accepted keyword in an encoding the hits are its
leftmost matches in the input, for keywords without a branch that is only `{0}` before a bar and without non-greedy repetitions in
repetitions, unless a string could be repeated before every accepted keyword. -/
theorem command_hits_partial [Build] {fuel depth : Nat} {env : Env} (he : env.Sound) {cast : List Nat → Option Bool} {o : CmdOptions}
    (h : Sensible (realFront env cast) o) (hn : o.patterns ≠ []) (hm : ∀ r ∈ commandRequests o, Session.Modest env r)
    {g : Nfa.Graph} {P : Vm.Program} {infos : List Info} (hc : commandProgram fuel depth env cast o = some (g, P, infos))
    (hd : depth = 0 ∨ g.n ≤ depth) {C : Cmd.Conf} (hP : C.P = P) (hbs : 0 < C.blockSize)
    (hinfo : ∀ m c k i, infos[k]? = some i → (C.display m c).info k = ⟨i.pattern, i.chain, i.idx⟩)
    {σ₀ : Vm.St} (hnew : Vm.create C.P C.fuel = .ok (C.first, σ₀)) {w : Cmd.World} {lists inputs : List Cmd.Str} {s : Cmd.CmdSt}
    (hs : Cmd.searchCommand C w lists inputs σ₀ = .ok s) :
    ∃ os, os.length = (commandRequests o).length ∧
      let vs := Cmd.opened (Cmd.allVisits w C.mmap C.recursive lists inputs)
      s.out.text = Cmd.printed C.fmt (vs.flatMap (Cmd.linesOf C σ₀)) ∧
      ∀ v ∈ vs,
        (∀ x ∈ Cmd.reportsOf C σ₀ v, ∃ (i : Nat) (r : Request) (e : Info), (commandRequests o)[i]? = some r ∧
          (commandEntries o)[i]? = some e ∧ os[i]? = some (some x.2.kw) ∧
          (C.display v.mapped v.content).info x.2.kw = ⟨e.pattern, e.chain, e.idx⟩ ∧
          Session.MatchAt env r 0 v.content x.2.start x.2.stop) ∧
        (¬ Session.Pumped env (commandRequests o) os → ∀ (i l : Nat) (r : Request), (commandRequests o)[i]? = some r →
          os[i]? = some (some l) → Session.Parsed env r NgFlat → Session.Parsed env r Regex.NoBlank →
          Compiler.Leftmost (Session.MatchAt env r 0 v.content) 0 (hitsFor l ((Cmd.reportsOf C σ₀ v).map Prod.snd))) := by
  obtain ⟨os, hC, hl, hi⟩ := command_compiled h hn hm hc hd he
  exact ⟨os, hl, compiled_hits he (commandEntries_length o) hC hi hP hbs hinfo hnew hs⟩

/-! ## Keyword files -/

/-- What one line of a keyword file asks for: its keyword in each of its encodings, with its
options.  Encodings and options it does not give are those of the command line.  `none` if an
option is not a truth value. -/
noncomputable def lineItems (F : Front ParsedTree) (defEncs : List (List Nat)) (o : Opts) (n : Nat) (line : List Nat) :
    Option (List Item) :=
  let cols := pieces (· == 9) line
  if lineBlank defEncs cols = true then some []
  else (lineOpts F o (cols.drop 2)).map fun o' => (lineEncs defEncs cols).map fun enc => (⟨cols.getD 0 [], enc, n⟩, o')

/-- What the lines ask for, up to the first with a bad option. -/
noncomputable def listItems (F : Front ParsedTree) (defEncs : List (List Nat)) (o : Opts) : Nat → List (List Nat) → List Item
  | _, [] => []
  | n, line :: lines =>
    match lineItems F defEncs o n line with
    | none => []
    | some xs => xs ++ listItems F defEncs o (n + 1) lines

/-- What the keyword files ask for that can be opened, in order. -/
noncomputable def fileItems (env : Env) (cast : List Nat → Option Bool) (o : CmdOptions) : List Item :=
  (o.files.filterMap id).flatMap fun text =>
    listItems (realFront env cast) o.encodings ⟨o.literal, o.caseInsensitive, o.unicode⟩ 0 (textLines text)

theorem lineItems_calls (F : Front ParsedTree) (defEncs : List (List Nat)) (o : Opts) (n : Nat) (line : List Nat) :
    lineCalls F 0 defEncs o n line = (lineItems F defEncs o n line).map fun xs => xs.flatMap (Item.calls F) := by
  unfold lineCalls lineItems
  simp only
  split
  · rfl
  · cases lineOpts F o ((pieces (· == 9) line).drop 2) with
    | none => rfl
    | some o' =>
      simp only [Option.map_some, Option.some.injEq]
      generalize lineEncs defEncs (pieces (· == 9) line) = es
      generalize (pieces (· == 9) line).getD 0 [] = p
      induction es with
      | nil => cases F.parse p o' <;> rfl
      | cons e es ih =>
        rw [List.map_cons, List.flatMap_cons, ← ih]
        unfold Item.calls
        cases F.parse p o' <;> rfl

theorem listItems_calls (F : Front ParsedTree) (defEncs : List (List Nat)) (o : Opts) : ∀ (lines : List (List Nat)) (n : Nat),
    listCalls F 0 defEncs o n lines = (listItems F defEncs o n lines).flatMap (Item.calls F)
  | [], n => rfl
  | line :: lines, n => by
    rw [listCalls, listItems, lineItems_calls]
    cases lineItems F defEncs o n line with
    | none => rfl
    | some xs => simp [List.flatMap_append, listItems_calls F defEncs o lines (n + 1)]

theorem tokGo_subset {sep : Nat → Bool} : ∀ (l cur p : List Nat), p ∈ tokGo sep l cur → ∀ c ∈ p, c ∈ cur ∨ c ∈ l
  | [], cur, p, h, c, hc => by
    unfold tokGo at h
    split at h
    · cases h
    · rw [List.mem_singleton] at h; exact .inl (h ▸ hc)
  | a :: l, cur, p, h, c, hc => by
    unfold tokGo at h
    split at h
    · split at h
      · rcases tokGo_subset l [] p h c hc with h | h
        · cases h
        · exact .inr (List.mem_cons_of_mem _ h)
      · rcases List.mem_cons.1 h with rfl | h
        · exact .inl hc
        · rcases tokGo_subset l [] p h c hc with h | h
          · cases h
          · exact .inr (List.mem_cons_of_mem _ h)
    · rcases tokGo_subset l _ p h c hc with h | h
      · rcases List.mem_append.1 h with h | h
        · exact .inl h
        · rw [List.mem_singleton] at h; exact .inr (h ▸ List.mem_cons_self)
      · exact .inr (List.mem_cons_of_mem _ h)

theorem piece_subset {sep : Nat → Bool} {l p : List Nat} (h : p ∈ pieces sep l) : p ⊆ l := by
  rw [← tokens_eq] at h
  intro c hc
  rcases tokGo_subset l [] p h c hc with h | h
  · cases h
  · exact h

theorem lineItems_clean {F : Front ParsedTree} {defEncs : List (List Nat)} (hd : ∀ e ∈ defEncs, 0 ∉ e) {o : Opts} {n : Nat}
    {line : List Nat} (hl : 0 ∉ line) {xs : List Item} (h : lineItems F defEncs o n line = some xs) : ∀ x ∈ xs, x.Clean := by
  have clean : ∀ {a : List Nat}, 0 ∉ a → cstr a = a := fun ha => cstr_clean fun c hc h0 => ha (h0 ▸ hc)
  have col : ∀ p ∈ pieces (· == 9) line, 0 ∉ p := fun p hp h0 => hl (piece_subset hp h0)
  unfold lineItems at h
  simp only at h
  split at h
  · cases h; simp
  · simp only [Option.map_eq_some_iff] at h
    obtain ⟨o', -, rfl⟩ := h
    intro x hx
    obtain ⟨e, he, rfl⟩ := List.mem_map.1 hx
    constructor
    · apply clean
      cases hp : pieces (· == 9) line with
      | nil => simp
      | cons p ps => exact col p (by rw [hp]; simp)
    · apply clean
      show 0 ∉ e
      unfold lineEncs at he
      split at he
      · exact hd e he
      · next el hel => exact fun h0 => col el (List.mem_of_getElem? hel) (piece_subset he h0)

theorem listItems_clean {F : Front ParsedTree} {defEncs : List (List Nat)} (hd : ∀ e ∈ defEncs, 0 ∉ e) {o : Opts} :
    ∀ (lines : List (List Nat)) (n : Nat), (∀ l ∈ lines, 0 ∉ l) → ∀ x ∈ listItems F defEncs o n lines, x.Clean
  | [], n, _, x, hx => by cases hx
  | line :: lines, n, hl, x, hx => by
    rw [listItems] at hx
    cases h : lineItems F defEncs o n line with
    | none => rw [h] at hx; cases hx
    | some xs =>
      rw [h] at hx
      rcases List.mem_append.1 hx with hx | hx
      · exact lineItems_clean hd (hl line (by simp)) h x hx
      · exact listItems_clean hd lines (n + 1) (fun l h => hl l (by simp [h])) x hx

theorem fileItems_clean {env : Env} {cast : List Nat → Option Bool} {o : CmdOptions} (hd : ∀ e ∈ o.encodings, 0 ∉ e) :
    ∀ x ∈ fileItems env cast o, x.Clean := by
  intro x hx
  obtain ⟨text, -, hx⟩ := List.mem_flatMap.1 hx
  refine listItems_clean hd _ _ (fun l hl h0 => ?_) x hx
  have := piece_subset hl h0
  unfold cstr at this
  have := List.all_eq_true.1 (List.all_takeWhile (p := fun b => decide (b ≠ 0)) (l := text)) 0 this
  simp at this

/-- **C96** for keyword files, the program. -/
theorem files_compiled [Build] {fuel depth : Nat} {env : Env} {cast : List Nat → Option Bool} {o : CmdOptions}
    (hn : o.patterns = []) (hz : ∀ e ∈ o.encodings, 0 ∉ e) (hm : ∀ r ∈ (fileItems env cast o).map Item.req, Session.Modest env r)
    {g : Nfa.Graph} {P : Vm.Program} {infos : List Info} (hc : commandProgram fuel depth env cast o = some (g, P, infos))
    (hd : depth = 0 ∨ g.n ≤ depth) (he : env.Sound) :
    ∃ os, Session.Compiled env ((fileItems env cast o).map Item.req) os g P ∧ os.length = (fileItems env cast o).length ∧
      ∀ (i : Nat) l, os[i]? = some (some l) → infos[l]? = ((fileItems env cast o).map Prod.fst)[i]? := by
  refine items_compiled ?_ (fileItems_clean hz) hm hc hd he
  unfold commandFsm
  rw [files_in_order (realEngine fuel depth) (realFront env cast) 0 hn]
  unfold fileItems
  rw [List.flatMap_assoc]
  simp only [listItems_calls]
  rfl

/-- **C96** for keyword files, the hits.  A search command with keyword files prints a line for each
hit in each input.  Each hit is of the keyword of a line of a file in one of its encodings, shown
with that keyword and encoding and the number of the line, and its bytes match that.  And for each
accepted keyword in an encoding the hits are its leftmost matches in the input, with the exceptions
of `command_hits_partial`. -/
theorem file_hits_partial [Build] {fuel depth : Nat} {env : Env} (he : env.Sound) {cast : List Nat → Option Bool} {o : CmdOptions}
    (hn : o.patterns = []) (hz : ∀ e ∈ o.encodings, 0 ∉ e) (hm : ∀ r ∈ (fileItems env cast o).map Item.req, Session.Modest env r)
    {g : Nfa.Graph} {P : Vm.Program} {infos : List Info} (hc : commandProgram fuel depth env cast o = some (g, P, infos))
    (hd : depth = 0 ∨ g.n ≤ depth) {C : Cmd.Conf} (hP : C.P = P) (hbs : 0 < C.blockSize)
    (hinfo : ∀ m c k i, infos[k]? = some i → (C.display m c).info k = ⟨i.pattern, i.chain, i.idx⟩)
    {σ₀ : Vm.St} (hnew : Vm.create C.P C.fuel = .ok (C.first, σ₀)) {w : Cmd.World} {lists inputs : List Cmd.Str} {s : Cmd.CmdSt}
    (hs : Cmd.searchCommand C w lists inputs σ₀ = .ok s) :
    ∃ os, os.length = (fileItems env cast o).length ∧
      let vs := Cmd.opened (Cmd.allVisits w C.mmap C.recursive lists inputs)
      s.out.text = Cmd.printed C.fmt (vs.flatMap (Cmd.linesOf C σ₀)) ∧
      ∀ v ∈ vs,
        (∀ x ∈ Cmd.reportsOf C σ₀ v, ∃ (i : Nat) (y : Item), (fileItems env cast o)[i]? = some y ∧ os[i]? = some (some x.2.kw) ∧
          (C.display v.mapped v.content).info x.2.kw = ⟨y.1.pattern, y.1.chain, y.1.idx⟩ ∧
          Session.MatchAt env y.req 0 v.content x.2.start x.2.stop) ∧
        (¬ Session.Pumped env ((fileItems env cast o).map Item.req) os → ∀ (i l : Nat) (y : Item), (fileItems env cast o)[i]? = some y →
          os[i]? = some (some l) → Session.Parsed env y.req NgFlat → Session.Parsed env y.req Regex.NoBlank →
          Compiler.Leftmost (Session.MatchAt env y.req 0 v.content) 0 (hitsFor l ((Cmd.reportsOf C σ₀ v).map Prod.snd))) := by
  obtain ⟨os, hC, hl, hi⟩ := files_compiled hn hz hm hc hd he
  obtain ⟨h1, h2⟩ := compiled_hits he (by simp) hC hi hP hbs hinfo hnew hs
  refine ⟨os, hl, h1, fun v hv => ⟨fun x hx => ?_, fun hu i l y hy ho h3 h4 => ?_⟩⟩
  · obtain ⟨i, r, e, a1, a2, a3, a4, a5⟩ := (h2 v hv).1 x hx
    rw [List.getElem?_map] at a1 a2
    cases hy : (fileItems env cast o)[i]? with
    | none => rw [hy] at a1; cases a1
    | some y =>
      rw [hy] at a1 a2
      cases a1
      cases a2
      exact ⟨i, y, hy, a3, a4, a5⟩
  · exact (h2 v hv).2 hu i l y.req (by rw [List.getElem?_map, hy]; rfl) ho h3 h4

/-! ## Example -/

section
attribute [local instance] Build.plain

def exCast (c : List Nat) : Option Bool := if c = [49] then some true else if c = [48] then some false else none

/-- `-p ab -p c -e ASCII -e UTF-16LE` -/
def exCommand : CmdOptions :=
  ⟨[[97, 98], [99]], [], [[65, 83, 67, 73, 73], [85, 84, 70, 45, 49, 54, 76, 69]], false, false, false⟩

theorem exCommand_sensible : Sensible (realFront Parser.plain exCast) exCommand := by
  refine ⟨?_, by simp [exCommand], ?_, rfl, rfl⟩
  · intro p hp
    simp only [exCommand, List.mem_cons, List.not_mem_nil, or_false] at hp
    rcases hp with rfl | rfl <;> simp [Plain]
  · intro p hp
    simp only [exCommand, List.mem_cons, List.not_mem_nil, or_false] at hp
    rcases hp with rfl | rfl <;> simp [Plain]

theorem exCommand_parsed : ∀ r ∈ commandRequests exCommand, ∃ t j, Text.parseText Parser.plain r.opts r.expr = .ok (t, j) ∧
    weight t ≤ 4 ∧ NgFlat t ∧ NoDead t ∧ NoUnb t := by
  intro r hr
  simp only [commandRequests, exCommand, List.flatMap_cons, List.flatMap_nil, List.map_cons, List.map_nil,
    List.append_nil, List.mem_append, List.mem_cons, List.not_mem_nil, or_false] at hr
  rcases hr with (rfl | rfl) | rfl | rfl
  · obtain ⟨j, h⟩ := Session.parsesTo_iff (env := Parser.plain) (r := ⟨ofBytes [97, 98], ⟨false, false, false⟩, ofBytes [65, 83, 67, 73, 73]⟩)
      (t := .cat (.leaf (.lit 97)) (.leaf (.lit 98))) (by decide +kernel)
    exact ⟨_, j, h, by simp [weight], by simp [NgFlat], by simp [NoDead], by simp [NoUnb]⟩
  · obtain ⟨j, h⟩ := Session.parsesTo_iff (env := Parser.plain) (r := ⟨ofBytes [97, 98], ⟨false, false, false⟩, ofBytes [85, 84, 70, 45, 49, 54, 76, 69]⟩)
      (t := .cat (.leaf (.lit 97)) (.leaf (.lit 98))) (by decide +kernel)
    exact ⟨_, j, h, by simp [weight], by simp [NgFlat], by simp [NoDead], by simp [NoUnb]⟩
  · obtain ⟨j, h⟩ := Session.parsesTo_iff (env := Parser.plain) (r := ⟨ofBytes [99], ⟨false, false, false⟩, ofBytes [65, 83, 67, 73, 73]⟩)
      (t := .leaf (.lit 99)) (by decide +kernel)
    exact ⟨_, j, h, by simp [weight], by simp [NgFlat], by simp [NoDead], by simp [NoUnb]⟩
  · obtain ⟨j, h⟩ := Session.parsesTo_iff (env := Parser.plain) (r := ⟨ofBytes [99], ⟨false, false, false⟩, ofBytes [85, 84, 70, 45, 49, 54, 76, 69]⟩)
      (t := .leaf (.lit 99)) (by decide +kernel)
    exact ⟨_, j, h, by simp [weight], by simp [NgFlat], by simp [NoDead], by simp [NoUnb]⟩

theorem exCommand_modest : ∀ r ∈ commandRequests exCommand, Session.Modest Parser.plain r := by
  intro r hr
  obtain ⟨t, j, h1, h2, -⟩ := exCommand_parsed r hr
  refine ⟨Session.parsed_of h1 (by simp only [UNB]; omega), ?_⟩
  simp only [commandRequests, exCommand, List.flatMap_cons, List.flatMap_nil, List.map_cons, List.map_nil,
    List.append_nil, List.mem_append, List.mem_cons, List.not_mem_nil, or_false] at hr
  rcases hr with (rfl | rfl) | rfl | rfl <;> decide

set_option maxRecDepth 10000 in
theorem exCommand_program : ∃ g P infos, commandProgram 40 4294967295 Parser.plain exCast exCommand = some (g, P, infos) ∧
    g.n ≤ 4294967295 ∧ infos = commandEntries exCommand := by
  have h : (match commandProgram 40 4294967295 Parser.plain exCast exCommand with
      | some (g, _, infos) => decide (g.n ≤ 100) && decide (infos = commandEntries exCommand)
      | none => false) = true := by decide +kernel
  cases h1 : commandProgram 40 4294967295 Parser.plain exCast exCommand with
  | none => rw [h1] at h; cases h
  | some x =>
    obtain ⟨g, P, infos⟩ := x
    simp only [h1, Bool.and_eq_true, decide_eq_true_eq] at h
    exact ⟨g, P, infos, rfl, by omega, h.2⟩

/-- The hypotheses of C96 are met: the command makes a program and searches files and standard
input with it. -/
example : ∃ g P infos C σ₀ s, commandProgram 40 4294967295 Parser.plain exCast exCommand = some (g, P, infos) ∧
    g.n ≤ 4294967295 ∧ C.P = P ∧ 0 < C.blockSize ∧
    (∀ m c k i, infos[k]? = some i → (C.display m c).info k = ⟨i.pattern, i.chain, i.idx⟩) ∧
    Vm.create C.P C.fuel = .ok (C.first, σ₀) ∧
    Cmd.searchCommand C Cmd.exWorld [] [[102], [100], Cmd.dash] σ₀ = .ok s ∧
    ∀ os, os[2]? = some (some 2) → ¬ Session.Pumped Parser.plain (commandRequests exCommand) os := by
  obtain ⟨g, P, infos, h1, h2, h3⟩ := exCommand_program
  obtain ⟨os, hC, -⟩ := command_compiled exCommand_sensible (by simp [exCommand]) exCommand_modest h1 (.inr h2) Parser.plain_sound
  obtain ⟨ps, hM, -⟩ := hC.made' Parser.plain_sound
  obtain ⟨a, b, ⟨f, c⟩, -⟩ := hM.facts
  obtain ⟨first, σ₀, -, -, h0, -⟩ := Compiler.compiled_never_out_of_bounds a b.labelled c (fuel := 2 * g.n + 9) (Nat.le_refl _) []
  let C : Cmd.Conf := ⟨P, first, 2 * g.n + 9, ⟨⟨true, false, true⟩, [45, 45], false⟩,
    fun _ _ => ⟨fun _ _ => none, fun k => let i := infos.getD k ⟨[], [], 0⟩; ⟨i.pattern, i.chain, i.idx⟩⟩, 4, false, true⟩
  obtain ⟨s, hs, -⟩ := Cmd.command_ends (C := C) a b c (Nat.le_refl _) h0 (show (0 : Nat) < 4 by decide) Cmd.exWorld []
    [[102], [100], Cmd.dash]
  refine ⟨g, P, infos, C, σ₀, s, h1, h2, rfl, show (0 : Nat) < 4 by decide, ?_, h0, hs, ?_⟩
  · intro m c k i hk
    show (let i := infos.getD k ⟨[], [], 0⟩; (⟨i.pattern, i.chain, i.idx⟩ : Cmd.Info)) = _
    rw [List.getD_eq_getElem?_getD, hk]
    rfl
  · intro os h2
    have hr : (commandRequests exCommand)[2]? = some ⟨ofBytes [99], ⟨false, false, false⟩, ofBytes [65, 83, 67, 73, 73]⟩ := rfl
    obtain ⟨t, j, p1, -, p3, p4, p5⟩ := exCommand_parsed _ (List.mem_of_getElem? hr)
    refine Session.unpumped_of_bounded hr h2 (Session.parsed_of p1 p3) (Session.parsed_of p1 p4.noBlank) (Session.parsed_of p1 p5)
      (w := [99]) ?_
    obtain ⟨j, h⟩ := Session.parsesTo_iff (env := Parser.plain) (r := ⟨ofBytes [99], ⟨false, false, false⟩, ofBytes [65, 83, 67, 73, 73]⟩)
      (t := .leaf (.lit 99)) (by decide +kernel)
    refine ⟨_, j, .std .ascii, [], h, Session.ascii_reads, ?_⟩
    exact ⟨by simp [Session.charBytes, Chain.Coding.spec, Decoders.Charset.spec], by
      simp [Session.charBytes, Chain.Coding.spec, Decoders.Charset.spec, Encoders.toBytes, Transforms.applyAll]⟩

/-- `-k` of a file with the lines `ab` and `c<tab>UTF-16LE<tab>1`, a file that cannot be opened
and one with the line `c`; `-e ASCII` -/
def exFiles : CmdOptions :=
  ⟨[], [some [97, 98, 10, 99, 9, 85, 84, 70, 45, 49, 54, 76, 69, 9, 49], none, some [99, 13, 10]], [[65, 83, 67, 73, 73]], false, false, false⟩

theorem exFiles_items : fileItems Parser.plain exCast exFiles =
    [(⟨[97, 98], [65, 83, 67, 73, 73], 0⟩, ⟨false, false, false⟩),
      (⟨[99], [85, 84, 70, 45, 49, 54, 76, 69], 1⟩, ⟨true, false, false⟩),
      (⟨[99], [65, 83, 67, 73, 73], 0⟩, ⟨false, false, false⟩)] := by
  unfold fileItems
  rw [show exFiles.files.filterMap id = [[97, 98, 10, 99, 9, 85, 84, 70, 45, 49, 54, 76, 69, 9, 49], [99, 13, 10]] from rfl]
  simp only [exFiles, textLines, ← tokens_eq, List.flatMap_cons, List.flatMap_nil]
  rw [show tokens (fun c => c == 10 || c == 13) (cstr [97, 98, 10, 99, 9, 85, 84, 70, 45, 49, 54, 76, 69, 9, 49]) =
      [[97, 98], [99, 9, 85, 84, 70, 45, 49, 54, 76, 69, 9, 49]] by decide +kernel,
    show tokens (fun c => c == 10 || c == 13) (cstr [99, 13, 10]) = [[99]] by decide +kernel]
  simp only [listItems, lineItems, lineBlank, lineEncs, lineOpts, ← tokens_eq]
  rw [show tokens (fun c => c == 9) [97, 98] = [[97, 98]] by decide +kernel,
    show tokens (fun c => c == 9) [99, 9, 85, 84, 70, 45, 49, 54, 76, 69, 9, 49] =
      [[99], [85, 84, 70, 45, 49, 54, 76, 69], [49]] by decide +kernel,
    show tokens (fun c => c == 9) [99] = [[99]] by decide +kernel]
  simp only [List.getElem?_cons_succ, List.getElem?_cons_zero, List.getElem?_nil]
  rw [show tokens (fun c => c == 44) [85, 84, 70, 45, 49, 54, 76, 69] = [[85, 84, 70, 45, 49, 54, 76, 69]] by decide +kernel]
  rfl

set_option maxRecDepth 10000 in
/-- The hypotheses of C96 for keyword files are met. -/
example : exFiles.patterns = [] ∧ (∀ e ∈ exFiles.encodings, 0 ∉ e) ∧
    (∀ r ∈ (fileItems Parser.plain exCast exFiles).map Item.req, Session.Modest Parser.plain r) ∧
    ∃ g P infos, commandProgram 40 4294967295 Parser.plain exCast exFiles = some (g, P, infos) ∧ g.n ≤ 4294967295 ∧
      infos = (fileItems Parser.plain exCast exFiles).map Prod.fst := by
  refine ⟨rfl, by simp [exFiles], ?_, ?_⟩
  · rw [exFiles_items]
    intro r hr
    simp only [List.map_cons, List.map_nil, List.mem_cons, List.not_mem_nil, or_false, Item.req] at hr
    rcases hr with rfl | rfl | rfl
    · obtain ⟨j, h⟩ := Session.parsesTo_iff (env := Parser.plain) (r := ⟨ofBytes [97, 98], ⟨false, false, false⟩, ofBytes [65, 83, 67, 73, 73]⟩)
        (t := .cat (.leaf (.lit 97)) (.leaf (.lit 98))) (by decide +kernel)
      exact ⟨Session.parsed_of h (by simp [weight, UNB]), by decide⟩
    · obtain ⟨j, h⟩ := Session.parsesTo_iff (env := Parser.plain) (r := ⟨ofBytes [99], ⟨true, false, false⟩, ofBytes [85, 84, 70, 45, 49, 54, 76, 69]⟩)
        (t := .leaf (.lit 99)) (by decide +kernel)
      exact ⟨Session.parsed_of h (by simp [weight, UNB]), by decide⟩
    · obtain ⟨j, h⟩ := Session.parsesTo_iff (env := Parser.plain) (r := ⟨ofBytes [99], ⟨false, false, false⟩, ofBytes [65, 83, 67, 73, 73]⟩)
        (t := .leaf (.lit 99)) (by decide +kernel)
      exact ⟨Session.parsed_of h (by simp [weight, UNB]), by decide⟩
  · have h : (match commandProgram 40 4294967295 Parser.plain exCast exFiles with
        | some (g, _, infos) => decide (g.n ≤ 100) && decide (infos = [⟨[97, 98], [65, 83, 67, 73, 73], 0⟩,
            ⟨[99], [85, 84, 70, 45, 49, 54, 76, 69], 1⟩, ⟨[99], [65, 83, 67, 73, 73], 0⟩])
        | none => false) = true := by decide +kernel
    rw [exFiles_items]
    cases h1 : commandProgram 40 4294967295 Parser.plain exCast exFiles with
    | none => rw [h1] at h; cases h
    | some x =>
      obtain ⟨g, P, infos⟩ := x
      simp only [h1, Bool.and_eq_true, decide_eq_true_eq] at h
      exact ⟨g, P, infos, rfl, by omega, h.2⟩
end

end Verif.Handles
