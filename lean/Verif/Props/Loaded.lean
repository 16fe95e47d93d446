import Verif.Loaded
import Verif.Props.Stored
import Verif.Props.Session
/-!
# C100: a program that was written and read back is the program that was written

`kept_buffer_partial`: as long as the buffer is neither changed nor given back, a handle read
from it has the patterns and the program that were written, whatever else happens.
`session_program_kept_partial`: this holds for every program compiled from patterns.
`program_file_dangles`: the command's `--program-file` gives the buffer back before the search
starts, so that no instruction and no pattern of the handle can be read.
-/
namespace Verif.Loaded

open Verif.Vm (Program)
open Verif.Marshal

/-! ## Specification -/

/-- The operation neither writes to block `k` nor gives it back. -/
def Leaves (k : Nat) : Op → Prop
  | .store k' _ _ => k' ≠ k
  | .free k' => k' ≠ k
  | _ => True

/-- The operation does not destroy handle `q`. -/
def Keeps (q : Nat) : Op → Prop
  | .destroy q' => q' ≠ q
  | _ => True

/-- The bytes written fit in an `int` and in the address space from `base` on; pattern texts,
chains and indices are C strings and 64-bit numbers. -/
structure Fits (ps : List Info) (P : Program) (base : Nat) : Prop where
  infos : ∀ p ∈ ps, p.Storable
  size : (writeProgram ps P).length < 2 ^ 31
  room : base + (writeProgram ps P).length < 2 ^ 64

/-! ## Reading -/

theorem mapM_iff {α β : Type} {f : α → Option β} : ∀ (l : List α) (r : List β),
    l.mapM f = some r ↔ l.map f = r.map some := by
  intro l
  induction l with
  | nil => intro r; cases r <;> simp
  | cons a l ih =>
    intro r
    rw [List.mapM_cons]
    cases hf : f a with
    | none => cases r <;> simp [hf]
    | some b =>
      cases r with
      | nil =>
        cases hl : l.mapM f <;> simp
      | cons c r =>
        simp only [Option.bind_eq_bind, Option.bind_some, List.map_cons, List.cons.injEq, Option.some.injEq, hf]
        constructor
        · intro h
          cases hl : l.mapM f with
          | none => simp [hl] at h
          | some r' =>
            simp [hl] at h
            obtain ⟨rfl, rfl⟩ := h
            exact ⟨rfl, (ih _).1 hl⟩
        · rintro ⟨rfl, h⟩
          rw [(ih r).2 h]; rfl

theorem mapM_range {α β : Type} {f : α → Option β} (l : List α) (r : List β) (h : l.mapM f = some r) :
    (List.range l.length).mapM (fun i => (l[i]?).bind f) = some r := by
  rw [mapM_iff] at h ⊢
  rw [← h]
  apply List.ext_getElem?
  intro i
  by_cases hi : i < l.length
  · simp [hi]
  · simp [hi]

theorem refsLoop_eq {mem : List Nat} {e : Nat} : ∀ (n i : Nat) (ps : List Info), unmarshallLoop mem e n i = some ps →
    ∃ rs, refsLoop mem e n i = some rs ∧ rs.mapM (readRef mem) = some ps := by
  intro n
  induction n with
  | zero => intro i ps h; simp [unmarshallLoop] at h
  | succ n ih =>
    intro i ps h
    unfold unmarshallLoop at h
    unfold refsLoop
    by_cases hi : i < e
    · rw [if_pos hi] at h ⊢
      simp only [Option.bind_eq_bind, Option.bind_eq_some_iff] at h
      obtain ⟨pl, h1, cl, h2, x, h3, rest, h4, h5⟩ := h
      obtain ⟨rs, r1, r2⟩ := ih _ _ h4
      simp only [Option.pure_def, Option.some.injEq] at h5
      refine ⟨⟨i, i + pl + 1, x⟩ :: rs, by simp [h1, h2, h3, r1], ?_⟩
      rw [List.mapM_cons]
      simp [readRef, stringAt, h1, h2, r2, ← h5]
    · rw [if_neg hi] at h ⊢
      simp only [Option.some.injEq] at h
      subst h
      exact ⟨[], rfl, rfl⟩

/-- What is true of a handle read from memory `m`, about what it points to. -/
structure Points (m : List Nat) (h : Handle) (ps : List Info) (P : Program) : Prop where
  refs : h.refs.mapM (readRef m) = some ps
  code : (List.range h.count).mapM (fun pc => load m 4 (h.code + 4 * pc)) = some P.code
  maxLabel : h.maxLabel = P.maxLabel
  maxCheck : h.maxCheck = P.maxCheck
  filterOff : h.filterOff = P.filterOff
  filter : h.filter = P.filter

theorem attachProg_eq {m : List Nat} {k : Nat} {refs : List Ref} {i len : Nat} {P : Program}
    (h : unmarshallProg m i len = some P) {ps : List Info} (hr : refs.mapM (readRef m) = some ps) :
    ∃ a, attachProg k refs m i len = some a ∧ a.block = k ∧ Points m a ps P := by
  unfold unmarshallProg at h
  unfold attachProg
  dsimp only at h ⊢
  split at h
  · next hb =>
    rw [if_pos hb]
    simp only [Option.bind_eq_bind, Option.bind_eq_some_iff, Option.pure_def, Option.some.injEq] at h
    obtain ⟨ml, h1, mc, h2, fo, h3, rfl⟩ := h
    simp only [h1, h2, h3, Option.bind_eq_bind, Option.bind_some, Option.pure_def]
    refine ⟨_, rfl, rfl, hr, ?_, rfl, rfl, rfl, rfl⟩
    rw [mapM_iff, List.map_map]
    apply List.map_congr_left
    intro pc hpc
    rw [List.mem_range] at hpc
    dsimp only at hpc ⊢
    unfold load
    rw [if_pos (by omega)]
    rfl
  · cases h

theorem attach_eq {m : List Nat} {k base : Nat} {ps : List Info} {P : Program} (h : readProgram base m = .ok ps P) :
    ∃ a, attach k base m = .ok a ∧ a.block = k ∧ Points m a ps P := by
  unfold readProgram at h
  unfold attach
  dsimp only at h ⊢
  split at h
  · cases h
  · next h0 =>
    rw [if_neg h0]
    split at h
    · cases h
    · next ms hms =>
      rw [hms]
      dsimp only
      split at h
      · cases h
      · next h1 =>
        rw [if_neg h1]
        split at h
        · cases h
        · next ps' hps =>
          obtain ⟨rs, r1, r2⟩ := refsLoop_eq _ _ _ hps
          rw [r1]
          dsimp only
          split at h
          · cases h
          · next h2 =>
            rw [if_neg h2]
            split at h
            · cases h
            · next prs hprs =>
              rw [hprs]
              dsimp only
              split at h
              · cases h
              · next h3 =>
                rw [if_neg h3]
                split at h
                · cases h
                · next P' hP =>
                  simp only [ReadRes.ok.injEq] at h
                  obtain ⟨e1, e2⟩ := h
                  subst e1; subst e2
                  obtain ⟨a, a1, a2, a3⟩ := attachProg_eq (k := k) hP r2
                  rw [a1]
                  exact ⟨a, rfl, a2, a3⟩

theorem view_points {w : World} {q : Nat} {h : Handle} {m : List Nat} {ps : List Info} {P : Program}
    (hq : w.progs[q]? = some (some (.read h))) (hm : w.bytes h.block = some m) (hp : Points m h ps P) :
    view w q = some (ps, P) := by
  have e1 : patterns w (.read h) = some ps := by
    unfold patterns patternCount
    have : patternInfo w (.read h) = fun i => (h.refs[i]?).bind (readRef m) := by
      funext i; simp [patternInfo, hm]
    rw [this]
    exact mapM_range _ _ hp.refs
  have e2 : program w (.read h) = some P := by
    have : (List.range h.count).mapM (fetch w (.read h)) = some P.code := by
      have := hp.code
      rw [mapM_iff] at this ⊢
      rw [← this]
      apply List.map_congr_left
      intro pc hpc
      rw [List.mem_range] at hpc
      simp [fetch, hpc, hm]
    simp only [program, this, Option.map_some, hp.maxLabel, hp.maxCheck, hp.filterOff, hp.filter]
  unfold view
  simp [hq, e1, e2]

/-- A handle made by `lg_create_program` has the patterns and the program it was made with. -/
theorem view_made {w : World} {q : Nat} {ps : List Info} {P : Program} (hq : w.progs[q]? = some (some (.made ps P))) :
    view w q = some (ps, P) := by
  have e1 : patterns w (.made ps P) = some ps := by
    unfold patterns patternCount
    rw [mapM_iff]
    apply List.ext_getElem?
    intro i
    by_cases hi : i < ps.length
    · simp [hi, patternInfo]
    · simp [hi]
  unfold view
  simp [hq, e1, program]

/-! ## Histories -/

theorem step_heap {w w' : World} {o : Op} {k : Nat} {x : Nat × List Nat} (h : step w o = some w') (hl : Leaves k o)
    (hk : w.heap[k]? = some (some x)) : w'.heap[k]? = some (some x) := by
  have hlt : k < w.heap.length := (List.getElem?_eq_some_iff.1 hk).1
  cases o with
  | alloc b m => simp only [step, Option.some.injEq] at h; subst h; rw [List.getElem?_append_left hlt]; exact hk
  | store k' i b =>
    simp only [step] at h
    split at h
    · split at h
      · simp only [Option.some.injEq] at h; subst h
        rw [List.getElem?_set_ne hl]; exact hk
      · cases h
    · cases h
  | free k' =>
    simp only [step, Option.some.injEq] at h; subst h
    rw [List.getElem?_set_ne hl]; exact hk
  | create ps P => simp only [step, Option.some.injEq] at h; subst h; exact hk
  | write q b =>
    simp only [step] at h
    split at h
    · simp only [Option.some.injEq] at h; subst h; rw [List.getElem?_append_left hlt]; exact hk
    · cases h
  | read k' =>
    simp only [step] at h
    split at h
    · split at h
      · cases h
      · simp only [Option.some.injEq] at h; subst h; exact hk
      · simp only [Option.some.injEq] at h; subst h; exact hk
    · cases h
  | destroy q => simp only [step, Option.some.injEq] at h; subst h; exact hk

theorem step_prog {w w' : World} {o : Op} {q : Nat} {x : Prog} (h : step w o = some w') (hl : Keeps q o)
    (hk : w.progs[q]? = some (some x)) : w'.progs[q]? = some (some x) := by
  have hlt : q < w.progs.length := (List.getElem?_eq_some_iff.1 hk).1
  cases o with
  | alloc b m => simp only [step, Option.some.injEq] at h; subst h; exact hk
  | store k' i b =>
    simp only [step] at h
    split at h
    · split at h
      · simp only [Option.some.injEq] at h; subst h; exact hk
      · cases h
    · cases h
  | free k' => simp only [step, Option.some.injEq] at h; subst h; exact hk
  | create ps P => simp only [step, Option.some.injEq] at h; subst h; rw [List.getElem?_append_left hlt]; exact hk
  | write q b =>
    simp only [step] at h
    split at h
    · simp only [Option.some.injEq] at h; subst h; exact hk
    · cases h
  | read k' =>
    simp only [step] at h
    split at h
    · split at h
      · cases h
      · simp only [Option.some.injEq] at h; subst h; rw [List.getElem?_append_left hlt]; exact hk
      · simp only [Option.some.injEq] at h; subst h; rw [List.getElem?_append_left hlt]; exact hk
    · cases h
  | destroy q' =>
    simp only [step, Option.some.injEq] at h; subst h
    rw [List.getElem?_set_ne hl]; exact hk

theorem run_heap {k : Nat} {x : Nat × List Nat} : ∀ (os : List Op) {w w' : World}, runOps w os = some w' →
    (∀ o ∈ os, Leaves k o) → w.heap[k]? = some (some x) → w'.heap[k]? = some (some x) := by
  intro os
  induction os with
  | nil => intro w w' h _ hk; simp only [runOps, Option.some.injEq] at h; subst h; exact hk
  | cons o os ih =>
    intro w w' h hl hk
    simp only [runOps, Option.bind_eq_some_iff] at h
    obtain ⟨w1, h1, h2⟩ := h
    exact ih h2 (fun o' ho => hl o' (by simp [ho])) (step_heap h1 (hl o (by simp)) hk)

theorem run_prog {q : Nat} {x : Prog} : ∀ (os : List Op) {w w' : World}, runOps w os = some w' →
    (∀ o ∈ os, Keeps q o) → w.progs[q]? = some (some x) → w'.progs[q]? = some (some x) := by
  intro os
  induction os with
  | nil => intro w w' h _ hk; simp only [runOps, Option.some.injEq] at h; subst h; exact hk
  | cons o os ih =>
    intro w w' h hl hk
    simp only [runOps, Option.bind_eq_some_iff] at h
    obtain ⟨w1, h1, h2⟩ := h
    exact ih h2 (fun o' ho => hl o' (by simp [ho])) (step_prog h1 (hl o (by simp)) hk)

/-- **C100** From any state: a program handle is written to a new buffer; after any operations
that leave the buffer alone, the buffer is read.  The reading gives a handle; and after any
further operations that leave the buffer alone and do not destroy that handle, the handle has the
same patterns and the same program as the original had, even if the original is long gone. -/
theorem kept_buffer_partial {w : World} {q base : Nat} {ps : List Info} {P : Program}
    (hv : view w q = some (ps, P)) (hf : Fits ps P base) (hP : ProgStorable P)
    {mid : List Op} (hmid : ∀ o ∈ mid, Leaves w.heap.length o)
    {w1 : World} (h1 : runOps w (.write q base :: mid) = some w1) :
    ∃ w2, step w1 (.read w.heap.length) = some w2 ∧
      ∀ {post : List Op}, (∀ o ∈ post, Leaves w.heap.length o ∧ Keeps w1.progs.length o) →
      ∀ {w3 : World}, runOps w2 post = some w3 → view w3 w1.progs.length = some (ps, P) := by
  simp only [runOps, step, hv, Option.bind_some] at h1
  have hb := run_heap mid (k := w.heap.length) (x := (base, writeProgram ps P)) h1 hmid (by simp)
  obtain ⟨a, a1, a2, a3⟩ := attach_eq (k := w.heap.length) (write_read ps P hf.infos hP base hf.size hf.room).1
  refine ⟨{ w1 with progs := w1.progs ++ [some (.read a)] }, by simp only [step, hb, a1], ?_⟩
  intro post hpost w3 h3
  have hb3 := run_heap post h3 (fun o ho => (hpost o ho).1) hb
  have hq3 := run_prog (q := w1.progs.length) (x := .read a) post h3 (fun o ho => (hpost o ho).2) (by simp)
  exact view_points hq3 (m := writeProgram ps P) (by simp [World.bytes, a2, hb3]) a3

/-- **C37** for programs compiled from patterns: what is written is read back, and is as long as
`lg_program_size` tells. -/
theorem session_write_read [Chain.Build] {env : Parser.Env} (he : env.Sound) {rs : List Session.Request}
    {os : List (Option Nat)} {g : Nfa.Graph} {P : Program} (hc : Session.Compiled env rs os g P)
    {base : Nat} {ps : List Info} (hf : Fits ps P base) :
    readProgram base (writeProgram ps P) = .ok ps P ∧ programSize ps P = (writeProgram ps P).length := by
  obtain ⟨ps', hM, -⟩ := hc.made' he
  obtain ⟨a, -, ⟨f, c⟩, -⟩ := hM.facts
  refine write_read ps P hf.infos (Stored.compiled_storable a c ?_) base hf.size hf.room
  have := hf.size
  rw [writeProgram_length] at this
  unfold progSize at this
  omega

/-- **C100** for programs compiled from patterns: requests with any replies, a program made from
them at some depth; written, and read back later from the same buffer. -/
theorem session_program_kept_partial [Chain.Build] {env : Parser.Env} (he : env.Sound) {rs : List Session.Request}
    {os : List (Option Nat)} {g : Nfa.Graph} {P : Program} (hc : Session.Compiled env rs os g P)
    {w : World} {q base : Nat} {ps : List Info} (hv : view w q = some (ps, P)) (hf : Fits ps P base)
    {mid : List Op} (hmid : ∀ o ∈ mid, Leaves w.heap.length o)
    {w1 : World} (h1 : runOps w (.write q base :: mid) = some w1) :
    ∃ w2, step w1 (.read w.heap.length) = some w2 ∧
      ∀ {post : List Op}, (∀ o ∈ post, Leaves w.heap.length o ∧ Keeps w1.progs.length o) →
      ∀ {w3 : World}, runOps w2 post = some w3 → view w3 w1.progs.length = some (ps, P) := by
  obtain ⟨ps', hM, -⟩ := hc.made' he
  obtain ⟨a, -, ⟨f, c⟩, -⟩ := hM.facts
  refine kept_buffer_partial hv hf (Stored.compiled_storable a c ?_) hmid h1
  have := hf.size
  rw [writeProgram_length] at this
  unfold progSize at this
  omega

/-! ## The command -/

theorem gone_step {w w' : World} {o : Op} {k : Nat} (h : step w o = some w') (hk : w.heap[k]? = some none) :
    w'.heap[k]? = some none := by
  have hlt : k < w.heap.length := (List.getElem?_eq_some_iff.1 hk).1
  cases o with
  | alloc b m => simp only [step, Option.some.injEq] at h; subst h; rw [List.getElem?_append_left hlt]; exact hk
  | store k' i b =>
    simp only [step] at h
    split at h
    · next base m hm =>
      split at h
      · simp only [Option.some.injEq] at h; subst h
        have : k' ≠ k := by rintro rfl; rw [hk] at hm; cases hm
        rw [List.getElem?_set_ne this]; exact hk
      · cases h
    · cases h
  | free k' =>
    simp only [step, Option.some.injEq] at h; subst h
    by_cases e : k' = k
    · subst e; simp [hlt]
    · rw [List.getElem?_set_ne e]; exact hk
  | create ps P => simp only [step, Option.some.injEq] at h; subst h; exact hk
  | write q b =>
    simp only [step] at h
    split at h
    · simp only [Option.some.injEq] at h; subst h; rw [List.getElem?_append_left hlt]; exact hk
    · cases h
  | read k' =>
    simp only [step] at h
    split at h
    · split at h
      · cases h
      · simp only [Option.some.injEq] at h; subst h; exact hk
      · simp only [Option.some.injEq] at h; subst h; exact hk
    · cases h
  | destroy q => simp only [step, Option.some.injEq] at h; subst h; exact hk

theorem gone_run {k : Nat} : ∀ (os : List Op) {w w' : World}, runOps w os = some w' →
    w.heap[k]? = some none → w'.heap[k]? = some none := by
  intro os
  induction os with
  | nil => intro w w' h hk; simp only [runOps, Option.some.injEq] at h; subst h; exact hk
  | cons o os ih =>
    intro w w' h hk
    simp only [runOps, Option.bind_eq_some_iff] at h
    obtain ⟨w1, h1, h2⟩ := h
    exact ih h2 (gone_step h1 hk)

/-- **C100 fails for `--program-file`.** The command loads every program that `lightgrep -c
program --binary` has written and goes on to search with it; but the buffer is gone, and then and
for ever after no instruction and no pattern of the program can be read. -/
theorem program_file_dangles {ps : List Info} {P : Program} {base : Nat} (hf : Fits ps P base) (hP : ProgStorable P)
    (w : World) : ∃ w1 h, loadProgram w base (writeProgram ps P) = some (w1, w.progs.length) ∧
      w1.progs[w.progs.length]? = some (some (.read h)) ∧ h.count = P.code.length ∧ h.refs.length = ps.length ∧
      ∀ {os : List Op} {w2 : World}, runOps w1 os = some w2 →
        (∀ pc, fetch w2 (.read h) pc = none) ∧ ∀ i, patternInfo w2 (.read h) i = none := by
  obtain ⟨a, a1, a2, a3⟩ := attach_eq (k := w.heap.length) (write_read ps P hf.infos hP base hf.size hf.room).1
  have hcount : a.count = P.code.length := by
    have := congrArg List.length ((mapM_iff _ _).1 a3.code)
    simpa using this
  have hrefs : a.refs.length = ps.length := by
    have := congrArg List.length ((mapM_iff _ _).1 a3.refs)
    simpa using this
  have hload : loadProgram w base (writeProgram ps P) =
      some (⟨(w.heap ++ [some (base, writeProgram ps P)]).set w.heap.length none, w.progs ++ [some (.read a)]⟩,
        w.progs.length) := by
    simp [loadProgram, runOps, step, a1]
  refine ⟨_, a, hload, by simp, hcount, hrefs, ?_⟩
  intro os w2 h2
  have hg := gone_run os (k := w.heap.length) h2 (by simp)
  have hb : w2.bytes a.block = none := by simp [World.bytes, a2, hg]
  refine ⟨fun pc => ?_, fun i => ?_⟩
  · simp [fetch, hb]
  · simp only [patternInfo, hb, Option.bind_none]
    cases a.refs[i]? <;> rfl

/-! ## The hypotheses can be met -/

/-- Two patterns. -/
def demoInfos : List Info := [⟨[97], [65, 83], 7⟩, ⟨[98, 43], [85], 2 ^ 40⟩]

theorem demo_fits : Fits demoInfos demoProgram 4096 ∧ ProgStorable demoProgram := by
  have hlen : (writeProgram demoInfos demoProgram).length = 8258 := by rw [writeProgram_length]; rfl
  refine ⟨⟨?_, by omega, by omega⟩, by decide, by decide, by decide, by decide, ?_⟩
  · intro p hp
    simp [demoInfos] at hp
    rcases hp with rfl | rfl <;> simp [Info.Storable]
  · intro k hk; simp [demoProgram]; omega

/-- A program with two patterns is created, written and destroyed; then the buffer is read and
another block freed. -/
example : ∃ w w1 w2 w3, runOps ⟨[], []⟩ [.create demoInfos demoProgram, .alloc 7 [1, 2]] = some w ∧
    runOps w [.write 0 4096, .destroy 0] = some w1 ∧ step w1 (.read 1) = some w2 ∧ runOps w2 [.free 0] = some w3 ∧
    view w3 1 = some (demoInfos, demoProgram) := by
  have hv : view ⟨[some (7, [1, 2])], [some (.made demoInfos demoProgram)]⟩ 0 = some (demoInfos, demoProgram) :=
    view_made rfl
  have h1 : runOps ⟨[some (7, [1, 2])], [some (.made demoInfos demoProgram)]⟩ [.write 0 4096, .destroy 0] =
      some ⟨[some (7, [1, 2]), some (4096, writeProgram demoInfos demoProgram)], [none]⟩ := by
    simp [runOps, step, hv]
  obtain ⟨w2, h2, h3⟩ := kept_buffer_partial hv demo_fits.1 demo_fits.2 (by simp [Leaves]) h1
  exact ⟨_, _, w2, _, rfl, h1, h2, rfl, h3 (post := [.free 0]) (by simp [Leaves, Keeps]) rfl⟩

end Verif.Loaded
