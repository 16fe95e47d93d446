import Verif.Vm
/-!
# Memory safety and termination of the virtual machine

`Bounded P K B`: a static description of a program from which it follows that no
history of calls reads outside the program or the tables, or loops over epsilon
instructions for ever.  Compiled programs are shown to have one in
Props/CompiledSafe.lean.
-/
namespace Verif.Vm

/-- The computation succeeds and its result satisfies `Q`. -/
def Ok {α : Type} (x : Res α) (Q : α → Prop) : Prop := ∃ a, x = .ok a ∧ Q a

theorem ok_intro {α : Type} {a : α} {Q : α → Prop} (h : Q a) : Ok (.ok a) Q := ⟨a, rfl, h⟩

theorem ok_bind {α β : Type} {x : Res α} {f : α → Res β} {Q : α → Prop} {R : β → Prop} (h : Ok x Q)
    (hf : ∀ a, Q a → Ok (f a) R) : Ok (x >>= f) R := by
  obtain ⟨a, rfl, ha⟩ := h
  exact hf a ha

theorem ok_mono {α : Type} {x : Res α} {Q R : α → Prop} (h : Ok x Q) (hf : ∀ a, Q a → R a) : Ok x R := by
  obtain ⟨a, rfl, ha⟩ := h
  exact ⟨a, rfl, hf a ha⟩

/-- `K pc lab m`: a thread at `pc` with label `lab` is safe and at most `m` epsilon
instructions away from stopping. -/
structure Bounded (P : Program) (K : Nat → Option Nat → Nat → Prop) (B : Nat) : Prop where
  lab : ∀ {pc l m}, K pc (some l) m → l ≤ P.maxLabel
  op : ∀ {pc lab m}, K pc lab m → ∃ o, opAt P pc = some o
  fork : ∀ {pc lab m}, K pc lab m → opAt P pc = some .fork → (∃ m' < m, K (pc + 2) lab m') ∧
    ∃ a, P.code[pc + 1]? = some a ∧ ∃ m' < m, K a lab m'
  jump : ∀ {pc lab m}, K pc lab m → opAt P pc = some .jump → ∃ a, P.code[pc + 1]? = some a ∧ ∃ m' < m, K a lab m'
  check : ∀ {pc lab m i}, K pc lab m → opAt P pc = some (.checkHalt i) → i ≤ P.maxCheck ∧ ∃ m' < m, K (pc + 1) lab m'
  label : ∀ {pc lab m l}, K pc lab m → opAt P pc = some (.label l) → l ≤ P.maxLabel ∧ ∃ m' < m, K (pc + 1) (some l) m'
  mtch : ∀ {pc lab m}, K pc lab m → opAt P pc = some .match → lab ≠ none ∧ ∃ m' < m, K (pc + 1) lab m'
  finish : ∀ {pc lab m}, K pc lab m → opAt P pc = some .finish → lab ≠ none
  exec : ∀ {t : Thread} {m}, K t.pc t.label m → m ≤ B → ∀ b, Ok (exec P t b) fun r =>
    ∀ t', r = some t' → ∃ m' ≤ B, K t'.pc t'.label m'
  halt : ∀ lab, (∀ l, lab = some l → l ≤ P.maxLabel) → ∃ m ≤ B, K (progEnd P) lab m
  init : ∃ m ≤ B, K 0 none m

section
variable {P : Program} {K : Nat → Option Nat → Nat → Prop} {B : Nat}

/-- A thread that is safe. -/
def TSafe (K : Nat → Option Nat → Nat → Prop) (B : Nat) (t : Thread) : Prop := ∃ m ≤ B, K t.pc t.label m

/-- A state that is safe. -/
structure StSafe (P : Program) (K : Nat → Option Nat → Nat → Prop) (B : Nat) (σ : St) : Prop where
  ends : σ.matchEnds.length = P.maxLabel + 1
  active : ∀ t ∈ σ.active, TSafe K B t
  next : ∀ t ∈ σ.next, TSafe K B t

theorem safe_pushLive (hB : Bounded P K B) {t : Thread} {σ : St} (ht : TSafe K B t) (hσ : StSafe P K B σ) :
    Ok (pushLive t σ) (StSafe P K B) := by
  obtain ⟨m, hm, hk⟩ := ht
  have hn : ∀ x ∈ σ.next ++ [t], TSafe K B x := by
    intro x hx
    rcases List.mem_append.1 hx with hx | hx
    · exact hσ.next x hx
    · rw [List.mem_singleton.1 hx]; exact ⟨m, hm, hk⟩
  unfold pushLive
  cases hl : t.label with
  | none => exact ok_intro ⟨hσ.ends, hσ.active, hn⟩
  | some l =>
    have := hB.lab (hl ▸ hk)
    dsimp only
    rw [if_pos (by rw [hσ.ends]; omega)]
    exact ok_intro ⟨hσ.ends, hσ.active, hn⟩

theorem safe_unblocked {σ : St} (hσ : σ.matchEnds.length = P.maxLabel + 1) {l : Nat} (hl : l ≤ P.maxLabel) :
    Ok (unblocked σ (some l)) fun _ => True := by
  unfold unblocked
  split
  · exact ok_intro trivial
  · simp only [liveFind]
    rw [if_pos (by omega)]
    exact ok_intro trivial

theorem safe_liveCheck {σ : St} (hσ : σ.matchEnds.length = P.maxLabel + 1) (s : Nat) {lab : Option Nat}
    (hl : ∀ l, lab = some l → l ≤ P.maxLabel) : Ok (liveCheck σ s lab) fun _ => True := by
  unfold liveCheck
  cases lab with
  | none => exact ok_intro trivial
  | some l =>
    dsimp only
    split
    · exact ok_intro trivial
    · have := hl l rfl
      simp only [liveFind]
      rw [if_pos (by omega)]
      exact ok_intro trivial

theorem safe_die (hB : Bounded P K B) {i : Thread} (h : TSafe K B i) : TSafe K B { i with pc := progEnd P } := by
  obtain ⟨m, hm, hk⟩ := h
  exact hB.halt i.label (fun l hl => hB.lab (hl ▸ hk))

theorem safe_kill (hB : Bounded P K B) {t : Thread} {off : Nat} {rest : List Thread}
    (h : ∀ x ∈ rest, TSafe K B x) : ∀ x ∈ kill P t off rest, TSafe K B x := by
  have hd : ∀ l : List Thread, (∀ x ∈ l, TSafe K B x) →
      ∀ x ∈ l.map (fun i => if i.label = t.label then { i with pc := progEnd P } else i), TSafe K B x := by
    intro l hl x hx
    obtain ⟨y, hy, rfl⟩ := List.mem_map.1 hx
    split
    · exact safe_die hB (hl y hy)
    · exact hl y hy
  unfold kill
  split
  · split
    · exact hd rest h
    · intro x hx
      rcases List.mem_append.1 hx with hx | hx
      · exact hd _ (fun y hy => h y ((List.takeWhile_prefix _).mem hy)) x hx
      · exact h x ((List.dropWhile_suffix _).mem hx)
  · exact h

/-- The result of epsilon instructions. -/
def ESafe (P : Program) (K : Nat → Option Nat → Nat → Prop) (B : Nat) (r : Option Thread × St) : Prop :=
  (∀ t, r.1 = some t → TSafe K B t) ∧ StSafe P K B r.2

theorem safe_finish (hB : Bounded P K B) {t : Thread} {σ : St} {cb : Bool} {off : Nat} {l : Nat}
    (ht : TSafe K B t) (hl : t.label = some l) (hσ : StSafe P K B σ) :
    Ok (finishStep P cb off t σ) (ESafe P K B) := by
  obtain ⟨m, hm, hk⟩ := id ht
  have hle := hB.lab (hl ▸ hk)
  unfold finishStep
  rw [hl]
  dsimp only
  have hσ' : StSafe P K B { σ with active := kill P t off σ.active } :=
    ⟨hσ.ends, safe_kill hB hσ.active, hσ.next⟩
  refine ok_bind (safe_unblocked (σ := { σ with active := kill P t off σ.active }) hσ.ends hle) ?_
  intro u _
  have hlt : l < σ.matchEnds.length := by rw [hσ.ends]; omega
  cases u with
  | false => exact ok_intro ⟨fun x hx => by cases hx; exact ht, hσ'⟩
  | true =>
    simp only [if_true]
    rw [List.getElem?_eq_getElem hlt]
    dsimp only
    split
    · exact ok_intro ⟨fun x hx => (by cases hx), by simpa using hσ.ends, hσ'.active, hσ.next⟩
    · exact ok_intro ⟨fun x hx => (by cases hx), hσ'⟩

theorem safe_overlap (hB : Bounded P K B) {t : Thread} {σ : St} {k : Thread → St → Res (Option Thread × St)}
    (ht : TSafe K B t) (hσ : StSafe P K B σ) (hk : Ok (k t σ) (ESafe P K B)) :
    Ok (overlapGuard k t σ) (ESafe P K B) := by
  obtain ⟨m, hm, hm'⟩ := ht
  unfold overlapGuard
  cases hl : t.label with
  | none => exact hk
  | some l =>
    have hle := hB.lab (hl ▸ hm')
    have hlt : l < σ.matchEnds.length := by rw [hσ.ends]; omega
    dsimp only
    rw [List.getElem?_eq_getElem hlt]
    dsimp only
    split
    · exact ok_intro ⟨fun x hx => (by cases hx), hσ⟩
    · exact hk

theorem safe_epLoop (hB : Bounded P K B) (cb : Bool) (off : Nat) : ∀ (n m : Nat) (t : Thread) (σ : St),
    K t.pc t.label m → m ≤ B → m < n → StSafe P K B σ → Ok (epLoop P cb off n t σ) (ESafe P K B) := by
  intro n
  induction n with
  | zero => intro m t σ _ _ h; omega
  | succ n ih =>
    intro m t σ hk hm hn hσ
    have hself : TSafe K B t := ⟨m, hm, hk⟩
    obtain ⟨o, ho⟩ := hB.op hk
    have rd : Ok (.ok (some t, σ) : Res (Option Thread × St)) (ESafe P K B) :=
      ok_intro ⟨fun x hx => by cases hx; exact hself, hσ⟩
    simp only [epLoop, ho]
    cases o with
    | finish =>
      obtain ⟨l, hl⟩ := Option.ne_none_iff_exists'.1 (hB.finish hk ho)
      exact safe_finish hB hself hl hσ
    | fork =>
      obtain ⟨⟨m1, h1, k1⟩, a, ha, m2, h2, k2⟩ := hB.fork hk ho
      dsimp only
      refine ok_bind (safe_overlap hB ⟨m1, by omega, k1⟩ hσ (ih m1 { t with pc := t.pc + 2 } σ k1 (by omega) (by omega) hσ)) ?_
      rintro ⟨r, σ1⟩ ⟨hr, hσ1⟩
      dsimp only at hr hσ1 ⊢
      have hp : Ok (match r with
          | some t' => pushLive t' σ1
          | none => .ok σ1) (StSafe P K B) := by
        cases r with
        | none => exact ok_intro hσ1
        | some t' => exact safe_pushLive hB (hr t' rfl) hσ1
      refine ok_bind hp ?_
      intro σ2 hσ2
      rw [ha]
      exact ih m2 { t with pc := a } σ2 k2 (by omega) (by omega) hσ2
    | jump =>
      obtain ⟨a, ha, m2, h2, k2⟩ := hB.jump hk ho
      dsimp only
      rw [ha]
      exact ih m2 { t with pc := a } σ k2 (by omega) (by omega) hσ
    | checkHalt i =>
      obtain ⟨hi, m2, h2, k2⟩ := hB.check hk ho
      dsimp only
      rw [if_pos (by omega)]
      split
      · exact ok_intro ⟨fun x hx => (by cases hx), hσ⟩
      · refine ok_bind (safe_liveCheck hσ.ends t.start (fun l hl => hB.lab (hl ▸ hk))) ?_
        intro b _
        refine ih m2 { t with pc := t.pc + 1 } _ k2 (by omega) (by omega) ?_
        split
        · exact hσ
        · exact ⟨hσ.ends, hσ.active, hσ.next⟩
    | label l =>
      obtain ⟨hl, m2, h2, k2⟩ := hB.label hk ho
      dsimp only
      have hlt : l < σ.matchEnds.length := by rw [hσ.ends]; omega
      rw [List.getElem?_eq_getElem hlt]
      dsimp only
      split
      · exact ih m2 { t with label := some l, pc := t.pc + 1 } σ k2 (by omega) (by omega) hσ
      · exact ok_intro ⟨fun x hx => (by cases hx), hσ⟩
    | «match» =>
      obtain ⟨hl, m2, h2, k2⟩ := hB.mtch hk ho
      obtain ⟨l, hl⟩ := Option.ne_none_iff_exists'.1 hl
      dsimp only
      have := safe_unblocked (P := P) (σ := σ) hσ.ends (hB.lab (hl ▸ hk))
      rw [← hl] at this
      refine ok_bind this ?_
      intro u _
      exact ih m2 { t with «end» := some off, pc := t.pc + 1, lead := u } σ k2 (by omega) (by omega) hσ
    | halt => exact ok_intro ⟨fun x hx => (by cases hx), hσ⟩
    | jumpTable => exact rd
    | byte => exact rd
    | bitVector => exact rd
    | either => exact rd
    | range => exact rd
    | any => exact rd
    | other => exact rd

theorem safe_epSeq (hB : Bounded P K B) {cb : Bool} {off fuel : Nat} (hf : B < fuel) {t : Thread} {σ : St}
    (ht : TSafe K B t) (hσ : StSafe P K B σ) : Ok (epSeq P cb off fuel t σ) (ESafe P K B) := by
  obtain ⟨m, hm, hk⟩ := id ht
  exact safe_overlap hB ht hσ (safe_epLoop hB cb off fuel m t σ hk hm (by omega) hσ)

theorem safe_execThread (hB : Bounded P K B) {cb : Bool} {off fuel : Nat} (hf : B < fuel) {b : UInt8} {t : Thread}
    {σ : St} (ht : TSafe K B t) (hσ : StSafe P K B σ) : Ok (execThread P cb fuel off b t σ) (StSafe P K B) := by
  obtain ⟨m, hm, hk⟩ := ht
  unfold execThread
  refine ok_bind (hB.exec hk hm b) ?_
  intro r hr
  cases r with
  | none => exact ok_intro hσ
  | some t' =>
    refine ok_bind (safe_epSeq hB hf (hr t' rfl) hσ) ?_
    rintro ⟨r, σ1⟩ ⟨h1, h2⟩
    cases r with
    | none => exact ok_intro h2
    | some t'' => exact safe_pushLive hB (h1 t'' rfl) h2

theorem safe_runActive (hB : Bounded P K B) {cb : Bool} {off fuel : Nat} (hf : B < fuel) {b : UInt8} : ∀ (n : Nat)
    {σ : St}, StSafe P K B σ → Ok (runActive P cb fuel off b n σ) (StSafe P K B) := by
  intro n
  induction n with
  | zero => intro σ hσ; exact ok_intro hσ
  | succ n ih =>
    intro σ hσ
    unfold runActive
    cases ha : σ.active with
    | nil => exact ok_intro hσ
    | cons t rest =>
      have h := hσ.active
      rw [ha] at h
      exact ok_bind (safe_execThread hB hf (h t (by simp)) ⟨hσ.ends, fun x hx => h x (by simp [hx]), hσ.next⟩)
        (fun σ1 h1 => ih h1)

/-- The initial threads. -/
def FSafe (K : Nat → Option Nat → Nat → Prop) (B : Nat) (first : List Thread) : Prop :=
  ∀ t ∈ first, ∃ m ≤ B, K t.pc none m

theorem safe_new {first : List Thread} (h : FSafe K B first) (off : Nat) : ∀ t ∈ newThreads first off, TSafe K B t := by
  intro t ht
  obtain ⟨x, hx, rfl⟩ := List.mem_map.1 ht
  exact h x hx

theorem safe_cleanup {σ : St} (hσ : StSafe P K B σ) : StSafe P K B (cleanup σ) :=
  ⟨hσ.ends, hσ.next, by simp [cleanup]⟩

theorem safe_reset {σ : St} (hσ : σ.matchEnds.length = P.maxLabel + 1) : StSafe P K B (reset σ) :=
  ⟨by simpa [reset] using hσ, by simp [reset], by simp [reset]⟩

theorem safe_frame (hB : Bounded P K B) {first : List Thread} (hfi : FSafe K B first) {cb : Bool} {off fuel : Nat}
    (hf : B < fuel) {b : UInt8} {spawn : Bool} {σ : St} (hσ : StSafe P K B σ) :
    Ok (frame P first cb fuel off b spawn σ) (StSafe P K B) := by
  unfold frame
  refine ok_bind (safe_runActive hB hf _ hσ) ?_
  intro σ1 h1
  have h2 : Ok (if spawn then runActive P cb fuel off b first.length { σ1 with active := newThreads first off }
      else .ok σ1) (StSafe P K B) := by
    split
    · exact safe_runActive hB hf _ ⟨h1.ends, safe_new hfi off, h1.next⟩
    · exact ok_intro h1
  exact ok_bind h2 (fun σ2 h3 => ok_intro (safe_cleanup h3))

theorem safe_leftmost (hB : Bounded P K B) (off : Nat) : ∀ l : List Thread, (∀ t ∈ l, TSafe K B t) →
    Ok (leftmostLive P off l) fun _ => True := by
  intro l
  induction l with
  | nil => intro _; exact ok_intro trivial
  | cons t l ih =>
    intro h
    obtain ⟨m, _, hk⟩ := h t (by simp)
    obtain ⟨o, ho⟩ := hB.op hk
    have := ih (fun x hx => h x (by simp [hx]))
    unfold leftmostLive
    rw [ho]
    cases o <;> first | exact this | exact ok_intro trivial

theorem safe_searchLoop (hB : Bounded P K B) {first : List Thread} (hfi : FSafe K B first) {cb : Bool} {fuel : Nat}
    (hf : B < fuel) : ∀ (buf : List UInt8) (off : Nat) {σ : St}, StSafe P K B σ →
    Ok (searchLoop P first cb fuel buf off σ) (StSafe P K B) := by
  intro buf
  induction buf with
  | nil => intro off σ h; exact ok_intro h
  | cons b bs ih =>
    intro off σ h
    exact ok_bind (safe_frame hB hfi hf h) (fun σ1 h1 => ih _ h1)

theorem safe_resolveActive (hB : Bounded P K B) {cb : Bool} {off fuel : Nat} (hf : B < fuel) {b : UInt8} : ∀ (n : Nat)
    (h : Bool) {σ : St}, StSafe P K B σ → Ok (resolveActive P cb fuel off b n h σ) fun r => StSafe P K B r.2 := by
  intro n
  induction n with
  | zero => intro h σ hσ; exact ok_intro hσ
  | succ n ih =>
    intro h σ hσ
    unfold resolveActive
    cases ha : σ.active with
    | nil => exact ok_intro hσ
    | cons t rest =>
      have hh := hσ.active
      rw [ha] at hh
      have hr : Ok (isRealOp P t) fun _ => True := by
        obtain ⟨m, _, hk⟩ := hh t (by simp)
        obtain ⟨o, ho⟩ := hB.op hk
        unfold isRealOp
        rw [ho]
        cases o <;> exact ok_intro trivial
      refine ok_bind hr (fun r _ => ?_)
      exact ok_bind (safe_execThread hB hf (hh t (by simp)) ⟨hσ.ends, fun x hx => hh x (by simp [hx]), hσ.next⟩)
        (fun σ1 h1 => ih _ h1)

theorem safe_resolveLoop (hB : Bounded P K B) {cb : Bool} {fuel : Nat} (hf : B < fuel) : ∀ (buf : List UInt8)
    (off : Nat) (real : Bool) {σ : St}, StSafe P K B σ →
    Ok (resolveLoop P cb fuel buf off real σ) fun r => StSafe P K B r.2 := by
  intro buf
  induction buf with
  | nil => intro off real σ h; exact ok_intro h
  | cons b bs ih =>
    intro off real σ h
    unfold resolveLoop
    split
    · exact ok_intro h
    · refine ok_bind (safe_resolveActive hB hf _ _ h) ?_
      rintro ⟨r, σ1⟩ h1
      exact ih _ _ (safe_cleanup h1)

theorem safe_closeLoop (hB : Bounded P K B) : ∀ (l : List Thread), (∀ t ∈ l, TSafe K B t) → ∀ {σ : St},
    StSafe P K B σ → Ok (closeLoop P l σ) (StSafe P K B) := by
  intro l
  induction l with
  | nil => intro _ σ h; exact ok_intro h
  | cons t l ih =>
    intro h σ hσ
    obtain ⟨m, _, hk⟩ := h t (by simp)
    obtain ⟨o, ho⟩ := hB.op hk
    have ih := @ih (fun x hx => h x (by simp [hx]))
    unfold closeLoop
    rw [ho]
    cases o with
    | finish =>
      obtain ⟨l', hl⟩ := Option.ne_none_iff_exists'.1 (hB.finish hk ho)
      have hle := hB.lab (hl ▸ hk)
      have hlt : l' < σ.matchEnds.length := by rw [hσ.ends]; omega
      rw [hl]
      dsimp only
      rw [List.getElem?_eq_getElem hlt]
      dsimp only
      split
      · exact ih ⟨by simpa using hσ.ends, hσ.active, hσ.next⟩
      · exact ih hσ
    | _ => exact ih hσ

theorem safe_closeOut (hB : Bounded P K B) {cb : Bool} {σ : St} (hσ : StSafe P K B σ) :
    Ok (closeOut P cb σ) (StSafe P K B) := by
  unfold closeOut
  split
  · exact safe_closeLoop hB _ hσ.active hσ
  · exact ok_intro hσ

theorem safe_startsLoop (hB : Bounded P K B) {cb : Bool} {fuel : Nat} (hf : B < fuel) : ∀ (buf : List UInt8)
    (off : Nat) {σ : St}, StSafe P K B σ → Ok (startsLoop P cb fuel buf off σ) (StSafe P K B) := by
  intro buf
  induction buf with
  | nil => intro off σ h; exact ok_intro h
  | cons b bs ih =>
    intro off σ h
    unfold startsLoop
    refine ok_bind (safe_runActive hB hf _ h) ?_
    intro σ1 h1
    dsimp only
    split
    · exact ok_intro (safe_cleanup h1)
    · exact ih _ (safe_cleanup h1)

theorem safe_step (hB : Bounded P K B) {first : List Thread} (hfi : FSafe K B first) {fuel : Nat} (hf : B < fuel)
    (c : Call) {σ : St} (hσ : StSafe P K B σ) : Ok (step P first fuel c σ) fun r => StSafe P K B r.2 := by
  cases c with
  | search buf off cb =>
    have : Ok (search P first cb fuel buf off σ) fun r => StSafe P K B r.2 :=
      ok_bind (safe_searchLoop hB hfi hf buf off hσ) (fun σ1 h1 =>
        ok_bind (safe_leftmost hB _ _ h1.active) (fun _ _ => ok_intro h1))
    exact ok_bind this (fun r hr => ok_intro hr)
  | resolve buf off cb =>
    have : Ok (searchResolve P cb fuel buf off σ) fun r => StSafe P K B r.2 :=
      ok_bind (safe_resolveLoop hB hf buf off true hσ) (fun r h1 =>
        ok_bind (safe_leftmost hB _ _ h1.active) (fun _ _ => ok_intro h1))
    exact ok_bind this (fun r hr => ok_intro hr)
  | closeOut cb => exact ok_bind (safe_closeOut hB hσ) (fun r hr => ok_intro hr)
  | startsWith buf off cb =>
    have : Ok (startsWith P first cb fuel buf off σ) (StSafe P K B) := by
      unfold startsWith
      split
      · refine ok_bind (safe_startsLoop hB hf buf off (σ := { σ with active := σ.active ++ newThreads first off })
          ⟨hσ.ends, ?_, hσ.next⟩) (fun σ1 h1 => ok_bind (safe_closeOut hB h1) (fun σ2 h2 => ok_intro (safe_reset h2.ends)))
        intro t ht
        rcases List.mem_append.1 ht with ht | ht
        · exact hσ.active t ht
        · exact safe_new hfi off t ht
      · exact ok_intro hσ
    exact ok_bind this (fun r hr => ok_intro hr)
  | reset => exact ok_intro (safe_reset hσ.ends)

theorem safe_run (hB : Bounded P K B) {first : List Thread} (hfi : FSafe K B first) {fuel : Nat} (hf : B < fuel)
    (cs : List Call) : ∀ {σ : St}, StSafe P K B σ → Ok (run P first fuel cs σ) fun r => StSafe P K B r.2 := by
  induction cs with
  | nil => intro σ h; exact ok_intro h
  | cons c cs ih =>
    intro σ h
    exact ok_bind (safe_step hB hfi hf c h) (fun r hr => ok_bind (ih hr) (fun r' hr' => ok_intro hr'))

end

end Verif.Vm
