import Verif.Handles
/-!
# C39, C40: keyword indices and frozen pattern lists

Specification: `added f tr` reads off a history, call by call, which patterns FSM
`f` was successfully given, in order.
-/
namespace Verif.Handles

open Verif.Marshal (Info)

variable {Tree Graph : Type}

/-- The patterns successfully added to FSM `f` in a history: the adding calls that
returned no error. -/
def added (f : Nat) : List (Call Tree × Int) → List Info
  | [] => []
  | (.add f' _ pat enc idx, r) :: tr =>
    if f' = f ∧ 0 ≤ r then ⟨cstr pat, cstr enc, idx⟩ :: added f tr else added f tr
  | _ :: tr => added f tr

theorem added_append (f : Nat) (a b : List (Call Tree × Int)) :
    added f (a ++ b) = added f a ++ added f b := by
  induction a with
  | nil => rfl
  | cons x a ih =>
    obtain ⟨c, r⟩ := x
    cases c <;> simp only [List.cons_append, added, ih]
    split <;> simp

/-- Does this call destroy FSM `f`? -/
def killsFsm (f : Nat) : Call Tree → Bool
  | .destroyFsm f' => f' == f
  | _ => false

/-- Does this call destroy program `q`? -/
def killsProg (q : Nat) : Call Tree → Bool
  | .destroyProgram q' => q' == q
  | _ => false

/-- Handles point to existing pattern maps, and FSM maps hold only C strings. -/
structure WF (w : World Graph) : Prop where
  fsm : ∀ (f : Nat) g p, w.fsms[f]? = some (some (g, p)) → p < w.maps.length
  prog : ∀ (q : Nat) p, w.progs[q]? = some (some p) → p < w.maps.length
  clean : ∀ (f : Nat) l, fsmList w f = some l → copyMap l = l

theorem cstr_idem (l : List Nat) : cstr (cstr l) = cstr l := by
  unfold cstr
  induction l with
  | nil => rfl
  | cons a l ih =>
    by_cases h : a = 0
    · simp [h]
    · simp only [List.takeWhile_cons, ne_eq, h, not_false_eq_true, decide_true, if_true]
      simpa using ih

theorem copyMap_append (l : List Info) (i : Info) :
    copyMap (l ++ [i]) = copyMap l ++ [⟨cstr i.pattern, cstr i.chain, i.idx⟩] := by
  simp [copyMap, List.foldl_append, pushInfo]

theorem copyMap_push (l : List Info) (pat enc : List Nat) (idx : Nat) (h : copyMap l = l) :
    copyMap (pushInfo l pat enc idx) = pushInfo l pat enc idx := by
  unfold pushInfo
  rw [copyMap_append, h]
  simp only [cstr_idem]

theorem two_le_countP {α : Type} (P : α → Bool) (l : List α) (i j : Nat) (x y : α) (hij : i < j)
    (hi : l[i]? = some x) (hj : l[j]? = some y) (hx : P x = true) (hy : P y = true) :
    2 ≤ l.countP P := by
  induction l generalizing i j with
  | nil => simp at hi
  | cons a l ih =>
    cases j with
    | zero => omega
    | succ j =>
      cases i with
      | zero =>
        simp at hi hj
        subst hi
        rw [List.countP_cons_of_pos hx]
        have : 0 < l.countP P := List.countP_pos_iff.2 ⟨y, List.mem_of_getElem? hj, hy⟩
        omega
      | succ i =>
        simp at hi hj
        have := ih i j (by omega) hi hj
        have := List.countP_le_length (p := P) (l := l)
        rw [List.countP_cons]
        omega

theorem unshared {w : World Graph} {f p : Nat} {g : Graph} (hf : w.fsms[f]? = some (some (g, p)))
    (hu : ¬ w.useCount p > 1) :
    (∀ f' g', w.fsms[f']? = some (some (g', p)) → f' = f) ∧ ∀ q : Nat, w.progs[q]? ≠ some (some p) := by
  have h1 : 0 < w.fsms.countP (holds p) :=
    List.countP_pos_iff.2 ⟨_, List.mem_of_getElem? hf, by simp [holds]⟩
  unfold World.useCount at hu
  constructor
  · intro f' g' hf'
    rcases Nat.lt_trichotomy f' f with h | h | h
    · have := two_le_countP (holds p) _ _ _ _ _ h hf' hf (by simp [holds]) (by simp [holds])
      omega
    · exact h
    · have := two_le_countP (holds p) _ _ _ _ _ h hf hf' (by simp [holds]) (by simp [holds])
      omega
  · intro q hq
    have h2 : 0 < w.progs.countP (fun o => o == some p) :=
      List.countP_pos_iff.2 ⟨_, List.mem_of_getElem? hq, by simp⟩
    omega

theorem fsmList_some {w : World Graph} {f : Nat} {l : List Info} (h : fsmList w f = some l) :
    ∃ g p, w.fsms[f]? = some (some (g, p)) ∧ l = w.maps.getD p [] := by
  unfold fsmList at h
  split at h
  · next g p hg => exact ⟨g, p, hg, by simpa using h.symm⟩
  · simp at h

theorem getD_append_left {α : Type} (l m : List α) (p : Nat) (d : α) (h : p < l.length) :
    (l ++ m).getD p d = l.getD p d := by
  simp [List.getD_eq_getElem?_getD, List.getElem?_append_left h]

theorem getD_append_last {α : Type} (l : List α) (x d : α) : (l ++ [x]).getD l.length d = x := by
  simp [List.getD_eq_getElem?_getD]

theorem getD_set_ne {α : Type} (l : List α) (p q : Nat) (x d : α) (h : p ≠ q) :
    (l.set p x).getD q d = l.getD q d := by
  simp [List.getD_eq_getElem?_getD, List.getElem?_set_ne h]

theorem getD_set_eq {α : Type} (l : List α) (p : Nat) (x d : α) (h : p < l.length) :
    (l.set p x).getD p d = x := by
  simp [List.getD_eq_getElem?_getD, List.getElem?_set_self h]

theorem lt_of_getElem? {α : Type} {l : List α} {i : Nat} {x : α} (h : l[i]? = some x) : i < l.length := by
  rcases Nat.lt_or_ge i l.length with h' | h'
  · exact h'
  · rw [List.getElem?_eq_none h'] at h; simp at h

/-- Adding a pattern: all other handles see what they saw, the FSM sees one more
pattern, or nothing happened and the result is -1. -/
theorem addPattern_cases (E : Engine Tree Graph) (w : World Graph) (hw : WF w) (f : Nat) (t : Tree)
    (pat enc : List Nat) (idx : Nat) :
    (∃ w', addPattern E w f t pat enc idx = (w', -1) ∧ (∀ f', fsmList w' f' = fsmList w f') ∧
      (∀ q, progList w' q = progList w q) ∧
      w'.fsms.length = w.fsms.length ∧ w'.progs.length = w.progs.length ∧ WF w') ∨
    ∃ l w', fsmList w f = some l ∧ addPattern E w f t pat enc idx = (w', (l.length : Int)) ∧
      fsmList w' f = some (pushInfo l pat enc idx) ∧
      (∀ f', f' ≠ f → fsmList w' f' = fsmList w f') ∧
      (∀ q, progList w' q = progList w q) ∧
      w'.fsms.length = w.fsms.length ∧ w'.progs.length = w.progs.length ∧ WF w' := by
  unfold addPattern
  split
  · next g p hf =>
    have hp := hw.fsm f g p hf
    have hfl : f < w.fsms.length := lt_of_getElem? hf
    have hl : fsmList w f = some (w.maps.getD p []) := by simp [fsmList, hf]
    have hclean := hw.clean f _ hl
    simp only
    split
    · next g' hg =>
      have key : ∀ f', fsmList { w with fsms := w.fsms.set f (some (g', p)) } f' = fsmList w f' := by
        intro f'
        unfold fsmList
        simp only [List.getElem?_set]
        by_cases hff : f = f'
        · subst hff
          rw [if_pos rfl, if_pos hfl, hf]
        · simp [hff]
      refine Or.inl ⟨_, rfl, key, fun _ => rfl, by simp, rfl, ?_, hw.prog, fun f' l h => hw.clean f' l ((key f').symm.trans h)⟩
      intro f' g2 p2 h2
      simp only [List.getElem?_set] at h2
      split at h2
      · simp only [Option.some.injEq, Prod.mk.injEq] at h2
        rw [← h2.2]; exact hp
      · exact hw.fsm _ _ _ h2
    · next g' hg =>
      right
      split
      · refine ⟨_, _, hl, rfl, ?_, ?_, ?_, by simp, rfl, ?_⟩
        · simp only [fsmList, List.getElem?_set_self hfl, hclean, getD_append_last]
        · intro f' hne
          unfold fsmList
          simp only [List.getElem?_set_ne (Ne.symm hne)]
          split
          · next g2 p2 h2 => rw [getD_append_left _ _ _ _ (hw.fsm _ _ _ h2)]
          · rfl
        · intro q
          unfold progList
          simp only
          split
          · next p2 h2 => rw [getD_append_left _ _ _ _ (hw.prog _ _ h2)]
          · rfl
        · constructor
          · intro f' g2 p2 h2
            simp only [List.length_append, List.length_singleton]
            simp only [List.getElem?_set] at h2
            split at h2
            · simp only [Option.some.injEq, Prod.mk.injEq] at h2; omega
            · have := hw.fsm _ _ _ h2; omega
          · intro q p2 h2
            simp only [List.length_append, List.length_singleton]
            have := hw.prog _ _ h2; omega
          · intro f' l h2
            obtain ⟨g2, p2, h3, rfl⟩ := fsmList_some h2
            simp only at h3 ⊢
            simp only [List.getElem?_set] at h3
            split at h3
            · simp only [Option.some.injEq, Prod.mk.injEq] at h3
              rw [← h3.2, getD_append_last, hclean]
              exact copyMap_push _ _ _ _ hclean
            · rw [getD_append_left _ _ _ _ (hw.fsm _ _ _ h3)]
              exact hw.clean f' _ (by simp [fsmList, h3])
      · next hu =>
        obtain ⟨u1, u2⟩ := unshared hf hu
        refine ⟨_, _, hl, rfl, ?_, ?_, ?_, by simp, rfl, ?_⟩
        · simp [fsmList, List.getElem?_set_self hfl, hp]
        · intro f' hne
          unfold fsmList
          simp only [List.getElem?_set_ne (Ne.symm hne)]
          split
          · next g2 p2 h2 =>
            rw [getD_set_ne]
            intro e
            exact hne (u1 f' g2 (e ▸ h2))
          · rfl
        · intro q
          unfold progList
          simp only
          split
          · next p2 h2 =>
            rw [getD_set_ne]
            intro e
            exact u2 q (e ▸ h2)
          · rfl
        · constructor
          · intro f' g2 p2 h2
            simp only [List.length_set]
            simp only [List.getElem?_set] at h2
            split at h2
            · simp only [Option.some.injEq, Prod.mk.injEq] at h2; omega
            · exact hw.fsm _ _ _ h2
          · intro q p2 h2
            simp only [List.length_set]
            exact hw.prog _ _ h2
          · intro f' l h2
            obtain ⟨g2, p2, h3, rfl⟩ := fsmList_some h2
            simp only at h3 ⊢
            simp only [List.getElem?_set] at h3
            split at h3
            · simp only [Option.some.injEq, Prod.mk.injEq] at h3
              rw [← h3.2, getD_set_eq _ _ _ _ hp]
              exact copyMap_push _ _ _ _ hclean
            · next hne =>
              rw [getD_set_ne _ _ _ _ _ (fun e => by subst e; exact hne (u1 f' g2 h3).symm)]
              exact hw.clean f' _ (by simp [fsmList, h3])
  · exact Or.inl ⟨w, rfl, fun _ => rfl, fun _ => rfl, rfl, rfl, hw⟩

theorem step_wf (E : Engine Tree Graph) (w : World Graph) (hw : WF w) (c : Call Tree) :
    WF (step E w c).1 := by
  cases c with
  | createFsm =>
    constructor
    · intro f g p h
      simp only [step, List.length_append, List.length_singleton] at h ⊢
      rw [List.getElem?_append] at h
      split at h
      · have := hw.fsm _ _ _ h; omega
      · have h0 := lt_of_getElem? h
        simp at h0
        simp [show f - w.fsms.length = 0 by omega] at h; omega
    · intro q p h
      simp only [step, List.length_append, List.length_singleton] at h ⊢
      have := hw.prog _ _ h; omega
    · intro f l h
      obtain ⟨g, p, h1, rfl⟩ := fsmList_some h
      simp only [step] at h1 ⊢
      rw [List.getElem?_append] at h1
      split at h1
      · rw [getD_append_left _ _ _ _ (hw.fsm _ _ _ h1)]
        exact hw.clean f _ (by simp [fsmList, h1])
      · have h0 := lt_of_getElem? h1
        simp at h0
        simp [show f - w.fsms.length = 0 by omega] at h1
        rw [← h1.2, getD_append_last]; rfl
  | add f t pat enc idx =>
    rcases addPattern_cases E w hw f t pat enc idx with ⟨w', h, -, -, -, -, h'⟩ | ⟨l, w', -, h, -, -, -, -, -, h'⟩
    · simp only [step, h]; exact h'
    · simp only [step, h]; exact h'
  | createProgram f =>
    show WF (createProgram E w f).1
    unfold createProgram
    split
    · next g p hf =>
      have hp := hw.fsm _ _ _ hf
      have key : WF { w with fsms := w.fsms.set f (some ((E.finalize g).1, p)) } := by
        have hfs : ∀ (f' : Nat) g2 p2, (w.fsms.set f (some ((E.finalize g).1, p)))[f']? = some (some (g2, p2)) →
            ∃ g3, w.fsms[f']? = some (some (g3, p2)) := by
          intro f' g2 p2 h2
          simp only [List.getElem?_set] at h2
          split at h2
          · next he =>
            subst he
            split at h2
            · simp only [Option.some.injEq, Prod.mk.injEq] at h2
              exact ⟨g, by rw [hf, h2.2]⟩
            · simp at h2
          · exact ⟨_, h2⟩
        constructor
        · intro f' g2 p2 h2
          obtain ⟨g3, h3⟩ := hfs _ _ _ h2
          exact hw.fsm _ _ _ h3
        · exact hw.prog
        · intro f' l h2
          obtain ⟨g2, p2, h3, rfl⟩ := fsmList_some h2
          obtain ⟨g3, h3⟩ := hfs _ _ _ h3
          exact hw.clean f' _ (by simp [fsmList, h3])
      simp only
      split
      · constructor
        · exact key.fsm
        · intro q p2 h2
          simp only at h2
          rw [List.getElem?_append] at h2
          split at h2
          · exact hw.prog _ _ h2
          · have h0 := lt_of_getElem? h2
            simp at h0
            simp [show q - w.progs.length = 0 by omega] at h2
            subst h2; exact hp
        · exact key.clean
      · exact key
    · exact hw
  | destroyFsm f =>
    have hfs : ∀ (f' : Nat) g2 p2, (w.fsms.set f none)[f']? = some (some (g2, p2)) →
        w.fsms[f']? = some (some (g2, p2)) := by
      intro f' g2 p2 h2
      simp only [List.getElem?_set] at h2
      split at h2
      · split at h2 <;> simp at h2
      · exact h2
    constructor
    · intro f' g2 p2 h2; exact hw.fsm _ _ _ (hfs _ _ _ h2)
    · exact hw.prog
    · intro f' l h2
      obtain ⟨g2, p2, h3, rfl⟩ := fsmList_some h2
      exact hw.clean f' _ (by simp [fsmList, hfs _ _ _ h3, step])
  | destroyProgram q =>
    constructor
    · exact hw.fsm
    · intro q' p h
      simp only [step, List.getElem?_set] at h
      split at h
      · split at h <;> simp at h
      · exact hw.prog _ _ h
    · exact hw.clean
  | readProgram ps =>
    constructor
    · intro f g p h
      simp only [step, List.length_append, List.length_singleton] at h ⊢
      have := hw.fsm _ _ _ h; omega
    · intro q p h
      simp only [step, List.length_append, List.length_singleton] at h ⊢
      rw [List.getElem?_append] at h
      split at h
      · have := hw.prog _ _ h; omega
      · have h0 := lt_of_getElem? h
        simp at h0
        simp [show q - w.progs.length = 0 by omega] at h; omega
    · intro f l h
      obtain ⟨g, p, h1, rfl⟩ := fsmList_some h
      simp only [step] at h1 ⊢
      rw [getD_append_left _ _ _ _ (hw.fsm _ _ _ h1)]
      exact hw.clean f _ (by simp [fsmList, h1])

/-- What one call does to the list an existing FSM shows. -/
theorem step_fsm (E : Engine Tree Graph) (w : World Graph) (hw : WF w) (c : Call Tree) (f : Nat)
    (hf : f < w.fsms.length) :
    fsmList (step E w c).1 f =
      if killsFsm f c then none else (fsmList w f).map (· ++ added f [(c, (step E w c).2)]) := by
  have triv : ∀ o : Option (List Info), o.map (· ++ []) = o := by intro o; cases o <;> simp
  cases c with
  | createFsm =>
    simp only [killsFsm, added, triv, Bool.false_eq_true, if_false]
    unfold fsmList
    simp only [step, List.getElem?_append_left hf]
    split
    · next g p h => rw [getD_append_left _ _ _ _ (hw.fsm _ _ _ h)]
    · rfl
  | add f' t pat enc idx =>
    simp only [killsFsm, Bool.false_eq_true, if_false, step]
    rcases addPattern_cases E w hw f' t pat enc idx with ⟨w', h, h1, -⟩ | ⟨l, w', h0, h, h1, h2, -, -, -, -⟩
    · rw [h, h1]; simp [added]
    · rw [h]
      by_cases hff : f' = f
      · subst hff
        rw [h1, h0]
        simp [added, pushInfo]
      · rw [h2 f (Ne.symm hff)]
        simp [added, hff]
  | createProgram f' =>
    simp only [killsFsm, added, triv, Bool.false_eq_true, if_false, step]
    have key : ∀ g p g' (ps : List (Option Nat)), w.fsms[f']? = some (some (g, p)) →
        fsmList { w with fsms := w.fsms.set f' (some (g', p)), progs := ps } f = fsmList w f := by
      intro g p g' ps hg
      unfold fsmList
      simp only [List.getElem?_set]
      by_cases hff : f' = f
      · subst hff
        rw [if_pos rfl, if_pos hf, hg]
      · simp [hff]
    unfold createProgram
    split
    · next g p hg =>
      simp only
      split
      · exact key g p _ _ hg
      · exact key g p _ _ hg
    · rfl
  | destroyFsm f' =>
    simp only [killsFsm, added, triv, step]
    unfold fsmList
    simp only [List.getElem?_set]
    by_cases hff : f' = f
    · subst hff; simp [hf]
    · simp [hff]
  | destroyProgram q =>
    simp only [killsFsm, added, triv, Bool.false_eq_true, if_false, step]
    rfl
  | readProgram ps =>
    simp only [killsFsm, added, triv, Bool.false_eq_true, if_false]
    unfold fsmList
    simp only [step]
    split
    · next g p h => rw [getD_append_left _ _ _ _ (hw.fsm _ _ _ h)]
    · rfl

/-- What one call does to the list an existing program shows. -/
theorem step_prog (E : Engine Tree Graph) (w : World Graph) (hw : WF w) (c : Call Tree) (q : Nat)
    (hq : q < w.progs.length) :
    progList (step E w c).1 q = if killsProg q c then none else progList w q := by
  cases c with
  | createFsm =>
    simp only [killsProg, Bool.false_eq_true, if_false]
    unfold progList
    simp only [step]
    split
    · next p h => rw [getD_append_left _ _ _ _ (hw.prog _ _ h)]
    · rfl
  | add f' t pat enc idx =>
    simp only [killsProg, Bool.false_eq_true, if_false, step]
    rcases addPattern_cases E w hw f' t pat enc idx with ⟨w', h, -, h3, -⟩ | ⟨l, w', h0, h, h1, h2, h3, -, -, -⟩
    · rw [h]; exact h3 q
    · rw [h]; exact h3 q
  | createProgram f' =>
    simp only [killsProg, Bool.false_eq_true, if_false, step]
    unfold createProgram
    split
    · simp only
      split
      · simp [progList, List.getElem?_append_left hq]
      · rfl
    · rfl
  | destroyFsm f' => rfl
  | destroyProgram q' =>
    simp only [killsProg, step]
    unfold progList
    simp only [List.getElem?_set]
    by_cases hff : q' = q
    · subst hff; simp [hq]
    · simp [hff]
  | readProgram ps =>
    simp only [killsProg, Bool.false_eq_true, if_false]
    unfold progList
    simp only [step, List.getElem?_append_left hq]
    split
    · next p h => rw [getD_append_left _ _ _ _ (hw.prog _ _ h)]
    · rfl

theorem step_lengths (E : Engine Tree Graph) (w : World Graph) (hw : WF w) (c : Call Tree) :
    w.fsms.length ≤ (step E w c).1.fsms.length ∧ w.progs.length ≤ (step E w c).1.progs.length := by
  cases c with
  | add f t pat enc idx =>
    rcases addPattern_cases E w hw f t pat enc idx with ⟨w', h, -, -, h4, h5, -⟩ | ⟨l, w', h0, h, h1, h2, h3, h4, h5, -⟩
    · simp only [step, h]; omega
    · simp only [step, h]; omega
  | createProgram f =>
    simp only [step, createProgram]
    split
    · split <;> simp
    · simp
  | _ => simp [step]

/-- The new FSM of a call, if any, shows no patterns. -/
theorem step_new_fsm (E : Engine Tree Graph) (w : World Graph) (hw : WF w) (c : Call Tree) (f : Nat)
    (hf : w.fsms.length ≤ f) (l : List Info) (h : fsmList (step E w c).1 f = some l) : l = [] := by
  cases c with
  | createFsm =>
    obtain ⟨g, p, h1, rfl⟩ := fsmList_some h
    simp only [step] at h1 ⊢
    have h0 := lt_of_getElem? h1
    simp at h0
    rw [List.getElem?_append_right hf] at h1
    simp [show f - w.fsms.length = 0 by omega] at h1
    rw [← h1.2, getD_append_last]
  | add f' t pat enc idx =>
    exfalso
    obtain ⟨g, p, h1, rfl⟩ := fsmList_some h
    have := lt_of_getElem? h1
    rcases addPattern_cases E w hw f' t pat enc idx with ⟨w', h, -, -, h4, h5, -⟩ | ⟨l, w', h0, h, h1, h2, h3, h4, h5, -⟩
    · simp only [step, h] at this; omega
    · simp only [step, h] at this; omega
  | createProgram f' =>
    exfalso
    obtain ⟨g, p, h1, rfl⟩ := fsmList_some h
    have := lt_of_getElem? h1
    simp only [step, createProgram] at this
    split at this
    · split at this <;> simp at this <;> omega
    · simp at this; omega
  | destroyFsm f' =>
    exfalso
    obtain ⟨g, p, h1, rfl⟩ := fsmList_some h
    have := lt_of_getElem? h1
    simp [step] at this; omega
  | destroyProgram q =>
    exfalso
    obtain ⟨g, p, h1, rfl⟩ := fsmList_some h
    have := lt_of_getElem? h1
    simp [step] at this; omega
  | readProgram ps =>
    exfalso
    obtain ⟨g, p, h1, rfl⟩ := fsmList_some h
    have := lt_of_getElem? h1
    simp [step] at this; omega

/-- The state agrees with the history so far. -/
structure Agrees (w : World Graph) (tr : List (Call Tree × Int)) : Prop where
  wf : WF w
  lists : ∀ f l, fsmList w f = some l → l = added f tr
  fresh : ∀ f, w.fsms.length ≤ f → added f tr = []

theorem agrees_init : Agrees (World.init : World Graph) ([] : List (Call Tree × Int)) := by
  constructor
  · constructor
    · intro f g p h; simp [World.init] at h
    · intro f p h; simp [World.init] at h
    · intro f l h; simp [World.init, fsmList] at h
  · intro f l h; simp [World.init, fsmList] at h
  · intro f _; rfl

theorem agrees_step (E : Engine Tree Graph) (w : World Graph) (tr : List (Call Tree × Int))
    (h : Agrees w tr) (c : Call Tree) : Agrees (step E w c).1 (tr ++ [(c, (step E w c).2)]) := by
  have hlen := step_lengths E w h.wf c
  have hfresh : ∀ f, w.fsms.length ≤ f → added f [(c, (step E w c).2)] = [] := by
    intro f hf
    cases c with
    | add f' t pat enc idx =>
      rcases addPattern_cases E w h.wf f' t pat enc idx with ⟨w', h1, -⟩ | ⟨l, w', h0, -⟩
      · have : (step E w (.add f' t pat enc idx)).2 = -1 := by simp only [step, h1]
        rw [this]; simp [added]
      · obtain ⟨g, p, h2, -⟩ := fsmList_some h0
        have := lt_of_getElem? h2
        simp [added, show ¬ f' = f by omega]
    | _ => rfl
  constructor
  · exact step_wf E w h.wf c
  · intro f l hl
    rw [added_append]
    rcases Nat.lt_or_ge f w.fsms.length with hf | hf
    · rw [step_fsm E w h.wf c f hf] at hl
      split at hl
      · simp at hl
      · cases h1 : fsmList w f with
        | none => rw [h1] at hl; simp at hl
        | some l0 =>
          rw [h1] at hl
          simp at hl
          rw [← hl, h.lists f l0 h1]
    · rw [step_new_fsm E w h.wf c f hf l hl, h.fresh f hf, hfresh f hf]; rfl
  · intro f hf
    rw [added_append, h.fresh f (by omega), hfresh f (by omega)]; rfl

/-- A history can be cut anywhere. -/
theorem runCalls_cut (E : Engine Tree Graph) (cs : List (Call Tree)) :
    ∀ (w : World Graph) (tr : List (Call Tree × Int)), Agrees w tr →
      Agrees (runCalls E w cs).1 (tr ++ (runCalls E w cs).2) ∧
      ∀ pre c r post, (runCalls E w cs).2 = pre ++ (c, r) :: post →
        ∃ w1 cs', Agrees w1 (tr ++ pre) ∧ r = (step E w1 c).2 ∧
          runCalls E (step E w1 c).1 cs' = ((runCalls E w cs).1, post) := by
  induction cs with
  | nil => intro w tr h; simp [runCalls, h]
  | cons c0 cs ih =>
    intro w tr h
    have hs := agrees_step E w tr h c0
    obtain ⟨i1, i2⟩ := ih _ _ hs
    constructor
    · simp only [runCalls]
      rw [List.append_assoc] at i1
      exact i1
    · intro pre c r post hp
      simp only [runCalls] at hp ⊢
      cases pre with
      | nil =>
        simp only [List.nil_append, List.cons.injEq, Prod.mk.injEq] at hp
        obtain ⟨⟨rfl, rfl⟩, rfl⟩ := hp
        exact ⟨w, cs, by simpa using h, rfl, rfl⟩
      | cons x pre =>
        simp only [List.cons_append, List.cons.injEq] at hp
        obtain ⟨rfl, hp⟩ := hp
        obtain ⟨w1, cs', h1, h2, h3⟩ := i2 pre c r post hp
        exact ⟨w1, cs', by simpa [List.append_assoc] using h1, h2, h3⟩

theorem run_prog (E : Engine Tree Graph) (cs : List (Call Tree)) :
    ∀ (w : World Graph), WF w → ∀ q, q < w.progs.length → ∀ l,
      progList (runCalls E w cs).1 q = some l → progList w q = some l := by
  induction cs with
  | nil => intro w _ q _ l h; exact h
  | cons c cs ih =>
    intro w hw q hq l h
    have := ih _ (step_wf E w hw c) q (by have := step_lengths E w hw c; omega) l h
    rw [step_prog E w hw c q hq] at this
    split at this
    · simp at this
    · exact this

theorem run_prog_alive (E : Engine Tree Graph) (cs : List (Call Tree)) :
    ∀ (w : World Graph), WF w → ∀ q l, progList w q = some l → (∀ c ∈ cs, killsProg q c = false) →
      progList (runCalls E w cs).1 q = some l := by
  induction cs with
  | nil => intro w _ q l h _; exact h
  | cons c cs ih =>
    intro w hw q l h hk
    have hq : q < w.progs.length := by
      unfold progList at h
      split at h
      · next p hp => exact lt_of_getElem? hp
      · simp at h
    refine ih _ (step_wf E w hw c) q l ?_ (fun c hc => hk c (by simp [hc]))
    rw [step_prog E w hw c q hq, hk c (by simp)]
    simpa using h

theorem run_trace_calls (E : Engine Tree Graph) (cs : List (Call Tree)) (w : World Graph) :
    (runCalls E w cs).2.map Prod.fst = cs := by
  induction cs generalizing w with
  | nil => rfl
  | cons c cs ih => simp [runCalls, ih]

/-- **C39** After any history of calls, an FSM that is still there lists exactly
the patterns whose additions succeeded, in order (failed additions leave no
trace); each successful addition returned the number of successful additions
before it, and that index still names that pattern, encoding and user index. -/
theorem keyword_indices (E : Engine Tree Graph) (cs : List (Call Tree)) (w : World Graph)
    (tr : List (Call Tree × Int)) (hrun : runCalls E World.init cs = (w, tr)) :
    (∀ f l, fsmList w f = some l → l = added f tr) ∧
    (∀ (f : Nat) (t : Tree) (pat enc : List Nat) (idx : Nat) (r : Int) (pre post : List (Call Tree × Int)), tr = pre ++ (.add f t pat enc idx, r) :: post → 0 ≤ r →
      r = (added f pre).length ∧
      ∀ l, fsmList w f = some l → l[r.toNat]? = some ⟨cstr pat, cstr enc, idx⟩) := by
  obtain ⟨h1, h2⟩ := runCalls_cut E cs World.init [] agrees_init
  rw [hrun] at h1 h2
  simp only [List.nil_append] at h1 h2
  refine ⟨h1.lists, ?_⟩
  intro f t pat enc idx r pre post htr hr
  obtain ⟨w1, cs', a1, a2, -⟩ := h2 pre _ r post htr
  have hlen : r = (added f pre).length := by
    simp only [step] at a2
    rcases addPattern_cases E w1 a1.wf f t pat enc idx with ⟨w', h, -⟩ | ⟨l, w', h0, h, -⟩
    · rw [h] at a2; simp at a2; omega
    · rw [h] at a2
      rw [a2, a1.lists f l h0]
  refine ⟨hlen, ?_⟩
  intro l hl
  rw [h1.lists f l hl, htr, added_append]
  have : added f ((Call.add f t pat enc idx, r) :: post) =
      ⟨cstr pat, cstr enc, idx⟩ :: added f post := by simp [added, hr]
  rw [this, hlen]
  simp

/-- **C40** A program made from an FSM shows, at every later point of every history
in which it has not been destroyed, exactly the patterns the FSM had at that
moment. -/
theorem program_list_frozen (E : Engine Tree Graph) (cs : List (Call Tree)) (w : World Graph)
    (tr : List (Call Tree × Int)) (hrun : runCalls E World.init cs = (w, tr))
    (f : Nat) (r : Int) (pre post : List (Call Tree × Int))
    (htr : tr = pre ++ (.createProgram f, r) :: post) (hr : 0 ≤ r)
    (hlive : ∀ x ∈ post, killsProg r.toNat x.1 = false) :
    progList w r.toNat = some (added f pre) := by
  obtain ⟨h1, h2⟩ := runCalls_cut E cs World.init [] agrees_init
  rw [hrun] at h1 h2
  simp only [List.nil_append] at h1 h2
  obtain ⟨w1, cs', a1, a2, a3⟩ := h2 pre _ r post htr
  have hc : progList (step E w1 (.createProgram f)).1 r.toNat = some (added f pre) := by
    simp only [step, createProgram] at a2 ⊢
    split at a2
    · next g p hg =>
      split at a2
      · next hok =>
        rw [hok]
        simp only [if_true]
        rw [a2]
        have := a1.lists f _ (show fsmList w1 f = some (w1.maps.getD p []) by simp [fsmList, hg])
        rw [← this]
        simp [progList]
      · simp at a2; omega
    · simp at a2; omega
  have hk : ∀ c ∈ cs', killsProg r.toNat c = false := by
    intro c hc
    have := run_trace_calls E cs' (step E w1 (.createProgram f)).1
    rw [a3] at this
    rw [← this] at hc
    obtain ⟨x, hx, rfl⟩ := List.mem_map.1 hc
    exact hlive x hx
  have := run_prog_alive E cs' _ (step_wf E w1 a1.wf _) _ _ hc hk
  rw [a3] at this
  exact this

/-- A concrete history: two patterns, a refused one in between, a program, and a
further pattern; the engine here refuses the tree `0`. -/
def demoEngine : Engine Nat Unit := ⟨(), fun _ t _ _ => ((), decide (t ≠ 0)), fun _ => ((), true)⟩

def demoCalls : List (Call Nat) :=
  [.createFsm, .add 0 1 [97] [65] 10, .add 0 0 [98] [65] 11, .add 0 2 [99] [65] 12,
    .createProgram 0, .add 0 3 [100] [65] 13]

example : (runCalls demoEngine World.init demoCalls).2.map Prod.snd = [0, 0, -1, 1, 0, 2] ∧
    fsmList (runCalls demoEngine World.init demoCalls).1 0 =
      some [⟨[97], [65], 10⟩, ⟨[99], [65], 12⟩, ⟨[100], [65], 13⟩] ∧
    progList (runCalls demoEngine World.init demoCalls).1 0 =
      some [⟨[97], [65], 10⟩, ⟨[99], [65], 12⟩] := by decide +kernel

end Verif.Handles
