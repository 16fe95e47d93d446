import Verif.VectorFamily
/-! # C28: the compact adjacency lists behave as lists -/
namespace Verif.VectorFamily

variable {α : Type} [DecidableEq α]

/-- Specification: a client's view is a list of lists.  `none` when the list
does not exist or the element to remove is absent. -/
def specStep (ls : List (List α)) : Op α → Option (List (List α))
  | .new => some (ls ++ [[]])
  | .add k e => (ls[k]?).map (fun l => ls.set k (l ++ [e]))
  | .insert k i e => (ls[k]?).map (fun l => ls.set k (l.insertIdx (min i l.length) e))
  | .remove k e => (ls[k]?).bind (fun l => if e ∈ l then some (ls.set k (l.erase e)) else none)
  | .clear k => (ls[k]?).map (fun _ => ls.set k [])

def specRun (ls : List (List α)) : List (Op α) → Option (List (List α))
  | [] => some ls
  | o :: os => (specStep ls o).bind (fun ls' => specRun ls' os)

theorem step_refines {f : Fam α} {ls : List (List α)} (h : Inv f ls) (o : Op α) :
    match step f o, specStep ls o with
    | some f', some ls' => Inv f' ls'
    | none, none => True
    | _, _ => False := by
  cases o with
  | new =>
    simp only [step, specStep, newList]
    constructor
    · simp [h.len]
    · intro k hh l hk hl
      simp only at hk
      by_cases hkl : k < f.handles.length
      · rw [List.getElem?_append_left hkl] at hk
        rw [List.getElem?_append_left (by rw [← h.len]; exact hkl)] at hl
        have := h.rep k hh l hk hl
        cases hh <;> exact this
      · rw [List.getElem?_append_right (by omega)] at hk
        rw [List.getElem?_append_right (by rw [← h.len]; omega), ← h.len] at hl
        cases hd : k - f.handles.length with
        | zero =>
          rw [hd] at hk hl
          simp at hk hl
          subst hk; subst hl; rfl
        | succ n => rw [hd] at hk; simp at hk
    · intro k k' i h1 h2
      simp only at h1 h2
      have lem : ∀ k : Nat, (f.handles ++ [Handle.zero])[k]? = some (Handle.many i) → f.handles[k]? = some (Handle.many i) := by
        intro k hk
        by_cases hkl : k < f.handles.length
        · rwa [List.getElem?_append_left hkl] at hk
        · rw [List.getElem?_append_right (by omega)] at hk
          cases hd : k - f.handles.length with
          | zero => rw [hd] at hk; simp at hk
          | succ n => rw [hd] at hk; simp at hk
      exact h.apart k k' i (lem k h1) (lem k' h2)
    · intro k i hk
      simp only at hk ⊢
      by_cases hkl : k < f.handles.length
      · rw [List.getElem?_append_left hkl] at hk; exact h.bound k i hk
      · rw [List.getElem?_append_right (by omega)] at hk
        cases hd : k - f.handles.length with
        | zero => rw [hd] at hk; simp at hk
        | succ n => rw [hd] at hk; simp at hk
  | add k e =>
    simp only [step, specStep, add]
    cases hk : f.handles[k]? with
    | none =>
      have : ls[k]? = none := by
        rw [List.getElem?_eq_none_iff] at hk ⊢; rw [← h.len]; exact hk
      simp [this]
    | some hd =>
      obtain ⟨l, hl⟩ := getElem?_some_of_len h.len hk
      have hr := h.rep k hd l hk hl
      simp only [hl, Option.map_some]
      cases hd with
      | zero =>
        simp only [Rep] at hr; subst hr
        exact inv_set_small h (Or.inr ⟨e, rfl, rfl⟩) rfl (fun _ _ _ _ => rfl)
      | one x =>
        simp only [Rep] at hr; subst hr
        exact inv_promote h (by simp)
      | many s =>
        simp only [Rep] at hr
        simp only [hr.1]
        exact inv_rewrite h hk (by rw [List.length_append]; omega)
  | insert k i e =>
    simp only [step, specStep, insert]
    cases hk : f.handles[k]? with
    | none =>
      have : ls[k]? = none := by
        rw [List.getElem?_eq_none_iff] at hk ⊢; rw [← h.len]; exact hk
      simp [this]
    | some hd =>
      obtain ⟨l, hl⟩ := getElem?_some_of_len h.len hk
      have hr := h.rep k hd l hk hl
      simp only [hl, Option.map_some]
      cases hd with
      | zero =>
        simp only [Rep] at hr; subst hr
        simp only [List.length_nil, Nat.min_zero, List.insertIdx_zero]
        exact inv_set_small h (Or.inr ⟨e, rfl, rfl⟩) rfl (fun _ _ _ _ => rfl)
      | one x =>
        simp only [Rep] at hr; subst hr
        have : (if i = 0 then [e, x] else [x, e]) = [x].insertIdx (min i [x].length) e := by
          by_cases hi : i = 0
          · subst hi; simp
          · rw [if_neg hi, show min i [x].length = 1 by simp; omega]; rfl
        simp only
        rw [this]
        apply inv_promote h
        rw [← this]
        split <;> simp
      | many s =>
        simp only [Rep] at hr
        simp only [hr.1]
        have : (if i < l.length then l.insertIdx i e else l ++ [e]) = l.insertIdx (min i l.length) e := by
          split
          · rename_i hi; rw [Nat.min_eq_left (by omega)]
          · rename_i hi
            rw [Nat.min_eq_right (by omega), List.insertIdx_length_self]
        rw [this]
        apply inv_rewrite h hk
        rw [← this]
        split
        · rw [List.length_insertIdx]; split <;> omega
        · rw [List.length_append]; omega
  | remove k e =>
    simp only [step, specStep, remove]
    cases hk : f.handles[k]? with
    | none =>
      have : ls[k]? = none := by
        rw [List.getElem?_eq_none_iff] at hk ⊢; rw [← h.len]; exact hk
      simp [this]
    | some hd =>
      obtain ⟨l, hl⟩ := getElem?_some_of_len h.len hk
      have hr := h.rep k hd l hk hl
      simp only [hl, Option.bind_some]
      cases hd with
      | zero => simp only [Rep] at hr; subst hr; simp
      | one x =>
        simp only [Rep] at hr; subst hr
        by_cases hx : x = e
        · subst hx
          simp only [ne_eq, not_true_eq_false, if_false, List.mem_singleton, if_true, List.erase_cons_head]
          exact inv_set_small h (Or.inl ⟨rfl, rfl⟩) rfl (fun _ _ _ _ => rfl)
        · have hx' : ¬ e = x := fun h => hx h.symm
          simp [hx, hx']
      | many s =>
        simp only [Rep] at hr
        simp only [hr.1]
        by_cases he : e ∈ l
        · simp only [if_pos he]
          have hlen := List.length_erase_of_mem he
          match hl' : l.erase e with
          | [] => rw [hl'] at hlen; simp at hlen; omega
          | [y] =>
            simp only
            apply inv_set_small h (Or.inr ⟨y, rfl, rfl⟩) (by simp)
            intro j i hj hji
            rw [List.getElem?_set_ne]
            intro hc; subst hc
            exact hj (h.apart j k s hji hk)
          | a :: b :: r =>
            simp only
            exact inv_rewrite h hk (by simp)
        · simp [he]
  | clear k =>
    simp only [step, specStep, clear]
    cases hk : f.handles[k]? with
    | none =>
      have : ls[k]? = none := by
        rw [List.getElem?_eq_none_iff] at hk ⊢; rw [← h.len]; exact hk
      simp [this]
    | some hd =>
      obtain ⟨l, hl⟩ := getElem?_some_of_len h.len hk
      have hr := h.rep k hd l hk hl
      simp only [hl, Option.map_some]
      cases hd with
      | zero =>
        simp only [Rep] at hr; subst hr
        have : ls.set k [] = ls := by
          apply List.ext_getElem?
          intro j
          by_cases hj : k = j
          · subst hj
            have hlt := (List.getElem?_eq_some_iff.1 hl).1
            rw [List.getElem?_set_self hlt, hl]
          · rw [List.getElem?_set_ne hj]
        rw [this]; exact h
      | one x => exact inv_set_small h (Or.inl ⟨rfl, rfl⟩) rfl (fun _ _ _ _ => rfl)
      | many s =>
        apply inv_set_small h (Or.inl ⟨rfl, rfl⟩) (by simp)
        intro j i hj hji
        rw [List.getElem?_set_ne]
        intro hc; subst hc
        exact hj (h.apart j k s hji hk)

theorem run_refines (os : List (Op α)) : ∀ {f : Fam α} {ls : List (List α)}, Inv f ls →
    match run f os, specRun ls os with
    | some f', some ls' => Inv f' ls'
    | none, none => True
    | _, _ => False := by
  induction os with
  | nil => intro f ls h; exact h
  | cons o os ih =>
    intro f ls h
    have hs := step_refines h o
    simp only [run, specRun]
    cases h1 : step f o with
    | none =>
      cases h2 : specStep ls o with
      | none => simp
      | some ls' => rw [h1, h2] at hs; exact hs.elim
    | some f' =>
      cases h2 : specStep ls o with
      | none => rw [h1, h2] at hs; exact hs.elim
      | some ls' =>
        rw [h1, h2] at hs
        exact ih hs

/-- C28.  Starting from an empty family, any history of operations on any
number of lists succeeds or throws exactly when the same history on plain lists
does, and then every list reads back (size, iteration, indexed access within
bounds) as the plain list. -/
theorem vectorFamily_refines_lists (os : List (Op α)) :
    (run (⟨[], []⟩ : Fam α) os = none ∧ specRun ([] : List (List α)) os = none) ∨
    ∃ f ls, run (⟨[], []⟩ : Fam α) os = some f ∧ specRun ([] : List (List α)) os = some ls ∧
      f.handles.length = ls.length ∧
      ∀ (k : Nat) h l, f.handles[k]? = some h → ls[k]? = some l →
        contents f h = l ∧ size f h = l.length ∧ ∀ i, i < l.length → «at» f h i = l[i]? := by
  have := run_refines os (f := (⟨[], []⟩ : Fam α)) (ls := []) ⟨rfl, by simp, by simp, by simp⟩
  cases h1 : run (⟨[], []⟩ : Fam α) os with
  | none =>
    cases h2 : specRun ([] : List (List α)) os with
    | none => exact Or.inl ⟨rfl, rfl⟩
    | some ls => rw [h1, h2] at this; exact this.elim
  | some f =>
    cases h2 : specRun ([] : List (List α)) os with
    | none => rw [h1, h2] at this; exact this.elim
    | some ls =>
      rw [h1, h2] at this
      refine Or.inr ⟨f, ls, rfl, rfl, this.len, ?_⟩
      intro k h l hk hl
      have hr := this.rep k h l hk hl
      cases h with
      | zero => simp only [Rep] at hr; subst hr; simp [contents, size]
      | one x =>
        simp only [Rep] at hr; subst hr
        refine ⟨rfl, rfl, fun i hi => ?_⟩
        simp at hi; subst hi; rfl
      | many s =>
        simp only [Rep] at hr
        simp [contents, size, «at», hr.1]

example : specRun ([] : List (List Nat))
    [.new, .new, .add 0 1, .add 0 2, .add 1 7, .insert 0 1 5, .remove 0 1, .remove 0 2, .add 0 9] =
    some [[5, 9], [7]] := by decide

end Verif.VectorFamily
