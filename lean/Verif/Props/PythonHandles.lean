import Verif.PythonHandles
import Verif.Props.JavaHandles
/-!
# C92: Python handles
-/
namespace Verif.Python
open Verif.Java (Kind World Owned destroyHandle owned_make owned_init touch_owned destroy_keeps destroy_twice get_lt)

theorem get_ok {w : Handles} {k : Kind} {h p : Nat} (e : w.get k h = .ok p) : w.objs.handles[h]? = some (k, p) ∧ p ≠ 0 := by
  unfold Handles.get at e
  split at e
  · next k' q hh =>
    split at e
    · next hk => cases e; rw [hh, hk.1]; exact ⟨rfl, hk.2⟩
    · cases e
  · cases e

theorem touch_ok {w : Handles} (hw : Owned w.objs) {k : Kind} {h p : Nat} (e : w.get k h = .ok p) : w.touch k p = .ok w := by
  obtain ⟨h1, h2⟩ := get_ok e
  unfold Handles.touch
  rw [touch_owned hw h1 h2]

theorem close_cases {w : Handles} (hw : Owned w.objs) (h : Nat) :
    (∃ o, destroyHandle w.objs h = .ok o ∧ Owned o) ∨ ∃ e, destroyHandle w.objs h = .threw e := by
  unfold destroyHandle
  cases hh : w.objs.handles[h]? with
  | none => exact .inr ⟨_, rfl⟩
  | some kp =>
    obtain ⟨k, p⟩ := kp
    have hd : ∃ o, destroyHandle w.objs h = .ok o := by
      unfold destroyHandle
      rw [hh]
      cases p with
      | zero => exact ⟨_, rfl⟩
      | succ i => simp only [hw.has hh, if_true]; exact ⟨_, rfl⟩
    obtain ⟨o, ho⟩ := hd
    have := (destroy_keeps hw ho).1
    unfold destroyHandle at ho
    rw [hh] at ho
    exact .inl ⟨o, ho, this⟩

theorem step_owned {w : Handles} (hw : Owned w.objs) (o : Do) :
    (∃ w', step w o = .ok w' ∧ Owned w'.objs) ∨ step w o = .raised := by
  have huse : ∀ k h, (∃ w', use w k h = .ok w' ∧ Owned w'.objs) ∨ use w k h = .raised := by
    intro k h
    unfold use
    split
    · next p e => exact .inl ⟨w, touch_ok hw e, hw⟩
    · exact .inr rfl
  have hnew : ∀ made, (∃ w', newProgram w made = .ok w' ∧ Owned w'.objs) ∨ newProgram w made = .raised := by
    intro made
    cases made with
    | false => exact .inr rfl
    | true => exact .inl ⟨_, rfl, owned_make hw .program true⟩
  cases o with
  | create k made =>
    simp only [step]
    split
    · exact .inl ⟨w, rfl, hw⟩
    · exact .inl ⟨_, rfl, owned_make hw _ _⟩
  | program f made =>
    simp only [step, program]
    split
    · next p e =>
      rw [touch_ok hw e]
      exact hnew made
    · exact .inr rfl
  | read made => exact hnew made
  | context p made =>
    simp only [step, context]
    split
    · next a e =>
      rw [touch_ok hw e]
      exact .inl ⟨_, rfl, owned_make hw _ _⟩
    · exact .inr rfl
  | use k h => exact huse k h
  | addPattern f p =>
    simp only [step, addPattern]
    split
    · next a e =>
      split
      · next b e' =>
        rw [touch_ok hw e]
        exact .inl ⟨w, touch_ok hw e', hw⟩
      · exact .inr rfl
    · exact .inr rfl
  | search c =>
    simp only [step, search]
    split
    · next a e =>
      split
      · next b e' =>
        rw [touch_ok hw e']
        exact .inl ⟨w, touch_ok hw e, hw⟩
      · exact .inr rfl
    · exact .inr rfl
  | reset c => exact huse _ _
  | hitContext d => exact huse _ _
  | close h =>
    simp only [step, close]
    rcases close_cases hw h with ⟨o, e, ho⟩ | ⟨x, e⟩
    · rw [e]; exact .inl ⟨_, rfl, ho⟩
    · rw [e]; exact .inr rfl

theorem history_owned {w : Handles} (hw : Owned w.objs) (os : List Do) : ∃ w', history os w = some w' ∧ Owned w'.objs := by
  induction os generalizing w with
  | nil => exact ⟨w, rfl, hw⟩
  | cons o os ih =>
    simp only [history]
    rcases step_owned hw o with ⟨w', e, hw'⟩ | e
    · rw [e]; exact ih hw'
    · rw [e]; exact ih hw

/-- **C92** In every history of calls of the Python binding, closed handles included, the library
never uses or frees an object that is not there, every object that exists belongs to exactly one
handle, and every handle that is not closed has its object. -/
theorem python_handles (os : List Do) :
    ∃ w, history os .init = some w ∧
      (∀ (h : Nat) k i, w.objs.handles[h]? = some (k, i + 1) → w.objs.natives[i]? = some (k, true)) ∧
      (∀ (i : Nat) k, w.objs.natives[i]? = some (k, true) → ∃ h : Nat, w.objs.handles[h]? = some (k, i + 1) ∧
        ∀ (h' : Nat) k', w.objs.handles[h']? = some (k', i + 1) → h' = h) := by
  obtain ⟨w, h, o⟩ := history_owned (w := .init) owned_init os
  refine ⟨w, h, fun _ _ _ => o.has, fun i k hi => ?_⟩
  obtain ⟨x, hx⟩ := o.owner hi
  exact ⟨x, hx, fun h' k' hh => o.one hh hx⟩

/-- The handles a call uses, other than by closing. -/
def Do.uses (w : Handles) : Do → List Nat
  | .create _ _ => []
  | .program f _ => [f]
  | .read _ => []
  | .context p _ => [p]
  | .use _ h => [h]
  | .addPattern f p => [f, p]
  | .search c => [c, w.prog c]
  | .reset c => [c]
  | .hitContext d => [d]
  | .close _ => []

/-- **C92** A call that uses a closed handle, also a search with a context whose program is closed,
raises an exception. -/
theorem closed_refused {w : Handles} {o : Do} {h : Nat} (ho : h ∈ o.uses w) {k : Kind}
    (hc : w.objs.handles[h]? = some (k, 0)) : step w o = .raised := by
  have hg : ∀ k', w.get k' h = .raised := by
    intro k'; simp [Handles.get, hc]
  have hn : ∀ k' h', w.get k' h' ≠ .ub := by
    intro k' h' e
    unfold Handles.get at e
    split at e
    · split at e <;> cases e
    · cases e
  cases o <;> simp only [Do.uses, List.mem_cons, List.not_mem_nil, or_false] at ho
  case program => subst ho; simp [step, program, hg]
  case context => subst ho; simp [step, context, hg]
  case use => subst ho; simp [step, use, hg]
  case reset => subst ho; simp [step, use, hg]
  case hitContext => subst ho; simp [step, use, hg]
  case addPattern f p =>
    simp only [step, addPattern]
    rcases ho with rfl | rfl
    · simp [hg]
    · simp only [hg]
      split <;> rfl
  case search c =>
    simp only [step, search]
    rcases ho with rfl | rfl
    · simp only [hg]
      split <;> rfl
    · simp [hg]

/-- **C92** After closing a handle it is closed, closing it again changes nothing, and the other
handles keep their objects. -/
theorem close_closes {w w' : Handles} (hw : Owned w.objs) {h : Nat} (e : close w h = .ok w') :
    close w' h = .ok w' ∧ (∃ k, w'.objs.handles[h]? = some (k, 0)) ∧
    ∀ h' : Nat, h' ≠ h → w'.objs.handles[h']? = w.objs.handles[h']? := by
  unfold close at e
  cases ho : destroyHandle w.objs h with
  | threw x => rw [ho] at e; cases e
  | wild => rw [ho] at e; cases e
  | ok o =>
    rw [ho] at e
    cases e
    obtain ⟨h1, h2⟩ := destroy_twice hw ho
    obtain ⟨-, -, -, h3⟩ := destroy_keeps hw ho
    refine ⟨by unfold close; rw [h1], ?_, h2⟩
    cases hh : o.handles[h]? with
    | none =>
      unfold destroyHandle at h1
      rw [hh] at h1
      cases h1
    | some kp =>
      obtain ⟨k, p⟩ := kp
      have := h3 _ hh
      simp only at this
      subst this
      exact ⟨k, rfl⟩

/-- The library is searched with after the FSM and the pattern are gone; closed handles are refused. -/
example : ∃ w, history [.create .pattern true, .create .fsm true, .use .pattern 0, .addPattern 1 0, .program 1 true, .close 0,
      .close 1, .close 1, .addPattern 1 0, .context 2 true, .search 3, .close 2, .search 3, .reset 3, .close 3] .init = some w ∧
    w.objs.natives = [(.pattern, false), (.fsm, false), (.program, false), (.context, false)] :=
  ⟨_, rfl, by decide⟩

end Verif.Python
