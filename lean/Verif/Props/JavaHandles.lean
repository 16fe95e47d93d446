import Verif.JavaHandles
import Verif.Props.Java
/-!
# Java handles: C84

Whatever a Java program does with its handles, in whatever order, the library never uses or
frees an object that it no longer has, and every object belongs to exactly one handle, so
that closing the handles frees everything.  There is one exception: a decoder that was
destroyed is not refused by `getHitContext`.
-/
namespace Verif.Java

/-- Every object that exists belongs to exactly one handle, and every handle that is not
destroyed has its object. -/
structure Owned (w : World) : Prop where
  has : ∀ {h : Nat} {k : Kind} {i : Nat}, w.handles[h]? = some (k, i + 1) → w.natives[i]? = some (k, true)
  one : ∀ {h h' : Nat} {k k' : Kind} {i : Nat}, w.handles[h]? = some (k, i + 1) → w.handles[h']? = some (k', i + 1) → h = h'
  owner : ∀ {i : Nat} {k : Kind}, w.natives[i]? = some (k, true) → ∃ h : Nat, w.handles[h]? = some (k, i + 1)

theorem owned_init : Owned World.init := ⟨by simp [World.init], by simp [World.init], by simp [World.init]⟩

theorem get_append_one {α : Type} {l : List α} {a b : α} {i : Nat} (h : (l ++ [a])[i]? = some b) :
    l[i]? = some b ∨ (i = l.length ∧ a = b) := by
  rw [List.getElem?_append] at h
  split at h
  · exact .inl h
  · next hi =>
    obtain ⟨h1, h2⟩ := List.getElem?_eq_some_iff.1 h
    simp at h1 h2
    exact .inr ⟨by omega, h2⟩

theorem get_lt {α : Type} {l : List α} {i : Nat} {a : α} (h : l[i]? = some a) : i < l.length :=
  (List.getElem?_eq_some_iff.1 h).1

theorem owned_make {w : World} (hw : Owned w) (k : Kind) (made : Bool) : Owned (w.makeHandle k made) := by
  unfold World.makeHandle
  split
  · refine ⟨?_, ?_, ?_⟩
    · intro h k' i hh
      rcases get_append_one hh with hh | ⟨-, hh⟩
      · have := hw.has hh
        rw [List.getElem?_append_left (get_lt this)]; exact this
      · injection hh with h1 h2
        have : i = w.natives.length := by omega
        subst this; simp [h1]
    · intro h h' k1 k2 i h1 h2
      rcases get_append_one h1 with h1 | ⟨e1, h1⟩ <;> rcases get_append_one h2 with h2 | ⟨e2, h2⟩
      · exact hw.one h1 h2
      · injection h2 with _ h2
        have := get_lt (hw.has h1)
        omega
      · injection h1 with _ h1
        have := get_lt (hw.has h2)
        omega
      · omega
    · intro i k' hi
      rcases get_append_one hi with hi | ⟨rfl, hi'⟩
      · obtain ⟨h, hh⟩ := hw.owner hi
        exact ⟨h, by rw [List.getElem?_append_left (get_lt hh)]; exact hh⟩
      · injection hi' with h1 _
        exact ⟨w.handles.length, by simp [h1]⟩
  · refine ⟨?_, ?_, ?_⟩
    · intro h k' i hh
      rcases get_append_one hh with hh | ⟨-, hh⟩
      · exact hw.has hh
      · injection hh with _ h2; omega
    · intro h h' k1 k2 i h1 h2
      rcases get_append_one h1 with h1 | ⟨e1, h1⟩ <;> rcases get_append_one h2 with h2 | ⟨e2, h2⟩
      · exact hw.one h1 h2
      · injection h2 with _ h2; omega
      · injection h1 with _ h1; omega
      · omega
    · intro i k' hi
      obtain ⟨h, hh⟩ := hw.owner hi
      exact ⟨h, by rw [List.getElem?_append_left (get_lt hh)]; exact hh⟩

theorem handle_ok {w : World} {k : Kind} {h p : Nat} (e : w.handle k h = .ok p) : w.handles[h]? = some (k, p) := by
  unfold World.handle at e
  split at e
  · next k' p' heq =>
    split at e
    · next hk => injection e with e; rw [heq, hk, e]
    · cases e
  · cases e

theorem handle_not_wild (w : World) (k : Kind) (h : Nat) : w.handle k h ≠ .wild := by
  unfold World.handle
  split
  · split <;> simp
  · simp

theorem touch_owned {w : World} (hw : Owned w) {k : Kind} {h p : Nat} (e : w.handles[h]? = some (k, p)) (hp : p ≠ 0) :
    w.touch k p = .ok () := by
  obtain ⟨i, rfl⟩ := Nat.exists_eq_succ_of_ne_zero hp
  simp only [World.touch, hw.has e, if_true]

/-- One call keeps ownership; it is undefined only when it asks a destroyed decoder. -/
theorem step_owned {w : World} (hw : Owned w) (o : Op) :
    (∃ w', step w o = .ok w' ∧ Owned w') ∨ (∃ e, step w o = .threw e) ∨
    (step w o = .wild ∧ ∃ d, o = .hitContext d ∧ w.handles[d]? = some (.decoder, 0)) := by
  cases o with
  | create k made =>
    simp only [step]
    split
    · exact .inl ⟨w, rfl, hw⟩
    · exact .inl ⟨_, rfl, owned_make hw k made⟩
  | newProgram => exact .inl ⟨_, rfl, owned_make hw _ _⟩
  | compile p f made =>
    simp only [step, compile]
    cases hp : w.handle .program p with
    | wild => exact absurd hp (handle_not_wild _ _ _)
    | threw e => exact .inr (.inl ⟨e, rfl⟩)
    | ok pp =>
    rw [bind_ok]
    cases hf : w.handle .fsm f with
    | wild => exact absurd hf (handle_not_wild _ _ _)
    | threw e => exact .inr (.inl ⟨e, rfl⟩)
    | ok fp =>
    rw [bind_ok]
    rcases checks_destroyed fp with ⟨e, h1⟩ | ⟨⟨e, he⟩, h1⟩
    · rw [e, bind_ok]
      by_cases hpp : pp = 0
      · rw [if_neg (by simpa using hpp), touch_owned hw (handle_ok hf) h1, bind_ok]
        cases made with
        | false => exact .inr (.inl ⟨_, rfl⟩)
        | true =>
          have hh := handle_ok hp
          rw [hpp] at hh
          have hlt := get_lt hh
          refine .inl ⟨_, rfl, ?_, ?_, ?_⟩
          · intro h k i hi
            rw [List.getElem?_set] at hi
            split at hi
            · next hne =>
              subst hne
              injection hi with hi
              injection hi with h1 h2
              have : i = w.natives.length := by omega
              subst this; simp [h1]
            · have := hw.has hi
              rw [List.getElem?_append_left (get_lt this)]; exact this
          · intro h h' k k' i hi hi'
            rw [List.getElem?_set] at hi hi'
            split at hi <;> split at hi'
            · omega
            · next e1 _ =>
              injection hi with hi
              injection hi with h1 h2
              have := get_lt (hw.has hi')
              omega
            · next _ e1 =>
              injection hi' with hi'
              injection hi' with h1 h2
              have := get_lt (hw.has hi)
              omega
            · exact hw.one hi hi'
          · intro i k hi
            rcases get_append_one hi with hi | ⟨rfl, hi'⟩
            · obtain ⟨h, hh'⟩ := hw.owner hi
              refine ⟨h, ?_⟩
              rw [List.getElem?_set_ne]
              · exact hh'
              · rintro rfl
                rw [hh] at hh'
                injection hh' with hh'
                injection hh' with _ hh'
                omega
            · injection hi' with hi _
              exact ⟨p, by rw [List.getElem?_set_self hlt, hi]⟩
      · rw [if_pos hpp]; exact .inr (.inl ⟨_, rfl⟩)
    · rw [he]; exact .inr (.inl ⟨e, rfl⟩)
  | createContext p made =>
    simp only [step, createContext]
    cases hp : w.handle .program p with
    | wild => exact absurd hp (handle_not_wild _ _ _)
    | threw e => exact .inr (.inl ⟨e, rfl⟩)
    | ok pp =>
    rw [bind_ok]
    rcases checks_destroyed pp with ⟨e, h1⟩ | ⟨⟨e, he⟩, h1⟩
    · rw [e, bind_ok, touch_owned hw (handle_ok hp) h1, bind_ok]
      exact .inl ⟨_, rfl, owned_make hw _ _⟩
    · rw [he]; exact .inr (.inl ⟨e, rfl⟩)
  | use k h =>
    simp only [step]
    split
    · exact .inl ⟨w, rfl, hw⟩
    · unfold useHandle
      cases hp : w.handle k h with
      | wild => exact absurd hp (handle_not_wild _ _ _)
      | threw e => exact .inr (.inl ⟨e, rfl⟩)
      | ok p =>
      rw [bind_ok]
      rcases checks_destroyed p with ⟨e, h1⟩ | ⟨⟨e, he⟩, h1⟩
      · rw [e, bind_ok, touch_owned hw (handle_ok hp) h1, bind_ok]
        exact .inl ⟨w, rfl, hw⟩
      · rw [he]; exact .inr (.inl ⟨e, rfl⟩)
  | addPattern f p =>
    simp only [step, addPattern]
    cases hp : w.handle .pattern p with
    | wild => exact absurd hp (handle_not_wild _ _ _)
    | threw e => exact .inr (.inl ⟨e, rfl⟩)
    | ok pp =>
    rw [bind_ok]
    cases hf : w.handle .fsm f with
    | wild => exact absurd hf (handle_not_wild _ _ _)
    | threw e => exact .inr (.inl ⟨e, rfl⟩)
    | ok fp =>
    rw [bind_ok]
    rcases checks_destroyed fp with ⟨e, h1⟩ | ⟨⟨e, he⟩, h1⟩
    · rw [e, bind_ok]
      rcases checks_destroyed pp with ⟨e, h2⟩ | ⟨⟨e, he⟩, h2⟩
      · rw [e, bind_ok, touch_owned hw (handle_ok hf) h1, bind_ok, touch_owned hw (handle_ok hp) h2, bind_ok]
        exact .inl ⟨w, rfl, hw⟩
      · rw [he]; exact .inr (.inl ⟨e, rfl⟩)
    · rw [he]; exact .inr (.inl ⟨e, rfl⟩)
  | hitContext d =>
    simp only [step, hitContext]
    cases hp : w.handle .decoder d with
    | wild => exact absurd hp (handle_not_wild _ _ _)
    | threw e => exact .inr (.inl ⟨e, rfl⟩)
    | ok p =>
    rw [bind_ok]
    by_cases h1 : p = 0
    · subst h1
      exact .inr (.inr ⟨rfl, d, rfl, handle_ok hp⟩)
    · rw [touch_owned hw (handle_ok hp) h1, bind_ok]
      exact .inl ⟨w, rfl, hw⟩
  | destroy h =>
    simp only [step, destroyHandle]
    cases hh : w.handles[h]? with
    | none => exact .inr (.inl ⟨_, rfl⟩)
    | some kp =>
      obtain ⟨k, p⟩ := kp
      cases p with
      | zero => exact .inl ⟨w, rfl, hw⟩
      | succ i =>
        have hlt := get_lt hh
        simp only [hw.has hh, if_true]
        refine .inl ⟨_, rfl, ?_, ?_, ?_⟩
        · intro h' k' j hj
          rw [List.getElem?_set] at hj
          split at hj
          · next e1 =>
            injection hj with hj
            injection hj with _ hj
            omega
          · next e1 =>
            have hne : i ≠ j := by
              rintro rfl
              exact e1 (hw.one hh hj)
            rw [List.getElem?_set_ne hne]
            exact hw.has hj
        · intro h1 h2 k1 k2 j hj hj'
          rw [List.getElem?_set] at hj hj'
          split at hj <;> split at hj'
          · omega
          · next e1 _ =>
            injection hj with hj
            injection hj with _ hj
            omega
          · next _ e1 =>
            injection hj' with hj'
            injection hj' with _ hj'
            omega
          · exact hw.one hj hj'
        · intro j k' hj
          rw [List.getElem?_set] at hj
          split at hj
          · next e1 =>
            subst e1
            rw [if_pos (get_lt (hw.has hh))] at hj
            injection hj with hj
            injection hj with _ hj
            cases hj
          · next e1 =>
            obtain ⟨h', hh'⟩ := hw.owner hj
            refine ⟨h', ?_⟩
            rw [List.getElem?_set_ne]
            · exact hh'
            · rintro rfl
              rw [hh] at hh'
              injection hh' with hh'
              injection hh' with _ hh'
              omega

theorem run_owned {w : World} (hw : Owned w) (os : List Op) :
    (∃ w', run os w = some w' ∧ Owned w') ∨
    (∃ before d after w', os = before ++ .hitContext d :: after ∧ run before w = some w' ∧ Owned w' ∧
      w'.handles[d]? = some (.decoder, 0)) := by
  induction os generalizing w with
  | nil => exact .inl ⟨w, rfl, hw⟩
  | cons o os ih =>
    rcases step_owned hw o with ⟨w', e, hw'⟩ | ⟨x, e⟩ | ⟨e, d, rfl, hd⟩
    · rcases ih hw' with ⟨w2, h2, o2⟩ | ⟨b, d, a, w2, rfl, h2, o2, hd⟩
      · exact .inl ⟨w2, by simp only [run, e]; exact h2, o2⟩
      · exact .inr ⟨o :: b, d, a, w2, rfl, by simp only [run, e]; exact h2, o2, hd⟩
    · rcases ih hw with ⟨w2, h2, o2⟩ | ⟨b, d, a, w2, rfl, h2, o2, hd⟩
      · exact .inl ⟨w2, by simp only [run, e]; exact h2, o2⟩
      · exact .inr ⟨o :: b, d, a, w2, rfl, by simp only [run, e]; exact h2, o2, hd⟩
    · exact .inr ⟨[], d, os, w, rfl, rfl, hw, hd⟩

/-- **C84**, missing only decoders: in every history of calls in which no destroyed decoder is
used, the library never uses or frees an object that is not there, every object that exists
belongs to exactly one handle, and every handle that was not destroyed has its object. -/
theorem java_handles_partial (os : List Op)
    (hdec : ∀ before d after w, os = before ++ .hitContext d :: after → run before World.init = some w →
      w.handles[d]? ≠ some (.decoder, 0)) :
    ∃ w, run os World.init = some w ∧
      (∀ (h : Nat) k i, w.handles[h]? = some (k, i + 1) → w.natives[i]? = some (k, true)) ∧
      (∀ (i : Nat) k, w.natives[i]? = some (k, true) → ∃ h : Nat, w.handles[h]? = some (k, i + 1) ∧
        ∀ (h' : Nat) k', w.handles[h']? = some (k', i + 1) → h' = h) := by
  rcases run_owned owned_init os with ⟨w, h, o⟩ | ⟨b, d, a, w, h1, h2, -, h3⟩
  · refine ⟨w, h, fun _ _ _ => o.has, fun i k hi => ?_⟩
    obtain ⟨x, hx⟩ := o.owner hi
    exact ⟨x, hx, fun h' k' hh => o.one hh hx⟩
  · exact absurd h3 (hdec b d a w h1 h2)

/-- Destroying a handle twice is as destroying it once, and the other handles keep their
objects. -/
theorem destroy_twice {w w' : World} (hw : Owned w) {h : Nat} (e : destroyHandle w h = .ok w') :
    destroyHandle w' h = .ok w' ∧ ∀ h' : Nat, h' ≠ h → w'.handles[h']? = w.handles[h']? := by
  unfold destroyHandle at e
  cases hh : w.handles[h]? with
  | none => rw [hh] at e; cases e
  | some kp =>
    obtain ⟨k, p⟩ := kp
    rw [hh] at e
    cases p with
    | zero =>
      injection e with e; subst e
      exact ⟨by simp [destroyHandle, hh], fun _ _ => rfl⟩
    | succ i =>
      simp only [hw.has hh, if_true] at e
      injection e with e; subst e
      refine ⟨?_, fun h' hne => List.getElem?_set_ne (fun x => hne x.symm)⟩
      unfold destroyHandle
      rw [List.getElem?_set_self (get_lt hh)]

theorem destroy_keeps {w w' : World} (hw : Owned w) {h : Nat} (e : destroyHandle w h = .ok w') :
    Owned w' ∧ w'.handles.length = w.handles.length ∧ (∀ (h' : Nat) k, w.handles[h']? = some (k, 0) → w'.handles[h']? = some (k, 0)) ∧
    ∀ kp, w'.handles[h]? = some kp → kp.2 = 0 := by
  have ho : Owned w' := by
    rcases step_owned hw (.destroy h) with ⟨w2, e2, h2⟩ | ⟨x, e2⟩ | ⟨e2, d, hd, -⟩
    · rw [show step w (.destroy h) = destroyHandle w h from rfl, e] at e2
      injection e2 with e2; rw [e2]; exact h2
    · rw [show step w (.destroy h) = destroyHandle w h from rfl, e] at e2; cases e2
    · cases hd
  refine ⟨ho, ?_⟩
  unfold destroyHandle at e
  cases hh : w.handles[h]? with
  | none => rw [hh] at e; cases e
  | some kp =>
    obtain ⟨k, p⟩ := kp
    rw [hh] at e
    cases p with
    | zero =>
      injection e with e; subst e
      exact ⟨rfl, fun _ _ x => x, fun kp x => by rw [hh] at x; injection x with x; rw [← x]⟩
    | succ i =>
      simp only [hw.has hh, if_true] at e
      injection e with e; subst e
      refine ⟨by simp, fun h' k' x => ?_, fun kp x => ?_⟩
      · rw [List.getElem?_set_ne]
        · exact x
        · rintro rfl
          rw [hh] at x
          injection x with x
          injection x with _ x
          cases x
      · simp only [List.getElem?_set_self (get_lt hh)] at x
        injection x with x
        rw [← x]

/-- **C84**: when every handle has been closed, nothing that the library made is left. -/
theorem close_all_frees {w : World} (hw : Owned w) :
    ∃ w', run ((List.range w.handles.length).map .destroy) w = some w' ∧ ∀ (i : Nat) k, w'.natives[i]? ≠ some (k, true) := by
  have key : ∀ n, n ≤ w.handles.length → ∃ w', run ((List.range n).map .destroy) w = some w' ∧ Owned w' ∧
      w'.handles.length = w.handles.length ∧ ∀ h < n, ∀ kp, w'.handles[h]? = some kp → kp.2 = 0 := by
    intro n
    induction n with
    | zero => exact fun _ => ⟨w, rfl, hw, rfl, fun _ h => by omega⟩
    | succ n ih =>
      intro hn
      obtain ⟨w1, r1, o1, l1, z1⟩ := ih (by omega)
      have happ : ∀ (a b : List Op) (w w1 : World), run a w = some w1 → run (a ++ b) w = run b w1 := by
        intro a b
        induction a with
        | nil => intro w w1 h; injection h with h; rw [h]; rfl
        | cons o a ih =>
          intro w w1 h
          simp only [run, List.cons_append] at h ⊢
          cases hs : step w o with
          | ok w2 => rw [hs] at h; exact ih _ _ h
          | threw e => rw [hs] at h; exact ih _ _ h
          | wild => rw [hs] at h; cases h
      have hlt : n < w1.handles.length := by omega
      obtain ⟨w2, e2⟩ : ∃ w2, destroyHandle w1 n = .ok w2 := by
        unfold destroyHandle
        rw [List.getElem?_eq_getElem hlt]
        cases hkp : w1.handles[n] with
        | mk k p =>
        cases p with
        | zero => exact ⟨_, rfl⟩
        | succ i =>
          have : w1.natives[i]? = some (k, true) := o1.has (by rw [List.getElem?_eq_getElem hlt, hkp])
          simp only [this, if_true]
          exact ⟨_, rfl⟩
      obtain ⟨o2, l2, k2, z2⟩ := destroy_keeps o1 e2
      refine ⟨w2, ?_, o2, by omega, fun h hh kp hkp => ?_⟩
      · rw [List.range_succ, List.map_append, happ _ _ _ _ r1]
        simp only [List.map_cons, List.map_nil, run, step, e2]
      · rcases Nat.lt_or_ge h n with hlt' | hge
        · obtain ⟨kp', hkp'⟩ : ∃ kp', w1.handles[h]? = some kp' := ⟨_, List.getElem?_eq_getElem (by omega)⟩
          obtain ⟨k, p⟩ := kp'
          have hp : p = 0 := z1 h hlt' _ hkp'
          subst hp
          have := k2 h k hkp'
          rw [this] at hkp
          injection hkp with hkp
          rw [← hkp]
        · have : h = n := by omega
          subst this
          exact z2 kp hkp
  obtain ⟨w', r, o, l, z⟩ := key _ (Nat.le_refl _)
  refine ⟨w', r, fun i k hi => ?_⟩
  obtain ⟨h, hh⟩ := o.owner hi
  have := z h (by have := get_lt hh; omega) _ hh
  cases this

/-- The exception: a decoder that was closed is used by `getHitContext`. -/
theorem destroyed_decoder_used : run [.create .decoder true, .destroy 0, .hitContext 0] World.init = none := by decide

/-- A program is compiled, searched with after its FSM and its handle are gone, and everything
is closed, some of it twice. -/
example : run [.create .pattern true, .create .fsm true, .use .pattern 0, .addPattern 1 0, .newProgram, .compile 2 1 true,
    .createContext 2 true, .destroy 1, .addPattern 1 0, .destroy 2, .destroy 2, .use .context 3, .use .program 2,
    .compile 2 1 true, .destroy 0, .destroy 3] World.init =
    some ⟨[(.pattern, false), (.fsm, false), (.program, false), (.context, false)],
      [(.pattern, 0), (.fsm, 0), (.program, 0), (.context, 0)]⟩ := by decide

end Verif.Java
