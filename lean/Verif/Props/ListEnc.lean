import Verif.ListEnc
import Verif.Props.EncTable
/-!
# C101: the list of encodings that the command prints

Specification.  The list has entries, each a canonical name with its other names; `render` is how
it is written.
-/
namespace Verif.EncTable
open Verif.Chain (name small findTrans)

/-- The list as text: each canonical name on a line of its own, followed by its other names, each
on a line of its own behind a tab; an empty line at the end. -/
def render (es : List (Name × List Name)) : List UInt8 :=
  (es.flatMap fun e => e.1 ++ [10] ++ e.2.flatMap fun a => [9] ++ a ++ [10]) ++ [10]

/-- A name that can be told from what is around it. -/
def Plain (n : Name) : Prop := n ≠ [] ∧ 9 ∉ n ∧ 10 ∉ n

/-- No two encodings have names that are the same but for the case of letters. -/
def CaseClear (icu : Icu) : Prop :=
  ∀ e ∈ kept icu, ∀ a ∈ e.aliases, ∀ f ∈ kept icu, ∀ b ∈ f.aliases, a.map small = b.map small →
    ∃ i, First (kept icu) a i ∧ First (kept icu) b i

/-! ## Proofs -/

theorem group_eq (canon : List Name) : ∀ (m : IdMap) (al : List (List Name)), (∀ x ∈ m, x.2 < canon.length) →
    group canon m al = some (al.mapIdx fun i l => l ++ (m.filter fun x => x.2 == i && !(some x.1 == canon[i]?)).map (·.1)) := by
  intro m
  induction m with
  | nil =>
    intro al _
    simp only [group, List.filter_nil, List.map_nil, List.append_nil, Option.some.injEq]
    apply List.ext_getElem?
    intro j
    simp
  | cons x m ih =>
    obtain ⟨n, i⟩ := x
    intro al h
    have hi : i < canon.length := h (n, i) (by simp)
    have hm : ∀ x ∈ m, x.2 < canon.length := fun x hx => h x (by simp [hx])
    unfold group
    rw [List.getElem?_eq_getElem hi]
    dsimp only
    by_cases hn : n = canon[i]
    · rw [if_neg (by simpa using hn), ih _ hm]
      congr 1
      apply List.ext_getElem?
      intro j
      simp only [List.getElem?_mapIdx, List.filter_cons]
      by_cases hj : i = j
      · subst hj; simp [hn]
      · simp [hj]
    · rw [if_pos hn, ih _ hm]
      congr 1
      apply List.ext_getElem?
      intro j
      simp only [List.getElem?_mapIdx, List.getElem?_modify, List.filter_cons]
      by_cases hj : i = j
      · subst hj
        cases al[i]? <;> simp [hi, hn]
      · simp [hj]

/-- **C101** Whatever ICU has: the command prints a list whose entries are the canonical names, in
ICU's order, each with the other names that stand for it, in the order of their bytes: those that
it is the first to have as an alias. -/
theorem encodings_listed (icu : Icu) : ∃ es, printEncodings (tables icu).1 (tables icu).2 = some (render es) ∧
    es.map (·.1) = (kept icu).map (·.name) ∧
    ∀ (i : Nat) (e : Name × List Name), es[i]? = some e → e.2.Pairwise (· < ·) ∧
      ∀ a, a ∈ e.2 ↔ First (kept icu) a i ∧ a ≠ e.1 := by
  obtain ⟨h1, h2, h3, h4⟩ := tables_spec icu
  generalize tables icu = T at h1 h2 h3 h4
  obtain ⟨canon, m⟩ := T
  dsimp only at h1 h2 h3 h4 ⊢
  have hg := group_eq canon m (List.replicate canon.length []) h4
  refine ⟨canon.zip ((List.replicate canon.length []).mapIdx fun i l =>
    l ++ (m.filter fun x => x.2 == i && !(some x.1 == canon[i]?)).map (·.1)), ?_, ?_, ?_⟩
  · unfold printEncodings
    rw [hg]
    rfl
  · rw [List.map_fst_zip (by simp), h1]
  · intro i e he
    rw [List.getElem?_zip_eq_some] at he
    obtain ⟨he1, he2⟩ := he
    have hi : i < canon.length := (List.getElem?_eq_some_iff.1 he1).1
    have he2' : e.2 = (m.filter fun x => x.2 == i && !(some x.1 == canon[i]?)).map (·.1) := by
      simp only [List.getElem?_mapIdx, List.getElem?_replicate, hi, if_true, Option.map_some, List.nil_append, Option.some.injEq] at he2
      exact he2.symm
    rw [he2']
    refine ⟨?_, fun a => ?_⟩
    · rw [List.pairwise_map]
      exact h2.sublist List.filter_sublist
    · simp only [List.mem_map, List.mem_filter, he1, Bool.and_eq_true, beq_iff_eq, Bool.not_eq_true', beq_eq_false_iff_ne, ne_eq,
        Option.some.injEq]
      constructor
      · rintro ⟨⟨n, j⟩, ⟨hx, rfl, hne⟩, rfl⟩
        exact ⟨(h3 n j).1 hx, hne⟩
      · rintro ⟨hf, hne⟩
        exact ⟨(a, i), ⟨(h3 a i).2 hf, rfl, hne⟩, rfl⟩

/-! ## Reading the list -/

/-- Splitting at the first separator. -/
theorem split_unique {s : UInt8} : ∀ {a b x y : List UInt8}, s ∉ a → s ∉ b → a ++ s :: x = b ++ s :: y → a = b ∧ x = y
  | [], [], _, _, _, _, h => ⟨rfl, by simpa using h⟩
  | [], c :: b, _, _, _, hb, h => by
    simp only [List.nil_append, List.cons_append, List.cons.injEq] at h
    exact absurd (by rw [h.1]; simp) hb
  | c :: a, [], _, _, ha, _, h => by
    simp only [List.nil_append, List.cons_append, List.cons.injEq] at h
    exact absurd (by rw [h.1]; simp) ha
  | c :: a, d :: b, x, y, ha, hb, h => by
    simp only [List.cons_append, List.cons.injEq] at h
    obtain ⟨h1, h2⟩ := split_unique (fun hc => ha (by simp [hc])) (fun hc => hb (by simp [hc])) h.2
    exact ⟨by rw [h.1, h1], h2⟩

theorem aliases_unique : ∀ {as bs : List Name} {x y : List UInt8}, (∀ a ∈ as, Plain a) → (∀ b ∈ bs, Plain b) →
    x.head? ≠ some 9 → y.head? ≠ some 9 →
    (as.flatMap fun a => [9] ++ a ++ [10]) ++ x = (bs.flatMap fun a => [9] ++ a ++ [10]) ++ y → as = bs ∧ x = y
  | [], [], _, _, _, _, _, _, h => ⟨rfl, by simpa using h⟩
  | [], b :: bs, x, y, _, _, hx, _, h => by
    simp only [List.flatMap_nil, List.nil_append, List.flatMap_cons] at h
    subst h
    simp at hx
  | a :: as, [], x, y, _, _, _, hy, h => by
    simp only [List.flatMap_nil, List.nil_append, List.flatMap_cons] at h
    subst h
    simp at hy
  | a :: as, b :: bs, x, y, ha, hb, hx, hy, h => by
    simp only [List.flatMap_cons, List.append_assoc, List.cons_append, List.nil_append, List.cons.injEq, true_and] at h
    obtain ⟨e1, e2⟩ := split_unique (ha a (by simp)).2.2 (hb b (by simp)).2.2 h
    obtain ⟨e3, e4⟩ := aliases_unique (fun c hc => ha c (by simp [hc])) (fun c hc => hb c (by simp [hc])) hx hy e2
    exact ⟨by rw [e1, e3], e4⟩

theorem head_render {es : List (Name × List Name)} (h : ∀ e ∈ es, Plain e.1) : (render es).head? ≠ some 9 := by
  cases es with
  | nil => simp [render]
  | cons e es =>
    obtain ⟨c, as⟩ := e
    cases c with
    | nil =>
      obtain ⟨h1, -⟩ := h _ (List.mem_cons_self)
      exact absurd rfl h1
    | cons b l =>
      obtain ⟨-, h2, -⟩ := h _ (List.mem_cons_self)
      simp only [render, List.flatMap_cons, List.cons_append, List.head?_cons, ne_eq, Option.some.injEq]
      rintro rfl
      exact h2 (by simp)

theorem render_cons (e : Name × List Name) (es : List (Name × List Name)) :
    render (e :: es) = e.1 ++ 10 :: ((e.2.flatMap fun a => [9] ++ a ++ [10]) ++ render es) := by
  simp [render]

theorem render_length (es : List (Name × List Name)) : 1 ≤ (render es).length := by simp [render]

/-- **C101** The list can be read in one way only. -/
theorem list_unique : ∀ {es fs : List (Name × List Name)}, (∀ e ∈ es, Plain e.1 ∧ ∀ a ∈ e.2, Plain a) →
    (∀ e ∈ fs, Plain e.1 ∧ ∀ a ∈ e.2, Plain a) → render es = render fs → es = fs
  | [], [], _, _, _ => rfl
  | [], f :: fs, _, hf, h => by
    rw [render_cons] at h
    obtain ⟨⟨h1, -, h3⟩, -⟩ := hf f (by simp)
    have : ([] : List UInt8) ++ 10 :: [] = f.1 ++ 10 :: ((f.2.flatMap fun a => [9] ++ a ++ [10]) ++ render fs) := h
    exact absurd (split_unique (by simp) h3 this).1.symm h1
  | e :: es, [], he, _, h => by
    rw [render_cons] at h
    obtain ⟨⟨h1, -, h3⟩, -⟩ := he e (by simp)
    have : e.1 ++ 10 :: ((e.2.flatMap fun a => [9] ++ a ++ [10]) ++ render es) = ([] : List UInt8) ++ 10 :: [] := h
    exact absurd (split_unique h3 (by simp) this).1 h1
  | e :: es, f :: fs, he, hf, h => by
    rw [render_cons, render_cons] at h
    obtain ⟨he1, he2⟩ := he e (by simp)
    obtain ⟨hf1, hf2⟩ := hf f (by simp)
    obtain ⟨e1, h'⟩ := split_unique he1.2.2 hf1.2.2 h
    obtain ⟨e2, e3⟩ := aliases_unique he2 hf2 (head_render fun x hx => (he x (by simp [hx])).1)
      (head_render fun x hx => (hf x (by simp [hx])).1) h'
    obtain ⟨c, as⟩ := e
    obtain ⟨d, bs⟩ := f
    simp only at e1 e2
    rw [e1, e2, list_unique (fun x hx => he x (by simp [hx])) (fun x hx => hf x (by simp [hx])) e3]

theorem first_unique {es : List Enc} {n : Name} {i j : Nat} (hi : First es n i) (hj : First es n j) : i = j := by
  obtain ⟨⟨e, he, hn⟩, h⟩ := hi
  obtain ⟨⟨f, hf, hm⟩, h'⟩ := hj
  rcases Nat.lt_trichotomy i j with hlt | rfl | hlt
  · exact absurd hn (h' i e hlt he)
  · rfl
  · exact absurd hm (h j f hlt hf)

/-- **C101** When the names are free of tabs and line breaks and clear but for case: however the
printed list is read, every name in it behind a tab can be used, in any case, and selects the
encoding that it is listed under. -/
theorem listed_selects {icu : Icu} (hc : CaseClear icu) (hp : ∀ e ∈ kept icu, Plain e.name ∧ ∀ a ∈ e.aliases, Plain a)
    {es : List (Name × List Name)} (he : printEncodings (tables icu).1 (tables icu).2 = some (render es))
    (hes : ∀ e ∈ es, Plain e.1 ∧ ∀ a ∈ e.2, Plain a)
    {c a n : Name} {as : List Name} (hm : (c, as) ∈ es) (ha : a ∈ as) (hn : n.map small = a.map small) :
    (findTrans (tables icu).2 n).bind ((tables icu).1[·]?) = some c := by
  obtain ⟨es', h1, h2, h3⟩ := encodings_listed icu
  rw [he, Option.some.injEq] at h1
  have hes' : ∀ e ∈ es', Plain e.1 ∧ ∀ a ∈ e.2, Plain a := by
    intro e hx
    refine ⟨?_, fun b hb => ?_⟩
    · have : e.1 ∈ (kept icu).map (·.name) := by rw [← h2]; exact List.mem_map_of_mem hx
      obtain ⟨k, hk, hk'⟩ := List.mem_map.1 this
      rw [← hk']
      exact (hp k hk).1
    · obtain ⟨i, hi⟩ := List.mem_iff_getElem?.1 hx
      obtain ⟨⟨⟨k, hk, hkb⟩, -⟩, -⟩ := ((h3 i e hi).2 b).1 hb
      exact (hp k (List.mem_of_getElem? hk)).2 b hkb
  have e := list_unique hes hes' h1
  subst e
  obtain ⟨i, hi⟩ := List.mem_iff_getElem?.1 hm
  have hfa := (((h3 i _ hi).2 a).1 ha).1
  have hci : ((kept icu).map (·.name))[i]? = some c := by rw [← h2, List.getElem?_map, hi]; rfl
  obtain ⟨t1, -, t3, -⟩ := tables_spec icu
  rw [Chain.findTrans_eq]
  cases hf : (tables icu).2.find? fun t => n.map small == t.1.map small with
  | none =>
    have := List.find?_eq_none.1 hf (a, i) ((t3 _ _).2 hfa)
    simp [hn] at this
  | some y =>
    obtain ⟨m, k⟩ := y
    have hfm := (t3 m k).1 (List.mem_of_find?_eq_some hf)
    have hs : n.map small = m.map small := by simpa using List.find?_some hf
    obtain ⟨⟨ea, hea, haa⟩, -⟩ := id hfa
    obtain ⟨⟨em, hem, hmm⟩, -⟩ := id hfm
    obtain ⟨j, j1, j2⟩ := hc ea (List.mem_of_getElem? hea) a haa em (List.mem_of_getElem? hem) m hmm (hn.symm.trans hs)
    rw [t1]
    show ((kept icu).map (·.name))[k]? = _
    rw [first_unique hfm j2, ← first_unique hfa j1]
    exact hci

/-- **C101** for the library without ICU: the list and what it says. -/
theorem plain_listed : printEncodings Chain.Build.plain.canonicalEncodings Chain.Build.plain.encodings =
    some (render [(name "UTF-8", []), (name "UTF-16BE", []), (name "UTF-16LE", []), (name "UTF-32BE", []),
      (name "UTF-32LE", []), (name "US-ASCII", [name "ASCII"])]) := by decide +kernel

/-! ## The hypotheses can be met -/

theorem sample_clear : CaseClear sample := by
  intro e he a ha f hf b hb hs
  have key : ∀ e ∈ kept sample, ∀ a ∈ e.aliases, ∀ f ∈ kept sample, ∀ b ∈ f.aliases, a.map small = b.map small → a = b := by
    decide +kernel
  have := key e he a ha f hf b hb hs
  subst this
  obtain ⟨i, hi⟩ := first_exists he ha
  exact ⟨i, hi, hi⟩

example : printEncodings (tables sample).1 (tables sample).2 = some (render
      [(name "UTF-8", [name "utf8"]), (name "UTF-16BE", []), (name "UTF-16LE", []), (name "UTF-32BE", []), (name "UTF-32LE", []),
       (name "US-ASCII", [name "367", name "ASCII"]), (name "x-two", [])]) ∧
    (findTrans (tables sample).2 (name "UTF8")).bind ((tables sample).1[·]?) = some (name "UTF-8") := by
  have h : printEncodings (tables sample).1 (tables sample).2 = some (render
      [(name "UTF-8", [name "utf8"]), (name "UTF-16BE", []), (name "UTF-16LE", []), (name "UTF-32BE", []), (name "UTF-32LE", []),
       (name "US-ASCII", [name "367", name "ASCII"]), (name "x-two", [])]) := by
    rw [sample_tables]
    decide +kernel
  refine ⟨h, listed_selects sample_clear ?_ h ?_ (c := name "UTF-8") (a := name "utf8") (as := [name "utf8"]) (by simp) (by simp) (by decide)⟩
  · unfold Plain; decide +kernel
  · unfold Plain; decide +kernel

end Verif.EncTable
