import Verif.HistFile
import Verif.Props.SearchCmd
/-!
# The histogram file

**C99**.
-/
namespace Verif.Cmd
open Verif.Vm

/-! ## Specification -/

/-- Rows of cells as text: cells are separated by tabs, rows ended by newlines. -/
def table (rows : List (List Str)) : Str := rows.flatMap fun r => (r.intersperse [9]).flatten ++ [10]

/-- What may stand in a cell. -/
def Cell (c : Str) : Prop := 9 ∉ c ∧ 10 ∉ c

/-- The order of the rows: by falling count, then by rising index, then by rising text. -/
def NotAfter (a b : Key × Nat) : Prop :=
  a.2 > b.2 ∨ (a.2 = b.2 ∧ (a.1.idx < b.1.idx ∨ (a.1.idx = b.1.idx ∧ (a.1.text < b.1.text ∨ a.1.text = b.1.text))))

/-- The entries of the file for hits with these keys: each key once with the number of hits that
have it, in order. -/
structure Tally (keys : List Key) (es : List (Key × Nat)) : Prop where
  once : (es.map Prod.fst).Nodup
  count : ∀ k n, (k, n) ∈ es ↔ n = keys.count k ∧ 0 < n
  order : es.Pairwise NotAfter

/-! ## Tables can be read -/

theorem cut_unique {x : Nat} : ∀ {a b a' b' : Str}, x ∉ a → x ∉ a' → a ++ x :: b = a' ++ x :: b' → a = a' ∧ b = b'
  | [], b, [], b', _, _, h => ⟨rfl, (List.cons.inj h).2⟩
  | [], b, y :: a', b', _, h2, h => absurd (by have := (List.cons.inj h).1; simp [this]) h2
  | y :: a, b, [], b', h1, _, h => absurd (by have := (List.cons.inj h).1; simp [this]) h1
  | y :: a, b, z :: a', b', h1, h2, h => by
    have h3 := (List.cons.inj h).2
    have h4 := (List.cons.inj h).1
    obtain ⟨h5, h6⟩ := cut_unique (a := a) (a' := a') (fun hm => h1 (by simp [hm])) (fun hm => h2 (by simp [hm])) h3
    exact ⟨by rw [h4, h5], h6⟩

theorem row_cons (c d : Str) (r : List Str) : ((c :: d :: r).intersperse [9]).flatten = c ++ 9 :: ((d :: r).intersperse [9]).flatten := by
  simp

theorem row_newline : ∀ {r : List Str}, (∀ c ∈ r, Cell c) → 10 ∉ (r.intersperse [9]).flatten
  | [], _ => by simp
  | [c], h => by simpa using (h c (by simp)).2
  | c :: d :: r, h => by
    rw [row_cons]
    simp only [List.mem_append, List.mem_cons, not_or]
    exact ⟨(h c (by simp)).2, by decide, row_newline fun x hx => h x (by simp [List.mem_cons.1 hx])⟩

theorem row_unique : ∀ {r r' : List Str}, (∀ c ∈ r, Cell c) → (∀ c ∈ r', Cell c) → r ≠ [] → r' ≠ [] →
    (r.intersperse [9]).flatten = (r'.intersperse [9]).flatten → r = r'
  | [], _, _, _, h, _, _ => absurd rfl h
  | _ :: _, [], _, _, _, h, _ => absurd rfl h
  | [c], [c'], _, _, _, _, h => by simpa using h
  | [c], c' :: d' :: r', h1, _, _, _, h => by
    rw [row_cons] at h
    simp only [List.intersperse_singleton, List.flatten_cons, List.flatten_nil, List.append_nil] at h
    exact absurd (by rw [h]; simp) (h1 c (by simp)).1
  | c :: d :: r, [c'], _, h2, _, _, h => by
    rw [row_cons] at h
    simp only [List.intersperse_singleton, List.flatten_cons, List.flatten_nil, List.append_nil] at h
    exact absurd (by rw [← h]; simp) (h2 c' (by simp)).1
  | c :: d :: r, c' :: d' :: r', h1, h2, _, _, h => by
    rw [row_cons, row_cons] at h
    obtain ⟨h3, h4⟩ := cut_unique (h1 c (by simp)).1 (h2 c' (by simp)).1 h
    rw [h3, row_unique (r := d :: r) (r' := d' :: r') (fun x hx => h1 x (List.mem_cons_of_mem _ hx))
      (fun x hx => h2 x (List.mem_cons_of_mem _ hx)) (by simp) (by simp) h4]

/-- A table can be read in one way only. -/
theorem table_unique : ∀ {rows rows' : List (List Str)}, (∀ r ∈ rows, r ≠ [] ∧ ∀ c ∈ r, Cell c) →
    (∀ r ∈ rows', r ≠ [] ∧ ∀ c ∈ r, Cell c) → table rows = table rows' → rows = rows'
  | [], [], _, _, _ => rfl
  | [], r :: rs, _, _, h => by simp [table] at h
  | r :: rs, [], _, _, h => by simp [table] at h
  | r :: rs, r' :: rs', h1, h2, h => by
    have e : ∀ (r : List Str) rs, table (r :: rs) = (r.intersperse [9]).flatten ++ 10 :: table rs := by
      intro r rs; simp [table]
    rw [e, e] at h
    obtain ⟨a1, a2⟩ := h1 r (by simp)
    obtain ⟨b1, b2⟩ := h2 r' (by simp)
    obtain ⟨h3, h4⟩ := cut_unique (row_newline a2) (row_newline b2) h
    rw [row_unique a2 b2 a1 b1 h3, table_unique (fun x hx => h1 x (by simp [hx])) (fun x hx => h2 x (by simp [hx])) h4]

/-! ## The entries -/

theorem mem_bump (k : Key) (l : List (Key × Nat)) (hl : (l.map Prod.fst).Nodup) : ((bump k l).map Prod.fst).Nodup ∧
    (∀ y, y ∈ (bump k l).map Prod.fst ↔ y = k ∨ y ∈ l.map Prod.fst) := by
  induction l with
  | nil => simp [bump]
  | cons x l ih =>
    obtain ⟨y, n⟩ := x
    simp only [List.map_cons, List.nodup_cons] at hl
    unfold bump
    split
    · next h => subst h; simp [hl.1, hl.2]
    · next h =>
      obtain ⟨i1, i2⟩ := ih hl.2
      simp only [List.map_cons, List.nodup_cons, List.mem_cons]
      refine ⟨⟨?_, i1⟩, ?_⟩
      · rw [i2]; exact fun h' => h'.elim h hl.1
      · intro z; rw [i2]; constructor <;> (rintro (h' | h' | h') <;> simp [h'])

theorem pos_bump (k : Key) (l : List (Key × Nat)) (hl : ∀ e ∈ l, 0 < e.2) : ∀ e ∈ bump k l, 0 < e.2 := by
  induction l with
  | nil => intro e he; simp [bump] at he; subst he; exact Nat.one_pos
  | cons x l ih =>
    obtain ⟨y, n⟩ := x
    unfold bump
    split
    · intro e he
      rcases List.mem_cons.1 he with rfl | he
      · simp
      · exact hl e (by simp [he])
    · intro e he
      rcases List.mem_cons.1 he with rfl | he
      · exact hl (y, n) (by simp)
      · exact ih (fun e he => hl e (by simp [he])) e he

theorem built_entries (keys : List Key) : ∀ l : List (Key × Nat), (l.map Prod.fst).Nodup → (∀ e ∈ l, 0 < e.2) →
    let r := keys.foldl (fun l k => bump k l) l
    (r.map Prod.fst).Nodup ∧ (∀ e ∈ r, 0 < e.2) ∧ ∀ k, countOf k r = countOf k l + keys.count k := by
  induction keys with
  | nil => intro l h1 h2; exact ⟨h1, h2, fun k => by simp⟩
  | cons a keys ih =>
    intro l h1 h2
    obtain ⟨i1, i2, i3⟩ := ih (bump a l) (mem_bump a l h1).1 (pos_bump a l h2)
    refine ⟨i1, i2, fun k => ?_⟩
    have := i3 k
    rw [countOf_bump] at this
    simp only [List.foldl_cons, List.count_cons, beq_iff_eq]
    omega

theorem countOf_mem {l : List (Key × Nat)} (hl : (l.map Prod.fst).Nodup) {k : Key} {n : Nat} (h : (k, n) ∈ l) : countOf k l = n := by
  induction l with
  | nil => cases h
  | cons x l ih =>
    simp only [List.map_cons, List.nodup_cons] at hl
    rcases List.mem_cons.1 h with rfl | h
    · simp [countOf]
    · have hne : x.1 ≠ k := fun he => hl.1 (he ▸ List.mem_map_of_mem (f := Prod.fst) h)
      have := ih hl.2 h
      unfold countOf at this ⊢
      rw [List.find?_cons_of_neg (by simpa using hne)]
      exact this

theorem countOf_pos {l : List (Key × Nat)} {k : Key} (h : 0 < countOf k l) : (k, countOf k l) ∈ l := by
  unfold countOf at h ⊢
  cases hf : l.find? fun x => x.1 = k with
  | none => rw [hf] at h; simp at h
  | some e =>
    have h1 := List.mem_of_find?_eq_some hf
    have h2 : e.1 = k := by simpa using List.find?_some hf
    simp only [Option.map_some, Option.getD_some]
    rw [← h2]
    exact h1

theorem comp_order (a b : Key × Nat) : histogramKeyComp b a = false ↔ NotAfter a b := by
  rw [show histogramKeyComp b a = false ↔ ¬ (histogramKeyComp b a = true) by cases histogramKeyComp b a <;> simp, comp_iff]
  unfold NotAfter
  have asym : ¬ (a.1.text < b.1.text ∧ b.1.text < a.1.text) := fun h => List.lt_irrefl _ (List.lt_trans h.1 h.2)
  have irr : a.1.text = b.1.text → ¬ (b.1.text < a.1.text) := fun h => by rw [h]; exact List.lt_irrefl _
  have tri := lt_tri a.1.text b.1.text
  constructor
  · intro h
    by_cases h1 : a.2 > b.2
    · exact .inl h1
    · by_cases h2 : b.2 > a.2
      · exact absurd (.inl h2) h
      · have e : a.2 = b.2 := by omega
        refine .inr ⟨e, ?_⟩
        by_cases h3 : a.1.idx < b.1.idx
        · exact .inl h3
        · by_cases h4 : b.1.idx < a.1.idx
          · exact absurd (.inr ⟨e.symm, .inl h4⟩) h
          · have e2 : a.1.idx = b.1.idx := by omega
            refine .inr ⟨e2, ?_⟩
            rcases tri with h5 | h5 | h5
            · exact .inl h5
            · exact .inr h5
            · exact absurd (.inr ⟨e.symm, .inr ⟨e2.symm, h5⟩⟩) h
  · rintro h (h' | ⟨h1, h' | ⟨h2, h3⟩⟩)
    · rcases h with h | ⟨h, -⟩ <;> omega
    · rcases h with h | ⟨-, h | ⟨h, -⟩⟩ <;> omega
    · rcases h with h | ⟨-, h | ⟨-, h | h⟩⟩
      · omega
      · omega
      · exact asym ⟨h, h3⟩
      · exact irr h h3

theorem tally_of_built {keys : List Key} {es : List (Key × Nat)} (hp : es.Perm (keys.foldl (fun l k => bump k l) []))
    (ho : es.Pairwise fun a b => histogramKeyComp b a = false) : Tally keys es := by
  obtain ⟨b1, b2, b3⟩ := built_entries keys [] (by simp) (by simp)
  refine ⟨(hp.map Prod.fst).nodup_iff.2 b1, fun k n => ?_, ho.imp fun h => (comp_order _ _).1 h⟩
  have hc : countOf k (keys.foldl (fun l k => bump k l) []) = keys.count k := by simpa [countOf] using b3 k
  rw [hp.mem_iff]
  constructor
  · intro h
    exact ⟨by rw [← hc, countOf_mem b1 h], b2 _ h⟩
  · rintro ⟨rfl, h⟩
    rw [← hc] at h ⊢
    exact countOf_pos h

/-- The numbers of a tally add up to the number of hits. -/
theorem tally_sum {keys : List Key} {es : List (Key × Nat)} (h : Tally keys es) : (es.map Prod.snd).sum = keys.length := by
  have h1 : es.map Prod.snd = (es.map Prod.fst).map fun k => keys.count k := by
    rw [List.map_map]
    exact List.map_congr_left fun e he => ((h.count e.1 e.2).1 he).1
  rw [h1]
  have hm : ∀ k ∈ keys, k ∈ es.map Prod.fst := fun k hk =>
    List.mem_map_of_mem (f := Prod.fst) ((h.count k _).2 ⟨rfl, List.count_pos_iff.2 hk⟩)
  have hn := h.once
  generalize es.map Prod.fst = ks at hm hn
  clear h1 h
  induction keys with
  | nil => simp
  | cons a keys ih =>
    have := ih fun k hk => hm k (by simp [hk])
    simp only [List.length_cons, ← this, List.count_cons]
    have one : ∀ ks : List Key, ks.Nodup → (ks.map fun k => keys.count k + if (a == k) = true then 1 else 0).sum =
        (ks.map fun k => keys.count k).sum + if a ∈ ks then 1 else 0 := by
      intro ks hn
      induction ks with
      | nil => simp
      | cons b ks ihk =>
        rw [List.nodup_cons] at hn
        rw [List.map_cons, List.map_cons, List.sum_cons, List.sum_cons, ihk hn.2]
        by_cases h1 : a = b
        · subst h1
          rw [if_pos (by simp), if_neg hn.1, if_pos (by simp)]; omega
        · rw [if_neg (by simpa using h1)]
          by_cases h2 : a ∈ ks
          · rw [if_pos h2, if_pos (by simp [h2])]; omega
          · rw [if_neg h2, if_neg (by simp [h1, h2])]; omega
    rw [one ks hn, if_pos (hm a (by simp))]

/-! ## The file -/

/-- The cells of a row. -/
def rowOf (e : Key × Nat) : List Str :=
  [decimal e.2, escapeControlChars e.1.text, decimal e.1.idx, escapeControlChars e.1.pattern]

theorem rows_table (es : List (Key × Nat)) : es.flatMap histLine = table (es.map rowOf) := by
  unfold table
  rw [List.flatMap_map]
  congr 1
  funext e
  simp [histLine, rowOf]

theorem rowOf_cells (e : Key × Nat) : rowOf e ≠ [] ∧ ∀ c ∈ rowOf e, Cell c := by
  have h1 : ∀ n, Cell (decimal n) := by
    intro n
    constructor <;> intro hm <;> have := (decimal_spec n).2 _ hm <;> omega
  have h2 : ∀ t, Cell (escapeControlChars t) := by
    intro t
    constructor <;> intro hm <;> exact absurd ((printed_text t).2.1 _ hm) (by decide)
  refine ⟨by simp [rowOf], ?_⟩
  intro c hc
  simp only [rowOf, List.mem_cons, List.not_mem_nil, or_false] at hc
  rcases hc with rfl | rfl | rfl | rfl
  · exact h1 _
  · exact h2 _
  · exact h1 _
  · exact h2 _

/-- **C99**.  After a search with a histogram the file holds one row for each text, pattern and
index that some hit has: the number of hits, the text, the index and the pattern, without tabs and
newlines in them, most frequent first.  The numbers add up to the number of hits.  When an input
could not be opened the file is empty. -/
theorem histogram_file {C : Conf} {σ₀ : St} (hnew : create C.P C.fuel = .ok (C.first, σ₀)) {w : World}
    {lists inputs : List Str} {s : CmdSt} (h : searchCommand C w lists inputs σ₀ = .ok s) (hh : C.fmt.histogram = true)
    {out : Str} (hf : HistogramFile s out) :
    let vs := opened (allVisits w C.mmap C.recursive lists inputs)
    (none ∈ allVisits w C.mmap C.recursive lists inputs → out = []) ∧
    (none ∉ allVisits w C.mmap C.recursive lists inputs → ∃ es, Tally (vs.flatMap (keysFor C σ₀)) es ∧ out = table (es.map rowOf) ∧
      (∀ e ∈ es, ∀ c ∈ rowOf e, Cell c) ∧ (es.map Prod.snd).sum = s.out.hits) := by
  have b := command_after hnew h
  intro vs
  unfold HistogramFile at hf
  refine ⟨fun hn => ?_, fun hn => ?_⟩
  · rwa [if_pos (b.2.2 hn)] at hf
  · rw [if_neg (fun hd => hn (b.2.1 hd))] at hf
    obtain ⟨es, hp, ho, rfl⟩ := hf
    have hb := b.1.built
    rw [if_pos hh] at hb
    rw [hb] at hp
    have ht := tally_of_built hp ho
    refine ⟨es, ht, rows_table es, fun e _ => (rowOf_cells e).2, ?_⟩
    rw [tally_sum ht, b.1.hits]
    simp [keysFor, List.length_flatMap]

/-! ## What a reader of the file can tell -/

/-- Numbers can be read back. -/
theorem decimal_inj {a b : Nat} (h : decimal a = decimal b) : a = b := by
  rw [← (decimal_spec a).1, ← (decimal_spec b).1, h]

theorem escape_inj : ∀ {s t : Str}, 92 ∉ s → 92 ∉ t → escapeControlChars s = escapeControlChars t → s = t := by
  have one : ∀ (c : Nat), (∃ x, escapeChar c = [92, x]) ∨ escapeChar c = [c] := by
    intro c
    unfold escapeChar
    split <;> simp
  have inj : ∀ c d x, escapeChar c = [92, x] → escapeChar d = [92, x] → c = d := by
    intro c d x hc hd
    unfold escapeChar at hc hd
    split at hc <;> split at hd <;> simp_all <;> omega
  intro s
  induction s with
  | nil =>
    intro t _ _ h
    cases t with
    | nil => rfl
    | cons d t => rcases one d with ⟨x, hx⟩ | hx <;> simp [escapeControlChars, hx] at h
  | cons c s ih =>
    intro t hs ht h
    cases t with
    | nil => rcases one c with ⟨x, hx⟩ | hx <;> simp [escapeControlChars, hx] at h
    | cons d t =>
      unfold escapeControlChars at ih h
      rw [List.flatMap_cons, List.flatMap_cons] at h
      rw [List.mem_cons, not_or] at hs ht
      rcases one c with ⟨x, hx⟩ | hx <;> rcases one d with ⟨y, hy⟩ | hy <;> rw [hx, hy] at h <;>
        simp only [List.cons_append, List.nil_append, List.cons.injEq] at h
      · obtain ⟨-, rfl, h⟩ := h
        rw [inj c d x hx hy, ih hs.2 ht.2 h]
      · exact absurd h.1 ht.1
      · exact absurd h.1.symm hs.1
      · rw [h.1, ih hs.2 ht.2 h.2]

/-- When no text and no pattern has a backslash the file tells the counts of all of them. -/
theorem histogram_readable_partial {keys keys' : List Key} {es es' : List (Key × Nat)} (h : Tally keys es) (h' : Tally keys' es')
    (hb : ∀ k ∈ keys, 92 ∉ k.text ∧ 92 ∉ k.pattern) (hb' : ∀ k ∈ keys', 92 ∉ k.text ∧ 92 ∉ k.pattern)
    (he : table (es.map rowOf) = table (es'.map rowOf)) : ∀ k, keys.count k = keys'.count k := by
  have hr := table_unique (rows := es.map rowOf) (rows' := es'.map rowOf)
    (by intro r hr; obtain ⟨e, -, rfl⟩ := List.mem_map.1 hr; exact rowOf_cells e)
    (by intro r hr; obtain ⟨e, -, rfl⟩ := List.mem_map.1 hr; exact rowOf_cells e) he
  have clean : ∀ {keys : List Key} {es : List (Key × Nat)}, Tally keys es → (∀ k ∈ keys, 92 ∉ k.text ∧ 92 ∉ k.pattern) →
      ∀ e ∈ es, 92 ∉ e.1.text ∧ 92 ∉ e.1.pattern := by
    intro keys es ht hb e he
    obtain ⟨h1, h2⟩ := (ht.count e.1 e.2).1 he
    rw [h1] at h2
    exact hb _ (List.count_pos_iff.1 h2)
  have eq : ∀ (es es' : List (Key × Nat)), (∀ e ∈ es, 92 ∉ e.1.text ∧ 92 ∉ e.1.pattern) →
      (∀ e ∈ es', 92 ∉ e.1.text ∧ 92 ∉ e.1.pattern) → es.map rowOf = es'.map rowOf → es = es' := by
    intro es
    induction es with
    | nil => intro es' _ _ h; simpa using h.symm
    | cons e es ih =>
      intro es' h1 h2 h
      cases es' with
      | nil => simp at h
      | cons e' es' =>
        simp only [List.map_cons, List.cons.injEq] at h
        obtain ⟨h3, h4⟩ := h
        rw [ih es' (fun x hx => h1 x (by simp [hx])) (fun x hx => h2 x (by simp [hx])) h4]
        congr 1
        obtain ⟨⟨t, p, i⟩, n⟩ := e
        obtain ⟨⟨t', p', i'⟩, n'⟩ := e'
        simp only [rowOf, List.cons.injEq, and_true] at h3
        obtain ⟨a1, a2, a3, a4⟩ := h3
        have c1 := h1 _ List.mem_cons_self
        have c2 := h2 _ List.mem_cons_self
        have b2 : t = t' := escape_inj c1.1 c2.1 a2
        have b4 : p = p' := escape_inj c1.2 c2.2 a4
        rw [decimal_inj a1, b2, decimal_inj a3, b4]
  have hes := eq es es' (clean h hb) (clean h' hb') hr
  subst hes
  intro k
  by_cases hk : 0 < keys.count k
  · exact ((h'.count k _).1 ((h.count k _).2 ⟨rfl, hk⟩)).1
  · by_cases hk' : 0 < keys'.count k
    · exact ((h.count k _).1 ((h'.count k _).2 ⟨rfl, hk'⟩)).1.symm
    · omega

/-- It does not otherwise: a newline and a backslash with an n look the same. -/
theorem histogram_ambiguous : ∃ (keys keys' : List Key) (es es' : List (Key × Nat)), Tally keys es ∧ Tally keys' es' ∧
    table (es.map rowOf) = table (es'.map rowOf) ∧ ∃ k, keys.count k ≠ keys'.count k := by
  have t : ∀ k : Key, Tally [k] [(k, 1)] := fun k => by
    refine ⟨by simp, fun k' n => ?_, by simp⟩
    simp only [List.mem_cons, List.not_mem_nil, or_false, Prod.mk.injEq, List.count_cons, List.count_nil, beq_iff_eq]
    constructor
    · rintro ⟨rfl, rfl⟩; simp
    · rintro ⟨rfl, h⟩
      by_cases hk : k = k'
      · simp [hk]
      · simp [hk] at h
  exact ⟨[⟨[10], [46], 0⟩], [⟨[92, 110], [46], 0⟩], _, _, t _, t _, by decide, ⟨[10], [46], 0⟩, by decide⟩

/-- The hits determine the file, provided that hits with the same index and the same text have the
same pattern. -/
theorem tally_unique {keys : List Key} {es es' : List (Key × Nat)} (h : Tally keys es) (h' : Tally keys es')
    (hp : ∀ a ∈ keys, ∀ b ∈ keys, a.idx = b.idx → a.text = b.text → a.pattern = b.pattern) : es = es' := by
  have nodup : ∀ {es}, Tally keys es → es.Nodup := fun h => h.once.of_map _
  have perm : es.Perm es' := by
    refine (List.perm_ext_iff_of_nodup (nodup h) (nodup h')).2 fun e => ?_
    exact (h.count e.1 e.2).trans (h'.count e.1 e.2).symm
  refine perm.eq_of_pairwise ?_ h.order h'.order
  intro a b ha hb h1 h2
  have key : ∀ e ∈ es, e.1 ∈ keys := by
    intro e he
    obtain ⟨h1, h2⟩ := (h.count e.1 e.2).1 he
    rw [h1] at h2
    exact List.count_pos_iff.1 h2
  have hb := perm.mem_iff.2 hb
  unfold NotAfter at h1 h2
  have asym : ¬ (a.1.text < b.1.text ∧ b.1.text < a.1.text) := fun h => List.lt_irrefl _ (List.lt_trans h.1 h.2)
  obtain ⟨e1, e2, e3⟩ : a.2 = b.2 ∧ a.1.idx = b.1.idx ∧ a.1.text = b.1.text := by
    rcases h1 with h1 | ⟨h1, h1'⟩
    · rcases h2 with h2 | ⟨h2, -⟩ <;> omega
    · rcases h2 with h2 | ⟨-, h2'⟩
      · omega
      · rcases h1' with h3 | ⟨h3, h3'⟩
        · rcases h2' with h4 | ⟨h4, -⟩ <;> omega
        · rcases h2' with h4 | ⟨-, h4'⟩
          · omega
          · refine ⟨h1, h3, ?_⟩
            rcases h3' with h5 | h5
            · rcases h4' with h6 | h6
              · exact absurd ⟨h5, h6⟩ asym
              · exact h6.symm
            · exact h5
  have e4 := hp _ (key a ha) _ (key b hb) e2 e3
  obtain ⟨⟨t, p, i⟩, n⟩ := a
  obtain ⟨⟨t', p', i'⟩, n'⟩ := b
  simp_all

/-- Otherwise their order is left open: two keyword files whose first lines are `a` and `[a]` give
two entries with the same index and text. -/
theorem histogram_order_open : ∃ (keys : List Key) (es es' : List (Key × Nat)), Tally keys es ∧ Tally keys es' ∧
    table (es.map rowOf) ≠ table (es'.map rowOf) := by
  have t : ∀ a b : Key, a ≠ b → a.idx = b.idx → a.text = b.text → ∀ keys : List Key, keys.Perm [a, b] → Tally keys [(a, 1), (b, 1)] := by
    intro a b hab hi ht keys hk
    refine ⟨by simp [hab], fun k n => ?_, by simp [NotAfter, hi, ht]⟩
    rw [hk.count_eq]
    simp only [List.mem_cons, List.not_mem_nil, or_false, Prod.mk.injEq, List.count_cons, List.count_nil, beq_iff_eq]
    by_cases h1 : a = k
    · subst h1
      have : ¬ b = a := fun h => hab h.symm
      simp [this]; omega
    · by_cases h2 : b = k
      · subst h2
        have : ¬ b = a := fun h => hab h.symm
        simp [hab, this]; omega
      · have h1' : ¬ k = a := fun h => h1 h.symm
        have h2' : ¬ k = b := fun h => h2 h.symm
        simp [h1, h2, h1', h2']
  exact ⟨[⟨[97], [97], 0⟩, ⟨[97], [91, 97, 93], 0⟩], _, _, t ⟨[97], [97], 0⟩ ⟨[97], [91, 97, 93], 0⟩ (by decide) rfl rfl _ (.refl _),
    t ⟨[97], [91, 97, 93], 0⟩ ⟨[97], [97], 0⟩ (by decide) rfl rfl _ (.swap _ _ _), by decide⟩

/-- `f d - f`: all inputs can be opened, and the file is not empty. -/
example : ∃ first σ₀ s out, create abProgram 10 = .ok (first, σ₀) ∧
    searchCommand (exConf first) exWorld [] [[102], [100], dash, [102]] σ₀ = .ok s ∧ (exConf first).fmt.histogram = true ∧
    HistogramFile s out ∧ none ∉ allVisits exWorld false true [] [[102], [100], dash, [102]] ∧ out ≠ [] := by
  refine ⟨_, _, _, _, rfl, rfl, rfl, ⟨_, .refl _, ?_, rfl⟩, ?_, ?_⟩
  · decide
  · simp [allVisits, listVisits, listsUse, inputVisits, onceDash, visitsOf, exWorld, dash, walk, walkNode, fileVisit]
  · decide

/-- Two texts with different counts. -/
example : Tally [⟨[97], [46], 0⟩, ⟨[98], [46], 0⟩, ⟨[98], [46], 0⟩] [(⟨[98], [46], 0⟩, 2), (⟨[97], [46], 0⟩, 1)] :=
  tally_of_built (by decide) (by decide)

end Verif.Cmd
