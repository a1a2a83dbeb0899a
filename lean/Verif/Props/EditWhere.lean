import Verif.Props.EditAfter

/-! # Where edits happen: exactly at the places that the path addresses -/

namespace YamlSubset

open Spec

/-- `g` edits exactly the places that `P` selects. -/
def LocatedBy (E : List HashData → List HashData → Prop) (P : Yaml → Loc → Prop) (g : Yaml → Nat × Yaml) : Prop :=
  ∀ v, EditsAt E P (g v).1 v (g v).2

theorem nodup_map_cons {ls : List Loc} (i : Nat) (h : ls.Nodup) : (ls.map (i :: ·)).Nodup := by
  rw [List.nodup_iff_pairwise_ne, List.pairwise_map]
  rw [List.nodup_iff_pairwise_ne] at h
  exact h.imp fun hne he => hne (by simpa using he)

theorem overInline_located {E P} {g : Yaml → Nat × Yaml} (hg : LocatedBy E P g)
    (cs : List Condition) (es : List Yaml) (pre : List Yaml) (c : Nat) :
    ∃ ls, (overInline cs g c es).1 = c + ls.length ∧
      Edits E ls (.inlineArray (pre ++ es)) (.inlineArray (pre ++ (overInline cs g c es).2)) ∧ ls.Nodup ∧
      ∀ l, l ∈ ls ↔ ∃ i r v, l = (pre.length + i) :: r ∧ es[i]? = some v ∧ Fits cs v ∧ P v r := by
  induction es generalizing pre c with
  | nil => exact ⟨[], by simp [overInline], .none _, by simp, by simp⟩
  | cons e t ih =>
    simp only [overInline]
    split
    · rename_i hf
      obtain ⟨ls, hl, he, hn, hp⟩ := hg e
      obtain ⟨ms, hm, he', hn', hp'⟩ := ih (pre ++ [(g e).2]) (c + (g e).1)
      refine ⟨ls.map (pre.length :: ·) ++ ms, ?_, ?_, ?_, ?_⟩
      · simp only [List.length_append, List.length_map]
        show (overInline cs g (c + (g e).1) t).1 = _
        omega
      · refine .seq (y := .inlineArray (pre ++ (g e).2 :: t)) ?_ (by simpa [Additive.add] using he')
        have := Edits.inInlineArray (es := pre ++ e :: t) (i := pre.length) (by simp) he
        simpa using this
      · rw [List.nodup_append]
        refine ⟨nodup_map_cons _ hn, hn', ?_⟩
        intro a ha b hb hab
        subst hab
        obtain ⟨r, -, rfl⟩ := List.mem_map.1 ha
        obtain ⟨i, r', v, h1, -⟩ := (hp' _).1 hb
        simp only [List.length_append, List.length_cons, List.length_nil, List.cons.injEq] at h1
        omega
      · intro l
        simp only [List.mem_append, List.mem_map, hp, hp', List.length_append, List.length_cons, List.length_nil]
        constructor
        · rintro (⟨r, h, rfl⟩ | ⟨i, r, v, rfl, h1, h2⟩)
          · exact ⟨0, r, e, by simp, by simp, (fitsConditions_iff _ _).1 hf, h⟩
          · exact ⟨i + 1, r, v, by simp; omega, by simpa using h1, h2⟩
        · rintro ⟨i, r, v, rfl, h1, h2, h3⟩
          cases i with
          | zero =>
            simp only [List.getElem?_cons_zero, Option.some.injEq] at h1
            subst h1
            exact .inl ⟨r, h3, by simp⟩
          | succ i => exact .inr ⟨i, r, v, by simp; omega, by simpa using h1, h2, h3⟩
    · rename_i hf
      obtain ⟨ms, hm, he', hn', hp'⟩ := ih (pre ++ [e]) c
      refine ⟨ms, hm, by simpa using he', hn', ?_⟩
      intro l
      simp only [hp', List.length_append, List.length_cons, List.length_nil]
      constructor
      · rintro ⟨i, r, v, rfl, h1, h2⟩
        exact ⟨i + 1, r, v, by simp; omega, by simpa using h1, h2⟩
      · rintro ⟨i, r, v, rfl, h1, h2, h3⟩
        cases i with
        | zero =>
          simp only [List.getElem?_cons_zero, Option.some.injEq] at h1
          subst h1
          exact absurd ((fitsConditions_iff _ _).2 h2) hf
        | succ i => exact ⟨i, r, v, by simp; omega, by simpa using h1, h2, h3⟩

theorem overArray_located {E P} {g : Yaml → Nat × Yaml} (hg : LocatedBy E P g)
    (cs : List Condition) (es : List ArrayData) (pre : List ArrayData) (c : Nat) :
    ∃ ls, (overArray cs g c es).1 = c + ls.length ∧
      Edits E ls (.array (pre ++ es)) (.array (pre ++ (overArray cs g c es).2)) ∧ ls.Nodup ∧
      ∀ l, l ∈ ls ↔ ∃ i r a v, l = (pre.length + i) :: r ∧ es[i]? = some (.element ⟨a, v⟩) ∧ Fits cs v ∧ P v r := by
  have hskip : ∀ (d : ArrayData) (t : List ArrayData) (pre : List ArrayData) (ms : List Loc),
      (∀ a v, d = .element ⟨a, v⟩ → ¬ Fits cs v) →
      (∀ l, l ∈ ms ↔ ∃ i r a v, l = ((pre ++ [d]).length + i) :: r ∧ t[i]? = some (.element ⟨a, v⟩) ∧ Fits cs v ∧ P v r) →
      (∀ l, l ∈ ms ↔ ∃ i r a v, l = (pre.length + i) :: r ∧ (d :: t)[i]? = some (.element ⟨a, v⟩) ∧ Fits cs v ∧ P v r) := by
    intro d t pre ms hd h l
    simp only [h, List.length_append, List.length_cons, List.length_nil]
    constructor
    · rintro ⟨i, r, a, v, rfl, h1, h2⟩
      exact ⟨i + 1, r, a, v, by simp; omega, by simpa using h1, h2⟩
    · rintro ⟨i, r, a, v, rfl, h1, h2, h3⟩
      cases i with
      | zero =>
        simp only [List.getElem?_cons_zero, Option.some.injEq] at h1
        exact absurd h2 (hd _ _ h1)
      | succ i => exact ⟨i, r, a, v, by simp; omega, by simpa using h1, h2, h3⟩
  induction es generalizing pre c with
  | nil => exact ⟨[], by simp [overArray], .none _, by simp, by simp⟩
  | cons d t ih =>
    match d with
    | .element ⟨a, e⟩ =>
      simp only [overArray]
      split
      · rename_i hf
        obtain ⟨ls, hl, he, hn, hp⟩ := hg e
        obtain ⟨ms, hm, he', hn', hp'⟩ := ih (pre ++ [.element ⟨a, (g e).2⟩]) (c + (g e).1)
        refine ⟨ls.map (pre.length :: ·) ++ ms, ?_, ?_, ?_, ?_⟩
        · simp only [List.length_append, List.length_map]
          show (overArray cs g (c + (g e).1) t).1 = _
          omega
        · refine .seq (y := .array (pre ++ .element ⟨a, (g e).2⟩ :: t)) ?_ (by simpa [Additive.add] using he')
          have := Edits.inArray (ds := pre ++ .element ⟨a, e⟩ :: t) (i := pre.length) (a := a) (by simp) he
          simpa using this
        · rw [List.nodup_append]
          refine ⟨nodup_map_cons _ hn, hn', ?_⟩
          intro b hb b' hb' hab
          subst hab
          obtain ⟨r, -, rfl⟩ := List.mem_map.1 hb
          obtain ⟨i, r', a, v, h1, -⟩ := (hp' _).1 hb'
          simp only [List.length_append, List.length_cons, List.length_nil, List.cons.injEq] at h1
          omega
        · intro l
          simp only [List.mem_append, List.mem_map, hp, hp', List.length_append, List.length_cons, List.length_nil]
          constructor
          · rintro (⟨r, h, rfl⟩ | ⟨i, r, a, v, rfl, h1, h2⟩)
            · exact ⟨0, r, a, e, by simp, by simp, (fitsConditions_iff _ _).1 hf, h⟩
            · exact ⟨i + 1, r, a, v, by simp; omega, by simpa using h1, h2⟩
          · rintro ⟨i, r, a', v, rfl, h1, h2, h3⟩
            cases i with
            | zero =>
              simp only [List.getElem?_cons_zero, Option.some.injEq, ArrayData.element.injEq,
                AliasedYaml.mk.injEq] at h1
              obtain ⟨rfl, rfl⟩ := h1
              exact .inl ⟨r, h3, by simp⟩
            | succ i => exact .inr ⟨i, r, a', v, by simp; omega, by simpa using h1, h2, h3⟩
      · rename_i hf
        obtain ⟨ms, hm, he', hn', hp'⟩ := ih (pre ++ [.element ⟨a, e⟩]) c
        refine ⟨ms, hm, by simpa using he', hn', hskip _ _ _ _ ?_ hp'⟩
        intro a' v h
        simp only [ArrayData.element.injEq, AliasedYaml.mk.injEq] at h
        obtain ⟨rfl, rfl⟩ := h
        exact fun h => hf ((fitsConditions_iff _ _).2 h)
    | .comment s =>
      simp only [overArray]
      obtain ⟨ms, hm, he', hn', hp'⟩ := ih (pre ++ [.comment s]) c
      exact ⟨ms, hm, by simpa using he', hn', hskip _ _ _ _ (by simp) hp'⟩
    | .inlineComment s =>
      simp only [overArray]
      obtain ⟨ms, hm, he', hn', hp'⟩ := ih (pre ++ [.inlineComment s]) c
      exact ⟨ms, hm, by simpa using he', hn', hskip _ _ _ _ (by simp) hp'⟩

theorem atInline_located {E P} {g : Yaml → Nat × Yaml} (hg : LocatedBy E P g)
    (cs : List Condition) (is : List Nat) (hi : is.Nodup) (es : List Yaml) (c : Nat) :
    ∃ ls, (atInline cs g is c es).1 = c + ls.length ∧
      Edits E ls (.inlineArray es) (.inlineArray (atInline cs g is c es).2) ∧ ls.Nodup ∧
      ∀ l, l ∈ ls ↔ ∃ i r v, l = i :: r ∧ i ∈ is ∧ es[i]? = some v ∧ Fits cs v ∧ P v r := by
  induction is generalizing es c with
  | nil => exact ⟨[], by simp [atInline], .none _, by simp, by simp⟩
  | cons n is ih =>
    rw [List.nodup_cons] at hi
    have hskip : ∀ es c, (∀ v, es[n]? = some v → ¬ Fits cs v) → ∃ ls, (atInline cs g is c es).1 = c + ls.length ∧
      Edits E ls (.inlineArray es) (.inlineArray (atInline cs g is c es).2) ∧ ls.Nodup ∧
      ∀ l, l ∈ ls ↔ ∃ i r v, l = i :: r ∧ i ∈ n :: is ∧ es[i]? = some v ∧ Fits cs v ∧ P v r := by
      intro es c hf
      obtain ⟨ms, hm, he', hn', hp'⟩ := ih hi.2 es c
      refine ⟨ms, hm, he', hn', fun l => ?_⟩
      rw [hp']
      constructor
      · rintro ⟨i, r, v, rfl, h1, h2⟩
        exact ⟨i, r, v, rfl, by simp [h1], h2⟩
      · rintro ⟨i, r, v, rfl, h1, h2, h3⟩
        rcases List.mem_cons.1 h1 with rfl | h1
        · exact absurd h3.1 (hf v h2)
        · exact ⟨i, r, v, rfl, h1, h2, h3⟩
    simp only [atInline]
    split
    · rename_i e he
      split
      · rename_i hf
        obtain ⟨ls, hl, hed, hn, hp⟩ := hg e
        obtain ⟨ms, hm, he', hn', hp'⟩ := ih hi.2 (es.set n (g e).2) (c + (g e).1)
        refine ⟨ls.map (n :: ·) ++ ms, ?_, .seq (.inInlineArray he hed) he', ?_, ?_⟩
        · simp only [List.length_append, List.length_map]
          show (atInline cs g is (c + (g e).1) (es.set n (g e).2)).1 = _
          omega
        · rw [List.nodup_append]
          refine ⟨nodup_map_cons _ hn, hn', ?_⟩
          intro a ha b hb hab
          subst hab
          obtain ⟨r, -, rfl⟩ := List.mem_map.1 ha
          obtain ⟨i, r', v, h1, h2, -⟩ := (hp' _).1 hb
          simp only [List.cons.injEq] at h1
          exact hi.1 (h1.1 ▸ h2)
        · intro l
          simp only [List.mem_append, List.mem_map, hp, hp']
          constructor
          · rintro (⟨r, h, rfl⟩ | ⟨i, r, v, rfl, h1, h2, h3⟩)
            · exact ⟨n, r, e, rfl, by simp, he, (fitsConditions_iff _ _).1 hf, h⟩
            · have hne : n ≠ i := fun h => hi.1 (h ▸ h1)
              rw [List.getElem?_set_ne hne] at h2
              exact ⟨i, r, v, rfl, by simp [h1], h2, h3⟩
          · rintro ⟨i, r, v, rfl, h1, h2, h3, h4⟩
            rcases List.mem_cons.1 h1 with rfl | h1
            · rw [he] at h2
              obtain rfl := Option.some.inj h2
              exact .inl ⟨r, h4, rfl⟩
            · have hne : n ≠ i := fun h => hi.1 (h ▸ h1)
              exact .inr ⟨i, r, v, rfl, h1, by rw [List.getElem?_set_ne hne]; exact h2, h3, h4⟩
      · rename_i hf
        refine hskip _ _ fun v hv => ?_
        rw [he] at hv
        obtain rfl := Option.some.inj hv
        exact fun h => hf ((fitsConditions_iff _ _).2 h)
    · rename_i he
      exact hskip _ _ fun v hv => by simp [he] at hv

theorem elementCount_take_lt {ds : List ArrayData} {i j : Nat} {e : AliasedYaml} (hi : ds[i]? = some (.element e))
    (h : i < j) : elementCount (ds.take i) < elementCount (ds.take j) := by
  have hlt : elementCount (ds.take (i + 1)) ≤ elementCount (ds.take j) := by
    unfold elementCount
    apply List.Sublist.length_le
    apply List.Sublist.filter
    exact (List.take_prefix_take_left (by omega)).sublist
  have : elementCount (ds.take (i + 1)) = elementCount (ds.take i) + 1 := by
    obtain ⟨hl, hi⟩ := List.getElem?_eq_some_iff.1 hi
    rw [List.take_succ_eq_append_getElem hl, hi]
    simp [elementCount, List.filter_append]
  omega

theorem elementCount_inj {ds : List ArrayData} {i j : Nat} {e e' : AliasedYaml} (hi : ds[i]? = some (.element e))
    (hj : ds[j]? = some (.element e')) (h : elementCount (ds.take i) = elementCount (ds.take j)) : i = j := by
  rcases Nat.lt_trichotomy i j with h' | h' | h'
  · have := elementCount_take_lt hi h'; omega
  · exact h'
  · have := elementCount_take_lt hj h'; omega

theorem elementCount_set {ds : List ArrayData} {i : Nat} {e e' : AliasedYaml} (hi : ds[i]? = some (.element e)) (j : Nat) :
    elementCount ((ds.set i (.element e')).take j) = elementCount (ds.take j) := by
  induction ds generalizing i j with
  | nil => simp
  | cons d t ih =>
    cases j with
    | zero => simp
    | succ j =>
      cases i with
      | zero =>
        simp only [List.getElem?_cons_zero, Option.some.injEq] at hi
        subst hi
        simp [elementCount]
      | succ i =>
        have := ih (i := i) (by simpa using hi) j
        unfold elementCount at this ⊢
        simp only [List.set_cons_succ, List.take_succ_cons, List.filter_cons]
        split <;> simp [this]

theorem nthElement_none {ds : List ArrayData} {n : Nat} (h : nthElement ds n = none) (i : Nat) (e : AliasedYaml)
    (hi : ds[i]? = some (.element e)) : elementCount (ds.take i) ≠ n := by
  induction ds generalizing n i with
  | nil => simp at hi
  | cons d t ih =>
    match d with
    | .element e₀ =>
      cases n with
      | zero => simp [nthElement] at h
      | succ n =>
        cases i with
        | zero => simp [elementCount]
        | succ i =>
          have := ih (n := n) (by simpa [nthElement] using h) i (by simpa using hi)
          simpa [elementCount] using this
    | .comment s =>
      cases i with
      | zero => simp at hi
      | succ i =>
        have := ih (n := n) (by simpa [nthElement] using h) i (by simpa using hi)
        simpa [elementCount] using this
    | .inlineComment s =>
      cases i with
      | zero => simp at hi
      | succ i =>
        have := ih (n := n) (by simpa [nthElement] using h) i (by simpa using hi)
        simpa [elementCount] using this

theorem atArray_located {E P} {g : Yaml → Nat × Yaml} (hg : LocatedBy E P g)
    (cs : List Condition) (is : List Nat) (hi : is.Nodup) (ds : List ArrayData) (c : Nat) :
    ∃ ls, (atArray cs g is c ds).1 = c + ls.length ∧
      Edits E ls (.array ds) (.array (atArray cs g is c ds).2) ∧ ls.Nodup ∧
      ∀ l, l ∈ ls ↔ ∃ n i r a v, l = i :: r ∧ n ∈ is ∧ ds[i]? = some (.element ⟨a, v⟩) ∧
        elementCount (ds.take i) = n ∧ Fits cs v ∧ P v r := by
  induction is generalizing ds c with
  | nil => exact ⟨[], by simp [atArray], .none _, by simp, by simp⟩
  | cons n is ih =>
    rw [List.nodup_cons] at hi
    have hskip : ∀ ds c, (∀ i a v, ds[i]? = some (.element ⟨a, v⟩) → elementCount (ds.take i) = n → ¬ Fits cs v) →
      ∃ ls, (atArray cs g is c ds).1 = c + ls.length ∧
      Edits E ls (.array ds) (.array (atArray cs g is c ds).2) ∧ ls.Nodup ∧
      ∀ l, l ∈ ls ↔ ∃ n' i r a v, l = i :: r ∧ n' ∈ n :: is ∧ ds[i]? = some (.element ⟨a, v⟩) ∧
        elementCount (ds.take i) = n' ∧ Fits cs v ∧ P v r := by
      intro ds c hf
      obtain ⟨ms, hm, he', hn', hp'⟩ := ih hi.2 ds c
      refine ⟨ms, hm, he', hn', fun l => ?_⟩
      rw [hp']
      constructor
      · rintro ⟨n', i, r, a, v, rfl, h1, h2⟩
        exact ⟨n', i, r, a, v, rfl, by simp [h1], h2⟩
      · rintro ⟨n', i, r, a, v, rfl, h1, h2, h3, h4⟩
        rcases List.mem_cons.1 h1 with rfl | h1
        · exact absurd h4.1 (hf i a v h2 h3)
        · exact ⟨n', i, r, a, v, rfl, h1, h2, h3, h4⟩
    simp only [atArray]
    split
    · rename_i a e he
      obtain ⟨j, hj, hcount, hset⟩ := nthElement_spec _ _ _ he
      split
      · rename_i hf
        obtain ⟨ls, hl, hed, hn, hp⟩ := hg e
        obtain ⟨ms, hm, he', hn', hp'⟩ := ih hi.2 (setNthElement ds n ⟨a, (g e).2⟩) (c + (g e).1)
        rw [hset] at hp'
        have hne : ∀ n' i, n' ∈ is → elementCount ((ds.set j (.element ⟨a, (g e).2⟩)).take i) = n' → j ≠ i := by
          intro n' i h1 h2 h
          subst h
          rw [elementCount_set hj, hcount] at h2
          exact hi.1 (h2 ▸ h1)
        refine ⟨ls.map (j :: ·) ++ ms, ?_, .seq ?_ he', ?_, ?_⟩
        · simp only [List.length_append, List.length_map]
          show (atArray cs g is (c + (g e).1) (setNthElement ds n ⟨a, (g e).2⟩)).1 = _
          omega
        · rw [hset]; exact .inArray hj hed
        · rw [List.nodup_append]
          refine ⟨nodup_map_cons _ hn, hn', ?_⟩
          intro a ha b hb hab
          subst hab
          obtain ⟨r, -, rfl⟩ := List.mem_map.1 ha
          obtain ⟨n', i, r', a', v, h1, h2, h3, h4, -⟩ := (hp' _).1 hb
          simp only [List.cons.injEq] at h1
          exact hne n' i h2 h4 h1.1
        · intro l
          simp only [List.mem_append, List.mem_map, hp, hp']
          constructor
          · rintro (⟨r, h, rfl⟩ | ⟨n', i, r, a', v, rfl, h1, h2, h3, h4⟩)
            · exact ⟨n, j, r, a, e, rfl, by simp, hj, hcount, (fitsConditions_iff _ _).1 hf, h⟩
            · have hji := hne n' i h1 h3
              rw [List.getElem?_set_ne hji] at h2
              rw [elementCount_set hj] at h3
              exact ⟨n', i, r, a', v, rfl, by simp [h1], h2, h3, h4⟩
          · rintro ⟨n', i, r, a', v, rfl, h1, h2, h3, h4, h5⟩
            rcases List.mem_cons.1 h1 with rfl | h1
            · obtain rfl := elementCount_inj hj h2 (hcount.trans h3.symm)
              rw [hj] at h2
              simp only [Option.some.injEq, ArrayData.element.injEq, AliasedYaml.mk.injEq] at h2
              obtain ⟨rfl, rfl⟩ := h2
              exact .inl ⟨r, h5, rfl⟩
            · rw [← elementCount_set (e' := ⟨a, (g e).2⟩) hj] at h3
              have hji := hne n' i h1 h3
              exact .inr ⟨n', i, r, a', v, rfl, h1, by rw [List.getElem?_set_ne hji]; exact h2, h3, h4, h5⟩
      · rename_i hf
        refine hskip _ _ fun i a' v hv hc => ?_
        obtain rfl := elementCount_inj hj hv (hcount.trans hc.symm)
        rw [hj] at hv
        simp only [Option.some.injEq, ArrayData.element.injEq, AliasedYaml.mk.injEq] at hv
        obtain ⟨rfl, rfl⟩ := hv
        exact fun h => hf ((fitsConditions_iff _ _).2 h)
    · rename_i he
      exact hskip _ _ fun i a v hv hc => absurd hc (nthElement_none he i _ hv)

theorem firstEntry_unique {k : Str} {ds pre pre' post post' : List HashData} {v v' : AliasedYaml}
    (h : FirstEntry k ds pre v post) (h' : FirstEntry k ds pre' v' post') : pre = pre' ∧ v = v' ∧ post = post' := by
  have h1 := h.findIdx
  rw [h'.findIdx] at h1
  have hl : pre'.length = pre.length := Option.some.inj h1
  have h2 := h.1.symm.trans h'.1
  have h3 := List.append_inj h2 hl.symm
  simpa using h3

/-- `edit_hash_structure` edits exactly the addressed hashes to which its closure applies. -/
theorem editHash_located (E : Str → List HashData → List HashData → Prop) (app : Str → List HashData → Prop)
    (f : List HashData → Str → Option Nat → Nat × List HashData)
    (hf : ∀ data k, let q := f data k (data.findIdx? (HashData.hasKey k))
      (¬ app k data ∧ q.1 = 0 ∧ q.2 = data) ∨ (app k data ∧ q.1 = 1 ∧ E k data q.2))
    (path : YamlPath) (k : Str) (hk : lastKey path = some k) (hr : NoRepeats path) :
    LocatedBy (E k) (AddressedWhere path k (app k)) (Yaml.editHash f path) := by
  have hzero : ∀ path y, (∀ l ds, ¬ Addresses path y l k ds) →
      EditsAt (E k) (AddressedWhere path k (app k)) 0 y y := by
    intro path y h
    exact ⟨[], rfl, .none _, by simp, fun l => by simpa [AddressedWhere] using fun ds hd => absurd hd (h l ds)⟩
  induction path using lastKey.induct with
  | case1 cs => simp [lastKey] at hk
  | case2 k' cs =>
    simp only [lastKey, Option.some.injEq] at hk; subst hk
    intro v
    cases v with
    | hash data =>
      simp only [Yaml.editHash]
      split
      · rename_i hfit
        rcases hf data k' with ⟨ha, h0, h1⟩ | ⟨ha, h0, h1⟩
        · simp only [Yaml.keyIndex] at h0 h1 ⊢; rw [h0, h1]
          refine ⟨[], rfl, .none _, by simp, fun l => ?_⟩
          simp only [List.not_mem_nil, false_iff]
          rintro ⟨ds, had, happ⟩
          cases had
          exact ha happ
        · simp only [Yaml.keyIndex]; rw [h0]
          refine ⟨[[]], rfl, .here h1, by simp, fun l => ?_⟩
          simp only [List.mem_singleton]
          constructor
          · rintro rfl
            exact ⟨data, .here ((fitsConditions_iff _ _).1 hfit), ha⟩
          · rintro ⟨ds, had, -⟩
            cases had
            rfl
      · rename_i hfit
        apply hzero
        rintro l ds (h | h)
        exact hfit ((fitsConditions_iff _ _).2 h)
    | _ =>
      rw [editHash_key_other _ _ _ _ _ (by simp)]
      apply hzero
      rintro l ds h
      cases h
  | case3 k' cs p ih =>
    simp only [lastKey] at hk
    intro v
    cases v with
    | hash data =>
      simp only [Yaml.editHash]
      split
      · rename_i hfit
        simp only [Yaml.keyIndex]
        cases hi : data.findIdx? (HashData.hasKey k') with
        | none =>
          apply hzero
          rintro l ds h
          cases h with
          | key h hfe hp => rw [hfe.findIdx] at hi; cases hi
        | some i =>
          obtain ⟨pre, ⟨a, w⟩, post, hfe, rfl⟩ := findIdx_spec _ _ _ hi
          simp only [hfe.get]
          obtain ⟨ls, hl, he, hn, hp⟩ := ih hk hr w
          refine ⟨ls.map (pre.length :: ·), by simpa using hl, .inHash hfe.get he, nodup_map_cons _ hn, fun l => ?_⟩
          simp only [List.mem_map, hp]
          constructor
          · rintro ⟨r, ⟨ds, had, happ⟩, rfl⟩
            exact ⟨ds, .key ((fitsConditions_iff _ _).1 hfit) hfe had, happ⟩
          · rintro ⟨ds, had, happ⟩
            cases had with
            | key h hfe' hp =>
              obtain ⟨rfl, rfl, rfl⟩ := firstEntry_unique hfe hfe'
              exact ⟨_, ⟨ds, hp, happ⟩, rfl⟩
      · rename_i hfit
        apply hzero
        rintro l ds h
        cases h with
        | key h hfe hp => exact hfit ((fitsConditions_iff _ _).2 h)
    | _ =>
      rw [editHash_key_other _ _ _ _ _ (by simp)]
      apply hzero
      rintro l ds h
      cases h
  | case4 cs => simp [lastKey] at hk
  | case5 cs p ih =>
    simp only [lastKey] at hk
    intro v
    cases v with
    | inlineArray es =>
      obtain ⟨ls, hl, he, hn, hp⟩ := overInline_located (ih hk hr) cs es [] 0
      refine ⟨ls, by rw [Yaml.editHash]; simpa using hl, by rw [Yaml.editHash]; simpa using he, hn, fun l => ?_⟩
      rw [hp]
      constructor
      · rintro ⟨i, r, v, rfl, h1, h2, ds, had, happ⟩
        exact ⟨ds, by simpa using .allInline h1 h2 had, happ⟩
      · rintro ⟨ds, had, happ⟩
        cases had with
        | allInline h1 h2 had => exact ⟨_, _, _, by simp, h1, h2, ds, had, happ⟩
    | array es =>
      obtain ⟨ls, hl, he, hn, hp⟩ := overArray_located (ih hk hr) cs es [] 0
      refine ⟨ls, by rw [Yaml.editHash]; simpa using hl, by rw [Yaml.editHash]; simpa using he, hn, fun l => ?_⟩
      rw [hp]
      constructor
      · rintro ⟨i, r, a, v, rfl, h1, h2, ds, had, happ⟩
        exact ⟨ds, by simpa using .allArray h1 h2 had, happ⟩
      · rintro ⟨ds, had, happ⟩
        cases had with
        | allArray h1 h2 had => exact ⟨_, _, _, _, by simp, h1, h2, ds, had, happ⟩
    | _ => exact hzero _ _ fun l ds h => by cases h
  | case6 is cs => simp [lastKey] at hk
  | case7 is cs p ih =>
    simp only [lastKey] at hk
    intro v
    cases v with
    | inlineArray es =>
      obtain ⟨ls, hl, he, hn, hp⟩ := atInline_located (ih hk hr.2) cs is hr.1 es 0
      refine ⟨ls, by rw [Yaml.editHash]; simpa using hl, by rw [Yaml.editHash]; simpa using he, hn, fun l => ?_⟩
      rw [hp]
      constructor
      · rintro ⟨i, r, v, rfl, h0, h1, h2, ds, had, happ⟩
        exact ⟨ds, .inline h0 h1 h2 had, happ⟩
      · rintro ⟨ds, had, happ⟩
        cases had with
        | inline h0 h1 h2 had => exact ⟨_, _, _, rfl, h0, h1, h2, ds, had, happ⟩
    | array es =>
      obtain ⟨ls, hl, he, hn, hp⟩ := atArray_located (ih hk hr.2) cs is hr.1 es 0
      refine ⟨ls, by rw [Yaml.editHash]; simpa using hl, by rw [Yaml.editHash]; simpa using he, hn, fun l => ?_⟩
      rw [hp]
      constructor
      · rintro ⟨n, i, r, a, v, rfl, h0, h1, hc, h2, ds, had, happ⟩
        exact ⟨ds, .array h0 h1 hc h2 had, happ⟩
      · rintro ⟨ds, had, happ⟩
        cases had with
        | array h0 h1 hc h2 had => exact ⟨_, _, _, _, _, rfl, h0, h1, hc, h2, ds, had, happ⟩
    | _ => exact hzero _ _ fun l ds h => by cases h

/-- Documents: item by item. -/
theorem overItems_located {E P} {g : Yaml → Nat × Yaml} (d : Document)
    (hg : ∀ y ∈ yamlItems d, EditsAt E P (g y).1 y (g y).2) :
    DocEditsAt E P (d.overItems g).1 d (d.overItems g).2 := by
  refine ⟨rfl, ?_⟩
  unfold Document.overItems
  obtain ⟨lc, items⟩ := d
  simp only [yamlItems] at hg ⊢
  have key : ∀ (is : List DocumentData) (c : Nat), (∀ y, .yaml y ∈ is → EditsAt E P (g y).1 y (g y).2) →
      ∃ n, (Document.overItems.go g c is).1 = c + n ∧ ItemsEditAt E P n is (Document.overItems.go g c is).2 := by
    intro is
    induction is with
    | nil => intro c _; exact ⟨0, rfl, .nil⟩
    | cons i t ih =>
      intro c h
      cases i with
      | comment s =>
        obtain ⟨n, h1, h2⟩ := ih c fun y hy => h y (by simp [hy])
        exact ⟨n, h1, .comment h2⟩
      | yaml y =>
        obtain ⟨n, h1, h2⟩ := ih (c + (g y).1) fun y hy => h y (by simp [hy])
        refine ⟨(g y).1 + n, ?_, .yaml (h y (by simp)) h2⟩
        show (Document.overItems.go g (c + (g y).1) t).1 = _
        omega
  obtain ⟨n, h1, h2⟩ := key items Additive.zero fun y hy => hg y (List.mem_filterMap.2 ⟨_, hy, rfl⟩)
  have h3 : (Document.overItems.go g Additive.zero items).1 = n := by
    rw [h1]; exact Nat.zero_add n
  rw [h3]
  exact h2

theorem insertClosure_app (h : AliasedYaml) (o : Bool) (data : List HashData) (k : Str) :
    let q := insertClosure h o data k (data.findIdx? (HashData.hasKey k))
    (¬ (k ∉ keysOf data ∨ o = true) ∧ q.1 = 0 ∧ q.2 = data) ∨
      ((k ∉ keysOf data ∨ o = true) ∧ q.1 = 1 ∧ (Appends k h data q.2 ∨ (o = true ∧ Overwrites k h data q.2))) := by
  have hs := insertClosure_spec h o data k
  simp only at hs ⊢
  cases hi : data.findIdx? (HashData.hasKey k) with
  | none =>
    have hk := findIdx_none _ _ hi
    rw [hi] at hs
    simp only [insertClosure] at hs ⊢
    right
    exact ⟨.inl hk, by trivial, .inl ⟨hk, rfl⟩⟩
  | some i =>
    obtain ⟨pre, v, post, hfe, rfl⟩ := findIdx_spec _ _ _ hi
    have hk : k ∈ keysOf data := by rw [hfe.1]; simp [keysOf, List.filterMap_append]
    simp only [insertClosure]
    cases o with
    | false => left; simp [hk]
    | true =>
      right
      refine ⟨.inr rfl, rfl, .inr ⟨rfl, pre, v, post, hfe, ?_⟩⟩
      simp only [if_true]
      rw [hfe.1, set_append_length]

theorem removeClosure_app (data : List HashData) (k : Str) :
    let q := removeClosure data k (data.findIdx? (HashData.hasKey k))
    (¬ k ∈ keysOf data ∧ q.1 = 0 ∧ q.2 = data) ∨ (k ∈ keysOf data ∧ q.1 = 1 ∧ Removes k data q.2) := by
  simp only
  cases hi : data.findIdx? (HashData.hasKey k) with
  | none => left; exact ⟨findIdx_none _ _ hi, rfl, rfl⟩
  | some i =>
    obtain ⟨pre, v, post, hfe, rfl⟩ := findIdx_spec _ _ _ hi
    have hk : k ∈ keysOf data := by rw [hfe.1]; simp [keysOf, List.filterMap_append]
    right
    refine ⟨hk, rfl, pre, v, post, hfe, ?_⟩
    simp only [removeClosure]
    rw [hfe.1, List.eraseIdx_append_of_length_le (by simp)]
    simp

theorem elementClosure_app (f : HashElement → Nat × HashElement) (hf : ∀ e, (f e).1 = 1) (data : List HashData)
    (k : Str) :
    let q := elementClosure f data k (data.findIdx? (HashData.hasKey k))
    (¬ k ∈ keysOf data ∧ q.1 = 0 ∧ q.2 = data) ∨ (k ∈ keysOf data ∧ q.1 = 1 ∧
      ∃ pre v post, FirstEntry k data pre v post ∧ q.2 = pre ++ .element (f ⟨k, v⟩).2 :: post) := by
  simp only
  cases hi : data.findIdx? (HashData.hasKey k) with
  | none => left; exact ⟨findIdx_none _ _ hi, rfl, rfl⟩
  | some i =>
    obtain ⟨pre, v, post, hfe, rfl⟩ := findIdx_spec _ _ _ hi
    have hk : k ∈ keysOf data := by rw [hfe.1]; simp [keysOf, List.filterMap_append]
    right
    simp only [elementClosure, hfe.get, hf, true_and]
    refine ⟨hk, pre, v, post, hfe, ?_⟩
    rw [hfe.1, set_append_length]

/-- **C24, C17.** insert_into_hash edits exactly the hashes that the path addresses (and which thus fit its conditions) and
which lack the key or are to be overwritten; in each it appends the entry or replaces its value; the count is the number of
these hashes. -/
theorem C24_insert_where (d : Document) (path : YamlPath) (k : Str) (hk : lastKey path = some k) (hr : NoRepeats path)
    (h : AliasedYaml) (o : Bool) :
    DocEditsAt (fun ds ds' => Appends k h ds ds' ∨ (o = true ∧ Overwrites k h ds ds'))
      (AddressedWhere path k fun ds => k ∉ keysOf ds ∨ o = true)
      (d.insertIntoHash path h o).1 d (d.insertIntoHash path h o).2 :=
  overItems_located d fun y _ =>
    editHash_located (fun k ds ds' => Appends k h ds ds' ∨ (o = true ∧ Overwrites k h ds ds'))
      (fun k ds => k ∉ keysOf ds ∨ o = true) _ (fun data k => insertClosure_app h o data k) path k hk hr y

/-- **C24, C20.** remove_from_hash removes one entry from exactly the addressed hashes that have the key. -/
theorem C24_remove_where (d : Document) (path : YamlPath) (k : Str) (hk : lastKey path = some k) (hr : NoRepeats path) :
    DocEditsAt (Removes k) (AddressedWhere path k fun ds => k ∈ keysOf ds)
      (d.removeFromHash path).1 d (d.removeFromHash path).2 :=
  overItems_located d fun y _ =>
    editHash_located Removes (fun k ds => k ∈ keysOf ds) _ (fun data k => removeClosure_app data k) path k hk hr y

/-- **C24, C21.** rename_field renames the first entry with the key in exactly the addressed hashes that have the key, if no index step
meets an inline array. -/
theorem C24_rename_where (d : Document) (path : YamlPath) (k new : Str) (hk : lastKey path = some k) (hr : NoRepeats path)
    (hi : ∀ y ∈ yamlItems d, AvoidsInline path y) :
    DocEditsAt (Renames k new) (AddressedWhere path k fun ds => k ∈ keysOf ds)
      (d.renameField path new).1 d (d.renameField path new).2 :=
  overItems_located d fun y hy => by
    unfold Yaml.renameField
    rw [forHash_eq_editHash _ path (by simp [hk]) y (hi y hy)]
    exact editHash_located (fun k => Renames k new) (fun k ds => k ∈ keysOf ds) _
      (fun data k => elementClosure_app _ (fun _ => rfl) data k) path k hk hr y

/-- **C24, C22.** The same for to_object. -/
theorem C24_to_object_where (d : Document) (path : YamlPath) (k obj : Str) (hk : lastKey path = some k) (hr : NoRepeats path)
    (hi : ∀ y ∈ yamlItems d, AvoidsInline path y) :
    DocEditsAt (Wraps k obj) (AddressedWhere path k fun ds => k ∈ keysOf ds)
      (d.toObject path obj).1 d (d.toObject path obj).2 :=
  overItems_located d fun y hy => by
    unfold Yaml.toObject
    rw [forHash_eq_editHash _ path (by simp [hk]) y (hi y hy)]
    exact editHash_located (fun k => Wraps k obj) (fun k ds => k ∈ keysOf ds) _
      (fun data k => elementClosure_app _ (fun _ => rfl) data k) path k hk hr y

/-- On inline arrays the two families differ: the entry is addressed, remove_from_hash counts it and rename_field does not. -/
theorem C25_rename_inline_counterexample :
    let d : Document := ⟨[], [.yaml (.inlineArray [.hash [.element ⟨['a'], ⟨none, .unquotedString ['1']⟩⟩]])]⟩
    let p : YamlPath := .allIndexes [] (some (.key ['a'] [] none))
    (d.renameField p ['b']).1 = 0 ∧ (d.removeFromHash p).1 = 1 := by decide +kernel

/-- The places in the statements exist: `a[0|t=x].b` in `a: [{t: x, b: 1}, {t: y, b: 2}]` addresses one hash. -/
example : AddressedWhere (.key ['a'] [] (some (.indexes [0] [⟨['t'], ['x']⟩] (some (.key ['b'] [] none))))) ['b']
    (fun ds => ['b'] ∈ keysOf ds)
    (.hash [.element ⟨['a'], ⟨none, .array [.comment [], .element ⟨none, .hash [.element ⟨['t'], ⟨none, .unquotedString ['x']⟩⟩,
      .element ⟨['b'], ⟨none, .unquotedString ['1']⟩⟩]⟩]⟩⟩]) [0, 1] := by
  refine ⟨_, .key (pre := []) (fun c hc => by cases hc) ⟨rfl, by simp [keysOf]⟩
    (.array (n := 0) (by simp) rfl rfl ?_ (.here fun c hc => by cases hc)), by simp [keysOf]⟩
  rw [← C24_conditions]; decide +kernel

end YamlSubset
