import Verif.Lemmas.Edit

/-! # Passes over arrays, in terms of the list of element values -/

namespace YamlSubset

open Spec

variable {A : Type} [Additive A]

/-- What one visit does to an element. -/
def visitTree (cs : List Condition) (g : Yaml → A × Yaml) (e : Yaml) : Yaml :=
  if e.fitsConditions cs then (g e).2 else e

/-- What one visit returns for an element. -/
def visitVal (cs : List Condition) (g : Yaml → A × Yaml) (e : Yaml) : A :=
  if e.fitsConditions cs then (g e).1 else Additive.zero

theorem overInline_snd (cs : List Condition) (g : Yaml → A × Yaml) (c : A) (es : List Yaml) :
    (overInline cs g c es).2 = es.map (visitTree cs g) := by
  induction es generalizing c with
  | nil => rfl
  | cons e t ih => simp only [overInline, visitTree, List.map_cons]; split <;> simp [ih] <;> rfl

theorem overInline_nat (cs : List Condition) (g : Yaml → Nat × Yaml) (c : Nat) (es : List Yaml) :
    (overInline cs g c es).1 = c + (es.map (visitVal cs g)).sum := by
  induction es generalizing c with
  | nil => rfl
  | cons e t ih =>
    simp only [overInline, visitVal, List.map_cons, List.sum_cons]
    split <;> simp only [ih]
    · simp only [Additive.add, visitVal]; omega
    · simp only [Additive.zero, visitVal]; omega

theorem overInline_list {α} (cs : List Condition) (g : Yaml → List α × Yaml) (c : List α) (es : List Yaml) :
    (overInline cs g c es).1 = c ++ es.flatMap (visitVal cs g) := by
  induction es generalizing c with
  | nil => simp [overInline]
  | cons e t ih =>
    simp only [overInline, visitVal, List.flatMap_cons]
    split <;> simp only [ih]
    · simp only [Additive.add, visitVal, List.append_assoc]
    · simp only [Additive.zero, visitVal, List.nil_append]

/-- Put a list of values into array data, in order. -/
def setValues : List ArrayData → List Yaml → List ArrayData
  | .element ⟨a, _⟩ :: t, e :: es => .element ⟨a, e⟩ :: setValues t es
  | .element e :: t, [] => .element e :: setValues t []
  | .comment c :: t, es => .comment c :: setValues t es
  | .inlineComment c :: t, es => .inlineComment c :: setValues t es
  | [], _ => []

theorem setValues_self (ds : List ArrayData) : setValues ds (elementValues ds) = ds := by
  induction ds with
  | nil => rfl
  | cons d t ih =>
    match d with
    | .element ⟨a, v⟩ => simpa [elementValues, setValues] using ih
    | .comment c => simpa [elementValues, setValues] using ih
    | .inlineComment c => simpa [elementValues, setValues] using ih

theorem elementValues_setValues (ds : List ArrayData) (es : List Yaml)
    (h : es.length = (elementValues ds).length) : elementValues (setValues ds es) = es := by
  induction ds generalizing es with
  | nil => cases es <;> simp_all [elementValues, setValues]
  | cons d t ih =>
    match d, es with
    | .element ⟨a, v⟩, e :: es =>
      have := ih es (by simpa [elementValues] using h)
      simpa [elementValues, setValues] using this
    | .element ⟨a, v⟩, [] => simp [elementValues] at h
    | .comment c, es =>
      have := ih es (by simpa [elementValues] using h)
      simpa [elementValues, setValues] using this
    | .inlineComment c, es =>
      have := ih es (by simpa [elementValues] using h)
      simpa [elementValues, setValues] using this

theorem setValues_setValues (ds : List ArrayData) (es es' : List Yaml)
    (h : es.length = (elementValues ds).length) (h' : es'.length = (elementValues ds).length) :
    setValues (setValues ds es) es' = setValues ds es' := by
  induction ds generalizing es es' with
  | nil => rfl
  | cons d t ih =>
    match d, es, es' with
    | .element ⟨a, v⟩, e :: es, e' :: es' =>
      have := ih es es' (by simpa [elementValues] using h) (by simpa [elementValues] using h')
      simpa [setValues] using this
    | .element ⟨a, v⟩, [], _ => simp [elementValues] at h
    | .element ⟨a, v⟩, _, [] => simp [elementValues] at h'
    | .comment c, es, es' =>
      have := ih es es' (by simpa [elementValues] using h) (by simpa [elementValues] using h')
      simpa [setValues] using this
    | .inlineComment c, es, es' =>
      have := ih es es' (by simpa [elementValues] using h) (by simpa [elementValues] using h')
      simpa [setValues] using this

theorem overArray_values (cs : List Condition) (g : Yaml → A × Yaml) (c : A) (ds : List ArrayData) :
    overArray cs g c ds = ((overInline cs g c (elementValues ds)).1,
      setValues ds (overInline cs g c (elementValues ds)).2) := by
  induction ds generalizing c with
  | nil => rfl
  | cons d t ih =>
    match d with
    | .element ⟨a, v⟩ =>
      have hv : elementValues (.element ⟨a, v⟩ :: t) = v :: elementValues t := rfl
      simp only [overArray, hv, overInline]
      split <;> simp [ih, setValues]
    | .comment c =>
      have hv : elementValues (.comment c :: t) = elementValues t := rfl
      simp only [overArray, hv, ih, setValues]
    | .inlineComment c =>
      have hv : elementValues (.inlineComment c :: t) = elementValues t := rfl
      simp only [overArray, hv, ih, setValues]

theorem nthElement_values (ds : List ArrayData) (n : Nat) :
    (elementValues ds)[n]? = (nthElement ds n).map AliasedYaml.value := by
  induction ds generalizing n with
  | nil => simp [elementValues, nthElement]
  | cons d t ih =>
    match d with
    | .element ⟨a, v⟩ =>
      have hv : elementValues (.element ⟨a, v⟩ :: t) = v :: elementValues t := rfl
      cases n with
      | zero => simp [hv, nthElement]
      | succ n => simp [hv, nthElement, ih]
    | .comment c => exact ih n
    | .inlineComment c => exact ih n

theorem setNthElement_values (ds : List ArrayData) (n : Nat) (a : Option Str) (v w : Yaml)
    (h : nthElement ds n = some ⟨a, v⟩) :
    setNthElement ds n ⟨a, w⟩ = setValues ds ((elementValues ds).set n w) := by
  induction ds generalizing n with
  | nil => rfl
  | cons d t ih =>
    match d with
    | .element ⟨a', v'⟩ =>
      have hv : elementValues (.element ⟨a', v'⟩ :: t) = v' :: elementValues t := rfl
      cases n with
      | zero =>
        simp only [nthElement, Option.some.injEq, AliasedYaml.mk.injEq] at h
        obtain ⟨rfl, rfl⟩ := h
        simp [hv, setNthElement, setValues, setValues_self]
      | succ n =>
        simp only [nthElement] at h
        simp [hv, setNthElement, setValues, ih n h]
    | .comment c =>
      have hv : elementValues (.comment c :: t) = elementValues t := rfl
      simp only [hv, setNthElement, setValues, ih n h]
    | .inlineComment c =>
      have hv : elementValues (.inlineComment c :: t) = elementValues t := rfl
      simp only [hv, setNthElement, setValues, ih n h]

theorem atInline_length (cs : List Condition) (g : Yaml → A × Yaml) (is : List Nat) (c : A) (es : List Yaml) :
    (atInline cs g is c es).2.length = es.length := by
  induction is generalizing c es with
  | nil => rfl
  | cons i is ih =>
    simp only [atInline]
    split
    · split
      · rw [ih]; simp
      · rw [ih]
    · rw [ih]

theorem atArray_values (cs : List Condition) (g : Yaml → A × Yaml) (is : List Nat) (c : A)
    (ds : List ArrayData) :
    atArray cs g is c ds = ((atInline cs g is c (elementValues ds)).1,
      setValues ds (atInline cs g is c (elementValues ds)).2) := by
  induction is generalizing c ds with
  | nil => simp [atArray, atInline, setValues_self]
  | cons i is ih =>
    simp only [atArray, atInline, nthElement_values]
    cases hn : nthElement ds i with
    | none => simp only [Option.map_none, ih]
    | some e =>
      obtain ⟨a, v⟩ := e
      simp only [Option.map_some]
      split
      · rw [ih, setNthElement_values ds i a v _ hn]
        have hl : ((elementValues ds).set i (g v).2).length = (elementValues ds).length := by simp
        rw [elementValues_setValues _ _ hl, setValues_setValues _ _ _ hl]
        rw [atInline_length, hl]
      · rw [ih]

/-- Visits at listed positions change the tree at these positions. -/
theorem atInline_snd (cs : List Condition) (g : Yaml → A × Yaml) (is : List Nat) (c : A) (es : List Yaml) :
    (atInline cs g is c es).2 = is.foldl (fun es i => es.modify i (visitTree cs g)) es := by
  induction is generalizing c es with
  | nil => rfl
  | cons i is ih =>
    simp only [atInline, List.foldl_cons]
    split
    · rename_i e he
      have hm : es.modify i (visitTree cs g) = es.set i (visitTree cs g e) := by
        apply List.ext_getElem?
        intro j
        rw [List.getElem?_modify, List.getElem?_set]
        split
        · rename_i hij; subst hij; rw [he]; simp [(List.getElem?_eq_some_iff.1 he).1]
        · simp
      split
      · rename_i hf; rw [ih, hm]; simp [visitTree, hf]
      · rename_i hf; rw [ih, hm]
        simp only [visitTree, hf]
        congr 1
        apply List.ext_getElem?
        intro j
        rw [List.getElem?_set]
        split
        · rename_i hij; subst hij; rw [he]; simp [(List.getElem?_eq_some_iff.1 he).1]
        · simp
    · rename_i he
      rw [ih]
      congr 1
      apply List.ext_getElem?
      intro j
      rw [List.getElem?_modify]
      split
      · rename_i hij; subst hij; rw [he]; simp
      · simp

theorem foldl_modify_not_mem (G : Yaml → Yaml) (is : List Nat) (es : List Yaml) (j : Nat) (h : j ∉ is) :
    (is.foldl (fun es i => es.modify i G) es)[j]? = es[j]? := by
  induction is generalizing es with
  | nil => rfl
  | cons i is ih =>
    simp only [List.mem_cons, not_or] at h
    rw [List.foldl_cons, ih _ h.2, List.getElem?_modify]
    simp [Ne.symm h.1]

/-- After visits of listed positions, the element at a listed position comes from a last visit. -/
theorem foldl_modify_mem (G : Yaml → Yaml) (I : Yaml → Prop) (hI : ∀ e, I e → I (G e)) (is : List Nat)
    (es : List Yaml) (hes : ∀ e ∈ es, I e) (j : Nat) (h : j ∈ is) (e' : Yaml)
    (he : (is.foldl (fun es i => es.modify i G) es)[j]? = some e') : ∃ e, I e ∧ e' = G e := by
  induction is generalizing es with
  | nil => cases h
  | cons i is ih =>
    rw [List.foldl_cons] at he
    have hes' : ∀ e ∈ es.modify i G, I e := by
      intro e hm
      obtain ⟨k, hk⟩ := List.mem_iff_getElem?.1 hm
      rw [List.getElem?_modify] at hk
      obtain ⟨x, hx, rfl⟩ := Option.map_eq_some_iff.1 hk
      have := hes x (List.mem_iff_getElem?.2 ⟨k, hx⟩)
      split
      · exact hI _ this
      · exact this
    by_cases hj : j ∈ is
    · exact ih _ hes' hj he
    · rw [foldl_modify_not_mem _ _ _ _ hj] at he
      have : i = j := by
        rcases List.mem_cons.1 h with h | h
        · exact h.symm
        · exact absurd h hj
      subst this
      rw [List.getElem?_modify] at he
      obtain ⟨e, hm, rfl⟩ := Option.map_eq_some_iff.1 he
      simp only [if_true]
      exact ⟨e, hes e (List.mem_iff_getElem?.2 ⟨i, hm⟩), rfl⟩

theorem foldl_modify_invariant (G : Yaml → Yaml) (I : Yaml → Prop) (hI : ∀ e, I e → I (G e)) (is : List Nat)
    (es : List Yaml) (hes : ∀ e ∈ es, I e) : ∀ e ∈ is.foldl (fun es i => es.modify i G) es, I e := by
  induction is generalizing es with
  | nil => exact hes
  | cons i is ih =>
    rw [List.foldl_cons]
    apply ih
    intro e hm
    obtain ⟨k, hk⟩ := List.mem_iff_getElem?.1 hm
    rw [List.getElem?_modify] at hk
    obtain ⟨x, hx, rfl⟩ := Option.map_eq_some_iff.1 hk
    have := hes x (List.mem_iff_getElem?.2 ⟨k, hx⟩)
    split
    · exact hI _ this
    · exact this

/-- With distinct positions each listed element is visited once. -/
theorem foldl_modify_nodup (G : Yaml → Yaml) (is : List Nat) (hn : is.Nodup) (es : List Yaml) (j : Nat)
    (h : j ∈ is) : (is.foldl (fun es i => es.modify i G) es)[j]? = es[j]?.map G := by
  induction is generalizing es with
  | nil => cases h
  | cons i is ih =>
    rw [List.nodup_cons] at hn
    rw [List.foldl_cons]
    by_cases hj : j ∈ is
    · rw [ih hn.2 _ hj, List.getElem?_modify]
      have : i ≠ j := fun h => hn.1 (h ▸ hj)
      simp [this]
    · rw [foldl_modify_not_mem _ _ _ _ hj, List.getElem?_modify]
      have : i = j := by
        rcases List.mem_cons.1 h with h | h
        · exact h.symm
        · exact absurd h hj
      simp [this]

/-- Visits that change nothing. -/
theorem foldl_modify_fixed (G : Yaml → Yaml) (is : List Nat) (es : List Yaml)
    (h : ∀ i ∈ is, ∀ e, es[i]? = some e → G e = e) :
    is.foldl (fun es i => es.modify i G) es = es := by
  induction is with
  | nil => rfl
  | cons i is ih =>
    rw [List.foldl_cons]
    have : es.modify i G = es := by
      apply List.ext_getElem?
      intro j
      rw [List.getElem?_modify]
      cases hj : es[j]? with
      | none => rfl
      | some e =>
        show some _ = some _
        congr 1
        split
        · rename_i hij; subst hij; exact h i (by simp) e hj
        · rfl
    rw [this]
    exact ih fun j hj => h j (by simp [hj])

theorem filterMap_congr' {α β} {f f' : α → Option β} {l : List α} (h : ∀ x ∈ l, f x = f' x) :
    l.filterMap f = l.filterMap f' := by
  induction l with
  | nil => rfl
  | cons a t ih =>
    rw [List.filterMap_cons, List.filterMap_cons, h a (by simp), ih fun x hx => h x (by simp [hx])]

/-- Positions visited with a fixed tree: the results, concatenated. -/
theorem atInline_list {α} (cs : List Condition) (g : Yaml → List α × Yaml) (hg : ∀ e, (g e).2 = e)
    (is : List Nat) (c : List α) (es : List Yaml) :
    atInline cs g is c es = (c ++ (is.filterMap fun i => es[i]?).flatMap (visitVal cs g), es) := by
  induction is generalizing c with
  | nil => simp [atInline]
  | cons i is ih =>
    have hset : ∀ (i : Nat) (e : Yaml), es[i]? = some e → es.set i e = es := by
      intro i e h
      apply List.ext_getElem?
      intro j
      rw [List.getElem?_set]
      split
      · rename_i hij; subst hij
        rw [h]
        simp; exact (List.getElem?_eq_some_iff.1 h).1
      · rfl
    simp only [atInline]
    split
    · rename_i e he
      split
      · rename_i hf
        rw [hg, hset i e he, ih, List.filterMap_cons, he]
        simp [Additive.add, visitVal, hf]
      · rename_i hf
        rw [ih, List.filterMap_cons, he]
        simp [Additive.zero, visitVal, hf]
    · rename_i he
      rw [ih, List.filterMap_cons, he]

/-- Positions visited once each: the counts, added up. -/
theorem atInline_nat (cs : List Condition) (g : Yaml → Nat × Yaml)
    (is : List Nat) (hn : is.Nodup) (c : Nat) (es : List Yaml) :
    (atInline cs g is c es).1 = c + ((is.filterMap fun i => es[i]?).map (visitVal cs g)).sum := by
  induction is generalizing c es with
  | nil => simp [atInline]
  | cons i is ih =>
    rw [List.nodup_cons] at hn
    have hset : ∀ x, (is.filterMap fun j => (es.set i x)[j]?) = is.filterMap fun j => es[j]? := by
      intro x
      apply filterMap_congr'
      intro j hj
      rw [List.getElem?_set]
      have : i ≠ j := fun h => hn.1 (h ▸ hj)
      simp [this]
    simp only [atInline]
    split
    · rename_i e he
      split
      · rename_i hf
        rw [ih hn.2, hset, List.filterMap_cons, he]
        simp [Additive.add, visitVal, hf]; omega
      · rename_i hf
        rw [ih hn.2, List.filterMap_cons, he]
        simp [Additive.zero, visitVal, hf]
    · rename_i he
      rw [ih hn.2, List.filterMap_cons, he]

/-- Visits that count nothing and change nothing. -/
theorem atInline_fixed (cs : List Condition) (g : Yaml → Nat × Yaml) (is : List Nat) (c : Nat) (es : List Yaml)
    (h : ∀ i ∈ is, ∀ e, es[i]? = some e → visitVal cs g e = 0 ∧ visitTree cs g e = e) :
    atInline cs g is c es = (c, es) := by
  induction is generalizing c with
  | nil => rfl
  | cons i is ih =>
    have ih' := fun c => ih c fun j hj => h j (by simp [hj])
    simp only [atInline]
    split
    · rename_i e he
      split
      · rename_i hf
        have := h i (by simp) e he
        simp only [visitVal, visitTree, hf, if_true] at this
        rw [this.1, this.2]
        have hset : es.set i e = es := by
          apply List.ext_getElem?
          intro j
          rw [List.getElem?_set]
          split
          · rename_i hij; subst hij
            rw [he]
            simp; exact (List.getElem?_eq_some_iff.1 he).1
          · rfl
        rw [hset, ih']
        rfl
      · exact ih' c
    · exact ih' c

theorem mem_elementValues {ds : List ArrayData} {v : Yaml} :
    v ∈ elementValues ds ↔ ∃ a, ArrayData.element ⟨a, v⟩ ∈ ds := by
  simp only [elementValues, List.mem_filterMap]
  constructor
  · rintro ⟨d, hd, h⟩
    match d, h with
    | .element ⟨a, w⟩, h =>
      simp only [Option.some.injEq] at h; subst h
      exact ⟨a, hd⟩
  · rintro ⟨a, h⟩
    exact ⟨_, h, rfl⟩

end YamlSubset
