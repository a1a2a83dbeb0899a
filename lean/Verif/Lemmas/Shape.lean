import Verif.Spec.Shape
import Verif.Props.FoldExact
import Verif.Props.Move
import Verif.Props.EditAfter

/-! # Lookups and edits on trees of the same shape -/

namespace YamlSubset
open Spec

/-! ## shapes of lists -/

theorem hashShape_append (a b : List HashData) : hashShape (a ++ b) = hashShape a ++ hashShape b := by
  induction a with
  | nil => rfl
  | cons d t ih => rcases d with c | c | ⟨k, a, v⟩ <;> simp [hashShape, ih]

theorem arrayShape_eq (ds : List ArrayData) : arrayShape ds = (elementValues ds).map shapeOf := by
  induction ds with
  | nil => rfl
  | cons d t ih => rcases d with c | c | ⟨a, v⟩ <;> simpa [arrayShape, elementValues] using ih

theorem shapesOf_eq (es : List Yaml) : shapesOf es = es.map shapeOf := by
  induction es with
  | nil => rfl
  | cons e t ih => simp [shapesOf, ih]

theorem keysOf_shape (ds : List HashData) : keysOf ds = (hashShape ds).map (·.1) := by
  induction ds with
  | nil => rfl
  | cons d t ih => rcases d with c | c | ⟨k, a, v⟩ <;> simpa [keysOf, hashShape] using ih

theorem split_shape {k : Str} {s : Shape} {a b : List (Str × Shape)} {ds : List HashData} (h : hashShape ds = a ++ (k, s) :: b) (hk : k ∉ a.map (·.1)) :
    ∃ pre v post, FirstEntry k ds pre v post ∧ hashShape pre = a ∧ shapeOf v.value = s ∧ hashShape post = b := by
  induction ds generalizing a with
  | nil => simp [hashShape] at h
  | cons d t ih =>
    rcases d with c | c | ⟨k', a', v⟩
    · obtain ⟨pre, w, post, ⟨rfl, hn⟩, h1, h2, h3⟩ := ih h hk
      exact ⟨.inlineComment c :: pre, w, post, ⟨rfl, by simpa [keysOf] using hn⟩, h1, h2, h3⟩
    · obtain ⟨pre, w, post, ⟨rfl, hn⟩, h1, h2, h3⟩ := ih h hk
      exact ⟨.comment c :: pre, w, post, ⟨rfl, by simpa [keysOf] using hn⟩, h1, h2, h3⟩
    · cases a with
      | nil =>
        simp only [hashShape, List.nil_append, List.cons.injEq, Prod.mk.injEq] at h
        obtain ⟨⟨rfl, rfl⟩, rfl⟩ := h
        exact ⟨[], ⟨a', v⟩, t, ⟨rfl, by simp [keysOf]⟩, rfl, rfl, rfl⟩
      | cons e a =>
        simp only [hashShape, List.cons_append, List.cons.injEq] at h
        simp only [List.map_cons, List.mem_cons, not_or] at hk
        obtain ⟨pre, w, post, ⟨rfl, hn⟩, h1, h2, h3⟩ := ih h.2 hk.2
        refine ⟨.element ⟨k', ⟨a', v⟩⟩ :: pre, w, post, ⟨rfl, ?_⟩, by simp [hashShape, h1, h.1], h2, h3⟩
        have : k ≠ k' := by rw [← h.1] at hk; exact hk.1
        simpa [keysOf, this] using hn

/-- In mappings of the same shape, a key is in both or in none, at the same place. -/
theorem first_shape (k : Str) {ds ds' : List HashData} (h : hashShape ds = hashShape ds') :
    (k ∉ keysOf ds ∧ k ∉ keysOf ds') ∨ ∃ pre v post pre' v' post', FirstEntry k ds pre v post ∧ FirstEntry k ds' pre' v' post' ∧
      hashShape pre = hashShape pre' ∧ shapeOf v.value = shapeOf v'.value ∧ hashShape post = hashShape post' := by
  by_cases hk : k ∈ keysOf ds
  · have : ∃ pre v post, FirstEntry k ds pre v post := by
      cases hi : ds.findIdx? (HashData.hasKey k) with
      | none => exact absurd hk (findIdx_none _ _ hi)
      | some i => obtain ⟨pre, v, post, hf, -⟩ := findIdx_spec _ _ _ hi; exact ⟨pre, v, post, hf⟩
    obtain ⟨pre, v, post, hf⟩ := this
    have he : hashShape ds' = hashShape pre ++ (k, shapeOf v.value) :: hashShape post := by
      rw [← h, hf.1, hashShape_append]; obtain ⟨a, w⟩ := v; rfl
    obtain ⟨pre', v', post', hf', h1, h2, h3⟩ := split_shape he (by rw [← keysOf_shape]; exact hf.2)
    exact .inr ⟨pre, v, post, pre', v', post', hf, hf', h1.symm, h2.symm, h3.symm⟩
  · exact .inl ⟨hk, by rwa [keysOf_shape, ← h, ← keysOf_shape]⟩

/-- Neither a block collection nor a flow sequence. -/
def IsLeaf (y : Yaml) : Prop := (∀ ds, y ≠ .hash ds) ∧ (∀ ds, y ≠ .array ds) ∧ ∀ es, y ≠ .inlineArray es

theorem shape_cases {y y' : Yaml} (h : shapeOf y = shapeOf y') :
    (∃ ds ds', y = .hash ds ∧ y' = .hash ds' ∧ hashShape ds = hashShape ds') ∨
    (∃ ds ds', y = .array ds ∧ y' = .array ds' ∧ (elementValues ds).map shapeOf = (elementValues ds').map shapeOf) ∨
    (∃ es es', y = .inlineArray es ∧ y' = .inlineArray es' ∧ es.map shapeOf = es'.map shapeOf) ∨ (IsLeaf y ∧ IsLeaf y') := by
  cases y <;> cases y' <;> simp only [shapeOf, Shape.map.injEq, Shape.seq.injEq, Shape.flow.injEq, Shape.leaf.injEq, reduceCtorEq] at h <;>
    first
    | exact .inl ⟨_, _, rfl, rfl, h⟩
    | exact .inr (.inl ⟨_, _, rfl, rfl, by rwa [arrayShape_eq, arrayShape_eq] at h⟩)
    | exact .inr (.inr (.inl ⟨_, _, rfl, rfl, by rwa [shapesOf_eq, shapesOf_eq] at h⟩))
    | exact .inr (.inr (.inr (by simp [IsLeaf])))

theorem asString_shape {y y' : Yaml} (h : shapeOf y = shapeOf y') : y.asString = y'.asString := by
  have key : ∀ {y y' : Yaml}, shapeOf y = shapeOf y' → ∀ s, y.asString = some s → y'.asString = some s := by
    intro y y' h s hs
    rw [asString_iff] at hs ⊢
    have : shapeOf y = .leaf (dataOf y) := by cases y <;> simp_all [dataOf, shapeOf]
    rw [this] at h
    cases y' <;> simp_all [shapeOf]
  cases hs : y.asString with
  | some s => rw [key h s hs]
  | none =>
    cases hs' : y'.asString with
    | none => rfl
    | some s => rw [key h.symm s hs'] at hs; cases hs

theorem keyValueIn_none {k : Str} {ds : List HashData} (h : k ∉ keysOf ds) : keyValueIn k ds = none := by
  cases hv : keyValueIn k ds with
  | none => rfl
  | some v =>
    obtain ⟨pre, post, rfl, -⟩ := keyValueIn_spec _ _ _ hv
    exact absurd (by simp [keysOf]) h

/-- The value of a key in trees of the same shape. -/
theorem keyValue_shape (k : Str) {y y' : Yaml} (h : shapeOf y = shapeOf y') :
    (y.keyValue k = none ∧ y'.keyValue k = none) ∨ ∃ v v', y.keyValue k = some v ∧ y'.keyValue k = some v' ∧ shapeOf v.value = shapeOf v'.value := by
  rcases shape_cases h with ⟨ds, ds', rfl, rfl, hd⟩ | ⟨ds, ds', rfl, rfl, -⟩ | ⟨ds, ds', rfl, rfl, -⟩ | ⟨⟨h1, -⟩, ⟨h2, -⟩⟩
  · rcases first_shape k hd with ⟨h1, h2⟩ | ⟨pre, v, post, pre', v', post', hf, hf', -, hv, -⟩
    · exact .inl ⟨keyValueIn_none h1, keyValueIn_none h2⟩
    · exact .inr ⟨v, v', hf.keyValueIn, hf'.keyValueIn, hv⟩
  · exact .inl ⟨rfl, rfl⟩
  · exact .inl ⟨rfl, rfl⟩
  · refine .inl ⟨?_, ?_⟩
    · cases y <;> first | rfl | exact absurd rfl (h1 _)
    · cases y' <;> first | rfl | exact absurd rfl (h2 _)

theorem fits_shape {y y' : Yaml} (h : shapeOf y = shapeOf y') (cs : List Condition) : y.fitsConditions cs = y'.fitsConditions cs := by
  unfold Yaml.fitsConditions
  congr 2
  funext c
  rcases keyValue_shape c.field h with ⟨h1, h2⟩ | ⟨v, v', h1, h2, hv⟩
  · rw [h1, h2]
  · rw [h1, h2]
    simp only [asString_shape hv]

theorem docShape_items (d : Document) : docShape d = (yamlItems d).map shapeOf := by
  unfold docShape yamlItems
  induction d.items with
  | nil => rfl
  | cons i t ih => cases i <;> simpa [List.filterMap_cons] using ih

/-! ## visits -/

section
variable {A B : Type} [Additive A] [Additive B]

/-- A map of results that keeps sums. -/
structure SumMap (φ : A → B) : Prop where
  zero : φ Additive.zero = Additive.zero
  add : ∀ a b, φ (Additive.add a b) = Additive.add (φ a) (φ b)
  right : ∀ b : B, Additive.add b Additive.zero = b

/-- Two visits give, on trees of the same shape, results that correspond and trees of the same shape. -/
def SameVisit (φ : A → B) (g g' : Yaml → A × Yaml) : Prop :=
  ∀ y y', shapeOf y = shapeOf y' → φ (g y).1 = φ (g' y').1 ∧ shapeOf (g y).2 = shapeOf (g' y').2

/-- The same for entries. -/
def SameEntryVisit (φ : A → B) (f f' : HashElement → A × HashElement) : Prop :=
  ∀ k v v', shapeOf v.value = shapeOf v'.value → φ (f ⟨k, v⟩).1 = φ (f' ⟨k, v'⟩).1 ∧ (f ⟨k, v⟩).2.key = (f' ⟨k, v'⟩).2.key ∧
    shapeOf (f ⟨k, v⟩).2.value.value = shapeOf (f' ⟨k, v'⟩).2.value.value

variable {φ : A → B} (hφ : SumMap φ)
include hφ

theorem overInline_agree {g g' : Yaml → A × Yaml} (hg : SameVisit φ g g') (cs : List Condition) {es es' : List Yaml} (h : es.map shapeOf = es'.map shapeOf) {c c' : A}
    (hc : φ c = φ c') :
    φ (overInline cs g c es).1 = φ (overInline cs g' c' es').1 ∧ (overInline cs g c es).2.map shapeOf = (overInline cs g' c' es').2.map shapeOf := by
  induction es generalizing es' c c' with
  | nil =>
    cases es' with
    | nil => exact ⟨hc, rfl⟩
    | cons _ _ => simp at h
  | cons e t ih =>
    cases es' with
    | nil => simp at h
    | cons e' t' =>
      simp only [List.map_cons, List.cons.injEq] at h
      simp only [overInline, fits_shape h.1]
      split
      · obtain ⟨h1, h2⟩ := hg e e' h.1
        obtain ⟨h3, h4⟩ := ih h.2 (c := Additive.add c (g e).1) (c' := Additive.add c' (g' e').1) (by rw [hφ.add, hφ.add, hc, h1])
        exact ⟨h3, by simp [h2, h4]⟩
      · obtain ⟨h3, h4⟩ := ih h.2 hc
        exact ⟨h3, by simp [h.1, h4]⟩

theorem atInline_agree {g g' : Yaml → A × Yaml} (hg : SameVisit φ g g') (cs : List Condition) (is : List Nat) {es es' : List Yaml}
    (h : es.map shapeOf = es'.map shapeOf) {c c' : A} (hc : φ c = φ c') :
    φ (atInline cs g is c es).1 = φ (atInline cs g' is c' es').1 ∧ (atInline cs g is c es).2.map shapeOf = (atInline cs g' is c' es').2.map shapeOf := by
  induction is generalizing es es' c c' with
  | nil => exact ⟨hc, h⟩
  | cons i is ih =>
    have hi : (es[i]?).map shapeOf = (es'[i]?).map shapeOf := by rw [← List.getElem?_map, ← List.getElem?_map, h]
    simp only [atInline]
    cases he : es[i]? with
    | none =>
      rw [he] at hi
      cases he' : es'[i]? with
      | none => exact ih h hc
      | some _ => rw [he'] at hi; cases hi
    | some e =>
      rw [he] at hi
      cases he' : es'[i]? with
      | none => rw [he'] at hi; cases hi
      | some e' =>
        rw [he'] at hi
        simp only [Option.map_some, Option.some.injEq] at hi
        simp only [fits_shape hi]
        split
        · obtain ⟨h1, h2⟩ := hg e e' hi
          exact ih (by rw [List.map_set, List.map_set, h, h2]) (by rw [hφ.add, hφ.add, hc, h1])
        · exact ih h hc

theorem overArray_agree {g g' : Yaml → A × Yaml} (hg : SameVisit φ g g') (cs : List Condition) {ds ds' : List ArrayData}
    (h : (elementValues ds).map shapeOf = (elementValues ds').map shapeOf) {c c' : A} (hc : φ c = φ c') :
    φ (overArray cs g c ds).1 = φ (overArray cs g' c' ds').1 ∧
      shapeOf (.array (overArray cs g c ds).2) = shapeOf (.array (overArray cs g' c' ds').2) := by
  obtain ⟨h1, h2⟩ := overInline_agree hφ hg cs h hc
  rw [overArray_values, overArray_values]
  refine ⟨h1, ?_⟩
  simp only [shapeOf, arrayShape_eq]
  rw [elementValues_setValues _ _ (by simp [overInline_snd]), elementValues_setValues _ _ (by simp [overInline_snd]), h2]

theorem atArray_agree {g g' : Yaml → A × Yaml} (hg : SameVisit φ g g') (cs : List Condition) (is : List Nat) {ds ds' : List ArrayData}
    (h : (elementValues ds).map shapeOf = (elementValues ds').map shapeOf) {c c' : A} (hc : φ c = φ c') :
    φ (atArray cs g is c ds).1 = φ (atArray cs g' is c' ds').1 ∧
      shapeOf (.array (atArray cs g is c ds).2) = shapeOf (.array (atArray cs g' is c' ds').2) := by
  obtain ⟨h1, h2⟩ := atInline_agree hφ hg cs is h hc
  rw [atArray_values, atArray_values]
  refine ⟨h1, ?_⟩
  simp only [shapeOf, arrayShape_eq]
  rw [elementValues_setValues _ _ (by simp [atInline_length]), elementValues_setValues _ _ (by simp [atInline_length]), h2]

theorem forAllIndexes_agree {g g' : Yaml → A × Yaml} (hg : SameVisit φ g g') (cs : List Condition) (n : Nat) :
    SameVisit φ (forAllIndexes cs g n) (forAllIndexes cs g' n) := by
  induction n with
  | zero => exact fun y y' h => ⟨rfl, h⟩
  | succ n ih =>
    intro y y' h
    rcases shape_cases h with ⟨ds, ds', rfl, rfl, hd⟩ | ⟨ds, ds', rfl, rfl, hd⟩ | ⟨ds, ds', rfl, rfl, hd⟩ | ⟨⟨-, h1, h2⟩, ⟨-, h3, h4⟩⟩
    · exact ⟨rfl, h⟩
    · exact overArray_agree hφ hg cs hd rfl
    · obtain ⟨h1, h2⟩ := overInline_agree hφ ih cs hd (c := Additive.zero) (c' := Additive.zero) rfl
      exact ⟨h1, by simp only [forAllIndexes, shapeOf, shapesOf_eq, h2]⟩
    · have e : ∀ {y : Yaml} {g : Yaml → A × Yaml}, (∀ ds, y ≠ .array ds) → (∀ es, y ≠ .inlineArray es) → forAllIndexes cs g (n + 1) y = (Additive.zero, y) := by
        intro y g h1 h2
        cases y <;> first | rfl | exact absurd rfl (h1 _) | exact absurd rfl (h2 _)
      rw [e h1 h2, e h3 h4]
      exact ⟨rfl, h⟩

theorem forIndexes_agree {g g' : Yaml → A × Yaml} (hg : SameVisit φ g g') (is : List Nat) (cs : List Condition) (n : Nat) :
    SameVisit φ (forIndexes is cs g n) (forIndexes is cs g' n) := by
  induction n with
  | zero => exact fun y y' h => ⟨rfl, h⟩
  | succ n ih =>
    intro y y' h
    rcases shape_cases h with ⟨ds, ds', rfl, rfl, hd⟩ | ⟨ds, ds', rfl, rfl, hd⟩ | ⟨ds, ds', rfl, rfl, hd⟩ | ⟨⟨-, h1, h2⟩, ⟨-, h3, h4⟩⟩
    · exact ⟨rfl, h⟩
    · exact atArray_agree hφ hg cs is hd rfl
    · obtain ⟨h1, h2⟩ := atInline_agree hφ ih cs is hd (c := Additive.zero) (c' := Additive.zero) rfl
      exact ⟨h1, by simp only [forIndexes, shapeOf, shapesOf_eq, h2]⟩
    · have e : ∀ {y : Yaml} {g : Yaml → A × Yaml}, (∀ ds, y ≠ .array ds) → (∀ es, y ≠ .inlineArray es) → forIndexes is cs g (n + 1) y = (Additive.zero, y) := by
        intro y g h1 h2
        cases y <;> first | rfl | exact absurd rfl (h1 _) | exact absurd rfl (h2 _)
      rw [e h1 h2, e h3 h4]
      exact ⟨rfl, h⟩

omit hφ in
mutual
theorem inlineDepth_shape : ∀ (y y' : Yaml), shapeOf y = shapeOf y' → inlineDepth y = inlineDepth y'
  | .inlineArray es, y', h => by
    cases y' with
    | inlineArray es' =>
      simp only [shapeOf, Shape.flow.injEq] at h
      simp only [inlineDepth, inlineDepthList_shape es es' h]
    | _ => simp [shapeOf] at h
  | .hash _, y', h => by cases y' <;> simp [shapeOf] at h <;> rfl
  | .array _, y', h => by cases y' <;> simp [shapeOf] at h <;> rfl
  | .inlineHash _, y', h => by cases y' <;> simp [shapeOf] at h <;> rfl
  | .singleQuotedString _, y', h => by cases y' <;> simp [shapeOf] at h <;> rfl
  | .doubleQuotedString _, y', h => by cases y' <;> simp [shapeOf] at h <;> rfl
  | .unquotedString _, y', h => by cases y' <;> simp [shapeOf] at h <;> rfl
  | .foldedString _ _, y', h => by cases y' <;> simp [shapeOf] at h <;> rfl
  | .literalString _ _, y', h => by cases y' <;> simp [shapeOf] at h <;> rfl
  | .anchor _, y', h => by cases y' <;> simp [shapeOf] at h <;> rfl
theorem inlineDepthList_shape : ∀ (es es' : List Yaml), shapesOf es = shapesOf es' → inlineDepthList es = inlineDepthList es'
  | [], es', h => by cases es' <;> simp [shapesOf] at h; rfl
  | e :: t, es', h => by
    cases es' with
    | nil => simp [shapesOf] at h
    | cons e' t' =>
      simp only [shapesOf, List.cons.injEq] at h
      simp only [inlineDepthList, inlineDepth_shape e e' h.1, inlineDepthList_shape t t' h.2]
end

omit hφ in
theorem shape_entry (k : Str) (v : AliasedYaml) (t : List HashData) : hashShape (.element ⟨k, v⟩ :: t) = (k, shapeOf v.value) :: hashShape t := by
  obtain ⟨a, v⟩ := v; rfl

omit hφ in
theorem shape_element (e : HashElement) (t : List HashData) : hashShape (.element e :: t) = (e.key, shapeOf e.value.value) :: hashShape t := by
  obtain ⟨k, a, v⟩ := e; rfl

omit hφ in
theorem forKey_agree {f f' : HashElement → A × HashElement} (hf : SameEntryVisit φ f f') (k : Str) (cs : List Condition) : SameVisit φ (forKey k cs f) (forKey k cs f') := by
  intro y y' h
  simp only [forKey, fits_shape h]
  split
  · rcases shape_cases h with ⟨ds, ds', rfl, rfl, hd⟩ | ⟨ds, ds', rfl, rfl, hd⟩ | ⟨ds, ds', rfl, rfl, hd⟩ | ⟨⟨h1, -⟩, ⟨h2, -⟩⟩
    · rcases first_shape k hd with ⟨h1, h2⟩ | ⟨pre, v, post, pre', v', post', hf1, hf2, hp, hv, hq⟩
      · have e : ∀ {ds : List HashData}, k ∉ keysOf ds → ds.findIdx? (HashData.hasKey k) = none := by
          intro ds hn
          cases hi : ds.findIdx? (HashData.hasKey k) with
          | none => rfl
          | some i =>
            obtain ⟨pre, v, post, ⟨rfl, -⟩, -⟩ := findIdx_spec _ _ _ hi
            exact absurd (by simp [keysOf]) hn
        simp only [Yaml.keyIndex, e h1, e h2]
        exact ⟨trivial, h⟩
      · simp only [Yaml.keyIndex, hf1.findIdx, hf2.findIdx, hf1.get, hf2.get]
        obtain ⟨e1, e2, e3⟩ := hf k v v' hv
        refine ⟨e1, ?_⟩
        rw [hf1.1, hf2.1, set_append_length, set_append_length]
        simp only [shapeOf, hashShape_append, shape_element, hp, hq, e2, e3]
    · exact ⟨rfl, h⟩
    · exact ⟨rfl, h⟩
    · have e : ∀ {y : Yaml}, (∀ ds, y ≠ .hash ds) → y.keyIndex k = none := by
        intro y hy; cases y <;> first | rfl | exact absurd rfl (hy _)
      simp only [e h1, e h2]
      exact ⟨trivial, h⟩
  · exact ⟨rfl, h⟩

theorem forHash_agree {f f' : HashElement → A × HashElement} {r r' : Yaml → A × Yaml} (hf : SameEntryVisit φ f f') (hr : SameVisit φ r r') (path : YamlPath) :
    SameVisit φ (Yaml.forHash f r path) (Yaml.forHash f' r' path) := by
  induction path using lastKey.induct with
  | case1 cs =>
    intro y y' h
    simp only [Yaml.forHash, fits_shape h]
    split
    · exact hr y y' h
    · exact ⟨rfl, h⟩
  | case2 k cs =>
    refine forKey_agree (fun k' v v' hv => ?_) k cs
    by_cases hk : k = k'
    · simp only [hk, if_true]; exact hf k' v v' hv
    · simp only [hk, if_false]; exact ⟨trivial, trivial, hv⟩
  | case3 k cs p ih =>
    refine forKey_agree (fun k' v v' hv => ?_) k cs
    obtain ⟨h1, h2⟩ := ih _ _ hv
    exact ⟨h1, rfl, h2⟩
  | case4 cs =>
    intro y y' h
    simp only [Yaml.forHash, inlineDepth_shape y y' h]
    exact forAllIndexes_agree hφ hr cs _ y y' h
  | case5 cs p ih =>
    intro y y' h
    simp only [Yaml.forHash, inlineDepth_shape y y' h]
    exact forAllIndexes_agree hφ ih cs _ y y' h
  | case6 is cs =>
    intro y y' h
    simp only [Yaml.forHash, inlineDepth_shape y y' h]
    exact forIndexes_agree hφ hr is cs _ y y' h
  | case7 is cs p ih =>
    intro y y' h
    simp only [Yaml.forHash, inlineDepth_shape y y' h]
    exact forIndexes_agree hφ ih is cs _ y y' h

/-- Closures of edits of mappings. -/
def SameClosure (f f' : List HashData → Str → Option Nat → Nat × List HashData) : Prop :=
  ∀ k ds ds', hashShape ds = hashShape ds' → (f ds k (ds.findIdx? (HashData.hasKey k))).1 = (f' ds' k (ds'.findIdx? (HashData.hasKey k))).1 ∧
    hashShape (f ds k (ds.findIdx? (HashData.hasKey k))).2 = hashShape (f' ds' k (ds'.findIdx? (HashData.hasKey k))).2

omit hφ in
theorem sumMap_id : SumMap (id : Nat → Nat) := ⟨rfl, fun _ _ => rfl, fun _ => rfl⟩

omit hφ in
theorem editHash_agree {f f' : List HashData → Str → Option Nat → Nat × List HashData} (hf : SameClosure f f') (path : YamlPath) :
    SameVisit (id : Nat → Nat) (Yaml.editHash f path) (Yaml.editHash f' path) := by
  induction path using lastKey.induct with
  | case1 cs => exact fun y y' h => ⟨rfl, h⟩
  | case2 k cs =>
    intro y y' h
    rcases shape_cases h with ⟨ds, ds', rfl, rfl, hd⟩ | ⟨ds, ds', rfl, rfl, hd⟩ | ⟨ds, ds', rfl, rfl, hd⟩ | ⟨⟨h1, -⟩, ⟨h2, -⟩⟩
    · simp only [Yaml.editHash, fits_shape h]
      split
      · obtain ⟨h1, h2⟩ := hf k ds ds' hd
        exact ⟨h1, by simp only [shapeOf, Yaml.keyIndex, h2]⟩
      · exact ⟨rfl, h⟩
    · rw [editHash_key_other _ _ _ _ _ (by simp), editHash_key_other _ _ _ _ _ (by simp)]; exact ⟨rfl, h⟩
    · rw [editHash_key_other _ _ _ _ _ (by simp), editHash_key_other _ _ _ _ _ (by simp)]; exact ⟨rfl, h⟩
    · rw [editHash_key_other _ _ _ _ _ h1, editHash_key_other _ _ _ _ _ h2]; exact ⟨rfl, h⟩
  | case3 k cs p ih =>
    intro y y' h
    rcases shape_cases h with ⟨ds, ds', rfl, rfl, hd⟩ | ⟨ds, ds', rfl, rfl, hd⟩ | ⟨ds, ds', rfl, rfl, hd⟩ | ⟨⟨h1, -⟩, ⟨h2, -⟩⟩
    · simp only [Yaml.editHash, fits_shape h]
      split
      · rcases first_shape k hd with ⟨h1, h2⟩ | ⟨pre, ⟨a, v⟩, post, pre', ⟨a', v'⟩, post', hf1, hf2, hp, hv, hq⟩
        · have e : ∀ {ds : List HashData}, k ∉ keysOf ds → ds.findIdx? (HashData.hasKey k) = none := by
            intro ds hn
            cases hi : ds.findIdx? (HashData.hasKey k) with
            | none => rfl
            | some i =>
              obtain ⟨pre, v, post, ⟨rfl, -⟩, -⟩ := findIdx_spec _ _ _ hi
              exact absurd (by simp [keysOf]) hn
          simp only [Yaml.keyIndex, e h1, e h2]
          exact ⟨trivial, h⟩
        · simp only [Yaml.keyIndex, hf1.findIdx, hf2.findIdx, hf1.get, hf2.get]
          obtain ⟨e1, e2⟩ := ih _ _ hv
          refine ⟨e1, ?_⟩
          rw [hf1.1, hf2.1, set_append_length, set_append_length]
          simp only [shapeOf, hashShape_append, shape_element, hp, hq, e2]
      · exact ⟨rfl, h⟩
    · rw [editHash_key_other _ _ _ _ _ (by simp), editHash_key_other _ _ _ _ _ (by simp)]; exact ⟨rfl, h⟩
    · rw [editHash_key_other _ _ _ _ _ (by simp), editHash_key_other _ _ _ _ _ (by simp)]; exact ⟨rfl, h⟩
    · rw [editHash_key_other _ _ _ _ _ h1, editHash_key_other _ _ _ _ _ h2]; exact ⟨rfl, h⟩
  | case4 cs => exact fun y y' h => ⟨rfl, h⟩
  | case5 cs p ih =>
    intro y y' h
    rcases shape_cases h with ⟨ds, ds', rfl, rfl, hd⟩ | ⟨ds, ds', rfl, rfl, hd⟩ | ⟨ds, ds', rfl, rfl, hd⟩ | ⟨⟨-, h1, h2⟩, ⟨-, h3, h4⟩⟩
    · exact ⟨rfl, h⟩
    · exact overArray_agree sumMap_id ih cs hd rfl
    · obtain ⟨h1, h2⟩ := overInline_agree sumMap_id ih cs hd (c := 0) (c' := 0) rfl
      exact ⟨h1, by simp only [Yaml.editHash, shapeOf, shapesOf_eq, h2]⟩
    · have e : ∀ {y : Yaml} {f}, (∀ ds, y ≠ .array ds) → (∀ es, y ≠ .inlineArray es) → Yaml.editHash f (.allIndexes cs (some p)) y = (0, y) := by
        intro y f h1 h2
        cases y <;> first | rfl | exact absurd rfl (h1 _) | exact absurd rfl (h2 _)
      rw [e h1 h2, e h3 h4]
      exact ⟨rfl, h⟩
  | case6 is cs => exact fun y y' h => ⟨rfl, h⟩
  | case7 is cs p ih =>
    intro y y' h
    rcases shape_cases h with ⟨ds, ds', rfl, rfl, hd⟩ | ⟨ds, ds', rfl, rfl, hd⟩ | ⟨ds, ds', rfl, rfl, hd⟩ | ⟨⟨-, h1, h2⟩, ⟨-, h3, h4⟩⟩
    · exact ⟨rfl, h⟩
    · exact atArray_agree sumMap_id ih cs is hd rfl
    · obtain ⟨h1, h2⟩ := atInline_agree sumMap_id ih cs is hd (c := 0) (c' := 0) rfl
      exact ⟨h1, by simp only [Yaml.editHash, shapeOf, shapesOf_eq, h2]⟩
    · have e : ∀ {y : Yaml} {f}, (∀ ds, y ≠ .array ds) → (∀ es, y ≠ .inlineArray es) → Yaml.editHash f (.indexes is cs (some p)) y = (0, y) := by
        intro y f h1 h2
        cases y <;> first | rfl | exact absurd rfl (h1 _) | exact absurd rfl (h2 _)
      rw [e h1 h2, e h3 h4]
      exact ⟨rfl, h⟩

omit hφ in
theorem insert_same {h h' : AliasedYaml} (hh : shapeOf h.value = shapeOf h'.value) (o : Bool) : SameClosure (insertClosure h o) (insertClosure h' o) := by
  intro k ds ds' hd
  rcases first_shape k hd with ⟨h1, h2⟩ | ⟨pre, v, post, pre', v', post', hf1, hf2, hp, hv, hq⟩
  · have e : ∀ {ds : List HashData}, k ∉ keysOf ds → ds.findIdx? (HashData.hasKey k) = none := by
      intro ds hn
      cases hi : ds.findIdx? (HashData.hasKey k) with
      | none => rfl
      | some i =>
        obtain ⟨pre, v, post, ⟨rfl, -⟩, -⟩ := findIdx_spec _ _ _ hi
        exact absurd (by simp [keysOf]) hn
    simp only [e h1, e h2, insertClosure, hashShape_append, shape_entry, hh, hd, hashShape, true_and]
  · simp only [hf1.findIdx, hf2.findIdx, insertClosure]
    split
    · rw [hf1.1, hf2.1, set_append_length, set_append_length]
      simp only [hashShape_append, shape_entry, hp, hq, hh, true_and]
    · exact ⟨rfl, hd⟩

omit hφ in
theorem remove_same : SameClosure removeClosure removeClosure := by
  intro k ds ds' hd
  rcases first_shape k hd with ⟨h1, h2⟩ | ⟨pre, v, post, pre', v', post', hf1, hf2, hp, hv, hq⟩
  · have e : ∀ {ds : List HashData}, k ∉ keysOf ds → ds.findIdx? (HashData.hasKey k) = none := by
      intro ds hn
      cases hi : ds.findIdx? (HashData.hasKey k) with
      | none => rfl
      | some i =>
        obtain ⟨pre, v, post, ⟨rfl, -⟩, -⟩ := findIdx_spec _ _ _ hi
        exact absurd (by simp [keysOf]) hn
    simp only [e h1, e h2, removeClosure, hd, true_and]
  · simp only [hf1.findIdx, hf2.findIdx, removeClosure]
    have e : ∀ (pre : List HashData) (x : HashData) (post : List HashData), (pre ++ x :: post).eraseIdx pre.length = pre ++ post := by
      intro pre x post
      rw [List.eraseIdx_append_of_length_le (by omega)]; simp
    rw [hf1.1, hf2.1, e, e]
    simp only [hashShape_append, hp, hq, true_and]

/-- Documents. -/
theorem overItems_agree {g g' : Yaml → A × Yaml} (hg : SameVisit φ g g') {d d' : Document} (h : docShape d = docShape d') :
    φ (d.overItems g).1 = φ (d'.overItems g').1 ∧ docShape (d.overItems g).2 = docShape (d'.overItems g').2 := by
  rw [docShape_items, docShape_items] at h
  have sum : ∀ (g : Yaml → A × Yaml) (d : Document), φ (d.overItems g).1 = (yamlItems d).foldl (fun b y => Additive.add b (φ (g y).1)) Additive.zero := by
    intro g d
    have key : ∀ (is : List DocumentData) (c : A), φ (Document.overItems.go g c is).1 =
        (is.filterMap fun | .yaml y => some y | .comment _ => none).foldl (fun b y => Additive.add b (φ (g y).1)) (φ c) := by
      intro is
      induction is with
      | nil => intro c; rfl
      | cons i t ih =>
        intro c
        cases i with
        | comment s => simp only [Document.overItems.go, ih, hφ.add, hφ.zero, hφ.right, List.filterMap_cons]
        | yaml y => simp only [Document.overItems.go, ih, hφ.add, List.filterMap_cons, List.foldl_cons]
    rw [← hφ.zero]
    exact key d.items Additive.zero
  rw [sum, sum, docShape_items, docShape_items, overItems_items, overItems_items, List.map_map, List.map_map]
  generalize yamlItems d = l at h ⊢
  generalize yamlItems d' = l' at h ⊢
  generalize (Additive.zero : B) = b
  induction l generalizing l' b with
  | nil =>
    cases l' with
    | nil => exact ⟨rfl, rfl⟩
    | cons _ _ => simp at h
  | cons y t ih =>
    cases l' with
    | nil => simp at h
    | cons y' t' =>
      simp only [List.map_cons, List.cons.injEq] at h
      obtain ⟨h1, h2⟩ := hg y y' h.1
      simp only [List.foldl_cons, List.map_cons, h1]
      obtain ⟨h3, h4⟩ := ih _ h.2 (Additive.add b (φ (g' y').1))
      exact ⟨h3, by simp only [Function.comp, h2] at h4 ⊢; rw [h4]⟩

end

end YamlSubset
