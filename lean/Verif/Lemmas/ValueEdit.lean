import Verif.Spec.ValueEdit
import Verif.Lemmas.Decode
import Verif.Lemmas.Induct
import Verif.Props.Edit

/-! # The values of edited trees -/

namespace YamlSubset

open Spec

mutual
/-- The value of a tree without references at the self-describing type. -/
def anyValue : Yaml → SVal
  | .inlineHash es => .map (entriesVals es)
  | .hash ds => .map (hashVals ds)
  | .inlineArray es => .seq (yamlsVals es)
  | .array ds => .seq (arrayVals ds)
  | .singleQuotedString ps => .str (parseSingleQuoted ps)
  | .doubleQuotedString ps => .str (parseDoubleQuoted ps)
  | .unquotedString s => deAnyPlain s
  | .foldedString ls c => .str (parseFolded ls c)
  | .literalString ls c => .str (parseLiteral ls c)
  | .anchor _ => .unit
def entriesVals : List (Str × Yaml) → List (SVal × SVal)
  | [] => []
  | (k, v) :: t => (.str k, anyValue v) :: entriesVals t
def hashVals : List HashData → List (SVal × SVal)
  | [] => []
  | .element ⟨k, ⟨_, v⟩⟩ :: t => (.str k, anyValue v) :: hashVals t
  | .comment _ :: t => hashVals t
  | .inlineComment _ :: t => hashVals t
def yamlsVals : List Yaml → List SVal
  | [] => []
  | v :: t => anyValue v :: yamlsVals t
def arrayVals : List ArrayData → List SVal
  | [] => []
  | .element ⟨_, v⟩ :: t => anyValue v :: arrayVals t
  | .comment _ :: t => arrayVals t
  | .inlineComment _ :: t => arrayVals t
end

theorem entriesVals_eq (es : List (Str × Yaml)) : entriesVals es = es.map fun e => (.str e.1, anyValue e.2) := by
  induction es with
  | nil => rfl
  | cons x t ih => simp [entriesVals, ih]

theorem hashVals_eq (ds : List HashData) : hashVals ds = (entriesOf ds).map fun e => (.str e.1, anyValue e.2) := by
  induction ds with
  | nil => rfl
  | cons x t ih =>
    rcases x with c | c | ⟨k, a, v⟩ <;> simp [hashVals, entriesOf, List.filterMap_cons] <;> simpa [entriesOf] using ih

theorem yamlsVals_eq (es : List Yaml) : yamlsVals es = es.map anyValue := by
  induction es with
  | nil => rfl
  | cons x t ih => simp [yamlsVals, ih]

theorem arrayVals_eq (ds : List ArrayData) : arrayVals ds = (elementsOf ds).map anyValue := by
  induction ds with
  | nil => rfl
  | cons x t ih =>
    rcases x with c | c | ⟨a, v⟩ <;> simp [arrayVals, elementsOf, List.filterMap_cons] <;> simpa [elementsOf] using ih

theorem hashVals_append (a b : List HashData) : hashVals (a ++ b) = hashVals a ++ hashVals b := by
  simp [hashVals_eq, entriesOf]

theorem arrayVals_append (a b : List ArrayData) : arrayVals (a ++ b) = arrayVals a ++ arrayVals b := by
  simp [arrayVals_eq, elementsOf]

theorem mem_zip_map {α β : Type} {l : List α} {f : α → β} {a : α} {b : β} (h : (a, b) ∈ l.zip (l.map f)) : a ∈ l ∧ b = f a := by
  induction l with
  | nil => simp at h
  | cons x t ih =>
    simp only [List.map_cons, List.zip_cons_cons, List.mem_cons, Prod.mk.injEq] at h
    rcases h with ⟨rfl, rfl⟩ | h
    · exact ⟨List.mem_cons_self, rfl⟩
    · exact ⟨List.mem_cons_of_mem _ (ih h).1, (ih h).2⟩

theorem decodes_seq {Γ : Nat → Ty} {y : Yaml} {ys : List Yaml} (hy : seqElements y = some ys) (h : ∀ w ∈ ys, Decodes Γ .any w (anyValue w)) :
    Decodes Γ .any y (.seq (ys.map anyValue)) := by
  refine .anySeq (.seq hy (by simp) fun w v hm => ?_)
  obtain ⟨h1, rfl⟩ := mem_zip_map hm
  exact h w h1

theorem decodes_map {Γ : Nat → Ty} {y : Yaml} {es : List (Str × Yaml)} (hy : mapPairs y = some es)
    (h : ∀ k w, (k, w) ∈ es → Decodes Γ .any w (anyValue w)) : Decodes Γ .any y (.map (es.map fun e => (.str e.1, anyValue e.2))) := by
  refine .anyMap (.map hy (by simp) (fun k w a b hm => ?_) fun k w a b hm => ?_)
  · obtain ⟨h1, h2⟩ := mem_zip_map hm
    cases h2
    exact .str rfl
  · obtain ⟨h1, h2⟩ := mem_zip_map hm
    cases h2
    exact h k w h1

theorem mem_entriesOf {ds : List HashData} {k : Str} {v : Yaml} (h : (k, v) ∈ entriesOf ds) : ∃ a, HashData.element ⟨k, ⟨a, v⟩⟩ ∈ ds := by
  simp only [entriesOf, List.mem_filterMap] at h
  obtain ⟨d, hd, he⟩ := h
  rcases d with c | c | ⟨k', a, v'⟩ <;> simp at he
  obtain ⟨rfl, rfl⟩ := he
  exact ⟨a, hd⟩

theorem mem_elementsOf {ds : List ArrayData} {v : Yaml} (h : v ∈ elementsOf ds) : ∃ a, ArrayData.element ⟨a, v⟩ ∈ ds := by
  simp only [elementsOf, List.mem_filterMap] at h
  obtain ⟨d, hd, he⟩ := h
  rcases d with c | c | ⟨a, v'⟩ <;> simp at he
  subst he
  exact ⟨a, hd⟩

/-- A tree without references has a value. -/
theorem decodes_anyValue (Γ : Nat → Ty) (y : Yaml) : NoRefs y → Decodes Γ .any y (anyValue y) := by
  induction y using Yaml.induct with
  | hIH es ih =>
    intro h
    rw [anyValue, entriesVals_eq]
    exact decodes_map rfl fun k w hm => ih k w hm (h.child (.inlineHash hm))
  | hH ds ih =>
    intro h
    rw [anyValue, hashVals_eq]
    refine decodes_map rfl fun k w hm => ?_
    obtain ⟨a, ha⟩ := mem_entriesOf hm
    exact ih k a w ha (h.child (.hash ha))
  | hIA es ih =>
    intro h
    rw [anyValue, yamlsVals_eq]
    exact decodes_seq rfl fun w hm => ih w hm (h.child (.inlineArray hm))
  | hA ds ih =>
    intro h
    rw [anyValue, arrayVals_eq]
    refine decodes_seq rfl fun w hm => ?_
    obtain ⟨a, ha⟩ := mem_elementsOf hm
    exact ih a w ha (h.child (.array ha))
  | hS ps => exact fun _ => .anyText (by nofun) rfl
  | hD ps => exact fun _ => .anyText (by nofun) rfl
  | hU s => exact fun _ => decodes_anyPlain Γ s
  | hF ls c => exact fun _ => .anyText (by nofun) rfl
  | hL ls c => exact fun _ => .anyText (by nofun) rfl
  | hN a => exact fun h => absurd Within.self (h a)

/-! ## trees without references -/

theorem noRefs_iff (y : Yaml) : NoRefs y ↔ (∀ a, y ≠ .anchor a) ∧ ∀ c, Child c y → NoRefs c := by
  constructor
  · intro h
    exact ⟨fun a ha => h a (ha ▸ .self), fun c hc => h.child hc⟩
  · rintro ⟨h1, h2⟩ b hb
    unfold RefersTo at hb
    cases hb with
    | self => exact h1 b rfl
    | step hc hw => exact h2 _ hc b hw

theorem noRefs_hash (ds : List HashData) : NoRefs (.hash ds) ↔ ∀ k a v, HashData.element ⟨k, ⟨a, v⟩⟩ ∈ ds → NoRefs v := by
  rw [noRefs_iff]
  constructor
  · rintro ⟨-, h⟩ k a v hm
    exact h v (.hash hm)
  · intro h
    refine ⟨by nofun, fun c hc => ?_⟩
    cases hc with
    | hash hm => exact h _ _ _ hm

theorem noRefs_array (ds : List ArrayData) : NoRefs (.array ds) ↔ ∀ a v, ArrayData.element ⟨a, v⟩ ∈ ds → NoRefs v := by
  rw [noRefs_iff]
  constructor
  · rintro ⟨-, h⟩ a v hm
    exact h v (.array hm)
  · intro h
    refine ⟨by nofun, fun c hc => ?_⟩
    cases hc with
    | array hm => exact h _ _ hm

theorem noRefs_inlineArray (es : List Yaml) : NoRefs (.inlineArray es) ↔ ∀ v ∈ es, NoRefs v := by
  rw [noRefs_iff]
  constructor
  · rintro ⟨-, h⟩ v hm
    exact h v (.inlineArray hm)
  · intro h
    refine ⟨by nofun, fun c hc => ?_⟩
    cases hc with
    | inlineArray hm => exact h _ hm

/-! ## edits -/

theorem set_mid {α : Type} (l r : List α) (x x' : α) {n : Nat} (h : n = l.length) : (l ++ x :: r).set n x' = l ++ x' :: r := by
  subst h
  exact set_append_length ..

/-- Edits of a tree without references are changes of its value. -/
theorem edits_value {E F} (hE : ∀ ds ds', E ds ds' → NoRefs (.hash ds) → NoRefs (.hash ds') ∧ F (hashVals ds) (hashVals ds'))
    {ls : List Loc} {y y' : Yaml} (h : Edits E ls y y') : NoRefs y → NoRefs y' ∧ ValueEdits F ls.length (anyValue y) (anyValue y') := by
  induction h with
  | none y => exact fun h => ⟨h, .none _⟩
  | here h =>
    intro hr
    obtain ⟨h1, h2⟩ := hE _ _ h hr
    exact ⟨h1, by rw [anyValue, anyValue]; exact .here h2⟩
  | @inHash ds i k a v v' ls hi _ ih =>
    obtain ⟨l, r, rfl, rfl⟩ := split_at hi
    intro hr
    rw [noRefs_hash] at hr
    obtain ⟨h1, h2⟩ := ih (hr k a v (by simp))
    rw [set_append_length, List.length_map]
    refine ⟨(noRefs_hash _).2 fun k' a' w hw => ?_, ?_⟩
    · simp only [List.mem_append, List.mem_cons, HashData.element.injEq, HashElement.mk.injEq, AliasedYaml.mk.injEq] at hw
      rcases hw with hw | ⟨-, -, rfl⟩ | hw
      · exact hr k' a' w (by simp [hw])
      · exact h1
      · exact hr k' a' w (by simp [hw])
    · simp only [anyValue, hashVals_append, hashVals]
      have := ValueEdits.inMap (F := F) (es := hashVals l ++ (.str k, anyValue v) :: hashVals r) (i := (hashVals l).length) (k := .str k) (v := anyValue v)
        (by simp) h2
      rwa [set_append_length] at this
  | @inArray ds i a v v' ls hi _ ih =>
    obtain ⟨l, r, rfl, rfl⟩ := split_at hi
    intro hr
    rw [noRefs_array] at hr
    obtain ⟨h1, h2⟩ := ih (hr a v (by simp))
    rw [set_append_length, List.length_map]
    refine ⟨(noRefs_array _).2 fun a' w hw => ?_, ?_⟩
    · simp only [List.mem_append, List.mem_cons, ArrayData.element.injEq, AliasedYaml.mk.injEq] at hw
      rcases hw with hw | ⟨-, rfl⟩ | hw
      · exact hr a' w (by simp [hw])
      · exact h1
      · exact hr a' w (by simp [hw])
    · simp only [anyValue, arrayVals_append, arrayVals]
      have := ValueEdits.inSeq (F := F) (vs := arrayVals l ++ anyValue v :: arrayVals r) (i := (arrayVals l).length) (v := anyValue v) (by simp) h2
      rwa [set_append_length] at this
  | @inInlineArray es i v v' ls hi _ ih =>
    obtain ⟨l, r, rfl, rfl⟩ := split_at hi
    intro hr
    rw [noRefs_inlineArray] at hr
    obtain ⟨h1, h2⟩ := ih (hr v (by simp))
    rw [set_append_length, List.length_map]
    refine ⟨(noRefs_inlineArray _).2 fun w hw => ?_, ?_⟩
    · simp only [List.mem_append, List.mem_cons] at hw
      rcases hw with hw | rfl | hw
      · exact hr w (by simp [hw])
      · exact h1
      · exact hr w (by simp [hw])
    · simp only [anyValue, yamlsVals_eq, List.map_append, List.map_cons]
      have := ValueEdits.inSeq (F := F) (vs := l.map anyValue ++ anyValue v :: r.map anyValue) (i := (l.map anyValue).length) (v := anyValue v) (by simp) h2
      rwa [set_append_length] at this
  | seq _ _ ih1 ih2 =>
    intro hr
    obtain ⟨h1, h2⟩ := ih1 hr
    obtain ⟨h3, h4⟩ := ih2 h1
    rw [List.length_append]
    exact ⟨h3, .seq h2 h4⟩

/-! ## the changes of one mapping -/

theorem not_mem_hashVals {k : Str} {ds : List HashData} (h : k ∉ keysOf ds) (w : SVal) : (SVal.str k, w) ∉ hashVals ds := by
  rw [hashVals_eq]
  intro hm
  simp only [List.mem_map, Prod.mk.injEq, SVal.str.injEq] at hm
  obtain ⟨⟨k', v⟩, hm, rfl, -⟩ := hm
  obtain ⟨a, ha⟩ := mem_entriesOf hm
  exact h (by simp only [keysOf, List.mem_filterMap]; exact ⟨_, ha, rfl⟩)

theorem firstPair_of {k : Str} {ds pre post : List HashData} {v : AliasedYaml} (h : FirstEntry k ds pre v post) :
    FirstPair k (hashVals ds) (hashVals pre) (anyValue v.value) (hashVals post) := by
  obtain ⟨rfl, h⟩ := h
  obtain ⟨a, v⟩ := v
  exact ⟨by rw [hashVals_append, hashVals], not_mem_hashVals h⟩

theorem appends_value {k : Str} {h : AliasedYaml} (hh : NoRefs h.value) {ds ds' : List HashData} (hw : Appends k h ds ds')
    (hr : NoRefs (.hash ds)) : NoRefs (.hash ds') ∧ AddsPair k (anyValue h.value) (hashVals ds) (hashVals ds') := by
  obtain ⟨hk, rfl⟩ := hw
  obtain ⟨a, v⟩ := h
  rw [noRefs_hash] at hr
  refine ⟨(noRefs_hash _).2 fun k' a' w hm => ?_, not_mem_hashVals hk, by simp [hashVals_append, hashVals]⟩
  simp only [List.mem_append, List.mem_singleton, HashData.element.injEq, HashElement.mk.injEq, AliasedYaml.mk.injEq] at hm
  rcases hm with hm | ⟨-, -, rfl⟩
  · exact hr k' a' w hm
  · exact hh

theorem overwrites_value {k : Str} {h : AliasedYaml} (hh : NoRefs h.value) {ds ds' : List HashData} (hw : Overwrites k h ds ds')
    (hr : NoRefs (.hash ds)) : NoRefs (.hash ds') ∧ SetsPair k (anyValue h.value) (hashVals ds) (hashVals ds') := by
  obtain ⟨pre, v, post, hf, rfl⟩ := hw
  refine ⟨?_, _, _, _, firstPair_of hf, ?_⟩
  · obtain ⟨rfl, -⟩ := hf
    obtain ⟨a, u⟩ := h
    rw [noRefs_hash] at hr ⊢
    intro k' a' w hm
    simp only [List.mem_append, List.mem_cons, HashData.element.injEq, HashElement.mk.injEq, AliasedYaml.mk.injEq] at hm
    rcases hm with hm | ⟨-, -, rfl⟩ | hm
    · exact hr k' a' w (by simp [hm])
    · exact hh
    · exact hr k' a' w (by simp [hm])
  · obtain ⟨a, u⟩ := h
    rw [hashVals_append, hashVals]

theorem removes_value {k : Str} {ds ds' : List HashData} (hw : Removes k ds ds')
    (hr : NoRefs (.hash ds)) : NoRefs (.hash ds') ∧ DropsPair k (hashVals ds) (hashVals ds') := by
  obtain ⟨pre, v, post, hf, rfl⟩ := hw
  refine ⟨?_, _, _, _, firstPair_of hf, hashVals_append ..⟩
  obtain ⟨rfl, -⟩ := hf
  rw [noRefs_hash] at hr ⊢
  intro k' a' w hm
  exact hr k' a' w (by rcases List.mem_append.1 hm with hm | hm <;> simp [hm])

theorem renames_value {k new : Str} {ds ds' : List HashData} (hw : Renames k new ds ds')
    (hr : NoRefs (.hash ds)) : NoRefs (.hash ds') ∧ RenamesPair k new (hashVals ds) (hashVals ds') := by
  obtain ⟨pre, ⟨a, v⟩, post, hf, rfl⟩ := hw
  refine ⟨?_, _, _, _, firstPair_of hf, by rw [hashVals_append, hashVals]⟩
  obtain ⟨rfl, -⟩ := hf
  rw [noRefs_hash] at hr ⊢
  intro k' a' w hm
  simp only [List.mem_append, List.mem_cons, HashData.element.injEq, HashElement.mk.injEq, AliasedYaml.mk.injEq] at hm
  rcases hm with hm | ⟨-, -, rfl⟩ | hm
  · exact hr k' a' w (by simp [hm])
  · exact hr k a w (by simp)
  · exact hr k' a' w (by simp [hm])

theorem wraps_value {k obj : Str} {ds ds' : List HashData} (hw : Wraps k obj ds ds')
    (hr : NoRefs (.hash ds)) : NoRefs (.hash ds') ∧ WrapsPair k obj (hashVals ds) (hashVals ds') := by
  obtain ⟨pre, ⟨a, v⟩, post, hf, rfl⟩ := hw
  refine ⟨?_, _, _, _, firstPair_of hf, by simp [hashVals_append, hashVals, anyValue]⟩
  obtain ⟨rfl, -⟩ := hf
  rw [noRefs_hash] at hr ⊢
  intro k' a' w hm
  simp only [List.mem_append, List.mem_cons, HashData.element.injEq, HashElement.mk.injEq, AliasedYaml.mk.injEq] at hm
  rcases hm with hm | ⟨-, -, rfl⟩ | hm
  · exact hr k' a' w (by simp [hm])
  · rw [noRefs_hash]
    intro k'' a'' w hm
    simp only [List.mem_singleton, HashData.element.injEq, HashElement.mk.injEq, AliasedYaml.mk.injEq] at hm
    obtain ⟨-, -, rfl⟩ := hm
    exact hr k a w (by simp)
  · exact hr k' a' w (by simp [hm])

end YamlSubset
