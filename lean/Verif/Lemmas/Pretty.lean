import Verif.Model.Pretty
import Verif.Lemmas.Induct
import Verif.Lemmas.Folded
import Verif.Spec.Tree
import Verif.Lemmas.FoldExact

/-! # Lemmas about `pretty`: the mutual list functions as maps -/

namespace YamlSubset

open Spec

theorem prettyEntries_eq (es : List (Str × Yaml)) :
    prettyEntries es = es.map fun e => (e.1, e.2.pretty true false) := by
  induction es with
  | nil => rfl
  | cons e t ih => obtain ⟨k, v⟩ := e; simp [prettyEntries, ih]

theorem prettyYamls_eq (es : List Yaml) : prettyYamls es = es.map (Yaml.pretty true false) := by
  induction es with
  | nil => rfl
  | cons v t ih => simp [prettyYamls, ih]

/-- Change the value of hash data. -/
def HashData.onValue (g : Yaml → Yaml) : HashData → HashData
  | .element ⟨k, ⟨a, v⟩⟩ => .element ⟨k, ⟨a, g v⟩⟩
  | d => d

/-- Change the value of array data. -/
def ArrayData.onValue (g : Yaml → Yaml) : ArrayData → ArrayData
  | .element ⟨a, v⟩ => .element ⟨a, g v⟩
  | d => d

theorem prettyHashData_eq (ds : List HashData) :
    prettyHashData ds = ds.map (HashData.onValue (Yaml.pretty false false)) := by
  induction ds with
  | nil => rfl
  | cons d t ih =>
    match d with
    | .element ⟨k, ⟨a, v⟩⟩ => simp [prettyHashData, ih, HashData.onValue]
    | .comment c => simp [prettyHashData, ih, HashData.onValue]
    | .inlineComment c => simp [prettyHashData, ih, HashData.onValue]

theorem prettyArrayData_eq (ds : List ArrayData) :
    prettyArrayData ds = ds.map (ArrayData.onValue (Yaml.pretty false true)) := by
  induction ds with
  | nil => rfl
  | cons d t ih =>
    match d with
    | .element ⟨a, v⟩ => simp [prettyArrayData, ih, ArrayData.onValue]
    | .comment c => simp [prettyArrayData, ih, ArrayData.onValue]
    | .inlineComment c => simp [prettyArrayData, ih, ArrayData.onValue]

/-- The entries of hash data. -/
def HashData.entry? : HashData → Option (Str × Yaml)
  | .element ⟨k, ⟨_, v⟩⟩ => some (k, v)
  | _ => none

/-- The value of array data. -/
def ArrayData.value? : ArrayData → Option Yaml
  | .element ⟨_, v⟩ => some v
  | _ => none

theorem HashData.mem_entry {k : Str} {v : Yaml} {ds : List HashData} :
    (k, v) ∈ ds.filterMap HashData.entry? ↔ ∃ a, HashData.element ⟨k, ⟨a, v⟩⟩ ∈ ds := by
  simp only [List.mem_filterMap]
  constructor
  · rintro ⟨d, hd, h⟩
    match d with
    | .element ⟨k', ⟨a, w⟩⟩ =>
      simp [HashData.entry?] at h; obtain ⟨rfl, rfl⟩ := h; exact ⟨a, hd⟩
    | .comment c => simp [HashData.entry?] at h
    | .inlineComment c => simp [HashData.entry?] at h
  · rintro ⟨a, h⟩; exact ⟨_, h, rfl⟩

theorem ArrayData.mem_value {v : Yaml} {ds : List ArrayData} :
    v ∈ ds.filterMap ArrayData.value? ↔ ∃ a, ArrayData.element ⟨a, v⟩ ∈ ds := by
  simp only [List.mem_filterMap]
  constructor
  · rintro ⟨d, hd, h⟩
    match d with
    | .element ⟨a, w⟩ => simp [ArrayData.value?] at h; subst h; exact ⟨a, hd⟩
    | .comment c => simp [ArrayData.value?] at h
    | .inlineComment c => simp [ArrayData.value?] at h
  · rintro ⟨a, h⟩; exact ⟨_, h, rfl⟩

theorem hashToEntries_eq (ds : List HashData) :
    hashToEntries ds = (ds.filterMap HashData.entry?).map fun e => (e.1, e.2.pretty true false) := by
  induction ds with
  | nil => rfl
  | cons d t ih =>
    match d with
    | .element ⟨k, ⟨a, v⟩⟩ => simp [hashToEntries, ih, HashData.entry?]
    | .comment c => simp [hashToEntries, ih, HashData.entry?, List.filterMap_cons]
    | .inlineComment c => simp [hashToEntries, ih, HashData.entry?, List.filterMap_cons]

theorem arrayToYamls_eq (ds : List ArrayData) :
    arrayToYamls ds = (ds.filterMap ArrayData.value?).map (Yaml.pretty true false) := by
  induction ds with
  | nil => rfl
  | cons d t ih =>
    match d with
    | .element ⟨a, v⟩ => simp [arrayToYamls, ih, ArrayData.value?]
    | .comment c => simp [arrayToYamls, ih, ArrayData.value?, List.filterMap_cons]
    | .inlineComment c => simp [arrayToYamls, ih, ArrayData.value?, List.filterMap_cons]

theorem arrayDataValues_eq (ds : List ArrayData) :
    arrayDataValues ds = ds.filterMap ArrayData.value? := by
  unfold arrayDataValues
  congr 1
  funext d
  match d with
  | .element ⟨a, v⟩ => rfl
  | .comment c => rfl
  | .inlineComment c => rfl

theorem ArrayData.onValue_value (g : Yaml → Yaml) (ds : List ArrayData) :
    (ds.map (ArrayData.onValue g)).filterMap ArrayData.value? =
      (ds.filterMap ArrayData.value?).map g := by
  induction ds with
  | nil => rfl
  | cons d t ih =>
    match d with
    | .element ⟨a, v⟩ => simp [ih, ArrayData.onValue, ArrayData.value?]
    | .comment c => simp [ih, ArrayData.onValue, ArrayData.value?, List.filterMap_cons]
    | .inlineComment c => simp [ih, ArrayData.onValue, ArrayData.value?, List.filterMap_cons]

theorem mem_map_onValue_array {g : Yaml → Yaml} {ds : List ArrayData} {a : Option Str} {w : Yaml} :
    ArrayData.element ⟨a, w⟩ ∈ ds.map (ArrayData.onValue g) ↔
      ∃ v, ArrayData.element ⟨a, v⟩ ∈ ds ∧ g v = w := by
  simp only [List.mem_map]
  constructor
  · rintro ⟨d, hd, h⟩
    match d with
    | .element ⟨b, v⟩ =>
      simp [ArrayData.onValue] at h; obtain ⟨rfl, rfl⟩ := h; exact ⟨v, hd, rfl⟩
    | .comment c => simp [ArrayData.onValue] at h
    | .inlineComment c => simp [ArrayData.onValue] at h
  · rintro ⟨v, h, rfl⟩; exact ⟨_, h, rfl⟩

theorem mem_map_onValue_hash {g : Yaml → Yaml} {ds : List HashData} {k : Str} {a : Option Str}
    {w : Yaml} : HashData.element ⟨k, ⟨a, w⟩⟩ ∈ ds.map (HashData.onValue g) ↔
      ∃ v, HashData.element ⟨k, ⟨a, v⟩⟩ ∈ ds ∧ g v = w := by
  simp only [List.mem_map]
  constructor
  · rintro ⟨d, hd, h⟩
    match d with
    | .element ⟨k', ⟨b, v⟩⟩ =>
      simp [HashData.onValue] at h; obtain ⟨rfl, rfl, rfl⟩ := h; exact ⟨v, hd, rfl⟩
    | .comment c => simp [HashData.onValue] at h
    | .inlineComment c => simp [HashData.onValue] at h
  · rintro ⟨v, h, rfl⟩; exact ⟨_, h, rfl⟩

theorem HashData.map_onValue_congr {g g' : Yaml → Yaml} {ds : List HashData}
    (h : ∀ k a v, HashData.element ⟨k, ⟨a, v⟩⟩ ∈ ds → g v = g' v) :
    ds.map (HashData.onValue g) = ds.map (HashData.onValue g') := by
  refine List.map_congr_left fun d hd => ?_
  match d with
  | .element ⟨k, ⟨a, v⟩⟩ => simp [HashData.onValue, h k a v hd]
  | .comment c => rfl
  | .inlineComment c => rfl

theorem ArrayData.map_onValue_congr {g g' : Yaml → Yaml} {ds : List ArrayData}
    (h : ∀ a v, ArrayData.element ⟨a, v⟩ ∈ ds → g v = g' v) :
    ds.map (ArrayData.onValue g) = ds.map (ArrayData.onValue g') := by
  refine List.map_congr_left fun d hd => ?_
  match d with
  | .element ⟨a, v⟩ => simp [ArrayData.onValue, h a v hd]
  | .comment c => rfl
  | .inlineComment c => rfl

theorem HashData.onValue_onValue (g g' : Yaml → Yaml) (ds : List HashData) :
    (ds.map (HashData.onValue g)).map (HashData.onValue g') =
      ds.map (HashData.onValue fun v => g' (g v)) := by
  rw [List.map_map]
  refine List.map_congr_left fun d _ => ?_
  match d with
  | .element ⟨k, ⟨a, v⟩⟩ => rfl
  | .comment c => rfl
  | .inlineComment c => rfl

theorem ArrayData.onValue_onValue (g g' : Yaml → Yaml) (ds : List ArrayData) :
    (ds.map (ArrayData.onValue g)).map (ArrayData.onValue g') =
      ds.map (ArrayData.onValue fun v => g' (g v)) := by
  rw [List.map_map]
  refine List.map_congr_left fun d _ => ?_
  match d with
  | .element ⟨a, v⟩ => rfl
  | .comment c => rfl
  | .inlineComment c => rfl

theorem HashData.onValue_id (ds : List HashData) : ds.map (HashData.onValue fun v => v) = ds := by
  conv => rhs; rw [← List.map_id ds]
  refine List.map_congr_left fun d _ => ?_
  match d with
  | .element ⟨k, ⟨a, v⟩⟩ => rfl
  | .comment c => rfl
  | .inlineComment c => rfl

theorem ArrayData.onValue_id (ds : List ArrayData) : ds.map (ArrayData.onValue fun v => v) = ds := by
  conv => rhs; rw [← List.map_id ds]
  refine List.map_congr_left fun d _ => ?_
  match d with
  | .element ⟨a, v⟩ => rfl
  | .comment c => rfl
  | .inlineComment c => rfl

/-! ## the specification functions -/

theorem entriesData_eq (es : List (Str × Yaml)) :
    entriesData es = es.map fun e => (e.1, dataOf e.2) := by
  induction es with
  | nil => rfl
  | cons e t ih => obtain ⟨k, v⟩ := e; simp [entriesData, ih]

theorem yamlsData_eq (es : List Yaml) : yamlsData es = es.map dataOf := by
  induction es with
  | nil => rfl
  | cons v t ih => simp [yamlsData, ih]

theorem hashData_eq (ds : List HashData) :
    hashData ds = (ds.filterMap HashData.entry?).map fun e => (e.1, dataOf e.2) := by
  induction ds with
  | nil => rfl
  | cons d t ih =>
    match d with
    | .element ⟨k, ⟨a, v⟩⟩ => simp [hashData, ih, HashData.entry?]
    | .comment c => simp [hashData, ih, HashData.entry?, List.filterMap_cons]
    | .inlineComment c => simp [hashData, ih, HashData.entry?, List.filterMap_cons]

theorem arrayData_eq (ds : List ArrayData) :
    arrayData ds = (ds.filterMap ArrayData.value?).map dataOf := by
  induction ds with
  | nil => rfl
  | cons d t ih =>
    match d with
    | .element ⟨a, v⟩ => simp [arrayData, ih, ArrayData.value?]
    | .comment c => simp [arrayData, ih, ArrayData.value?, List.filterMap_cons]
    | .inlineComment c => simp [arrayData, ih, ArrayData.value?, List.filterMap_cons]

theorem HashData.onValue_entry (g : Yaml → Yaml) (ds : List HashData) :
    (ds.map (HashData.onValue g)).filterMap HashData.entry? =
      (ds.filterMap HashData.entry?).map fun e => (e.1, g e.2) := by
  induction ds with
  | nil => rfl
  | cons d t ih =>
    match d with
    | .element ⟨k, ⟨a, v⟩⟩ => simp [ih, HashData.onValue, HashData.entry?]
    | .comment c => simp [ih, HashData.onValue, HashData.entry?, List.filterMap_cons]
    | .inlineComment c => simp [ih, HashData.onValue, HashData.entry?, List.filterMap_cons]

theorem allStrEntries_iff {P : Str → Prop} {es : List (Str × Data)} :
    AllStrEntries P es ↔ ∀ e ∈ es, e.2.AllStr P := by
  induction es with
  | nil => simp [AllStrEntries]
  | cons e t ih => obtain ⟨k, d⟩ := e; simp [AllStrEntries, ih]

theorem allStrList_iff {P : Str → Prop} {es : List Data} :
    AllStrList P es ↔ ∀ e ∈ es, e.AllStr P := by
  induction es with
  | nil => simp [AllStrList]
  | cons e t ih => simp [AllStrList, ih]

/-! ## scalars -/

theorem literal_roundtrip (s : Str) : parseLiteral (createLiteral s) (chompingFor s) = s := by
  unfold chompingFor
  cases h : endsWithChar s '\n' with
  | false =>
    simp [createLiteral_other h, parseLiteral, joinLines_splitChar, handleEndingNewlines,
      trimEndMatches_of_not_endsWith h]
  | true =>
    obtain ⟨t, rfl⟩ := (endsWithChar_iff _ _).1 h
    simp [createLiteral_newline, parseLiteral, joinLines_splitChar, handleEndingNewlines]

theorem dataOf_prettyDoubleQuoted {i : Bool} {ps : List DQPart}
    (h : byteLen (parseDoubleQuoted ps) ≤ 90 ∨ SurvivesFolding 90 (parseDoubleQuoted ps)) :
    dataOf (prettyDoubleQuoted i ps) = .str (parseDoubleQuoted ps) := by
  unfold prettyDoubleQuoted
  split
  · rfl
  · simp only
    split
    · simp [dataOf, literal_roundtrip]
    · split
      · rename_i hl
        have : ¬ byteLen (parseDoubleQuoted ps) ≤ 90 := by simp only [maxLineLength] at hl; omega
        simp only [this, false_or] at h
        have := (folded_iff (by decide) _).2 h
        simp only [maxLineLength, dataOf, this]
      · rfl

theorem dataOf_prettySingleQuoted {i : Bool} {ps : List SQPart}
    (h : byteLen (parseSingleQuoted ps) ≤ 90 ∨ SurvivesFolding 90 (parseSingleQuoted ps)) :
    dataOf (prettySingleQuoted i ps) = .str (parseSingleQuoted ps) := by
  unfold prettySingleQuoted
  simp only
  split
  · simp [dataOf, literal_roundtrip]
  · split
    · rfl
    · split
      · rfl
      · split
        · rename_i hl
          have : ¬ byteLen (parseSingleQuoted ps) ≤ 90 := by simp only [maxLineLength] at hl; omega
          simp only [this, false_or] at h
          have := (folded_iff (by decide) _).2 h
          simp only [maxLineLength, dataOf, this]
        · rfl

/-- The outcome of the inlining decision has the same data. -/
theorem dataOf_autoInline (c : Bool) (ds : List ArrayData) :
    dataOf (autoInline c ds) = .seq (arrayData ds) := by
  unfold autoInline
  split
  · rw [dataOf, arrayDataValues_eq, yamlsData_eq, arrayData_eq]
  · rfl

theorem dataOf_pretty (y : Yaml) (i c : Bool)
    (h : (dataOf y).AllStr (fun s => byteLen s ≤ 90 ∨ SurvivesFolding 90 s)) :
    dataOf (y.pretty i c) = dataOf y := by
  induction y using Yaml.induct generalizing i c with
  | hIH es ih =>
    simp only [dataOf, Data.AllStr, allStrEntries_iff, entriesData_eq] at h
    simp only [Yaml.pretty, dataOf, prettyEntries_eq, entriesData_eq, List.map_map]
    refine congrArg _ (List.map_congr_left fun e he => ?_)
    obtain ⟨k, v⟩ := e
    simp only [Function.comp]
    rw [ih k v he _ _ (h (k, dataOf v) (List.mem_map.2 ⟨_, he, rfl⟩))]
  | hH ds ih =>
    simp only [dataOf, Data.AllStr, allStrEntries_iff, hashData_eq] at h
    have key : ∀ i c e, e ∈ ds.filterMap HashData.entry? →
        (e.1, dataOf (e.2.pretty i c)) = (e.1, dataOf e.2) := by
      intro i c e he
      obtain ⟨k, v⟩ := e
      obtain ⟨a, ha⟩ := HashData.mem_entry.1 he
      rw [ih k a v ha _ _ (h (k, dataOf v) (List.mem_map.2 ⟨_, he, rfl⟩))]
    simp only [Yaml.pretty]
    split
    · rename_i he; simp at he; subst he; rfl
    · split
      · simp only [dataOf, hashToEntries_eq, entriesData_eq, List.map_map, hashData_eq]
        exact congrArg _ (List.map_congr_left fun e he => key _ _ e he)
      · simp only [dataOf, prettyHashData_eq, hashData_eq, HashData.onValue_entry, List.map_map]
        exact congrArg _ (List.map_congr_left fun e he => key _ _ e he)
  | hIA es ih =>
    simp only [dataOf, Data.AllStr, allStrList_iff, yamlsData_eq] at h
    simp only [Yaml.pretty, dataOf, prettyYamls_eq, yamlsData_eq, List.map_map]
    refine congrArg _ (List.map_congr_left fun v hv => ?_)
    exact ih v hv _ _ (h _ (List.mem_map.2 ⟨_, hv, rfl⟩))
  | hA ds ih =>
    simp only [dataOf, Data.AllStr, allStrList_iff, arrayData_eq] at h
    have key : ∀ i c v, v ∈ ds.filterMap ArrayData.value? →
        dataOf (v.pretty i c) = dataOf v := by
      intro i c v hv
      obtain ⟨a, ha⟩ := ArrayData.mem_value.1 hv
      exact ih a v ha _ _ (h _ (List.mem_map.2 ⟨_, hv, rfl⟩))
    simp only [Yaml.pretty]
    split
    · rename_i he; simp at he; subst he; rfl
    · split
      · simp only [dataOf, arrayToYamls_eq, yamlsData_eq, List.map_map, arrayData_eq]
        exact congrArg _ (List.map_congr_left fun v hv => key _ _ v hv)
      · rw [dataOf_autoInline]
        simp only [dataOf, prettyArrayData_eq, arrayData_eq, ArrayData.onValue_value, List.map_map]
        exact congrArg _ (List.map_congr_left fun v hv => key _ _ v hv)
  | hS ps => exact dataOf_prettySingleQuoted h
  | hD ps => exact dataOf_prettyDoubleQuoted h
  | hU s =>
    simp only [Yaml.pretty]
    split
    · simp only [dataOf, strToSingleQuotedParts, strToSQPartsAux_value]; rfl
    · rfl
  | hF ls c => rfl
  | hL ls c => rfl
  | hN a => rfl

/-! ## flow and block -/

theorem flowOnly_scalar_pretty {y : Yaml} {i c : Bool}
    (hy : match y with
      | .inlineHash _ | .hash _ | .inlineArray _ | .array _ => False
      | _ => True) : FlowOnly (y.pretty i c) := by
  cases y with
  | singleQuotedString ps =>
    simp only [Yaml.pretty, prettySingleQuoted]
    repeat' split
    all_goals constructor
  | doubleQuotedString ps =>
    simp only [Yaml.pretty, prettyDoubleQuoted]
    repeat' split
    all_goals constructor
  | unquotedString s =>
    simp only [Yaml.pretty]
    split <;> constructor
  | foldedString => constructor
  | literalString => constructor
  | anchor => constructor
  | _ => exact hy.elim

theorem flowOnly_pretty_inline (y : Yaml) (c : Bool) : FlowOnly (y.pretty true c) := by
  induction y using Yaml.induct generalizing c with
  | hIH es ih =>
    simp only [Yaml.pretty, prettyEntries_eq]
    refine .inlineHash fun k v hv => ?_
    simp only [List.mem_map] at hv
    obtain ⟨⟨k', v'⟩, h, he⟩ := hv
    simp at he; rw [← he.2]; exact ih k' v' h _
  | hH ds ih =>
    simp only [Yaml.pretty]
    split
    · exact .inlineHash (by simp)
    · simp only [if_true, hashToEntries_eq]
      refine .inlineHash fun k v hv => ?_
      simp only [List.mem_map] at hv
      obtain ⟨⟨k', v'⟩, h, he⟩ := hv
      obtain ⟨a, ha⟩ := HashData.mem_entry.1 h
      simp at he; rw [← he.2]; exact ih k' a v' ha _
  | hIA es ih =>
    simp only [Yaml.pretty, prettyYamls_eq]
    refine .inlineArray fun v hv => ?_
    obtain ⟨w, hw, rfl⟩ := List.mem_map.1 hv
    exact ih w hw _
  | hA ds ih =>
    simp only [Yaml.pretty]
    split
    · exact .inlineArray (by simp)
    · simp only [if_true, arrayToYamls_eq]
      refine .inlineArray fun v hv => ?_
      obtain ⟨w, hw, rfl⟩ := List.mem_map.1 hv
      obtain ⟨a, ha⟩ := ArrayData.mem_value.1 hw
      exact ih a w ha _
  | _ => exact flowOnly_scalar_pretty (by simp)

theorem flowOnly_of_inlineable {y : Yaml} (h : BlockOutsideFlow y) (hi : isInlineable y = true) :
    FlowOnly y := by
  cases h with
  | flow h => exact h
  | hash _ => simp [isInlineable] at hi
  | array _ => simp [isInlineable] at hi

theorem blockOutsideFlow_pretty (y : Yaml) (c : Bool) : BlockOutsideFlow (y.pretty false c) := by
  induction y using Yaml.induct generalizing c with
  | hIH es ih =>
    simp only [Yaml.pretty, prettyEntries_eq]
    refine .flow (.inlineHash fun k v hv => ?_)
    simp only [List.mem_map] at hv
    obtain ⟨⟨k', v'⟩, h, he⟩ := hv
    simp at he; rw [← he.2]; exact flowOnly_pretty_inline _ _
  | hH ds ih =>
    simp only [Yaml.pretty]
    split
    · exact .flow (.inlineHash (by simp))
    · simp only [Bool.false_eq_true, if_false, prettyHashData_eq]
      refine .hash fun k a v hv => ?_
      obtain ⟨w, hw, rfl⟩ := mem_map_onValue_hash.1 hv
      exact ih k a w hw _
  | hIA es ih =>
    simp only [Yaml.pretty, prettyYamls_eq]
    refine .flow (.inlineArray fun v hv => ?_)
    obtain ⟨w, hw, rfl⟩ := List.mem_map.1 hv
    exact flowOnly_pretty_inline _ _
  | hA ds ih =>
    simp only [Yaml.pretty]
    split
    · exact .flow (.inlineArray (by simp))
    · simp only [Bool.false_eq_true, if_false, prettyArrayData_eq, autoInline, arrayDataValues_eq]
      split
      · rename_i hc
        simp only [Bool.and_eq_true, List.all_eq_true, decide_eq_true_eq] at hc
        refine .flow (.inlineArray fun v hv => ?_)
        obtain ⟨a, ha⟩ := ArrayData.mem_value.1 hv
        have hin := hc.1.2 _ ha
        simp only [arrayDataInlineable, Bool.and_eq_true] at hin
        obtain ⟨w, hw, rfl⟩ := mem_map_onValue_array.1 ha
        exact flowOnly_of_inlineable (ih a w hw _) hin.2
      · refine .array fun a v hv => ?_
        obtain ⟨w, hw, rfl⟩ := mem_map_onValue_array.1 hv
        exact ih a w hw _
  | _ => exact .flow (flowOnly_scalar_pretty (by simp))

/-! ## notes -/

theorem entriesNotes_eq (es : List (Str × Yaml)) :
    entriesNotes es = es.flatMap fun e => notes e.2 := by
  induction es with
  | nil => rfl
  | cons e t ih => obtain ⟨k, v⟩ := e; simp [entriesNotes, ih]

theorem yamlsNotes_eq (es : List Yaml) : yamlsNotes es = es.flatMap notes := by
  induction es with
  | nil => rfl
  | cons v t ih => simp [yamlsNotes, ih]

theorem notes_flowOnly {y : Yaml} (h : FlowOnly y) : notes y = [] := by
  induction h with
  | inlineHash h ih =>
    simp only [notes, entriesNotes_eq, List.flatMap_eq_nil_iff]
    exact fun e he => ih e.1 e.2 he
  | inlineArray h ih =>
    simp only [notes, yamlsNotes_eq, List.flatMap_eq_nil_iff]
    exact fun e he => ih e he
  | _ => rfl

theorem hashNotes_onValue {g : Yaml → Yaml} {ds : List HashData}
    (h : ∀ k a v, HashData.element ⟨k, ⟨a, v⟩⟩ ∈ ds → notes (g v) = notes v) :
    hashNotes (ds.map (HashData.onValue g)) = hashNotes ds := by
  induction ds with
  | nil => rfl
  | cons d t ih =>
    have iht := ih (fun k a v hv => h k a v (by simp [hv]))
    match d with
    | .element ⟨k, ⟨a, v⟩⟩ =>
      simp [hashNotes, HashData.onValue, iht, h k a v (by simp)]
    | .comment c => simp [hashNotes, HashData.onValue, iht]
    | .inlineComment c => simp [hashNotes, HashData.onValue, iht]

theorem arrayNotes_onValue {g : Yaml → Yaml} {ds : List ArrayData}
    (h : ∀ a v, ArrayData.element ⟨a, v⟩ ∈ ds → notes (g v) = notes v) :
    arrayNotes (ds.map (ArrayData.onValue g)) = arrayNotes ds := by
  induction ds with
  | nil => rfl
  | cons d t ih =>
    have iht := ih (fun a v hv => h a v (by simp [hv]))
    match d with
    | .element ⟨a, v⟩ => simp [arrayNotes, ArrayData.onValue, iht, h a v (by simp)]
    | .comment c => simp [arrayNotes, ArrayData.onValue, iht]
    | .inlineComment c => simp [arrayNotes, ArrayData.onValue, iht]

theorem notes_autoInline (c : Bool) (ds : List ArrayData) :
    notes (autoInline c ds) = arrayNotes ds := by
  unfold autoInline
  split
  · rename_i hc
    simp only [Bool.and_eq_true, List.all_eq_true] at hc
    replace hc := hc.1.2
    rw [arrayDataValues_eq, notes, yamlsNotes_eq]
    induction ds with
    | nil => rfl
    | cons d t ih =>
      have iht := ih (fun d hd => hc d (by simp [hd]))
      have hd := hc d (by simp)
      match d with
      | .element ⟨a, v⟩ =>
        simp only [arrayDataInlineable, Bool.and_eq_true] at hd
        have : a = none := by simpa using hd.1
        subst this
        simp [ArrayData.value?, arrayNotes, anchorNote, iht]
      | .comment c => simp [arrayDataInlineable] at hd
      | .inlineComment c => simp [arrayDataInlineable] at hd
  · rfl

theorem notes_pretty {y : Yaml} (h : BlockOutsideFlow y) (c : Bool) :
    notes (y.pretty false c) = notes y := by
  induction h generalizing c with
  | flow h =>
    rw [notes_flowOnly h]
    cases h with
    | inlineHash h =>
      simp only [Yaml.pretty, prettyEntries_eq]
      refine notes_flowOnly (.inlineHash fun k v hv => ?_)
      simp only [List.mem_map] at hv
      obtain ⟨⟨k', v'⟩, h, he⟩ := hv
      simp at he; rw [← he.2]; exact flowOnly_pretty_inline _ _
    | inlineArray h =>
      simp only [Yaml.pretty, prettyYamls_eq]
      refine notes_flowOnly (.inlineArray fun v hv => ?_)
      obtain ⟨w, hw, rfl⟩ := List.mem_map.1 hv
      exact flowOnly_pretty_inline _ _
    | _ => exact notes_flowOnly (flowOnly_scalar_pretty (by simp))
  | @hash ds h ih =>
    simp only [Yaml.pretty]
    split
    · rename_i he; simp at he; subst he; rfl
    · simp only [Bool.false_eq_true, if_false, prettyHashData_eq, notes]
      exact hashNotes_onValue fun k a v hv => ih k a v hv _
  | @array ds h ih =>
    simp only [Yaml.pretty]
    split
    · rename_i he; simp at he; subst he; rfl
    · simp only [Bool.false_eq_true, if_false, prettyArrayData_eq, notes_autoInline, notes]
      exact arrayNotes_onValue fun a v hv => ih a v hv _

end YamlSubset
