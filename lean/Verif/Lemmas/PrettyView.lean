import Verif.Props.FoldExact
import Verif.Spec.Requote

/-! # The view of a pretty tree -/

namespace YamlSubset

open Spec

/-- The entries of a block mapping with their anchors. -/
def HashData.full? : HashData → Option (Str × Option Str × Yaml)
  | .element ⟨k, ⟨a, v⟩⟩ => some (k, a, v)
  | _ => none

/-- The elements of a block sequence with their anchors. -/
def ArrayData.full? : ArrayData → Option (Option Str × Yaml)
  | .element ⟨a, v⟩ => some (a, v)
  | _ => none

theorem HashData.mem_full {ds : List HashData} {k : Str} {a : Option Str} {v : Yaml} :
    (k, a, v) ∈ ds.filterMap HashData.full? ↔ HashData.element ⟨k, ⟨a, v⟩⟩ ∈ ds := by
  rw [List.mem_filterMap]
  constructor
  · rintro ⟨d, hd, h⟩
    match d with
    | .element ⟨k', ⟨a', v'⟩⟩ => simp [HashData.full?] at h; obtain ⟨rfl, rfl, rfl⟩ := h; exact hd
    | .comment c => simp [HashData.full?] at h
    | .inlineComment c => simp [HashData.full?] at h
  · intro h; exact ⟨_, h, rfl⟩

theorem ArrayData.mem_full {ds : List ArrayData} {a : Option Str} {v : Yaml} :
    (a, v) ∈ ds.filterMap ArrayData.full? ↔ ArrayData.element ⟨a, v⟩ ∈ ds := by
  rw [List.mem_filterMap]
  constructor
  · rintro ⟨d, hd, h⟩
    match d with
    | .element ⟨a', v'⟩ => simp [ArrayData.full?] at h; obtain ⟨rfl, rfl⟩ := h; exact hd
    | .comment c => simp [ArrayData.full?] at h
    | .inlineComment c => simp [ArrayData.full?] at h
  · intro h; exact ⟨_, h, rfl⟩

theorem hashView_pretty (ds : List HashData) : hashView (prettyHashData ds) = (ds.filterMap HashData.full?).map fun e => (e.1, e.2.1, viewOf (e.2.2.pretty false false)) := by
  induction ds with
  | nil => rfl
  | cons d t ih =>
    match d with
    | .element ⟨k, ⟨a, v⟩⟩ => simp [prettyHashData, hashView, ih, HashData.full?]
    | .comment c => simp [prettyHashData, hashView, ih, HashData.full?, List.filterMap_cons]
    | .inlineComment c => simp [prettyHashData, hashView, ih, HashData.full?, List.filterMap_cons]

theorem hashView_full (ds : List HashData) : hashView ds = (ds.filterMap HashData.full?).map fun e => (e.1, e.2.1, viewOf e.2.2) := by
  induction ds with
  | nil => rfl
  | cons d t ih =>
    match d with
    | .element ⟨k, ⟨a, v⟩⟩ => simp [hashView, ih, HashData.full?]
    | .comment c => simp [hashView, ih, HashData.full?, List.filterMap_cons]
    | .inlineComment c => simp [hashView, ih, HashData.full?, List.filterMap_cons]

theorem arrayView_pretty (ds : List ArrayData) : arrayView (prettyArrayData ds) = (ds.filterMap ArrayData.full?).map fun e => (e.1, viewOf (e.2.pretty false true)) := by
  induction ds with
  | nil => rfl
  | cons d t ih =>
    match d with
    | .element ⟨a, v⟩ => simp [prettyArrayData, arrayView, ih, ArrayData.full?]
    | .comment c => simp [prettyArrayData, arrayView, ih, ArrayData.full?, List.filterMap_cons]
    | .inlineComment c => simp [prettyArrayData, arrayView, ih, ArrayData.full?, List.filterMap_cons]

theorem arrayView_full (ds : List ArrayData) : arrayView ds = (ds.filterMap ArrayData.full?).map fun e => (e.1, viewOf e.2) := by
  induction ds with
  | nil => rfl
  | cons d t ih =>
    match d with
    | .element ⟨a, v⟩ => simp [arrayView, ih, ArrayData.full?]
    | .comment c => simp [arrayView, ih, ArrayData.full?, List.filterMap_cons]
    | .inlineComment c => simp [arrayView, ih, ArrayData.full?, List.filterMap_cons]

theorem view_autoInline (c : Bool) (ds : List ArrayData) : viewOf (autoInline c ds) = .seq (arrayView ds) := by
  unfold autoInline
  split
  · rename_i hc
    simp only [Bool.and_eq_true, List.all_eq_true] at hc
    replace hc := hc.1.2
    rw [arrayDataValues_eq, viewOf, yamlsView_eq]
    congr 1
    induction ds with
    | nil => rfl
    | cons d t ih =>
      have iht := ih (fun d hd => hc d (by simp [hd]))
      have hd := hc d (by simp)
      match d with
      | .element ⟨a, v⟩ =>
        simp only [arrayDataInlineable, Bool.and_eq_true] at hd
        have : a = none := by simpa using hd.1
        subst this
        simp [ArrayData.value?, arrayView, iht]
      | .comment c => simp [arrayDataInlineable] at hd
      | .inlineComment c => simp [arrayDataInlineable] at hd
  · rfl

/-! ## Scalars -/

theorem special_not_breaking {s : Str} (h : SpecialText s) : inlineBreakingChars s = false := by
  simp only [SpecialText, List.mem_cons, List.not_mem_nil, or_false] at h
  rcases h with h | h | h | h
  · rcases h with rfl | rfl | rfl | rfl <;> decide
  · rcases h with rfl | rfl | rfl | rfl | rfl | rfl | rfl | rfl | rfl <;> decide
  · rcases h with rfl | rfl | rfl | rfl | rfl | rfl | rfl | rfl | rfl <;> decide
  · exact inlineBreaking_of_floatChars (f64_chars h)

theorem looseWords_unquotable : ∀ s ∈ looseWords, canBeUnquotedInBlock s = true ∧ inlineBreakingChars s = false ∧ byteLen s ≤ 90 := by
  decide +kernel

/-- Among the texts that can lose their quotes, those for which the quotes matter. -/
theorem special_of_unquotable {s : Str} (h : canBeUnquotedInBlock s = true) : SpecialText s ↔ s ∈ looseWords := by
  obtain ⟨-, h1, h2, h3, h4, h5⟩ := canBeUnquoted_spec h
  simp only [SpecialText, looseWords, List.mem_cons, List.not_mem_nil, or_false, h1, h2, h3, h4, h5, false_or, Bool.false_eq_true]
  constructor
  · rintro (h | h | h)
    · rcases h with rfl | rfl <;> simp
    · rcases h with rfl | rfl | rfl | rfl | rfl | rfl | rfl | rfl <;> simp
    · rcases h with rfl | rfl | rfl | rfl | rfl | rfl | rfl | rfl <;> simp
  · rintro (rfl | rfl | rfl | rfl | rfl | rfl | rfl | rfl | rfl | rfl | rfl | rfl | rfl | rfl | rfl | rfl | rfl | rfl) <;> simp

theorem view_pretty_single (ps : List SQPart) :
    viewOf (prettySingleQuoted false ps) = .text (parseSingleQuoted ps) ↔
      ¬ LosesQuotes (.singleQuotedString ps) ∧ ∀ s, IsFolded (.singleQuotedString ps) s → SurvivesFolding 90 s := by
  simp only [prettySingleQuoted]
  split
  · rename_i hb
    simp only [viewOf, literal_roundtrip, true_iff]
    have hb' : ¬ ∀ n, SQPart.blankLines n ∉ ps := fun h => absurd (hb.symm.trans (any_blank_false.2 h)) (by decide)
    exact ⟨fun h => by cases h with | mk _ h _ => exact hb' h, fun s h => by cases h with | singleQuoted _ _ h => exact absurd h hb'⟩
  · rename_i hb
    have hb' := any_blank_false.1 (Bool.eq_false_iff.2 hb)
    have loose : LosesQuotes (.singleQuotedString ps) ↔ parseSingleQuoted ps ∈ looseWords :=
      ⟨fun h => by cases h with | mk _ _ h => exact h, fun h => .mk _ hb' h⟩
    have folds : (∀ s, IsFolded (.singleQuotedString ps) s → SurvivesFolding 90 s) ↔ (90 < byteLen (parseSingleQuoted ps) → SurvivesFolding 90 (parseSingleQuoted ps)) :=
      ⟨fun h hl => h _ (.singleQuoted _ hl hb'), fun h s hf => by cases hf with | singleQuoted _ hl _ => exact h hl⟩
    rw [loose, folds]
    split
    · rename_i hu
      simp only [Bool.not_false, Bool.true_and, Bool.and_eq_true, maxLineLength] at hu
      have hl : ¬ 90 < byteLen (parseSingleQuoted ps) := by have := of_decide_eq_true hu.2; omega
      have hs := special_of_unquotable hu.1.1
      simp only [viewOf, hl, false_implies, and_true, ← hs]
      split <;> simp_all
    · rename_i hu
      simp only [Bool.not_false, Bool.true_and, Bool.and_eq_true, Bool.not_eq_true', maxLineLength] at hu
      have hw : parseSingleQuoted ps ∉ looseWords := fun h => hu (by obtain ⟨h1, h2, h3⟩ := looseWords_unquotable _ h; exact ⟨⟨h1, h2⟩, decide_eq_true h3⟩)
      simp only [hw, not_false_eq_true, true_and, Bool.false_eq_true, if_false]
      split
      · rename_i hl
        simp only [maxLineLength] at hl ⊢
        rw [viewOf, View.text.injEq]
        have := C02_folded_iff 90 (by decide) (parseSingleQuoted ps)
        rw [← this]
        exact ⟨fun h _ => h, fun h => h hl⟩
      · rename_i hl
        simp only [maxLineLength] at hl
        simp only [viewOf, true_iff]
        exact fun h => absurd h hl

theorem view_pretty_double (ps : List DQPart) :
    viewOf (prettyDoubleQuoted false ps) = .text (parseDoubleQuoted ps) ↔
      ∀ s, IsFolded (.doubleQuotedString ps) s → SurvivesFolding 90 s := by
  simp only [prettyDoubleQuoted, Bool.false_eq_true, if_false]
  split
  · rename_i hb
    simp only [viewOf, literal_roundtrip, true_iff]
    intro s h
    cases h with | doubleQuoted _ _ h => exact absurd (hb.symm.trans (any_escape_false.2 h)) (by decide)
  · rename_i hb
    have hb' := any_escape_false.1 (Bool.eq_false_iff.2 hb)
    have folds : (∀ s, IsFolded (.doubleQuotedString ps) s → SurvivesFolding 90 s) ↔ (90 < byteLen (parseDoubleQuoted ps) → SurvivesFolding 90 (parseDoubleQuoted ps)) :=
      ⟨fun h hl => h _ (.doubleQuoted _ hl hb'), fun h s hf => by cases hf with | doubleQuoted _ hl _ => exact h hl⟩
    rw [folds]
    split
    · rename_i hl
      simp only [maxLineLength] at hl ⊢
      rw [viewOf, View.text.injEq, ← C02_folded_iff 90 (by decide) (parseDoubleQuoted ps)]
      exact ⟨fun h _ => h, fun h => h hl⟩
    · rename_i hl
      simp only [maxLineLength] at hl
      simp only [viewOf, true_iff]
      exact fun h => absurd h hl

/-! ## Trees -/

/-- In flow context the view is kept. -/
theorem view_pretty_flow {y : Yaml} (h : FlowOnly y) (c : Bool) : viewOf (y.pretty true c) = viewOf y := by
  induction h generalizing c with
  | inlineHash h ih =>
    simp only [Yaml.pretty, viewOf, prettyEntries_eq, entriesView_eq, List.map_map]
    refine congrArg _ (List.map_congr_left fun e he => ?_)
    obtain ⟨k, v⟩ := e
    simp only [Function.comp]
    rw [ih k v he]
  | inlineArray h ih =>
    simp only [Yaml.pretty, viewOf, prettyYamls_eq, yamlsView_eq, List.map_map]
    refine congrArg _ (List.map_congr_left fun v hv => ?_)
    simp only [Function.comp]
    rw [ih v hv]
  | singleQuotedString ps =>
    simp only [Yaml.pretty, prettySingleQuoted]
    split
    · simp [viewOf, literal_roundtrip]
    · simp
  | unquotedString s =>
    simp only [Yaml.pretty, Bool.true_and]
    split
    · rename_i hb
      have : ¬ SpecialText s := fun h => by rw [special_not_breaking h] at hb; cases hb
      simp only [viewOf, this, if_false, strToSingleQuotedParts, strToSQPartsAux_value]; rfl
    · rfl
  | _ => rfl

theorem mem_of_map_eq {α β : Type} {l : List α} {f g : α → β} (h : l.map f = l.map g) : ∀ a ∈ l, f a = g a := List.map_inj_left.1 h

/-- In block context the view is kept exactly when the readings are. -/
theorem view_pretty_iff {y : Yaml} (h : BlockOutsideFlow y) (c : Bool) : viewOf (y.pretty false c) = viewOf y ↔ KeepsReading y := by
  induction h generalizing c with
  | flow h =>
    cases h with
    | @inlineHash es h =>
      have : (Yaml.inlineHash es).pretty false c = (Yaml.inlineHash es).pretty true c := by simp only [Yaml.pretty]
      rw [this, view_pretty_flow (.inlineHash h)]
      simp only [true_iff]
      intro z hz; cases hz; exact ⟨nofun, nofun⟩
    | @inlineArray es h =>
      have : (Yaml.inlineArray es).pretty false c = (Yaml.inlineArray es).pretty true c := by simp only [Yaml.pretty]
      rw [this, view_pretty_flow (.inlineArray h)]
      simp only [true_iff]
      intro z hz; cases hz; exact ⟨nofun, nofun⟩
    | singleQuotedString ps =>
      simp only [Yaml.pretty, viewOf, view_pretty_single]
      exact ⟨fun h z hz => by cases hz; exact h, fun h => h _ .here⟩
    | doubleQuotedString ps =>
      simp only [Yaml.pretty, viewOf, view_pretty_double]
      exact ⟨fun h z hz => by cases hz; exact ⟨nofun, h⟩, fun h => (h _ .here).2⟩
    | unquotedString s =>
      simp only [Yaml.pretty, Bool.false_and, Bool.false_eq_true, if_false, true_iff]
      intro z hz; cases hz; exact ⟨nofun, nofun⟩
    | foldedString => simp only [Yaml.pretty, true_iff]; intro z hz; cases hz; exact ⟨nofun, nofun⟩
    | literalString => simp only [Yaml.pretty, true_iff]; intro z hz; cases hz; exact ⟨nofun, nofun⟩
    | anchor => simp only [Yaml.pretty, true_iff]; intro z hz; cases hz; exact ⟨nofun, nofun⟩
  | @hash ds _ ih =>
    have key : viewOf ((Yaml.hash ds).pretty false c) = .map ((ds.filterMap HashData.full?).map fun e => (e.1, e.2.1, viewOf (e.2.2.pretty false false))) := by
      simp only [Yaml.pretty]
      split
      · rename_i he; simp at he; subst he; rfl
      · simp only [Bool.false_eq_true, if_false, viewOf, hashView_pretty]
    rw [key, viewOf, hashView_full, View.map.injEq]
    constructor
    · intro h z hz
      cases hz with
      | here => exact ⟨nofun, nofun⟩
      | @hash _ k a v hm hz =>
        have := mem_of_map_eq h (k, a, v) (HashData.mem_full.2 hm)
        simp only [Prod.mk.injEq, true_and] at this
        exact (ih k a v hm false).1 this z hz
    · intro h
      refine List.map_congr_left fun e he => ?_
      obtain ⟨k, a, v⟩ := e
      have ha := HashData.mem_full.1 he
      simp only
      rw [(ih k a v ha false).2 fun z hz => h z (.hash ha hz)]
  | @array ds _ ih =>
    have key : viewOf ((Yaml.array ds).pretty false c) = .seq ((ds.filterMap ArrayData.full?).map fun e => (e.1, viewOf (e.2.pretty false true))) := by
      simp only [Yaml.pretty]
      split
      · rename_i he; simp at he; subst he; rfl
      · simp only [Bool.false_eq_true, if_false, view_autoInline, arrayView_pretty]
    rw [key, viewOf, arrayView_full, View.seq.injEq]
    constructor
    · intro h z hz
      cases hz with
      | here => exact ⟨nofun, nofun⟩
      | @array _ a v hm hz =>
        have := mem_of_map_eq h (a, v) (ArrayData.mem_full.2 hm)
        simp only [Prod.mk.injEq, true_and] at this
        exact (ih a v hm true).1 this z hz
    · intro h
      refine List.map_congr_left fun e he => ?_
      obtain ⟨a, v⟩ := e
      have ha := ArrayData.mem_full.1 he
      simp only
      rw [(ih a v ha true).2 fun z hz => h z (.array ha hz)]

end YamlSubset
