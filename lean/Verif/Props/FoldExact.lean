import Verif.Props.PrettySafe
import Verif.Spec.FoldedNodes

/-! # Exactly which strings survive folding, and when pretty printing keeps the data (C02, C31, C32) -/

namespace YamlSubset

open Spec

/-! ## C02 -/

/-- **C02** Folding a string and reading it back gives the string for exactly the strings of the class `SurvivesFolding`. -/
theorem C02_folded_iff (n : Nat) (hn : 0 < n) (s : Str) : FoldingKeeps n s ↔ SurvivesFolding n s := folded_iff hn s

/-- The first part of the class: the ordinary texts. -/
theorem C02_folded_ordinary (n : Nat) (s : Str) (h : Foldable n s) : FoldingKeeps n s := folded_roundtrip h

/-- The second part of the class is not empty: a newline before a word that is too long, and before an indented last line. The same texts with
one more line that is indented, or with a short word, do not survive. -/
example : SurvivesFolding 4 c!"\n\nabcde fghi\njk" ∧ ¬ Foldable 4 c!"\n\nabcde fghi\njk" ∧ SurvivesFolding 9 c!"\n  text" ∧ ¬ SurvivesFolding 9 c!"\n  text\n" ∧
    ¬ SurvivesFolding 4 c!"\n\nabc fghi\njk" := by
  simp only [← C02_folded_iff _ (by decide : 0 < 4), ← C02_folded_iff _ (by decide : 0 < 9)]
  refine ⟨by unfold FoldingKeeps; decide +kernel, fun h => by have := h.1; simp [startsWithChar] at this, ?_, ?_, ?_⟩ <;> unfold FoldingKeeps <;> decide +kernel

/-! ## C31 -/

theorem any_escape_false {ps : List DQPart} : (ps.any fun x => match x with | .escapedChar _ => true | _ => false) = false ↔ ∀ c, DQPart.escapedChar c ∉ ps := by
  rw [List.any_eq_false]
  constructor
  · intro h c hc; exact h _ hc rfl
  · intro h x hx
    cases x <;> first | (exact absurd hx (h _)) | simp

theorem any_blank_false {ps : List SQPart} : (ps.any fun x => match x with | .blankLines _ => true | _ => false) = false ↔ ∀ n, SQPart.blankLines n ∉ ps := by
  rw [List.any_eq_false]
  constructor
  · intro h c hc; exact h _ hc rfl
  · intro h x hx
    cases x <;> first | (exact absurd hx (h _)) | simp

/-- What `pretty` does to a folded scalar. -/
theorem pretty_folded {y : Yaml} {s : Str} (h : IsFolded y s) (c : Bool) : y.pretty false c = .foldedString (createFolded s 90) (chompingFor s) := by
  cases h with
  | doubleQuoted ps hl he =>
    simp only [Yaml.pretty, prettyDoubleQuoted, Bool.false_eq_true, if_false]
    rw [if_neg (fun h => Bool.noConfusion (h.symm.trans (any_escape_false.2 he))), if_pos (by simpa [maxLineLength] using hl)]
    rfl
  | singleQuoted ps hl hb =>
    simp only [Yaml.pretty, prettySingleQuoted]
    rw [if_neg (fun h => Bool.noConfusion (h.symm.trans (any_blank_false.2 hb))), if_neg (fun h => by rw [Bool.and_eq_true] at h; have h2 := of_decide_eq_true h.2; simp only [maxLineLength] at h2; omega), if_neg (by simp),
      if_pos (by simpa [maxLineLength] using hl)]
    rfl

theorem folded_data {y : Yaml} {s : Str} (h : IsFolded y s) : dataOf y = .str s := by cases h <;> rfl

/-- Other scalars keep their string. -/
theorem pretty_not_folded {y : Yaml} {s : Str} (hy : dataOf y = .str s) (h : ¬ IsFolded y s) (i c : Bool) : dataOf (y.pretty i c) = .str s := by
  cases y with
  | doubleQuotedString ps =>
    simp only [dataOf, Data.str.injEq] at hy
    subst hy
    simp only [Yaml.pretty, prettyDoubleQuoted]
    split
    · rfl
    · split
      · simp [dataOf, literal_roundtrip]
      · split
        · rename_i he hl
          exact absurd (.doubleQuoted ps (by simpa [maxLineLength] using hl) (any_escape_false.1 (Bool.eq_false_iff.2 he))) h
        · rfl
  | singleQuotedString ps =>
    simp only [dataOf, Data.str.injEq] at hy
    subst hy
    simp only [Yaml.pretty, prettySingleQuoted]
    split
    · simp [dataOf, literal_roundtrip]
    · split
      · rfl
      · split
        · rfl
        · split
          · rename_i hb _ _ hl
            exact absurd (.singleQuoted ps (by simpa [maxLineLength] using hl) (any_blank_false.1 (Bool.eq_false_iff.2 hb))) h
          · rfl
  | unquotedString t =>
    simp only [dataOf, Data.str.injEq] at hy
    subst hy
    simp only [Yaml.pretty]
    split
    · simp only [dataOf, strToSingleQuotedParts, strToSQPartsAux_value]; rfl
    · rfl
  | foldedString ls k => rw [Yaml.pretty]; exact hy
  | literalString ls k => rw [Yaml.pretty]; exact hy
  | _ => simp [dataOf] at hy

theorem asString_iff {y : Yaml} {s : Str} : y.asString = some s ↔ dataOf y = .str s := by
  cases y <;> simp [Yaml.asString, dataOf]

/-- **C31** For every scalar node and in every context, `pretty` keeps the string value, except exactly where it folds, in block context, a string that
does not survive folding. -/
theorem C31_pretty_scalar_iff (y : Yaml) (s : Str) (inInline childOfArray : Bool) (hy : y.asString = some s) :
    (y.pretty inInline childOfArray).asString = some s ↔ ¬ (inInline = false ∧ IsFolded y s ∧ ¬ SurvivesFolding 90 s) := by
  rw [asString_iff] at hy ⊢
  by_cases hf : IsFolded y s
  · cases inInline with
    | true => rw [dataOf_pretty_flow, hy]; simp
    | false =>
      rw [pretty_folded hf, dataOf, Data.str.injEq]
      have := C02_folded_iff 90 (by decide) s
      rw [← this]
      constructor
      · intro h; simp only [true_and, not_and, Classical.not_not]; exact fun _ => h
      · intro h; simp only [true_and, not_and, Classical.not_not] at h; exact h hf
  · rw [pretty_not_folded hy hf]; simp [hf]

/-! ## C32 -/

theorem map_pair_inj {α : Type} {l : List (Str × α)} {f g : α → Data} (h : (l.map fun e => (e.1, f e.2)) = l.map fun e => (e.1, g e.2)) : ∀ e ∈ l, f e.2 = g e.2 := by
  intro e he
  have := List.map_inj_left.1 h e he
  simpa using this

/-- **C32** `pretty` keeps the data of a tree if and only if every scalar that it folds (those outside flow collections, see `IsFolded`) has a string
that survives folding. -/
theorem C32_pretty_data_iff (y : Yaml) (childOfArray : Bool) :
    dataOf (y.pretty false childOfArray) = dataOf y ↔ ∀ z s, InBlock z y → IsFolded z s → SurvivesFolding 90 s := by
  have scalar : ∀ (y : Yaml) (s : Str) (c : Bool), y.asString = some s → (dataOf (y.pretty false c) = dataOf y ↔ ∀ z t, InBlock z y → IsFolded z t → SurvivesFolding 90 t) := by
    intro y s c hy
    have h := C31_pretty_scalar_iff y s false c hy
    rw [asString_iff] at hy
    rw [hy]
    rw [asString_iff] at h
    rw [h]
    simp only [true_and, not_and, Classical.not_not]
    constructor
    · intro h1 z t hz hf
      cases hz with
      | here => have := folded_data hf; rw [hy] at this; simp at this; subst this; exact h1 hf
      | hash hm _ => simp [dataOf] at hy
      | array hm _ => simp [dataOf] at hy
    · intro h1 hf; exact h1 y s .here hf
  induction y using Yaml.induct generalizing childOfArray with
  | hIH es ih =>
    have : (Yaml.inlineHash es).pretty false childOfArray = (Yaml.inlineHash es).pretty true childOfArray := by simp only [Yaml.pretty]
    rw [this, dataOf_pretty_flow]
    simp only [true_iff]
    intro z s hz hf; cases hz; cases hf
  | hIA es ih =>
    have : (Yaml.inlineArray es).pretty false childOfArray = (Yaml.inlineArray es).pretty true childOfArray := by simp only [Yaml.pretty]
    rw [this, dataOf_pretty_flow]
    simp only [true_iff]
    intro z s hz hf; cases hz; cases hf
  | hH ds ih =>
    have key : dataOf ((Yaml.hash ds).pretty false childOfArray) = .map ((ds.filterMap HashData.entry?).map fun e => (e.1, dataOf (e.2.pretty false false))) := by
      simp only [Yaml.pretty]
      split
      · rename_i he; simp at he; subst he; rfl
      · simp only [Bool.false_eq_true, if_false, dataOf, prettyHashData_eq, hashData_eq, HashData.onValue_entry, List.map_map]
        rfl
    rw [key, dataOf, hashData_eq, Data.map.injEq]
    constructor
    · intro h z s hz hf
      cases hz with
      | here => cases hf
      | @hash _ k a v hm hz =>
        have hin : (k, v) ∈ ds.filterMap HashData.entry? := HashData.mem_entry.2 ⟨a, hm⟩
        exact (ih k a v hm false).1 (map_pair_inj (f := fun v => dataOf (v.pretty false false)) (g := dataOf) h (k, v) hin) z s hz hf
    · intro h
      refine List.map_congr_left fun e he => ?_
      obtain ⟨k, v⟩ := e
      obtain ⟨a, ha⟩ := HashData.mem_entry.1 he
      simp only
      rw [(ih k a v ha false).2 fun z s hz hf => h z s (.hash ha hz) hf]
  | hA ds ih =>
    have key : dataOf ((Yaml.array ds).pretty false childOfArray) = .seq ((ds.filterMap ArrayData.value?).map fun v => dataOf (v.pretty false true)) := by
      simp only [Yaml.pretty]
      split
      · rename_i he; simp at he; subst he; rfl
      · simp only [Bool.false_eq_true, if_false]
        rw [dataOf_autoInline]
        simp only [prettyArrayData_eq, arrayData_eq, ArrayData.onValue_value, List.map_map]
        rfl
    rw [key, dataOf, arrayData_eq, Data.seq.injEq]
    constructor
    · intro h z s hz hf
      cases hz with
      | here => cases hf
      | @array _ a v hm hz =>
        have hin : v ∈ ds.filterMap ArrayData.value? := ArrayData.mem_value.2 ⟨a, hm⟩
        exact (ih a v hm true).1 (List.map_inj_left.1 h v hin) z s hz hf
    · intro h
      refine List.map_congr_left fun v hv => ?_
      obtain ⟨a, ha⟩ := ArrayData.mem_value.1 hv
      exact (ih a v ha true).2 fun z s hz hf => h z s (.array ha hz) hf
  | hS ps => exact scalar _ _ _ rfl
  | hD ps => exact scalar _ _ _ rfl
  | hU s => exact scalar _ _ _ rfl
  | hF ls c => exact scalar _ _ _ rfl
  | hL ls c => exact scalar _ _ _ rfl
  | hN a =>
    simp only [Yaml.pretty, true_iff]
    intro z s hz hf; cases hz; cases hf

/-- **C32** In flow context the data is always kept. -/
theorem C32_pretty_data_in_flow (y : Yaml) (childOfArray : Bool) : dataOf (y.pretty true childOfArray) = dataOf y := dataOf_pretty_flow y childOfArray

/-- **C32** for documents: leading comments and comment items are kept as they are, every other item keeps its place, and keeps its data exactly under the
condition above. -/
theorem C32_pretty_document_iff (d : Document) :
    d.pretty.leadingComments = d.leadingComments ∧
    d.pretty.items.length = d.items.length ∧
    ∀ i (hi : i < d.items.length), match d.items[i], d.pretty.items[i]? with
      | .comment c, some (.comment c') => c' = c
      | .yaml y, some (.yaml y') => dataOf y' = dataOf y ↔ ∀ z s, InBlock z y → IsFolded z s → SurvivesFolding 90 s
      | _, _ => False := by
  refine ⟨rfl, by simp [Document.pretty], fun i hi => ?_⟩
  simp only [Document.pretty, List.getElem?_map, List.getElem?_eq_getElem hi, Option.map_some]
  generalize d.items[i] = e
  cases e with
  | comment c => simp [DocumentData.pretty]
  | yaml y => simp only [DocumentData.pretty]; exact C32_pretty_data_iff y false

/-- A block mapping with a long quoted text that survives, and one with a long quoted word that does not. -/
example : dataOf ((Yaml.hash [.element ⟨c!"k", ⟨none, .doubleQuotedString [.string (List.replicate 60 'a' ++ c!" " ++ List.replicate 60 'b')]⟩⟩]).pretty false false) =
      .map [(c!"k", .str (List.replicate 60 'a' ++ c!" " ++ List.replicate 60 'b'))] ∧
    dataOf ((Yaml.hash [.element ⟨c!"k", ⟨none, .doubleQuotedString [.string (List.replicate 91 'a')]⟩⟩]).pretty false false) ≠
      .map [(c!"k", .str (List.replicate 91 'a'))] := by
  refine ⟨by kernel_rfl, ?_⟩
  have : dataOf ((Yaml.hash [.element ⟨c!"k", ⟨none, .doubleQuotedString [.string (List.replicate 91 'a')]⟩⟩]).pretty false false) =
      .map [(c!"k", .str (' ' :: List.replicate 91 'a'))] := by kernel_rfl
  rw [this]
  intro h
  simp only [Data.map.injEq, List.cons.injEq, Prod.mk.injEq, Data.str.injEq] at h
  have := congrArg List.length h.1.2
  simp at this

end YamlSubset
