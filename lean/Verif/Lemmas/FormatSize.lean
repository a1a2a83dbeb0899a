import Verif.Lemmas.Bulk

/-! # The bytes of formatted text -/

namespace YamlSubset

open Peg Spec

theorem byteLen_indent (n : Nat) : byteLen (indent n) = n := by
  unfold indent
  induction n with
  | zero => rfl
  | succ n ih => rw [List.replicate_succ, byteLen, ih]; change 1 + n = n + 1; omega

theorem byteLen_newlines (n : Nat) : byteLen (List.replicate n '\n') = n := by
  induction n with
  | zero => rfl
  | succ n ih => rw [List.replicate_succ, byteLen, ih]; change 1 + n = n + 1; omega

theorem byteLen_dq (p : DQPart) : byteLen p.format ≤ 2 * dqW p := by
  cases p with
  | string s => simp only [DQPart.format, dqW]; omega
  | escapedChar c => cases c <;> decide
  | blankLines n => simp only [DQPart.format, dqW, byteLen_newlines]; omega
  | removableNewline => decide

theorem byteLen_sq (p : SQPart) : byteLen p.format ≤ 2 * sqW p := by
  cases p with
  | string s => simp only [SQPart.format, sqW]; omega
  | escapedChar c => cases c; decide
  | blankLines n => simp only [SQPart.format, sqW, byteLen_newlines]; omega
  | removableNewline => decide

theorem byteLen_dqs (ps : List DQPart) : byteLen (ps.flatMap DQPart.format) ≤ 2 * (ps.map dqW).sum := by
  induction ps with
  | nil => simp [byteLen]
  | cons p ps ih => have := byteLen_dq p; simp only [List.flatMap_cons, byteLen_append, List.map_cons, List.sum_cons]; omega

theorem byteLen_sqs (ps : List SQPart) : byteLen (ps.flatMap SQPart.format) ≤ 2 * (ps.map sqW).sum := by
  induction ps with
  | nil => simp [byteLen]
  | cons p ps ih => have := byteLen_sq p; simp only [List.flatMap_cons, byteLen_append, List.map_cons, List.sum_cons]; omega

theorem linesW_length (ls : List Str) : ls.length ≤ linesW ls := by
  induction ls with
  | nil => exact Nat.le_refl _
  | cons l ls ih => simp only [List.length_cons, linesW_cons, lineW]; omega

theorem byteLen_lines (sp : Nat) (ls : List Str) :
    byteLen (ls.flatMap fun l => '\n' :: (indent sp ++ l)) ≤ 2 * linesW ls + ls.length * sp := by
  induction ls with
  | nil => simp [byteLen]
  | cons l ls ih =>
    have : '\n'.utf8Size = 1 := rfl
    simp only [List.flatMap_cons, byteLen_append, byteLen, byteLen_indent, linesW_cons, List.length_cons, lineW, Nat.add_mul, Nat.one_mul]
    omega

theorem byteLen_blockLines (c : Char) (hc : c.utf8Size = 1) (ls : List Str) (ch : BlockChomping) (sp : Nat) :
    byteLen (formatBlockLines c ls ch sp) ≤ 5 * linesW ls + 4 + linesW ls * sp := by
  cases ls with
  | nil => simp [formatBlockLines, byteLen]
  | cons l ls =>
    have h1 := byteLen_lines sp ls
    have h2 : byteLen ch.write ≤ 1 := by cases ch <;> decide
    have h3 : byteLen (if startsWithChar l ' ' = true then ['2'] else []) ≤ 1 := by split <;> decide
    have h4 : '\n'.utf8Size = 1 := rfl
    have h5 : ' '.utf8Size = 1 := rfl
    have h6 := Nat.mul_le_mul_right sp (linesW_length (l :: ls))
    have h7 : l.length ≤ byteLen l := length_le_byteLen l
    simp only [List.length_cons, Nat.add_mul, Nat.one_mul] at h6
    simp only [formatBlockLines, byteLen_append, byteLen, byteLen_indent, hc, h4, h5, linesW_cons, lineW] at h1 h6 ⊢
    omega

/-- What an item of a block collection adds. -/
theorem item_size {sp W D w E F : Nat} (hw : W + 1 ≤ w) (hD : D + 1 ≤ E) (hF : F ≤ W * (sp + 2 + 2 * D)) : sp + F ≤ w * (sp + 2 * E) := by
  have h1 : W * (sp + 2 + 2 * D) ≤ W * (sp + 2 * E) := Nat.mul_le_mul_left _ (by omega)
  have h2 : (W + 1) * (sp + 2 * E) ≤ w * (sp + 2 * E) := Nat.mul_le_mul_right _ hw
  rw [Nat.add_mul, Nat.one_mul] at h2
  omega

theorem flow_size {W D w E F : Nat} (hw : W ≤ w) (hD : D ≤ E) (hF : F ≤ W * (0 + 2 * D)) : F ≤ w * (2 * E) := by
  have h1 : W * (0 + 2 * D) ≤ w * (2 * E) := Nat.mul_le_mul hw (by omega)
  omega

theorem max_size {e sp E : Nat} : 5 * e + e * (sp + 2 * E) ≤ 5 * max 1 e + max 1 e * (sp + 2 * E) := by
  have : e * (sp + 2 * E) ≤ max 1 e * (sp + 2 * E) := Nat.mul_le_mul_right _ (by omega)
  omega

theorem size_chars : ' '.utf8Size = 1 ∧ '\n'.utf8Size = 1 ∧ ':'.utf8Size = 1 ∧ '#'.utf8Size = 1 ∧ '-'.utf8Size = 1 ∧ '&'.utf8Size = 1 ∧
    ','.utf8Size = 1 ∧ '{'.utf8Size = 1 ∧ '}'.utf8Size = 1 ∧ '['.utf8Size = 1 ∧ ']'.utf8Size = 1 ∧ '"'.utf8Size = 1 ∧ '\''.utf8Size = 1 ∧
    '*'.utf8Size = 1 := ⟨rfl, rfl, rfl, rfl, rfl, rfl, rfl, rfl, rfl, rfl, rfl, rfl, rfl, rfl⟩

mutual
theorem format_size (sp : Nat) (par : Option Parent) : (y : Yaml) →
    byteLen (y.format sp par) + 1 ≤ 5 * bulk y + bulk y * (sp + 2 * nesting y)
  | .inlineHash es => by
    have h := flowEntries_size true es
    have h1 : flowEntriesBulk es * (2 * flowEntriesNesting es) ≤ (flowEntriesBulk es + 1) * (sp + 2 * flowEntriesNesting es) :=
      Nat.mul_le_mul (by omega) (by omega)
    have h2 : byteLen (if es.isEmpty = true then [] else [' ']) ≤ 1 := by split <;> decide
    simp only [Yaml.format, byteLen_append, byteLen, size_chars, bulk, nesting]
    omega
  | .hash ds => by
    simp only [Yaml.format, bulk, nesting]
    split
    · simp only [byteLen, size_chars]
      omega
    · rename_i hne
      have h := entries_size sp par true ds
      have : 1 ≤ ds.length := by cases ds <;> simp at hne ⊢
      have := max_size (e := entriesBulk ds) (sp := sp) (E := entriesNesting ds + 1)
      omega
  | .inlineArray ys => by
    have h := trees_size true ys
    have h1 : treesBulk ys * (2 * treesNesting ys) ≤ (treesBulk ys + 1) * (sp + 2 * treesNesting ys) :=
      Nat.mul_le_mul (by omega) (by omega)
    have h2 : byteLen (if ys.isEmpty = true then [] else [' ']) ≤ 1 := by split <;> decide
    simp only [Yaml.format, byteLen_append, byteLen, size_chars, bulk, nesting]
    omega
  | .array ds => by
    simp only [Yaml.format, bulk, nesting]
    split
    · simp only [byteLen, size_chars]
      omega
    · rename_i hne
      have h := elements_size sp par true ds
      have : 1 ≤ ds.length := by cases ds <;> simp at hne ⊢
      have := max_size (e := elementsBulk ds) (sp := sp) (E := elementsNesting ds + 1)
      omega
  | .unquotedString s => by
    simp only [Yaml.format, byteLen, size_chars, bulk, lineW]
    omega
  | .doubleQuotedString ps => by
    have := byteLen_dqs ps
    simp only [Yaml.format, byteLen_append, byteLen, size_chars, bulk]
    omega
  | .singleQuotedString ps => by
    have := byteLen_sqs ps
    simp only [Yaml.format, byteLen_append, byteLen, size_chars, bulk]
    omega
  | .literalString ls ch => by
    have := byteLen_blockLines '|' rfl ls ch sp
    simp only [Yaml.format, bulk, nesting, Nat.add_mul, Nat.mul_zero, Nat.add_zero]
    omega
  | .foldedString ls ch => by
    have := byteLen_blockLines '>' rfl ls ch sp
    simp only [Yaml.format, bulk, nesting, Nat.add_mul, Nat.mul_zero, Nat.add_zero]
    omega
  | .anchor a => by
    simp only [Yaml.format, byteLen_append, byteLen, size_chars, bulk]
    omega
theorem trees_size (first : Bool) : (ys : List Yaml) →
    byteLen (formatInlineElements first ys) ≤ 5 * treesBulk ys + treesBulk ys * (2 * treesNesting ys)
  | [] => by simp [formatInlineElements, byteLen]
  | y :: t => by
    have h1 := format_size 0 none y
    have h2 := trees_size false t
    have h3 : byteLen (if first = true then [] else [',']) ≤ 1 := by split <;> decide
    have h4 : bulk y * (0 + 2 * nesting y) ≤ bulk y * (2 * max (nesting y) (treesNesting t)) := Nat.mul_le_mul_left _ (by omega)
    have h5 : treesBulk t * (2 * treesNesting t) ≤ treesBulk t * (2 * max (nesting y) (treesNesting t)) := Nat.mul_le_mul_left _ (by omega)
    simp only [formatInlineElements, byteLen_append, treesBulk, treesNesting, Nat.add_mul]
    omega
theorem flowEntries_size (first : Bool) : (es : List (Str × Yaml)) →
    byteLen (formatInlineEntries first es) ≤ 5 * flowEntriesBulk es + flowEntriesBulk es * (2 * flowEntriesNesting es)
  | [] => by simp [formatInlineEntries, byteLen]
  | (k, y) :: t => by
    have h1 := format_size 0 none y
    have h2 := flowEntries_size false t
    have h3 : byteLen (if first = true then [] else [',']) ≤ 1 := by split <;> decide
    have h4 : bulk y * (0 + 2 * nesting y) ≤ (byteLen k + bulk y + 1) * (2 * max (nesting y) (flowEntriesNesting t)) :=
      Nat.mul_le_mul (by omega) (by omega)
    have h5 : flowEntriesBulk t * (2 * flowEntriesNesting t) ≤ flowEntriesBulk t * (2 * max (nesting y) (flowEntriesNesting t)) :=
      Nat.mul_le_mul_left _ (by omega)
    simp only [formatInlineEntries, byteLen_append, byteLen, size_chars, flowEntriesBulk, flowEntriesNesting]
    rw [Nat.add_mul]
    omega
theorem entries_size (sp : Nat) (par : Option Parent) (first : Bool) : (ds : List HashData) →
    byteLen (formatHash sp par first ds) + ds.length ≤ 5 * entriesBulk ds + entriesBulk ds * (sp + 2 * (entriesNesting ds + 1))
  | [] => by simp [formatHash, byteLen]
  | .comment c :: t => by
    have h2 := entries_size sp par false t
    have h3 : sp ≤ lineW c * (sp + 2 * (entriesNesting t + 1)) :=
      Nat.le_trans (by omega) (Nat.mul_le_mul_right (k := sp + 2 * (entriesNesting t + 1)) (show 1 ≤ lineW c by simp only [lineW]; omega))
    have h4 : byteLen c ≤ lineW c ∧ 1 ≤ lineW c := by simp only [lineW]; omega
    simp only [formatHash, List.cons_append, byteLen_append, byteLen, byteLen_indent, size_chars, entriesBulk, entriesNesting, List.length_cons]
    rw [Nat.add_mul]
    omega
  | .inlineComment c :: t => by
    have h2 := entries_size sp par false t
    have h4 : byteLen c ≤ lineW c ∧ 1 ≤ lineW c := by simp only [lineW]; omega
    simp only [formatHash, List.cons_append, byteLen_append, byteLen, byteLen_indent, size_chars, entriesBulk, entriesNesting, List.length_cons]
    rw [Nat.add_mul]
    omega
  | .element ⟨k, ⟨a, y⟩⟩ :: t => by
    have h1 := fun p => format_size (sp + 2) p y
    have h2 := entries_size sp par false t
    have h3 : byteLen (if (decide (par = some .array) && first) = true then ' ' :: (k ++ [':']) else '\n' :: (indent sp ++ k ++ [':'])) ≤
        byteLen k + sp + 2 := by
      split <;> simp only [byteLen, byteLen_append, byteLen_indent, size_chars] <;> omega
    have h5 := item_size (sp := sp) (W := bulk y) (D := nesting y) (w := byteLen k + aliasW a + bulk y + 1)
      (E := max (nesting y) (entriesNesting t) + 1) (by omega) (by omega) (Nat.le_refl _)
    have h6 : entriesBulk t * (sp + 2 * (entriesNesting t + 1)) ≤ entriesBulk t * (sp + 2 * (max (nesting y) (entriesNesting t) + 1)) :=
      Nat.mul_le_mul_left _ (by omega)
    cases a with
    | none =>
      have := h1 (some .hash)
      simp only [formatHash, byteLen_append, entriesBulk, entriesNesting, List.length_cons]
      rw [Nat.add_mul (byteLen k + aliasW _ + bulk y + 1)]
      omega
    | some a =>
      have := h1 none
      simp only [formatHash, byteLen_append, List.cons_append, List.nil_append, byteLen, size_chars, entriesBulk, entriesNesting, List.length_cons]
      rw [Nat.add_mul (byteLen k + aliasW (some a) + bulk y + 1)]
      simp only [aliasW] at h5 ⊢
      omega
theorem elements_size (sp : Nat) (par : Option Parent) (first : Bool) : (ds : List ArrayData) →
    byteLen (formatArray sp par first ds) + ds.length ≤ 5 * elementsBulk ds + elementsBulk ds * (sp + 2 * (elementsNesting ds + 1))
  | [] => by simp [formatArray, byteLen]
  | .comment c :: t => by
    have h2 := elements_size sp par false t
    have h3 : sp ≤ lineW c * (sp + 2 * (elementsNesting t + 1)) :=
      Nat.le_trans (by omega) (Nat.mul_le_mul_right (k := sp + 2 * (elementsNesting t + 1)) (show 1 ≤ lineW c by simp only [lineW]; omega))
    have h4 : byteLen c ≤ lineW c ∧ 1 ≤ lineW c := by simp only [lineW]; omega
    simp only [formatArray, List.cons_append, byteLen_append, byteLen, byteLen_indent, size_chars, elementsBulk, elementsNesting, List.length_cons]
    rw [Nat.add_mul]
    omega
  | .inlineComment c :: t => by
    have h2 := elements_size sp par false t
    have h4 : byteLen c ≤ lineW c ∧ 1 ≤ lineW c := by simp only [lineW]; omega
    simp only [formatArray, List.cons_append, byteLen_append, byteLen, byteLen_indent, size_chars, elementsBulk, elementsNesting, List.length_cons]
    rw [Nat.add_mul]
    omega
  | .element ⟨a, y⟩ :: t => by
    have h1 := fun p => format_size (sp + 2) p y
    have h2 := elements_size sp par false t
    have h3 : byteLen (if (decide (par = some .array) && first) = true then [' ', '-'] else '\n' :: (indent sp ++ ['-'])) ≤ sp + 2 := by
      split <;> simp only [byteLen, byteLen_append, byteLen_indent, size_chars] <;> omega
    have h5 := item_size (sp := sp) (W := bulk y) (D := nesting y) (w := aliasW a + bulk y + 1)
      (E := max (nesting y) (elementsNesting t) + 1) (by omega) (by omega) (Nat.le_refl _)
    have h6 : elementsBulk t * (sp + 2 * (elementsNesting t + 1)) ≤ elementsBulk t * (sp + 2 * (max (nesting y) (elementsNesting t) + 1)) :=
      Nat.mul_le_mul_left _ (by omega)
    cases a with
    | none =>
      have := h1 (some .array)
      simp only [formatArray, byteLen_append, elementsBulk, elementsNesting, List.length_cons]
      rw [Nat.add_mul (aliasW _ + bulk y + 1)]
      omega
    | some a =>
      have := h1 none
      simp only [formatArray, byteLen_append, List.cons_append, List.nil_append, byteLen, size_chars, elementsBulk, elementsNesting, List.length_cons]
      rw [Nat.add_mul (aliasW (some a) + bulk y + 1)]
      simp only [aliasW] at h5 ⊢
      omega
end

mutual
theorem nesting_le : (y : Yaml) → nesting y ≤ bulk y
  | .inlineHash es => by have := flowEntriesNesting_le es; simp only [nesting, bulk]; omega
  | .hash ds => by have := entriesNesting_le ds; simp only [nesting, bulk]; omega
  | .inlineArray ys => by have := treesNesting_le ys; simp only [nesting, bulk]; omega
  | .array ds => by have := elementsNesting_le ds; simp only [nesting, bulk]; omega
  | .unquotedString _ | .doubleQuotedString _ | .singleQuotedString _ | .literalString _ _ | .foldedString _ _ | .anchor _ => Nat.zero_le _
theorem treesNesting_le : (ys : List Yaml) → treesNesting ys ≤ treesBulk ys
  | [] => Nat.le_refl _
  | y :: t => by have := nesting_le y; have := treesNesting_le t; simp only [treesNesting, treesBulk]; omega
theorem flowEntriesNesting_le : (es : List (Str × Yaml)) → flowEntriesNesting es ≤ flowEntriesBulk es
  | [] => Nat.le_refl _
  | (_, y) :: t => by have := nesting_le y; have := flowEntriesNesting_le t; simp only [flowEntriesNesting, flowEntriesBulk]; omega
theorem entriesNesting_le : (ds : List HashData) → entriesNesting ds + 1 ≤ max 1 (entriesBulk ds)
  | [] => Nat.le_refl _
  | .comment _ :: t => by have := entriesNesting_le t; simp only [entriesNesting, entriesBulk, lineW]; omega
  | .inlineComment _ :: t => by have := entriesNesting_le t; simp only [entriesNesting, entriesBulk, lineW]; omega
  | .element ⟨_, ⟨_, y⟩⟩ :: t => by have := nesting_le y; have := entriesNesting_le t; simp only [entriesNesting, entriesBulk]; omega
theorem elementsNesting_le : (ds : List ArrayData) → elementsNesting ds + 1 ≤ max 1 (elementsBulk ds)
  | [] => Nat.le_refl _
  | .comment _ :: t => by have := elementsNesting_le t; simp only [elementsNesting, elementsBulk, lineW]; omega
  | .inlineComment _ :: t => by have := elementsNesting_le t; simp only [elementsNesting, elementsBulk, lineW]; omega
  | .element ⟨_, y⟩ :: t => by have := nesting_le y; have := elementsNesting_le t; simp only [elementsNesting, elementsBulk]; omega
end

end YamlSubset
