import Verif.Model.Ast

/-! # Specification: where the items of a document are written -/

namespace YamlSubset.Spec

/-- `ItemAt n t y`: `t` is the start of an item of a block collection at depth `n` in `y`: a key with its colon, the dash of an
element, or a comment on a line of its own. The items of `y` itself are at depth 0. -/
inductive ItemAt : Nat → Str → Yaml → Prop
  | key {ds k v} (h : HashData.element ⟨k, v⟩ ∈ ds) : ItemAt 0 (k ++ [':']) (.hash ds)
  | hashComment {ds c} (h : HashData.comment c ∈ ds) : ItemAt 0 ('#' :: c) (.hash ds)
  | dash {ds v} (h : ArrayData.element v ∈ ds) : ItemAt 0 ['-'] (.array ds)
  | arrayComment {ds c} (h : ArrayData.comment c ∈ ds) : ItemAt 0 ('#' :: c) (.array ds)
  | inHash {ds n t k a v} (h : HashData.element ⟨k, ⟨a, v⟩⟩ ∈ ds) (hv : ItemAt n t v) : ItemAt (n + 1) t (.hash ds)
  | inArray {ds n t a v} (h : ArrayData.element ⟨a, v⟩ ∈ ds) (hv : ItemAt n t v) : ItemAt (n + 1) t (.array ds)

/-- `t` is written in `text` at column `col`: before it on its line there are only spaces and dashes. -/
def AtColumn (col : Nat) (t text : Str) : Prop :=
  ∃ before lead after, text = before ++ '\n' :: lead ++ t ++ after ∧ lead.length = col ∧ ∀ c ∈ lead, c = ' ' ∨ c = '-'

/-- A value without line breaks: no block collections that are not empty, no block scalars and no line break in a scalar, a name or
a key. -/
inductive NoBreak : Yaml → Prop
  | inlineHash {es} (keys : ∀ k v, (k, v) ∈ es → '\n' ∉ k) (values : ∀ k v, (k, v) ∈ es → NoBreak v) : NoBreak (.inlineHash es)
  | inlineArray {es} (h : ∀ v ∈ es, NoBreak v) : NoBreak (.inlineArray es)
  | hash : NoBreak (.hash [])
  | array : NoBreak (.array [])
  | plain {s} (h : '\n' ∉ s) : NoBreak (.unquotedString s)
  | single {ps} (h : ∀ p ∈ ps, p = .escapedChar .singleQuote ∨ ∃ s, p = .string s ∧ '\n' ∉ s) : NoBreak (.singleQuotedString ps)
  | double {ps} (h : ∀ p ∈ ps, (∃ e, p = .escapedChar e ∧ e ≠ .realNewline) ∨ ∃ s, p = .string s ∧ '\n' ∉ s) : NoBreak (.doubleQuotedString ps)
  | anchor {a} (h : '\n' ∉ a) : NoBreak (.anchor a)

end YamlSubset.Spec
