import Verif.Model.Basic

/-! # The document tree (`src/yaml/mod.rs`, `aliased.rs`, `hash_element.rs`,
`hash_data.rs`, `array_data.rs`, `document.rs`, `string.rs`) -/

namespace YamlSubset

/-- `BlockChomping`, src/yaml/mod.rs:743-748. -/
inductive BlockChomping where
  | clip | strip | keep
  deriving DecidableEq, Repr

/-- `SingleQuotedStringEscapedChar`, src/yaml/string.rs:127-130. -/
inductive SQEscapedChar where
  | singleQuote
  deriving DecidableEq, Repr

/-- `SingleQuotedStringPart`, src/yaml/string.rs:119-125. -/
inductive SQPart where
  | string (s : Str)
  | escapedChar (c : SQEscapedChar)
  | blankLines (n : Nat)
  | removableNewline
  deriving DecidableEq, Repr

/-- `DoubleQuotedStringEscapedChar`, src/yaml/string.rs:165-173. -/
inductive DQEscapedChar where
  | quote | backslash | tab | carriageReturn | newline | realNewline
  deriving DecidableEq, Repr

/-- `DoubleQuotedStringPart`, src/yaml/string.rs:157-163. -/
inductive DQPart where
  | string (s : Str)
  | escapedChar (c : DQEscapedChar)
  | blankLines (n : Nat)
  | removableNewline
  deriving DecidableEq, Repr

mutual
/-- `Yaml`, src/yaml/mod.rs:43-55. -/
inductive Yaml where
  | inlineHash (es : List (Str × Yaml))
  | hash (ds : List HashData)
  | inlineArray (es : List Yaml)
  | array (ds : List ArrayData)
  | singleQuotedString (ps : List SQPart)
  | doubleQuotedString (ps : List DQPart)
  | unquotedString (s : Str)
  | foldedString (ls : List Str) (c : BlockChomping)
  | literalString (ls : List Str) (c : BlockChomping)
  | anchor (a : Str)
  deriving Repr, BEq
/-- `AliasedYaml`, src/yaml/aliased.rs:10-14. -/
structure AliasedYaml where
  alias : Option Str
  value : Yaml
  deriving Repr, BEq
/-- `HashElement`, src/yaml/hash_element.rs:7-11. -/
structure HashElement where
  key : Str
  value : AliasedYaml
  deriving Repr, BEq
/-- `HashData`, src/yaml/hash_data.rs:7-12. -/
inductive HashData where
  | inlineComment (c : Str)
  | comment (c : Str)
  | element (e : HashElement)
  deriving Repr, BEq
/-- `ArrayData`, src/yaml/array_data.rs:8-13. -/
inductive ArrayData where
  | inlineComment (c : Str)
  | comment (c : Str)
  | element (e : AliasedYaml)
  deriving Repr, BEq
end

/-- Needed by Lean only; any tree (src/yaml/mod.rs:43-55) would do. -/
instance : Inhabited Yaml := ⟨.anchor []⟩

/-- `DocumentData`, src/yaml/document.rs:7-11. -/
inductive DocumentData where
  | comment (c : Str)
  | yaml (y : Yaml)
  deriving Repr, BEq

/-- `Document`, src/yaml/document.rs:44-48. -/
structure Document where
  leadingComments : List Str
  items : List DocumentData
  deriving Repr, BEq

end YamlSubset
