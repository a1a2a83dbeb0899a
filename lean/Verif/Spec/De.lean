import Verif.Spec.Tree
import Verif.Model.De

/-! # Specification: what deserialization may depend on, and typed values

Nothing here refers to the functions of the deserializer. -/

namespace YamlSubset.Spec

/-- Texts for which quotes matter: the words for null, true and false, and numbers (`isF64` is Rust's `parse::<f64>`, `FloatText` in
`Spec/Ints.lean` says which texts these are). -/
def SpecialText (s : Str) : Prop :=
  s ∈ [c!"~", c!"null", c!"Null", c!"NULL"] ∨
  s ∈ [c!"true", c!"True", c!"TRUE", c!"yes", c!"Yes", c!"YES", c!"on", c!"On", c!"ON"] ∨
  s ∈ [c!"false", c!"False", c!"FALSE", c!"no", c!"No", c!"NO", c!"off", c!"Off", c!"OFF"] ∨ isF64 s = true

instance (s : Str) : Decidable (SpecialText s) := by unfold SpecialText; infer_instance

/-- What is left of a tree when comments and style are forgotten. Plain scalars are kept apart from quoted and block ones where it
matters: `5` is a number, `"5"` is not, but `a` and `"a"` are the same. Anchor definitions are kept. -/
inductive View where
  | plain (s : Str)
  | text (s : Str)
  | seq (vs : List (Option Str × View))
  | map (es : List (Str × Option Str × View))
  | ref (name : Str)

mutual
/-- The view of a tree. -/
def viewOf : Yaml → View
  | .inlineHash es => .map (entriesView es)
  | .hash ds => .map (hashView ds)
  | .inlineArray es => .seq (yamlsView es)
  | .array ds => .seq (arrayView ds)
  | .singleQuotedString ps => .text (parseSingleQuoted ps)
  | .doubleQuotedString ps => .text (parseDoubleQuoted ps)
  | .unquotedString s => if SpecialText s then .plain s else .text s
  | .foldedString ls c => .text (parseFolded ls c)
  | .literalString ls c => .text (parseLiteral ls c)
  | .anchor a => .ref a
def entriesView : List (Str × Yaml) → List (Str × Option Str × View)
  | [] => []
  | (k, v) :: t => (k, none, viewOf v) :: entriesView t
def hashView : List HashData → List (Str × Option Str × View)
  | [] => []
  | .element ⟨k, ⟨a, v⟩⟩ :: t => (k, a, viewOf v) :: hashView t
  | .comment _ :: t => hashView t
  | .inlineComment _ :: t => hashView t
def yamlsView : List Yaml → List (Option Str × View)
  | [] => []
  | v :: t => (none, viewOf v) :: yamlsView t
def arrayView : List ArrayData → List (Option Str × View)
  | [] => []
  | .element ⟨a, v⟩ :: t => (a, viewOf v) :: arrayView t
  | .comment _ :: t => arrayView t
  | .inlineComment _ :: t => arrayView t
end

mutual
/-- The tree without its comments. -/
def stripComments : Yaml → Yaml
  | .inlineHash es => .inlineHash (stripEntries es)
  | .hash ds => .hash (stripHash ds)
  | .inlineArray es => .inlineArray (stripYamls es)
  | .array ds => .array (stripArray ds)
  | .singleQuotedString ps => .singleQuotedString ps
  | .doubleQuotedString ps => .doubleQuotedString ps
  | .unquotedString s => .unquotedString s
  | .foldedString ls c => .foldedString ls c
  | .literalString ls c => .literalString ls c
  | .anchor a => .anchor a
def stripEntries : List (Str × Yaml) → List (Str × Yaml)
  | [] => []
  | (k, v) :: t => (k, stripComments v) :: stripEntries t
def stripHash : List HashData → List HashData
  | [] => []
  | .element ⟨k, ⟨a, v⟩⟩ :: t => .element ⟨k, ⟨a, stripComments v⟩⟩ :: stripHash t
  | .comment _ :: t => stripHash t
  | .inlineComment _ :: t => stripHash t
def stripYamls : List Yaml → List Yaml
  | [] => []
  | v :: t => stripComments v :: stripYamls t
def stripArray : List ArrayData → List ArrayData
  | [] => []
  | .element ⟨a, v⟩ :: t => .element ⟨a, stripComments v⟩ :: stripArray t
  | .comment _ :: t => stripArray t
  | .inlineComment _ :: t => stripArray t
end

mutual
/-- The tree with every block collection that carries no anchor definition among its elements written as a
flow collection (without its comments). -/
def preferFlow : Yaml → Yaml
  | .inlineHash es => .inlineHash (flowEntries es)
  | .hash ds =>
    if ds.all (fun d => match d with | .element ⟨_, ⟨some _, _⟩⟩ => false | _ => true)
    then .inlineHash (flowHash ds)
    else .hash (flowHashKeep ds)
  | .inlineArray es => .inlineArray (flowYamls es)
  | .array ds =>
    if ds.all (fun d => match d with | .element ⟨some _, _⟩ => false | _ => true)
    then .inlineArray (flowArray ds)
    else .array (flowArrayKeep ds)
  | .singleQuotedString ps => .singleQuotedString ps
  | .doubleQuotedString ps => .doubleQuotedString ps
  | .unquotedString s => .unquotedString s
  | .foldedString ls c => .foldedString ls c
  | .literalString ls c => .literalString ls c
  | .anchor a => .anchor a
def flowEntries : List (Str × Yaml) → List (Str × Yaml)
  | [] => []
  | (k, v) :: t => (k, preferFlow v) :: flowEntries t
def flowHash : List HashData → List (Str × Yaml)
  | [] => []
  | .element ⟨k, ⟨_, v⟩⟩ :: t => (k, preferFlow v) :: flowHash t
  | .comment _ :: t => flowHash t
  | .inlineComment _ :: t => flowHash t
def flowHashKeep : List HashData → List HashData
  | [] => []
  | .element ⟨k, ⟨a, v⟩⟩ :: t => .element ⟨k, ⟨a, preferFlow v⟩⟩ :: flowHashKeep t
  | .comment c :: t => .comment c :: flowHashKeep t
  | .inlineComment c :: t => .inlineComment c :: flowHashKeep t
def flowYamls : List Yaml → List Yaml
  | [] => []
  | v :: t => preferFlow v :: flowYamls t
def flowArray : List ArrayData → List Yaml
  | [] => []
  | .element ⟨_, v⟩ :: t => preferFlow v :: flowArray t
  | .comment _ :: t => flowArray t
  | .inlineComment _ :: t => flowArray t
def flowArrayKeep : List ArrayData → List ArrayData
  | [] => []
  | .element ⟨a, v⟩ :: t => .element ⟨a, preferFlow v⟩ :: flowArrayKeep t
  | .comment c :: t => .comment c :: flowArrayKeep t
  | .inlineComment c :: t => .inlineComment c :: flowArrayKeep t
end

mutual
/-- The tree with every quoted or block scalar written as a plain one, except where the quotes matter. -/
def dropQuotes : Yaml → Yaml
  | .inlineHash es => .inlineHash (dropEntries es)
  | .hash ds => .hash (dropHash ds)
  | .inlineArray es => .inlineArray (dropYamls es)
  | .array ds => .array (dropArray ds)
  | .singleQuotedString ps => if SpecialText (parseSingleQuoted ps) then .singleQuotedString ps else .unquotedString (parseSingleQuoted ps)
  | .doubleQuotedString ps => if SpecialText (parseDoubleQuoted ps) then .doubleQuotedString ps else .unquotedString (parseDoubleQuoted ps)
  | .unquotedString s => .unquotedString s
  | .foldedString ls c => if SpecialText (parseFolded ls c) then .foldedString ls c else .unquotedString (parseFolded ls c)
  | .literalString ls c => if SpecialText (parseLiteral ls c) then .literalString ls c else .unquotedString (parseLiteral ls c)
  | .anchor a => .anchor a
def dropEntries : List (Str × Yaml) → List (Str × Yaml)
  | [] => []
  | (k, v) :: t => (k, dropQuotes v) :: dropEntries t
def dropHash : List HashData → List HashData
  | [] => []
  | .element ⟨k, ⟨a, v⟩⟩ :: t => .element ⟨k, ⟨a, dropQuotes v⟩⟩ :: dropHash t
  | .comment c :: t => .comment c :: dropHash t
  | .inlineComment c :: t => .inlineComment c :: dropHash t
def dropYamls : List Yaml → List Yaml
  | [] => []
  | v :: t => dropQuotes v :: dropYamls t
def dropArray : List ArrayData → List ArrayData
  | [] => []
  | .element ⟨a, v⟩ :: t => .element ⟨a, dropQuotes v⟩ :: dropArray t
  | .comment c :: t => .comment c :: dropArray t
  | .inlineComment c :: t => .inlineComment c :: dropArray t
end

end YamlSubset.Spec
