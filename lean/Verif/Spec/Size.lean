import Verif.Spec.Anchors
import Verif.Model.Ser

/-! # Specification: the size of trees and values

Nothing here refers to the functions of the deserializer. -/

namespace YamlSubset.Spec

mutual
/-- How many values a tree has: scalars, references and collections. Keys and comments are not counted. -/
def treeSize : Yaml → Nat
  | .inlineHash es => flowEntriesSize es + 1
  | .hash ds => entriesSize ds + 1
  | .inlineArray ys => treesSize ys + 1
  | .array ds => elementsSize ds + 1
  | .unquotedString _ | .doubleQuotedString _ | .singleQuotedString _ | .literalString _ _ | .foldedString _ _
  | .anchor _ => 1
def treesSize : List Yaml → Nat
  | [] => 0
  | y :: t => treeSize y + treesSize t
def flowEntriesSize : List (Str × Yaml) → Nat
  | [] => 0
  | (_, y) :: t => treeSize y + flowEntriesSize t
def entriesSize : List HashData → Nat
  | [] => 0
  | .element ⟨_, ⟨_, y⟩⟩ :: t => treeSize y + entriesSize t
  | .comment _ :: t => entriesSize t
  | .inlineComment _ :: t => entriesSize t
def elementsSize : List ArrayData → Nat
  | [] => 0
  | .element ⟨_, y⟩ :: t => treeSize y + elementsSize t
  | .comment _ :: t => elementsSize t
  | .inlineComment _ :: t => elementsSize t
end

mutual
/-- The names defined in a tree, one for each `&name`. -/
def anchorNames : Yaml → List Str
  | .inlineHash es => flowEntriesNames es
  | .hash ds => entriesNames ds
  | .inlineArray ys => treesNames ys
  | .array ds => elementsNames ds
  | .unquotedString _ | .doubleQuotedString _ | .singleQuotedString _ | .literalString _ _ | .foldedString _ _
  | .anchor _ => []
def treesNames : List Yaml → List Str
  | [] => []
  | y :: t => anchorNames y ++ treesNames t
def flowEntriesNames : List (Str × Yaml) → List Str
  | [] => []
  | (_, y) :: t => anchorNames y ++ flowEntriesNames t
def entriesNames : List HashData → List Str
  | [] => []
  | .element ⟨_, ⟨a, y⟩⟩ :: t => a.toList ++ anchorNames y ++ entriesNames t
  | .comment _ :: t => entriesNames t
  | .inlineComment _ :: t => entriesNames t
def elementsNames : List ArrayData → List Str
  | [] => []
  | .element ⟨a, y⟩ :: t => a.toList ++ anchorNames y ++ elementsNames t
  | .comment _ :: t => elementsNames t
  | .inlineComment _ :: t => elementsNames t
end

mutual
/-- How many scalars, sequences and maps a Rust value has. The keys of a map are not counted. -/
def valueSize : SVal → Nat
  | .seq vs => valuesSize vs + 1
  | .tuple vs => valuesSize vs + 1
  | .map es => mapSize es + 1
  | .struct fs => fieldsSize fs + 1
  | .some v => valueSize v
  | .newtype v => valueSize v
  | .newtypeVariant _ v => valueSize v + 1
  | .tupleVariant _ vs => valuesSize vs + 1
  | .structVariant _ fs => fieldsSize fs + 1
  | .unitVariant _ | .bool _ | .int _ | .float _ | .char _ | .str _ | .bytes _ | .unit | .none => 1
def valuesSize : List SVal → Nat
  | [] => 0
  | v :: t => valueSize v + valuesSize t
def mapSize : List (SVal × SVal) → Nat
  | [] => 0
  | (_, v) :: t => valueSize v + mapSize t
def fieldsSize : List (Str × SVal) → Nat
  | [] => 0
  | (_, v) :: t => valueSize v + fieldsSize t
end

end YamlSubset.Spec
