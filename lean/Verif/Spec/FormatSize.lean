import Verif.Model.Ast

/-! # Specification: how deeply block collections are nested -/

namespace YamlSubset.Spec

mutual
/-- How many block collections (mappings and sequences written over several lines) are nested in each other in a tree. -/
def nesting : Yaml → Nat
  | .hash ds => entriesNesting ds + 1
  | .array ds => elementsNesting ds + 1
  | .inlineHash es => flowEntriesNesting es
  | .inlineArray ys => treesNesting ys
  | .unquotedString _ | .doubleQuotedString _ | .singleQuotedString _ | .literalString _ _ | .foldedString _ _
  | .anchor _ => 0
def treesNesting : List Yaml → Nat
  | [] => 0
  | y :: t => max (nesting y) (treesNesting t)
def flowEntriesNesting : List (Str × Yaml) → Nat
  | [] => 0
  | (_, y) :: t => max (nesting y) (flowEntriesNesting t)
def entriesNesting : List HashData → Nat
  | [] => 0
  | .element ⟨_, ⟨_, y⟩⟩ :: t => max (nesting y) (entriesNesting t)
  | .comment _ :: t => entriesNesting t
  | .inlineComment _ :: t => entriesNesting t
def elementsNesting : List ArrayData → Nat
  | [] => 0
  | .element ⟨_, y⟩ :: t => max (nesting y) (elementsNesting t)
  | .comment _ :: t => elementsNesting t
  | .inlineComment _ :: t => elementsNesting t
end

end YamlSubset.Spec
