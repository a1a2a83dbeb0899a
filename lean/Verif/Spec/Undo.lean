import Verif.Spec.Edit

/-! # Specification: edits at the same place -/

namespace YamlSubset.Spec

/-- The path with its last key replaced. -/
def endingIn (new : Str) : YamlPath → YamlPath
  | .root cs => .root cs
  | .key _ cs none => .key new cs none
  | .key k cs (some p) => .key k cs (some (endingIn new p))
  | .allIndexes cs none => .allIndexes cs none
  | .allIndexes cs (some p) => .allIndexes cs (some (endingIn new p))
  | .indexes is cs none => .indexes is cs none
  | .indexes is cs (some p) => .indexes is cs (some (endingIn new p))

/-- The conditions of a path. -/
def conditionsOf : YamlPath → List Condition
  | .root cs => cs
  | .key _ cs none => cs
  | .key _ cs (some p) => cs ++ conditionsOf p
  | .allIndexes cs none => cs
  | .allIndexes cs (some p) => cs ++ conditionsOf p
  | .indexes _ cs none => cs
  | .indexes _ cs (some p) => cs ++ conditionsOf p

end YamlSubset.Spec
