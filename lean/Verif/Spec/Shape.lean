import Verif.Spec.Tree
import Verif.Spec.FoldedNodes
import Verif.Spec.Fold

/-! # Specification: the shape of a tree

What is left of a tree when comments, anchor names and the styles of scalars are forgotten, and the difference between block and flow collections is not. Nothing here refers to
printing, parsing, looking up or editing; `Settled` says which trees are left in shape by formatting nicely. -/

namespace YamlSubset.Spec

/-- A shape: block mappings and block sequences, flow sequences, and the data of everything else. -/
inductive Shape where
  | map (es : List (Str × Shape))
  | seq (vs : List Shape)
  | flow (vs : List Shape)
  | leaf (d : Data)

mutual
/-- The shape of a tree. -/
def shapeOf : Yaml → Shape
  | .hash ds => .map (hashShape ds)
  | .array ds => .seq (arrayShape ds)
  | .inlineArray es => .flow (shapesOf es)
  | .inlineHash es => .leaf (dataOf (.inlineHash es))
  | .singleQuotedString ps => .leaf (dataOf (.singleQuotedString ps))
  | .doubleQuotedString ps => .leaf (dataOf (.doubleQuotedString ps))
  | .unquotedString s => .leaf (dataOf (.unquotedString s))
  | .foldedString ls c => .leaf (dataOf (.foldedString ls c))
  | .literalString ls c => .leaf (dataOf (.literalString ls c))
  | .anchor a => .leaf (dataOf (.anchor a))
/-- The entries of a block mapping, without comments and anchor names. -/
def hashShape : List HashData → List (Str × Shape)
  | [] => []
  | .element ⟨k, ⟨_, v⟩⟩ :: t => (k, shapeOf v) :: hashShape t
  | .comment _ :: t => hashShape t
  | .inlineComment _ :: t => hashShape t
/-- The elements of a block sequence, without comments and anchor names. -/
def arrayShape : List ArrayData → List Shape
  | [] => []
  | .element ⟨_, v⟩ :: t => shapeOf v :: arrayShape t
  | .comment _ :: t => arrayShape t
  | .inlineComment _ :: t => arrayShape t
/-- The elements of a flow sequence. -/
def shapesOf : List Yaml → List Shape
  | [] => []
  | v :: t => shapeOf v :: shapesOf t
end

/-- The shape of a document: the shapes of its values, without the comments around them. -/
def docShape (d : Document) : List Shape :=
  d.items.filterMap fun
    | .yaml y => some (shapeOf y)
    | .comment _ => none

/-- `InFlow z y`: `z` is `y`, or an element of `y` that is reached through flow sequences only. -/
inductive InFlow (z : Yaml) : Yaml → Prop
  | here : InFlow z z
  | inside {es : List Yaml} {v : Yaml} (hm : v ∈ es) (h : InFlow z v) : InFlow z (.inlineArray es)

/-- A block collection. -/
def IsBlock (y : Yaml) : Prop := (∃ ds, y = .hash ds) ∨ ∃ ds, y = .array ds

/-- What formatting nicely leaves as it is: block collections that are not empty, block sequences without block sequences as elements, flow sequences without block collections
inside, and texts that survive being folded where they are folded. -/
structure Settled (z : Yaml) : Prop where
  map : z ≠ .hash []
  seq : z ≠ .array []
  nested : ∀ ds a es, z = .array ds → ArrayData.element ⟨a, .array es⟩ ∉ ds
  flow : ∀ es w, z = .inlineArray es → InFlow w z → ¬IsBlock w
  folded : ∀ s, IsFolded z s → SurvivesFolding 90 s

end YamlSubset.Spec
