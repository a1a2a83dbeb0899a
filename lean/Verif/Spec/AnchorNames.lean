import Verif.Spec.Anchors

/-! # Specification: changing the names of anchors, and removing anchors -/

namespace YamlSubset.Spec

mutual
/-- Definitions `&a` become `&c` if `d a` is `c`, and are removed if `d a` is nothing; references `*b` become `*c` with `c = f b`. -/
def changeAnchors (d : Str → Option Str) (f : Str → Str) : Yaml → Yaml
  | .inlineHash es => .inlineHash (changeAnchorsEntries d f es)
  | .hash ds => .hash (changeAnchorsHash d f ds)
  | .inlineArray es => .inlineArray (changeAnchorsYamls d f es)
  | .array ds => .array (changeAnchorsArray d f ds)
  | .singleQuotedString ps => .singleQuotedString ps
  | .doubleQuotedString ps => .doubleQuotedString ps
  | .unquotedString s => .unquotedString s
  | .foldedString ls c => .foldedString ls c
  | .literalString ls c => .literalString ls c
  | .anchor b => .anchor (f b)
def changeAnchorsEntries (d : Str → Option Str) (f : Str → Str) : List (Str × Yaml) → List (Str × Yaml)
  | [] => []
  | (k, v) :: t => (k, changeAnchors d f v) :: changeAnchorsEntries d f t
def changeAnchorsHash (d : Str → Option Str) (f : Str → Str) : List HashData → List HashData
  | [] => []
  | .element ⟨k, ⟨a, v⟩⟩ :: t => .element ⟨k, ⟨a.bind d, changeAnchors d f v⟩⟩ :: changeAnchorsHash d f t
  | .comment c :: t => .comment c :: changeAnchorsHash d f t
  | .inlineComment c :: t => .inlineComment c :: changeAnchorsHash d f t
def changeAnchorsYamls (d : Str → Option Str) (f : Str → Str) : List Yaml → List Yaml
  | [] => []
  | v :: t => changeAnchors d f v :: changeAnchorsYamls d f t
def changeAnchorsArray (d : Str → Option Str) (f : Str → Str) : List ArrayData → List ArrayData
  | [] => []
  | .element ⟨a, v⟩ :: t => .element ⟨a.bind d, changeAnchors d f v⟩ :: changeAnchorsArray d f t
  | .comment c :: t => .comment c :: changeAnchorsArray d f t
  | .inlineComment c :: t => .inlineComment c :: changeAnchorsArray d f t
end

/-- Every anchor `a` is called `f a`, in definitions and references. -/
def renameAnchors (f : Str → Str) (y : Yaml) : Yaml := changeAnchors (fun a => some (f a)) f y

/-- The definitions `&b` are removed; their values stay. -/
def removeAnchor (b : Str) (y : Yaml) : Yaml := changeAnchors (fun a => if a = b then none else some a) id y

end YamlSubset.Spec
