import Verif.Model.Strings
import Verif.Spec.Fold

/-! # Specification: what a document tree means and contains

Nothing here refers to the printing, parsing or editing code. -/

namespace YamlSubset.Spec

/-- The data a tree stands for: style, comments and anchor definitions are forgotten. -/
inductive Data where
  | map (es : List (Str × Data))
  | seq (vs : List Data)
  | str (s : Str)
  | ref (name : Str)
  deriving Repr

mutual
/-- The data of a tree. -/
def dataOf : Yaml → Data
  | .inlineHash es => .map (entriesData es)
  | .hash ds => .map (hashData ds)
  | .inlineArray es => .seq (yamlsData es)
  | .array ds => .seq (arrayData ds)
  | .singleQuotedString ps => .str (parseSingleQuoted ps)
  | .doubleQuotedString ps => .str (parseDoubleQuoted ps)
  | .unquotedString s => .str s
  | .foldedString ls c => .str (parseFolded ls c)
  | .literalString ls c => .str (parseLiteral ls c)
  | .anchor a => .ref a
def entriesData : List (Str × Yaml) → List (Str × Data)
  | [] => []
  | (k, v) :: t => (k, dataOf v) :: entriesData t
def hashData : List HashData → List (Str × Data)
  | [] => []
  | .element ⟨k, ⟨_, v⟩⟩ :: t => (k, dataOf v) :: hashData t
  | .comment _ :: t => hashData t
  | .inlineComment _ :: t => hashData t
def yamlsData : List Yaml → List Data
  | [] => []
  | v :: t => dataOf v :: yamlsData t
def arrayData : List ArrayData → List Data
  | [] => []
  | .element ⟨_, v⟩ :: t => dataOf v :: arrayData t
  | .comment _ :: t => arrayData t
  | .inlineComment _ :: t => arrayData t
end

mutual
/-- All strings of a data tree satisfy `P` (keys not included). -/
def Data.AllStr (P : Str → Prop) : Data → Prop
  | .map es => AllStrEntries P es
  | .seq vs => AllStrList P vs
  | .str s => P s
  | .ref _ => True
def AllStrEntries (P : Str → Prop) : List (Str × Data) → Prop
  | [] => True
  | (_, d) :: t => d.AllStr P ∧ AllStrEntries P t
def AllStrList (P : Str → Prop) : List Data → Prop
  | [] => True
  | d :: t => d.AllStr P ∧ AllStrList P t
end

/-- What `data` forgets: comments and anchor definitions. -/
inductive Note where
  | comment (c : Str)
  | inlineComment (c : Str)
  | anchor (name : Str)
  deriving Repr, DecidableEq

/-- The anchor definition before a value. -/
def anchorNote : Option Str → List Note
  | none => []
  | some a => [.anchor a]

mutual
/-- Comments and anchor definitions of a tree in document order. -/
def notes : Yaml → List Note
  | .inlineHash es => entriesNotes es
  | .hash ds => hashNotes ds
  | .inlineArray es => yamlsNotes es
  | .array ds => arrayNotes ds
  | .singleQuotedString _ => []
  | .doubleQuotedString _ => []
  | .unquotedString _ => []
  | .foldedString _ _ => []
  | .literalString _ _ => []
  | .anchor _ => []
def entriesNotes : List (Str × Yaml) → List Note
  | [] => []
  | (_, v) :: t => notes v ++ entriesNotes t
def hashNotes : List HashData → List Note
  | [] => []
  | .element ⟨_, ⟨a, v⟩⟩ :: t => anchorNote a ++ notes v ++ hashNotes t
  | .comment c :: t => .comment c :: hashNotes t
  | .inlineComment c :: t => .inlineComment c :: hashNotes t
def yamlsNotes : List Yaml → List Note
  | [] => []
  | v :: t => notes v ++ yamlsNotes t
def arrayNotes : List ArrayData → List Note
  | [] => []
  | .element ⟨a, v⟩ :: t => anchorNote a ++ notes v ++ arrayNotes t
  | .comment c :: t => .comment c :: arrayNotes t
  | .inlineComment c :: t => .inlineComment c :: arrayNotes t
end

/-- `FlowOnly y`: no block collection occurs in `y`. -/
inductive FlowOnly : Yaml → Prop
  | inlineHash {es} (h : ∀ k v, (k, v) ∈ es → FlowOnly v) : FlowOnly (.inlineHash es)
  | inlineArray {es} (h : ∀ v, v ∈ es → FlowOnly v) : FlowOnly (.inlineArray es)
  | singleQuotedString (ps) : FlowOnly (.singleQuotedString ps)
  | doubleQuotedString (ps) : FlowOnly (.doubleQuotedString ps)
  | unquotedString (s) : FlowOnly (.unquotedString s)
  | foldedString (ls c) : FlowOnly (.foldedString ls c)
  | literalString (ls c) : FlowOnly (.literalString ls c)
  | anchor (a) : FlowOnly (.anchor a)

/-- `BlockOutsideFlow y`: no flow collection in `y` contains a block collection. -/
inductive BlockOutsideFlow : Yaml → Prop
  | flow {y} (h : FlowOnly y) : BlockOutsideFlow y
  | hash {ds} (h : ∀ k a v, HashData.element ⟨k, ⟨a, v⟩⟩ ∈ ds → BlockOutsideFlow v) :
      BlockOutsideFlow (.hash ds)
  | array {ds} (h : ∀ a v, ArrayData.element ⟨a, v⟩ ∈ ds → BlockOutsideFlow v) :
      BlockOutsideFlow (.array ds)

/-- The characters that make a plain scalar unfit for a flow collection. -/
def flowIndicators : List Char := [',', '[', ']', '{', '}', '"', '>', '|']

/-- No flow indicator occurs in the string. -/
def FlowFit (s : Str) : Prop := ∀ c ∈ flowIndicators, c ∉ s

/-- `AllPlain P y`: every plain scalar in `y` (including `y` itself) satisfies `P`. -/
inductive AllPlain (P : Str → Prop) : Yaml → Prop
  | inlineHash {es} (h : ∀ k v, (k, v) ∈ es → AllPlain P v) : AllPlain P (.inlineHash es)
  | hash {ds} (h : ∀ k a v, HashData.element ⟨k, ⟨a, v⟩⟩ ∈ ds → AllPlain P v) :
      AllPlain P (.hash ds)
  | inlineArray {es} (h : ∀ v, v ∈ es → AllPlain P v) : AllPlain P (.inlineArray es)
  | array {ds} (h : ∀ a v, ArrayData.element ⟨a, v⟩ ∈ ds → AllPlain P v) : AllPlain P (.array ds)
  | unquotedString {s} (h : P s) : AllPlain P (.unquotedString s)
  | singleQuotedString (ps) : AllPlain P (.singleQuotedString ps)
  | doubleQuotedString (ps) : AllPlain P (.doubleQuotedString ps)
  | foldedString (ls c) : AllPlain P (.foldedString ls c)
  | literalString (ls c) : AllPlain P (.literalString ls c)
  | anchor (a) : AllPlain P (.anchor a)

/-- `FlowFitInFlow y`: plain scalars inside flow collections contain no flow indicator. -/
inductive FlowFitInFlow : Yaml → Prop
  | inlineHash {es} (h : ∀ k v, (k, v) ∈ es → AllPlain FlowFit v) : FlowFitInFlow (.inlineHash es)
  | inlineArray {es} (h : ∀ v, v ∈ es → AllPlain FlowFit v) : FlowFitInFlow (.inlineArray es)
  | hash {ds} (h : ∀ k a v, HashData.element ⟨k, ⟨a, v⟩⟩ ∈ ds → FlowFitInFlow v) :
      FlowFitInFlow (.hash ds)
  | array {ds} (h : ∀ a v, ArrayData.element ⟨a, v⟩ ∈ ds → FlowFitInFlow v) :
      FlowFitInFlow (.array ds)
  | unquotedString (s) : FlowFitInFlow (.unquotedString s)
  | singleQuotedString (ps) : FlowFitInFlow (.singleQuotedString ps)
  | doubleQuotedString (ps) : FlowFitInFlow (.doubleQuotedString ps)
  | foldedString (ls c) : FlowFitInFlow (.foldedString ls c)
  | literalString (ls c) : FlowFitInFlow (.literalString ls c)
  | anchor (a) : FlowFitInFlow (.anchor a)

/-- `FlowFitInArrays y`: outside flow collections, plain scalars that are elements of block arrays contain no
flow indicator. -/
inductive FlowFitInArrays : Yaml → Prop
  | hash {ds} (h : ∀ k a v, HashData.element ⟨k, ⟨a, v⟩⟩ ∈ ds → FlowFitInArrays v) :
      FlowFitInArrays (.hash ds)
  | array {ds} (h : ∀ a v, ArrayData.element ⟨a, v⟩ ∈ ds → FlowFitInArrays v)
      (hs : ∀ a s, ArrayData.element ⟨a, .unquotedString s⟩ ∈ ds → FlowFit s) :
      FlowFitInArrays (.array ds)
  | inlineHash (es) : FlowFitInArrays (.inlineHash es)
  | inlineArray (es) : FlowFitInArrays (.inlineArray es)
  | unquotedString (s) : FlowFitInArrays (.unquotedString s)
  | singleQuotedString (ps) : FlowFitInArrays (.singleQuotedString ps)
  | doubleQuotedString (ps) : FlowFitInArrays (.doubleQuotedString ps)
  | foldedString (ls c) : FlowFitInArrays (.foldedString ls c)
  | literalString (ls c) : FlowFitInArrays (.literalString ls c)
  | anchor (a) : FlowFitInArrays (.anchor a)

/-- The value nodes directly below a node, in document order. -/
def children : Yaml → List Yaml
  | .inlineHash es => es.map Prod.snd
  | .hash ds => ds.filterMap fun
    | .element ⟨_, ⟨_, v⟩⟩ => some v
    | _ => none
  | .inlineArray es => es
  | .array ds => ds.filterMap fun
    | .element ⟨_, v⟩ => some v
    | _ => none
  | _ => []

/-- Replace the values of hash data, keeping keys, anchor definitions and comments. -/
def setHashValues : List HashData → List Yaml → List HashData
  | .element ⟨k, ⟨a, _⟩⟩ :: t, v :: vs => .element ⟨k, ⟨a, v⟩⟩ :: setHashValues t vs
  | .comment c :: t, vs => .comment c :: setHashValues t vs
  | .inlineComment c :: t, vs => .inlineComment c :: setHashValues t vs
  | _, _ => []

/-- Replace the values of array data, keeping anchor definitions and comments. -/
def setArrayValues : List ArrayData → List Yaml → List ArrayData
  | .element ⟨a, _⟩ :: t, v :: vs => .element ⟨a, v⟩ :: setArrayValues t vs
  | .comment c :: t, vs => .comment c :: setArrayValues t vs
  | .inlineComment c :: t, vs => .inlineComment c :: setArrayValues t vs
  | _, _ => []

/-- The node with other children in the same places; everything else is kept. -/
def withChildren : Yaml → List Yaml → Yaml
  | .inlineHash es, vs => .inlineHash (es.zipWith (fun e v => (e.1, v)) vs)
  | .hash ds, vs => .hash (setHashValues ds vs)
  | .inlineArray _, vs => .inlineArray vs
  | .array ds, vs => .array (setArrayValues ds vs)
  | y, _ => y

/-- Run a stateful function over a list from left to right. -/
def runList {α β σ : Type} (f : α → σ → β × σ) : List α → σ → List β × σ
  | [], st => ([], st)
  | a :: t, st =>
    let r := f a st
    let q := runList f t r.2
    (r.1 :: q.1, q.2)

mutual
/-- The nodes of a tree in left-to-right post-order. -/
def postorder : Yaml → List Yaml
  | .inlineHash es => postorderEntries es ++ [.inlineHash es]
  | .hash ds => postorderHash ds ++ [.hash ds]
  | .inlineArray es => postorderYamls es ++ [.inlineArray es]
  | .array ds => postorderArray ds ++ [.array ds]
  | .singleQuotedString ps => [.singleQuotedString ps]
  | .doubleQuotedString ps => [.doubleQuotedString ps]
  | .unquotedString s => [.unquotedString s]
  | .foldedString ls c => [.foldedString ls c]
  | .literalString ls c => [.literalString ls c]
  | .anchor a => [.anchor a]
def postorderEntries : List (Str × Yaml) → List Yaml
  | [] => []
  | (_, v) :: t => postorder v ++ postorderEntries t
def postorderHash : List HashData → List Yaml
  | [] => []
  | .element ⟨_, ⟨_, v⟩⟩ :: t => postorder v ++ postorderHash t
  | .comment _ :: t => postorderHash t
  | .inlineComment _ :: t => postorderHash t
def postorderYamls : List Yaml → List Yaml
  | [] => []
  | v :: t => postorder v ++ postorderYamls t
def postorderArray : List ArrayData → List Yaml
  | [] => []
  | .element ⟨_, v⟩ :: t => postorder v ++ postorderArray t
  | .comment _ :: t => postorderArray t
  | .inlineComment _ :: t => postorderArray t
end

mutual
/-- The positions of a tree that can carry an anchor name (hash values and block array elements), in
document order, each before the positions inside it. -/
def positions : Yaml → List AliasedYaml
  | .inlineHash es => positionsEntries es
  | .hash ds => positionsHash ds
  | .inlineArray es => positionsYamls es
  | .array ds => positionsArray ds
  | .singleQuotedString _ => []
  | .doubleQuotedString _ => []
  | .unquotedString _ => []
  | .foldedString _ _ => []
  | .literalString _ _ => []
  | .anchor _ => []
def positionsEntries : List (Str × Yaml) → List AliasedYaml
  | [] => []
  | (_, v) :: t => positions v ++ positionsEntries t
def positionsHash : List HashData → List AliasedYaml
  | [] => []
  | .element ⟨_, ⟨a, v⟩⟩ :: t => ⟨a, v⟩ :: positions v ++ positionsHash t
  | .comment _ :: t => positionsHash t
  | .inlineComment _ :: t => positionsHash t
def positionsYamls : List Yaml → List AliasedYaml
  | [] => []
  | v :: t => positions v ++ positionsYamls t
def positionsArray : List ArrayData → List AliasedYaml
  | [] => []
  | .element ⟨a, v⟩ :: t => ⟨a, v⟩ :: positions v ++ positionsArray t
  | .comment _ :: t => positionsArray t
  | .inlineComment _ :: t => positionsArray t
end

/-- `Holds a y`: the anchorable value `a` occurs somewhere in `y`. -/
inductive Holds (a : AliasedYaml) : Yaml → Prop
  | hashHere {k ds} (h : HashData.element ⟨k, a⟩ ∈ ds) : Holds a (.hash ds)
  | hash {k b ds} (h : HashData.element ⟨k, b⟩ ∈ ds) (hb : Holds a b.value) : Holds a (.hash ds)
  | arrayHere {ds} (h : ArrayData.element a ∈ ds) : Holds a (.array ds)
  | array {b ds} (h : ArrayData.element b ∈ ds) (hb : Holds a b.value) : Holds a (.array ds)
  | inlineHash {k v es} (h : (k, v) ∈ es) (hv : Holds a v) : Holds a (.inlineHash es)
  | inlineArray {v es} (h : v ∈ es) (hv : Holds a v) : Holds a (.inlineArray es)

end YamlSubset.Spec
