import Verif.Spec.Written
import Verif.Spec.Edit

/-! # Specification: places in block collections and in flow collections

A place is a list of indices, as in `Spec/Edit.lean`; comments are counted. -/

namespace YamlSubset.Spec

/-- The value at an index of a block collection. -/
def childAt (i : Nat) : Yaml → Option AliasedYaml
  | .hash ds => match ds[i]? with
    | some (.element e) => some e.value
    | _ => none
  | .array ds => match ds[i]? with
    | some (.element v) => some v
    | _ => none
  | _ => none

/-- Another value at an index of a block collection. -/
def setChild (i : Nat) (v : AliasedYaml) : Yaml → Yaml
  | .hash ds => match ds[i]? with
    | some (.element e) => .hash (ds.set i (.element ⟨e.key, v⟩))
    | _ => .hash ds
  | .array ds => match ds[i]? with
    | some (.element _) => .array (ds.set i (.element v))
    | _ => .array ds
  | y => y

/-- The key at an index of a block mapping. -/
def keyAt (i : Nat) : Yaml → Option Str
  | .hash ds => match ds[i]? with
    | some (.element e) => some e.key
    | _ => none
  | _ => none

/-- Another key at an index of a block mapping. -/
def setKey (i : Nat) (k : Str) : Yaml → Yaml
  | .hash ds => match ds[i]? with
    | some (.element e) => .hash (ds.set i (.element ⟨k, e.value⟩))
    | _ => .hash ds
  | y => y

/-- A function applied to the block collection at a place; the empty place is the root. -/
def changeNode (f : Yaml → Yaml) : Loc → Yaml → Yaml
  | [], y => f y
  | i :: l, y => match childAt i y with
    | some w => setChild i ⟨w.alias, changeNode f l w.value⟩ y
    | none => y

/-- The collection at a place; the empty place is the root. -/
def nodeAt : Loc → Yaml → Option Yaml
  | [], y => some y
  | i :: l, y => match childAt i y with
    | some w => nodeAt l w.value
    | none => none

/-- The comment at an index of a block collection. -/
def commentAt (i : Nat) : Yaml → Option Str
  | .hash ds => match ds[i]? with
    | some (.comment c) => some c
    | some (.inlineComment c) => some c
    | _ => none
  | .array ds => match ds[i]? with
    | some (.comment c) => some c
    | some (.inlineComment c) => some c
    | _ => none
  | _ => none

/-- Another comment at an index of a block collection. -/
def setComment (i : Nat) (c : Str) : Yaml → Yaml
  | .hash ds => match ds[i]? with
    | some (.comment _) => .hash (ds.set i (.comment c))
    | some (.inlineComment _) => .hash (ds.set i (.inlineComment c))
    | _ => .hash ds
  | .array ds => match ds[i]? with
    | some (.comment _) => .array (ds.set i (.comment c))
    | some (.inlineComment _) => .array (ds.set i (.inlineComment c))
    | _ => .array ds
  | y => y

/-- A comment line before the item at an index of a block collection. -/
def addComment (i : Nat) (c : Str) : Yaml → Yaml
  | .hash ds => .hash (ds.take i ++ .comment c :: ds.drop i)
  | .array ds => .array (ds.take i ++ .comment c :: ds.drop i)
  | y => y

/-- The value at a place in flow collections. -/
def flowAt : Loc → Yaml → Option Yaml
  | [], y => some y
  | i :: l, .inlineArray es => match es[i]? with
    | some v => flowAt l v
    | none => none
  | i :: l, .inlineHash es => match es[i]? with
    | some (_, v) => flowAt l v
    | none => none
  | _ :: _, _ => none

/-- Another value at a place in flow collections. -/
def setFlow (z : Yaml) : Loc → Yaml → Yaml
  | [], _ => z
  | i :: l, .inlineArray es => match es[i]? with
    | some v => .inlineArray (es.set i (setFlow z l v))
    | none => .inlineArray es
  | i :: l, .inlineHash es => match es[i]? with
    | some (k, v) => .inlineHash (es.set i (k, setFlow z l v))
    | none => .inlineHash es
  | _ :: _, y => y

/-- The value is written on the line of its key or dash, or it is a flow collection. -/
def OnLine (y : Yaml) : Prop :=
  (∀ ds, y ≠ .hash ds) ∧ (∀ ds, y ≠ .array ds) ∧ (∀ ls c, y ≠ .literalString ls c) ∧ ∀ ls c, y ≠ .foldedString ls c

/-- The path has keys and single indexes only, so that it leads to one place at most. -/
def OnePlace : YamlPath → Prop
  | .root _ => True
  | .key _ _ none => True
  | .key _ _ (some p) => OnePlace p
  | .allIndexes _ _ => False
  | .indexes is _ none => is.length ≤ 1
  | .indexes is _ (some p) => is.length ≤ 1 ∧ OnePlace p

/-- The document with a function applied to its trees. -/
def onTrees (f : Yaml → Yaml) (d : Document) : Document :=
  ⟨d.leadingComments, d.items.map fun
    | .yaml y => .yaml (f y)
    | .comment c => .comment c⟩

end YamlSubset.Spec
