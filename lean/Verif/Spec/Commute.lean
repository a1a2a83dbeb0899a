import Verif.Spec.Frame
import Verif.Model.Insert

/-! # Specification: edits that do not depend on each other -/

namespace YamlSubset.Spec

/-- The edits of a document. -/
inductive Edit where
  | insert (path : YamlPath) (value : AliasedYaml) (overwrite : Bool)
  | remove (path : YamlPath)
  | rename (path : YamlPath) (name : Str)
  | toObject (path : YamlPath) (name : Str)

namespace Edit

/-- The path of an edit. -/
def path : Edit → YamlPath
  | .insert p _ _ => p
  | .remove p => p
  | .rename p _ => p
  | .toObject p _ => p

/-- The names of the entries that an edit touches at the end of its path: the last key, and for a renaming also the new name. -/
def names : Edit → List Str
  | .insert p _ _ => (lastKey p).toList
  | .remove p => (lastKey p).toList
  | .rename p new => (lastKey p).toList ++ [new]
  | .toObject p _ => (lastKey p).toList

/-- The edit is an insert. -/
def isInsert : Edit → Bool
  | .insert _ _ _ => true
  | _ => false

/-- The function of the API: the count and the new document. -/
def run : Edit → Document → Nat × Document
  | .insert p v o, d => d.insertIntoHash p v o
  | .remove p, d => d.removeFromHash p
  | .rename p new, d => d.renameField p new
  | .toObject p name, d => d.toObject p name

end Edit

/-- As far as the keys tell, the paths may end in the same mapping. -/
def endTogether : YamlPath → YamlPath → Bool
  | .key _ _ none, .key _ _ none => true
  | .key k _ (some p), .key k' _ (some q) => k == k' && endTogether p q
  | .allIndexes _ (some p), .allIndexes _ (some q) => endTogether p q
  | .allIndexes _ (some p), .indexes _ _ (some q) => endTogether p q
  | .indexes _ _ (some p), .allIndexes _ (some q) => endTogether p q
  | .indexes _ _ (some p), .indexes _ _ (some q) => endTogether p q
  | _, _ => false

/-- Two edits are independent: their paths lead to different entries (`Spec/Frame.lean`, both ways), no condition of a path is on a name the
other edit touches, and they are not two inserts into the same mapping. -/
structure Independent (e e' : Edit) : Prop where
  ends : (lastKey e.path).isSome
  ends' : (lastKey e'.path).isSome
  apart : Diverges e.names e.path e'.path
  apart' : Diverges e'.names e'.path e.path
  conditions : ∀ c ∈ conditionsOf e.path, c.field ∉ e'.names
  conditions' : ∀ c ∈ conditionsOf e'.path, c.field ∉ e.names
  inserts : e.isInsert = true → e'.isInsert = true → endTogether e.path e'.path = false

/-- Run edits one after the other; the counts are added up. -/
def runAll : List Edit → Document → Nat × Document
  | [], d => (0, d)
  | e :: es, d =>
    let r := e.run d
    let q := runAll es r.2
    (r.1 + q.1, q.2)

/-- The values that are inserted have no block collections in flow collections. -/
def Edit.Plain : Edit → Prop
  | .insert _ v _ => BlockOutsideFlow v.value
  | _ => True

end YamlSubset.Spec
