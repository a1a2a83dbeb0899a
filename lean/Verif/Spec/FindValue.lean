import Verif.Spec.Edit
import Verif.Spec.ValueEdit
import Verif.Model.De

/-! # Specification: what a path leads to in deserialized data

Values of the self-describing type (null, booleans, numbers, strings, sequences, and maps with their entries in order), and the path notation read on
them: keys lead to entries of maps, indexes to elements of sequences. Nothing here refers to documents, or to the code that looks up or edits. -/

namespace YamlSubset.Spec

/-- A condition `field == text` on a value: the value is a map, and its first entry for the field is the text, as a string or as what the text stands
for when it is not quoted. -/
def HoldsIn (c : Condition) (v : SVal) : Prop :=
  ∃ es pre x post, v = .map es ∧ FirstPair c.field es pre x post ∧ (x = .str c.value ∨ x = deAnyPlain c.value)

/-- All conditions of a step. -/
def AllHold (cs : List Condition) (v : SVal) : Prop := ∀ c ∈ cs, HoldsIn c v

open Classical in
/-- The value of the first entry with a key. -/
noncomputable def entryOf (k : Str) : SVal → Option SVal
  | .map es => es.findSome? fun e => if e.1 = .str k then some e.2 else none
  | _ => none

/-- The elements of a sequence that an index step looks at: `[*]` all of them, `[i, j]` the listed ones in the order of the list. -/
def elementsAt (is : Option (List Nat)) : SVal → List SVal
  | .seq vs =>
    match is with
    | none => vs
    | some ns => ns.filterMap fun i => vs[i]?
  | _ => []

open Classical in
/-- What a path leads to. -/
noncomputable def valuesAt : YamlPath → SVal → List SVal
  | .root cs, v => if AllHold cs v then [v] else []
  | .key k cs none, v => if AllHold cs v then (entryOf k v).toList else []
  | .key k cs (some p), v => if AllHold cs v then (entryOf k v).toList.flatMap (valuesAt p) else []
  | .allIndexes cs none, v => (elementsAt none v).filter fun e => AllHold cs e
  | .allIndexes cs (some p), v => ((elementsAt none v).filter fun e => AllHold cs e).flatMap (valuesAt p)
  | .indexes is cs none, v => (elementsAt (some is) v).filter fun e => AllHold cs e
  | .indexes is cs (some p), v => ((elementsAt (some is) v).filter fun e => AllHold cs e).flatMap (valuesAt p)

/-- The conditions of a path compare with texts that are strings also when they are not quoted (not with numbers, booleans or null). -/
def StringConditions : YamlPath → Prop
  | .root cs => ∀ c ∈ cs, deAnyPlain c.value = .str c.value
  | .key _ cs none => ∀ c ∈ cs, deAnyPlain c.value = .str c.value
  | .key _ cs (some p) => (∀ c ∈ cs, deAnyPlain c.value = .str c.value) ∧ StringConditions p
  | .allIndexes cs none => ∀ c ∈ cs, deAnyPlain c.value = .str c.value
  | .allIndexes cs (some p) => (∀ c ∈ cs, deAnyPlain c.value = .str c.value) ∧ StringConditions p
  | .indexes _ cs none => ∀ c ∈ cs, deAnyPlain c.value = .str c.value
  | .indexes _ cs (some p) => (∀ c ∈ cs, deAnyPlain c.value = .str c.value) ∧ StringConditions p

/-- A node without flow collections `[…]` and `{…}` in it. -/
inductive NoFlow : Yaml → Prop
  | hash {ds} (h : ∀ k a v, .element ⟨k, ⟨a, v⟩⟩ ∈ ds → NoFlow v) : NoFlow (.hash ds)
  | array {ds} (h : ∀ a v, .element ⟨a, v⟩ ∈ ds → NoFlow v) : NoFlow (.array ds)
  | unquoted (s) : NoFlow (.unquotedString s)
  | single (s) : NoFlow (.singleQuotedString s)
  | double (s) : NoFlow (.doubleQuotedString s)
  | folded (ls c) : NoFlow (.foldedString ls c)
  | literal (ls c) : NoFlow (.literalString ls c)
  | reference (s) : NoFlow (.anchor s)

end YamlSubset.Spec
