import Verif.Model.Path
import Verif.Model.Strings
import Verif.Spec.Tree

/-! # Specification: paths, addressed places and edits

Paths are taken from the model because they are part of the API. Nothing here refers
to the editing code. -/

namespace YamlSubset.Spec

/-- A place in a tree: the indices (into the data of each block hash, block array or inline
array, comments counted) that lead from the root to a node. -/
abbrev Loc := List Nat

/-- `Edits E ls y y'`: `y'` results from `y` by changing the data of block hashes, once at
each of the places `ls` in this order, each change being one that `E` allows; nothing
else differs. -/
inductive Edits (E : List HashData → List HashData → Prop) : List Loc → Yaml → Yaml → Prop
  | none (y) : Edits E [] y y
  | here {ds ds'} (h : E ds ds') : Edits E [[]] (.hash ds) (.hash ds')
  | inHash {ds i k a v v' ls} (hi : ds[i]? = some (.element ⟨k, ⟨a, v⟩⟩)) (h : Edits E ls v v') :
      Edits E (ls.map (i :: ·)) (.hash ds) (.hash (ds.set i (.element ⟨k, ⟨a, v'⟩⟩)))
  | inArray {ds i a v v' ls} (hi : ds[i]? = some (.element ⟨a, v⟩)) (h : Edits E ls v v') :
      Edits E (ls.map (i :: ·)) (.array ds) (.array (ds.set i (.element ⟨a, v'⟩)))
  | inInlineArray {es i v v' ls} (hi : es[i]? = some v) (h : Edits E ls v v') :
      Edits E (ls.map (i :: ·)) (.inlineArray es) (.inlineArray (es.set i v'))
  | seq {x y z ls ms} (h : Edits E ls x y) (h' : Edits E ms y z) : Edits E (ls ++ ms) x z

/-- The keys of hash data, in order. -/
def keysOf (ds : List HashData) : List Str :=
  ds.filterMap fun
    | .element e => some e.key
    | _ => none

/-- `FirstEntry k ds pre v post`: `ds` is `pre`, the entry `k: v`, `post`, and `k` is not a key
in `pre`. -/
def FirstEntry (k : Str) (ds pre : List HashData) (v : AliasedYaml) (post : List HashData) : Prop :=
  ds = pre ++ .element ⟨k, v⟩ :: post ∧ k ∉ keysOf pre

/-- A node satisfies conditions: it is a block hash in which, for each condition, the first entry with the
field name exists and has the given string value. -/
def Fits (cs : List Condition) (y : Yaml) : Prop :=
  ∀ c ∈ cs, ∃ ds pre v post, y = .hash ds ∧ FirstEntry c.field ds pre v post ∧
    v.value.asString = some c.value

/-- Number of elements (not comments) of array data. -/
def elementCount (ds : List ArrayData) : Nat :=
  (ds.filter fun | .element _ => true | _ => false).length

/-- `Addresses p y l k ds`: the place `l` of `y` holds a block hash with data `ds` to which the last key
`k` of the path applies. -/
inductive Addresses : YamlPath → Yaml → Loc → Str → List HashData → Prop
  | here {k cs ds} (h : Fits cs (.hash ds)) : Addresses (.key k cs none) (.hash ds) [] k ds
  | key {k cs p ds pre v post l k' ds'} (h : Fits cs (.hash ds)) (hf : FirstEntry k ds pre v post)
      (hp : Addresses p v.value l k' ds') :
      Addresses (.key k cs (some p)) (.hash ds) (pre.length :: l) k' ds'
  | allArray {cs p ds i a v l k ds'} (hi : ds[i]? = some (.element ⟨a, v⟩)) (h : Fits cs v)
      (hp : Addresses p v l k ds') : Addresses (.allIndexes cs (some p)) (.array ds) (i :: l) k ds'
  | allInline {cs p es i v l k ds'} (hi : es[i]? = some v) (h : Fits cs v)
      (hp : Addresses p v l k ds') :
      Addresses (.allIndexes cs (some p)) (.inlineArray es) (i :: l) k ds'
  | array {is n cs p ds i a v l k ds'} (hn : n ∈ is) (hi : ds[i]? = some (.element ⟨a, v⟩))
      (hc : elementCount (ds.take i) = n) (h : Fits cs v) (hp : Addresses p v l k ds') :
      Addresses (.indexes is cs (some p)) (.array ds) (i :: l) k ds'
  | inline {is i cs p es v l k ds'} (hn : i ∈ is) (hi : es[i]? = some v) (h : Fits cs v)
      (hp : Addresses p v l k ds') : Addresses (.indexes is cs (some p)) (.inlineArray es) (i :: l) k ds'

/-- The last key of a path that ends in a key. -/
def lastKey : YamlPath → Option Str
  | .root _ => none
  | .key k _ none => some k
  | .key _ _ (some p) => lastKey p
  | .allIndexes _ none => none
  | .allIndexes _ (some p) => lastKey p
  | .indexes _ _ none => none
  | .indexes _ _ (some p) => lastKey p

/-- No index occurs twice in an index list of the path. -/
def NoRepeats : YamlPath → Prop
  | .root _ => True
  | .key _ _ none => True
  | .key _ _ (some p) => NoRepeats p
  | .allIndexes _ none => True
  | .allIndexes _ (some p) => NoRepeats p
  | .indexes is _ none => is.Nodup
  | .indexes is _ (some p) => is.Nodup ∧ NoRepeats p

/-- The path of a non-empty list of keys, without conditions. -/
def keyPath : Str → List Str → YamlPath
  | k, [] => .key k [] none
  | k, k' :: ks => .key k [] (some (keyPath k' ks))

/-- Appending an entry with a new key. -/
def Appends (k : Str) (h : AliasedYaml) (ds ds' : List HashData) : Prop :=
  k ∉ keysOf ds ∧ ds' = ds ++ [.element ⟨k, h⟩]

/-- Replacing the value of the first entry with a key. -/
def Overwrites (k : Str) (h : AliasedYaml) (ds ds' : List HashData) : Prop :=
  ∃ pre v post, FirstEntry k ds pre v post ∧ ds' = pre ++ .element ⟨k, h⟩ :: post

/-- Removing the first entry with a key. -/
def Removes (k : Str) (ds ds' : List HashData) : Prop :=
  ∃ pre v post, FirstEntry k ds pre v post ∧ ds' = pre ++ post

/-- Renaming the first entry with a key. -/
def Renames (k new : Str) (ds ds' : List HashData) : Prop :=
  ∃ pre v post, FirstEntry k ds pre v post ∧ ds' = pre ++ .element ⟨new, v⟩ :: post

/-- Wrapping the value of the first entry with a key in a new hash of one entry. -/
def Wraps (k objectKey : Str) (ds ds' : List HashData) : Prop :=
  ∃ pre v post, FirstEntry k ds pre v post ∧
    ds' = pre ++ .element ⟨k, ⟨none, .hash [.element ⟨objectKey, v⟩]⟩⟩ :: post

end YamlSubset.Spec

namespace YamlSubset.Spec

/-- The values of array data, in order. -/
def elementValues (ds : List ArrayData) : List Yaml :=
  ds.filterMap fun
    | .element ⟨_, v⟩ => some v
    | _ => none

/-- The elements of an array, block or inline; other nodes have none. -/
def elements : Yaml → List Yaml
  | .array ds => elementValues ds
  | .inlineArray es => es
  | _ => []

/-- The value of the first entry with a key, if the node is a block hash that has one. -/
def firstValue (k : Str) : Yaml → Option Yaml
  | .hash ds => ds.findSome? fun
    | .element ⟨k', ⟨_, v⟩⟩ => if k' = k then some v else none
    | _ => none
  | _ => none

open Classical in
/-- Direct lookup of a path: what the path notation says. -/
noncomputable def lookup : YamlPath → Yaml → List Yaml
  | .root cs, y => if Fits cs y then [y] else []
  | .key k cs none, y => if Fits cs y then (firstValue k y).toList else []
  | .key k cs (some p), y => if Fits cs y then (firstValue k y).toList.flatMap (lookup p) else []
  | .allIndexes cs none, y => (elements y).filter fun e => Fits cs e
  | .allIndexes cs (some p), y => ((elements y).filter fun e => Fits cs e).flatMap (lookup p)
  | .indexes is cs none, y => (is.filterMap fun i => (elements y)[i]?).filter fun e => Fits cs e
  | .indexes is cs (some p), y =>
    ((is.filterMap fun i => (elements y)[i]?).filter fun e => Fits cs e).flatMap (lookup p)

/-- No index step of the path meets an inline array. (Paths of keys satisfy this on every tree.) -/
def AvoidsInline : YamlPath → Yaml → Prop
  | .root _, _ => True
  | .key _ _ none, _ => True
  | .key k _ (some p), y => ∀ v, firstValue k y = some v → AvoidsInline p v
  | .allIndexes _ none, y => ∀ es, y ≠ .inlineArray es
  | .allIndexes _ (some p), y => (∀ es, y ≠ .inlineArray es) ∧ ∀ e ∈ elements y, AvoidsInline p e
  | .indexes _ _ none, y => ∀ es, y ≠ .inlineArray es
  | .indexes _ _ (some p), y => (∀ es, y ≠ .inlineArray es) ∧ ∀ e ∈ elements y, AvoidsInline p e

/-- The path has no conditions. -/
def NoConditions : YamlPath → Prop
  | .root cs => cs = []
  | .key _ cs none => cs = []
  | .key _ cs (some p) => cs = [] ∧ NoConditions p
  | .allIndexes cs none => cs = []
  | .allIndexes cs (some p) => cs = [] ∧ NoConditions p
  | .indexes _ cs none => cs = []
  | .indexes _ cs (some p) => cs = [] ∧ NoConditions p

/-- The keys of every block hash outside flow collections are distinct. -/
inductive DistinctKeys : Yaml → Prop
  | hash {ds} (hd : (keysOf ds).Nodup)
      (h : ∀ k a v, HashData.element ⟨k, ⟨a, v⟩⟩ ∈ ds → DistinctKeys v) : DistinctKeys (.hash ds)
  | array {ds} (h : ∀ a v, ArrayData.element ⟨a, v⟩ ∈ ds → DistinctKeys v) : DistinctKeys (.array ds)
  | inlineArray {es} (h : ∀ v ∈ es, DistinctKeys v) : DistinctKeys (.inlineArray es)
  | inlineHash (es) : DistinctKeys (.inlineHash es)
  | unquotedString (s) : DistinctKeys (.unquotedString s)
  | singleQuotedString (ps) : DistinctKeys (.singleQuotedString ps)
  | doubleQuotedString (ps) : DistinctKeys (.doubleQuotedString ps)
  | foldedString (ls c) : DistinctKeys (.foldedString ls c)
  | literalString (ls c) : DistinctKeys (.literalString ls c)
  | anchor (a) : DistinctKeys (.anchor a)

end YamlSubset.Spec

namespace YamlSubset.Spec

/-- `ItemsEdit E n is is'`: the items `is'` result from `is` by `n` edits of the YAML items that
`E` allows; comment items stay. -/
inductive ItemsEdit (E : List HashData → List HashData → Prop) :
    Nat → List DocumentData → List DocumentData → Prop
  | nil : ItemsEdit E 0 [] []
  | comment {n s t t'} (h : ItemsEdit E n t t') : ItemsEdit E n (.comment s :: t) (.comment s :: t')
  | yaml {n ls y y' t t'} (h : Edits E ls y y') (ht : ItemsEdit E n t t') :
      ItemsEdit E (ls.length + n) (.yaml y :: t) (.yaml y' :: t')

/-- `DocEdits E n d d'`: `d'` results from `d` by `n` edits that `E` allows; the leading comments and all
comment items stay. -/
def DocEdits (E : List HashData → List HashData → Prop) (n : Nat) (d d' : Document) : Prop :=
  d'.leadingComments = d.leadingComments ∧ ItemsEdit E n d.items d'.items

/-- The comments of hash data. -/
def dataComments (ds : List HashData) : List HashData :=
  ds.filter fun | .element _ => false | _ => true

end YamlSubset.Spec

namespace YamlSubset.Spec

/-- `EditsAt E P n y y'`: `y'` results from `y` by `n` edits that `E` allows, one at each place that
`P` selects in `y`, and nowhere else. -/
def EditsAt (E : List HashData → List HashData → Prop) (P : Yaml → Loc → Prop) (n : Nat) (y y' : Yaml) : Prop :=
  ∃ ls, n = ls.length ∧ Edits E ls y y' ∧ ls.Nodup ∧ ∀ l, l ∈ ls ↔ P y l

/-- The same for the items of a document. -/
inductive ItemsEditAt (E : List HashData → List HashData → Prop) (P : Yaml → Loc → Prop) :
    Nat → List DocumentData → List DocumentData → Prop
  | nil : ItemsEditAt E P 0 [] []
  | comment {n s t t'} (h : ItemsEditAt E P n t t') : ItemsEditAt E P n (.comment s :: t) (.comment s :: t')
  | yaml {m n y y' t t'} (h : EditsAt E P m y y') (ht : ItemsEditAt E P n t t') :
      ItemsEditAt E P (m + n) (.yaml y :: t) (.yaml y' :: t')

/-- The same for documents; the leading comments stay. -/
def DocEditsAt (E : List HashData → List HashData → Prop) (P : Yaml → Loc → Prop) (n : Nat) (d d' : Document) :
    Prop :=
  d'.leadingComments = d.leadingComments ∧ ItemsEditAt E P n d.items d'.items

/-- The places of a tree at which a path that ends in `k` addresses a hash whose data satisfy `app`. -/
def AddressedWhere (path : YamlPath) (k : Str) (app : List HashData → Prop) (y : Yaml) (l : Loc) : Prop :=
  ∃ ds, Addresses path y l k ds ∧ app ds

end YamlSubset.Spec
