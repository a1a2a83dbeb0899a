import Verif.Model.Insert

/-! # The `YamlInsert` trait and its implementations, one by one

`Model/Insert.lean` has the operations of a whole tree and of a document, with the
implementations for the smaller parts of a tree inlined. All parts implement the (public)
trait, so an edit can also be started at an entry, at an element of a sequence or at a
comment. This file has these implementations as they are written, and the default methods
of the trait once for all of them. -/

namespace YamlSubset

/-- `YamlInsert`, src/yaml/insert.rs:33-41: the two methods that a part of a tree must
implement. `&mut self` is modelled by returning the new value with the result. -/
class YamlInsert (X : Type) where
  /-- `for_hash`, src/yaml/insert.rs:34-37. -/
  forHash : {A : Type} → [Additive A] → (HashElement → A × HashElement) → (Yaml → A × Yaml) →
    YamlPath → X → A × X
  /-- `edit_hash_structure`, src/yaml/insert.rs:39-41. -/
  editHash : (List HashData → Str → Option Nat → Nat × List HashData) → YamlPath → X → Nat × X

/-- `YamlInsert for Yaml`, src/yaml/mod.rs:134-305. -/
instance : YamlInsert Yaml := ⟨Yaml.forHash, Yaml.editHash⟩

/-- `YamlInsert for AliasedYaml`, src/yaml/aliased.rs:28-42: both methods act on the value. -/
instance : YamlInsert AliasedYaml where
  forHash f r path a :=
    let q := Yaml.forHash f r path a.value
    (q.1, ⟨a.alias, q.2⟩)
  editHash f path a :=
    let q := Yaml.editHash f path a.value
    (q.1, ⟨a.alias, q.2⟩)

/-- `for_hash` of an entry, src/yaml/hash_element.rs:20-37. -/
def HashElement.forHash {A : Type} [Additive A] (f : HashElement → A × HashElement)
    (r : Yaml → A × Yaml) (path : YamlPath) (e : HashElement) : A × HashElement :=
  match path with
  | .root _ => f e
  | .key k _ none => if k = e.key then f e else (Additive.zero, e)
  | .key _ _ (some other) =>
    let q := YamlInsert.forHash f r other e.value
    (q.1, ⟨e.key, q.2⟩)
  | _ => (Additive.zero, e)

/-- `edit_hash_structure` of an entry, src/yaml/hash_element.rs:14-19. -/
def HashElement.editHash (f : List HashData → Str → Option Nat → Nat × List HashData)
    (path : YamlPath) (e : HashElement) : Nat × HashElement :=
  let q := YamlInsert.editHash f path e.value
  (q.1, ⟨e.key, q.2⟩)

/-- `YamlInsert for HashElement`, src/yaml/hash_element.rs:13-38. -/
instance : YamlInsert HashElement := ⟨HashElement.forHash, HashElement.editHash⟩

/-- `YamlInsert for HashData`, src/yaml/hash_data.rs:14-35: comments are left alone. -/
instance : YamlInsert HashData where
  forHash f r path
    | .element e => let q := YamlInsert.forHash f r path e; (q.1, .element q.2)
    | d => (Additive.zero, d)
  editHash f path
    | .element e => let q := YamlInsert.editHash f path e; (q.1, .element q.2)
    | d => (0, d)

/-- `for_hash` of an element of a block sequence, src/yaml/array_data.rs:25-42. -/
def ArrayData.forHash {A : Type} [Additive A] (f : HashElement → A × HashElement)
    (r : Yaml → A × Yaml) (path : YamlPath) : ArrayData → A × ArrayData
  | .element a =>
    match path with
    | .root _ => (Additive.zero, .element a)
    | .key _ _ none => let q := YamlInsert.forHash f r path a; (q.1, .element q.2)
    | .allIndexes _ (some other) => let q := YamlInsert.forHash f r other a; (q.1, .element q.2)
    | .allIndexes _ none => let q := YamlInsert.forHash f r (.root []) a; (q.1, .element q.2)
    | .indexes _ _ (some other) => let q := YamlInsert.forHash f r other a; (q.1, .element q.2)
    | .indexes _ _ none => let q := YamlInsert.forHash f r (.root []) a; (q.1, .element q.2)
    | _ => (Additive.zero, .element a)
  | d => (Additive.zero, d)

/-- `edit_hash_structure` of an element of a block sequence, src/yaml/array_data.rs:16-24. -/
def ArrayData.editHash (f : List HashData → Str → Option Nat → Nat × List HashData)
    (path : YamlPath) : ArrayData → Nat × ArrayData
  | .element a => let q := YamlInsert.editHash f path a; (q.1, .element q.2)
  | d => (0, d)

/-- `YamlInsert for ArrayData`, src/yaml/array_data.rs:15-43. -/
instance : YamlInsert ArrayData := ⟨ArrayData.forHash, ArrayData.editHash⟩

/-- `ArrayData::fits_conditions`, src/yaml/array_data.rs:49-54. -/
def ArrayData.fitsConditions (cs : List Condition) : ArrayData → Bool
  | .element a => a.value.fitsConditions cs
  | _ => false

/-- `YamlInsert for DocumentData`, src/yaml/document.rs:13-33. -/
instance : YamlInsert DocumentData where
  forHash f r path
    | .yaml y => let q := YamlInsert.forHash f r path y; (q.1, .yaml q.2)
    | d => (Additive.zero, d)
  editHash f path
    | .yaml y => let q := YamlInsert.editHash f path y; (q.1, .yaml q.2)
    | d => (0, d)

/-- The loops of src/yaml/document.rs:55-58 and 66-70: every item in turn, adding up. -/
def overDocument {A : Type} [Additive A] (g : DocumentData → A × DocumentData) :
    A → List DocumentData → A × List DocumentData
  | count, [] => (count, [])
  | count, item :: t =>
    let q := g item
    let s := overDocument g (Additive.add count q.1) t
    (s.1, q.2 :: s.2)

/-- `YamlInsert for Document`, src/yaml/document.rs:50-73. -/
instance : YamlInsert Document where
  forHash f r path d :=
    let q := overDocument (YamlInsert.forHash f r path) Additive.zero d.items
    (q.1, ⟨d.leadingComments, q.2⟩)
  editHash f path d :=
    let q := overDocument (YamlInsert.editHash f path) 0 d.items
    (q.1, ⟨d.leadingComments, q.2⟩)

namespace YamlInsert

variable {X : Type} [YamlInsert X]

/-- `find_values`, src/yaml/insert.rs:44-48. -/
def findValues (path : YamlPath) (x : X) : List Yaml × X :=
  forHash (fun e => ([e.value.value], e)) (fun h => ([h], h)) path x

/-- `insert_into_hash`, src/yaml/insert.rs:53-74. -/
def insertIntoHash (path : YamlPath) (h : AliasedYaml) (overwrite : Bool) (x : X) : Nat × X :=
  editHash (insertClosure h overwrite) path x

/-- `insert_into_hash_by_call`, src/yaml/insert.rs:76-97, for a call without effects: `h ()`
is evaluated at every place that is visited. -/
def insertIntoHashByCall (path : YamlPath) (h : Unit → AliasedYaml) (overwrite : Bool) (x : X) :
    Nat × X :=
  editHash (fun data key keyIndex =>
    let value := HashData.element ⟨key, h ()⟩
    match keyIndex with
    | none => (1, data ++ [value])
    | some index => if overwrite then (1, data.set index value) else (0, data)) path x

/-- `remove_from_hash`, src/yaml/insert.rs:98-108. -/
def removeFromHash (path : YamlPath) (x : X) : Nat × X := editHash removeClosure path x

/-- `rename_field`, src/yaml/insert.rs:109-116. -/
def renameField (path : YamlPath) (newName : Str) (x : X) : Nat × X :=
  forHash (fun e => (1, { e with key := newName })) (fun h => (0, h)) path x

/-- `to_object`, src/yaml/insert.rs:117-132. -/
def toObject (path : YamlPath) (objectKey : Str) (x : X) : Nat × X :=
  forHash (fun e => (1, ⟨e.key, ⟨none, .hash [.element ⟨objectKey, e.value⟩]⟩⟩))
    (fun h => (0, h)) path x

/-- `move_to_subfield`, src/yaml/insert.rs:133-186. -/
def moveToSubfield (path : YamlPath) (subfield : Str) (fieldsToMove : List Str) (x : X) :
    Out Nat × X :=
  let r := fun h => countedEdit h (moveToSubfieldAt subfield fieldsToMove h)
  forHash (onElementValue r) r path x

/-- `move_to_map_with_field_as_key`, src/yaml/insert.rs:187-306. -/
def moveToMap (path : YamlPath) (oldMapName selector newMapName : Str) (keeps : List Str) (x : X) :
    Out Nat × X :=
  let r := fun h => countedEdit h (moveToMapAt oldMapName selector newMapName keeps h)
  forHash (onElementValue r) r path x

end YamlInsert

/-- The loop over all elements of a block sequence, src/yaml/mod.rs:206-212. -/
def overData {A : Type} [Additive A] (cs : List Condition) (g : ArrayData → A × ArrayData) :
    A → List ArrayData → A × List ArrayData
  | count, [] => (count, [])
  | count, d :: t =>
    if d.fitsConditions cs then
      let q := g d
      let s := overData cs g (Additive.add count q.1) t
      (s.1, q.2 :: s.2)
    else
      let s := overData cs g count t
      (s.1, d :: s.2)

/-- Where the elements are in the data of a block sequence: the references collected by
src/yaml/mod.rs:177-180. -/
def elementPlaces : Nat → List ArrayData → List Nat
  | _, [] => []
  | n, .element _ :: t => n :: elementPlaces (n + 1) t
  | n, _ :: t => elementPlaces (n + 1) t

/-- The loop over the listed elements of a block sequence, src/yaml/mod.rs:181-190: `places`
are the references collected before the loop. -/
def atData {A : Type} [Additive A] (cs : List Condition) (g : ArrayData → A × ArrayData)
    (places : List Nat) : List Nat → A → List ArrayData → A × List ArrayData
  | [], count, ds => (count, ds)
  | i :: is, count, ds =>
    match places[i]? with
    | some p =>
      match ds[p]? with
      | some d =>
        if d.fitsConditions cs then
          let q := g d
          atData cs g places is (Additive.add count q.1) (ds.set p q.2)
        else atData cs g places is count ds
      | none => atData cs g places is count ds
    | none => atData cs g places is count ds

/-- The body of `for_hash` of a tree as it is written, src/yaml/mod.rs:135-217; `self` is
`for_hash` itself, for the calls on elements of flow sequences. -/
def forHashBody {A : Type} [Additive A] (f : HashElement → A × HashElement) (r : Yaml → A × Yaml)
    (self : YamlPath → Yaml → A × Yaml) (path : YamlPath) (y : Yaml) : A × Yaml :=
  match path with
  | .root conditions => if !y.fitsConditions conditions then (Additive.zero, y) else r y
  | .key k conditions _ =>
    if !y.fitsConditions conditions then (Additive.zero, y)
    else
      match y with
      | .hash data =>
        match y.keyIndex k with
        | some index =>
          match data[index]? with
          | some d => let q := YamlInsert.forHash f r path d; (q.1, .hash (data.set index q.2))
          | none => (Additive.zero, y)
        | none => (Additive.zero, y)
      | _ => (Additive.zero, y)
  | .indexes indexes conditions _ =>
    match y with
    | .inlineArray elements =>
      let q := atInline conditions (self path) indexes Additive.zero elements
      (q.1, .inlineArray q.2)
    | .array elements =>
      let q := atData conditions (YamlInsert.forHash f r path) (elementPlaces 0 elements) indexes
        Additive.zero elements
      (q.1, .array q.2)
    | _ => (Additive.zero, y)
  | .allIndexes conditions _ =>
    match y with
    | .inlineArray elements =>
      let q := overInline conditions (self path) Additive.zero elements
      (q.1, .inlineArray q.2)
    | .array elements =>
      let q := overData conditions (YamlInsert.forHash f r path) Additive.zero elements
      (q.1, .array q.2)
    | _ => (Additive.zero, y)

/-- The body of `edit_hash_structure` of a tree as it is written, src/yaml/mod.rs:219-304;
`self` is `edit_hash_structure` itself, for the calls on elements of flow sequences. -/
def editHashBody (f : List HashData → Str → Option Nat → Nat × List HashData)
    (self : YamlPath → Yaml → Nat × Yaml) (path : YamlPath) (y : Yaml) : Nat × Yaml :=
  match path with
  | .root _ => (0, y)
  | .key k conditions otherPath =>
    if !y.fitsConditions conditions then (0, y)
    else
      match y with
      | .hash data =>
        match otherPath with
        | some other =>
          match y.keyIndex k with
          | some index =>
            match data[index]? with
            | some d => let q := YamlInsert.editHash f other d; (q.1, .hash (data.set index q.2))
            | none => (0, y)
          | none => (0, y)
        | none => let q := f data k (y.keyIndex k); (q.1, .hash q.2)
      | _ => (0, y)
  | .indexes indexes conditions (some other) =>
    match y with
    | .inlineArray elements =>
      let q := atInline conditions (self other) indexes 0 elements
      (q.1, .inlineArray q.2)
    | .array elements =>
      let q := atData conditions (YamlInsert.editHash f other) (elementPlaces 0 elements) indexes 0
        elements
      (q.1, .array q.2)
    | _ => (0, y)
  | .allIndexes conditions (some other) =>
    match y with
    | .inlineArray elements =>
      let q := overInline conditions (self other) 0 elements
      (q.1, .inlineArray q.2)
    | .array elements =>
      let q := overData conditions (YamlInsert.editHash f other) 0 elements
      (q.1, .array q.2)
    | _ => (0, y)
  | .indexes _ _ none => (0, y)
  | .allIndexes _ none => (0, y)

end YamlSubset
