import Verif.Model.Path
import Verif.Model.Strings

/-! # Path edits (`src/yaml/insert.rs`, the `YamlInsert` impls of all node types)

Mutation of `&mut self` is modelled by returning the new value together with the
result. A closure `F: Fn(&mut X) -> A` becomes `X → A × X`. -/

namespace YamlSubset

/-- `Additive`, src/yaml/insert.rs:7-9. -/
class Additive (A : Type) where
  zero : A
  add : A → A → A

/-- `Additive for usize`, src/yaml/insert.rs:11-15 (overflow of the count is not modelled:
it would need more than 2^64 edits). -/
instance : Additive Nat := ⟨0, (· + ·)⟩

/-- `Additive for MyVec<T>`, src/yaml/insert.rs:17-31. -/
instance {α : Type} : Additive (List α) := ⟨[], (· ++ ·)⟩

/-- `usize` counts of closures that may panic: a panic wins over everything after it:
src/yaml/insert.rs:11-15, with the panics of `unwrap` at 149, 167, 171, 212, 219, 281, 286. -/
instance : Additive (Out Nat) := ⟨.ok 0, fun a b => a.bind fun x => b.bind fun y => .ok (x + y)⟩

/-- The test of the closures in src/yaml/mod.rs:63-66, 74-80. -/
def HashData.hasKey (key : Str) : HashData → Bool
  | .element e => e.key == key
  | _ => false

/-- `key_index`, src/yaml/mod.rs:58-70. -/
def Yaml.keyIndex (key : Str) : Yaml → Option Nat
  | .hash data => data.findIdx? (HashData.hasKey key)
  | _ => none

/-- The `find_map` of src/yaml/mod.rs:73-82 and 88-97. -/
def keyValueIn (key : Str) : List HashData → Option AliasedYaml
  | [] => none
  | .element e :: t => if e.key = key then some e.value else keyValueIn key t
  | _ :: t => keyValueIn key t

/-- `key_value`, src/yaml/mod.rs:71-85; `key_value_owned`, 86-100. -/
def Yaml.keyValue (key : Str) : Yaml → Option AliasedYaml
  | .hash data => keyValueIn key data
  | _ => none

/-- `fits_conditions`, src/yaml/mod.rs:116-132, and AliasedYaml::fits_conditions,
src/yaml/aliased.rs:17-19: no condition is violated. -/
def Yaml.fitsConditions (y : Yaml) (conditions : List Condition) : Bool :=
  !conditions.any fun c =>
    match y.keyValue c.field with
    | some v =>
      match v.value.asString with
      | some s => s != c.value
      | none => true
    | none => true

/-- The `i`-th `Element` of block array data: src/yaml/mod.rs:177-183 and 259-265. -/
def nthElement : List ArrayData → Nat → Option AliasedYaml
  | [], _ => none
  | .element e :: _, 0 => some e
  | .element _ :: t, n + 1 => nthElement t n
  | .comment _ :: t, n => nthElement t n
  | .inlineComment _ :: t, n => nthElement t n

/-- Write back the `i`-th `Element`: the mutable borrow of src/yaml/mod.rs:177-183 and 259-265. -/
def setNthElement : List ArrayData → Nat → AliasedYaml → List ArrayData
  | [], _, _ => []
  | .element _ :: t, 0, e => .element e :: t
  | .element e' :: t, n + 1, e => .element e' :: setNthElement t n e
  | .comment c :: t, n, e => .comment c :: setNthElement t n e
  | .inlineComment c :: t, n, e => .inlineComment c :: setNthElement t n e

/-- One pass over all elements of an inline array, adding up the results from the left:
src/yaml/mod.rs:197-203 and 278-284. -/
def overInline {A : Type} [Additive A] (cs : List Condition) (g : Yaml → A × Yaml) :
    A → List Yaml → A × List Yaml
  | c, [] => (c, [])
  | c, e :: t =>
    if e.fitsConditions cs then
      let r := g e
      let q := overInline cs g (Additive.add c r.1) t
      (q.1, r.2 :: q.2)
    else
      let q := overInline cs g c t
      (q.1, e :: q.2)

/-- One pass over all elements of a block array: src/yaml/mod.rs:206-212 (comments never
fit, array_data.rs:49-54) and 287-298. -/
def overArray {A : Type} [Additive A] (cs : List Condition) (g : Yaml → A × Yaml) :
    A → List ArrayData → A × List ArrayData
  | c, [] => (c, [])
  | c, .element ⟨a, v⟩ :: t =>
    if v.fitsConditions cs then
      let r := g v
      let q := overArray cs g (Additive.add c r.1) t
      (q.1, .element ⟨a, r.2⟩ :: q.2)
    else
      let q := overArray cs g c t
      (q.1, .element ⟨a, v⟩ :: q.2)
  | c, .comment s :: t => let q := overArray cs g c t; (q.1, .comment s :: q.2)
  | c, .inlineComment s :: t => let q := overArray cs g c t; (q.1, .inlineComment s :: q.2)

/-- The listed positions of an inline array, in the order of the list: src/yaml/mod.rs:165-174
and 247-256. -/
def atInline {A : Type} [Additive A] (cs : List Condition) (g : Yaml → A × Yaml) :
    List Nat → A → List Yaml → A × List Yaml
  | [], c, es => (c, es)
  | i :: is, c, es =>
    match es[i]? with
    | some e =>
      if e.fitsConditions cs then
        let r := g e
        atInline cs g is (Additive.add c r.1) (es.set i r.2)
      else atInline cs g is c es
    | none => atInline cs g is c es

/-- The listed elements of a block array, in the order of the list: src/yaml/mod.rs:177-190
and 259-272. -/
def atArray {A : Type} [Additive A] (cs : List Condition) (g : Yaml → A × Yaml) :
    List Nat → A → List ArrayData → A × List ArrayData
  | [], c, ds => (c, ds)
  | i :: is, c, ds =>
    match nthElement ds i with
    | some ⟨a, v⟩ =>
      if v.fitsConditions cs then
        let r := g v
        atArray cs g is (Additive.add c r.1) (setNthElement ds i ⟨a, r.2⟩)
      else atArray cs g is c ds
    | none => atArray cs g is c ds

mutual
/-- Depth of the nesting of inline arrays in inline arrays: no counterpart; bounds the recursion of src/yaml/mod.rs:195-204. -/
def inlineDepth : Yaml → Nat
  | .inlineArray es => inlineDepthList es + 1
  | _ => 0
/-- Maximum over a list: no counterpart; bounds the recursion of src/yaml/mod.rs:195-204. -/
def inlineDepthList : List Yaml → Nat
  | [] => 0
  | y :: t => max (inlineDepth y) (inlineDepthList t)
end

/-- The `AllIndexes` arm of `for_hash`, src/yaml/mod.rs:195-215: an element of an inline
array is visited with the *same* path, an element of a block array with the rest of it
(array_data.rs:34-35), which is `g` here. The fuel is the nesting depth of inline
arrays. -/
def forAllIndexes {A : Type} [Additive A] (cs : List Condition) (g : Yaml → A × Yaml) :
    Nat → Yaml → A × Yaml
  | 0, y => (Additive.zero, y)
  | n + 1, y =>
    match y with
    | .inlineArray es =>
      let q := overInline cs (forAllIndexes cs g n) Additive.zero es
      (q.1, .inlineArray q.2)
    | .array ds => let q := overArray cs g Additive.zero ds; (q.1, .array q.2)
    | y => (Additive.zero, y)

/-- The `Indexes` arm of `for_hash`, src/yaml/mod.rs:163-193 and array_data.rs:36-37. -/
def forIndexes {A : Type} [Additive A] (is : List Nat) (cs : List Condition)
    (g : Yaml → A × Yaml) : Nat → Yaml → A × Yaml
  | 0, y => (Additive.zero, y)
  | n + 1, y =>
    match y with
    | .inlineArray es =>
      let q := atInline cs (forIndexes is cs g n) is Additive.zero es
      (q.1, .inlineArray q.2)
    | .array ds => let q := atArray cs g is Additive.zero ds; (q.1, .array q.2)
    | y => (Additive.zero, y)

/-- The `Key` arm of `for_hash`, src/yaml/mod.rs:147-162, with `g` what
`HashElement::for_hash` (hash_element.rs:25-36) does to the element. -/
def forKey {A : Type} [Additive A] (k : Str) (cs : List Condition)
    (g : HashElement → A × HashElement) (y : Yaml) : A × Yaml :=
  if y.fitsConditions cs then
    match y.keyIndex k, y with
    | some i, .hash data =>
      match data[i]? with
      | some (.element e) => let r := g e; (r.1, .hash (data.set i (.element r.2)))
      | _ => (Additive.zero, y)
    | _, _ => (Additive.zero, y)
  else (Additive.zero, y)

/-- `for_hash` for `Yaml`, src/yaml/mod.rs:135-217, with the impls for `HashElement`
(hash_element.rs:20-37), `HashData` (hash_data.rs:24-33), `ArrayData`
(array_data.rs:25-42) and `AliasedYaml` (aliased.rs:35-41) inlined. -/
def Yaml.forHash {A : Type} [Additive A] (f : HashElement → A × HashElement)
    (r : Yaml → A × Yaml) : YamlPath → Yaml → A × Yaml
  | .root cs, y => if y.fitsConditions cs then r y else (Additive.zero, y)
  | .key k cs none, y =>
    forKey k cs (fun e => if k = e.key then f e else (Additive.zero, e)) y
  | .key k cs (some other), y =>
    forKey k cs (fun e =>
      let q := Yaml.forHash f r other e.value.value
      (q.1, ⟨e.key, ⟨e.value.alias, q.2⟩⟩)) y
  | .allIndexes cs none, y => forAllIndexes cs r (inlineDepth y + 1) y
  | .allIndexes cs (some other), y =>
    forAllIndexes cs (Yaml.forHash f r other) (inlineDepth y + 1) y
  | .indexes is cs none, y => forIndexes is cs r (inlineDepth y + 1) y
  | .indexes is cs (some other), y =>
    forIndexes is cs (Yaml.forHash f r other) (inlineDepth y + 1) y

/-- `edit_hash_structure` for `Yaml`, src/yaml/mod.rs:219-304, with the impls of the other
node types inlined (each passes the call on to the value it contains). -/
def Yaml.editHash (f : List HashData → Str → Option Nat → Nat × List HashData) :
    YamlPath → Yaml → Nat × Yaml
  | .root _, y => (0, y)
  | .key k cs rest, y =>
    if y.fitsConditions cs then
      match y with
      | .hash data =>
        match rest with
        | some other =>
          match Yaml.keyIndex k (.hash data) with
          | some i =>
            match data[i]? with
            | some (.element ⟨key, ⟨a, v⟩⟩) =>
              let q := Yaml.editHash f other v
              (q.1, .hash (data.set i (.element ⟨key, ⟨a, q.2⟩⟩)))
            | _ => (0, y)
          | none => (0, y)
        | none =>
          let q := f data k (Yaml.keyIndex k (.hash data))
          (q.1, .hash q.2)
      | y => (0, y)
    else (0, y)
  | .indexes is cs (some other), y =>
    match y with
    | .inlineArray es =>
      let q := atInline cs (Yaml.editHash f other) is 0 es
      (q.1, .inlineArray q.2)
    | .array ds =>
      let q := atArray cs (Yaml.editHash f other) is 0 ds
      (q.1, .array q.2)
    | y => (0, y)
  | .allIndexes cs (some other), y =>
    match y with
    | .inlineArray es =>
      let q := overInline cs (Yaml.editHash f other) 0 es
      (q.1, .inlineArray q.2)
    | .array ds =>
      let q := overArray cs (Yaml.editHash f other) 0 ds
      (q.1, .array q.2)
    | y => (0, y)
  | .indexes _ _ none, y => (0, y)
  | .allIndexes _ none, y => (0, y)

/-- `find_values`, src/yaml/insert.rs:44-48: the result and the tree afterwards. -/
def Yaml.findValues (path : YamlPath) (y : Yaml) : List Yaml × Yaml :=
  y.forHash (fun e => ([e.value.value], e)) (fun h => ([h], h)) path

/-- The closure of `insert_into_hash`, src/yaml/insert.rs:54-72. -/
def insertClosure (h : AliasedYaml) (overwrite : Bool) (data : List HashData) (key : Str)
    (keyIndex : Option Nat) : Nat × List HashData :=
  match keyIndex with
  | none => (1, data ++ [.element ⟨key, h⟩])
  | some index => if overwrite then (1, data.set index (.element ⟨key, h⟩)) else (0, data)

/-- `insert_into_hash`, src/yaml/insert.rs:53-74 (`insert_into_hash_by_call`, 76-97, with a
call that returns `h`). -/
def Yaml.insertIntoHash (path : YamlPath) (h : AliasedYaml) (overwrite : Bool) (y : Yaml) :
    Nat × Yaml :=
  y.editHash (insertClosure h overwrite) path

/-- The closure of `remove_from_hash`, src/yaml/insert.rs:99-106. -/
def removeClosure (data : List HashData) (_key : Str) (keyIndex : Option Nat) :
    Nat × List HashData :=
  match keyIndex with
  | some index => (1, data.eraseIdx index)
  | none => (0, data)

/-- `remove_from_hash`, src/yaml/insert.rs:98-108. -/
def Yaml.removeFromHash (path : YamlPath) (y : Yaml) : Nat × Yaml :=
  y.editHash removeClosure path

/-- `rename_field`, src/yaml/insert.rs:109-116. -/
def Yaml.renameField (path : YamlPath) (newName : Str) (y : Yaml) : Nat × Yaml :=
  y.forHash (fun e => (1, { e with key := newName })) (fun h => (0, h)) path

/-- `to_object`, src/yaml/insert.rs:117-132. -/
def Yaml.toObject (path : YamlPath) (objectKey : Str) (y : Yaml) : Nat × Yaml :=
  y.forHash (fun e => (1, ⟨e.key, ⟨none, .hash [.element ⟨objectKey, e.value⟩]⟩⟩))
    (fun h => (0, h)) path

/-- `s.parse().unwrap()` for a path: src/yaml/insert.rs:149, 167, 171, 212, 219, 281, 286. -/
def parsePathUnwrap (s : Str) : Out YamlPath :=
  match YamlPath.parse s with
  | .ok p => .ok p
  | .oof => .oof
  | _ => .panic

/-- A fallible edit as a counted edit: the tree after a panic is irrelevant: the closures of src/yaml/insert.rs:139-183 and 195-303. -/
def countedEdit (y : Yaml) : Out (Nat × Yaml) → Out Nat × Yaml
  | .ok (n, y') => (.ok n, y')
  | .err => (.err, y)
  | .panic => (.panic, y)
  | .unmatched => (.unmatched, y)
  | .oof => (.oof, y)

/-- Replace the value of the first element with the given key (`key_value_mut`,
src/yaml/mod.rs:101-115). -/
def setKeyValue (key : Str) (v : AliasedYaml) : List HashData → List HashData
  | [] => []
  | .element e :: t =>
    if e.key = key then .element ⟨e.key, v⟩ :: t else .element e :: setKeyValue key v t
  | d :: t => d :: setKeyValue key v t

/-- The loop src/yaml/insert.rs:148-151. -/
def insertFields : List (Str × AliasedYaml) → Yaml → Out Yaml
  | [], y => .ok y
  | (key, value) :: t, y =>
    (parsePathUnwrap key).bind fun p => insertFields t (y.insertIntoHash p value true).2

/-- The loop src/yaml/insert.rs:170-172. -/
def removeFields : List Str → Yaml → Out Yaml
  | [], y => .ok y
  | key :: t, y => (parsePathUnwrap key).bind fun p => removeFields t (y.removeFromHash p).2

/-- The fields that exist, with their values: src/yaml/insert.rs:141-144. -/
def fieldsFound (y : Yaml) (fieldsToMove : List Str) : List (Str × AliasedYaml) :=
  fieldsToMove.filterMap fun key => (y.keyValue key).map fun v => (key, v)

/-- Put the fields into the subfield, which is created if it does not exist:
src/yaml/insert.rs:146-169. -/
def putIntoSubfield (subfield : Str) (fields : List (Str × AliasedYaml)) (data : List HashData) :
    Out Yaml :=
  match keyValueIn subfield data with
  | some sub =>
    (insertFields fields sub.value).bind fun v =>
      .ok (.hash (setKeyValue subfield ⟨sub.alias, v⟩ data))
  | none =>
    (parsePathUnwrap subfield).bind fun p =>
      .ok (Yaml.insertIntoHash p
        ⟨none, .hash (fields.map fun kv => .element ⟨kv.1, kv.2⟩)⟩ false (.hash data)).2

/-- The closure `r` of `move_to_subfield`, src/yaml/insert.rs:139-179. -/
def moveToSubfieldAt (subfield : Str) (fieldsToMove : List Str) (y : Yaml) : Out (Nat × Yaml) :=
  match y with
  | .hash data =>
    let fields := fieldsFound (.hash data) fieldsToMove
    if fields.isEmpty then .ok (0, y)
    else
      (putIntoSubfield subfield fields data).bind fun y' =>
        (removeFields (fields.map Prod.fst) y').bind fun y'' => .ok (1, y'')
  | _ => .ok (0, y)

/-- The closures `f` of `move_to_subfield` (src/yaml/insert.rs:180-183) and
`move_to_map_with_field_as_key` (300-303): apply `r` to the value of the element. -/
def onElementValue {A : Type} (r : Yaml → A × Yaml) (e : HashElement) : A × HashElement :=
  let q := r e.value.value
  (q.1, ⟨e.key, ⟨e.value.alias, q.2⟩⟩)

/-- `move_to_subfield`, src/yaml/insert.rs:133-186. -/
def Yaml.moveToSubfield (path : YamlPath) (subfield : Str) (fieldsToMove : List Str)
    (y : Yaml) : Out Nat × Yaml :=
  let r := fun h => countedEdit h (moveToSubfieldAt subfield fieldsToMove h)
  y.forHash (onElementValue r) r path

/-- Byte-wise order of Rust strings (the order of UTF-8 is the order of code points): the order of the `BTreeMap` of src/yaml/insert.rs:199. -/
def strLt : Str → Str → Bool
  | _, [] => false
  | [], _ :: _ => true
  | a :: s, b :: t => a.toNat < b.toNat || (a == b && strLt s t)

/-- A `BTreeMap<String, Vec<HashData>>` as a list sorted by key: src/yaml/insert.rs:199. -/
abbrev GroupMap := List (Str × List HashData)

/-- Append to the entry of a key, or insert it in key order: src/yaml/insert.rs:227-237. -/
def GroupMap.extend (k : Str) (items : List HashData) : GroupMap → GroupMap
  | [] => [(k, items)]
  | (k', l) :: t =>
    if k = k' then (k', l ++ items) :: t
    else if strLt k k' then (k, items) :: (k', l) :: t
    else (k', l) :: GroupMap.extend k items t

/-- Loop variables of src/yaml/insert.rs:199-202. -/
structure MoveState where
  newHashes : GroupMap
  oldHashes : List HashData
  comments : List HashData
  lastAddedTo : Option Str

/-- The loop body src/yaml/insert.rs:204-256. -/
def moveToMapStep (selector : Str) (keeps : List Str) (st : MoveState) (d : HashData) :
    Out MoveState :=
  match d with
  | .element e =>
    match (e.value.value.keyValue selector).bind fun key => key.value.asString with
    | some s =>
      (parsePathUnwrap selector).bind fun p =>
        let d' := HashData.element ⟨e.key, ⟨e.value.alias, (e.value.value.removeFromHash p).2⟩⟩
        if keeps.contains s || s.isEmpty then
          .ok { st with oldHashes := st.oldHashes ++ st.comments ++ [d'], comments := [],
                        lastAddedTo := none }
        else
          .ok { st with newHashes := st.newHashes.extend s (st.comments ++ [d']),
                        comments := [], lastAddedTo := some s }
    | none =>
      .ok { st with oldHashes := st.oldHashes ++ st.comments ++ [d], comments := [],
                    lastAddedTo := none }
  | c => .ok { st with comments := st.comments ++ [c] }

/-- The loop src/yaml/insert.rs:203-257. -/
def moveToMapLoop (selector : Str) (keeps : List Str) : List HashData → MoveState → Out MoveState
  | [], st => .ok st
  | d :: t, st => (moveToMapStep selector keeps st d).bind (moveToMapLoop selector keeps t)

/-- src/yaml/insert.rs:258-262. -/
def moveToMapFinish (st : MoveState) : GroupMap × List HashData :=
  match st.lastAddedTo with
  | some s => (st.newHashes.extend s st.comments, st.oldHashes)
  | none => (st.newHashes, st.oldHashes ++ st.comments)

/-- The closure `r` of `move_to_map_with_field_as_key`, src/yaml/insert.rs:195-299. -/
def moveToMapAt (oldMapName selector newMapName : Str) (keeps : List Str) (y : Yaml) :
    Out (Nat × Yaml) :=
  match y with
  | .hash _ =>
    match y.keyValue oldMapName with
    | some ⟨alias, .hash hashData⟩ =>
      (moveToMapLoop selector keeps hashData ⟨[], [], [], none⟩).bind fun st =>
        let q := moveToMapFinish st
        if q.1.isEmpty then .ok (0, y)
        else
          let new : AliasedYaml :=
            ⟨alias, .hash (q.1.map fun kv => .element ⟨kv.1, ⟨none, .hash kv.2⟩⟩)⟩
          let old : AliasedYaml := ⟨alias, .hash q.2⟩
          (parsePathUnwrap newMapName).bind fun pn =>
            let y1 := (y.insertIntoHash pn new false).2
            (parsePathUnwrap oldMapName).bind fun po =>
              .ok (1, (y1.insertIntoHash po old true).2)
    | _ => .ok (0, y)
  | _ => .ok (0, y)

/-- `move_to_map_with_field_as_key`, src/yaml/insert.rs:187-306. -/
def Yaml.moveToMap (path : YamlPath) (oldMapName selector newMapName : Str) (keeps : List Str)
    (y : Yaml) : Out Nat × Yaml :=
  let r := fun h => countedEdit h (moveToMapAt oldMapName selector newMapName keeps h)
  y.forHash (onElementValue r) r path

/-- The loops of `Document`, src/yaml/document.rs:50-72, and the impls for `DocumentData`,
13-33: apply an edit to every YAML item and add up the results. -/
def Document.overItems {A : Type} [Additive A] (g : Yaml → A × Yaml) (d : Document) :
    A × Document :=
  let rec go : A → List DocumentData → A × List DocumentData
    | c, [] => (c, [])
    | c, .comment s :: t => let q := go (Additive.add c Additive.zero) t; (q.1, .comment s :: q.2)
    | c, .yaml y :: t =>
      let r := g y
      let q := go (Additive.add c r.1) t
      (q.1, .yaml r.2 :: q.2)
  let q := go Additive.zero d.items
  (q.1, { d with items := q.2 })

/-- `Document::find_values`: src/yaml/insert.rs:44-48 with document.rs:61-72. -/
def Document.findValues (path : YamlPath) (d : Document) : List Yaml × Document :=
  d.overItems (Yaml.findValues path)
/-- `Document::insert_into_hash`: src/yaml/insert.rs:53-74 with document.rs:51-60. -/
def Document.insertIntoHash (path : YamlPath) (h : AliasedYaml) (overwrite : Bool)
    (d : Document) : Nat × Document :=
  d.overItems (Yaml.insertIntoHash path h overwrite)
/-- `Document::remove_from_hash`: src/yaml/insert.rs:98-108 with document.rs:51-60. -/
def Document.removeFromHash (path : YamlPath) (d : Document) : Nat × Document :=
  d.overItems (Yaml.removeFromHash path)
/-- `Document::rename_field`: src/yaml/insert.rs:109-116 with document.rs:61-72. -/
def Document.renameField (path : YamlPath) (newName : Str) (d : Document) : Nat × Document :=
  d.overItems (Yaml.renameField path newName)
/-- `Document::to_object`: src/yaml/insert.rs:117-132 with document.rs:61-72. -/
def Document.toObject (path : YamlPath) (objectKey : Str) (d : Document) : Nat × Document :=
  d.overItems (Yaml.toObject path objectKey)
/-- `Document::move_to_subfield`: src/yaml/insert.rs:133-186 with document.rs:61-72. -/
def Document.moveToSubfield (path : YamlPath) (subfield : Str) (fields : List Str)
    (d : Document) : Out Nat × Document :=
  d.overItems (Yaml.moveToSubfield path subfield fields)
/-- `Document::move_to_map_with_field_as_key`: src/yaml/insert.rs:187-306 with document.rs:61-72. -/
def Document.moveToMap (path : YamlPath) (oldMapName selector newMapName : Str)
    (keeps : List Str) (d : Document) : Out Nat × Document :=
  d.overItems (Yaml.moveToMap path oldMapName selector newMapName keeps)

end YamlSubset
