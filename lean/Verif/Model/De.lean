import Verif.Model.Ser
import Verif.Model.Consume

/-! # Deserialization (`src/yaml/deserializer.rs`)

A Rust type that implements `Deserialize` is represented by a `Ty`, which says what its
(derived or standard) `Deserialize` impl asks of the deserializer. The part of serde that
drives the deserializer (visitors of the standard types and of derived structs and enums) is
modelled along with the deserializer itself. -/

namespace YamlSubset

/-- The integer types of Rust (`isize`/`usize` are `i64`/`u64` on 64-bit targets):
the types of src/yaml/deserializer.rs:219-255, and `i128` and `u128`, which have no method there. -/
inductive IntTy where
  | i8 | i16 | i32 | i64 | i128 | u8 | u16 | u32 | u64 | u128
  deriving DecidableEq, Repr

/-- Smallest value of an integer type: the visitors that src/yaml/deserializer.rs:228-256 hands an integer to check it. -/
def IntTy.min : IntTy → Int
  | .i8 => -2 ^ 7
  | .i16 => -2 ^ 15
  | .i32 => -2 ^ 31
  | .i64 => -2 ^ 63
  | .i128 => -2 ^ 127
  | _ => 0

/-- Largest value of an integer type: the visitors that src/yaml/deserializer.rs:228-256 hands an integer to check it. -/
def IntTy.max : IntTy → Int
  | .i8 => 2 ^ 7 - 1
  | .i16 => 2 ^ 15 - 1
  | .i32 => 2 ^ 31 - 1
  | .i64 => 2 ^ 63 - 1
  | .i128 => 2 ^ 127 - 1
  | .u8 => 2 ^ 8 - 1
  | .u16 => 2 ^ 16 - 1
  | .u32 => 2 ^ 32 - 1
  | .u64 => 2 ^ 64 - 1
  | .u128 => 2 ^ 128 - 1

mutual
/-- Types of deserialized values: what `T: Deserialize` asks of src/yaml/deserializer.rs:140-429. -/
inductive Ty where
  | bool
  | int (k : IntTy)
  | float
  | char
  | str
  /-- a byte buffer read with `deserialize_bytes` whose visitor accepts a sequence of `u8` -/
  | bytes
  /-- `()` and unit structs -/
  | unit
  | option (t : Ty)
  | newtype (t : Ty)
  | seq (t : Ty)
  /-- tuples and tuple structs -/
  | tuple (ts : List Ty)
  | map (k v : Ty)
  /-- a struct with a derived impl and no serde attributes -/
  | struct (fs : List (Str × Ty))
  /-- an externally tagged enum with a derived impl and no serde attributes -/
  | enum (vs : List (Str × Variant))
  /-- a self-describing value with string keys, such as `serde_json::Value` -/
  | any
  /-- `serde::de::IgnoredAny` -/
  | ignored
  /-- the type with this number in the environment; for recursive types -/
  | ref (n : Nat)
/-- Enum variants: what the visitor asks of src/yaml/deserializer.rs:529-558. -/
inductive Variant where
  | unit
  | newtype (t : Ty)
  | tuple (ts : List Ty)
  | struct (fs : List (Str × Ty))
end

/-- The map from anchor names to values (`Anchors`, src/yaml/deserializer.rs:54), latest
insertion first, so that the first entry with a name is the current one. -/
abbrev Anchors := List (Str × Yaml)

/-- `register`, src/yaml/deserializer.rs:56-60. -/
def register (σ : Anchors) (a : AliasedYaml) : Anchors :=
  match a.alias with
  | some name => (name, a.value) :: σ
  | none => σ

/-- `resolve`, src/yaml/deserializer.rs:62-68. -/
def resolve (σ : Anchors) (name : Str) : Option Yaml := σ.lookup name

/-- `hash_entries`, src/yaml/deserializer.rs:70-80: the entries and the anchors registered on
the way. -/
def hashEntries (σ : Anchors) : List HashData → List (Str × Yaml) × Anchors
  | [] => ([], σ)
  | .element e :: t =>
    let r := hashEntries (register σ e.value) t
    ((e.key, e.value.value) :: r.1, r.2)
  | .inlineComment _ :: t => hashEntries σ t
  | .comment _ :: t => hashEntries σ t

/-- `seq_values`, src/yaml/deserializer.rs:82-93. -/
def seqValues (σ : Anchors) : List ArrayData → List Yaml × Anchors
  | [] => ([], σ)
  | .element e :: t =>
    let r := seqValues (register σ e) t
    (e.value :: r.1, r.2)
  | .inlineComment _ :: t => seqValues σ t
  | .comment _ :: t => seqValues σ t

/-- `into_resolved`, src/yaml/deserializer.rs:95-103. Only one step is taken: the result can
be a reference again. -/
def intoResolved (σ : Anchors) : Yaml → Option Yaml
  | .anchor name => resolve σ name
  | y => some y

/-- The sequences, src/yaml/deserializer.rs:186-190 and 323-327. -/
def asSeq (σ : Anchors) : Yaml → Option (List Yaml × Anchors)
  | .array ds => some (seqValues σ ds)
  | .inlineArray es => some (es, σ)
  | _ => none

/-- The maps, src/yaml/deserializer.rs:191-195, 352-356. -/
def asMap (σ : Anchors) : Yaml → Option (List (Str × Yaml) × Anchors)
  | .hash ds => some (hashEntries σ ds)
  | .inlineHash es => some (es, σ)
  | _ => none

/-- The null words, src/yaml/deserializer.rs:148, 294. -/
def isNullWord (s : Str) : Bool :=
  s == c!"~" || s == c!"null" || s == c!"Null" || s == c!"NULL"

/-- Words read as `true`, src/yaml/deserializer.rs:207. -/
def trueWords : List Str :=
  [c!"true", c!"True", c!"TRUE", c!"yes", c!"Yes", c!"YES", c!"on", c!"On", c!"ON"]

/-- Words read as `false`, src/yaml/deserializer.rs:210. -/
def falseWords : List Str :=
  [c!"false", c!"False", c!"FALSE", c!"no", c!"No", c!"NO", c!"off", c!"Off", c!"OFF"]

/-- The typed reading of a boolean, src/yaml/deserializer.rs:205-216. -/
def deBool : Yaml → Out SVal
  | .unquotedString s =>
    if s ∈ trueWords then .ok (.bool true)
    else if s ∈ falseWords then .ok (.bool false)
    else .err
  | _ => .err

/-- The text of an integer, src/yaml/deserializer.rs:219-256: signed types read an `i64`,
unsigned ones a `u64`; `i128` and `u128` are not implemented, serde's default reports an
error. -/
def parseInt (k : IntTy) (s : Str) : Option Int :=
  match k with
  | .i8 | .i16 | .i32 | .i64 => parseI64 s
  | .u8 | .u16 | .u32 | .u64 => (parseU64 s).map fun n => (n : Int)
  | .i128 | .u128 => none

/-- The typed reading of an integer, with the range check of the visitor (serde): src/yaml/deserializer.rs:219-256. -/
def deInt (k : IntTy) (y : Yaml) : Out SVal :=
  match y.asString with
  | some s =>
    match parseInt k s with
    | some i => if k.min ≤ i ∧ i ≤ k.max then .ok (.int i) else .err
    | none => .err
  | none => .err

/-- The self-describing reading of a plain scalar, src/yaml/deserializer.rs:146-171. -/
def deAnyPlain (s : Str) : SVal :=
  if isNullWord s then .unit
  else if s = c!"true" then .bool true
  else if s = c!"false" then .bool false
  else match parseI64 s with
    | some i => .int i
    | none =>
      match parseU64 s with
      | some n => .int n
      | none => if isF64 s then .float s else .str s

/-- Result of deserializing with a given anchor map: a value and the anchor map afterwards:
`Result<V::Value, _>` in src/yaml/deserializer.rs:140-429, with the map shared through `Rc<RefCell<..>>`, line 54. -/
abbrev DeOut := Out (SVal × Anchors)

/-- A deserialization step for a type: `T::deserialize` on the deserializer of src/yaml/deserializer.rs:107-120. -/
abbrev DeFn := Yaml → Anchors → DeOut

/-- `Vec`'s visitor, with `VecSeqAccess::next_element_seed`,
src/yaml/deserializer.rs:444-456. -/
def deElems (f : DeFn) : List Yaml → Anchors → Out (List SVal × Anchors)
  | [], σ => .ok ([], σ)
  | y :: t, σ =>
    (f y σ).bind fun r => (deElems f t r.2).bind fun q => .ok (r.1 :: q.1, q.2)

/-- The tuple visitors: one element for each component type; a missing element is an error,
further elements are not looked at (`visit_seq` returns without reading them): calls src/yaml/deserializer.rs:447-455 once for each component. -/
def deTuple (f : Ty → DeFn) : List Ty → List Yaml → Anchors → Out (List SVal × Anchors)
  | [], _, σ => .ok ([], σ)
  | _ :: _, [], _ => .err
  | t :: ts, y :: ys, σ =>
    (f t y σ).bind fun r => (deTuple f ts ys r.2).bind fun q => .ok (r.1 :: q.1, q.2)

/-- `VecMapAccess`, src/yaml/deserializer.rs:460-464 (the anchor map is passed separately). -/
structure MapAccess where
  iter : List (Str × Yaml)
  pending : Option Yaml

/-- `next_key_seed`, src/yaml/deserializer.rs:479-491: the key is presented as a plain scalar. -/
def MapAccess.nextKey (f : DeFn) (m : MapAccess) (σ : Anchors) :
    Out (Option SVal × MapAccess × Anchors) :=
  match m.iter with
  | [] => .ok (none, m, σ)
  | (k, v) :: t => (f (.unquotedString k) σ).bind fun r => .ok (some r.1, ⟨t, some v⟩, r.2)

/-- `next_key_seed` with a field identifier, which is read with `deserialize_identifier`
(src/yaml/deserializer.rs:422-424) and is the key itself. -/
def MapAccess.nextName (m : MapAccess) : Option Str × MapAccess :=
  match m.iter with
  | [] => (none, m)
  | (k, v) :: t => (some k, ⟨t, some v⟩)

/-- `next_value_seed`, src/yaml/deserializer.rs:493-502, with the panic of `expect`. -/
def MapAccess.nextValue (f : DeFn) (m : MapAccess) (σ : Anchors) :
    Out (SVal × MapAccess × Anchors) :=
  match m.pending with
  | none => .panic
  | some v => (f v σ).bind fun r => .ok (r.1, { m with pending := none }, r.2)

/-- The loop of map visitors: key, value, key, value, ... The result lists the entries in
document order; which of several entries with the same key a Rust map keeps is not
modelled: calls src/yaml/deserializer.rs:479-502. -/
def mapLoop (fk fv : DeFn) : Nat → MapAccess → Anchors → Out (List (SVal × SVal) × Anchors)
  | 0, _, _ => .oof
  | n + 1, m, σ =>
    (m.nextKey fk σ).bind fun
      | (none, _, σ) => .ok ([], σ)
      | (some k, m, σ) =>
        (m.nextValue fv σ).bind fun (v, m, σ) =>
          (mapLoop fk fv n m σ).bind fun q => .ok ((k, v) :: q.1, q.2)

/-- Map visitors: each round takes one entry, so one round more than there are entries is
enough: started by src/yaml/deserializer.rs:352-356. -/
def deEntries (fk fv : DeFn) (es : List (Str × Yaml)) (σ : Anchors) :
    Out (List (SVal × SVal) × Anchors) :=
  mapLoop fk fv (es.length + 1) ⟨es, none⟩ σ

/-- `IgnoredAny`, src/yaml/deserializer.rs:426-428. -/
def deIgnored : DeFn := fun _ σ => .ok (.unit, σ)

/-- The loop of a derived struct visitor: known fields are read once, a second occurrence is an
error, unknown ones are skipped. The fields read so far are in `acc`: calls src/yaml/deserializer.rs:479-502. -/
def structLoop (f : Ty → DeFn) (fs : List (Str × Ty)) :
    Nat → MapAccess → List (Str × SVal) → Anchors → Out (List (Str × SVal) × Anchors)
  | 0, _, _, _ => .oof
  | n + 1, m, acc, σ =>
    match m.nextName with
    | (none, _) => .ok (acc, σ)
    | (some k, m) =>
      match fs.lookup k with
      | none => (m.nextValue deIgnored σ).bind fun r => structLoop f fs n r.2.1 acc r.2.2
      | some ty =>
        if (acc.lookup k).isSome then .err
        else (m.nextValue (f ty) σ).bind fun r =>
          structLoop f fs n r.2.1 ((k, r.1) :: acc) r.2.2

/-- Derived struct visitors up to the end of the map: started by src/yaml/deserializer.rs:361-368. -/
def deFields (f : Ty → DeFn) (fs : List (Str × Ty)) (es : List (Str × Yaml)) (σ : Anchors) :
    Out (List (Str × SVal) × Anchors) :=
  structLoop f fs (es.length + 1) ⟨es, none⟩ [] σ

/-- Is this a type whose absent field reads as `None` (serde's `missing_field`)?: serde derive, on top of src/yaml/deserializer.rs:361-368. -/
def isOption (Γ : Nat → Ty) : Ty → Bool
  | .option _ => true
  | .ref n => match Γ n with
    | .option _ => true
    | _ => false
  | _ => false

/-- The end of a derived struct visitor: fields in declaration order: serde derive, on top of src/yaml/deserializer.rs:361-368. -/
def collectFields (Γ : Nat → Ty) (acc : List (Str × SVal)) :
    List (Str × Ty) → Out (List (Str × SVal))
  | [] => .ok []
  | (k, ty) :: t =>
    match acc.lookup k with
    | some v => (collectFields Γ acc t).bind fun q => .ok ((k, v) :: q)
    | none =>
      if isOption Γ ty then (collectFields Γ acc t).bind fun q => .ok ((k, .none) :: q)
      else .err

/-- `deserialize_struct`, src/yaml/deserializer.rs:349-368, with a derived struct visitor. -/
def deStruct (Γ : Nat → Ty) (f : Ty → DeFn) (fs : List (Str × Ty)) (y : Yaml) (σ : Anchors) :
    Out (List (Str × SVal) × Anchors) :=
  match intoResolved σ y with
  | none => .err
  | some y =>
    match asMap σ y with
    | none => .err
    | some (es, σ) =>
      (deFields f fs es σ).bind fun r => (collectFields Γ r.1 fs).bind fun q => .ok (q, r.2)

/-- `deserialize_tuple`, src/yaml/deserializer.rs:320-347. -/
def deTupleNode (f : Ty → DeFn) (ts : List Ty) (y : Yaml) (σ : Anchors) :
    Out (List SVal × Anchors) :=
  match intoResolved σ y with
  | none => .err
  | some y =>
    match asSeq σ y with
    | none => .err
    | some (ys, σ) => deTuple f ts ys σ

/-- The name and content of an enum value, src/yaml/deserializer.rs:377-419, with the panic of
`remove`. -/
def enumParts (σ : Anchors) (y : Yaml) : Out (Str × Yaml × Anchors) :=
  match y.asString with
  | some s => .ok (s, .unquotedString ['~'], σ)
  | none =>
    match asMap σ y with
    | some (es, σ) =>
      if es.length = 1 then
        match es with
        | [] => .panic
        | (k, v) :: _ => .ok (k, v, σ)
      else .err
    | none => .err

/-- The derived enum visitor, with src/yaml/deserializer.rs:513-558. An unknown variant name is
an error. -/
def deVariant (Γ : Nat → Ty) (f : Ty → DeFn) (name : Str) (v : Variant) (y : Yaml)
    (σ : Anchors) : DeOut :=
  match v with
  | .unit => .ok (.unitVariant name, σ)
  | .newtype t => (f t y σ).bind fun r => .ok (.newtypeVariant name r.1, r.2)
  | .tuple ts => (deTupleNode f ts y σ).bind fun r => .ok (.tupleVariant name r.1, r.2)
  | .struct fs => (deStruct Γ f fs y σ).bind fun r => .ok (.structVariant name r.1, r.2)

/-- `T::deserialize` with a `YamlDeserializer`, src/yaml/deserializer.rs:140-429. `Γ` gives the
meaning of type references; the fuel bounds the depth of nested calls. -/
def de (Γ : Nat → Ty) : Nat → Ty → DeFn
  | 0, _, _, _ => .oof
  | n + 1, ty, y, σ =>
    match ty with
    -- 203-217
    | .bool => match intoResolved σ y with
      | some y => (deBool y).bind fun v => .ok (v, σ)
      | none => .err
    -- 219-256
    | .int k => match intoResolved σ y with
      | some y => (deInt k y).bind fun v => .ok (v, σ)
      | none => .err
    -- 257-269
    | .float => match intoResolved σ y with
      | some y => match y.asString with
        | some s => if isF64 s then .ok (.float s, σ) else .err
        | none => .err
      | none => .err
    -- 270-272: the visitor of `char` wants exactly one character
    | .char => match intoResolved σ y with
      | some y => match y.asString with
        | some [c] => .ok (.char c, σ)
        | _ => .err
      | none => .err
    -- 273-283
    | .str => match intoResolved σ y with
      | some y => match y.asString with
        | some s => .ok (.str s, σ)
        | none => .err
      | none => .err
    -- 284-289
    | .bytes => match intoResolved σ y with
      | some y => match asSeq σ y with
        | some (ys, σ) => (deElems (de Γ n (.int .u8)) ys σ).bind fun r =>
            .ok (.bytes (r.1.map fun
              | .int i => i.toNat
              | _ => 0), r.2)
        | none => .err
      | none => .err
    -- 291-299
    | .option t => match intoResolved σ y with
      | some (.unquotedString s) =>
        if isNullWord s then .ok (.none, σ)
        else (de Γ n t (.unquotedString s) σ).bind fun r => .ok (.some r.1, r.2)
      | some y => (de Γ n t y σ).bind fun r => .ok (.some r.1, r.2)
      | none => .err
    -- 301-310
    | .unit => .ok (.unit, σ)
    -- 312-318
    | .newtype t => (de Γ n t y σ).bind fun r => .ok (.newtype r.1, r.2)
    -- 320-330
    | .seq t => match intoResolved σ y with
      | some y => match asSeq σ y with
        | some (ys, σ) => (deElems (de Γ n t) ys σ).bind fun r => .ok (.seq r.1, r.2)
        | none => .err
      | none => .err
    -- 332-347
    | .tuple ts => (deTupleNode (de Γ n) ts y σ).bind fun r => .ok (.tuple r.1, r.2)
    -- 349-359
    | .map k v => match intoResolved σ y with
      | some y => match asMap σ y with
        | some (es, σ) =>
          (deEntries (de Γ n k) (de Γ n v) es σ).bind fun r => .ok (.map r.1, r.2)
        | none => .err
      | none => .err
    -- 361-368
    | .struct fs => (deStruct Γ (de Γ n) fs y σ).bind fun r => .ok (.struct r.1, r.2)
    -- 370-420
    | .enum vs => match intoResolved σ y with
      | some y => (enumParts σ y).bind fun p =>
        match vs.lookup p.1 with
        | some v => deVariant Γ (de Γ n) p.1 v p.2.1 p.2.2
        | none => .err
      | none => .err
    -- 143-201
    | .any => match y with
      | .unquotedString s => .ok (deAnyPlain s, σ)
      | .anchor name => match resolve σ name with
        | some y => de Γ n .any y σ
        | none => .err
      | y => match y.asString with
        | some s => .ok (.str s, σ)
        | none => match asSeq σ y with
          | some (ys, σ) => (deElems (de Γ n .any) ys σ).bind fun r => .ok (.seq r.1, r.2)
          | none => match asMap σ y with
            | some (es, σ) =>
              (deEntries (de Γ n .str) (de Γ n .any) es σ).bind fun r => .ok (.map r.1, r.2)
            | none => .err
    -- 426-428
    | .ignored => deIgnored y σ
    | .ref m => de Γ n (Γ m) y σ

/-- `from_yaml`, src/yaml/deserializer.rs:122-124. -/
def fromYaml (Γ : Nat → Ty) (fuel : Nat) (ty : Ty) (y : Yaml) : Out SVal :=
  (de Γ fuel ty y []).bind fun r => .ok r.1

/-- `from_yaml_str`, src/yaml/deserializer.rs:126-138. -/
def fromYamlStr (T : CharTables) (Γ : Nat → Ty) (fuel : Nat) (ty : Ty) (s : Str) : Out SVal :=
  (parseYamlFile T s).bind fun doc =>
    match doc.items.findSome? fun
      | .yaml y => some y
      | .comment _ => none with
    | some y => fromYaml Γ fuel ty y
    | none => .err

end YamlSubset
