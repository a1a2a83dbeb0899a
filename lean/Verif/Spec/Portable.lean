import Verif.Spec.Readable
import Verif.Spec.Typed

/-! # Specification: values that survive a trip through text

Nothing here refers to the serializer, the formatter or the parser. -/

namespace YamlSubset.Spec

mutual
/-- The tree with empty block collections replaced by empty flow collections; both are written `{}` or `[]`. -/
def flowEmpty : Yaml → Yaml
  | .inlineHash es => .inlineHash (flowEmptyEntries es)
  | .hash [] => .inlineHash []
  | .hash (d :: ds) => .hash (flowEmptyHash (d :: ds))
  | .inlineArray es => .inlineArray (flowEmptyYamls es)
  | .array [] => .inlineArray []
  | .array (d :: ds) => .array (flowEmptyArray (d :: ds))
  | .singleQuotedString ps => .singleQuotedString ps
  | .doubleQuotedString ps => .doubleQuotedString ps
  | .unquotedString s => .unquotedString s
  | .foldedString ls c => .foldedString ls c
  | .literalString ls c => .literalString ls c
  | .anchor a => .anchor a
def flowEmptyEntries : List (Str × Yaml) → List (Str × Yaml)
  | [] => []
  | (k, v) :: t => (k, flowEmpty v) :: flowEmptyEntries t
def flowEmptyHash : List HashData → List HashData
  | [] => []
  | .element ⟨k, ⟨a, v⟩⟩ :: t => .element ⟨k, ⟨a, flowEmpty v⟩⟩ :: flowEmptyHash t
  | .comment c :: t => .comment c :: flowEmptyHash t
  | .inlineComment c :: t => .inlineComment c :: flowEmptyHash t
def flowEmptyYamls : List Yaml → List Yaml
  | [] => []
  | v :: t => flowEmpty v :: flowEmptyYamls t
def flowEmptyArray : List ArrayData → List ArrayData
  | [] => []
  | .element ⟨a, v⟩ :: t => .element ⟨a, flowEmpty v⟩ :: flowEmptyArray t
  | .comment c :: t => .comment c :: flowEmptyArray t
  | .inlineComment c :: t => .inlineComment c :: flowEmptyArray t
end

/-- The document with empty block collections replaced by empty flow collections. -/
def flowEmptyDocument (d : Document) : Document :=
  ⟨d.leadingComments, d.items.map fun
    | .yaml y => .yaml (flowEmpty y)
    | .comment c => .comment c⟩

/-- Where a value is: the value of a map entry or a struct field, an element of a sequence, or inside a tuple (which is
written in flow style). -/
inductive Spot where
  | field | element | flow
  deriving DecidableEq

/-- Texts with one of these characters are always written in quotes. -/
def quotingChars : List Char := [',', '[', ']', '{', '}', '"', '>', '|', '#', '\n', '\r']

/-- A text that is not mistaken for something else when it is written without quotes. -/
structure SafePlain (T : CharTables) (spot : Spot) (s : Str) : Prop where
  /-- no other space than the ASCII one (with which the text would be quoted) at the start -/
  space : ∀ c, s.head? = some c → isSpaceSeparator c = true → c = ' '
  /-- not a reference or an anchor -/
  notMark : ∀ c d t, s = c :: d :: t → c = '&' ∨ c = '*' → ¬ NameChar T d
  /-- not a sequence entry -/
  notDash : ∀ t, s = '-' :: t → ¬ BlankStart t
  /-- not a mapping entry -/
  notKey : ∀ c k t, s = (c :: k) ++ ':' :: t → NameChar T c → (∀ d ∈ k, KeyChar T d) → ¬ BlankStart t
  /-- no colon at the end in flow style -/
  colon : spot = .flow → s.getLast? ≠ some ':'

/-- A text that is always written in quotes (there are others, such as numbers): it has one of the characters above, or a colon
followed by a space, or a space at its end. -/
def AlwaysQuoted (s : Str) : Prop := (∃ c ∈ s, c ∈ quotingChars) ∨ (∃ a b, s = a ++ ':' :: ' ' :: b) ∨ s.getLast? = some ' '

/-- A text that survives. -/
def PortableText (T : CharTables) (spot : Spot) (s : Str) : Prop := AlwaysQuoted s ∨ SafePlain T spot s

/-- A value that survives at a spot: its texts are portable, the texts of its keys are valid keys, no sequence with exactly
one element is an element of a sequence, and sequences and maps inside tuples are empty. -/
inductive Portable (T : CharTables) : Spot → SVal → Prop
  | bool {spot} (b) : Portable T spot (.bool b)
  | int {spot} (i) : Portable T spot (.int i)
  | float {spot t} (h : isF64 t = true) : Portable T spot (.float t)
  | char {spot c} (h : PortableText T spot [c]) : Portable T spot (.char c)
  | str {spot s} (h : PortableText T spot s) : Portable T spot (.str s)
  | unit {spot} : Portable T spot .unit
  | none {spot} : Portable T spot .none
  | some {spot v} (h : Portable T spot v) : Portable T spot (.some v)
  | newtype {spot v} (h : Portable T spot v) : Portable T spot (.newtype v)
  | unitVariant {spot name} (h : PortableText T spot name) : Portable T spot (.unitVariant name)
  | tuple {spot vs} (h : ∀ v ∈ vs, Portable T .flow v) : Portable T spot (.tuple vs)
  | bytes {spot bs} (hf : spot = .flow → bs = []) (he : spot = .element → bs.length ≠ 1) : Portable T spot (.bytes bs)
  | seq {spot vs} (hf : spot = .flow → vs = []) (he : spot = .element → vs.length ≠ 1) (h : ∀ v ∈ vs, Portable T .element v) :
      Portable T spot (.seq vs)
  | map {spot es} (hf : spot = .flow → es = []) (hk : ∀ k v s, (k, v) ∈ es → KeyString k s → KeyText T s)
      (h : ∀ k v, (k, v) ∈ es → Portable T .field v) : Portable T spot (.map es)
  | struct {spot fs} (hf : spot = .flow → fs = []) (hk : ∀ k v, (k, v) ∈ fs → KeyText T k)
      (h : ∀ k v, (k, v) ∈ fs → Portable T .field v) : Portable T spot (.struct fs)

/-- A value that can be the root of a document: a sequence, map or struct that is not empty. -/
inductive PortableRoot (T : CharTables) : SVal → Prop
  | some {v} (h : PortableRoot T v) : PortableRoot T (.some v)
  | newtype {v} (h : PortableRoot T v) : PortableRoot T (.newtype v)
  | bytes {bs} (h : bs ≠ []) : PortableRoot T (.bytes bs)
  | seq {vs} (h : vs ≠ []) (hv : Portable T .field (.seq vs)) : PortableRoot T (.seq vs)
  | map {es} (h : es ≠ []) (hv : Portable T .field (.map es)) : PortableRoot T (.map es)
  | struct {fs} (h : fs ≠ []) (hv : Portable T .field (.struct fs)) : PortableRoot T (.struct fs)

end YamlSubset.Spec
