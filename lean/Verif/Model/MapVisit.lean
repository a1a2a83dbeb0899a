import Verif.Model.Ast

/-! # `map_yaml` and `visit_yaml` (src/yaml/mod.rs:491-551 and the impls of the node types)

The `FnMut` argument is a state-passing function. -/

namespace YamlSubset

mutual
/-- `MapYaml for Yaml`, src/yaml/mod.rs:501-514. -/
def Yaml.mapYaml {σ : Type} (f : Yaml → σ → Yaml × σ) : Yaml → σ → Yaml × σ
  | .hash data, st => let r := mapHashData f data st; f (.hash r.1) r.2
  | .inlineHash data, st => let r := mapEntries f data st; f (.inlineHash r.1) r.2
  | .array data, st => let r := mapArrayData f data st; f (.array r.1) r.2
  | .inlineArray data, st => let r := mapYamls f data st; f (.inlineArray r.1) r.2
  | .singleQuotedString ps, st => f (.singleQuotedString ps) st
  | .doubleQuotedString ps, st => f (.doubleQuotedString ps) st
  | .unquotedString s, st => f (.unquotedString s) st
  | .foldedString ls c, st => f (.foldedString ls c) st
  | .literalString ls c, st => f (.literalString ls c) st
  | .anchor a, st => f (.anchor a) st
/-- `Vec<HashData>::map_yaml`, src/yaml/mod.rs:495-499, hash_data.rs:44-51,
hash_element.rs:46-50, aliased.rs:73-77. -/
def mapHashData {σ : Type} (f : Yaml → σ → Yaml × σ) : List HashData → σ → List HashData × σ
  | [], st => ([], st)
  | .element ⟨k, ⟨a, v⟩⟩ :: t, st =>
    let r := Yaml.mapYaml f v st
    let q := mapHashData f t r.2
    (.element ⟨k, ⟨a, r.1⟩⟩ :: q.1, q.2)
  | .comment c :: t, st => let q := mapHashData f t st; (.comment c :: q.1, q.2)
  | .inlineComment c :: t, st => let q := mapHashData f t st; (.inlineComment c :: q.1, q.2)
/-- src/yaml/mod.rs:505-507: entries of an inline hash. -/
def mapEntries {σ : Type} (f : Yaml → σ → Yaml × σ) :
    List (Str × Yaml) → σ → List (Str × Yaml) × σ
  | [], st => ([], st)
  | (k, v) :: t, st =>
    let r := Yaml.mapYaml f v st
    let q := mapEntries f t r.2
    ((k, r.1) :: q.1, q.2)
/-- `Vec<ArrayData>::map_yaml`, src/yaml/mod.rs:495-499, array_data.rs:65-72, aliased.rs:73-77. -/
def mapArrayData {σ : Type} (f : Yaml → σ → Yaml × σ) : List ArrayData → σ → List ArrayData × σ
  | [], st => ([], st)
  | .element ⟨a, v⟩ :: t, st =>
    let r := Yaml.mapYaml f v st
    let q := mapArrayData f t r.2
    (.element ⟨a, r.1⟩ :: q.1, q.2)
  | .comment c :: t, st => let q := mapArrayData f t st; (.comment c :: q.1, q.2)
  | .inlineComment c :: t, st => let q := mapArrayData f t st; (.inlineComment c :: q.1, q.2)
/-- `Vec<Yaml>::map_yaml`, src/yaml/mod.rs:495-499. -/
def mapYamls {σ : Type} (f : Yaml → σ → Yaml × σ) : List Yaml → σ → List Yaml × σ
  | [], st => ([], st)
  | v :: t, st =>
    let r := Yaml.mapYaml f v st
    let q := mapYamls f t r.2
    (r.1 :: q.1, q.2)
end

mutual
/-- `VisitYaml for Yaml`, src/yaml/mod.rs:528-551. -/
def Yaml.visitYaml {σ : Type} (f : AliasedYaml → σ → σ) : Yaml → σ → σ
  | .hash data, st => visitHashData f data st
  | .inlineHash data, st => visitEntries f data st
  | .array data, st => visitArrayData f data st
  | .inlineArray data, st => visitYamls f data st
  | .singleQuotedString _, st => st
  | .doubleQuotedString _, st => st
  | .unquotedString _, st => st
  | .foldedString _ _, st => st
  | .literalString _ _, st => st
  | .anchor _, st => st
/-- `Vec<HashData>::visit_yaml`, src/yaml/mod.rs:520-526, hash_data.rs:36-42, aliased.rs:66-71. -/
def visitHashData {σ : Type} (f : AliasedYaml → σ → σ) : List HashData → σ → σ
  | [], st => st
  | .element ⟨_, ⟨a, v⟩⟩ :: t, st => visitHashData f t (Yaml.visitYaml f v (f ⟨a, v⟩ st))
  | .comment _ :: t, st => visitHashData f t st
  | .inlineComment _ :: t, st => visitHashData f t st
/-- src/yaml/mod.rs:532-536. -/
def visitEntries {σ : Type} (f : AliasedYaml → σ → σ) : List (Str × Yaml) → σ → σ
  | [], st => st
  | (_, v) :: t, st => visitEntries f t (Yaml.visitYaml f v st)
/-- `Vec<ArrayData>::visit_yaml`, src/yaml/mod.rs:520-526, array_data.rs:57-63, aliased.rs:66-71. -/
def visitArrayData {σ : Type} (f : AliasedYaml → σ → σ) : List ArrayData → σ → σ
  | [], st => st
  | .element ⟨a, v⟩ :: t, st => visitArrayData f t (Yaml.visitYaml f v (f ⟨a, v⟩ st))
  | .comment _ :: t, st => visitArrayData f t st
  | .inlineComment _ :: t, st => visitArrayData f t st
/-- src/yaml/mod.rs:538-542. -/
def visitYamls {σ : Type} (f : AliasedYaml → σ → σ) : List Yaml → σ → σ
  | [], st => st
  | v :: t, st => visitYamls f t (Yaml.visitYaml f v st)
end

end YamlSubset
