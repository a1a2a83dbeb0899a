import Verif.Model.Ast

/-! # Induction over document trees -/

namespace YamlSubset

mutual
/-- Induction over trees, with the hypothesis for every child value. -/
theorem Yaml.induct {P : Yaml → Prop}
    (hIH : ∀ es, (∀ k v, (k, v) ∈ es → P v) → P (.inlineHash es))
    (hH : ∀ ds, (∀ k a v, HashData.element ⟨k, ⟨a, v⟩⟩ ∈ ds → P v) → P (.hash ds))
    (hIA : ∀ es, (∀ v, v ∈ es → P v) → P (.inlineArray es))
    (hA : ∀ ds, (∀ a v, ArrayData.element ⟨a, v⟩ ∈ ds → P v) → P (.array ds))
    (hS : ∀ ps, P (.singleQuotedString ps)) (hD : ∀ ps, P (.doubleQuotedString ps))
    (hU : ∀ s, P (.unquotedString s)) (hF : ∀ ls c, P (.foldedString ls c))
    (hL : ∀ ls c, P (.literalString ls c)) (hN : ∀ a, P (.anchor a)) : (y : Yaml) → P y
  | .inlineHash es => hIH es (Yaml.induct_entries hIH hH hIA hA hS hD hU hF hL hN es)
  | .hash ds => hH ds (Yaml.induct_hash hIH hH hIA hA hS hD hU hF hL hN ds)
  | .inlineArray es => hIA es (Yaml.induct_yamls hIH hH hIA hA hS hD hU hF hL hN es)
  | .array ds => hA ds (Yaml.induct_array hIH hH hIA hA hS hD hU hF hL hN ds)
  | .singleQuotedString ps => hS ps
  | .doubleQuotedString ps => hD ps
  | .unquotedString s => hU s
  | .foldedString ls c => hF ls c
  | .literalString ls c => hL ls c
  | .anchor a => hN a
theorem Yaml.induct_entries {P : Yaml → Prop}
    (hIH : ∀ es, (∀ k v, (k, v) ∈ es → P v) → P (.inlineHash es))
    (hH : ∀ ds, (∀ k a v, HashData.element ⟨k, ⟨a, v⟩⟩ ∈ ds → P v) → P (.hash ds))
    (hIA : ∀ es, (∀ v, v ∈ es → P v) → P (.inlineArray es))
    (hA : ∀ ds, (∀ a v, ArrayData.element ⟨a, v⟩ ∈ ds → P v) → P (.array ds))
    (hS : ∀ ps, P (.singleQuotedString ps)) (hD : ∀ ps, P (.doubleQuotedString ps))
    (hU : ∀ s, P (.unquotedString s)) (hF : ∀ ls c, P (.foldedString ls c))
    (hL : ∀ ls c, P (.literalString ls c)) (hN : ∀ a, P (.anchor a)) :
    (es : List (Str × Yaml)) → ∀ k v, (k, v) ∈ es → P v
  | [], k, v, h => absurd h (by simp)
  | (k', v') :: t, k, v, h => by
    rcases List.mem_cons.1 h with h | h
    · have := Yaml.induct hIH hH hIA hA hS hD hU hF hL hN v'
      simp at h; rw [h.2]; exact this
    · exact Yaml.induct_entries hIH hH hIA hA hS hD hU hF hL hN t k v h
theorem Yaml.induct_hash {P : Yaml → Prop}
    (hIH : ∀ es, (∀ k v, (k, v) ∈ es → P v) → P (.inlineHash es))
    (hH : ∀ ds, (∀ k a v, HashData.element ⟨k, ⟨a, v⟩⟩ ∈ ds → P v) → P (.hash ds))
    (hIA : ∀ es, (∀ v, v ∈ es → P v) → P (.inlineArray es))
    (hA : ∀ ds, (∀ a v, ArrayData.element ⟨a, v⟩ ∈ ds → P v) → P (.array ds))
    (hS : ∀ ps, P (.singleQuotedString ps)) (hD : ∀ ps, P (.doubleQuotedString ps))
    (hU : ∀ s, P (.unquotedString s)) (hF : ∀ ls c, P (.foldedString ls c))
    (hL : ∀ ls c, P (.literalString ls c)) (hN : ∀ a, P (.anchor a)) :
    (ds : List HashData) → ∀ k a v, HashData.element ⟨k, ⟨a, v⟩⟩ ∈ ds → P v
  | [], _, _, _, h => absurd h (by simp)
  | .element ⟨k', ⟨a', v'⟩⟩ :: t, k, a, v, h => by
    rcases List.mem_cons.1 h with h | h
    · have := Yaml.induct hIH hH hIA hA hS hD hU hF hL hN v'
      simp at h; rw [h.2.2]; exact this
    · exact Yaml.induct_hash hIH hH hIA hA hS hD hU hF hL hN t k a v h
  | .comment _ :: t, k, a, v, h =>
    Yaml.induct_hash hIH hH hIA hA hS hD hU hF hL hN t k a v (by simpa using h)
  | .inlineComment _ :: t, k, a, v, h =>
    Yaml.induct_hash hIH hH hIA hA hS hD hU hF hL hN t k a v (by simpa using h)
theorem Yaml.induct_yamls {P : Yaml → Prop}
    (hIH : ∀ es, (∀ k v, (k, v) ∈ es → P v) → P (.inlineHash es))
    (hH : ∀ ds, (∀ k a v, HashData.element ⟨k, ⟨a, v⟩⟩ ∈ ds → P v) → P (.hash ds))
    (hIA : ∀ es, (∀ v, v ∈ es → P v) → P (.inlineArray es))
    (hA : ∀ ds, (∀ a v, ArrayData.element ⟨a, v⟩ ∈ ds → P v) → P (.array ds))
    (hS : ∀ ps, P (.singleQuotedString ps)) (hD : ∀ ps, P (.doubleQuotedString ps))
    (hU : ∀ s, P (.unquotedString s)) (hF : ∀ ls c, P (.foldedString ls c))
    (hL : ∀ ls c, P (.literalString ls c)) (hN : ∀ a, P (.anchor a)) :
    (es : List Yaml) → ∀ v, v ∈ es → P v
  | [], _, h => absurd h (by simp)
  | v' :: t, v, h => by
    rcases List.mem_cons.1 h with h | h
    · have := Yaml.induct hIH hH hIA hA hS hD hU hF hL hN v'
      rw [h]; exact this
    · exact Yaml.induct_yamls hIH hH hIA hA hS hD hU hF hL hN t v h
theorem Yaml.induct_array {P : Yaml → Prop}
    (hIH : ∀ es, (∀ k v, (k, v) ∈ es → P v) → P (.inlineHash es))
    (hH : ∀ ds, (∀ k a v, HashData.element ⟨k, ⟨a, v⟩⟩ ∈ ds → P v) → P (.hash ds))
    (hIA : ∀ es, (∀ v, v ∈ es → P v) → P (.inlineArray es))
    (hA : ∀ ds, (∀ a v, ArrayData.element ⟨a, v⟩ ∈ ds → P v) → P (.array ds))
    (hS : ∀ ps, P (.singleQuotedString ps)) (hD : ∀ ps, P (.doubleQuotedString ps))
    (hU : ∀ s, P (.unquotedString s)) (hF : ∀ ls c, P (.foldedString ls c))
    (hL : ∀ ls c, P (.literalString ls c)) (hN : ∀ a, P (.anchor a)) :
    (ds : List ArrayData) → ∀ a v, ArrayData.element ⟨a, v⟩ ∈ ds → P v
  | [], _, _, h => absurd h (by simp)
  | .element ⟨a', v'⟩ :: t, a, v, h => by
    rcases List.mem_cons.1 h with h | h
    · have := Yaml.induct hIH hH hIA hA hS hD hU hF hL hN v'
      simp at h; rw [h.2]; exact this
    · exact Yaml.induct_array hIH hH hIA hA hS hD hU hF hL hN t a v h
  | .comment _ :: t, a, v, h =>
    Yaml.induct_array hIH hH hIA hA hS hD hU hF hL hN t a v (by simpa using h)
  | .inlineComment _ :: t, a, v, h =>
    Yaml.induct_array hIH hH hIA hA hS hD hU hF hL hN t a v (by simpa using h)
end

end YamlSubset
