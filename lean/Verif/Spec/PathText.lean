import Verif.Spec.Path
import Verif.Spec.Decode

/-! # Specification: which texts are paths -/

namespace YamlSubset.Spec

/-- The text of one step after the first key: `.key`, `[*]` or `[digits]`, with conditions. An index can be written with
leading zeros. -/
inductive StepText : Step → Str → Prop
  | key {k cs} (hk : CleanKey k) (hc : ∀ c ∈ cs, CleanCondition c) :
      StepText (.key k cs) ('.' :: (k ++ renderConditions cs))
  | all {cs} (hc : ∀ c ∈ cs, CleanCondition c) : StepText (.all cs) (c!"[*]" ++ renderConditions cs)
  | index {ds cs} (hd : Digits ds) (h0 : ds ≠ []) (hc : ∀ c ∈ cs, CleanCondition c) :
      StepText (.index (numberOf ds) cs) ('[' :: (ds ++ ']' :: renderConditions cs))

/-- The text of the steps after the conditions `cs`. An index cannot follow a condition directly: it would be a part of the
value of the condition. -/
inductive StepsText : List Condition → List Step → Str → Prop
  | nil {cs} : StepsText cs [] []
  | cons {cs s ss t u} (h : cs ≠ [] → s.isKey = true) (ht : StepText s t) (hu : StepsText s.conditions ss u) :
      StepsText cs (s :: ss) (t ++ u)

/-- The text of a path: conditions on the root, or a key with conditions and further steps. -/
inductive PathText : Str → YamlPath → Prop
  | root {cs} (hc : ∀ c ∈ cs, CleanCondition c) : PathText (renderConditions cs) (.root cs)
  | key {k cs steps u} (hk : CleanKey k) (hc : ∀ c ∈ cs, CleanCondition c) (hu : StepsText cs steps u) :
      PathText (k ++ renderConditions cs ++ u) (.key k cs (pathOf steps))

/-- Every index fits a 64-bit number. -/
def IndexesFit : YamlPath → Prop
  | .root _ => True
  | .key _ _ none => True
  | .key _ _ (some p) => IndexesFit p
  | .allIndexes _ none => True
  | .allIndexes _ (some p) => IndexesFit p
  | .indexes is _ none => ∀ i ∈ is, i < 2 ^ 64
  | .indexes is _ (some p) => (∀ i ∈ is, i < 2 ^ 64) ∧ IndexesFit p

end YamlSubset.Spec
