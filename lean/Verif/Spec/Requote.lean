import Verif.Spec.FoldedNodes
import Verif.Spec.Fold
import Verif.Spec.De

/-! # Specification: when pretty printing keeps what is read from a tree -/

namespace YamlSubset.Spec

/-- The words for null, true and false in the spellings that pretty printing does not know to protect. -/
def looseWords : List Str :=
  [c!"Null", c!"NULL",
   c!"True", c!"TRUE", c!"yes", c!"Yes", c!"YES", c!"on", c!"On", c!"ON",
   c!"False", c!"FALSE", c!"no", c!"No", c!"NO", c!"off", c!"Off", c!"OFF"]

/-- `LosesQuotes y`: `y` is a single-quoted scalar that spells one of these words. -/
inductive LosesQuotes : Yaml → Prop
  | mk (ps : List SQPart) (hb : ∀ n, SQPart.blankLines n ∉ ps) (h : parseSingleQuoted ps ∈ looseWords) : LosesQuotes (.singleQuotedString ps)

/-- `KeepsReading y`: outside flow collections, no single-quoted scalar of `y` spells a word for null, true or false other than
`null`, `~`, `true` and `false`, and every scalar that is folded has a text that survives folding. -/
def KeepsReading (y : Yaml) : Prop :=
  ∀ z, InBlock z y → ¬ LosesQuotes z ∧ ∀ s, IsFolded z s → SurvivesFolding 90 s

end YamlSubset.Spec
