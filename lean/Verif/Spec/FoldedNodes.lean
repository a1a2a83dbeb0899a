import Verif.Spec.Tree

/-! # Specification: the scalars that pretty printing folds -/

namespace YamlSubset.Spec

/-- `IsFolded y s`: in block context `y` is rewritten as a folded block for its string `s`. These are the quoted scalars of more than
90 bytes, but not double-quoted ones with an escape sequence and not single-quoted ones with a blank line. -/
inductive IsFolded : Yaml → Str → Prop
  | doubleQuoted (ps : List DQPart) (hl : 90 < byteLen (parseDoubleQuoted ps)) (he : ∀ c, DQPart.escapedChar c ∉ ps) :
    IsFolded (.doubleQuotedString ps) (parseDoubleQuoted ps)
  | singleQuoted (ps : List SQPart) (hl : 90 < byteLen (parseSingleQuoted ps)) (hb : ∀ n, SQPart.blankLines n ∉ ps) :
    IsFolded (.singleQuotedString ps) (parseSingleQuoted ps)

/-- `InBlock z y`: `z` is `y`, or a value of `y` that is reached through block mappings and block sequences only. -/
inductive InBlock (z : Yaml) : Yaml → Prop
  | here : InBlock z z
  | hash {ds : List HashData} {k : Str} {a : Option Str} {v : Yaml} (hm : HashData.element ⟨k, ⟨a, v⟩⟩ ∈ ds) (h : InBlock z v) : InBlock z (.hash ds)
  | array {ds : List ArrayData} {a : Option Str} {v : Yaml} (hm : ArrayData.element ⟨a, v⟩ ∈ ds) (h : InBlock z v) : InBlock z (.array ds)

end YamlSubset.Spec
