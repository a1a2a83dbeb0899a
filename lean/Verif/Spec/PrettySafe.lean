import Verif.Spec.Portable
import Verif.Spec.Fold
import Verif.Model.Strings

/-! # Specification: documents that `pretty` does not break

`pretty` changes the style of scalars and of sequences inside sequences. The conditions here make sure that the result can
still be read. They are conditions on the document before `pretty`; nothing here refers to `pretty` or to the formatter. -/

namespace YamlSubset.Spec

/-- A text that may be written as a block scalar: it starts with a visible character and has no carriage return. -/
def BlockText (s : Str) : Prop := (∃ c t, s = c :: t ∧ isWhitespace c = false) ∧ '\r' ∉ s

/-- Quoted scalars outside of flow collections. Those with escapes, blank lines or more than 90 bytes are made block scalars,
which is not possible where the parser would take the next line for a part of it (`deep`) or in front of a comment. Other single-quoted
ones may lose their quotes. `flow`: it may become a part of a flow sequence. -/
def ScalarSafe (T : CharTables) (deep comment flow : Bool) (y : Yaml) : Prop :=
  match y with
  | .doubleQuotedString ps => ∀ s, y.asString = some s →
      ((∀ e, .escapedChar e ∉ ps) ∧ byteLen s ≤ 90) ∨
      (deep = false ∧ comment = false ∧ BlockText s ∧ ((∃ e, .escapedChar e ∈ ps) ∨ Foldable 90 s))
  | .singleQuotedString ps => ∀ s, y.asString = some s →
      ((∀ n, .blankLines n ∉ ps) ∧ byteLen s ≤ 90 ∧ PortableText T (if comment || flow then .flow else .field) s) ∨
      (deep = false ∧ comment = false ∧ BlockText s ∧ ((∃ n, .blankLines n ∈ ps) ∨ (90 < byteLen s ∧ Foldable 90 s)))
  | .unquotedString s => flow = true → FlowPlain T s
  | _ => True

/-- Inside flow collections, only single-quoted scalars with blank lines are a problem: they are made block scalars. -/
inductive FlowSafe : Yaml → Prop
  | hash {es} (h : ∀ k v, (k, v) ∈ es → FlowSafe v) : FlowSafe (.inlineHash es)
  | array {es} (h : ∀ v ∈ es, FlowSafe v) : FlowSafe (.inlineArray es)
  | plain {s} : FlowSafe (.unquotedString s)
  | double {ps} : FlowSafe (.doubleQuotedString ps)
  | single {ps} (h : ∀ n, .blankLines n ∉ ps) : FlowSafe (.singleQuotedString ps)
  | reference {a} : FlowSafe (.anchor a)

/-- A comment at the end of the line comes next. -/
def inlineNextHash : List HashData → Bool
  | .inlineComment _ :: _ => true
  | _ => false

/-- A comment at the end of the line comes next. -/
def inlineNextArray : List ArrayData → Bool
  | .inlineComment _ :: _ => true
  | _ => false

mutual
/-- A value in a block collection. `deep`: block scalars are not possible here. `alt`: a block collection starts on the line of a dash,
or has an anchor. `elem`: the value is an element of a sequence. `comment`: a comment follows on the same line. `flow`: the value is
an element of a sequence that is an element of a sequence and so may be written in flow style. -/
def PrettySafe (T : CharTables) (deep alt elem comment flow : Bool) : Yaml → Prop
  | .inlineHash es => FlowSafe (.inlineHash es)
  | .inlineArray es => FlowSafe (.inlineArray es)
  | .hash ds => PrettySafeHash T (alt && (deep || decide (ds.length ≠ 1))) ds
  | .array ds => PrettySafeArray T alt elem ds
  | .singleQuotedString ps => ScalarSafe T deep comment flow (.singleQuotedString ps)
  | .doubleQuotedString ps => ScalarSafe T deep comment flow (.doubleQuotedString ps)
  | .unquotedString s => ScalarSafe T deep comment flow (.unquotedString s)
  | .foldedString _ _ => True
  | .literalString _ _ => True
  | .anchor _ => True
/-- The items of a mapping; `deep` is for the first one if there is no comment before it. -/
def PrettySafeHash (T : CharTables) (deep : Bool) : List HashData → Prop
  | [] => True
  | .element ⟨_, ⟨a, v⟩⟩ :: t => PrettySafe T deep a.isSome false (inlineNextHash t) false v ∧ PrettySafeHash T false t
  | .comment _ :: t => PrettySafeHash T false t
  | .inlineComment _ :: t => PrettySafeHash T false t
/-- The items of a sequence; `deep` is for the first one if there is no comment before it, `flow` tells if the sequence is an element of
a sequence. -/
def PrettySafeArray (T : CharTables) (deep flow : Bool) : List ArrayData → Prop
  | [] => True
  | .element ⟨_, v⟩ :: t => PrettySafe T deep true true (inlineNextArray t) flow v ∧ PrettySafeArray T false flow t
  | .comment _ :: t => PrettySafeArray T false flow t
  | .inlineComment _ :: t => PrettySafeArray T false flow t
end

/-- A document that `pretty` does not break. -/
def PrettySafeDocument (T : CharTables) (d : Document) : Prop := ∀ y, .yaml y ∈ d.items → PrettySafe T false false false false false y

end YamlSubset.Spec
