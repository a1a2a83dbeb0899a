import Verif.Model.Format
import Verif.Model.Numbers

/-! # `pretty` (src/yaml/mod.rs:478-741 and the `Pretty` impls of the node types) -/

namespace YamlSubset

/-- `is_inlineable`, src/yaml/mod.rs:553-562. -/
def isInlineable : Yaml → Bool
  | .unquotedString _ => true
  | .doubleQuotedString _ => true
  | .singleQuotedString _ => true
  | .inlineArray _ => true
  | .inlineHash _ => true
  | _ => false

/-- `can_be_unquoted_in_block`, src/yaml/mod.rs:581-594. -/
def canBeUnquotedInBlock (s : Str) : Bool :=
  if s.isEmpty || startsWithChar s ' ' || endsWithChar s ' ' then false
  else if (match s.head? with
      | some c => c == '[' || c == ']' || c == '{' || c == '}' || c == '"' || c == '\''
          || c == '#' || c == '>' || c == '|'
      | none => false) then false
  else if containsStr c!": " s || s.contains '#' || s.contains '\n' || s.contains '\r' then false
  else !(parseI64 s).isSome && !isF64 s
    && !(s == c!"true" || s == c!"false" || s == c!"null" || s == c!"~")

/-- `inline_breaking_chars`, src/yaml/mod.rs:596-600. -/
def inlineBreakingChars (s : Str) : Bool :=
  s.contains ',' || s.contains '[' || s.contains ']' || s.contains '{' || s.contains '}'
    || s.contains '"' || s.contains '>' || s.contains '|'

/-- Loop of `str_to_single_quoted_parts`, src/yaml/mod.rs:605-617: `parts` and `buf`
are the loop variables, and the code after the loop is the `[]` case. -/
def strToSQPartsAux (parts : List SQPart) (buf : Str) : Str → List SQPart
  | [] => if !buf.isEmpty then parts ++ [.string buf] else parts
  | ch :: rest =>
    if ch = '\'' then
      let parts := if !buf.isEmpty then parts ++ [.string buf] else parts
      strToSQPartsAux (parts ++ [.escapedChar .singleQuote]) [] rest
    else strToSQPartsAux parts (buf ++ [ch]) rest

/-- `str_to_single_quoted_parts`, src/yaml/mod.rs:602-619. -/
def strToSingleQuotedParts (s : Str) : List SQPart := strToSQPartsAux [] [] s

/-- The chomping chosen by `pretty`, src/yaml/mod.rs:705 and 720. -/
def chompingFor (s : Str) : BlockChomping :=
  if endsWithChar s '\n' then .keep else .strip

/-- `max_line_length`, src/yaml/mod.rs:623. -/
def maxLineLength : Nat := 90

/-- The `DoubleQuotedString` arm of `pretty_with_options`, src/yaml/mod.rs:696-713. -/
def prettyDoubleQuoted (inInline : Bool) (parts : List DQPart) : Yaml :=
  if inInline then .doubleQuotedString parts
  else
    let containsEscape := parts.any (fun x => match x with | .escapedChar _ => true | _ => false)
    let s := parseDoubleQuoted parts
    let totalLength := byteLen s
    if containsEscape then .literalString (createLiteral s) (chompingFor s)
    else if totalLength > maxLineLength then
      .foldedString (createFolded s maxLineLength) (chompingFor s)
    else .doubleQuotedString parts

/-- The `SingleQuotedString` arm of `pretty_with_options`, src/yaml/mod.rs:714-735. -/
def prettySingleQuoted (inInline : Bool) (parts : List SQPart) : Yaml :=
  let containsNewline := parts.any (fun x => match x with | .blankLines _ => true | _ => false)
  let s := parseSingleQuoted parts
  let totalLength := byteLen s
  if containsNewline then .literalString (createLiteral s) (chompingFor s)
  else if !inInline && canBeUnquotedInBlock s && !inlineBreakingChars s
      && totalLength ≤ maxLineLength then .unquotedString s
  else if inInline then .singleQuotedString parts
  else if totalLength > maxLineLength then
    .foldedString (createFolded s maxLineLength) (chompingFor s)
  else .singleQuotedString parts

/-- The closure of `can_inline`, src/yaml/mod.rs:666-669. -/
def arrayDataInlineable : ArrayData → Bool
  | .element e => e.alias.isNone && isInlineable e.value
  | _ => false

/-- The `filter_map` at src/yaml/mod.rs:671-677. -/
def arrayDataValues (ds : List ArrayData) : List Yaml :=
  ds.filterMap (fun d => match d with | .element e => some e.value | _ => none)

/-- The end of the `Array` arm, src/yaml/mod.rs:664-687. -/
def autoInline (childOfArray : Bool) (prettied : List ArrayData) : Yaml :=
  if childOfArray && prettied.all arrayDataInlineable
      && byteLen (Yaml.format 0 none (.inlineArray (arrayDataValues prettied))) ≤ maxLineLength
  then .inlineArray (arrayDataValues prettied)
  else .array prettied

mutual
/-- `pretty_with_options` for `Yaml`, src/yaml/mod.rs:621-741. -/
def Yaml.pretty (inInline childOfArray : Bool) : Yaml → Yaml
  | .inlineHash h => .inlineHash (prettyEntries h)
  | .hash v =>
    if v.isEmpty then .inlineHash []
    else if inInline then .inlineHash (hashToEntries v)
    else .hash (prettyHashData v)
  | .inlineArray v => .inlineArray (prettyYamls v)
  | .array v =>
    if v.isEmpty then .inlineArray []
    else if inInline then .inlineArray (arrayToYamls v)
    else autoInline childOfArray (prettyArrayData v)
  | .unquotedString s =>
    if inInline && inlineBreakingChars s then .singleQuotedString (strToSingleQuotedParts s)
    else .unquotedString s
  | .doubleQuotedString parts => prettyDoubleQuoted inInline parts
  | .singleQuotedString parts => prettySingleQuoted inInline parts
  | .literalString lines chomping => .literalString lines chomping
  | .foldedString lines chomping => .foldedString lines chomping
  | .anchor a => .anchor a
/-- src/yaml/mod.rs:626: entries of an inline hash. -/
def prettyEntries : List (Str × Yaml) → List (Str × Yaml)
  | [] => []
  | (k, v) :: t => (k, Yaml.pretty true false v) :: prettyEntries t
/-- src/yaml/mod.rs:633-641: a block hash in flow context; comments and anchor
names are dropped. -/
def hashToEntries : List HashData → List (Str × Yaml)
  | [] => []
  | .element ⟨k, ⟨_, v⟩⟩ :: t => (k, Yaml.pretty true false v) :: hashToEntries t
  | .comment _ :: t => hashToEntries t
  | .inlineComment _ :: t => hashToEntries t
/-- `Vec<HashData>::pretty_with_options(false, false)`, src/yaml/mod.rs:564-568,
hash_data.rs:53-60, hash_element.rs:52-59, aliased.rs:79-86. -/
def prettyHashData : List HashData → List HashData
  | [] => []
  | .element ⟨k, ⟨a, v⟩⟩ :: t =>
    .element ⟨k, ⟨a, Yaml.pretty false false v⟩⟩ :: prettyHashData t
  | .comment c :: t => .comment c :: prettyHashData t
  | .inlineComment c :: t => .inlineComment c :: prettyHashData t
/-- `Vec<Yaml>::pretty_with_options(true, false)`, src/yaml/mod.rs:564-568 and 647. -/
def prettyYamls : List Yaml → List Yaml
  | [] => []
  | v :: t => Yaml.pretty true false v :: prettyYamls t
/-- src/yaml/mod.rs:654-660: a block array in flow context. -/
def arrayToYamls : List ArrayData → List Yaml
  | [] => []
  | .element ⟨_, v⟩ :: t => Yaml.pretty true false v :: arrayToYamls t
  | .comment _ :: t => arrayToYamls t
  | .inlineComment _ :: t => arrayToYamls t
/-- `Vec<ArrayData>::pretty_with_options(false, true)`, src/yaml/mod.rs:564-568, 663,
array_data.rs:74-81, aliased.rs:79-86. -/
def prettyArrayData : List ArrayData → List ArrayData
  | [] => []
  | .element ⟨a, v⟩ :: t => .element ⟨a, Yaml.pretty false true v⟩ :: prettyArrayData t
  | .comment c :: t => .comment c :: prettyArrayData t
  | .inlineComment c :: t => .inlineComment c :: prettyArrayData t
end

/-- `Pretty for DocumentData`, src/yaml/document.rs:35-42. -/
def DocumentData.pretty (inInline : Bool) : DocumentData → DocumentData
  | .comment c => .comment c
  | .yaml y => .yaml (y.pretty inInline false)

/-- `Pretty for Document`, src/yaml/document.rs:92-99. -/
def Document.pretty (d : Document) : Document :=
  { d with items := d.items.map (DocumentData.pretty false) }

end YamlSubset
