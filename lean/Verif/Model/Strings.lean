import Verif.Model.Ast

/-! # String styles (`src/yaml/string.rs`, `src/yaml/types.rs`) -/

namespace YamlSubset

/-- `handle_ending_newlines`, src/yaml/string.rs:4-18. -/
def handleEndingNewlines (s : Str) : BlockChomping → Str
  | .keep => s ++ ['\n']
  | .clip => trimEndMatches s '\n' ++ ['\n']
  | .strip => trimEndMatches s '\n'

/-- `parse_literal`, src/yaml/string.rs:21-24. -/
def parseLiteral (lines : List Str) (chomping : BlockChomping) : Str :=
  handleEndingNewlines (joinLines lines) chomping

/-- The `if lines.last().map(|l| l.is_empty()).unwrap_or(false) { lines.pop(); }`
idiom, src/yaml/string.rs:32-34, 113, 114. -/
def popIfLastEmpty (lines : List Str) : List Str :=
  if lines.getLast? = some [] then lines.dropLast else lines

/-- `create_literal`, src/yaml/string.rs:29-37. -/
def createLiteral (s : Str) : List Str :=
  let lines := splitChar '\n' s
  if endsWithChar s '\n' then popIfLastEmpty lines else lines

/-- The closure folded over the lines by `parse_folded`, src/yaml/string.rs:49-71. -/
def parseFoldedStep : Str × Bool → Str → Str × Bool
  | (s, prevWasEmpty), element =>
    if element.isEmpty then (s ++ ['\n'], true)
    else if startsWithChar element ' ' then (s ++ ['\n'] ++ element ++ ['\n'], true)
    else ((if !prevWasEmpty then s ++ [' '] else s) ++ element, false)

/-- `parse_folded`, src/yaml/string.rs:40-74. -/
def parseFolded (lines : List Str) (chomping : BlockChomping) : Str :=
  match lines with
  | [] => []
  | start :: rest =>
    handleEndingNewlines (rest.foldl parseFoldedStep (start, false)).1 chomping

/-- Loop state of `split_on_length`: `(result, s, first)`: src/yaml/string.rs:76-79. -/
structure SplitState where
  result : List Str
  s : Str
  first : Bool

/-- Loop body of `split_on_length`, src/yaml/string.rs:80-91. -/
def splitOnLengthStep (length : Nat) (st : SplitState) (word : Str) : SplitState :=
  if byteLen st.s + byteLen word + 1 > length then
    { st with result := st.result ++ [st.s], s := word }
  else
    { st with s := (if !st.first then st.s ++ [' '] else st.s) ++ word, first := false }

/-- `split_on_length`, src/yaml/string.rs:76-96. -/
def splitOnLength (input : Str) (length : Nat) : List Str :=
  let st := (splitChar ' ' input).foldl (splitOnLengthStep length) ⟨[], [], true⟩
  if !st.s.isEmpty then st.result ++ [st.s] else st.result

/-- `create_folded`, src/yaml/string.rs:102-117. -/
def createFolded (s : Str) (lineLength : Nat) : List Str :=
  let lines := (splitChar '\n' s).flatMap (fun x => splitOnLength x lineLength ++ [[]])
  if endsWithChar s '\n' then popIfLastEmpty (popIfLastEmpty lines) else lines

/-- `SingleQuotedStringEscapedChar::char`, src/yaml/string.rs:133-137. -/
def SQEscapedChar.char : SQEscapedChar → Char
  | .singleQuote => '\''

/-- One iteration of the loop of `parse_single_quoted_string`, src/yaml/string.rs:143-152. -/
def SQPart.value : SQPart → Str
  | .string s => s
  | .escapedChar c => [c.char]
  | .blankLines n => List.replicate n '\n'
  | .removableNewline => []

/-- `parse_single_quoted_string`, src/yaml/string.rs:140-155. -/
def parseSingleQuoted (parts : List SQPart) : Str := parts.flatMap SQPart.value

/-- `DoubleQuotedStringEscapedChar::char`, src/yaml/string.rs:176-185. -/
def DQEscapedChar.char : DQEscapedChar → Char
  | .quote => '"'
  | .backslash => '\\'
  | .tab => 't'
  | .carriageReturn => 'r'
  | .newline => 'n'
  | .realNewline => '\n'

/-- `DoubleQuotedStringEscapedChar::real_char`, src/yaml/string.rs:186-195. -/
def DQEscapedChar.realChar : DQEscapedChar → Char
  | .quote => '"'
  | .backslash => '\\'
  | .tab => '\t'
  | .carriageReturn => '\r'
  | .newline => '\n'
  | .realNewline => '\n'

/-- One iteration of the loop of `parse_double_quoted_string`, src/yaml/string.rs:200-211. -/
def DQPart.value : DQPart → Str
  | .string s => s
  | .escapedChar c => [c.realChar]
  | .blankLines n => List.replicate n '\n'
  | .removableNewline => []

/-- `parse_double_quoted_string`, src/yaml/string.rs:198-213. -/
def parseDoubleQuoted (parts : List DQPart) : Str := parts.flatMap DQPart.value

/-- `as_string`, src/yaml/types.rs:10-27. `yaml_to_string` in
src/yaml/deserializer.rs:33-52 is the same function. -/
def Yaml.asString : Yaml → Option Str
  | .unquotedString s => some s
  | .singleQuotedString s => some (parseSingleQuoted s)
  | .doubleQuotedString s => some (parseDoubleQuoted s)
  | .foldedString qs c => some (parseFolded qs c)
  | .literalString qs c => some (parseLiteral qs c)
  | _ => none

end YamlSubset
