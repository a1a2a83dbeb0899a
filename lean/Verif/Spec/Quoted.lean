import Verif.Model.Basic

/-! # Specification: quoted scalars as YAML readers see them -/

namespace YamlSubset.Spec

/-- Read the rest of a single-quoted scalar (after the opening quote): `''` is a quote, any
other quote closes the scalar. Returns the contents and the text after the closing quote. -/
def readSingleQuoted : Str → Option (Str × Str)
  | [] => none
  | '\'' :: '\'' :: t => (readSingleQuoted t).map fun r => ('\'' :: r.1, r.2)
  | '\'' :: t => some ([], t)
  | c :: t => (readSingleQuoted t).map fun r => (c :: r.1, r.2)

/-- Read the rest of a double-quoted scalar (after the opening quote), with the escapes
`\"`, `\\`, `\t`, `\r`, `\n`. Returns the contents and the text after the closing quote. -/
def readDoubleQuoted : Str → Option (Str × Str)
  | [] => none
  | '"' :: t => some ([], t)
  | '\\' :: '"' :: t => (readDoubleQuoted t).map fun r => ('"' :: r.1, r.2)
  | '\\' :: '\\' :: t => (readDoubleQuoted t).map fun r => ('\\' :: r.1, r.2)
  | '\\' :: 't' :: t => (readDoubleQuoted t).map fun r => ('\t' :: r.1, r.2)
  | '\\' :: 'r' :: t => (readDoubleQuoted t).map fun r => ('\r' :: r.1, r.2)
  | '\\' :: 'n' :: t => (readDoubleQuoted t).map fun r => ('\n' :: r.1, r.2)
  | '\\' :: _ => none
  | c :: t => (readDoubleQuoted t).map fun r => (c :: r.1, r.2)

end YamlSubset.Spec
