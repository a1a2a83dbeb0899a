import Verif.Model.Ast

/-! # Specification: what the text of a scalar means

Values of quoted scalars as this library reads them. Other than in YAML, a single line break stands for nothing (not for
a space), spaces around line breaks are kept, and a backslash at the end of a line stands for a line break. -/

namespace YamlSubset.Spec

/-- The value of the text between two single quotes, if there is no single quote among it that would end it. -/
def singleQuotedValue : Str → Option Str
  | [] => some []
  | '\'' :: '\'' :: t => (singleQuotedValue t).map ('\'' :: ·)
  | '\'' :: _ => none
  | '\n' :: '\n' :: t => (singleQuotedValue ('\n' :: t)).map ('\n' :: ·)
  | '\n' :: t => singleQuotedValue t
  | c :: t => (singleQuotedValue t).map (c :: ·)

/-- The character that an escape stands for. -/
def escapeValue : Char → Option Char
  | 'n' => some '\n'
  | 'r' => some '\r'
  | 't' => some '\t'
  | '\\' => some '\\'
  | '"' => some '"'
  | '\n' => some '\n'
  | _ => none

/-- The value of the text between two double quotes, if there is no double quote among it that would end it and no unknown
escape. -/
def doubleQuotedValue : Str → Option Str
  | [] => some []
  | '"' :: _ => none
  | '\\' :: [] => none
  | '\\' :: c :: t => (escapeValue c).bind fun d => (doubleQuotedValue t).map (d :: ·)
  | '\n' :: '\n' :: t => (doubleQuotedValue ('\n' :: t)).map ('\n' :: ·)
  | '\n' :: t => doubleQuotedValue t
  | c :: t => (doubleQuotedValue t).map (c :: ·)

/-- The rest of a folded block scalar after its first line; `plain` tells if the line before is neither empty nor starts with a
space. An empty line is a line break, a line that starts with a space stands between two line breaks, and other lines are separated
from such lines by one space. -/
def foldedRest (plain : Bool) : List Str → Str
  | [] => []
  | [] :: t => '\n' :: foldedRest false t
  | (c :: l) :: t =>
    if c = ' ' then '\n' :: (c :: l ++ '\n' :: foldedRest false t)
    else (if plain then [' '] else []) ++ (c :: l) ++ foldedRest true t

/-- The text with all line breaks at its end: before chomping. -/
def blockContent (folded : Bool) : List Str → Str
  | [] => []
  | l :: t => if folded then l ++ foldedRest true t ++ ['\n'] else (l :: t).flatMap fun l => l ++ ['\n']

/-- `v` is the content after chomping: with `+` it is kept as it is, with `-` all line breaks at the end are removed, without a
mark all are replaced by one. -/
def Chomped (chomping : BlockChomping) (content v : Str) : Prop :=
  match chomping with
  | .keep => v = content
  | .strip => v.getLast? ≠ some '\n' ∧ ∃ n, content = v ++ List.replicate n '\n'
  | .clip => ∃ w n, v = w ++ ['\n'] ∧ w.getLast? ≠ some '\n' ∧ content = w ++ List.replicate n '\n'

/-- The mark for a chomping. -/
def chompingMark : BlockChomping → Str
  | .keep => ['+']
  | .strip => ['-']
  | .clip => []

end YamlSubset.Spec
