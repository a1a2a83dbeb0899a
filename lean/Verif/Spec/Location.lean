import Verif.Spec.Parsed

/-! # Lines and columns, and texts with an error at a known place -/

namespace YamlSubset.Spec

/-- The line and the column of the character after `before`, both from 1. A line ends with a line feed. -/
def LineColumn (before : Str) (p : Nat × Nat) : Prop :=
  ∃ above cur, before = above ++ cur ∧ (above = [] ∨ ∃ w, above = w ++ ['\n']) ∧ '\n' ∉ cur ∧ p = (above.count '\n' + 1, cur.length + 1)

/-- A line before the document: blank, or a comment; indented by spaces. -/
inductive HeadLine where
  | blank (n : Nat)
  | comment (n : Nat) (c : Str)

/-- Its text. -/
def HeadLine.text : HeadLine → Str
  | .blank n => List.replicate n ' ' ++ ['\n']
  | .comment n c => List.replicate n ' ' ++ '#' :: (c ++ ['\n'])

/-- A comment is on one line. -/
def HeadLine.Ok : HeadLine → Prop
  | .blank _ => True
  | .comment _ c => LineText c

def HeadLine.isComment : HeadLine → Bool
  | .blank _ => false
  | .comment _ _ => true

/-- The text starts with a character that is neither a space, nor a line break, nor the start of a comment. -/
def Visible (s : Str) : Prop := ∃ c t, s = c :: t ∧ isSpaceSeparator c = false ∧ c ≠ '\n' ∧ c ≠ '\r' ∧ c ≠ '#'

end YamlSubset.Spec
