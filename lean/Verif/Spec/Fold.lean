import Verif.Model.Basic

/-! # Specification: which strings can be wrapped into a folded block scalar -/

namespace YamlSubset.Spec

/-- Greedy wrapping of the words of a line, given the width of the current output line,
never starts a new output line at an empty word (two spaces in a row, or a space at
the end of the line, exactly where the line is broken). A word starts a new output
line when the current line, a space and the word would be longer than `n` bytes. -/
def BreaksAtWords (n : Nat) : Nat → List Str → Prop
  | _, [] => True
  | width, w :: ws =>
    if width + byteLen w + 1 > n then w ≠ [] ∧ BreaksAtWords n (byteLen w) ws
    else BreaksAtWords n (width + 1 + byteLen w) ws

/-- A line that wraps cleanly: its first word leaves room for a following space, and no break falls
on an empty word. -/
def LineFoldable (n : Nat) (line : Str) : Prop :=
  match splitChar ' ' line with
  | [] => True
  | w :: ws => byteLen w < n ∧ BreaksAtWords n (byteLen w) ws

/-- A string that survives folding at `n` bytes: it does not start with a newline, every
line wraps cleanly, and no line after the first starts with a space. -/
def Foldable (n : Nat) (s : Str) : Prop :=
  startsWithChar s '\n' = false ∧ (∀ x ∈ splitChar '\n' s, LineFoldable n x) ∧
    ∀ x ∈ (splitChar '\n' s).tail, startsWithChar x ' ' = false

/-- No word is empty, and no two neighbours fit on a line of `n` bytes. -/
def NoTwoFit (n : Nat) : List Str → Prop
  | [] => True
  | [w] => w ≠ []
  | w :: v :: ws => w ≠ [] ∧ n < byteLen w + 1 + byteLen v ∧ NoTwoFit n (v :: ws)

/-- A line whose first word does not leave room for a following space, and none of whose words fit with a neighbour. -/
def LineOverflows (n : Nat) (line : Str) : Prop :=
  (∃ w ws, splitChar ' ' line = w :: ws ∧ n ≤ byteLen w) ∧ NoTwoFit n (splitChar ' ' line)

/-- The strings that survive folding at `n` bytes although they start with newlines: the newline that is lost at the start is made
up for by one that is added where the first line with text starts. This happens if the line overflows, or if it starts with a space and
is the last line and not wrapped. -/
def FoldableLate (n : Nat) (s : Str) : Prop :=
  ∃ k x xs, splitChar '\n' s = List.replicate (k + 1) [] ++ x :: xs ∧
    ((LineOverflows n x ∧ ∀ y ∈ xs, LineFoldable n y ∧ startsWithChar y ' ' = false) ∨
      (startsWithChar x ' ' = true ∧ byteLen x ≤ n ∧ xs = []))

/-- The strings that survive folding at `n` bytes. -/
def SurvivesFolding (n : Nat) (s : Str) : Prop := Foldable n s ∨ FoldableLate n s

end YamlSubset.Spec
