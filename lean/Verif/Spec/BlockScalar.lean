import Verif.Spec.Parsed

/-! # Specification: block scalars that make the parser panic

Nothing here refers to the grammar or the consumer functions; only the Unicode tables are shared. -/

namespace YamlSubset.Spec

/-- A line break. -/
def Newline (s : Str) : Prop := s = ['\n'] ∨ s = ['\r', '\n'] ∨ s = ['\r']

/-- Line breaks, one after the other; perhaps none. -/
def Newlines (s : Str) : Prop := ∃ l : List Str, (∀ x ∈ l, Newline x) ∧ s = l.flatten

/-- One or more line breaks, each perhaps after spaces. -/
def BlankLines (s : Str) : Prop :=
  ∃ l : List Str, l ≠ [] ∧ (∀ x ∈ l, ∃ sp nl, x = sp ++ nl ∧ (∀ c ∈ sp, isSpaceSeparator c = true) ∧ Newline nl) ∧
    s = l.flatten

/-- Here a line ends. -/
def AtLineEnd (s : Str) : Prop := s = [] ∨ s.head? = some '\n' ∨ s.head? = some '\r'

/-- The text starts with a line break, perhaps after spaces. -/
def StartsBlank (s : Str) : Prop :=
  ∃ sp r, s = sp ++ r ∧ (∀ c ∈ sp, isSpaceSeparator c = true) ∧ (r.head? = some '\n' ∨ r.head? = some '\r')

/-- `ScalarLines p ls text`: the text of a block scalar whose lines are `ls`, each indented by `p`; between two of them there can be
empty lines. -/
inductive ScalarLines (p : Str) : List Str → Str → Prop
  | first {x} (hx : LineText x) : ScalarLines p [x] (p ++ x)
  | more {ls t nl es x} (h : ScalarLines p ls t) (hn : Newline nl) (he : Newlines es) (hx : LineText x) :
      ScalarLines p (ls ++ [x]) (t ++ (nl ++ (es ++ (p ++ x))))

/-- Number of bytes of a text in UTF-8. -/
def utf8Length (s : Str) : Nat := (s.map Char.utf8Size).sum

/-- The text is not empty, and it does not have a character that starts at byte `n` nor does it end there. -/
def CannotCut (n : Nat) (x : Str) : Prop := x ≠ [] ∧ ∀ u v, x = u ++ v → utf8Length u ≠ n

/-- The value of a text of decimal digits. -/
def decimalValue (s : Str) : Nat := s.foldl (fun n c => 10 * n + (c.toNat - 48)) 0

/-- An indentation indicator that the parser cannot use: zero, more than 64 bits, or not ASCII. -/
def BadIndicator (ind : Str) : Prop :=
  ind ≠ [] ∧ ((∃ c ∈ ind, ¬ (48 ≤ c.toNat ∧ c.toNat ≤ 57)) ∨ decimalValue ind = 0 ∨ 2 ^ 64 ≤ decimalValue ind)

/-- How many bytes are cut from each line that is not empty: what the indicator says, or else the white space at the start of the
first line. (One space belongs to the indentation of the scalar and is gone already.) -/
def bytesCut (ind : Str) (ls : List Str) : Nat :=
  if ind = [] then utf8Length ((ls.headD []).takeWhile isWhitespace) else decimalValue ind - 1

/-- `BadBlockScalar T inp`: somewhere in the text there is the header of a block scalar (`|` or `>`, perhaps `-` or `+`, perhaps a
number), and either the number cannot be used or a line that follows is too short for what has to be cut from it. -/
def BadBlockScalar (T : CharTables) (inp : Str) : Prop :=
  ∃ pre c chomp ind rest, inp = pre ++ c :: (chomp ++ (ind ++ rest)) ∧ (c = '|' ∨ c = '>') ∧
    (chomp = [] ∨ chomp = ['-'] ∨ chomp = ['+']) ∧ (∀ d ∈ ind, T.number d = true) ∧
    (∀ d, rest.head? = some d → T.number d = false) ∧
    (BadIndicator ind ∨
      ∃ blank p ls text post, rest = blank ++ (text ++ post) ∧ BlankLines blank ∧ ¬ StartsBlank (text ++ post) ∧ AtLineEnd post ∧
        (p ≠ [] ∧ ∀ c ∈ p, isSpaceSeparator c = true) ∧ ScalarLines p ls text ∧
        ∃ x ∈ ls, CannotCut (bytesCut ind ls) x)

end YamlSubset.Spec
