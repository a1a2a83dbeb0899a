import Verif.Spec.Parsed

/-! # Specification: line breaks

A line break in a text is a line feed, a carriage return, or both in this order. -/

namespace YamlSubset.Spec

/-- The text with line feeds as line breaks: a carriage return before a line feed is dropped, any other becomes a line feed. -/
def unixBreaks : Str → Str
  | [] => []
  | c :: t => if c = '\r' then (if t.head? = some '\n' then unixBreaks t else '\n' :: unixBreaks t) else c :: unixBreaks t

/-- The text with a carriage return before each line feed. -/
def windowsBreaks : Str → Str
  | [] => []
  | c :: t => if c = '\n' then '\r' :: '\n' :: windowsBreaks t else c :: windowsBreaks t

/-- No line ends with a backslash. -/
def NoBackslashBreak (s : Str) : Prop := ∀ a c b, s = a ++ '\\' :: c :: b → c ≠ '\n' ∧ c ≠ '\r'

/-- Parts of a double quoted scalar that stand for line breaks in the text. -/
def DQBreak : DQPart → Prop
  | .removableNewline => True
  | .blankLines _ => True
  | _ => False

/-- Parts of a single quoted scalar that stand for line breaks in the text. -/
def SQBreak : SQPart → Prop
  | .removableNewline => True
  | .blankLines _ => True
  | _ => False

/-- The lines of two block scalars are the same up to empty lines, and the same if there is no empty line in the second one. -/
def LinesAlike (ls ls' : List Str) : Prop :=
  ls.filter (· ≠ []) = ls'.filter (· ≠ []) ∧ ([] ∉ ls' → ls = ls')

mutual
/-- Two trees differ only in quoted scalars for which the second tree says that they contain line breaks, and in the empty lines
of block scalars. -/
inductive Alike : Yaml → Yaml → Prop
  | same (y : Yaml) : Alike y y
  | double {ps ps'} (h : ∃ p ∈ ps', DQBreak p) : Alike (.doubleQuotedString ps) (.doubleQuotedString ps')
  | single {ps ps'} (h : ∃ p ∈ ps', SQBreak p) : Alike (.singleQuotedString ps) (.singleQuotedString ps')
  | literal {ls ls' c} (h : LinesAlike ls ls') : Alike (.literalString ls c) (.literalString ls' c)
  | folded {ls ls' c} (h : LinesAlike ls ls') : Alike (.foldedString ls c) (.foldedString ls' c)
  | flowHash {es es'} (h : AlikeEntries es es') : Alike (.inlineHash es) (.inlineHash es')
  | flowArray {es es'} (h : AlikeValues es es') : Alike (.inlineArray es) (.inlineArray es')
  | hash {ds ds'} (h : AlikeItems ds ds') : Alike (.hash ds) (.hash ds')
  | array {ds ds'} (h : AlikeElements ds ds') : Alike (.array ds) (.array ds')
/-- Entries of flow mappings. -/
inductive AlikeEntries : List (Str × Yaml) → List (Str × Yaml) → Prop
  | nil : AlikeEntries [] []
  | cons {k v v' es es'} (hv : Alike v v') (h : AlikeEntries es es') : AlikeEntries ((k, v) :: es) ((k, v') :: es')
/-- Elements of flow sequences. -/
inductive AlikeValues : List Yaml → List Yaml → Prop
  | nil : AlikeValues [] []
  | cons {v v' es es'} (hv : Alike v v') (h : AlikeValues es es') : AlikeValues (v :: es) (v' :: es')
/-- Items of block mappings. -/
inductive AlikeItems : List HashData → List HashData → Prop
  | nil : AlikeItems [] []
  | comment {c ds ds'} (h : AlikeItems ds ds') : AlikeItems (.comment c :: ds) (.comment c :: ds')
  | inlineComment {c ds ds'} (h : AlikeItems ds ds') : AlikeItems (.inlineComment c :: ds) (.inlineComment c :: ds')
  | element {k a v v' ds ds'} (hv : Alike v v') (h : AlikeItems ds ds') :
      AlikeItems (.element ⟨k, ⟨a, v⟩⟩ :: ds) (.element ⟨k, ⟨a, v'⟩⟩ :: ds')
/-- Items of block sequences. -/
inductive AlikeElements : List ArrayData → List ArrayData → Prop
  | nil : AlikeElements [] []
  | comment {c ds ds'} (h : AlikeElements ds ds') : AlikeElements (.comment c :: ds) (.comment c :: ds')
  | inlineComment {c ds ds'} (h : AlikeElements ds ds') : AlikeElements (.inlineComment c :: ds) (.inlineComment c :: ds')
  | element {a v v' ds ds'} (hv : Alike v v') (h : AlikeElements ds ds') :
      AlikeElements (.element ⟨a, v⟩ :: ds) (.element ⟨a, v'⟩ :: ds')
end

/-- The same comments, and roots that are alike. -/
inductive AlikeDocuments : Document → Document → Prop
  | mk {leading : List Str} {pre post : List Str} {y y' : Yaml} (h : Alike y y') :
      AlikeDocuments ⟨leading, pre.map .comment ++ [.yaml y] ++ post.map .comment⟩
        ⟨leading, pre.map .comment ++ [.yaml y'] ++ post.map .comment⟩

/-- No quoted scalar contains a line break and no block scalar an empty line. -/
inductive Calm : Yaml → Prop
  | plain {s} : Calm (.unquotedString s)
  | reference {a} : Calm (.anchor a)
  | double {ps} (h : ∀ p ∈ ps, ¬ DQBreak p) : Calm (.doubleQuotedString ps)
  | single {ps} (h : ∀ p ∈ ps, ¬ SQBreak p) : Calm (.singleQuotedString ps)
  | literal {ls c} (h : [] ∉ ls) : Calm (.literalString ls c)
  | folded {ls c} (h : [] ∉ ls) : Calm (.foldedString ls c)
  | flowHash {es} (h : ∀ k v, (k, v) ∈ es → Calm v) : Calm (.inlineHash es)
  | flowArray {es} (h : ∀ v ∈ es, Calm v) : Calm (.inlineArray es)
  | hash {ds} (h : ∀ k a v, HashData.element ⟨k, ⟨a, v⟩⟩ ∈ ds → Calm v) : Calm (.hash ds)
  | array {ds} (h : ∀ a v, ArrayData.element ⟨a, v⟩ ∈ ds → Calm v) : Calm (.array ds)

/-- A calm document. -/
def CalmDocument (d : Document) : Prop := ∀ y, .yaml y ∈ d.items → Calm y

end YamlSubset.Spec
