import Verif.Model.Ast
import Verif.Model.Grammar

/-! # Specification: what a parsed document looks like

Nothing here refers to the grammar or the consumer functions; only the Unicode tables (`CharTables`: what is a
letter, what is a number) are shared. -/

namespace YamlSubset.Spec

/-- A text on one line. -/
def LineText (s : Str) : Prop := '\n' ∉ s ∧ '\r' ∉ s

/-- Characters of anchor names. -/
def NameChar (T : CharTables) (c : Char) : Prop := T.letter c = true ∨ T.number c = true ∨ c = '_'

/-- An anchor name: letters, numbers and underscores, at least one. -/
def NameText (T : CharTables) (s : Str) : Prop := s ≠ [] ∧ ∀ c ∈ s, NameChar T c

/-- A hash key: starts with a letter, a number or an underscore, continues with these, `-` and space, and does not end in
white space. -/
structure KeyText (T : CharTables) (k : Str) : Prop where
  nonempty : k ≠ []
  first : ∀ c, k.head? = some c → NameChar T c
  chars : ∀ c ∈ k, NameChar T c ∨ c = '-' ∨ c = ' '
  last : ∀ c, k.getLast? = some c → isWhitespace c = false

/-- A plain scalar: one line, no `#`, no `: `, no space at the end, and it does not start like a
flow collection or a quoted scalar. -/
structure PlainText (s : Str) : Prop where
  line : LineText s
  noHash : '#' ∉ s
  noColonSpace : ∀ a b, s ≠ a ++ ':' :: ' ' :: b
  last : s.getLast? ≠ some ' '
  first : ∀ c, s.head? = some c → c ∉ ['[', ']', '{', '}', '"', '\'', '#']

/-- A plain scalar outside flow collections: moreover it does not start like a block scalar, and it is not a reference. -/
structure BlockPlainText (T : CharTables) (s : Str) : Prop where
  plain : PlainText s
  notBlock : s.head? ≠ some '>' ∧ s.head? ≠ some '|'
  notReference : ∀ d t, s = '*' :: d :: t → ¬ NameChar T d

/-- A plain scalar in a flow collection: moreover it is not empty, does not start with a space, contains no flow punctuation, contains
`>` and `|` only at its start, and is not a reference. -/
structure FlowPlainText (T : CharTables) (s : Str) : Prop where
  plain : PlainText s
  nonempty : s ≠ []
  noFlow : ∀ c ∈ s, c ∉ [',', '[', ']', '{', '}', '"']
  tail : ∀ c ∈ s.tail, c ≠ '>' ∧ c ≠ '|'
  start : s.head? ≠ some ' '
  notReference : ∀ d t, s = '*' :: d :: t → ¬ NameChar T d

/-- A part of a double quoted scalar: text parts are not empty and contain no quote, backslash or line break. -/
def DQPartText : DQPart → Prop
  | .string s => s ≠ [] ∧ ∀ c ∈ s, c ≠ '"' ∧ c ≠ '\\' ∧ c ≠ '\n'
  | .blankLines n => 1 ≤ n
  | _ => True

/-- A part of a single quoted scalar. -/
def SQPartText : SQPart → Prop
  | .string s => s ≠ [] ∧ ∀ c ∈ s, c ≠ '\'' ∧ c ≠ '\n'
  | .blankLines n => 1 ≤ n
  | _ => True

/-- Parts of a double quoted scalar as the parser makes them: adjacent texts and adjacent line breaks are one part. -/
inductive DQChain : List DQPart → Prop
  | nil : DQChain []
  | one {p} (h : DQPartText p) : DQChain [p]
  | cons {p q ps} (h : DQPartText p) (ht : ¬ ∃ s t, p = .string s ∧ q = .string t)
      (hb : ¬ ((p = .removableNewline ∨ ∃ n, p = .blankLines n) ∧ (q = .removableNewline ∨ ∃ n, q = .blankLines n)))
      (hps : DQChain (q :: ps)) : DQChain (p :: q :: ps)

/-- Parts of a single quoted scalar as the parser makes them. -/
inductive SQChain : List SQPart → Prop
  | nil : SQChain []
  | one {p} (h : SQPartText p) : SQChain [p]
  | cons {p q ps} (h : SQPartText p) (ht : ¬ ∃ s t, p = .string s ∧ q = .string t)
      (hb : ¬ ((p = .removableNewline ∨ ∃ n, p = .blankLines n) ∧ (q = .removableNewline ∨ ∃ n, q = .blankLines n)))
      (hps : SQChain (q :: ps)) : SQChain (p :: q :: ps)

/-- A value in flow style: only flow collections, quoted and plain scalars and references occur in it. -/
inductive ParsedFlow (T : CharTables) : Yaml → Prop
  | inlineHash {es} (keys : ∀ k v, (k, v) ∈ es → KeyText T k) (values : ∀ k v, (k, v) ∈ es → ParsedFlow T v) :
      ParsedFlow T (.inlineHash es)
  | inlineArray {es} (h : ∀ v ∈ es, ParsedFlow T v) : ParsedFlow T (.inlineArray es)
  | doubleQuoted {ps} (h : DQChain ps) : ParsedFlow T (.doubleQuotedString ps)
  | singleQuoted {ps} (h : SQChain ps) : ParsedFlow T (.singleQuotedString ps)
  | plain {s} (h : FlowPlainText T s) : ParsedFlow T (.unquotedString s)
  | anchor {a} (h : NameText T a) : ParsedFlow T (.anchor a)

/-- Every inline comment comes directly after an element. -/
def InlineAfterElement {α : Type} (isInline isElement : α → Prop) (ds : List α) : Prop :=
  ∀ pre d post, ds = pre ++ d :: post → isInline d → ∃ pre' e, pre = pre' ++ [e] ∧ isElement e

/-- A parsed value. -/
inductive ParsedValue (T : CharTables) : Yaml → Prop
  | flowHash {es} (h : ParsedFlow T (.inlineHash es)) : ParsedValue T (.inlineHash es)
  | flowArray {es} (h : ParsedFlow T (.inlineArray es)) : ParsedValue T (.inlineArray es)
  | doubleQuoted {ps} (h : DQChain ps) : ParsedValue T (.doubleQuotedString ps)
  | singleQuoted {ps} (h : SQChain ps) : ParsedValue T (.singleQuotedString ps)
  | plain {s} (h : BlockPlainText T s) : ParsedValue T (.unquotedString s)
  | anchor {a} (h : NameText T a) : ParsedValue T (.anchor a)
  | literal {ls c} (h : ∀ l ∈ ls, LineText l) (h' : ls ≠ []) : ParsedValue T (.literalString ls c)
  | folded {ls c} (h : ∀ l ∈ ls, LineText l) (h' : ls ≠ []) : ParsedValue T (.foldedString ls c)
  | hash {ds}
      (nonempty : ∃ e, HashData.element e ∈ ds)
      (keys : ∀ e, HashData.element e ∈ ds → KeyText T e.key)
      (anchors : ∀ e a, HashData.element e ∈ ds → e.value.alias = some a → NameText T a)
      (values : ∀ e, HashData.element e ∈ ds → ParsedValue T e.value.value)
      (comments : ∀ c, HashData.comment c ∈ ds ∨ HashData.inlineComment c ∈ ds → LineText c)
      (inline : InlineAfterElement (fun d => ∃ c, d = .inlineComment c) (fun d => ∃ e, d = .element e) ds) :
      ParsedValue T (.hash ds)
  | array {ds}
      (nonempty : ∃ e, ArrayData.element e ∈ ds)
      (anchors : ∀ e a, ArrayData.element e ∈ ds → e.alias = some a → NameText T a)
      (values : ∀ e, ArrayData.element e ∈ ds → ParsedValue T e.value)
      (comments : ∀ c, ArrayData.comment c ∈ ds ∨ ArrayData.inlineComment c ∈ ds → LineText c)
      (inline : InlineAfterElement (fun d => ∃ c, d = .inlineComment c) (fun d => ∃ e, d = .element e) ds) :
      ParsedValue T (.array ds)

/-- The root of a document: a block collection or a flow sequence. -/
def RootCollection : Yaml → Prop
  | .hash _ => True
  | .array _ => True
  | .inlineArray _ => True
  | _ => False

/-- A parsed document: comments, one root collection, comments. -/
structure ParsedDocument (T : CharTables) (d : Document) : Prop where
  leading : ∀ c ∈ d.leadingComments, LineText c
  items : ∃ (pre post : List Str) (root : Yaml),
    d.items = pre.map .comment ++ [.yaml root] ++ post.map .comment ∧
    (∀ c ∈ pre ++ post, LineText c) ∧ RootCollection root ∧ ParsedValue T root

end YamlSubset.Spec
