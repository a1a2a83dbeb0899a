import Verif.Spec.BlockScalar

/-! # Specification: the visible characters of a document

`Shown y x` says that a value is written with the visible characters `x`: where the white space is does not matter, everything
else does. Nothing here refers to the grammar, the consumer functions or the formatter. -/

namespace YamlSubset.Spec

/-- A text without its white space. -/
def visible (s : Str) : Str := s.filter fun c => !isWhitespace c

/-- A part of a double quoted scalar. -/
def dqShown : DQPart → Str
  | .string s => visible s
  | .escapedChar .quote => ['\\', '"']
  | .escapedChar .backslash => ['\\', '\\']
  | .escapedChar .tab => ['\\', 't']
  | .escapedChar .carriageReturn => ['\\', 'r']
  | .escapedChar .newline => ['\\', 'n']
  | .escapedChar .realNewline => ['\\']
  | .blankLines _ => []
  | .removableNewline => []

/-- A part of a single quoted scalar. -/
def sqShown : SQPart → Str
  | .string s => visible s
  | .escapedChar .singleQuote => ['\'', '\'']
  | .blankLines _ => []
  | .removableNewline => []

/-- The chomping indicator of a block scalar. -/
def chompingShown : BlockChomping → Str
  | .clip => []
  | .strip => ['-']
  | .keep => ['+']

/-- `Cut n raw ls`: the lines `ls` are the lines `raw`, with `n` bytes cut off at the start of each line that is not empty. -/
inductive Cut (n : Nat) : List Str → List Str → Prop
  | nil : Cut n [] []
  | empty {raw ls} (h : Cut n raw ls) : Cut n ([] :: raw) ([] :: ls)
  | line {u l raw ls} (hu : utf8Length u = n) (hl : u ++ l ≠ []) (h : Cut n raw ls) : Cut n ((u ++ l) :: raw) (l :: ls)

/-- The text of a block scalar after its `|` or `>`: the chomping indicator, the indentation indicator, the lines. What is cut off at
the start of the lines is visible here even if it is not white space. -/
inductive BlockShown : List Str → BlockChomping → Str → Prop
  | mk {raw ls c ind} (hi : ∀ d ∈ ind, 48 ≤ d.toNat ∧ d.toNat ≤ 57) (hr : raw ≠ []) (hc : Cut (bytesCut ind raw) raw ls) :
      BlockShown ls c (chompingShown c ++ ind ++ raw.flatMap visible)

/-- The name of an anchor. -/
def anchorShown : Option Str → Str
  | none => []
  | some n => '&' :: visible n

set_option inductive.autoPromoteIndices false in
/-- The items of a block mapping. -/
inductive EntriesShown (P : Yaml → Str → Prop) : List HashData → Str → Prop
  | nil : EntriesShown P [] []
  | comment {c ds x} (h : EntriesShown P ds x) : EntriesShown P (.comment c :: ds) ('#' :: (visible c ++ x))
  | inlineComment {c ds x} (h : EntriesShown P ds x) : EntriesShown P (.inlineComment c :: ds) ('#' :: (visible c ++ x))
  | element {k a v ds x z} (hv : P v x) (h : EntriesShown P ds z) :
      EntriesShown P (.element ⟨k, ⟨a, v⟩⟩ :: ds) (visible k ++ ':' :: (anchorShown a ++ (x ++ z)))

set_option inductive.autoPromoteIndices false in
/-- The items of a block sequence. -/
inductive ElementsShown (P : Yaml → Str → Prop) : List ArrayData → Str → Prop
  | nil : ElementsShown P [] []
  | comment {c ds x} (h : ElementsShown P ds x) : ElementsShown P (.comment c :: ds) ('#' :: (visible c ++ x))
  | inlineComment {c ds x} (h : ElementsShown P ds x) : ElementsShown P (.inlineComment c :: ds) ('#' :: (visible c ++ x))
  | element {a v ds x z} (hv : P v x) (h : ElementsShown P ds z) :
      ElementsShown P (.element ⟨a, v⟩ :: ds) ('-' :: (anchorShown a ++ (x ++ z)))

set_option inductive.autoPromoteIndices false in
/-- The entries of a flow mapping. -/
inductive FlowEntriesShown (P : Yaml → Str → Prop) : List (Str × Yaml) → Str → Prop
  | nil : FlowEntriesShown P [] []
  | one {k v x} (hv : P v x) : FlowEntriesShown P [(k, v)] (visible k ++ ':' :: x)
  | more {k v e es x z} (hv : P v x) (h : FlowEntriesShown P (e :: es) z) :
      FlowEntriesShown P ((k, v) :: e :: es) (visible k ++ ':' :: (x ++ ',' :: z))

set_option inductive.autoPromoteIndices false in
/-- The elements of a flow sequence. -/
inductive FlowElementsShown (P : Yaml → Str → Prop) : List Yaml → Str → Prop
  | nil : FlowElementsShown P [] []
  | one {v x} (hv : P v x) : FlowElementsShown P [v] x
  | more {v w vs x z} (hv : P v x) (h : FlowElementsShown P (w :: vs) z) : FlowElementsShown P (v :: w :: vs) (x ++ ',' :: z)

/-- A value. -/
inductive Shown : Yaml → Str → Prop
  | plain {s} : Shown (.unquotedString s) (visible s)
  | double {ps} : Shown (.doubleQuotedString ps) ('"' :: (ps.flatMap dqShown ++ ['"']))
  | single {ps} : Shown (.singleQuotedString ps) ('\'' :: (ps.flatMap sqShown ++ ['\'']))
  | reference {a} : Shown (.anchor a) ('*' :: visible a)
  | literal {ls c x} (h : BlockShown ls c x) : Shown (.literalString ls c) ('|' :: x)
  | folded {ls c x} (h : BlockShown ls c x) : Shown (.foldedString ls c) ('>' :: x)
  | hash {ds x} (h : EntriesShown Shown ds x) : Shown (.hash ds) x
  | array {ds x} (h : ElementsShown Shown ds x) : Shown (.array ds) x
  | flowHash {es x} (h : FlowEntriesShown Shown es x) : Shown (.inlineHash es) ('{' :: (x ++ ['}']))
  | flowArray {es x} (h : FlowElementsShown Shown es x) : Shown (.inlineArray es) ('[' :: (x ++ [']']))

/-- Comments. -/
def commentsShown (cs : List Str) : Str := cs.flatMap fun c => '#' :: visible c

/-- A document. -/
inductive DocumentShown : Document → Str → Prop
  | mk {leading pre post : List Str} {root x} (h : Shown root x) :
      DocumentShown ⟨leading, pre.map .comment ++ [.yaml root] ++ post.map .comment⟩
        (commentsShown leading ++ (['-', '-', '-'] ++ (commentsShown pre ++ (x ++ commentsShown post))))

/-- No block scalar occurs in the value. -/
inductive NoBlockScalar : Yaml → Prop
  | plain {s} : NoBlockScalar (.unquotedString s)
  | double {ps} : NoBlockScalar (.doubleQuotedString ps)
  | single {ps} : NoBlockScalar (.singleQuotedString ps)
  | reference {a} : NoBlockScalar (.anchor a)
  | hash {ds} (h : ∀ k a v, HashData.element ⟨k, ⟨a, v⟩⟩ ∈ ds → NoBlockScalar v) : NoBlockScalar (.hash ds)
  | array {ds} (h : ∀ a v, ArrayData.element ⟨a, v⟩ ∈ ds → NoBlockScalar v) : NoBlockScalar (.array ds)
  | flowHash {es} (h : ∀ k v, (k, v) ∈ es → NoBlockScalar v) : NoBlockScalar (.inlineHash es)
  | flowArray {es} (h : ∀ v, v ∈ es → NoBlockScalar v) : NoBlockScalar (.inlineArray es)

end YamlSubset.Spec
