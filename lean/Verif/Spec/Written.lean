import Verif.Spec.Readable
import Verif.Spec.ScalarText

/-! # Specification: the texts that show a document

A document can be written in many layouts: nested collections can be indented by any number of columns, there can be blank
lines, comment lines, spaces at the end of lines and before comments, flow collections can be spread over several lines,
lines can end in CR LF. `DocumentText d x` says that the text `x` shows the document `d`; the relation is defined by what is on
the lines, without reference to the grammar, the consumer functions or the formatter.

Not every YAML layout is among them. This library reads some layouts in another way (see `Props/Written.lean`). -/

namespace YamlSubset.Spec

/-! ## lines -/

/-- Spaces. -/
def pad (n : Nat) : Str := List.replicate n ' '

/-- The characters of the Unicode category Zs. They count as blanks everywhere that a space does. -/
def spaceSeparators : List Char :=
  [' ', '\u00A0', '\u1680', '\u2000', '\u2001', '\u2002', '\u2003', '\u2004', '\u2005', '\u2006', '\u2007', '\u2008', '\u2009', '\u200A',
    '\u202F', '\u205F', '\u3000']

/-- A line break. -/
def Break (x : Str) : Prop := x = ['\n'] ∨ x = ['\r', '\n']

/-- Lines that are empty or consist of spaces, each with its line break. -/
inductive Blanks : Str → Prop
  | nil : Blanks []
  | line {n nl x} (hn : Break nl) (h : Blanks x) : Blanks (pad n ++ nl ++ x)

/-- Comment lines, with any indentation, each with its line break and maybe blank lines after it. -/
inductive CommentLines : List Str → Str → Prop
  | nil : CommentLines [] []
  | line {m c nl b cs x} (hc : LineText c) (hn : Break nl) (hb : Blanks b) (h : CommentLines cs x) :
      CommentLines (c :: cs) (pad m ++ '#' :: c ++ nl ++ b ++ x)

/-- How the text of an item ends. `comment`: with a comment, so that spaces after it would belong to the comment. `scalar`: with a line of
a block scalar, so that spaces, blank lines and deeper lines after it would belong to the scalar. `blanks`: with empty lines of a block scalar;
they count only if a line break follows. -/
inductive Closing where
  | loose | comment | scalar | blanks
  deriving DecidableEq

/-- It ends with a block scalar. -/
def Closing.tight (cl : Closing) : Prop := cl = .scalar ∨ cl = .blanks

/-- The text between a value and the next item of the same collection, up to the start of the line of this item, whose
indentation is `c`: the rest of the line, blank lines, comment lines. -/
inductive Gap : Closing → Nat → List Str → Str → Prop
  | intro {cl c n nl b cs x} (hn : Break nl) (hb : Blanks b) (h : CommentLines cs x) (hcl : cl ≠ .loose → n = 0)
      (ht : cl.tight → b = [] ∧ ∀ m y, x = pad m ++ '#' :: y → m ≤ c) : Gap cl c cs (pad n ++ nl ++ b ++ x)

/-! ## values on one line, flow collections -/

/-- A part of a double quoted scalar. -/
def dqPartText : DQPart → Str
  | .string s => s
  | .removableNewline => ['\n']
  | .blankLines n => List.replicate (n + 1) '\n'
  | .escapedChar .carriageReturn => ['\\', 'r']
  | .escapedChar .newline => ['\\', 'n']
  | .escapedChar .tab => ['\\', 't']
  | .escapedChar .backslash => ['\\', '\\']
  | .escapedChar .quote => ['\\', '"']
  | .escapedChar .realNewline => ['\\', '\n']

/-- A part of a single quoted scalar. -/
def sqPartText : SQPart → Str
  | .string s => s
  | .removableNewline => ['\n']
  | .blankLines n => List.replicate (n + 1) '\n'
  | .escapedChar .singleQuote => ['\'', '\'']

/-- Spaces and line breaks in a flow collection. -/
def Ws (x : Str) : Prop := ∀ c ∈ x, c = ' ' ∨ c = '\n' ∨ c = '\r'

/-- The elements of a flow sequence. -/
inductive FlowElements (P : Yaml → Str → Prop) : List Yaml → Str → Prop
  | last {v w x w'} (hw : Ws w) (h : P v x) (hw' : Ws w') : FlowElements P [v] (w ++ x ++ w')
  | more {v es w x w' rest} (hw : Ws w) (h : P v x) (hw' : Ws w') (hr : FlowElements P es rest) :
      FlowElements P (v :: es) (w ++ x ++ w' ++ ',' :: rest)

/-- The entries of a flow mapping. -/
inductive FlowEntries (T : CharTables) (P : Yaml → Str → Prop) : List (Str × Yaml) → Str → Prop
  | last {k v w wk wv x w'} (hw : Ws w) (hk : KeyText T k) (hwk : Ws wk) (hwv : Ws wv) (h : P v x) (hw' : Ws w') :
      FlowEntries T P [(k, v)] (w ++ k ++ wk ++ ':' :: (wv ++ x ++ w'))
  | more {k v es w wk wv x w' rest} (hw : Ws w) (hk : KeyText T k) (hwk : Ws wk) (hwv : Ws wv) (h : P v x) (hw' : Ws w')
      (hr : FlowEntries T P es rest) : FlowEntries T P ((k, v) :: es) (w ++ k ++ wk ++ ':' :: (wv ++ x ++ w') ++ ',' :: rest)

/-- A value in a flow collection. -/
inductive FlowText (T : CharTables) : Yaml → Str → Prop
  | plain {s} (h : FlowPlain T s) : FlowText T (.unquotedString s) s
  | double {ps} (h : DQChain ps) : FlowText T (.doubleQuotedString ps) ('"' :: (ps.flatMap dqPartText ++ ['"']))
  | single {ps} (h : SQChain ps) : FlowText T (.singleQuotedString ps) ('\'' :: (ps.flatMap sqPartText ++ ['\'']))
  | reference {a} (h : NameText T a) : FlowText T (.anchor a) ('*' :: a)
  | emptyArray {w} (hw : Ws w) : FlowText T (.inlineArray []) ('[' :: (w ++ [']']))
  | array {es x} (h : FlowElements (FlowText T) es x) : FlowText T (.inlineArray es) ('[' :: (x ++ [']']))
  | emptyHash {w} (hw : Ws w) : FlowText T (.inlineHash []) ('{' :: (w ++ ['}']))
  | hash {es x} (h : FlowEntries T (FlowText T) es x) : FlowText T (.inlineHash es) ('{' :: (x ++ ['}']))

/-- A value that is not a block collection or a block scalar, after a key or a dash. -/
inductive ScalarText (T : CharTables) : Yaml → Str → Prop
  | plain {s} (h : BlockPlain T s) (hl : s.getLast? ≠ some ':') : ScalarText T (.unquotedString s) s
  | flow {y x} (hy : ∀ s, y ≠ .unquotedString s) (h : FlowText T y x) : ScalarText T y x

/-- The text between a key or a dash and the value on the same line: spaces and maybe an anchor. -/
inductive Lead (T : CharTables) : Option Str → Str → Prop
  | plain {n} : Lead T none (pad (n + 1))
  | named {a n m} (ha : NameText T a) : Lead T (some a) (pad (n + 1) ++ '&' :: a ++ pad (m + 1))

/-! ## block scalars -/

/-- Lines of a block scalar after the first, indented by `w`; empty lines need no indentation. -/
inductive BlockRest (w : Nat) : Closing → List Str → Str → Prop
  | nil : BlockRest w .scalar [] []
  | blanks {n} : BlockRest w .blanks (List.replicate (n + 1) []) (List.replicate (n + 1) '\n')
  | line {cl n nl l ls x} (hn : Break nl) (hl : LineText l) (h : BlockRest w cl ls x) :
      BlockRest w cl (List.replicate n [] ++ l :: ls) (nl ++ List.replicate n '\n' ++ pad w ++ l ++ x)

/-- A block scalar after its `|` or `>`, where the innermost collection is indented by `t`. The lines are indented by more
than this collection. The first line has no blanks at its start, or there is an indentation indicator. -/
inductive BlockScalarText (t : Nat) : Closing → List Str → BlockChomping → Str → Prop
  | plain {cl l ls chomping m nl d x} (hn : Break nl) (hl : LineText l) (hf : ∃ c u, l = c :: u ∧ isWhitespace c = false)
      (h : BlockRest (t + 1 + d) cl ls x) :
      BlockScalarText t cl (l :: ls) chomping (chompingMark chomping ++ pad m ++ nl ++ pad (t + 1 + d) ++ l ++ x)
  | indicated {cl l ls chomping digit m nl d x} (hn : Break nl) (hl : LineText l) (hf : ∃ c ∈ l, isSpaceSeparator c = false)
      (hd : d < 9 ∧ digit.toNat = '1'.toNat + d) (h : BlockRest (t + 1 + d) cl ls x) :
      BlockScalarText t cl (l :: ls) chomping (chompingMark chomping ++ digit :: (pad m ++ nl ++ pad (t + 1 + d) ++ l ++ x))

/-! ## collections -/

/-- The text between a key or a dash and the line of the first item of a block collection, with the comments in front of this item. -/
inductive BlockLead (T : CharTables) : Bool → Holder → Option Str → List Str → Str → Prop
  /-- on the next line after a key -/
  | nextLine {map cs nl b x} (hn : Break nl) (hb : Blanks b) (h : CommentLines cs x) : BlockLead T map .key none cs (nl ++ b ++ x)
  /-- on the next line after a key or a dash with spaces after it: no comments -/
  | spaces {map hold n nl b} (hn : Break nl) (hb : Blanks b) : BlockLead T map hold none [] (pad (n + 1) ++ nl ++ b)
  /-- with a comment on the same line -/
  | comment {map hold a cs l x} (hl : Lead T a l) (hc : cs ≠ []) (h : CommentLines cs x) : BlockLead T map hold a cs (l ++ x)
  /-- a mapping with an anchor and a comment on the line after it -/
  | named {hold a cs n m nl x} (ha : NameText T a) (hn : Break nl) (hc : cs ≠ []) (h : CommentLines cs x) :
      BlockLead T true hold (some a) cs (pad (n + 1) ++ '&' :: a ++ pad m ++ nl ++ x)

/-- The text between a key or a dash, whose collection has indentation `s`, and the first item of a block collection with indentation `c`
for which the library has a second grammar: the item is on the line of the dash, or the collection has an anchor. -/
inductive InnerLead (T : CharTables) : Holder → Option Str → Nat → Nat → Str → Prop
  | dash {n s} : InnerLead T .dash none s (s + 1 + (n + 1)) (pad (n + 1))
  | named {hold a s c n m nl b} (ha : NameText T a) (hn : Break nl) (hb : Blanks b) :
      InnerLead T hold (some a) s c (pad (n + 1) ++ '&' :: a ++ pad m ++ nl ++ b ++ pad c)

/-- The kind of the first line after a value that is not a comment: none, a line with a key and its indentation, a line with a dash. -/
inductive LineKind where
  | none | key (column : Nat) | dash
  deriving DecidableEq

/-- The condition on values in the definitions below, given: the indentation of the innermost collection that the parser has entered, if
it is known; the kind of the next line; the indentation of the line; what the value is after; how it ends. -/
abbrev ValueText := Option Nat → LineKind → Nat → Holder → Closing → AliasedYaml → Str → Prop

set_option inductive.autoPromoteIndices false in
/-- The value of an item and maybe a comment on the same line. -/
inductive ItemText (T : CharTables) (P : ValueText) : Option Nat → LineKind → Nat → Holder → Closing → AliasedYaml → List Str → Str → Prop
  | value {t next s hold cl v x} (h : P t next s hold cl v x) : ItemText T P t next s hold cl v [] x
  | comment {t next s hold a y lead x n c} (ha : Lead T a lead) (h : ScalarText T y x) (hc : LineText c) :
      ItemText T P t next s hold .comment ⟨a, y⟩ [c] (lead ++ x ++ pad (n + 1) ++ '#' :: c)

set_option inductive.autoPromoteIndices false in
/-- The items of a block mapping with indentation `c`, from the first key on. -/
inductive EntryTexts (T : CharTables) (P : ValueText) : Nat → LineKind → Closing → List HashData → Str → Prop
  | last {c next cl k n v post x} (hk : KeyText T k) (hv : ItemText T P (some c) next c .key cl v post x) :
      EntryTexts T P c next cl (.element ⟨k, v⟩ :: post.map .inlineComment) (k ++ pad n ++ ':' :: x)
  | more {c next cl cl' k n v post x cs g ds rest} (hk : KeyText T k) (hv : ItemText T P (some c) (.key c) c .key cl' v post x) (hg : Gap cl' c cs g)
      (h : EntryTexts T P c next cl ds rest) :
      EntryTexts T P c next cl (.element ⟨k, v⟩ :: post.map .inlineComment ++ cs.map .comment ++ ds) (k ++ pad n ++ ':' :: x ++ g ++ pad c ++ rest)

set_option inductive.autoPromoteIndices false in
/-- The items of a block sequence with indentation `c`, from the first dash on. -/
inductive ElementTexts (T : CharTables) (P : ValueText) : Nat → LineKind → Closing → List ArrayData → Str → Prop
  | last {c next cl v post x} (hv : ItemText T P (some c) next c .dash cl v post x) :
      ElementTexts T P c next cl (.element v :: post.map .inlineComment) ('-' :: x)
  | more {c next cl cl' v post x cs g ds rest} (hv : ItemText T P (some c) .dash c .dash cl' v post x) (hg : Gap cl' c cs g)
      (h : ElementTexts T P c next cl ds rest) :
      ElementTexts T P c next cl (.element v :: post.map .inlineComment ++ cs.map .comment ++ ds) ('-' :: x ++ g ++ pad c ++ rest)

/-- The text of a value after the `:` of its key or the dash. `t`: the indentation of the innermost collection that the parser has entered
when it reads the value, or `none` before the first item of an inner collection. `s`: the indentation of the key or the dash. `next`: the kind of
the next line. -/
inductive Written (T : CharTables) : Option Nat → LineKind → Nat → Holder → Closing → AliasedYaml → Str → Prop
  | scalar {t next s hold a y lead x} (ha : Lead T a lead) (h : ScalarText T y x) : Written T t next s hold .loose ⟨a, y⟩ (lead ++ x)
  | literal {t next s hold cl a ls c lead x} (ha : Lead T a lead) (h : BlockScalarText t cl ls c x) :
      Written T (some t) next s hold cl ⟨a, .literalString ls c⟩ (lead ++ '|' :: x)
  | folded {t next s hold cl a ls c lead x} (ha : Lead T a lead) (h : BlockScalarText t cl ls c x) :
      Written T (some t) next s hold cl ⟨a, .foldedString ls c⟩ (lead ++ '>' :: x)
  /-- a mapping on lines of its own -/
  | hash {t next s c hold cl a cs lead ds x} (hs : s < c) (hl : BlockLead T true hold a cs lead) (h : EntryTexts T (Written T) c next cl ds x) :
      Written T t next s hold cl ⟨a, .hash (cs.map .comment ++ ds)⟩ (lead ++ pad c ++ x)
  /-- a sequence on lines of its own; after a key it need not be indented by more than the key -/
  | array {t next s c hold cl a cs lead ds x} (hs : s < c ∨ hold = .key ∧ s = c) (hl : BlockLead T false hold a cs lead)
      (h : ElementTexts T (Written T) c next cl ds x) :
      Written T t next s hold cl ⟨a, .array (cs.map .comment ++ ds)⟩ (lead ++ pad c ++ x)
  /-- an inner mapping with one entry: if the innermost collection is not known, the next line must not be a key with spaces before it, it would be
  read as another entry -/
  | innerOne {t next s c hold cl a lead k n v post x} (hs : s < c) (hl : InnerLead T hold a s c lead) (hd : t = none → ∀ n, next = .key n → n = 0) (hk : KeyText T k)
      (hv : ItemText T (Written T) t next c .key cl v post x) :
      Written T t next s hold cl ⟨a, .hash (.element ⟨k, v⟩ :: post.map .inlineComment)⟩ (lead ++ k ++ pad n ++ ':' :: x)
  | innerMore {t next s c hold cl cl' a lead k n v post x cs g ds rest} (hs : s < c) (hl : InnerLead T hold a s c lead) (hk : KeyText T k)
      (hv : ItemText T (Written T) none (.key c) c .key cl' v post x) (hg : Gap cl' c cs g) (h : EntryTexts T (Written T) c next cl ds rest) :
      Written T t next s hold cl ⟨a, .hash (.element ⟨k, v⟩ :: post.map .inlineComment ++ cs.map .comment ++ ds)⟩
        (lead ++ k ++ pad n ++ ':' :: x ++ g ++ pad c ++ rest)
  /-- an inner sequence with one element: the next line must not be another dash -/
  | innerElement {t next s c hold cl a lead v post x} (hs : s < c ∨ hold = .key ∧ s = c) (hl : InnerLead T hold a s c lead) (hd : next ≠ .dash)
      (hv : ItemText T (Written T) none next c .dash cl v post x) :
      Written T t next s hold cl ⟨a, .array (.element v :: post.map .inlineComment)⟩ (lead ++ '-' :: x)
  /-- no comment lines between the first two elements -/
  | innerElements {t next s c hold cl cl' a lead v post x g ds rest} (hs : s < c ∨ hold = .key ∧ s = c) (hl : InnerLead T hold a s c lead)
      (hv : ItemText T (Written T) none .dash c .dash cl' v post x) (hg : Gap cl' c [] g) (h : ElementTexts T (Written T) c next cl ds rest) :
      Written T t next s hold cl ⟨a, .array (.element v :: post.map .inlineComment ++ ds)⟩ (lead ++ '-' :: x ++ g ++ pad c ++ rest)

/-! ## documents -/

/-- The root of a document, with the indentation of its lines. -/
inductive RootText (T : CharTables) : Nat → Closing → Yaml → Str → Prop
  | hash {c cl ds x} (h : EntryTexts T (Written T) c .none cl ds x) : RootText T c cl (.hash ds) (pad c ++ x)
  | array {c cl ds x} (h : ElementTexts T (Written T) c .none cl ds x) : RootText T c cl (.array ds) (pad c ++ x)
  | flow {es x} (h : FlowText T (.inlineArray es) x) : RootText T 0 .loose (.inlineArray es) x

/-- The end of the text: spaces, blank lines, comments, the last one maybe without a line break. -/
inductive Tail : Closing → Nat → List Str → Str → Prop
  | spaces {c n} : Tail .loose c [] (pad n)
  | nil {cl c} (hcl : cl ≠ .blanks) : Tail cl c [] []
  | lines {cl c cs g n} (hg : Gap cl c cs g) (hn : cl.tight → cs = [] → n ≤ c) : Tail cl c cs (g ++ pad n)
  | comment {cl c cs g n d} (hg : Gap cl c cs g) (hn : cl.tight → cs = [] → n ≤ c) (hd : LineText d) : Tail cl c (cs ++ [d]) (g ++ pad n ++ '#' :: d)

/-- The comments before the header; without comments, nothing may be before the header. -/
inductive LeadingText : List Str → Str → Prop
  | nil : LeadingText [] []
  | comments {b cs x} (hb : Blanks b) (hc : cs ≠ []) (h : CommentLines cs x) : LeadingText cs (b ++ x)

/-- The text `x` shows the document `d`. -/
inductive DocumentText (T : CharTables) : Document → Str → Prop
  | intro {leading pre post root c cl lead n nl b preText rootText tail} (hl : LeadingText leading lead) (hn : Break nl) (hb : Blanks b)
      (hp : CommentLines pre preText) (hr : RootText T c cl root rootText) (ht : Tail cl c post tail) :
      DocumentText T ⟨leading, pre.map .comment ++ [.yaml root] ++ post.map .comment⟩
        (lead ++ ['-', '-', '-'] ++ pad n ++ nl ++ b ++ preText ++ rootText ++ tail)

end YamlSubset.Spec
