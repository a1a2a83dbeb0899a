import Verif.Spec.Parsed

/-! # Specification: which documents survive formatting and parsing

Nothing here refers to the grammar, the consumer functions or the formatter. The conditions are the price of
the library's parser, and the ones that look odd are sharp: `Props/RoundTrip.lean` has a document that
does not survive for each of them. -/

namespace YamlSubset.Spec

/-- Characters of hash keys. -/
def KeyChar (T : CharTables) (c : Char) : Prop := NameChar T c ∨ c = '-' ∨ c = ' '

/-- A text that starts with what looks like a space to the parser, or is empty. -/
def BlankStart (s : Str) : Prop := ∀ c, s.head? = some c → isSpaceSeparator c = true

/-! ## scalars -/

/-- A plain scalar in a block collection. -/
structure BlockPlain (T : CharTables) (s : Str) : Prop where
  nonempty : s ≠ []
  line : LineText s
  noHash : '#' ∉ s
  noColonSpace : ∀ a b, s ≠ a ++ ':' :: ' ' :: b
  last : s.getLast? ≠ some ' '
  /-- it does not start like something else -/
  first : ∀ c, s.head? = some c → c ∉ ['[', ']', '{', '}', '"', '\'', '>', '|'] ∧ isSpaceSeparator c = false
  /-- it is not an anchor or a reference -/
  notMark : ∀ c d t, s = c :: d :: t → c = '&' ∨ c = '*' → ¬ NameChar T d
  /-- it is not a sequence entry -/
  notDash : ∀ t, s = '-' :: t → ¬ BlankStart t
  /-- it is not a mapping entry -/
  notKey : ∀ c k t, s = (c :: k) ++ ':' :: t → NameChar T c → (∀ d ∈ k, KeyChar T d) → ¬ BlankStart t

/-- A plain scalar in a flow collection. -/
structure FlowPlain (T : CharTables) (s : Str) : Prop where
  nonempty : s ≠ []
  line : LineText s
  chars : ∀ c ∈ s, c ∉ [',', '[', ']', '{', '}', '"', '#']
  tail : ∀ c ∈ s.tail, c ≠ '>' ∧ c ≠ '|'
  noColonSpace : ∀ a b, s ≠ a ++ ':' :: ' ' :: b
  last : s.getLast? ≠ some ' ' ∧ s.getLast? ≠ some ':'
  first : s.head? ≠ some ' ' ∧ s.head? ≠ some '\''
  notReference : ∀ d t, s = '*' :: d :: t → ¬ NameChar T d

/-- A flow value inside a flow collection. -/
inductive Flow (T : CharTables) : Yaml → Prop
  | hash {es} (keys : ∀ k v, (k, v) ∈ es → KeyText T k) (values : ∀ k v, (k, v) ∈ es → Flow T v) : Flow T (.inlineHash es)
  | array {es} (h : ∀ v ∈ es, Flow T v) : Flow T (.inlineArray es)
  | plain {s} (h : FlowPlain T s) : Flow T (.unquotedString s)
  | double {ps} (h : DQChain ps) : Flow T (.doubleQuotedString ps)
  | single {ps} (h : SQChain ps) : Flow T (.singleQuotedString ps)
  | reference {a} (h : NameText T a) : Flow T (.anchor a)

/-- A value on the line of its key: everything but block collections and block scalars. -/
inductive OneLine (T : CharTables) : Yaml → Prop
  | hash {es} (h : Flow T (.inlineHash es)) : OneLine T (.inlineHash es)
  | array {es} (h : Flow T (.inlineArray es)) : OneLine T (.inlineArray es)
  | plain {s} (h : BlockPlain T s) : OneLine T (.unquotedString s)
  | double {ps} (h : DQChain ps) : OneLine T (.doubleQuotedString ps)
  | single {ps} (h : SQChain ps) : OneLine T (.singleQuotedString ps)
  | reference {a} (h : NameText T a) : OneLine T (.anchor a)

/-- A comment may stand on the line of the value. -/
def Commentable : Yaml → Prop
  | .unquotedString s => s.getLast? ≠ some ':'
  | _ => True

/-- The lines of a block scalar. A first line that starts with a space gets an indentation indicator, which is
read correctly only if the scalar is indented by two more than the innermost collection (`flush`). -/
structure BlockLines (flush : Bool) (ls : List Str) : Prop where
  lines : ∀ l ∈ ls, LineText l
  first : ∃ l rest, ls = l :: rest ∧
    ((∃ c t, l = c :: t ∧ isWhitespace c = false) ∨
      (flush = true ∧ l.head? = some ' ' ∧ ∃ c ∈ l, isSpaceSeparator c = false))

/-! ## places -/

/-- The kind of the first line after a value that is not a comment. -/
inductive Next where
  | none | key | dash
  deriving DecidableEq

/-- What the value comes after. -/
inductive Holder where
  | key | dash
  deriving DecidableEq

/-- What a value depends on. `deep`: the next line may be indented by more than the innermost collection the parser has
entered when it reads the value; this is so after the first entry of a mapping that starts on the line of its dash or its
anchor. `flush`: the value is indented by two more than this collection. -/
structure Place where
  deep : Bool
  flush : Bool
  next : Next

set_option inductive.autoPromoteIndices false in
/-- The items of a block mapping whose indentation the parser has entered: comments, entries, comments at the end
of a line. `P` is the condition on a value, given its place and whether it has an anchor. -/
inductive Entries (T : CharTables) (P : Place → Holder → Bool → Yaml → Prop) : Next → List HashData → Prop
  | comment {next c ds} (hc : LineText c) (h : Entries T P next ds) : Entries T P next (.comment c :: ds)
  | last {next k a v} (hk : KeyText T k) (ha : ∀ n, a = some n → NameText T n) (hv : P ⟨false, true, next⟩ .key a.isSome v) :
      Entries T P next [.element ⟨k, ⟨a, v⟩⟩]
  | lastComment {next k a v c} (hk : KeyText T k) (ha : ∀ n, a = some n → NameText T n) (hv : OneLine T v) (hv' : Commentable v)
      (hc : LineText c) : Entries T P next [.element ⟨k, ⟨a, v⟩⟩, .inlineComment c]
  | entry {next k a v ds} (hk : KeyText T k) (ha : ∀ n, a = some n → NameText T n) (hv : P ⟨false, true, .key⟩ .key a.isSome v)
      (h : Entries T P next ds) : Entries T P next (.element ⟨k, ⟨a, v⟩⟩ :: ds)
  | entryComment {next k a v c ds} (hk : KeyText T k) (ha : ∀ n, a = some n → NameText T n) (hv : OneLine T v) (hv' : Commentable v)
      (hc : LineText c) (h : Entries T P next ds) : Entries T P next (.element ⟨k, ⟨a, v⟩⟩ :: .inlineComment c :: ds)

set_option inductive.autoPromoteIndices false in
/-- The items of a block sequence whose indentation the parser has entered. -/
inductive Elements (T : CharTables) (P : Place → Holder → Bool → Yaml → Prop) : Next → List ArrayData → Prop
  | comment {next c ds} (hc : LineText c) (h : Elements T P next ds) : Elements T P next (.comment c :: ds)
  | last {next a v} (ha : ∀ n, a = some n → NameText T n) (hv : P ⟨false, true, next⟩ .dash a.isSome v) :
      Elements T P next [.element ⟨a, v⟩]
  | lastComment {next a v c} (ha : ∀ n, a = some n → NameText T n) (hv : OneLine T v) (hv' : Commentable v) (hc : LineText c) :
      Elements T P next [.element ⟨a, v⟩, .inlineComment c]
  | element {next a v ds} (ha : ∀ n, a = some n → NameText T n) (hv : P ⟨false, true, .dash⟩ .dash a.isSome v)
      (h : Elements T P next ds) : Elements T P next (.element ⟨a, v⟩ :: ds)
  | elementComment {next a v c ds} (ha : ∀ n, a = some n → NameText T n) (hv : OneLine T v) (hv' : Commentable v)
      (hc : LineText c) (h : Elements T P next ds) : Elements T P next (.element ⟨a, v⟩ :: .inlineComment c :: ds)

/-- A value after a key or a dash (`holder`), with or without an anchor (`named`).

A block collection is written on lines of its own after a key, and starts on the line of the dash after a dash. The
parser has a second grammar for collections that start on the line of a dash or whose anchor is on the line before, the
"alternative" collections. It reads the first entry of such a mapping, and the first element of such a sequence, before
it enters the indentation of the collection. -/
inductive Readable (T : CharTables) : Place → Holder → Bool → Yaml → Prop
  | oneLine {p par named y} (h : OneLine T y) : Readable T p par named y
  /-- block scalars: the next line must not be indented by more than the innermost collection, it would be read as a part of
  the scalar -/
  | literal {p par named ls c} (hd : p.deep = false) (h : BlockLines p.flush ls) : Readable T p par named (.literalString ls c)
  | folded {p par named ls c} (hd : p.deep = false) (h : BlockLines p.flush ls) : Readable T p par named (.foldedString ls c)
  /-- a mapping on lines of its own -/
  | hash {p ds} (h : Entries T (Readable T) p.next ds) : Readable T p .key false (.hash ds)
  /-- a mapping with an anchor that starts with a comment -/
  | hashNamed {p par c ds} (h : Entries T (Readable T) p.next (.comment c :: ds)) : Readable T p par true (.hash (.comment c :: ds))
  /-- an alternative mapping with one entry -/
  | altOne {p par named k a v} (hp : par = .dash ∨ named = true) (hsteal : ¬ (p.deep = true ∧ p.next = .key))
      (hk : KeyText T k) (ha : ∀ n, a = some n → NameText T n) (hv : Readable T ⟨p.deep, false, p.next⟩ .key a.isSome v) :
      Readable T p par named (.hash [.element ⟨k, ⟨a, v⟩⟩])
  | altOneComment {p par named k a v c} (hp : par = .dash ∨ named = true) (hsteal : ¬ (p.deep = true ∧ p.next = .key))
      (hk : KeyText T k) (ha : ∀ n, a = some n → NameText T n) (hv : OneLine T v) (hv' : Commentable v) (hc : LineText c) :
      Readable T p par named (.hash [.element ⟨k, ⟨a, v⟩⟩, .inlineComment c])
  /-- an alternative mapping with more entries -/
  | altMore {p par named k a v ds} (hp : par = .dash ∨ named = true)
      (hk : KeyText T k) (ha : ∀ n, a = some n → NameText T n) (hv : Readable T ⟨true, false, .key⟩ .key a.isSome v)
      (h : Entries T (Readable T) p.next ds) : Readable T p par named (.hash (.element ⟨k, ⟨a, v⟩⟩ :: ds))
  | altMoreComment {p par named k a v c ds} (hp : par = .dash ∨ named = true)
      (hk : KeyText T k) (ha : ∀ n, a = some n → NameText T n) (hv : OneLine T v) (hv' : Commentable v) (hc : LineText c)
      (h : Entries T (Readable T) p.next ds) : Readable T p par named (.hash (.element ⟨k, ⟨a, v⟩⟩ :: .inlineComment c :: ds))
  /-- a sequence on lines of its own -/
  | array {p ds} (h : Elements T (Readable T) p.next ds) : Readable T p .key false (.array ds)
  /-- an alternative sequence with one element: the next line must not be a sequence entry, it would be read as the second
  element -/
  | seqOne {p par named a v} (hp : par = .dash ∨ named = true) (hsteal : p.next ≠ .dash)
      (ha : ∀ n, a = some n → NameText T n) (hv : Readable T ⟨true, false, p.next⟩ .dash a.isSome v) :
      Readable T p par named (.array [.element ⟨a, v⟩])
  | seqOneComment {p par named a v c} (hp : par = .dash ∨ named = true) (hsteal : p.next ≠ .dash)
      (ha : ∀ n, a = some n → NameText T n) (hv : OneLine T v) (hv' : Commentable v) (hc : LineText c) :
      Readable T p par named (.array [.element ⟨a, v⟩, .inlineComment c])
  /-- an alternative sequence with more elements: no comment line between the first two -/
  | seqMore {p par named a v e ds} (hp : par = .dash ∨ named = true)
      (ha : ∀ n, a = some n → NameText T n) (hv : Readable T ⟨true, false, .dash⟩ .dash a.isSome v)
      (h : Elements T (Readable T) p.next (.element e :: ds)) : Readable T p par named (.array (.element ⟨a, v⟩ :: .element e :: ds))
  | seqMoreComment {p par named a v c e ds} (hp : par = .dash ∨ named = true)
      (ha : ∀ n, a = some n → NameText T n) (hv : OneLine T v) (hv' : Commentable v) (hc : LineText c)
      (h : Elements T (Readable T) p.next (.element e :: ds)) :
      Readable T p par named (.array (.element ⟨a, v⟩ :: .inlineComment c :: .element e :: ds))

/-- The root: a block collection that does not start with a comment (this would be a comment of the document). -/
inductive ReadableRoot (T : CharTables) : Yaml → Prop
  | hash {e ds} (h : Entries T (Readable T) .none (.element e :: ds)) : ReadableRoot T (.hash (.element e :: ds))
  | array {e ds} (h : Elements T (Readable T) .none (.element e :: ds)) : ReadableRoot T (.array (.element e :: ds))

/-- A document that survives formatting and parsing. -/
structure ReadableDocument (T : CharTables) (d : Document) : Prop where
  leading : ∀ c ∈ d.leadingComments, LineText c
  items : ∃ (pre post : List Str) (root : Yaml),
    d.items = pre.map .comment ++ [.yaml root] ++ post.map .comment ∧ (∀ c ∈ pre ++ post, LineText c) ∧ ReadableRoot T root

end YamlSubset.Spec
