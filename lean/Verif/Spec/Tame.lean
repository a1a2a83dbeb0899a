import Verif.Spec.Tidy

/-! # Specification: parsed documents that are laid out plainly

What is said here is not about single characters but about layout. Together with the fact that a document was parsed it is enough for
formatting to keep the document (`Props/Tame.lean`). Nothing here refers to the grammar, the consumer functions or the formatter.

Each condition rules out parsed documents that formatting changes or makes unreadable: see the counterexamples to C41 and C43. -/

namespace YamlSubset.Spec

/-- A plain scalar that does not look like anything else when it is written after a key or a dash. -/
structure TamePlain (T : CharTables) (s : Str) : Prop where
  nonempty : s ≠ []
  /-- it starts with something visible -/
  start : ∀ c, s.head? = some c → isSpaceSeparator c = false
  /-- it does not look like an anchor -/
  notAnchor : ∀ d t, s = '&' :: d :: t → ¬ NameChar T d
  /-- it does not look like a sequence entry -/
  notDash : ∀ t, s = '-' :: t → ¬ BlankStart t
  /-- it does not look like a mapping entry -/
  notKey : ∀ c k t, s = (c :: k) ++ ':' :: t → NameChar T c → (∀ d ∈ k, KeyChar T d) → ¬ BlankStart t

/-- No plain scalar in the flow value ends with a colon. -/
inductive TameFlow : Yaml → Prop
  | hash {es} (h : ∀ k v, (k, v) ∈ es → TameFlow v) : TameFlow (.inlineHash es)
  | array {es} (h : ∀ v ∈ es, TameFlow v) : TameFlow (.inlineArray es)
  | plain {s} (h : s.getLast? ≠ some ':') : TameFlow (.unquotedString s)
  | double {ps} : TameFlow (.doubleQuotedString ps)
  | single {ps} : TameFlow (.singleQuotedString ps)
  | reference {a} : TameFlow (.anchor a)

/-- A value that is neither a block collection nor a block scalar. -/
def OneLineValue : Yaml → Prop
  | .hash _ => False
  | .array _ => False
  | .literalString _ _ => False
  | .foldedString _ _ => False
  | _ => True

/-- The first line of a block scalar is not blank, and starts with a space or with something visible. -/
def TameLines (ls : List Str) : Prop :=
  ∃ l rest, ls = l :: rest ∧
    ((∃ c t, l = c :: t ∧ isWhitespace c = false) ∨ (l.head? = some ' ' ∧ ∃ c ∈ l, isSpaceSeparator c = false))

/-- Comments in a mapping: none on a line of its own at the end; one on the line of a value only if it is a value on one line, and not a
plain scalar that ends with a colon. -/
structure TameHashComments (ds : List HashData) : Prop where
  last : ∀ c, ds.getLast? ≠ some (.comment c)
  inline : ∀ pre e c post, ds = pre ++ .element e :: .inlineComment c :: post → OneLineValue e.value.value ∧ Commentable e.value.value

/-- Comments in a sequence. -/
structure TameArrayComments (ds : List ArrayData) : Prop where
  last : ∀ c, ds.getLast? ≠ some (.comment c)
  inline : ∀ pre e c post, ds = pre ++ .element e :: .inlineComment c :: post → OneLineValue e.value ∧ Commentable e.value

/-- A value that is laid out plainly, at a site, with an anchor or not. -/
inductive Tame (T : CharTables) : Site → Bool → Yaml → Prop
  | plain {sp n s} (h : TamePlain T s) : Tame T sp n (.unquotedString s)
  | double {sp n ps} : Tame T sp n (.doubleQuotedString ps)
  | single {sp n ps} : Tame T sp n (.singleQuotedString ps)
  | reference {sp n a} : Tame T sp n (.anchor a)
  | flowHash {sp n es} (h : TameFlow (.inlineHash es)) : Tame T sp n (.inlineHash es)
  | flowArray {sp n es} (h : TameFlow (.inlineArray es)) : Tame T sp n (.inlineArray es)
  /-- block scalars: not after the first key of a mapping that starts on the line of a dash or has an anchor -/
  | literal {sp n ls c} (hs : sp ≠ .first) (h : TameLines ls) : Tame T sp n (.literalString ls c)
  | folded {sp n ls c} (hs : sp ≠ .first) (h : TameLines ls) : Tame T sp n (.foldedString ls c)
  /-- a mapping on lines of its own -/
  | hash {sp ds} (hs : sp ≠ .element) (hc : TameHashComments ds)
      (hv : ∀ e, HashData.element e ∈ ds → Tame T .entry e.value.alias.isSome e.value.value) : Tame T sp false (.hash ds)
  /-- a mapping that starts on the line of a dash, or has an anchor: it starts with an entry -/
  | here {sp n e ds} (hs : sp = .element ∨ sp = .entry ∧ n = true) (hc : TameHashComments (.element e :: ds))
      (he : Tame T .first e.value.alias.isSome e.value.value)
      (hv : ∀ e', HashData.element e' ∈ ds → Tame T .entry e'.value.alias.isSome e'.value.value) : Tame T sp n (.hash (.element e :: ds))
  /-- a mapping with an anchor may start with a comment -/
  | named {sp c ds} (hc : TameHashComments (.comment c :: ds))
      (hv : ∀ e, HashData.element e ∈ ds → Tame T .entry e.value.alias.isSome e.value.value) : Tame T sp true (.hash (.comment c :: ds))
  /-- a sequence on lines of its own -/
  | array {sp ds} (hs : sp ≠ .element) (hc : TameArrayComments ds)
      (hv : ∀ e, ArrayData.element e ∈ ds → Tame T .element e.alias.isSome e.value) : Tame T sp false (.array ds)
  /-- a sequence that starts on the line of a dash, or has an anchor: it starts with an element on one line, and the next line is its
  second element -/
  | seq {sp n e c e' ds} (hs : sp = .element ∨ n = true) (hc : TameArrayComments (.element e :: c ++ .element e' :: ds))
      (hi : c = [] ∨ ∃ x, c = [.inlineComment x]) (ho : OneLineValue e.value) (he : Tame T .element e.alias.isSome e.value)
      (hv : ∀ e'', ArrayData.element e'' ∈ .element e' :: ds → Tame T .element e''.alias.isSome e''.value) :
      Tame T sp n (.array (.element e :: c ++ .element e' :: ds))

/-- A document that is laid out plainly: its root is a block collection that starts with an entry or an element. -/
structure TameDocument (T : CharTables) (d : Document) : Prop where
  tame : ∀ y, DocumentData.yaml y ∈ d.items → Tame T .entry false y
  root : ∀ y, DocumentData.yaml y ∈ d.items → (∃ e ds, y = .hash (.element e :: ds)) ∨ ∃ e ds, y = .array (.element e :: ds)

end YamlSubset.Spec
