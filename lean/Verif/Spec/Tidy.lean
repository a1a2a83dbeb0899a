import Verif.Spec.Readable
import Verif.Spec.Edit

/-! # Specification: documents that can be edited, formatted and parsed again

Whether a document survives formatting and parsing (`ReadableDocument`) depends on what comes next to what, so an edit can
break it. Two classes of documents are described here that edits do not leave. Nothing here refers to the editing code, the
grammar or the formatter. -/

namespace YamlSubset.Spec

/-- Where a value stands: after a key; after the first key of a mapping that starts on the line of a dash or below an anchor; after
a dash. -/
inductive Site where
  | entry | first | element
  deriving DecidableEq

/-- A tidy value, with an anchor or not: comments only before entries and elements, and after values on the same line; no sequence
directly in a sequence; no anchor on a sequence; nothing but a value on one line, or a mapping or sequence without an anchor, after
the first key of a mapping that starts on the line of a dash or below an anchor. -/
inductive Tidy (T : CharTables) : Site → Bool → Yaml → Prop
  | oneLine {sp n y} (h : OneLine T y) (h' : Commentable y) : Tidy T sp n y
  | literal {sp n ls c} (hs : sp ≠ .first) (h : BlockLines true ls) : Tidy T sp n (.literalString ls c)
  | folded {sp n ls c} (hs : sp ≠ .first) (h : BlockLines true ls) : Tidy T sp n (.foldedString ls c)
  | hash {sp ds} (hs : sp ≠ .element) (h : Entries T (fun _ _ => Tidy T .entry) .none ds) : Tidy T sp false (.hash ds)
  | hereOne {sp n k a v} (hs : sp = .element ∨ sp = .entry ∧ n = true) (hk : KeyText T k) (ha : ∀ n, a = some n → NameText T n)
      (hv : Tidy T .first a.isSome v) : Tidy T sp n (.hash [.element ⟨k, ⟨a, v⟩⟩])
  | hereOneComment {sp n k a v c} (hs : sp = .element ∨ sp = .entry ∧ n = true) (hk : KeyText T k) (ha : ∀ n, a = some n → NameText T n)
      (hv : OneLine T v) (hv' : Commentable v) (hc : LineText c) : Tidy T sp n (.hash [.element ⟨k, ⟨a, v⟩⟩, .inlineComment c])
  | hereMore {sp n k a v ds} (hs : sp = .element ∨ sp = .entry ∧ n = true) (hk : KeyText T k) (ha : ∀ n, a = some n → NameText T n)
      (hv : Tidy T .first a.isSome v) (h : Entries T (fun _ _ => Tidy T .entry) .none ds) :
      Tidy T sp n (.hash (.element ⟨k, ⟨a, v⟩⟩ :: ds))
  | hereMoreComment {sp n k a v c ds} (hs : sp = .element ∨ sp = .entry ∧ n = true) (hk : KeyText T k) (ha : ∀ n, a = some n → NameText T n)
      (hv : OneLine T v) (hv' : Commentable v) (hc : LineText c) (h : Entries T (fun _ _ => Tidy T .entry) .none ds) :
      Tidy T sp n (.hash (.element ⟨k, ⟨a, v⟩⟩ :: .inlineComment c :: ds))
  | array {sp ds} (hs : sp ≠ .element) (h : Elements T (fun _ _ => Tidy T .element) .none ds) : Tidy T sp false (.array ds)

/-- The root of a tidy document. -/
inductive TidyRoot (T : CharTables) : Yaml → Prop
  | hash {e ds} (h : Entries T (fun _ _ => Tidy T .entry) .none (.element e :: ds)) : TidyRoot T (.hash (.element e :: ds))
  | array {e ds} (h : Elements T (fun _ _ => Tidy T .element) .none (.element e :: ds)) : TidyRoot T (.array (.element e :: ds))

/-- A tidy document. -/
structure TidyDocument (T : CharTables) (d : Document) : Prop where
  leading : ∀ c ∈ d.leadingComments, LineText c
  items : ∃ (pre post : List Str) (root : Yaml),
    d.items = pre.map .comment ++ [.yaml root] ++ post.map .comment ∧ (∀ c ∈ pre ++ post, LineText c) ∧ TidyRoot T root

/-- A simple value after a key (`false`) or a dash (`true`): no comments, no block scalars, no anchors on block collections, no
sequence directly in a sequence. Mappings may be empty. -/
inductive Simple (T : CharTables) : Bool → Yaml → Prop
  | oneLine {b y} (h : OneLine T y) (h' : Commentable y) : Simple T b y
  | hash {b ds} (he : ∀ d ∈ ds, ∃ e, d = .element e) (hk : ∀ k a v, HashData.element ⟨k, ⟨a, v⟩⟩ ∈ ds → KeyText T k)
      (ha : ∀ k a v n, HashData.element ⟨k, ⟨a, v⟩⟩ ∈ ds → a = some n → NameText T n ∧ OneLine T v ∧ Commentable v)
      (hv : ∀ k a v, HashData.element ⟨k, ⟨a, v⟩⟩ ∈ ds → Simple T false v) : Simple T b (.hash ds)
  | array {ds} (hn : ds ≠ []) (he : ∀ d ∈ ds, ∃ e, d = .element e)
      (ha : ∀ a v n, ArrayData.element ⟨a, v⟩ ∈ ds → a = some n → NameText T n ∧ OneLine T v ∧ Commentable v)
      (hv : ∀ a v, ArrayData.element ⟨a, v⟩ ∈ ds → Simple T true v) : Simple T false (.array ds)

/-- A simple document: its root is a block collection, comments stand only before and after it. -/
structure SimpleDocument (T : CharTables) (d : Document) : Prop where
  leading : ∀ c ∈ d.leadingComments, LineText c
  items : ∃ (pre post : List Str) (root : Yaml),
    d.items = pre.map .comment ++ [.yaml root] ++ post.map .comment ∧ (∀ c ∈ pre ++ post, LineText c) ∧
      ((∃ ds, root = .hash ds) ∨ ∃ ds, root = .array ds) ∧ Simple T false root

/-- No block mapping in the value is empty. -/
inductive NoEmptyMapping : Yaml → Prop
  | hash {ds} (hn : ds ≠ []) (h : ∀ k a v, HashData.element ⟨k, ⟨a, v⟩⟩ ∈ ds → NoEmptyMapping v) : NoEmptyMapping (.hash ds)
  | array {ds} (h : ∀ a v, ArrayData.element ⟨a, v⟩ ∈ ds → NoEmptyMapping v) : NoEmptyMapping (.array ds)
  | other {y} (h1 : ∀ ds, y ≠ .hash ds) (h2 : ∀ ds, y ≠ .array ds) : NoEmptyMapping y

/-- `SelectorTexts sel P y`: wherever a block mapping in `y` has a text under the key `sel`, the text is one of which `P` holds. -/
inductive SelectorTexts (sel : Str) (P : Str → Prop) : Yaml → Prop
  | hash {ds} (h : ∀ a v s, HashData.element ⟨sel, ⟨a, v⟩⟩ ∈ ds → v.asString = some s → P s)
      (h' : ∀ k a v, HashData.element ⟨k, ⟨a, v⟩⟩ ∈ ds → SelectorTexts sel P v) : SelectorTexts sel P (.hash ds)
  | array {ds} (h : ∀ a v, ArrayData.element ⟨a, v⟩ ∈ ds → SelectorTexts sel P v) : SelectorTexts sel P (.array ds)
  | inlineArray {es} (h : ∀ v ∈ es, SelectorTexts sel P v) : SelectorTexts sel P (.inlineArray es)
  | other {y} (h1 : ∀ ds, y ≠ .hash ds) (h2 : ∀ ds, y ≠ .array ds) (h3 : ∀ es, y ≠ .inlineArray es) : SelectorTexts sel P y

end YamlSubset.Spec
