import Verif.Spec.Undo

/-! # Specification: paths that lead to different places -/

namespace YamlSubset.Spec

/-- `Diverges names p q`, for an edit at the path `p` that touches entries with the given names at its end: after a common
beginning, in which conditions and lists of indexes may differ, the path `q` takes another key than `p`, a key that is not one
of the names at the end of `p`, or indexes that `p` does not take. -/
inductive Diverges (names : List Str) : YamlPath → YamlPath → Prop
  | last {k k' cs cs' o} (h : k' ∉ names) : Diverges names (.key k cs none) (.key k' cs' o)
  | keys {k k' cs cs' p o} (h : k' ≠ k) : Diverges names (.key k cs (some p)) (.key k' cs' o)
  | indexes {is js cs cs' p o} (h : ∀ j ∈ js, j ∉ is) :
      Diverges names (.indexes is cs (some p)) (.indexes js cs' o)
  | key {k cs cs' p q} (h : Diverges names p q) : Diverges names (.key k cs (some p)) (.key k cs' (some q))
  | allAll {cs cs' p q} (h : Diverges names p q) :
      Diverges names (.allIndexes cs (some p)) (.allIndexes cs' (some q))
  | allSome {js cs cs' p q} (h : Diverges names p q) :
      Diverges names (.allIndexes cs (some p)) (.indexes js cs' (some q))
  | someAll {is cs cs' p q} (h : Diverges names p q) :
      Diverges names (.indexes is cs (some p)) (.allIndexes cs' (some q))
  | someSome {is js cs cs' p q} (h : Diverges names p q) :
      Diverges names (.indexes is cs (some p)) (.indexes js cs' (some q))

end YamlSubset.Spec
