import Verif.Spec.Written
import Verif.Spec.Place

/-! # The lines of some items of a block collection -/

namespace YamlSubset.Spec

/-- The lines of some entries in the middle of a block mapping with indentation `c`, each with the comments that follow it: from the start of the line of the first
one up to the start of the line of the next entry. -/
inductive EntryBlocks (T : CharTables) (c : Nat) : List HashData → Str → Prop
  | nil : EntryBlocks T c [] []
  | cons {cl k n v post x cs g ds rest} (hk : KeyText T k) (hv : ItemText T (Written T) (some c) (.key c) c .key cl v post x) (hg : Gap cl c cs g)
      (h : EntryBlocks T c ds rest) :
      EntryBlocks T c (.element ⟨k, v⟩ :: post.map .inlineComment ++ cs.map .comment ++ ds) (pad c ++ k ++ pad n ++ ':' :: x ++ g ++ rest)

/-- The same for some elements of a block sequence. -/
inductive ElementBlocks (T : CharTables) (c : Nat) : List ArrayData → Str → Prop
  | nil : ElementBlocks T c [] []
  | cons {cl v post x cs g ds rest} (hv : ItemText T (Written T) (some c) .dash c .dash cl v post x) (hg : Gap cl c cs g) (h : ElementBlocks T c ds rest) :
      ElementBlocks T c (.element v :: post.map .inlineComment ++ cs.map .comment ++ ds) (pad c ++ '-' :: x ++ g ++ rest)

/-- The list starts with an entry, not with a comment. -/
def StartsWithEntry (ds : List HashData) : Prop := ∃ e rest, ds = .element e :: rest

def StartsWithElement (ds : List ArrayData) : Prop := ∃ e rest, ds = .element e :: rest

end YamlSubset.Spec
