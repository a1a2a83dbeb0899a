import Verif.Spec.Written
import Verif.Spec.Edit

/-! # Specification: adding lines at the end of a text -/

namespace YamlSubset.Spec

/-- Going from a value to the last value in it, again and again, one comes to a value with `Q`. The holder says whether the value is
after a key or after a dash. -/
inductive EndsIn (Q : Holder → AliasedYaml → Prop) : Holder → AliasedYaml → Prop
  | here {hold v} (h : Q hold v) : EndsIn Q hold v
  | entry {hold a pre k v} {post : List Str} (h : EndsIn Q .key v) :
      EndsIn Q hold ⟨a, .hash (pre ++ .element ⟨k, v⟩ :: post.map .inlineComment)⟩
  | element {hold a pre v} {post : List Str} (h : EndsIn Q .dash v) :
      EndsIn Q hold ⟨a, .array (pre ++ .element v :: post.map .inlineComment)⟩

/-- A block mapping with one entry. -/
def OneEntry (v : AliasedYaml) : Prop := ∃ k w, ∃ post : List Str, v.value = .hash (.element ⟨k, w⟩ :: post.map .inlineComment)

/-- A block sequence with the one element `w`, directly in a sequence or with an anchor name. -/
def InnerSequence (hold : Holder) (v w : AliasedYaml) : Prop :=
  (hold = .dash ∨ v.alias ≠ none) ∧ ∃ post : List Str, v.value = .array (.element w :: post.map .inlineComment)

/-- The values that would take a line after them as a part of themselves: a line with spaces and a key is taken by a mapping with one
entry in a sequence with one element in a sequence, a line with a dash is taken by a sequence with one element in a sequence, even if
it is indented by less. -/
def Takes : LineKind → Holder → AliasedYaml → Prop
  | .none, _, _ => False
  | .key c, hold, v => c ≠ 0 ∧ ∃ w, InnerSequence hold v w ∧ OneEntry w
  | .dash, hold, v => ∃ w, InnerSequence hold v w

/-- No value at the end of the entries takes a line with a key and the indentation `c` after it. This is so for lines without
indentation. -/
def ClosedEntries (c : Nat) (ds : List HashData) : Prop :=
  ∀ pre k v, ∀ post : List Str, ds = pre ++ .element ⟨k, v⟩ :: post.map .inlineComment → ¬ EndsIn (Takes (.key c)) .key v

/-- No value at the end of the elements takes a line with a dash after it. -/
def ClosedElements (ds : List ArrayData) : Prop :=
  ∀ pre v, ∀ post : List Str, ds = pre ++ .element v :: post.map .inlineComment → ¬ EndsIn (Takes .dash) .dash v

/-- The text `x`, up to the first item of the root: the leading comments, the header and the comments after it. -/
inductive HeadText : List Str → List Str → Str → Prop
  | intro {leading pre lead n nl b preText} (hl : LeadingText leading lead) (hn : Break nl) (hb : Blanks b) (hp : CommentLines pre preText) :
      HeadText leading pre (lead ++ ['-', '-', '-'] ++ pad n ++ nl ++ b ++ preText)

/-- The text shows a document whose root is a mapping with the indentation `c`, and ends with a line break: `ds` are the entries with
the comments between them, `post` are the comments at the end. -/
inductive MappingLines (T : CharTables) (leading pre : List Str) (c : Nat) (ds : List HashData) (post : List Str) : Str → Prop
  | intro {cl head x g} (hh : HeadText leading pre head) (h : EntryTexts T (Written T) c .none cl ds x) (hg : Gap cl c post g) :
      MappingLines T leading pre c ds post (head ++ pad c ++ x ++ g)

/-- The same for a document whose root is a block sequence. -/
inductive SequenceLines (T : CharTables) (leading pre : List Str) (c : Nat) (ds : List ArrayData) (post : List Str) : Str → Prop
  | intro {cl head x g} (hh : HeadText leading pre head) (h : ElementTexts T (Written T) c .none cl ds x) (hg : Gap cl c post g) :
      SequenceLines T leading pre c ds post (head ++ pad c ++ x ++ g)

/-- Lines of a mapping that is not indented, from the line of a key to the line before another key: entries with the blank lines and
comments after them. -/
inductive EntryLines (T : CharTables) : List HashData → Str → Prop
  | nil : EntryLines T [] []
  | lines {cl ds x cs g ds' x'} (h : EntryTexts T (Written T) 0 .none cl ds x) (hg : Gap cl 0 cs g) (h' : EntryLines T ds' x') :
      EntryLines T (ds ++ cs.map .comment ++ ds') (x ++ g ++ x')

/-- The text after an entry of a mapping that is not indented, up to the end: `cl` is how the entry ends, `ds` are the items that
follow it in the mapping, `post` are the comments at the end. -/
inductive RestText (T : CharTables) : Closing → List HashData → List Str → Str → Prop
  | last {cl post tail} (ht : Tail cl 0 post tail) : RestText T cl [] post tail
  | more {cl cl' cs g ds x post tail} (hg : Gap cl 0 cs g) (h : EntryTexts T (Written T) 0 .none cl' ds x) (ht : Tail cl' 0 post tail) :
      RestText T cl (cs.map .comment ++ ds) post (g ++ x ++ tail)

end YamlSubset.Spec
