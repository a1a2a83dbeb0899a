import Verif.Spec.Written

/-! # Specification: texts in which a key has no value

The library has no empty values, and it does not compare the indentation of a nested mapping with the indentation of the mapping around it. So what comes after a
key without a value is read as its value. `Lax` describes these texts; it has all layouts of `Written` and three more. -/

namespace YamlSubset.Spec

/-- The text of a value after the `:` of its key or the dash, with the arguments of `Written`. -/
inductive Lax (T : CharTables) : Option Nat → LineKind → Nat → Holder → Closing → AliasedYaml → Str → Prop
  | scalar {t next s hold a y lead x} (ha : Lead T a lead) (h : ScalarText T y x) : Lax T t next s hold .loose ⟨a, y⟩ (lead ++ x)
  | literal {t next s hold cl a ls c lead x} (ha : Lead T a lead) (h : BlockScalarText t cl ls c x) :
      Lax T (some t) next s hold cl ⟨a, .literalString ls c⟩ (lead ++ '|' :: x)
  | folded {t next s hold cl a ls c lead x} (ha : Lead T a lead) (h : BlockScalarText t cl ls c x) :
      Lax T (some t) next s hold cl ⟨a, .foldedString ls c⟩ (lead ++ '>' :: x)
  | hash {t next s c hold cl a cs lead ds x} (hs : s < c) (hl : BlockLead T true hold a cs lead) (h : EntryTexts T (Lax T) c next cl ds x) :
      Lax T t next s hold cl ⟨a, .hash (cs.map .comment ++ ds)⟩ (lead ++ pad c ++ x)
  | array {t next s c hold cl a cs lead ds x} (hs : s < c ∨ hold = .key ∧ s = c) (hl : BlockLead T false hold a cs lead)
      (h : ElementTexts T (Lax T) c next cl ds x) :
      Lax T t next s hold cl ⟨a, .array (cs.map .comment ++ ds)⟩ (lead ++ pad c ++ x)
  | innerOne {t next s c hold cl a lead k n v post x} (hs : s < c) (hl : InnerLead T hold a s c lead) (hd : t = none → ∀ n, next = .key n → n = 0) (hk : KeyText T k)
      (hv : ItemText T (Lax T) t next c .key cl v post x) :
      Lax T t next s hold cl ⟨a, .hash (.element ⟨k, v⟩ :: post.map .inlineComment)⟩ (lead ++ k ++ pad n ++ ':' :: x)
  | innerMore {t next s c hold cl cl' a lead k n v post x cs g ds rest} (hs : s < c) (hl : InnerLead T hold a s c lead) (hk : KeyText T k)
      (hv : ItemText T (Lax T) none (.key c) c .key cl' v post x) (hg : Gap cl' c cs g) (h : EntryTexts T (Lax T) c next cl ds rest) :
      Lax T t next s hold cl ⟨a, .hash (.element ⟨k, v⟩ :: post.map .inlineComment ++ cs.map .comment ++ ds)⟩
        (lead ++ k ++ pad n ++ ':' :: x ++ g ++ pad c ++ rest)
  | innerElement {t next s c hold cl a lead v post x} (hs : s < c ∨ hold = .key ∧ s = c) (hl : InnerLead T hold a s c lead) (hd : next ≠ .dash)
      (hv : ItemText T (Lax T) none next c .dash cl v post x) :
      Lax T t next s hold cl ⟨a, .array (.element v :: post.map .inlineComment)⟩ (lead ++ '-' :: x)
  | innerElements {t next s c hold cl cl' a lead v post x g ds rest} (hs : s < c ∨ hold = .key ∧ s = c) (hl : InnerLead T hold a s c lead)
      (hv : ItemText T (Lax T) none .dash c .dash cl' v post x) (hg : Gap cl' c [] g) (h : ElementTexts T (Lax T) c next cl ds rest) :
      Lax T t next s hold cl ⟨a, .array (.element v :: post.map .inlineComment ++ ds)⟩ (lead ++ '-' :: x ++ g ++ pad c ++ rest)
  /-- nothing after the colon, at the left margin: the next entry is the value -/
  | takesOne {next cl nl b k n v post x} (hn : Break nl) (hb : Blanks b) (hk : KeyText T k) (hv : ItemText T (Lax T) (some 0) next 0 .key cl v post x) :
      Lax T (some 0) next 0 .key cl ⟨none, .hash (.element ⟨k, v⟩ :: post.map .inlineComment)⟩ (nl ++ b ++ k ++ pad n ++ ':' :: x)
  /-- nothing after the colon, in an indented mapping: an entry at the left margin is the value -/
  | takesOutdented {t next s nl b k n a y lead x} (hd : t = none → ∀ n, next = .key n → n = 0) (hn : Break nl) (hb : Blanks b) (hk : KeyText T k)
      (ha : Lead T a lead) (h : ScalarText T y x) :
      Lax T t next s .key .loose ⟨none, .hash [.element ⟨k, ⟨a, y⟩⟩]⟩ (nl ++ b ++ k ++ pad n ++ ':' :: (lead ++ x))
  /-- no value, but the line is indented, or there is a space, an anchor or a comment after the colon: all entries that follow with the same indentation are the value -/
  | takesAll {next c cl a cs lead ds x} (hc : 0 < c ∨ cs ≠ [] ∨ lead.head? = some ' ') (hn : ∀ m, next = .key m → m < c) (hl : BlockLead T true .key a cs lead)
      (h : EntryTexts T (Lax T) c next cl ds x) : Lax T (some c) next c .key cl ⟨a, .hash (cs.map .comment ++ ds)⟩ (lead ++ pad c ++ x)

/-- The text `x` shows a document with a mapping as its root, in which keys may have no value. -/
inductive LaxText (T : CharTables) : Document → Str → Prop
  | intro {leading pre post ds c cl lead n nl b preText x tail} (hl : LeadingText leading lead) (hn : Break nl) (hb : Blanks b)
      (hp : CommentLines pre preText) (hr : EntryTexts T (Lax T) c .none cl ds x) (ht : Tail cl c post tail) :
      LaxText T ⟨leading, pre.map .comment ++ [.yaml (.hash ds)] ++ post.map .comment⟩
        (lead ++ ['-', '-', '-'] ++ pad n ++ nl ++ b ++ preText ++ (pad c ++ x) ++ tail)

end YamlSubset.Spec
