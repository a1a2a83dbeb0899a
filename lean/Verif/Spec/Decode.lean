import Verif.Spec.Anchors
import Verif.Spec.Ints

/-! # Specification: what a tree means at a type

`Decodes Γ ty y v`: read at the Rust type `ty`, the tree `y` (without references) means the value `v`. The rules do not
refer to the functions of the deserializer. -/

namespace YamlSubset.Spec

/-! ## Scalars -/

/-- The text of a scalar. -/
def scalarText : Yaml → Option Str
  | .unquotedString s => some s
  | .singleQuotedString ps => some (parseSingleQuoted ps)
  | .doubleQuotedString ps => some (parseDoubleQuoted ps)
  | .foldedString ls c => some (parseFolded ls c)
  | .literalString ls c => some (parseLiteral ls c)
  | .inlineHash _ | .hash _ | .inlineArray _ | .array _ | .anchor _ => none

/-- The words for null. -/
def NullWord (s : Str) : Prop := s ∈ [c!"~", c!"null", c!"Null", c!"NULL"]

/-- The three spellings of a word given in lower case: all lower case, first letter upper case, all upper case. -/
def spellings (w : Str) : List Str :=
  [w, (match w with | [] => [] | c :: t => c.toUpper :: t), w.map Char.toUpper]

/-- The words for true. -/
def TrueWord (s : Str) : Prop := ∃ w ∈ [c!"true", c!"yes", c!"on"], s ∈ spellings w

/-- The words for false. -/
def FalseWord (s : Str) : Prop := ∃ w ∈ [c!"false", c!"no", c!"off"], s ∈ spellings w

/-- Decimal digits, possibly none. -/
def Digits (s : Str) : Prop := ∀ c ∈ s, '0'.toNat ≤ c.toNat ∧ c.toNat ≤ '9'.toNat

/-- The number written by decimal digits. -/
def numberOf : Str → Nat
  | [] => 0
  | c :: t => (c.toNat - '0'.toNat) * 10 ^ t.length + numberOf t

/-- A non-negative integer: digits, possibly after a plus sign. -/
inductive NatText : Str → Nat → Prop
  | digits {ds} (h : Digits ds) (h0 : ds ≠ []) : NatText ds (numberOf ds)
  | plus {ds} (h : Digits ds) (h0 : ds ≠ []) : NatText ('+' :: ds) (numberOf ds)

/-- An integer: digits, possibly after a sign. -/
inductive IntText : Str → Int → Prop
  | nonneg {s n} (h : NatText s n) : IntText s n
  | minus {ds} (h : Digits ds) (h0 : ds ≠ []) : IntText ('-' :: ds) (-(numberOf ds : Int))

/-- Nothing, a plus or a minus. -/
def SignText (s : Str) : Prop := s = [] ∨ s = ['+'] ∨ s = ['-']

/-- Nothing, or an exponent. -/
def ExponentText (s : Str) : Prop :=
  s = [] ∨ ∃ e sign ds, (e = 'e' ∨ e = 'E') ∧ SignText sign ∧ Digits ds ∧ ds ≠ [] ∧ s = e :: (sign ++ ds)

/-- The texts of floating point numbers. -/
inductive FloatText : Str → Prop
  | word {sign w} (hs : SignText sign) (h : w.map Char.toLower ∈ [c!"inf", c!"infinity", c!"nan"]) :
      FloatText (sign ++ w)
  | whole {sign a e} (hs : SignText sign) (ha : Digits a) (h0 : a ≠ []) (he : ExponentText e) :
      FloatText (sign ++ a ++ e)
  | point {sign a b e} (hs : SignText sign) (ha : Digits a) (hb : Digits b) (h0 : a ≠ [] ∨ b ≠ [])
      (he : ExponentText e) : FloatText (sign ++ a ++ '.' :: b ++ e)

/-- The integer types read with a sign. -/
def Signed (k : IntTy) : Prop := k = .i8 ∨ k = .i16 ∨ k = .i32 ∨ k = .i64

/-- The integer types read without a minus sign. -/
def Unsigned (k : IntTy) : Prop := k = .u8 ∨ k = .u16 ∨ k = .u32 ∨ k = .u64

/-- The text is an integer that fits into 64 bits, with or without a sign. -/
inductive WordSized : Str → Int → Prop
  | signed {s i} (h : IntText s i) (hr : -2 ^ 63 ≤ i ∧ i < 2 ^ 63) : WordSized s i
  | unsigned {s n} (h : NatText s n) (hr : n < 2 ^ 64) : WordSized s n

/-! ## Collections -/

/-- The elements of a sequence, block or flow. -/
def seqElements : Yaml → Option (List Yaml)
  | .array ds => some (elementsOf ds)
  | .inlineArray ys => some ys
  | .inlineHash _ | .hash _ | .unquotedString _ | .singleQuotedString _ | .doubleQuotedString _
  | .foldedString _ _ | .literalString _ _ | .anchor _ => none

/-- The entries of a mapping, block or flow. -/
def mapPairs : Yaml → Option (List (Str × Yaml))
  | .hash ds => some (entriesOf ds)
  | .inlineHash es => some es
  | .inlineArray _ | .array _ | .unquotedString _ | .singleQuotedString _ | .doubleQuotedString _
  | .foldedString _ _ | .literalString _ _ | .anchor _ => none

/-- The name of the variant and its content: a scalar is a name whose content is `~`, a mapping with one entry has the
name as key and the content as value. -/
inductive VariantParts : Yaml → Str → Yaml → Prop
  | name {y s} (h : scalarText y = some s) : VariantParts y s (.unquotedString ['~'])
  | entry {y k w} (h : mapPairs y = some [(k, w)]) : VariantParts y k w

/-- An `Option` type, possibly by name. -/
def OptionTy (Γ : Nat → Ty) (t : Ty) : Prop := (∃ u, t = .option u) ∨ ∃ n u, t = .ref n ∧ Γ n = .option u

/-- What a tree means at a type. -/
inductive Decodes (Γ : Nat → Ty) : Ty → Yaml → SVal → Prop
  | true {s} (h : TrueWord s) : Decodes Γ .bool (.unquotedString s) (.bool true)
  | false {s} (h : FalseWord s) : Decodes Γ .bool (.unquotedString s) (.bool false)
  | signed {k y s i} (hk : Signed k) (hy : scalarText y = some s) (h : IntText s i) (hr : InRange k i) :
      Decodes Γ (.int k) y (.int i)
  | unsigned {k y s} {n : Nat} (hk : Unsigned k) (hy : scalarText y = some s) (h : NatText s n) (hr : InRange k n) :
      Decodes Γ (.int k) y (.int n)
  | float {y s} (hy : scalarText y = some s) (h : FloatText s) : Decodes Γ .float y (.float s)
  | char {y c} (hy : scalarText y = some [c]) : Decodes Γ .char y (.char c)
  | str {y s} (hy : scalarText y = some s) : Decodes Γ .str y (.str s)
  /-- a sequence of numbers below 256 -/
  | bytes {y ys bs} (hy : seqElements y = some ys) (hl : ys.length = bs.length)
      (h : ∀ w b, (w, b) ∈ ys.zip bs → Decodes Γ (.int .u8) w (.int (b : Nat))) : Decodes Γ .bytes y (.bytes bs)
  /-- whatever is there -/
  | unit {y} : Decodes Γ .unit y .unit
  | none {t s} (h : NullWord s) : Decodes Γ (.option t) (.unquotedString s) .none
  | some {t y v} (hn : ∀ s, y = .unquotedString s → ¬NullWord s) (h : Decodes Γ t y v) :
      Decodes Γ (.option t) y (.some v)
  | newtype {t y v} (h : Decodes Γ t y v) : Decodes Γ (.newtype t) y (.newtype v)
  | seq {t y ys vs} (hy : seqElements y = some ys) (hl : ys.length = vs.length)
      (h : ∀ w v, (w, v) ∈ ys.zip vs → Decodes Γ t w v) : Decodes Γ (.seq t) y (.seq vs)
  /-- one element for each component; there may be more elements -/
  | tuple {ts y ys vs} (hy : seqElements y = some ys) (hl : ts.length ≤ ys.length) (hv : vs.length = ts.length)
      (h : ∀ t w v, (t, w, v) ∈ ts.zip (ys.zip vs) → Decodes Γ t w v) : Decodes Γ (.tuple ts) y (.tuple vs)
  /-- keys are read like plain scalars -/
  | map {kt vt y es vs} (hy : mapPairs y = some es) (hl : es.length = vs.length)
      (hk : ∀ k w a b, ((k, w), (a, b)) ∈ es.zip vs → Decodes Γ kt (.unquotedString k) a)
      (hv : ∀ k w a b, ((k, w), (a, b)) ∈ es.zip vs → Decodes Γ vt w b) : Decodes Γ (.map kt vt) y (.map vs)
  /-- The fields are found by their names, wherever they are; other entries are ignored; no field is given twice; only
  optional fields may be missing, and they are `None` then. -/
  | struct {fs y es vs} (hy : mapPairs y = some es) (hn : vs.map (fun v => v.1) = fs.map (fun f => f.1))
      (h1 : ∀ k t, (k, t) ∈ fs → (es.filter fun e => e.1 = k).length ≤ 1)
      (hv : ∀ k t w v, fs.lookup k = some t → (k, w) ∈ es → (k, v) ∈ vs → Decodes Γ t w v)
      (hm : ∀ k t, (k, t) ∈ fs → (∀ w, (k, w) ∉ es) → OptionTy Γ t)
      (hmv : ∀ k v, (k, v) ∈ vs → (∀ w, (k, w) ∉ es) → v = .none) : Decodes Γ (.struct fs) y (.struct vs)
  | unitVariant {vs y name c} (hy : VariantParts y name c) (hl : vs.lookup name = some .unit) :
      Decodes Γ (.enum vs) y (.unitVariant name)
  | newtypeVariant {vs y name c t v} (hy : VariantParts y name c) (hl : vs.lookup name = some (.newtype t))
      (h : Decodes Γ t c v) : Decodes Γ (.enum vs) y (.newtypeVariant name v)
  | tupleVariant {vs y name c ts xs} (hy : VariantParts y name c) (hl : vs.lookup name = some (.tuple ts))
      (h : Decodes Γ (.tuple ts) c (.tuple xs)) : Decodes Γ (.enum vs) y (.tupleVariant name xs)
  | structVariant {vs y name c fs xs} (hy : VariantParts y name c) (hl : vs.lookup name = some (.struct fs))
      (h : Decodes Γ (.struct fs) c (.struct xs)) : Decodes Γ (.enum vs) y (.structVariant name xs)
  | anyNull {s} (h : NullWord s) : Decodes Γ .any (.unquotedString s) .unit
  | anyTrue : Decodes Γ .any (.unquotedString c!"true") (.bool true)
  | anyFalse : Decodes Γ .any (.unquotedString c!"false") (.bool false)
  | anyInt {s i} (h : WordSized s i) : Decodes Γ .any (.unquotedString s) (.int i)
  | anyFloat {s} (hi : ∀ i, ¬WordSized s i) (h : FloatText s) : Decodes Γ .any (.unquotedString s) (.float s)
  | anyPlain {s} (hn : ¬NullWord s) (ht : s ≠ c!"true") (hf : s ≠ c!"false") (hi : ∀ i, ¬WordSized s i)
      (h : ¬FloatText s) : Decodes Γ .any (.unquotedString s) (.str s)
  | anyText {y s} (hp : ∀ s, y ≠ .unquotedString s) (hy : scalarText y = some s) : Decodes Γ .any y (.str s)
  | anySeq {y vs} (h : Decodes Γ (.seq .any) y (.seq vs)) : Decodes Γ .any y (.seq vs)
  | anyMap {y vs} (h : Decodes Γ (.map .str .any) y (.map vs)) : Decodes Γ .any y (.map vs)
  | ignored {y} : Decodes Γ .ignored y .unit
  | ref {n y v} (h : Decodes Γ (Γ n) y v) : Decodes Γ (.ref n) y v

/-! ## Values of a type -/

/-- `OfTy Γ ty v`: `v` is a value of the Rust type `ty` as it can be deserialized. (A field name that a type declares
twice, which Rust does not allow, counts with its first type.) -/
inductive OfTy (Γ : Nat → Ty) : Ty → SVal → Prop
  | bool (b) : OfTy Γ .bool (.bool b)
  | int {k i} (h : InRange k i) : OfTy Γ (.int k) (.int i)
  | float {s} (h : FloatText s) : OfTy Γ .float (.float s)
  | char (c) : OfTy Γ .char (.char c)
  | str (s) : OfTy Γ .str (.str s)
  | bytes {bs} (h : ∀ b ∈ bs, b < 256) : OfTy Γ .bytes (.bytes bs)
  | unit : OfTy Γ .unit .unit
  | none (t) : OfTy Γ (.option t) .none
  | some {t v} (h : OfTy Γ t v) : OfTy Γ (.option t) (.some v)
  | newtype {t v} (h : OfTy Γ t v) : OfTy Γ (.newtype t) (.newtype v)
  | seq {t vs} (h : ∀ v ∈ vs, OfTy Γ t v) : OfTy Γ (.seq t) (.seq vs)
  | tuple {ts vs} (hl : ts.length = vs.length) (h : ∀ t v, (t, v) ∈ ts.zip vs → OfTy Γ t v) :
      OfTy Γ (.tuple ts) (.tuple vs)
  | map {kt vt es} (hk : ∀ k v, (k, v) ∈ es → OfTy Γ kt k) (hv : ∀ k v, (k, v) ∈ es → OfTy Γ vt v) :
      OfTy Γ (.map kt vt) (.map es)
  /-- all fields, in the order of their declaration -/
  | struct {fs vs} (hn : vs.map (fun v => v.1) = fs.map (fun f => f.1))
      (h : ∀ k t v, fs.lookup k = some t → (k, v) ∈ vs → OfTy Γ t v) : OfTy Γ (.struct fs) (.struct vs)
  | unitVariant {vs name} (hl : vs.lookup name = some .unit) : OfTy Γ (.enum vs) (.unitVariant name)
  | newtypeVariant {vs name t v} (hl : vs.lookup name = some (.newtype t)) (h : OfTy Γ t v) :
      OfTy Γ (.enum vs) (.newtypeVariant name v)
  | tupleVariant {vs name ts xs} (hl : vs.lookup name = some (.tuple ts)) (h : OfTy Γ (.tuple ts) (.tuple xs)) :
      OfTy Γ (.enum vs) (.tupleVariant name xs)
  | structVariant {vs name fs xs} (hl : vs.lookup name = some (.struct fs)) (h : OfTy Γ (.struct fs) (.struct xs)) :
      OfTy Γ (.enum vs) (.structVariant name xs)
  | anyNull : OfTy Γ .any .unit
  | anyBool (b) : OfTy Γ .any (.bool b)
  | anyInt {i} (h : -2 ^ 63 ≤ i ∧ i < 2 ^ 64) : OfTy Γ .any (.int i)
  | anyFloat {s} (h : FloatText s) : OfTy Γ .any (.float s)
  | anyStr (s) : OfTy Γ .any (.str s)
  | anySeq {vs} (h : OfTy Γ (.seq .any) (.seq vs)) : OfTy Γ .any (.seq vs)
  | anyMap {es} (h : OfTy Γ (.map .str .any) (.map es)) : OfTy Γ .any (.map es)
  | ignored : OfTy Γ .ignored .unit
  | ref {n v} (h : OfTy Γ (Γ n) v) : OfTy Γ (.ref n) v

end YamlSubset.Spec
