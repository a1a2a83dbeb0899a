import Verif.Spec.Ints
import Verif.Spec.Fold

/-! # Specification: values of a type, and which of them can be expected to survive serialization -/

namespace YamlSubset.Spec

/-- `HasTy Γ ty v`: `v` is a value of the Rust type `ty`, as its `Serialize` impl presents it. The 128-bit
integers and self-describing values are left out. -/
inductive HasTy (Γ : Nat → Ty) : Ty → SVal → Prop
  | bool (b) : HasTy Γ .bool (.bool b)
  | int {k i} (hk : k ≠ .i128 ∧ k ≠ .u128) (h : InRange k i) : HasTy Γ (.int k) (.int i)
  | float {t} (h : isF64 t = true) : HasTy Γ .float (.float t)
  | char (c) : HasTy Γ .char (.char c)
  | str (s) : HasTy Γ .str (.str s)
  | bytes {bs} (h : ∀ b ∈ bs, b < 256) : HasTy Γ .bytes (.bytes bs)
  | unit : HasTy Γ .unit .unit
  | none (t) : HasTy Γ (.option t) .none
  | some {t v} (h : HasTy Γ t v) : HasTy Γ (.option t) (.some v)
  | newtype {t v} (h : HasTy Γ t v) : HasTy Γ (.newtype t) (.newtype v)
  | seq {t vs} (h : ∀ v ∈ vs, HasTy Γ t v) : HasTy Γ (.seq t) (.seq vs)
  /-- components with their types -/
  | tuple (ps : List (Ty × SVal)) (h : ∀ t v, (t, v) ∈ ps → HasTy Γ t v) :
      HasTy Γ (.tuple (ps.map fun p => p.1)) (.tuple (ps.map fun p => p.2))
  | map {kt vt es} (hk : ∀ k v, (k, v) ∈ es → HasTy Γ kt k) (hv : ∀ k v, (k, v) ∈ es → HasTy Γ vt v) :
      HasTy Γ (.map kt vt) (.map es)
  /-- fields with their names and types; the names are distinct -/
  | struct (ps : List (Str × Ty × SVal)) (hn : (ps.map fun p => p.1).Nodup)
      (h : ∀ k t v, (k, t, v) ∈ ps → HasTy Γ t v) :
      HasTy Γ (.struct (ps.map fun p => (p.1, p.2.1))) (.struct (ps.map fun p => (p.1, p.2.2)))
  | unitVariant {vs name} (hl : vs.lookup name = Option.some .unit) :
      HasTy Γ (.enum vs) (.unitVariant name)
  | newtypeVariant {vs name t v} (hl : vs.lookup name = Option.some (.newtype t)) (h : HasTy Γ t v) :
      HasTy Γ (.enum vs) (.newtypeVariant name v)
  | tupleVariant {vs name} (ps : List (Ty × SVal))
      (hl : vs.lookup name = Option.some (.tuple (ps.map fun p => p.1)))
      (h : ∀ t v, (t, v) ∈ ps → HasTy Γ t v) :
      HasTy Γ (.enum vs) (.tupleVariant name (ps.map fun p => p.2))
  | structVariant {vs name} (ps : List (Str × Ty × SVal))
      (hl : vs.lookup name = Option.some (.struct (ps.map fun p => (p.1, p.2.1))))
      (hn : (ps.map fun p => p.1).Nodup) (h : ∀ k t v, (k, t, v) ∈ ps → HasTy Γ t v) :
      HasTy Γ (.enum vs) (.structVariant name (ps.map fun p => (p.1, p.2.2)))
  | ref {n v} (h : HasTy Γ (Γ n) v) : HasTy Γ (.ref n) v

/-- Values that are written like a null: inside a `Some` they would be read as `None`. The strings are the two
null words that serialization does not quote. -/
inductive NullLike : SVal → Prop
  | unit : NullLike .unit
  | none : NullLike .none
  | some {v} (h : NullLike v) : NullLike (.some v)
  | newtype {v} (h : NullLike v) : NullLike (.newtype v)
  | str {s} (h : s = c!"Null" ∨ s = c!"NULL") : NullLike (.str s)
  | unitVariant {s} (h : s = c!"Null" ∨ s = c!"NULL") : NullLike (.unitVariant s)
  | newtypeVariant {name v} (h : NullLike v) : NullLike (.newtypeVariant name v)

/-- Values that a plain `~` stands for, outside `Some`. -/
inductive Tilde : SVal → Prop
  | unit : Tilde .unit
  | none : Tilde .none
  | char : Tilde (.char '~')
  | str : Tilde (.str c!"~")
  | newtype {v} (h : Tilde v) : Tilde (.newtype v)
  | unitVariant : Tilde (.unitVariant c!"~")
  | newtypeVariant {v} (h : Tilde v) : Tilde (.newtypeVariant c!"~" v)

/-- Values without the two features that serialization loses: enum variants that carry data (their names are not
written) and null-like values inside `Some`. A variant with data comes back in one odd case: its name is `~` and its
content is written as `~`. -/
inductive Lossless : SVal → Prop
  | bool (b) : Lossless (.bool b)
  | int (i) : Lossless (.int i)
  | float (t) : Lossless (.float t)
  | char (c) : Lossless (.char c)
  | str (s) : Lossless (.str s)
  | bytes (bs) : Lossless (.bytes bs)
  | unit : Lossless .unit
  | none : Lossless .none
  | some {v} (h : Lossless v) (hn : ¬ NullLike v) : Lossless (.some v)
  | newtype {v} (h : Lossless v) : Lossless (.newtype v)
  | unitVariant (name) : Lossless (.unitVariant name)
  | newtypeVariant {v} (h : Tilde v) : Lossless (.newtypeVariant c!"~" v)
  | seq {vs} (h : ∀ v ∈ vs, Lossless v) : Lossless (.seq vs)
  | tuple {vs} (h : ∀ v ∈ vs, Lossless v) : Lossless (.tuple vs)
  | map {es} (hk : ∀ k v, (k, v) ∈ es → Lossless k) (hv : ∀ k v, (k, v) ∈ es → Lossless v) :
      Lossless (.map es)
  | struct {fs} (h : ∀ k v, (k, v) ∈ fs → Lossless v) : Lossless (.struct fs)

/-- All texts (strings, characters, names of variants) in a value satisfy `P`; the keys of maps are not
included. -/
inductive AllText (P : Str → Prop) : SVal → Prop
  | bool (b) : AllText P (.bool b)
  | int (i) : AllText P (.int i)
  | float (t) : AllText P (.float t)
  | char {c} (h : P [c]) : AllText P (.char c)
  | str {s} (h : P s) : AllText P (.str s)
  | bytes (bs) : AllText P (.bytes bs)
  | unit : AllText P .unit
  | none : AllText P .none
  | some {v} (h : AllText P v) : AllText P (.some v)
  | newtype {v} (h : AllText P v) : AllText P (.newtype v)
  | unitVariant {name} (h : P name) : AllText P (.unitVariant name)
  | newtypeVariant {name v} (h : AllText P v) : AllText P (.newtypeVariant name v)
  | tupleVariant {name vs} (h : ∀ v ∈ vs, AllText P v) : AllText P (.tupleVariant name vs)
  | structVariant {name fs} (h : ∀ k v, (k, v) ∈ fs → AllText P v) : AllText P (.structVariant name fs)
  | seq {vs} (h : ∀ v ∈ vs, AllText P v) : AllText P (.seq vs)
  | tuple {vs} (h : ∀ v ∈ vs, AllText P v) : AllText P (.tuple vs)
  | map {es} (h : ∀ k v, (k, v) ∈ es → AllText P v) : AllText P (.map es)
  | struct {fs} (h : ∀ k v, (k, v) ∈ fs → AllText P v) : AllText P (.struct fs)

/-- The text of a scalar value, which is its key string if it is used as a key of a map. -/
inductive KeyString : SVal → Str → Prop
  | bool (b : Bool) : KeyString (.bool b) (if b then c!"true" else c!"false")
  | int (i) : KeyString (.int i) (intToStr i)
  | float (t) : KeyString (.float t) t
  | char (c) : KeyString (.char c) [c]
  | str (s) : KeyString (.str s) s
  | unit : KeyString .unit c!"~"
  | none : KeyString .none c!"~"
  | some {v s} (h : KeyString v s) : KeyString (.some v) s
  | newtype {v s} (h : KeyString v s) : KeyString (.newtype v) s
  | unitVariant (name) : KeyString (.unitVariant name) name
  | newtypeVariant {name v s} (h : KeyString v s) : KeyString (.newtypeVariant name v) s

end YamlSubset.Spec
