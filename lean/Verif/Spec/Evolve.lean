import Verif.Spec.Decode

/-! # Specification: changes of a type that keep files readable

`Γ` are the named types of the old program, `Γ'` those of the new one, `N` the names of the fields that are new, and `R` says which named types of the two belong together. -/

namespace YamlSubset.Spec

/-- A change of a type, at any depth. -/
inductive Evolves (Γ Γ' : Nat → Ty) (N : List Str) (R : Nat → Nat → Prop) : Ty → Ty → Prop
  | bool : Evolves Γ Γ' N R .bool .bool
  /-- to an integer type with more values -/
  | int {k k'} (hr : ∀ i, InRange k i → InRange k' i) (hk : Signed k' ∨ Unsigned k') : Evolves Γ Γ' N R (.int k) (.int k')
  | float : Evolves Γ Γ' N R .float .float
  | char : Evolves Γ Γ' N R .char .char
  | str : Evolves Γ Γ' N R .str .str
  | bytes : Evolves Γ Γ' N R .bytes .bytes
  | any : Evolves Γ Γ' N R .any .any
  /-- a character becomes a string -/
  | charStr : Evolves Γ Γ' N R .char .str
  /-- a value is not looked at any more -/
  | unit {t} : Evolves Γ Γ' N R t .unit
  | ignored {t} : Evolves Γ Γ' N R t .ignored
  | option {t t'} (h : Evolves Γ Γ' N R t t') : Evolves Γ Γ' N R (.option t) (.option t')
  /-- a value becomes optional -/
  | optional {t t'} (h : Evolves Γ Γ' N R t t') : Evolves Γ Γ' N R t (.option t')
  | newtype {t t'} (h : Evolves Γ Γ' N R t t') : Evolves Γ Γ' N R (.newtype t) (.newtype t')
  | wrap {t t'} (h : Evolves Γ Γ' N R t t') : Evolves Γ Γ' N R t (.newtype t')
  | unwrap {t t'} (h : Evolves Γ Γ' N R t t') : Evolves Γ Γ' N R (.newtype t) t'
  | seq {t t'} (h : Evolves Γ Γ' N R t t') : Evolves Γ Γ' N R (.seq t) (.seq t')
  /-- components at the end can be dropped -/
  | tuple {ts ts' : List Ty} (hl : ts'.length ≤ ts.length) (h : ∀ (i : Nat) (t t' : Ty), ts[i]? = some t → ts'[i]? = some t' → Evolves Γ Γ' N R t t') :
      Evolves Γ Γ' N R (.tuple ts) (.tuple ts')
  | map {kt kt' vt vt'} (hk : Evolves Γ Γ' N R kt kt') (hv : Evolves Γ Γ' N R vt vt') : Evolves Γ Γ' N R (.map kt vt) (.map kt' vt')
  /-- Fields can be dropped and put in another order. New fields are optional. A field that was optional stays optional. -/
  | struct {fs fs' : List (Str × Ty)} (hnd : (fs.map fun f => f.1).Nodup) (hnd' : (fs'.map fun f => f.1).Nodup)
      (hnew : ∀ k t', (k, t') ∈ fs' → k ∈ N → OptionTy Γ' t')
      (hold : ∀ k t', (k, t') ∈ fs' → k ∉ N → ∃ t, (k, t) ∈ fs)
      (hopt : ∀ k t t', (k, t) ∈ fs → (k, t') ∈ fs' → k ∉ N → OptionTy Γ t → OptionTy Γ' t')
      (h : ∀ k t t', (k, t) ∈ fs → (k, t') ∈ fs' → k ∉ N → Evolves Γ Γ' N R t t') : Evolves Γ Γ' N R (.struct fs) (.struct fs')
  /-- Variants can be added. -/
  | enum {vs vs' : List (Str × Variant)} (hu : ∀ k, vs.lookup k = some .unit → vs'.lookup k = some .unit)
      (hn : ∀ k t, vs.lookup k = some (.newtype t) → ∃ t', vs'.lookup k = some (.newtype t'))
      (ht : ∀ k ts, vs.lookup k = some (.tuple ts) → ∃ ts', vs'.lookup k = some (.tuple ts'))
      (hs : ∀ k fs, vs.lookup k = some (.struct fs) → ∃ fs', vs'.lookup k = some (.struct fs'))
      (hn' : ∀ k t t', vs.lookup k = some (.newtype t) → vs'.lookup k = some (.newtype t') → Evolves Γ Γ' N R t t')
      (ht' : ∀ k ts ts', vs.lookup k = some (.tuple ts) → vs'.lookup k = some (.tuple ts') → Evolves Γ Γ' N R (.tuple ts) (.tuple ts'))
      (hs' : ∀ k fs fs', vs.lookup k = some (.struct fs) → vs'.lookup k = some (.struct fs') → Evolves Γ Γ' N R (.struct fs) (.struct fs')) :
      Evolves Γ Γ' N R (.enum vs) (.enum vs')
  | ref {n m} (h : R n m) : Evolves Γ Γ' N R (.ref n) (.ref m)

/-- The values that are read from a word for null, without being optional. -/
inductive FromNull : SVal → Prop
  | str {s} (h : NullWord s) : FromNull (.str s)
  | char : FromNull (.char '~')
  | unit : FromNull .unit
  | none : FromNull .none
  | unitVariant {s} (h : NullWord s) : FromNull (.unitVariant s)
  | newtypeVariant {s v} (h : NullWord s) : FromNull (.newtypeVariant s v)
  | newtype {v} (h : FromNull v) : FromNull (.newtype v)

/-- What becomes of a value when its type changes. -/
inductive Adapted (N : List Str) : SVal → SVal → Prop
  | same {v} : Adapted N v v
  | char {c} : Adapted N (.char c) (.str [c])
  | ignored {v} : Adapted N v .unit
  | some {v v'} (h : Adapted N v v') : Adapted N (.some v) (.some v')
  | optional {v v'} (h : Adapted N v v') : Adapted N v (.some v')
  | null {v} (h : FromNull v) : Adapted N v .none
  | newtype {v v'} (h : Adapted N v v') : Adapted N (.newtype v) (.newtype v')
  | wrap {v v'} (h : Adapted N v v') : Adapted N v (.newtype v')
  | unwrap {v v'} (h : Adapted N v v') : Adapted N (.newtype v) v'
  | seq {vs vs' : List SVal} (hl : vs.length = vs'.length) (h : ∀ (i : Nat) (v v' : SVal), vs[i]? = Option.some v → vs'[i]? = Option.some v' → Adapted N v v') :
      Adapted N (.seq vs) (.seq vs')
  | tuple {vs vs' : List SVal} (hl : vs'.length ≤ vs.length) (h : ∀ (i : Nat) (v v' : SVal), vs[i]? = Option.some v → vs'[i]? = Option.some v' → Adapted N v v') :
      Adapted N (.tuple vs) (.tuple vs')
  | map {es es' : List (SVal × SVal)} (hl : es.length = es'.length)
      (hk : ∀ (i : Nat) (e e' : SVal × SVal), es[i]? = Option.some e → es'[i]? = Option.some e' → Adapted N e.1 e'.1)
      (hv : ∀ (i : Nat) (e e' : SVal × SVal), es[i]? = Option.some e → es'[i]? = Option.some e' → Adapted N e.2 e'.2) : Adapted N (.map es) (.map es')
  /-- New fields are `None`; the other fields are those with the same names. -/
  | struct {fs fs' : List (Str × SVal)} (hnew : ∀ k v', (k, v') ∈ fs' → k ∈ N → v' = .none) (hold : ∀ k v', (k, v') ∈ fs' → k ∉ N → ∃ v, (k, v) ∈ fs)
      (h : ∀ k v v', (k, v) ∈ fs → (k, v') ∈ fs' → k ∉ N → Adapted N v v') : Adapted N (.struct fs) (.struct fs')
  | newtypeVariant {n v v'} (h : Adapted N v v') : Adapted N (.newtypeVariant n v) (.newtypeVariant n v')
  | tupleVariant {n vs vs'} (h : Adapted N (.tuple vs) (.tuple vs')) : Adapted N (.tupleVariant n vs) (.tupleVariant n vs')
  | structVariant {n fs fs'} (h : Adapted N (.struct fs) (.struct fs')) : Adapted N (.structVariant n fs) (.structVariant n fs')

/-- A mapping in the tree, at any depth, has this key. -/
inductive KeyIn (k : Str) : Yaml → Prop
  | here {y es w} (hy : mapPairs y = some es) (h : (k, w) ∈ es) : KeyIn k y
  | seq {y ys w} (hy : seqElements y = some ys) (hw : w ∈ ys) (h : KeyIn k w) : KeyIn k y
  | map {y es k' w} (hy : mapPairs y = some es) (hw : (k', w) ∈ es) (h : KeyIn k w) : KeyIn k y

end YamlSubset.Spec
