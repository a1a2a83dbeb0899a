import Verif.Spec.Decode

/-! # Specification: the same tree and the same value, up to the order of entries -/

namespace YamlSubset.Spec

/-- The trees have the same scalars and sequences, and mappings with the same entries in any order, at every depth. (Comments, the names of anchors, and whether
a collection is a block or a flow collection do not count.) -/
inductive Reordered : Yaml → Yaml → Prop
  | same {y} : Reordered y y
  | seq {y y' ys ys'} (hy : seqElements y = some ys) (hy' : seqElements y' = some ys') (hl : ys.length = ys'.length)
      (h : ∀ (i : Nat) (w w' : Yaml), ys[i]? = some w → ys'[i]? = some w' → Reordered w w') : Reordered y y'
  /-- first the values are changed, then the order -/
  | map {y y' es es'} {es₁ : List (Str × Yaml)} (hy : mapPairs y = some es) (hy' : mapPairs y' = some es') (hl : es.length = es₁.length)
      (hk : ∀ (i : Nat) (k : Str) (w : Yaml) (k' : Str) (w' : Yaml), es[i]? = some (k, w) → es₁[i]? = some (k', w') → k = k')
      (h : ∀ (i : Nat) (k : Str) (w : Yaml) (k' : Str) (w' : Yaml), es[i]? = some (k, w) → es₁[i]? = some (k', w') → Reordered w w')
      (hp : es₁.Perm es') : Reordered y y'

/-- The values are the same, but the entries of maps can be in another order, at every depth. For Rust's maps this is equality if no key is repeated (of repeated keys a map keeps the last one). -/
inductive SameUpToOrder : SVal → SVal → Prop
  | same {v} : SameUpToOrder v v
  | some {v v'} (h : SameUpToOrder v v') : SameUpToOrder (.some v) (.some v')
  | newtype {v v'} (h : SameUpToOrder v v') : SameUpToOrder (.newtype v) (.newtype v')
  | newtypeVariant {n v v'} (h : SameUpToOrder v v') : SameUpToOrder (.newtypeVariant n v) (.newtypeVariant n v')
  | tupleVariant {n vs vs'} (h : SameUpToOrder (.tuple vs) (.tuple vs')) : SameUpToOrder (.tupleVariant n vs) (.tupleVariant n vs')
  | structVariant {n vs vs'} (h : SameUpToOrder (.struct vs) (.struct vs')) : SameUpToOrder (.structVariant n vs) (.structVariant n vs')
  | seq {vs vs'} (hl : vs.length = vs'.length) (h : ∀ (i : Nat) (v v' : SVal), vs[i]? = some v → vs'[i]? = some v' → SameUpToOrder v v') :
      SameUpToOrder (.seq vs) (.seq vs')
  | tuple {vs vs'} (hl : vs.length = vs'.length) (h : ∀ (i : Nat) (v v' : SVal), vs[i]? = some v → vs'[i]? = some v' → SameUpToOrder v v') :
      SameUpToOrder (.tuple vs) (.tuple vs')
  /-- the fields of a struct are in the order of their declaration -/
  | struct {vs vs'} (hn : vs.map (fun v => v.1) = vs'.map (fun v => v.1))
      (h : ∀ (i : Nat) (v v' : Str × SVal), vs[i]? = some v → vs'[i]? = some v' → SameUpToOrder v.2 v'.2) : SameUpToOrder (.struct vs) (.struct vs')
  | map {es es₁ es' : List (SVal × SVal)} (hl : es.length = es₁.length)
      (hk : ∀ (i : Nat) (e e' : SVal × SVal), es[i]? = some e → es₁[i]? = some e' → e.1 = e'.1)
      (h : ∀ (i : Nat) (e e' : SVal × SVal), es[i]? = some e → es₁[i]? = some e' → SameUpToOrder e.2 e'.2)
      (hp : es₁.Perm es') : SameUpToOrder (.map es) (.map es')

/-- There is no map with two or more entries in the value. -/
inductive NoMaps : SVal → Prop
  | bool (b) : NoMaps (.bool b)
  | int (i) : NoMaps (.int i)
  | float (s) : NoMaps (.float s)
  | char (c) : NoMaps (.char c)
  | str (s) : NoMaps (.str s)
  | bytes (bs) : NoMaps (.bytes bs)
  | unit : NoMaps .unit
  | none : NoMaps .none
  | some {v} (h : NoMaps v) : NoMaps (.some v)
  | newtype {v} (h : NoMaps v) : NoMaps (.newtype v)
  | unitVariant (n) : NoMaps (.unitVariant n)
  | newtypeVariant {n v} (h : NoMaps v) : NoMaps (.newtypeVariant n v)
  | tupleVariant {n vs} (h : ∀ v ∈ vs, NoMaps v) : NoMaps (.tupleVariant n vs)
  | structVariant {n vs} (h : ∀ k v, (k, v) ∈ vs → NoMaps v) : NoMaps (.structVariant n vs)
  | seq {vs} (h : ∀ v ∈ vs, NoMaps v) : NoMaps (.seq vs)
  | tuple {vs} (h : ∀ v ∈ vs, NoMaps v) : NoMaps (.tuple vs)
  | struct {vs} (h : ∀ k v, (k, v) ∈ vs → NoMaps v) : NoMaps (.struct vs)
  | map {es} (hl : es.length ≤ 1) (h : ∀ k v, (k, v) ∈ es → NoMaps v) : NoMaps (.map es)

end YamlSubset.Spec
