import Verif.Spec.Decode
import Verif.Model.Path

/-! # Specification: setting and unsetting a field of a typed value -/

namespace YamlSubset.Spec

/-- Apply a function behind `Some` and newtypes. -/
def through (f : SVal → SVal) : SVal → SVal
  | .some v => .some (through f v)
  | .newtype v => .newtype (through f v)
  | v => f v

/-- Give a key of a map a value: its first entry is changed, or there is a new one at the end. -/
def setPair (k : Str) (x : SVal) : List (SVal × SVal) → List (SVal × SVal)
  | [] => [(.str k, x)]
  | (.str k', v) :: t => if k' = k then (.str k', x) :: t else (.str k', v) :: setPair k x t
  | e :: t => e :: setPair k x t

/-- Drop the first entry with a key. -/
def dropPair (k : Str) : List (SVal × SVal) → List (SVal × SVal)
  | [] => []
  | (.str k', v) :: t => if k' = k then t else (.str k', v) :: dropPair k t
  | e :: t => e :: dropPair k t

/-- Change the value of the first entry with a key. -/
def inPair (k : Str) (f : SVal → SVal) : List (SVal × SVal) → List (SVal × SVal)
  | [] => []
  | (.str k', v) :: t => if k' = k then (.str k', f v) :: t else (.str k', v) :: inPair k f t
  | e :: t => e :: inPair k f t

/-- Change the field with a name. -/
def inField (k : Str) (f : SVal → SVal) (vs : List (Str × SVal)) : List (Str × SVal) :=
  vs.map fun e => if e.1 = k then (e.1, f e.2) else e

/-- What is done to a field. -/
inductive Change where
  | set (x : SVal)
  | unset

/-- The new value of a field of a struct. -/
def Change.value : Change → SVal
  | .set x => x
  | .unset => .none

/-- The new entries of a map. -/
def Change.pairs (k : Str) : Change → List (SVal × SVal) → List (SVal × SVal)
  | .set x => setPair k x
  | .unset => dropPair k

/-- Set or unset the field at a path (without conditions) in a value. Nothing happens where the path leads nowhere. -/
def changeAt (c : Change) : YamlPath → SVal → SVal
  | .key k _ none => through fun
    | .struct vs => .struct (inField k (fun _ => c.value) vs)
    | .map es => .map (c.pairs k es)
    | v => v
  | .key k _ (some p) => through fun
    | .struct vs => .struct (inField k (changeAt c p) vs)
    | .map es => .map (inPair k (changeAt c p) es)
    | v => v
  | .allIndexes _ (some p) => through fun
    | .seq vs => .seq (vs.map (changeAt c p))
    | v => v
  | .indexes is _ (some p) => through fun
    | .seq vs => .seq (is.foldl (fun vs i => vs.modify i (changeAt c p)) vs)
    | v => v
  | _ => id

/-- The value behind `Some` and newtypes. -/
def stripped : SVal → SVal
  | .some v => stripped v
  | .newtype v => stripped v
  | v => v

/-- The value of the first entry with a key. -/
def pairAt (k : Str) : List (SVal × SVal) → Option SVal
  | [] => none
  | (.str k', v) :: t => if k' = k then some v else pairAt k t
  | _ :: t => pairAt k t

/-- The value at a path (without conditions) in a value, where the path has only single indexes. -/
def valueAt : YamlPath → SVal → Option SVal
  | .key k _ none, v => match stripped v with
    | .struct vs => vs.lookup k
    | .map es => pairAt k es
    | _ => none
  | .key k _ (some p), v => match stripped v with
    | .struct vs => (vs.lookup k).bind fun u => valueAt p u
    | .map es => (pairAt k es).bind fun u => valueAt p u
    | _ => none
  | .indexes [i] _ (some p), v => match stripped v with
    | .seq vs => vs[i]?.bind fun u => valueAt p u
    | _ => none
  | _, _ => none

/-- `Leads Γ ty p t e`: in values of the type `ty` the path `p` leads to fields of the type `t`; `e` tells whether they are entries of maps. -/
inductive Leads (Γ : Nat → Ty) : Ty → YamlPath → Ty → Bool → Prop
  | field {fs k t} (h : fs.lookup k = some t) (h1 : ∀ u, (k, u) ∈ fs → u = t) : Leads Γ (.struct fs) (.key k [] none) t false
  | entry {vt k} : Leads Γ (.map .str vt) (.key k [] none) vt true
  | anyEntry {k} : Leads Γ .any (.key k [] none) .any true
  | inField {fs k u p t e} (hl : fs.lookup k = some u) (h : Leads Γ u p t e) : Leads Γ (.struct fs) (.key k [] (some p)) t e
  | inEntry {vt k p t e} (h : Leads Γ vt p t e) : Leads Γ (.map .str vt) (.key k [] (some p)) t e
  | inAny {k p e} (h : Leads Γ .any p .any e) : Leads Γ .any (.key k [] (some p)) .any e
  | all {u p t e} (h : Leads Γ u p t e) : Leads Γ (.seq u) (.allIndexes [] (some p)) t e
  | some {u is p t e} (hn : is.Nodup) (h : Leads Γ u p t e) : Leads Γ (.seq u) (.indexes is [] (some p)) t e
  | anyAll {p e} (h : Leads Γ .any p .any e) : Leads Γ .any (.allIndexes [] (some p)) .any e
  | anySome {is p e} (hn : is.Nodup) (h : Leads Γ .any p .any e) : Leads Γ .any (.indexes is [] (some p)) .any e
  | option {u p t e} (h : Leads Γ u p t e) : Leads Γ (.option u) p t e
  | newtype {u p t e} (h : Leads Γ u p t e) : Leads Γ (.newtype u) p t e
  | ref {n p t e} (h : Leads Γ (Γ n) p t e) : Leads Γ (.ref n) p t e

/-- The mappings that the path meets in the tree are block mappings. (Edits do not enter flow mappings.) -/
def BlockAlong : YamlPath → Yaml → Prop
  | .key k _ o, y => (∀ es, y ≠ .inlineHash es) ∧ match o with
    | none => True
    | some p => ∀ es w, mapPairs y = some es → (k, w) ∈ es → BlockAlong p w
  | .allIndexes _ (some p), y => ∀ ys w, seqElements y = some ys → w ∈ ys → BlockAlong p w
  | .indexes _ _ (some p), y => ∀ ys w, seqElements y = some ys → w ∈ ys → BlockAlong p w
  | _, _ => True

end YamlSubset.Spec
