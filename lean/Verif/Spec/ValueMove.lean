import Verif.Spec.ValueEdit
import Verif.Spec.Move
import Verif.Model.De

/-! # Specification: moves in deserialized values

Values of the self-describing type. Nothing here refers to documents or to the code that edits them. -/

namespace YamlSubset.Spec

/-- The value of the first entry with a key. -/
def pairOf (k : Str) : List (SVal × SVal) → Option SVal
  | [] => none
  | (.str k', v) :: t => if k' = k then some v else pairOf k t
  | _ :: t => pairOf k t

/-- The entries without the first one of each of the keys. -/
def dropPairs (ks : List Str) : List (SVal × SVal) → List (SVal × SVal)
  | [] => []
  | (.str k, v) :: t => if k ∈ ks then dropPairs (ks.filter (· ≠ k)) t else (.str k, v) :: dropPairs ks t
  | e :: t => e :: dropPairs ks t

/-- The entries with a value for a key: the first entry of the key gets the value, in place; if there is none, an entry comes last. -/
def putPair (k : Str) (x : SVal) : List (SVal × SVal) → List (SVal × SVal)
  | [] => [(.str k, x)]
  | (.str k', v) :: t => if k' = k then (.str k, x) :: t else (.str k', v) :: putPair k x t
  | e :: t => e :: putPair k x t

/-- The listed fields that exist, with their values, in the order of the list. -/
def foundPairs (fields : List Str) (es : List (SVal × SVal)) : List (Str × SVal) :=
  fields.filterMap fun k => (pairOf k es).map fun v => (k, v)

/-- The listed fields are moved into the map `sub`: they disappear where they were, and everything else stays in place. If there is a map `sub`, it gets
the moved values for the moved keys and keeps its other entries. If there is none, it comes last and has exactly the moved entries. -/
inductive MovesPairs (sub : Str) (fields : List Str) (es : List (SVal × SVal)) : List (SVal × SVal) → Prop
  | existing {pre sd post} (h : FirstPair sub es pre (.map sd) post) :
      MovesPairs sub fields es
        (dropPairs fields (pre ++ (.str sub, .map ((foundPairs fields es).foldl (fun sd kv => putPair kv.1 kv.2 sd) sd)) :: post))
  | new (h : ∀ w, (.str sub, w) ∉ es) :
      MovesPairs sub fields es (dropPairs fields es ++ [(.str sub, .map ((foundPairs fields es).map fun kv => (.str kv.1, kv.2)))])

/-- The listed fields disappear. This is what happens if `sub` is there and is not a map. -/
def LosesPairs (sub : Str) (fields : List Str) (es es' : List (SVal × SVal)) : Prop :=
  (∃ pre x post, FirstPair sub es pre x post ∧ ∀ m, x ≠ .map m) ∧ es' = dropPairs fields es

/-! ## regrouping -/

/-- The value is not a map and not a sequence. -/
def Scalar (x : SVal) : Prop := (∀ es, x ≠ .map es) ∧ ∀ vs, x ≠ .seq vs

/-- What happens to an entry of the old map. `b`: the entry before; `g`: the group it goes to, `none` if it stays in the old map; `a`: the entry after.
The key is kept. An entry without a scalar as selector is kept as it is and stays. Otherwise it loses the selector, and the text of the selector is the
name of the group, but for the texts to keep, and the empty text, which stay in the old map. -/
inductive SortedPair (sel : Str) (keeps : List Str) : SVal × SVal → Option Str → SVal × SVal → Prop
  | same {k v} (h : ∀ m pre x post, v = .map m → FirstPair sel m pre x post → ¬Scalar x) : SortedPair sel keeps (k, v) none (k, v)
  | stays {k m pre x post t} (h : FirstPair sel m pre x post) (ht : x = .str t ∨ x = deAnyPlain t) (hk : t ∈ keeps ∨ t = []) :
      SortedPair sel keeps (k, .map m) none (k, .map (pre ++ post))
  | goes {k m pre x post t} (h : FirstPair sel m pre x post) (ht : x = .str t ∨ x = deAnyPlain t) (hk : t ∉ keeps) (he : t ≠ []) :
      SortedPair sel keeps (k, .map m) (some t) (k, .map (pre ++ post))

/-- The entries that a list of sorted entries (group, before, after) gives for a group, in order. -/
def groupPairs (l : List (Option Str × (SVal × SVal) × (SVal × SVal))) (g : Option Str) : List (SVal × SVal) :=
  l.filterMap fun x => if x.1 = g then some x.2.2 else none

/-- The map `old` is regrouped: each entry is sorted; those that stay are still in `old`, the others are in a new map at the end, which has an
entry for each group that occurs, in the order of their names, with the entries of that group. -/
def RegroupsPairs (old sel new : Str) (keeps : List Str) (es es' : List (SVal × SVal)) : Prop :=
  ∃ (pre om post : List (SVal × SVal)) (l : List (Option Str × (SVal × SVal) × (SVal × SVal))) (gs : List Str), FirstPair old es pre (.map om) post ∧ l.map (fun x => x.2.1) = om ∧ (∀ x ∈ l, SortedPair sel keeps x.2.1 x.1 x.2.2) ∧
    gs.Pairwise Less ∧ (∀ g, g ∈ gs ↔ ∃ x ∈ l, x.1 = some g) ∧
    es' = pre ++ (.str old, .map (groupPairs l none)) :: post ++ [(.str new, .map (gs.map fun g => (.str g, .map (groupPairs l (some g)))))]

/-- The same without the new map: the entries that do not stay are lost. This is what happens if there is an entry `new` already. -/
def LosesGroups (old sel new : Str) (keeps : List Str) (es es' : List (SVal × SVal)) : Prop :=
  (∃ x, (.str new, x) ∈ es) ∧
  ∃ pre om post l, FirstPair old es pre (.map om) post ∧ l.map (fun x => x.2.1) = om ∧ (∀ x ∈ l, SortedPair sel keeps x.2.1 x.1 x.2.2) ∧
    es' = pre ++ (.str old, .map (groupPairs l none)) :: post

end YamlSubset.Spec
