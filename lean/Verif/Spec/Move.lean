import Verif.Spec.Edit

/-! # Specification: moving entries of hashes

Nothing here refers to the editing code. -/

namespace YamlSubset.Spec

/-- The value of the first entry with a key. -/
def firstIn (k : Str) : List HashData → Option AliasedYaml
  | [] => none
  | .element e :: t => if e.key = k then some e.value else firstIn k t
  | .comment _ :: t => firstIn k t
  | .inlineComment _ :: t => firstIn k t

/-- The data without the first entry of each of the keys. -/
def dropFirst (ks : List Str) : List HashData → List HashData
  | [] => []
  | .element e :: t =>
    if e.key ∈ ks then dropFirst (ks.filter (· ≠ e.key)) t else .element e :: dropFirst ks t
  | .comment s :: t => .comment s :: dropFirst ks t
  | .inlineComment s :: t => .inlineComment s :: dropFirst ks t

/-- The data without all entries of the keys. -/
def otherThan (ks : List Str) : List HashData → List HashData
  | [] => []
  | .element e :: t => if e.key ∈ ks then otherThan ks t else .element e :: otherThan ks t
  | .comment s :: t => .comment s :: otherThan ks t
  | .inlineComment s :: t => .inlineComment s :: otherThan ks t

/-- The listed fields that exist, with their values. -/
def foundFields (fields : List Str) (ds : List HashData) : List (Str × AliasedYaml) :=
  fields.filterMap fun k => (firstIn k ds).map fun v => (k, v)

/-- The subfield does not exist yet, or is a block hash. -/
def Usable (sub : Str) (ds : List HashData) : Prop :=
  sub ∉ keysOf ds ∨ ∃ pre a sd post, FirstEntry sub ds pre ⟨a, .hash sd⟩ post

/-- The data with a value for a key: the first entry of the key gets the value, in place; if there is none, an entry comes last. -/
def put (k : Str) (v : AliasedYaml) : List HashData → List HashData
  | [] => [.element ⟨k, v⟩]
  | .element e :: t => if e.key = k then .element ⟨k, v⟩ :: t else .element e :: put k v t
  | .comment s :: t => .comment s :: put k v t
  | .inlineComment s :: t => .inlineComment s :: put k v t

/-- The data with these values, one after the other. -/
def putAll (kvs : List (Str × AliasedYaml)) (ds : List HashData) : List HashData := kvs.foldl (fun ds kv => put kv.1 kv.2 ds) ds

/-- `MovedInto sub fields ds ds'`: the listed fields that `ds` has are moved into the subfield `sub`. They disappear from `ds`;
every other entry and comment stays, in place. A subfield that exists keeps its place, its anchor, its comments and its entries
with other keys, and gets the moved values for the moved keys. A new subfield comes last and has exactly the moved entries. -/
inductive MovedInto (sub : Str) (fields : List Str) (ds : List HashData) : List HashData → Prop
  | existing {pre a sd post} (h : FirstEntry sub ds pre ⟨a, .hash sd⟩ post) :
      MovedInto sub fields ds (dropFirst fields (pre ++ .element ⟨sub, ⟨a, .hash (putAll (foundFields fields ds) sd)⟩⟩ :: post))
  | new (h : sub ∉ keysOf ds) :
      MovedInto sub fields ds (dropFirst fields ds ++
        [.element ⟨sub, ⟨none, .hash ((foundFields fields ds).map fun kv => .element ⟨kv.1, kv.2⟩)⟩⟩])

/-! ## regrouping -/

/-- The text of the selector field of an entry. -/
def selectorText (sel : Str) (e : HashElement) : Option Str :=
  match e.value.value with
  | .hash ds => (firstIn sel ds).bind fun v => v.value.asString
  | _ => none

/-- The group an entry goes to; `none` if it stays in the old map. -/
def groupOf (sel : Str) (keeps : List Str) (e : HashElement) : Option Str :=
  match selectorText sel e with
  | some s => if s ∈ keeps ∨ s = [] then none else some s
  | none => none

/-- An entry without its selector field, if this is a text. -/
def strip (sel : Str) : HashData → HashData
  | .element ⟨k, ⟨a, .hash ds⟩⟩ =>
    if (selectorText sel ⟨k, ⟨a, .hash ds⟩⟩).isSome then .element ⟨k, ⟨a, .hash (dropFirst [sel] ds)⟩⟩
    else .element ⟨k, ⟨a, .hash ds⟩⟩
  | d => d

/-- The group of the first entry, or a default if there is none. -/
def nextGroup (sel : Str) (keeps : List Str) (dflt : Option Str) : List HashData → Option Str
  | [] => dflt
  | .element e :: _ => groupOf sel keeps e
  | .comment _ :: t => nextGroup sel keeps dflt t
  | .inlineComment _ :: t => nextGroup sel keeps dflt t

/-- The group of each item: a comment goes with the entry after it, or with the last entry if none follows. -/
def groups (sel : Str) (keeps : List Str) (last : Option Str) : List HashData → List (Option Str × HashData)
  | [] => []
  | .element e :: t => (groupOf sel keeps e, .element e) :: groups sel keeps (groupOf sel keeps e) t
  | .comment s :: t => (nextGroup sel keeps last t, .comment s) :: groups sel keeps last t
  | .inlineComment s :: t => (nextGroup sel keeps last t, .inlineComment s) :: groups sel keeps last t

/-- The items that go to `g`, in order, without their selector fields. -/
def itemsOf (sel : Str) (keeps : List Str) (od : List HashData) (g : Option Str) : List HashData :=
  (groups sel keeps none od).filterMap fun x => if x.1 = g then some (strip sel x.2) else none

/-- Strictly smaller in the order of code points. -/
def Less (s t : Str) : Prop := s.map Char.toNat < t.map Char.toNat

/-- `Regrouped old sel new keeps ds ds'`: the map `old` keeps the items that stay, in place; a map `new` at the end has, for each
group in order, one entry with the items of the group. -/
inductive Regrouped (old sel new : Str) (keeps : List Str) (ds : List HashData) : List HashData → Prop
  | intro {pre a od post} {gs : List Str} (h : FirstEntry old ds pre ⟨a, .hash od⟩ post)
      (sorted : gs.Pairwise Less)
      (names : ∀ g, g ∈ gs ↔ ∃ k v, HashData.element ⟨k, v⟩ ∈ od ∧ groupOf sel keeps ⟨k, v⟩ = some g) :
      Regrouped old sel new keeps ds
        (pre ++ .element ⟨old, ⟨a, .hash (itemsOf sel keeps od none)⟩⟩ :: post ++
          [.element ⟨new, ⟨a, .hash (gs.map fun g => .element ⟨g, ⟨none, .hash (itemsOf sel keeps od (some g))⟩⟩)⟩⟩])

/-- `GroupsLost old sel keeps ds ds'`: the map `old` keeps the items that stay, in place; the other items are lost. -/
inductive GroupsLost (old sel : Str) (keeps : List Str) (ds : List HashData) : List HashData → Prop
  | intro {pre a od post} (h : FirstEntry old ds pre ⟨a, .hash od⟩ post) :
      GroupsLost old sel keeps ds (pre ++ .element ⟨old, ⟨a, .hash (itemsOf sel keeps od none)⟩⟩ :: post)

/-- The map has no entry that goes to a group, or is not a block hash, or does not exist. -/
def NothingToMove (old sel : Str) (keeps : List Str) (ds : List HashData) : Prop :=
  ∀ pre a od post, FirstEntry old ds pre ⟨a, .hash od⟩ post → ∀ k v, HashData.element ⟨k, v⟩ ∈ od → groupOf sel keeps ⟨k, v⟩ = none

end YamlSubset.Spec
