import Verif.Model.Ser

/-! # Specification: changes of deserialized values

Values of the self-describing type (null, booleans, numbers, strings, sequences, and maps with their entries in order). -/

namespace YamlSubset.Spec

/-- `ValueEdits F n v v'`: `v'` results from `v` by `n` changes of maps in it, one after the other, each being one that `F` allows. Nothing
else differs. -/
inductive ValueEdits (F : List (SVal × SVal) → List (SVal × SVal) → Prop) : Nat → SVal → SVal → Prop
  | none (v) : ValueEdits F 0 v v
  | here {es es'} (h : F es es') : ValueEdits F 1 (.map es) (.map es')
  | inMap {es i k v v' n} (hi : es[i]? = some (k, v)) (h : ValueEdits F n v v') : ValueEdits F n (.map es) (.map (es.set i (k, v')))
  | inSeq {vs i v v' n} (hi : vs[i]? = some v) (h : ValueEdits F n v v') : ValueEdits F n (.seq vs) (.seq (vs.set i v'))
  | seq {u v w m n} (h : ValueEdits F m u v) (h' : ValueEdits F n v w) : ValueEdits F (m + n) u w

/-- `FirstPair k es pre v post`: `es` is `pre`, the entry `k: v`, `post`, and `k` is not a key in `pre`. -/
def FirstPair (k : Str) (es pre : List (SVal × SVal)) (v : SVal) (post : List (SVal × SVal)) : Prop :=
  es = pre ++ (.str k, v) :: post ∧ ∀ w, (.str k, w) ∉ pre

/-- A new key with a value, after the others. -/
def AddsPair (k : Str) (x : SVal) (es es' : List (SVal × SVal)) : Prop := (∀ w, (.str k, w) ∉ es) ∧ es' = es ++ [(.str k, x)]

/-- Another value for a key. -/
def SetsPair (k : Str) (x : SVal) (es es' : List (SVal × SVal)) : Prop := ∃ pre v post, FirstPair k es pre v post ∧ es' = pre ++ (.str k, x) :: post

/-- An entry less. -/
def DropsPair (k : Str) (es es' : List (SVal × SVal)) : Prop := ∃ pre v post, FirstPair k es pre v post ∧ es' = pre ++ post

/-- Another key for a value. -/
def RenamesPair (k new : Str) (es es' : List (SVal × SVal)) : Prop :=
  ∃ pre v post, FirstPair k es pre v post ∧ es' = pre ++ (.str new, v) :: post

/-- The value of a key inside a map of its own. -/
def WrapsPair (k obj : Str) (es es' : List (SVal × SVal)) : Prop :=
  ∃ pre v post, FirstPair k es pre v post ∧ es' = pre ++ (.str k, .map [(.str obj, v)]) :: post

end YamlSubset.Spec
