import Verif.Model.Path

/-! # Specification: the text of a path -/

namespace YamlSubset.Spec

/-- Non-empty, no space at either end, and none of the characters of `stop`. -/
structure CleanText (stop : List Char) (s : Str) : Prop where
  nonempty : s ≠ []
  first : s.head? ≠ some ' '
  last : s.getLast? ≠ some ' '
  inner : ∀ c ∈ s, c ∉ stop

/-- A key that can be written in a path. -/
def CleanKey (s : Str) : Prop := CleanText ['[', ']', '.', '|'] s

/-- A condition that can be written in a path. -/
structure CleanCondition (c : Condition) : Prop where
  field : CleanText ['='] c.field
  value : CleanText ['.', '|'] c.value

/-- One step of a path: which children, and the conditions on them. -/
inductive Step where
  | key (k : Str) (cs : List Condition)
  | all (cs : List Condition)
  | index (n : Nat) (cs : List Condition)

/-- `|field=value` for each condition. -/
def renderConditions : List Condition → Str
  | [] => []
  | c :: cs => '|' :: (c.field ++ '=' :: (c.value ++ renderConditions cs))

/-- `.key`, `[*]` or `[n]`, with conditions. -/
def Step.render : Step → Str
  | .key k cs => '.' :: (k ++ renderConditions cs)
  | .all cs => c!"[*]" ++ renderConditions cs
  | .index n cs => '[' :: (natToStr n ++ ']' :: renderConditions cs)

/-- The text of a path that starts with the key `k`. -/
def renderPath (k : Str) (cs : List Condition) (steps : List Step) : Str :=
  k ++ renderConditions cs ++ (steps.map Step.render).flatten

/-- A path is its steps, one after the other. -/
def pathOf : List Step → Option YamlPath
  | [] => none
  | .key k cs :: t => some (.key k cs (pathOf t))
  | .all cs :: t => some (.allIndexes cs (pathOf t))
  | .index n cs :: t => some (.indexes [n] cs (pathOf t))

def Step.conditions : Step → List Condition
  | .key _ cs => cs
  | .all cs => cs
  | .index _ cs => cs

def Step.isKey : Step → Bool
  | .key _ _ => true
  | _ => false

/-- Clean keys and conditions, indexes of at most 64 bits. -/
structure CleanStep (s : Step) : Prop where
  key : ∀ k cs, s = .key k cs → CleanKey k
  conditions : ∀ c ∈ s.conditions, CleanCondition c
  index : ∀ n cs, s = .index n cs → n < 2 ^ 64

/-- After conditions `cs` the steps can be told apart: an index directly after a condition would be read as a part of
the value of the condition. -/
def Separated (cs : List Condition) : List Step → Prop
  | [] => True
  | s :: t => (cs ≠ [] → s.isKey = true) ∧ Separated s.conditions t

end YamlSubset.Spec
