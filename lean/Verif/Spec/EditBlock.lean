import Verif.Spec.Edit
import Verif.Spec.Tree

/-! # Specification: what index steps select

`lookup` (Spec/Edit) is what the path notation says. This file gives the lookup in which index steps address the
elements of block sequences only, and the one for arbitrary trees. Nothing here refers to the editing
code. -/

namespace YamlSubset.Spec

/-- The elements that an index step looks at: `[*]` looks at all of them, `[i, j]` at the listed ones, in the order of
the list. -/
def atIndexes : Option (List Nat) → List Yaml → List Yaml
  | none, es => es
  | some is, es => is.filterMap fun i => es[i]?

open Classical in
/-- Looking up a path, if `sel` gives the nodes that an index step with conditions selects in a node. -/
noncomputable def lookupBy (sel : Option (List Nat) → List Condition → Yaml → List Yaml) : YamlPath → Yaml → List Yaml
  | .root cs, y => if Fits cs y then [y] else []
  | .key k cs none, y => if Fits cs y then (firstValue k y).toList else []
  | .key k cs (some p), y => if Fits cs y then (firstValue k y).toList.flatMap (lookupBy sel p) else []
  | .allIndexes cs none, y => sel none cs y
  | .allIndexes cs (some p), y => (sel none cs y).flatMap (lookupBy sel p)
  | .indexes is cs none, y => sel (some is) cs y
  | .indexes is cs (some p), y => (sel (some is) cs y).flatMap (lookupBy sel p)

open Classical in
/-- An index step on a sequence of either style: this is what the path notation says. -/
noncomputable def selectAny (is : Option (List Nat)) (cs : List Condition) (y : Yaml) : List Yaml :=
  (atIndexes is (elements y)).filter fun e => Fits cs e

open Classical in
/-- An index step that finds the elements of block sequences only. -/
noncomputable def selectBlock (is : Option (List Nat)) (cs : List Condition) : Yaml → List Yaml
  | .array ds => (atIndexes is (elementValues ds)).filter fun e => Fits cs e
  | _ => []

section
open Classical

mutual
/-- An index step in an arbitrary tree (trees built by a program can have block sequences in flow sequences): in a
flow sequence, the same index step is taken again in the elements it looks at, until block sequences are reached. -/
noncomputable def selectThrough (is : Option (List Nat)) (cs : List Condition) : Yaml → List Yaml
  | .array ds => (atIndexes is (elementValues ds)).filter fun e => Fits cs e
  | .inlineArray es =>
    match is with
    | none => (selectThroughEach is cs es).flatten
    | some ns => (ns.filterMap fun i => (selectThroughEach is cs es)[i]?).flatten
  | _ => []
/-- The same step taken in each of some nodes; nothing if a node does not fit the conditions. -/
noncomputable def selectThroughEach (is : Option (List Nat)) (cs : List Condition) : List Yaml → List (List Yaml)
  | [] => []
  | e :: t => (if Fits cs e then selectThrough is cs e else []) :: selectThroughEach is cs t
end

end

end YamlSubset.Spec
