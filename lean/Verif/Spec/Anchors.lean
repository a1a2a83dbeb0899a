import Verif.Model.De

/-! # Specification: anchor definitions and references in a tree, and types that consume input

Nothing here refers to the functions of the deserializer. -/

namespace YamlSubset.Spec

/-- `Child c y`: `c` is a direct child value of the collection `y`. -/
inductive Child : Yaml → Yaml → Prop
  | inlineHash {es k v} (h : (k, v) ∈ es) : Child v (.inlineHash es)
  | hash {ds k a v} (h : HashData.element ⟨k, ⟨a, v⟩⟩ ∈ ds) : Child v (.hash ds)
  | inlineArray {es v} (h : v ∈ es) : Child v (.inlineArray es)
  | array {ds a v} (h : ArrayData.element ⟨a, v⟩ ∈ ds) : Child v (.array ds)

/-- `Within c y`: the node `c` occurs in `y`, at any depth (possibly `c` is `y`). -/
inductive Within (c : Yaml) : Yaml → Prop
  | self : Within c c
  | step {d y} (h : Child d y) (hw : Within c d) : Within c y

/-- A reference `*b` occurs in `y`. -/
def RefersTo (y : Yaml) (b : Str) : Prop := Within (.anchor b) y

/-- The collection `c` has an element or entry `&a v`. -/
inductive DirectDef : Yaml → Str → Yaml → Prop
  | hash {ds k a v} (h : HashData.element ⟨k, ⟨some a, v⟩⟩ ∈ ds) : DirectDef (.hash ds) a v
  | array {ds a v} (h : ArrayData.element ⟨some a, v⟩ ∈ ds) : DirectDef (.array ds) a v

/-- A definition `&a v` occurs in `y`. -/
def Defines (y : Yaml) (a : Str) (v : Yaml) : Prop := ∃ c, Within c y ∧ DirectDef c a v

/-- No cycles among the anchors: names can be ranked so that the value of a definition refers only to names of
lower rank than its own. -/
def Acyclic (y : Yaml) : Prop :=
  ∃ rank : Str → Nat, ∀ a v, Defines y a v → ∀ b, RefersTo v b → rank b < rank a

mutual
/-- How many steps a type can take without looking deeper into the input, if `g` says so for the named types: an
`Option`, a newtype, a named type, and a newtype variant called `~` (an enum variant given by its name alone has
the content `~`). -/
def inputFreeSteps (g : Nat → Nat) : Ty → Nat
  | .option t => inputFreeSteps g t + 1
  | .newtype t => inputFreeSteps g t + 1
  | .enum vs => tildeSteps g vs
  | .ref n => g n
  | .bool | .int _ | .float | .char | .str | .bytes | .unit | .seq _ | .tuple _ | .map _ _ | .struct _
  | .any | .ignored => 0
def tildeSteps (g : Nat → Nat) : List (Str × Variant) → Nat
  | [] => 0
  | (name, .newtype t) :: vs => max (if name = c!"~" then inputFreeSteps g t + 1 else 0) (tildeSteps g vs)
  | (_, .unit) :: vs => tildeSteps g vs
  | (_, .tuple _) :: vs => tildeSteps g vs
  | (_, .struct _) :: vs => tildeSteps g vs
end

/-- The named types consume input before they are used again. (Rust types such as `struct T(Box<T>)`, which have no
values, are excluded.) -/
def Guarded (Γ : Nat → Ty) : Prop := ∃ g : Nat → Nat, ∀ n, inputFreeSteps g (Γ n) < g n

/-! ## Replacing references by the values of their definitions -/

/-- The current definition of each name. -/
abbrev Defs := Str → Option Yaml

def Defs.define (D : Defs) (a : Str) (v : Yaml) : Defs := fun b => if b = a then some v else D b

/-- The definitions of the entries of a block map, in order; later ones override earlier ones. -/
def Defs.hash (D : Defs) : List HashData → Defs
  | [] => D
  | .element ⟨_, ⟨some a, v⟩⟩ :: t => Defs.hash (D.define a v) t
  | .element ⟨_, ⟨none, _⟩⟩ :: t => Defs.hash D t
  | .comment _ :: t => Defs.hash D t
  | .inlineComment _ :: t => Defs.hash D t

/-- The definitions of the elements of a block sequence. -/
def Defs.array (D : Defs) : List ArrayData → Defs
  | [] => D
  | .element ⟨some a, v⟩ :: t => Defs.array (D.define a v) t
  | .element ⟨none, _⟩ :: t => Defs.array D t
  | .comment _ :: t => Defs.array D t
  | .inlineComment _ :: t => Defs.array D t

/-- The keys and values of a block map. -/
def entriesOf (ds : List HashData) : List (Str × Yaml) :=
  ds.filterMap fun d => match d with
    | .element e => some (e.key, e.value.value)
    | _ => none

/-- The elements of a block sequence. -/
def elementsOf (ds : List ArrayData) : List Yaml :=
  ds.filterMap fun d => match d with
    | .element e => some e.value
    | _ => none

/-- `Expand D ys ts D'`: going through the trees `ys` from left to right with the definitions `D`, replacing each
reference by the expansion of its current definition, gives the trees `ts`, without references, and the definitions
`D'`. The definitions of a collection take effect when the collection is entered. -/
inductive Expand : Defs → List Yaml → List Yaml → Defs → Prop
  | nil {D} : Expand D [] [] D
  | scalar {D D' y s ys ts} (h : y.asString = some s) (hr : Expand D ys ts D') : Expand D (y :: ys) (y :: ts) D'
  | ref {D D1 D' a v t ys ts} (hd : D a = some v) (h : Expand D [v] [t] D1) (hr : Expand D1 ys ts D') :
      Expand D (.anchor a :: ys) (t :: ts) D'
  | inlineArray {D D1 D' es us ys ts} (h : Expand D es us D1) (hr : Expand D1 ys ts D') :
      Expand D (.inlineArray es :: ys) (.inlineArray us :: ts) D'
  | array {D D1 D' ds us ys ts} (h : Expand (D.array ds) (elementsOf ds) us D1) (hr : Expand D1 ys ts D') :
      Expand D (.array ds :: ys) (.inlineArray us :: ts) D'
  | inlineHash {D D1 D' es us ys ts} (h : Expand D (es.map fun e => e.2) us D1) (hr : Expand D1 ys ts D') :
      Expand D (.inlineHash es :: ys) (.inlineHash ((es.map fun e => e.1).zip us) :: ts) D'
  | hash {D D1 D' ds us ys ts} (h : Expand (D.hash ds) ((entriesOf ds).map fun e => e.2) us D1)
      (hr : Expand D1 ys ts D') :
      Expand D (.hash ds :: ys) (.inlineHash (((entriesOf ds).map fun e => e.1).zip us) :: ts) D'

/-- `y` with its references replaced is `t`. -/
def ExpandsTo (y t : Yaml) : Prop := ∃ D, Expand (fun _ => none) [y] [t] D

end YamlSubset.Spec
