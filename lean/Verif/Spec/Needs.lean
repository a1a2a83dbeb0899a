import Verif.Spec.Anchors

/-! # Specification: the references that a type reads -/

namespace YamlSubset.Spec

/-- The elements of a sequence, in block or flow style. -/
def listed : Yaml → List Yaml
  | .array ds => elementsOf ds
  | .inlineArray es => es
  | _ => []

/-- The entries of a mapping, in block or flow style. -/
def keyed : Yaml → List (Str × Yaml)
  | .hash ds => entriesOf ds
  | .inlineHash es => es
  | _ => []

/-- The type looks at the value itself. The unit type and ignored values do not, a newtype and a named type leave it to another type. -/
def LooksAt : Ty → Prop
  | .unit | .ignored | .newtype _ | .ref _ => False
  | _ => True

/-- `Needs Γ b t y`: to read `y` at the type `t`, a reference `*b` has to be read. Fields that the struct does not have, elements behind
the last component of a tuple and values that are ignored are not read. -/
inductive Needs (Γ : Nat → Ty) (b : Str) : Ty → Yaml → Prop
  | reference {t} (h : LooksAt t) : Needs Γ b t (.anchor b)
  | option {t y} (h : Needs Γ b t y) : Needs Γ b (.option t) y
  | newtype {t y} (h : Needs Γ b t y) : Needs Γ b (.newtype t) y
  | named {m y} (h : Needs Γ b (Γ m) y) : Needs Γ b (.ref m) y
  | byte {y x} (hx : x ∈ listed y) (h : Needs Γ b (.int .u8) x) : Needs Γ b .bytes y
  | element {t y x} (hx : x ∈ listed y) (h : Needs Γ b t x) : Needs Γ b (.seq t) y
  | component {ts y t x} {i : Nat} (ht : ts[i]? = some t) (hx : (listed y)[i]? = some x) (h : Needs Γ b t x) : Needs Γ b (.tuple ts) y
  | entry {k t y s x} (hx : (s, x) ∈ keyed y) (h : Needs Γ b t x) : Needs Γ b (.map k t) y
  | field {fs y s t x} (hx : (s, x) ∈ keyed y) (ht : fs.lookup s = some t) (h : Needs Γ b t x) : Needs Γ b (.struct fs) y
  | variant {vs y s t x} (hx : keyed y = [(s, x)]) (hv : vs.lookup s = some (.newtype t)) (h : Needs Γ b t x) : Needs Γ b (.enum vs) y
  | tupleVariant {vs y s ts x} (hx : keyed y = [(s, x)]) (hv : vs.lookup s = some (.tuple ts)) (h : Needs Γ b (.tuple ts) x) : Needs Γ b (.enum vs) y
  | structVariant {vs y s fs x} (hx : keyed y = [(s, x)]) (hv : vs.lookup s = some (.struct fs)) (h : Needs Γ b (.struct fs) x) : Needs Γ b (.enum vs) y
  | anyElement {y x} (hx : x ∈ listed y) (h : Needs Γ b .any x) : Needs Γ b .any y
  | anyEntry {y s x} (hx : (s, x) ∈ keyed y) (h : Needs Γ b .any x) : Needs Γ b .any y

end YamlSubset.Spec
