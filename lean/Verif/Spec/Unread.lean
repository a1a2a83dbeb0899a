import Verif.Spec.Decode
import Verif.Spec.Commute

/-! # Specification: places that a type does not read -/

namespace YamlSubset.Spec

/-- `Unread Γ names ty p`: reading at the type `ty` does not look at what an edit with the path `p` changes, where the edit touches entries with
the given names at the end of its path. Either the path leads into a field that a struct does not have, or it goes on to something that is
not read in each of the values it leads to. -/
inductive Unread (Γ : Nat → Ty) (names : List Str) : Ty → YamlPath → Prop
  /-- the end of the path: the struct has none of the names as a field -/
  | last {fs k cs} (h : ∀ n ∈ names, ∀ t, (n, t) ∉ fs) : Unread Γ names (.struct fs) (.key k cs none)
  /-- below an entry that is not a field -/
  | noField {fs k cs p} (h : ∀ t, (k, t) ∉ fs) : Unread Γ names (.struct fs) (.key k cs (some p))
  | field {fs k cs p t} (hl : fs.lookup k = some t) (h : Unread Γ names t p) : Unread Γ names (.struct fs) (.key k cs (some p))
  | map {kt vt k cs p} (h : Unread Γ names vt p) : Unread Γ names (.map kt vt) (.key k cs (some p))
  | seqAll {t cs p} (h : Unread Γ names t p) : Unread Γ names (.seq t) (.allIndexes cs (some p))
  | seqSome {t is cs p} (h : Unread Γ names t p) : Unread Γ names (.seq t) (.indexes is cs (some p))
  | tupleAll {ts cs p} (h : ∀ t ∈ ts, Unread Γ names t p) : Unread Γ names (.tuple ts) (.allIndexes cs (some p))
  /-- elements after the last component are not read -/
  | tupleSome {ts is cs p} (h : ∀ i ∈ is, ∀ t, ts[i]? = some t → Unread Γ names t p) : Unread Γ names (.tuple ts) (.indexes is cs (some p))
  /-- the content of a variant; that of a unit variant is not read, and other names are errors anyway -/
  | variant {vs k cs p} (hn : ∀ t, vs.lookup k = some (.newtype t) → Unread Γ names t p)
      (ht : ∀ ts, vs.lookup k = some (.tuple ts) → Unread Γ names (.tuple ts) p)
      (hs : ∀ fs, vs.lookup k = some (.struct fs) → Unread Γ names (.struct fs) p) : Unread Γ names (.enum vs) (.key k cs (some p))
  | option {t p} (h : Unread Γ names t p) : Unread Γ names (.option t) p
  | newtype {t p} (h : Unread Γ names t p) : Unread Γ names (.newtype t) p
  | ref {n p} (h : Unread Γ names (Γ n) p) : Unread Γ names (.ref n) p
  | unit {p} : Unread Γ names .unit p
  | ignored {p} : Unread Γ names .ignored p
  /-- paths do not lead into scalars, and a collection is an error here, before and after the edit -/
  | scalar {t p} (h : t = .bool ∨ t = .float ∨ t = .char ∨ t = .str ∨ ∃ k, t = .int k) : Unread Γ names t p

/-- What is inserted has no references. -/
def Edit.NoRefs : Edit → Prop
  | .insert _ v _ => ∀ b, ¬RefersTo v.value b
  | _ => True

end YamlSubset.Spec
