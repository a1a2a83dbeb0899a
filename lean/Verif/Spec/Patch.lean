import Verif.Model.Format

/-! # Specification: texts that differ in a number of places

What an edit does to the text of a document. The text of a value is what formatting the value gives; nothing here refers to the editing
code. -/

namespace YamlSubset.Spec

/-- `Patched R n s t`: `t` results from `s` by replacing `n` pieces, one after the other, each by a text that `R` allows for it. All
other characters stay, in their order. -/
inductive Patched (R : Str → Str → Prop) : Nat → Str → Str → Prop
  | none (s) : Patched R 0 s s
  | step {n s old new} (pre post : Str) (h : Patched R n s (pre ++ old ++ post)) (hr : R old new) : Patched R (n + 1) s (pre ++ new ++ post)

/-- The white space before an entry whose mapping has the indentation `n`: a new line with this indentation, or, for the first entry of a
mapping in a sequence, the blank after the dash. -/
def entryStart (n : Nat) (dash : Bool) : Str := if dash then [' '] else '\n' :: List.replicate n ' '

/-- The text `key: value` of an entry, with the white space before it. -/
def entryText (n : Nat) (dash : Bool) (k : Str) (v : AliasedYaml) : Str :=
  entryStart n dash ++ k ++ ':' :: v.format n (some .hash)

/-- Renaming: the key of an entry is replaced by another one; the white space before it and the text of the value stay. -/
inductive RenamedText (k new : Str) : Str → Str → Prop
  | key (n dash v) : RenamedText k new (entryText n dash k v) (entryText n dash new v)

/-- Inserting: nothing is replaced by the new entry, on a new line. In an empty mapping, its braces are replaced. -/
inductive InsertedText (k : Str) (h : AliasedYaml) : Str → Str → Prop
  | entry (n) : InsertedText k h [] (entryText n false k h)
  | first (n dash) : InsertedText k h c!" {}" (entryText n dash k h)

/-- Overwriting: the text of the value is replaced. -/
inductive OverwrittenText (k : Str) (h : AliasedYaml) : Str → Str → Prop
  | value (n dash v) : OverwrittenText k h (entryText n dash k v) (entryText n dash k h)

/-- Removing: the text of the entry is removed. If it was the first one after a dash, then the entry that follows moves to the line of
the dash. If it was the only one, braces remain. -/
inductive RemovedText (k : Str) : Str → Str → Prop
  | entry (n dash v) : RemovedText k (entryText n dash k v) []
  | next (n v) : RemovedText k (entryText n true k v ++ entryStart n false) (entryStart n true)
  | only (n dash v) : RemovedText k (entryText n dash k v) c!" {}"

/-- Wrapping: the value moves to a new line after the key of the object, and gets two more columns of indentation. -/
inductive WrappedText (k obj : Str) : Str → Str → Prop
  | value (n dash v) : WrappedText k obj (entryText n dash k v) (entryStart n dash ++ k ++ ':' :: entryText (n + 2) false obj v)

end YamlSubset.Spec
