import Verif.Props.Portable
import Verif.Props.RoundTripExact

/-! # C75: different things are written differently -/

namespace YamlSubset

open Spec

/-- **C75** Two documents that the formatter can write are equal if they are formatted as the same text. -/
theorem C75_documents (T : CharTables) {d d' : Document} (h : ReadableDocument T d) (h' : ReadableDocument T d') (he : d.format = d'.format) : d = d' := by
  have h1 := C41_formatted_documents_parse T d h
  rw [he, C41_formatted_documents_parse T d' h'] at h1
  injection h1 with h1
  exact h1.symm

/-- **C75** Two values of a type that are not lost in serialization are equal if they are serialized as the same tree. -/
theorem C75_trees (Γ : Nat → Ty) (ty : Ty) {v v' : SVal} (ht : HasTy Γ ty v) (ht' : HasTy Γ ty v') (hl : Lossless v) (hl' : Lossless v')
    (hs : v.ser ≠ none) (he : v.ser = v'.ser) : v = v' := by
  cases hy : v.ser with
  | none => exact absurd hy hs
  | some y =>
    obtain ⟨n, hn⟩ := C09_typed_roundtrip Γ ty v ht hl y hy
    obtain ⟨n', hn'⟩ := C09_typed_roundtrip Γ ty v' ht' hl' y (he ▸ hy)
    have h1 := hn (max n n') (Nat.le_max_left ..)
    rw [hn' (max n n') (Nat.le_max_right ..)] at h1
    injection h1 with h1
    exact h1.symm

/-- **C75** The same after pretty printing, if the pretty printer does not fold texts that folding changes. -/
theorem C75_pretty_trees (Γ : Nat → Ty) (ty : Ty) {v v' : SVal} (ht : HasTy Γ ty v) (ht' : HasTy Γ ty v') (hl : Lossless v) (hl' : Lossless v')
    (hf : AllText (fun s => byteLen s ≤ 90 ∨ SurvivesFolding 90 s) v) (hf' : AllText (fun s => byteLen s ≤ 90 ∨ SurvivesFolding 90 s) v')
    {y y' : Yaml} (hs : v.ser = some y) (hs' : v'.ser = some y') (inInline childOfArray : Bool)
    (he : y.pretty inInline childOfArray = y'.pretty inInline childOfArray) : v = v' := by
  obtain ⟨n, hn⟩ := C10_pretty_roundtrip Γ ty v ht hl hf y hs inInline childOfArray
  obtain ⟨n', hn'⟩ := C10_pretty_roundtrip Γ ty v' ht' hl' hf' y' hs' inInline childOfArray
  have h1 := hn (max n n') (Nat.le_max_left ..)
  rw [he, hn' (max n n') (Nat.le_max_right ..)] at h1
  injection h1 with h1
  exact h1.symm

/-- **C75** Two values of a type that can be stored as a text are equal if their texts are the same. -/
theorem C75_texts (T : CharTables) (Γ : Nat → Ty) (ty : Ty) {v v' : SVal} (ht : HasTy Γ ty v) (ht' : HasTy Γ ty v') (hl : Lossless v) (hl' : Lossless v')
    (hp : PortableRoot T v) (hp' : PortableRoot T v') {y y' : Yaml} (hs : v.ser = some y) (hs' : v'.ser = some y')
    (he : (docOf y).format = (docOf y').format) : v = v' := by
  obtain ⟨n, hn⟩ := C42_portable_values_survive_text T Γ ty v ht hl hp y hs
  obtain ⟨n', hn'⟩ := C42_portable_values_survive_text T Γ ty v' ht' hl' hp' y' hs'
  have h1 := hn (max n n') (Nat.le_max_left ..)
  rw [he, hn' (max n n') (Nat.le_max_right ..)] at h1
  injection h1 with h1
  exact h1.symm

/-! ## what meets the hypotheses -/

/-- Two documents that differ in the style of a scalar. -/
example : (docOf (.hash [kv c!"a" (.unquotedString c!"1")])).format ≠ (docOf (.hash [kv c!"a" (.singleQuotedString [.string c!"1"])])).format := by
  have hr : ∀ {y : Yaml}, OneLine asciiTables y → ReadableDocument asciiTables (docOf (.hash [kv c!"a" y])) := fun h =>
    ⟨by simp [docOf], [], [], _, rfl, by simp, .hash (.last (keyText_of (by decide)) no_name (.oneLine h))⟩
  intro he
  have := C75_documents asciiTables (hr (y := .unquotedString c!"1") (.plain (blockPlain_simple (by decide)))) (hr (y := .singleQuotedString [.string c!"1"]) (.single (.one (by decide)))) he
  simp [docOf, kv] at this

/-- A value with options, sequences, tuples, maps and a recursive type, and any other such value. -/
example (v : SVal) (ht : HasTy exampleEnv exampleTy v) (hl : Lossless v) (he : exampleVal.ser = v.ser) : exampleVal = v :=
  C75_trees exampleEnv exampleTy exampleVal_hasTy ht exampleVal_lossless hl (by simp [show exampleVal.ser = some _ from rfl]) he

example (v : SVal) (ht : HasTy exampleEnv exampleTy v) (hl : Lossless v) (hp : PortableRoot asciiTables v) (y : Yaml) (hs : v.ser = some y)
    (hne : exampleVal ≠ v) : ∃ x, exampleVal.ser = some x ∧ (docOf x).format ≠ (docOf y).format :=
  ⟨_, rfl, fun he => hne (C75_texts asciiTables exampleEnv exampleTy exampleVal_hasTy ht exampleVal_lossless hl exampleVal_portable hp rfl hs he)⟩

/-! ## the conditions are needed -/

/-- **C75** `None` and `Some(None)` are serialized in the same way, and so are two variants of an enum with the same content. -/
theorem C75_counterexample_values :
    SVal.none.ser = (SVal.some .none).ser ∧
    (SVal.newtypeVariant c!"A" (.int 5)).ser = (SVal.newtypeVariant c!"B" (.int 5)).ser := ⟨rfl, rfl⟩

end YamlSubset
