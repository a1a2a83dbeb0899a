import Verif.Lemmas.PrettyIdem
import Verif.Lemmas.PrettyStable

/-! # Properties of `pretty` (C31 - C35) -/

namespace YamlSubset

open Spec

/-- A string `pretty` does not damage by folding. -/
def SafeToFold (s : Str) : Prop := byteLen s ≤ 90 ∨ SurvivesFolding 90 s

/-! ## C31 -/

/-- **C31** A sufficient condition (`C31_pretty_scalar_iff` in `Props/FoldExact` is exact). For every scalar node and in every context, `pretty` keeps the string value,
if the value has at most 90 bytes or is in the class of C02. -/
theorem C31_pretty_scalar (y : Yaml) (s : Str) (inInline childOfArray : Bool)
    (hy : y.asString = some s) (hs : SafeToFold s) :
    (y.pretty inInline childOfArray).asString = some s := by
  have hd : dataOf y = .str s := by
    cases y <;> simp_all [Yaml.asString, dataOf]
  have := dataOf_pretty y inInline childOfArray (by rw [hd]; exact hs)
  rw [hd] at this
  revert this
  generalize y.pretty inInline childOfArray = z
  intro h
  cases z <;> simp_all [Yaml.asString, dataOf]

/-- **C31** In flow context the string value is kept without any condition. -/
theorem C31_pretty_scalar_in_flow (y : Yaml) (s : Str) (childOfArray : Bool)
    (hy : y.asString = some s) : (y.pretty true childOfArray).asString = some s := by
  cases y with
  | singleQuotedString ps =>
    simp only [Yaml.asString, Option.some.injEq] at hy
    subst hy
    simp only [Yaml.pretty, prettySingleQuoted]
    split
    · simp [Yaml.asString, literal_roundtrip]
    · simp [Yaml.asString]
  | unquotedString s =>
    simp only [Yaml.asString, Option.some.injEq] at hy
    subst hy
    simp only [Yaml.pretty]
    split
    · simp only [Yaml.asString, strToSingleQuotedParts, strToSQPartsAux_value]; rfl
    · rfl
  | doubleQuotedString ps => exact hy
  | foldedString => exact hy
  | literalString => exact hy
  | _ => simp [Yaml.asString] at hy

example : (Yaml.singleQuotedString [.string c!"a", .blankLines 2, .string c!"b"]).asString =
    some c!"a\n\nb" ∧ SafeToFold c!"a\n\nb" := ⟨rfl, .inl (by decide)⟩

/-- **C31** A string that is not kept: a double-quoted scalar of 91 letters gets a space in front. -/
theorem C31_counterexample :
    (Yaml.doubleQuotedString [.string (List.replicate 91 'a')]).asString =
      some (List.replicate 91 'a') ∧
    ((Yaml.doubleQuotedString [.string (List.replicate 91 'a')]).pretty false false).asString =
      some (' ' :: List.replicate 91 'a') := by
  constructor <;> decide +kernel

/-! ## C32 -/

/-- **C32** A sufficient condition (`C32_pretty_data_iff` in `Props/FoldExact` is exact). `pretty` keeps the data of every tree, in every context, if every scalar value of
more than 90 bytes is in the class of C02. -/
theorem C32_pretty_data (y : Yaml) (inInline childOfArray : Bool)
    (h : (dataOf y).AllStr SafeToFold) : dataOf (y.pretty inInline childOfArray) = dataOf y :=
  dataOf_pretty y inInline childOfArray h

/-- **C32** for documents. -/
theorem C32_pretty_document (d : Document)
    (h : ∀ y, DocumentData.yaml y ∈ d.items → (dataOf y).AllStr SafeToFold) :
    d.pretty.leadingComments = d.leadingComments ∧
    d.pretty.items.length = d.items.length ∧
    ∀ i (hi : i < d.items.length), match d.items[i], d.pretty.items[i]? with
      | .comment c, some (.comment c') => c' = c
      | .yaml y, some (.yaml y') => dataOf y' = dataOf y
      | _, _ => False := by
  refine ⟨rfl, by simp [Document.pretty], fun i hi => ?_⟩
  simp only [Document.pretty, List.getElem?_map, List.getElem?_eq_getElem hi, Option.map_some]
  have hm : d.items[i] ∈ d.items := List.getElem_mem hi
  revert hm
  generalize d.items[i] = e
  intro hm
  cases e with
  | comment c => rfl
  | yaml y => exact dataOf_pretty y false false (h y hm)

set_option maxRecDepth 20000 in
/-- A tree with block and flow collections, comments, an anchor and a long foldable scalar. -/
example : ∃ y z, y = .hash [.element ⟨c!"a", ⟨some c!"x", .array [.comment c!" c", .element ⟨none,
      .array [.element ⟨none, .singleQuotedString [.string c!"b"]⟩]⟩]⟩⟩,
      .element ⟨c!"l", ⟨none, .doubleQuotedString [.string (List.replicate 60 'a' ++ ' ' :: List.replicate 60 'b')]⟩⟩] ∧
    z = Yaml.hash [.element ⟨c!"a", ⟨some c!"x", .array [.comment c!" c", .element ⟨none,
      .inlineArray [.unquotedString c!"b"]⟩]⟩⟩,
      .element ⟨c!"l", ⟨none, .foldedString [List.replicate 60 'a', List.replicate 60 'b', []] .strip⟩⟩] ∧
    y.pretty false false = z ∧ (dataOf y).AllStr SafeToFold := by
  refine ⟨_, _, rfl, rfl, rfl, ?_⟩
  refine ⟨⟨⟨.inl (by decide), trivial⟩, trivial⟩, .inr (.inl ⟨rfl, ?_, ?_⟩), trivial⟩
  · intro x hx
    have : splitChar '\n' (parseDoubleQuoted [.string (List.replicate 60 'a' ++ ' ' :: List.replicate 60 'b')]) =
      [List.replicate 60 'a' ++ ' ' :: List.replicate 60 'b'] := by decide +kernel
    rw [this] at hx
    simp only [List.mem_singleton] at hx
    subst hx
    have : splitChar ' ' (List.replicate 60 'a' ++ ' ' :: List.replicate 60 'b') =
      [List.replicate 60 'a', List.replicate 60 'b'] := by decide +kernel
    simp only [LineFoldable, this, BreaksAtWords]
    decide +kernel
  · intro x hx
    have : splitChar '\n' (parseDoubleQuoted [.string (List.replicate 60 'a' ++ ' ' :: List.replicate 60 'b')]) =
      [List.replicate 60 'a' ++ ' ' :: List.replicate 60 'b'] := by decide +kernel
    rw [this] at hx
    simp at hx

/-! ## C33 -/

/-- **C33** `pretty` twice is the same as once exactly when, after the first time, plain scalars
inside flow collections contain no flow indicators. -/
theorem C33_pretty_idempotent_iff (y : Yaml) :
    (y.pretty false false).pretty false false = y.pretty false false ↔
      FlowFitInFlow (y.pretty false false) :=
  ⟨fit_of_fixed _ _, pretty_idem_of_fit y false⟩

/-- **C33** Whatever the tree, a third `pretty` never changes anything. -/
theorem C33_pretty_stable (y : Yaml) :
    ((y.pretty false false).pretty false false).pretty false false = (y.pretty false false).pretty false false :=
  pretty_thrice y false

/-- **C33** for documents, exact. -/
theorem C33_pretty_document_iff (d : Document) :
    d.pretty.pretty = d.pretty ↔ ∀ y, DocumentData.yaml y ∈ d.items → FlowFitInFlow (y.pretty false false) := by
  simp only [Document.pretty, Document.mk.injEq, true_and, List.map_map, List.map_inj_left]
  constructor
  · intro h y hy
    have := h _ hy
    simp only [Function.comp, DocumentData.pretty, DocumentData.yaml.injEq] at this
    exact (C33_pretty_idempotent_iff y).1 this
  · intro h e he
    cases e with
    | comment c => rfl
    | yaml y => simp only [Function.comp, DocumentData.pretty, (C33_pretty_idempotent_iff y).2 (h y he)]

/-- **C33** for documents: a third `pretty` never changes anything. -/
theorem C33_pretty_document_stable (d : Document) : d.pretty.pretty.pretty = d.pretty.pretty := by
  simp only [Document.pretty, List.map_map]
  congr 1
  refine List.map_congr_left fun e he => ?_
  cases e with
  | comment c => rfl
  | yaml y => simp [DocumentData.pretty, C33_pretty_stable y]

/-- **C33** A sufficient condition on the input: no plain scalar that is an element of a block array contains a flow
indicator (`C33_pretty_idempotent_iff` is exact). -/
theorem C33_pretty_idempotent (y : Yaml) (h : FlowFitInArrays y) :
    (y.pretty false false).pretty false false = y.pretty false false :=
  pretty_idem_of_fit y false (fit_pretty y false h)

/-- **C33** for documents. -/
theorem C33_pretty_document (d : Document)
    (h : ∀ y, DocumentData.yaml y ∈ d.items → FlowFitInArrays y) : d.pretty.pretty = d.pretty := by
  simp only [Document.pretty, List.map_map]
  congr 1
  refine List.map_congr_left fun e he => ?_
  cases e with
  | comment c => rfl
  | yaml y => simp [DocumentData.pretty, C33_pretty_idempotent y (h y he)]

example : FlowFitInArrays (.hash [.element ⟨c!"k", ⟨none, .unquotedString c!"a, b"⟩⟩,
    .element ⟨c!"l", ⟨none, .array [.element ⟨none, .array [.element ⟨none, .unquotedString c!"x"⟩]⟩]⟩⟩]) := by
  refine .hash fun k a v hv => ?_
  simp at hv
  rcases hv with ⟨_, _, rfl⟩ | ⟨_, _, rfl⟩
  · constructor
  · refine .array (fun a v hv => ?_) (fun a s hv => by simp at hv)
    simp at hv
    rw [hv.2]
    refine .array (fun a v hv => ?_) (fun a s hv => ?_)
    · simp at hv; rw [hv.2]; constructor
    · simp at hv; rw [hv.2]; intro c hc; simp [flowIndicators] at hc; simp; rintro rfl; simp at hc

/-- **C33** A tree that changes the second time: a nested array is inlined the first time, and the plain scalar with a comma is quoted only
the second time. -/
theorem C33_counterexample :
    let y := Yaml.array [.element ⟨none, .array [.element ⟨none, .unquotedString c!"a, b"⟩]⟩]
    y.pretty false false = .array [.element ⟨none, .inlineArray [.unquotedString c!"a, b"]⟩] ∧
    (y.pretty false false).pretty false false =
      .array [.element ⟨none, .inlineArray [.singleQuotedString [.string c!"a, b"]]⟩] := ⟨rfl, rfl⟩

/-! ## C34 -/

/-- **C34** After `pretty`, no flow collection contains a block collection, at any depth. -/
theorem C34_no_block_in_flow (y : Yaml) (childOfArray : Bool) :
    BlockOutsideFlow (y.pretty false childOfArray) := blockOutsideFlow_pretty y childOfArray

/-- **C34** In flow context everything becomes flow. -/
theorem C34_flow_context (y : Yaml) (childOfArray : Bool) : FlowOnly (y.pretty true childOfArray) :=
  flowOnly_pretty_inline y childOfArray

/-- The property is not trivially true of all trees. -/
example : ¬ BlockOutsideFlow (.inlineArray [.hash [.element ⟨c!"a", ⟨none, .unquotedString c!"b"⟩⟩]]) := by
  intro h
  cases h with
  | flow h => cases h with
    | inlineArray h => exact nomatch h _ (List.mem_singleton.2 rfl)

/-- Block scalars are another matter: `pretty` puts a literal block into a flow array when a
single-quoted scalar with blank lines stands there. -/
theorem C34_block_scalar_in_flow_counterexample :
    (Yaml.inlineArray [.singleQuotedString [.string c!"a", .blankLines 1, .string c!"b"]]).pretty false false =
      .inlineArray [.literalString [c!"a", c!"b"] .strip] := rfl

/-! ## C35 -/

/-- **C35** Where no flow collection contains a block collection, `pretty` keeps the sequence of
comments and of anchor definitions. -/
theorem C35_pretty_notes (y : Yaml) (childOfArray : Bool) (h : BlockOutsideFlow y) :
    notes (y.pretty false childOfArray) = notes y := notes_pretty h childOfArray

example : ∃ y : Yaml, BlockOutsideFlow y ∧ notes y = [.anchor c!"x", .comment c!"c", .inlineComment c!"d"] :=
  ⟨.hash [.element ⟨c!"a", ⟨some c!"x", .array [.comment c!"c", .element ⟨none, .inlineArray []⟩]⟩⟩,
      .inlineComment c!"d"], by
    refine ⟨.hash fun k a v hv => ?_, rfl⟩
    simp at hv
    rw [hv.2.2]
    refine .array fun a v hv => ?_
    simp at hv
    rw [hv.2]
    exact .flow (.inlineArray (by simp))⟩

/-- Without the condition comments and anchor definitions are lost. -/
theorem C35_needs_condition :
    notes ((Yaml.inlineArray [.hash [.comment c!"c", .element ⟨c!"a", ⟨some c!"x", .unquotedString c!"1"⟩⟩]]).pretty
      false false) = [] := rfl

end YamlSubset
