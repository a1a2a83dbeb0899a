import Verif.Props.FoldExact
import Verif.Lemmas.KernelRfl

/-! # C34: pretty printing one item of a document in flow context -/

namespace YamlSubset

open Spec

/-- **C34** Items of documents can be made pretty one by one. A comment stays; in flow context the tree of an item becomes flow and keeps its data; otherwise the item
becomes what it becomes as a part of its document. -/
theorem C34_items (i : DocumentData) :
    (∀ b c, i = .comment c → i.pretty b = .comment c) ∧
    (∀ y, i = .yaml y → ∃ z, i.pretty true = .yaml z ∧ FlowOnly z ∧ dataOf z = dataOf y) ∧
    ∀ leading pre post, (Document.pretty ⟨leading, pre ++ i :: post⟩).items[pre.length]? = some (i.pretty false) := by
  refine ⟨?_, ?_, ?_⟩
  · rintro b c rfl; rfl
  · rintro y rfl
    exact ⟨_, rfl, flowOnly_pretty_inline y false, C32_pretty_data_in_flow y false⟩
  · intro leading pre post
    simp [Document.pretty]

/-- A sequence, which becomes a flow sequence. -/
example : (DocumentData.yaml (.array [.element ⟨none, .hash [.element ⟨c!"a", ⟨none, .unquotedString c!"1"⟩⟩]⟩])).pretty true =
    .yaml (.inlineArray [.inlineHash [(c!"a", .unquotedString c!"1")]]) ∧
    (DocumentData.yaml (.array [.element ⟨none, .hash [.element ⟨c!"a", ⟨none, .unquotedString c!"1"⟩⟩]⟩])).pretty false =
    .yaml (.array [.element ⟨none, .hash [.element ⟨c!"a", ⟨none, .unquotedString c!"1"⟩⟩]⟩]) := by
  constructor <;> kernel_rfl

end YamlSubset
