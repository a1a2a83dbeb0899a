import Verif.Lemmas.ShapeMove
import Verif.Lemmas.KernelRfl
import Verif.Model.Consume
import Verif.Props.FoldExact
import Verif.Props.RoundTripExact

/-! # C71: looking up and editing see only the shape of a document -/

namespace YamlSubset
open Spec

theorem sumMap_shapes : SumMap (List.map shapeOf) := by
  refine ⟨rfl, fun a b => List.map_append, fun b => List.append_nil b⟩

theorem find_same (p : YamlPath) : SameVisit (List.map shapeOf) (Yaml.findValues p) (Yaml.findValues p) :=
  forHash_agree sumMap_shapes (fun _ _ _ h => ⟨by simpa using h, rfl, h⟩) (fun _ _ h => ⟨by simpa using h, h⟩) p

theorem rename_same (p : YamlPath) (name : Str) : SameVisit (id : Nat → Nat) (Yaml.renameField p name) (Yaml.renameField p name) :=
  forHash_agree (f := fun e => (1, { e with key := name })) (r := fun h => (0, h)) sumMap_id (fun _ _ _ h => ⟨rfl, rfl, h⟩) (fun _ _ h => ⟨rfl, h⟩) p

theorem toObject_same (p : YamlPath) (key : Str) : SameVisit (id : Nat → Nat) (Yaml.toObject p key) (Yaml.toObject p key) :=
  forHash_agree (f := fun e => (1, ⟨e.key, ⟨none, .hash [.element ⟨key, e.value⟩]⟩⟩)) (r := fun h => (0, h)) sumMap_id (fun _ _ _ h => ⟨rfl, rfl, by simp only [shapeOf, shape_entry, hashShape, h]⟩) (fun _ _ h => ⟨rfl, h⟩) p

/-- C71: in two documents of the same shape a path finds as many values, in the same order, and of the same shape. -/
theorem C71_find {d d' : Document} (h : docShape d = docShape d') (p : YamlPath) :
    (d.findValues p).1.map shapeOf = (d'.findValues p).1.map shapeOf := (overItems_agree sumMap_shapes (find_same p) h).1

/-- C71: inserting values of the same shape into documents of the same shape changes as many places, and leaves documents of the same shape. -/
theorem C71_insert {d d' : Document} (h : docShape d = docShape d') (p : YamlPath) {v v' : AliasedYaml} (hv : shapeOf v.value = shapeOf v'.value) (overwrite : Bool) :
    (d.insertIntoHash p v overwrite).1 = (d'.insertIntoHash p v' overwrite).1 ∧
      docShape (d.insertIntoHash p v overwrite).2 = docShape (d'.insertIntoHash p v' overwrite).2 :=
  overItems_agree sumMap_id (editHash_agree (insert_same hv overwrite) p) h

/-- C71: removing from documents of the same shape removes as much, and leaves documents of the same shape. -/
theorem C71_remove {d d' : Document} (h : docShape d = docShape d') (p : YamlPath) :
    (d.removeFromHash p).1 = (d'.removeFromHash p).1 ∧ docShape (d.removeFromHash p).2 = docShape (d'.removeFromHash p).2 :=
  overItems_agree sumMap_id (editHash_agree remove_same p) h

/-- C71: renaming in documents of the same shape renames as much, and leaves documents of the same shape. -/
theorem C71_rename {d d' : Document} (h : docShape d = docShape d') (p : YamlPath) (name : Str) :
    (d.renameField p name).1 = (d'.renameField p name).1 ∧ docShape (d.renameField p name).2 = docShape (d'.renameField p name).2 :=
  overItems_agree sumMap_id (rename_same p name) h

/-- C71: wrapping in documents of the same shape wraps as much, and leaves documents of the same shape. -/
theorem C71_to_object {d d' : Document} (h : docShape d = docShape d') (p : YamlPath) (key : Str) :
    (d.toObject p key).1 = (d'.toObject p key).1 ∧ docShape (d.toObject p key).2 = docShape (d'.toObject p key).2 :=
  overItems_agree sumMap_id (toObject_same p key) h

/-- C71: moving fields in documents of the same shape has the same outcome and count, and leaves documents of the same shape. -/
theorem C71_move {d d' : Document} (h : docShape d = docShape d') (p : YamlPath) (sub : Str) (fields : List Str) :
    (d.moveToSubfield p sub fields).1 = (d'.moveToSubfield p sub fields).1 ∧
      docShape (d.moveToSubfield p sub fields).2 = docShape (d'.moveToSubfield p sub fields).2 := by
  have hr := counted_same (f := moveToSubfieldAt sub fields) (moveToSubfieldAt_same sub fields)
  exact overItems_agree sumMap_out (forHash_agree sumMap_out (onElement_same hr) hr p) h

/-- C71: regrouping in documents of the same shape has the same outcome and count, and leaves documents of the same shape. -/
theorem C71_regroup {d d' : Document} (h : docShape d = docShape d') (p : YamlPath) (old sel new : Str) (keeps : List Str) :
    (d.moveToMap p old sel new keeps).1 = (d'.moveToMap p old sel new keeps).1 ∧
      docShape (d.moveToMap p old sel new keeps).2 = docShape (d'.moveToMap p old sel new keeps).2 := by
  have hr := counted_same (f := moveToMapAt old sel new keeps) (moveToMapAt_same old sel new keeps)
  exact overItems_agree sumMap_out (forHash_agree sumMap_out (onElement_same hr) hr p) h

/-! ## formatting nicely -/

theorem leaf_shape {y : Yaml} (h : IsLeaf y) : shapeOf y = .leaf (dataOf y) := by
  obtain ⟨h1, h2, h3⟩ := h
  cases y <;> first | rfl | exact absurd rfl (h1 _) | exact absurd rfl (h2 _) | exact absurd rfl (h3 _)

theorem leaf_pretty {y : Yaml} (h : IsLeaf y) (i c : Bool) : IsLeaf (y.pretty i c) := by
  obtain ⟨h1, h2, h3⟩ := h
  cases y <;> first
    | exact absurd rfl (h1 _)
    | exact absurd rfl (h2 _)
    | exact absurd rfl (h3 _)
    | (simp only [Yaml.pretty, prettyDoubleQuoted, prettySingleQuoted]; repeat' split) <;> simp [IsLeaf]

theorem leaf_pretty_shape {y : Yaml} (h : IsLeaf y) (i c : Bool) (hd : dataOf (y.pretty i c) = dataOf y) : shapeOf (y.pretty i c) = shapeOf y := by
  rw [leaf_shape h, leaf_shape (leaf_pretty h i c), hd]

theorem block_or (y : Yaml) : IsBlock y ∨ (∃ es, y = .inlineArray es) ∨ IsLeaf y := by
  cases y <;> simp [IsBlock, IsLeaf]

mutual
theorem flow_shape : ∀ (y : Yaml), (∀ w, InFlow w y → ¬IsBlock w) → shapeOf (y.pretty true false) = shapeOf y
  | .inlineArray es, h => by
    simp only [Yaml.pretty, shapeOf, flows_shape es fun v hv w hw => h w (.inside hv hw)]
  | .hash ds, h => absurd (.inl ⟨ds, rfl⟩) (h _ .here)
  | .array ds, h => absurd (.inr ⟨ds, rfl⟩) (h _ .here)
  | .inlineHash es, _ => leaf_pretty_shape (by simp [IsLeaf]) _ _ (C32_pretty_data_in_flow _ _)
  | .unquotedString s, _ => leaf_pretty_shape (by simp [IsLeaf]) _ _ (C32_pretty_data_in_flow _ _)
  | .singleQuotedString s, _ => leaf_pretty_shape (by simp [IsLeaf]) _ _ (C32_pretty_data_in_flow _ _)
  | .doubleQuotedString s, _ => leaf_pretty_shape (by simp [IsLeaf]) _ _ (C32_pretty_data_in_flow _ _)
  | .foldedString s c, _ => leaf_pretty_shape (by simp [IsLeaf]) _ _ (C32_pretty_data_in_flow _ _)
  | .literalString s c, _ => leaf_pretty_shape (by simp [IsLeaf]) _ _ (C32_pretty_data_in_flow _ _)
  | .anchor s, _ => leaf_pretty_shape (by simp [IsLeaf]) _ _ (C32_pretty_data_in_flow _ _)
theorem flows_shape : ∀ (es : List Yaml), (∀ v ∈ es, ∀ w, InFlow w v → ¬IsBlock w) → shapesOf (prettyYamls es) = shapesOf es
  | [], _ => rfl
  | v :: t, h => by
    simp only [prettyYamls, shapesOf, flow_shape v (h v (by simp)), flows_shape t fun w hw => h w (by simp [hw])]
end

theorem leaf_inBlock {y z : Yaml} (h : IsLeaf y) (hz : InBlock z y) : z = y := by
  cases hz with
  | here => rfl
  | hash => exact absurd rfl (h.1 _)
  | array => exact absurd rfl (h.2.1 _)

theorem settled_leaf {y : Yaml} (h : IsLeaf y) (c : Bool) (hy : Settled y) : shapeOf (y.pretty false c) = shapeOf y :=
  leaf_pretty_shape h _ _ ((C32_pretty_data_iff y c).2 fun _ s hz hf => by rw [leaf_inBlock h hz] at hf; exact hy.folded s hf)

mutual
theorem settled_shape : ∀ (y : Yaml) (c : Bool), (∀ z, InBlock z y → Settled z) → (c = true → ∀ ds, y ≠ .array ds) → shapeOf (y.pretty false c) = shapeOf y
  | .hash ds, c, h, _ => by
    have hne : ds ≠ [] := fun e => (h _ .here).map (by rw [e])
    simp only [Yaml.pretty, List.isEmpty_iff, hne, if_false, Bool.false_eq_true, shapeOf]
    rw [settled_entries ds fun k a v hm z hz => h z (.hash hm hz)]
  | .array ds, c, h, hc => by
    have hne : ds ≠ [] := fun e => (h _ .here).seq (by rw [e])
    have hcf : c = false := by cases c; rfl; exact absurd rfl (hc rfl ds)
    simp only [Yaml.pretty, List.isEmpty_iff, hne, if_false, Bool.false_eq_true, hcf, autoInline, Bool.false_and, shapeOf]
    rw [settled_elements ds (fun a v hm z hz => h z (.array hm hz)) fun a es hm => (h _ .here).nested ds a es rfl hm]
  | .inlineArray es, c, h, _ => by
    simp only [Yaml.pretty, shapeOf, flows_shape es fun v hv w hw => (h _ .here).flow es w rfl (.inside hv hw)]
  | .inlineHash es, c, h, _ => settled_leaf (by simp [IsLeaf]) c (h _ .here)
  | .unquotedString s, c, h, _ => settled_leaf (by simp [IsLeaf]) c (h _ .here)
  | .singleQuotedString s, c, h, _ => settled_leaf (by simp [IsLeaf]) c (h _ .here)
  | .doubleQuotedString s, c, h, _ => settled_leaf (by simp [IsLeaf]) c (h _ .here)
  | .foldedString s _, c, h, _ => settled_leaf (by simp [IsLeaf]) c (h _ .here)
  | .literalString s _, c, h, _ => settled_leaf (by simp [IsLeaf]) c (h _ .here)
  | .anchor s, c, h, _ => settled_leaf (by simp [IsLeaf]) c (h _ .here)
theorem settled_entries : ∀ (ds : List HashData), (∀ k a v, HashData.element ⟨k, ⟨a, v⟩⟩ ∈ ds → ∀ z, InBlock z v → Settled z) → hashShape (prettyHashData ds) = hashShape ds
  | [], _ => rfl
  | .comment _ :: t, h => settled_entries t fun k a v hm => h k a v (by simp [hm])
  | .inlineComment _ :: t, h => settled_entries t fun k a v hm => h k a v (by simp [hm])
  | .element ⟨k, ⟨a, v⟩⟩ :: t, h => by
    simp only [prettyHashData, hashShape, settled_shape v false (h k a v (by simp)) (by simp), settled_entries t fun k a v hm => h k a v (by simp [hm])]
theorem settled_elements : ∀ (ds : List ArrayData), (∀ a v, ArrayData.element ⟨a, v⟩ ∈ ds → ∀ z, InBlock z v → Settled z) →
    (∀ a es, ArrayData.element ⟨a, .array es⟩ ∉ ds) → arrayShape (prettyArrayData ds) = arrayShape ds
  | [], _, _ => rfl
  | .comment _ :: t, h, hn => settled_elements t (fun a v hm => h a v (by simp [hm])) fun a es hm => hn a es (by simp [hm])
  | .inlineComment _ :: t, h, hn => settled_elements t (fun a v hm => h a v (by simp [hm])) fun a es hm => hn a es (by simp [hm])
  | .element ⟨a, v⟩ :: t, h, hn => by
    simp only [prettyArrayData, arrayShape, settled_shape v true (h a v (by simp)) (fun _ es e => hn a es (by simp [e])),
      settled_elements t (fun a v hm => h a v (by simp [hm])) fun a es hm => hn a es (by simp [hm])]
end

/-- C71: formatting nicely keeps the shape of a document whose values in block context are all settled. -/
theorem C71_pretty {d : Document} (h : ∀ y z, DocumentData.yaml y ∈ d.items → InBlock z y → Settled z) : docShape d.pretty = docShape d := by
  obtain ⟨lc, is⟩ := d
  simp only [docShape, Document.pretty] at h ⊢
  induction is with
  | nil => rfl
  | cons e t ih =>
    have ih := ih fun y z hy => h y z (by simp [hy])
    cases e with
    | comment c => simpa only [List.map_cons, DocumentData.pretty, List.filterMap_cons] using ih
    | yaml y =>
      simp only [List.map_cons, DocumentData.pretty, List.filterMap_cons, ih, settled_shape y false (fun z hz => h y z (by simp) hz) (by simp)]

/-- C71: so a path finds in such a document, formatted nicely, values of the same shape as in the document itself. -/
theorem C71_find_pretty {d : Document} (h : ∀ y z, DocumentData.yaml y ∈ d.items → InBlock z y → Settled z) (p : YamlPath) :
    (d.pretty.findValues p).1.map shapeOf = (d.findValues p).1.map shapeOf := C71_find (C71_pretty h) p

/-! ## cases -/

/-- The document of `dressedText`. -/
def dressed : Document := ⟨[], [.comment c!" top", .yaml (.hash [
  .element ⟨c!"a", ⟨some c!"x", .singleQuotedString [.string c!"one"]⟩⟩, .inlineComment c!" first",
  .element ⟨c!"b", ⟨none, .array [.comment c!" inside", .element ⟨none, .doubleQuotedString [.string c!"two"]⟩,
    .element ⟨none, .hash [.element ⟨c!"c", ⟨none, .unquotedString c!"3"⟩⟩]⟩]⟩⟩])]⟩
/-- A text with comments, an anchor name and quotes. -/
def dressedText : Str := c!"---\n# top\na: &x 'one' # first\nb:\n  # inside\n  - \"two\"\n  - c: 3\n"
/-- The document of `bareText`. -/
def bare : Document := ⟨[], [.yaml (.hash [
  .element ⟨c!"a", ⟨none, .unquotedString c!"one"⟩⟩,
  .element ⟨c!"b", ⟨none, .array [.element ⟨none, .unquotedString c!"two"⟩,
    .element ⟨none, .hash [.element ⟨c!"c", ⟨none, .unquotedString c!"3"⟩⟩]⟩]⟩⟩])]⟩
/-- The same without comments, anchor name and quotes. -/
def bareText : Str := c!"---\na: one\nb:\n  - two\n  - c: 3\n"

example : parseYamlFile asciiTables dressedText = .ok dressed := by kernel_rfl
example : parseYamlFile asciiTables bareText = .ok bare := by kernel_rfl

/-- The two have the same shape. -/
theorem dressed_bare : docShape dressed = docShape bare := rfl

/-- A path finds two values in each; they are written differently, and have the same shape. -/
example : (dressed.findValues (.key c!"b" [] (some (.allIndexes [] none)))).1.length = 2 ∧
    (dressed.findValues (.key c!"b" [] (some (.allIndexes [] none)))).1.map shapeOf = (bare.findValues (.key c!"b" [] (some (.allIndexes [] none)))).1.map shapeOf :=
  ⟨by decide +kernel, C71_find dressed_bare _⟩

/-- The shape counts: the flow mapping `{b: 1}` and the block mapping with the same data are told apart by a path. -/
example : dataOf (.inlineHash [(c!"b", .unquotedString c!"1")]) = dataOf (.hash [.element ⟨c!"b", ⟨none, .unquotedString c!"1"⟩⟩]) ∧
    (Yaml.findValues (.key c!"b" [] none) (.inlineHash [(c!"b", .unquotedString c!"1")])).1.length = 0 ∧
    (Yaml.findValues (.key c!"b" [] none) (.hash [.element ⟨c!"b", ⟨none, .unquotedString c!"1"⟩⟩])).1.length = 1 := by
  refine ⟨rfl, ?_, ?_⟩ <;> decide +kernel

/-- The hypothesis of `C71_pretty` is met by the document with comments, an anchor name and quotes. -/
example : ∀ y z, DocumentData.yaml y ∈ dressed.items → InBlock z y → Settled z := by
  have leaf : ∀ {z y : Yaml} {n : Str}, IsLeaf y → dataOf y = .str n → byteLen n ≤ 90 → InBlock z y → Settled z := by
    intro z y n hl hd hn hz
    rw [leaf_inBlock hl hz]
    refine ⟨hl.1 _, hl.2.1 _, fun ds a es e => absurd e (hl.2.1 _), fun es w e => absurd e (hl.2.2 _), fun s hs => ?_⟩
    cases hs with
    | doubleQuoted ps h _ => simp only [dataOf, Data.str.injEq] at hd; rw [hd] at h; omega
    | singleQuoted ps h _ => simp only [dataOf, Data.str.injEq] at hd; rw [hd] at h; omega
  intro y z hy hz
  simp only [dressed, List.mem_cons, reduceCtorEq, DocumentData.yaml.injEq, List.not_mem_nil, or_false, false_or] at hy
  subst hy
  cases hz with
  | here => exact ⟨by simp, by simp, by simp, by simp, fun s hs => by cases hs⟩
  | hash hm hz =>
    simp only [List.mem_cons, HashData.element.injEq, HashElement.mk.injEq, AliasedYaml.mk.injEq, reduceCtorEq, List.not_mem_nil, or_false, false_or] at hm
    rcases hm with ⟨rfl, rfl, rfl⟩ | ⟨rfl, rfl, rfl⟩
    · exact leaf (n := c!"one") (by simp [IsLeaf]) rfl (by decide) hz
    · cases hz with
      | here => exact ⟨by simp, by simp, by rintro _ a es ⟨⟩; simp, by simp, fun s hs => by cases hs⟩
      | array hm hz =>
        simp only [List.mem_cons, ArrayData.element.injEq, AliasedYaml.mk.injEq, reduceCtorEq, List.not_mem_nil, or_false, false_or] at hm
        rcases hm with ⟨rfl, rfl⟩ | ⟨rfl, rfl⟩
        · exact leaf (n := c!"two") (by simp [IsLeaf]) rfl (by decide) hz
        · cases hz with
          | here => exact ⟨by simp, by simp, by simp, by simp, fun s hs => by cases hs⟩
          | hash hm hz =>
            simp only [List.mem_cons, HashData.element.injEq, HashElement.mk.injEq, AliasedYaml.mk.injEq, List.not_mem_nil, or_false] at hm
            obtain ⟨rfl, rfl, rfl⟩ := hm
            exact leaf (n := c!"3") (by simp [IsLeaf]) rfl (by decide) hz

/-- A sequence in a sequence is not settled: formatted nicely it becomes a flow sequence, in which the path finds nothing. -/
example : (Yaml.findValues (.allIndexes [] (some (.allIndexes [] none))) (.array [.element ⟨none, .array [.element ⟨none, .unquotedString c!"x"⟩]⟩])).1.length = 1 ∧
    (Yaml.findValues (.allIndexes [] (some (.allIndexes [] none)))
      ((Yaml.array [.element ⟨none, .array [.element ⟨none, .unquotedString c!"x"⟩]⟩]).pretty false false)).1.length = 0 := by
  constructor <;> decide +kernel

end YamlSubset
