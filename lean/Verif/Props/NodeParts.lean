import Verif.Props.Nodes
import Verif.Props.FindExact
import Verif.Spec.Nodes

/-! # C72: edits that start at a part of a tree -/

namespace YamlSubset

open Spec

/-- The equation of the code has one solution only. -/
theorem C72_code_for_hash_unique {A : Type} [Additive A] (f : HashElement → A × HashElement) (r : Yaml → A × Yaml)
    (g : YamlPath → Yaml → A × Yaml) (hg : ∀ path y, g path y = forHashBody f r g path y)
    (path : YamlPath) (y : Yaml) : g path y = y.forHash f r path := by
  have main : ∀ n (y : Yaml), inlineDepth y < n → g path y = y.forHash f r path := by
    intro n
    induction n with
    | zero => exact fun y h => absurd h (Nat.not_lt_zero _)
    | succ n ih =>
      intro y hn
      rw [hg, C72_code_for_hash]
      cases path with
      | root cs => rfl
      | key k cs o => rfl
      | allIndexes cs o =>
        cases y with
        | inlineArray es =>
          simp only [inlineDepth] at hn
          simp only [forHashBody]
          rw [overInline_on es _ fun e he => ih e (by have := inlineDepth_mem he; omega)]
        | _ => rfl
      | indexes is cs o =>
        cases y with
        | inlineArray es =>
          simp only [inlineDepth] at hn
          simp only [forHashBody]
          have hd : ∀ e, inlineDepth (Yaml.forHash f r (.indexes is cs o) e).2 ≤ inlineDepth e := by
            intro e
            cases o with
            | none => exact forIndexes_depth is cs r _ e
            | some p => exact forIndexes_depth is cs _ _ e
          rw [atInline_on (g := Yaml.forHash f r (.indexes is cs o)) (g' := g (.indexes is cs o))
            (n := inlineDepthList es) (fun e he => (ih e (by omega)).symm) hd is _ es fun e he => inlineDepth_mem he]
        | _ => rfl
  exact main _ y (Nat.lt_succ_self _)

/-- The operations on trees and documents are the default methods of the trait. -/
theorem C72_tree_operations (y : Yaml) (path : YamlPath) :
    YamlInsert.findValues path y = y.findValues path ∧
    (∀ h o, YamlInsert.insertIntoHash path h o y = y.insertIntoHash path h o) ∧
    YamlInsert.removeFromHash path y = y.removeFromHash path ∧
    (∀ n, YamlInsert.renameField path n y = y.renameField path n) ∧
    (∀ k, YamlInsert.toObject path k y = y.toObject path k) ∧
    (∀ s fs, YamlInsert.moveToSubfield path s fs y = y.moveToSubfield path s fs) ∧
    (∀ a b c ks, YamlInsert.moveToMap path a b c ks y = y.moveToMap path a b c ks) :=
  ⟨rfl, fun _ _ => rfl, rfl, fun _ => rfl, fun _ => rfl, fun _ _ => rfl, fun _ _ _ _ => rfl⟩

theorem overDocument_go {A : Type} [Additive A] {g : Yaml → A × Yaml} {g' : DocumentData → A × DocumentData}
    (hy : ∀ y, g' (.yaml y) = ((g y).1, .yaml (g y).2)) (hc : ∀ c, g' (.comment c) = (Additive.zero, .comment c)) :
    ∀ (is : List DocumentData) (c : A), overDocument g' c is = Document.overItems.go g c is
  | [], _ => rfl
  | .comment s :: t, c => by
    have ht := overDocument_go hy hc t
    simp only [overDocument, Document.overItems.go, hc, ht]
  | .yaml y :: t, c => by
    have ht := overDocument_go hy hc t
    simp only [overDocument, Document.overItems.go, hy, ht]

theorem forHash_document {A : Type} [Additive A] (f : HashElement → A × HashElement) (r : Yaml → A × Yaml)
    (path : YamlPath) (d : Document) : YamlInsert.forHash f r path d = d.overItems (Yaml.forHash f r path) := by
  show ((overDocument _ _ d.items).1, (⟨d.leadingComments, (overDocument _ _ d.items).2⟩ : Document)) = _
  rw [overDocument_go (g := Yaml.forHash f r path) (g' := YamlInsert.forHash f r path) (fun _ => rfl) (fun _ => rfl)]
  rfl

theorem editHash_document (f : List HashData → Str → Option Nat → Nat × List HashData)
    (path : YamlPath) (d : Document) : YamlInsert.editHash f path d = d.overItems (Yaml.editHash f path) := by
  show ((overDocument _ _ d.items).1, (⟨d.leadingComments, (overDocument _ _ d.items).2⟩ : Document)) = _
  rw [overDocument_go (g := Yaml.editHash f path) (g' := YamlInsert.editHash f path) (fun _ => rfl) (fun _ => rfl)]
  rfl

theorem C72_document_operations (d : Document) (path : YamlPath) :
    YamlInsert.findValues path d = d.findValues path ∧
    (∀ h o, YamlInsert.insertIntoHash path h o d = d.insertIntoHash path h o) ∧
    YamlInsert.removeFromHash path d = d.removeFromHash path ∧
    (∀ n, YamlInsert.renameField path n d = d.renameField path n) ∧
    (∀ k, YamlInsert.toObject path k d = d.toObject path k) ∧
    (∀ s fs, YamlInsert.moveToSubfield path s fs d = d.moveToSubfield path s fs) ∧
    (∀ a b c ks, YamlInsert.moveToMap path a b c ks d = d.moveToMap path a b c ks) :=
  ⟨forHash_document _ _ path d, fun _ _ => editHash_document _ path d, editHash_document _ path d,
    fun _ => forHash_document _ _ path d, fun _ => forHash_document _ _ path d,
    fun _ _ => forHash_document _ _ path d, fun _ _ _ _ => forHash_document _ _ path d⟩

/-- Inserting what a call returns is inserting the value, at every part of a tree. -/
theorem C72_insert_by_call {X : Type} [YamlInsert X] (path : YamlPath) (h : Unit → AliasedYaml) (o : Bool) (x : X) :
    YamlInsert.insertIntoHashByCall path h o x = YamlInsert.insertIntoHash path (h ()) o x := rfl

/-! ## What the parts do -/

/-- A value with an anchor name: everything acts on the value, the name stays. -/
theorem C72_anchored_value (a : AliasedYaml) : ActsOn a a.value fun y => ⟨a.alias, y⟩ :=
  ⟨fun _ => rfl, fun _ _ _ => rfl, fun _ => rfl, fun _ _ => rfl, fun _ _ => rfl, fun _ _ _ => rfl, fun _ _ _ _ _ => rfl⟩

/-- The item of a document that is a tree. -/
theorem C72_document_item (y : Yaml) : ActsOn (DocumentData.yaml y) y DocumentData.yaml :=
  ⟨fun _ => rfl, fun _ _ _ => rfl, fun _ => rfl, fun _ _ => rfl, fun _ _ => rfl, fun _ _ _ => rfl, fun _ _ _ _ _ => rfl⟩

/-- An entry among the comments of a mapping is treated as the entry. -/
theorem C72_entry_data (e : HashElement) : ActsOn (HashData.element e) e HashData.element :=
  ⟨fun _ => rfl, fun _ _ _ => rfl, fun _ => rfl, fun _ _ => rfl, fun _ _ => rfl, fun _ _ _ => rfl, fun _ _ _ _ _ => rfl⟩

/-- Comments are left alone. -/
theorem C72_comments (c : Str) :
    Inert (HashData.comment c) ∧ Inert (HashData.inlineComment c) ∧ Inert (ArrayData.comment c) ∧
      Inert (ArrayData.inlineComment c) ∧ Inert (DocumentData.comment c) :=
  ⟨⟨fun _ => ⟨rfl, fun _ => rfl, fun _ => rfl, fun _ _ => rfl, fun _ _ _ _ => rfl⟩, fun _ _ _ => rfl, fun _ => rfl⟩,
   ⟨fun _ => ⟨rfl, fun _ => rfl, fun _ => rfl, fun _ _ => rfl, fun _ _ _ _ => rfl⟩, fun _ _ _ => rfl, fun _ => rfl⟩,
   ⟨fun _ => ⟨rfl, fun _ => rfl, fun _ => rfl, fun _ _ => rfl, fun _ _ _ _ => rfl⟩, fun _ _ _ => rfl, fun _ => rfl⟩,
   ⟨fun _ => ⟨rfl, fun _ => rfl, fun _ => rfl, fun _ _ => rfl, fun _ _ _ _ => rfl⟩, fun _ _ _ => rfl, fun _ => rfl⟩,
   ⟨fun _ => ⟨rfl, fun _ => rfl, fun _ => rfl, fun _ _ => rfl, fun _ _ _ _ => rfl⟩, fun _ _ _ => rfl, fun _ => rfl⟩⟩

/-- Inserting into and removing from an entry act on its value: the key of the entry is not a part of
the path. -/
theorem C72_entry_insert_remove (e : HashElement) (path : YamlPath) :
    (∀ h o, YamlInsert.insertIntoHash path h o e =
      ((e.value.value.insertIntoHash path h o).1, ⟨e.key, ⟨e.value.alias, (e.value.value.insertIntoHash path h o).2⟩⟩)) ∧
    YamlInsert.removeFromHash path e =
      ((e.value.value.removeFromHash path).1, ⟨e.key, ⟨e.value.alias, (e.value.value.removeFromHash path).2⟩⟩) :=
  ⟨fun _ _ => rfl, rfl⟩

/-- Inserting into and removing from an element of a block sequence act on its value. -/
theorem C72_element_insert_remove (a : AliasedYaml) (path : YamlPath) :
    (∀ h o, YamlInsert.insertIntoHash path h o (ArrayData.element a) =
      ((a.value.insertIntoHash path h o).1, .element ⟨a.alias, (a.value.insertIntoHash path h o).2⟩)) ∧
    YamlInsert.removeFromHash path (ArrayData.element a) =
      ((a.value.removeFromHash path).1, .element ⟨a.alias, (a.value.removeFromHash path).2⟩) :=
  ⟨fun _ _ => rfl, rfl⟩

/-- For the operations that look at existing entries, the key of an entry is the first key of the
path: with its key as the path, or with the empty path, they act on the entry itself, whatever the
conditions are. -/
theorem C72_entry_itself (e : HashElement) (path : YamlPath) (h : (∃ cs, path = .root cs) ∨ ∃ cs, path = .key e.key cs none) :
    (YamlInsert.findValues path e).1 = [e.value.value] ∧
    (∀ n, YamlInsert.renameField path n e = (1, ⟨n, e.value⟩)) ∧
    (∀ k, YamlInsert.toObject path k e = (1, ⟨e.key, ⟨none, .hash [.element ⟨k, e.value⟩]⟩⟩)) ∧
    (∀ s fs, YamlInsert.moveToSubfield path s fs e =
      ((e.value.value.moveToSubfield (.root []) s fs).1, ⟨e.key, ⟨e.value.alias, (e.value.value.moveToSubfield (.root []) s fs).2⟩⟩)) ∧
    (∀ a b c ks, YamlInsert.moveToMap path a b c ks e =
      ((e.value.value.moveToMap (.root []) a b c ks).1, ⟨e.key, ⟨e.value.alias, (e.value.value.moveToMap (.root []) a b c ks).2⟩⟩)) := by
  have key : ∀ {A : Type} [Additive A] (f : HashElement → A × HashElement) (r : Yaml → A × Yaml),
      YamlInsert.forHash f r path e = f e := by
    intro A _ f r
    rcases h with ⟨cs, rfl⟩ | ⟨cs, rfl⟩
    · rfl
    · show HashElement.forHash _ _ _ _ = _; simp [HashElement.forHash]
  refine ⟨?_, fun n => key _ _, fun k => key _ _, fun s fs => key _ _, fun a b c ks => key _ _⟩
  exact congrArg Prod.fst (key (A := List Yaml) _ _)

/-- A longer path leads into the value of the entry, and its first key is not compared with the key of
the entry. -/
theorem C72_entry_below (e : HashElement) (k : Str) (cs : List Condition) (rest : YamlPath) :
    VisitsAs (.key k cs (some rest)) e rest e.value.value fun y => ⟨e.key, ⟨e.value.alias, y⟩⟩ :=
  ⟨rfl, fun _ => rfl, fun _ => rfl, fun _ _ => rfl, fun _ _ _ _ => rfl⟩

/-- Another key, or a path that begins with an index, finds nothing. -/
theorem C72_entry_nothing (e : HashElement) (path : YamlPath)
    (h : (∃ k cs, path = .key k cs none ∧ k ≠ e.key) ∨ (∃ cs o, path = .allIndexes cs o) ∨ ∃ is cs o, path = .indexes is cs o) :
    VisitsNothing path e := by
  have key : ∀ {A : Type} [Additive A] (f : HashElement → A × HashElement) (r : Yaml → A × Yaml),
      YamlInsert.forHash f r path e = (Additive.zero, e) := by
    intro A _ f r
    rcases h with ⟨k, cs, rfl, hk⟩ | ⟨cs, o, rfl⟩ | ⟨is, cs, o, rfl⟩
    · show HashElement.forHash _ _ _ _ = _; simp [HashElement.forHash, hk]
    · rfl
    · rfl
  exact ⟨congrArg Prod.fst (key (A := List Yaml) _ _), fun n => key _ _, fun k => key _ _, fun s fs => key _ _,
    fun a b c ks => key _ _⟩

/-- In a mapping that meets the conditions, a path that begins with a key does to the first entry with
this key what it does to that entry alone. -/
theorem C72_entry_of_mapping (ds pre post : List HashData) (k : Str) (v : AliasedYaml) (cs : List Condition)
    (o : Option YamlPath) (h : FirstEntry k ds pre v post) (hc : Fits cs (.hash ds)) :
    VisitsAs (.key k cs o) (Yaml.hash ds) (.key k cs o) (⟨k, v⟩ : HashElement)
      fun e => .hash (pre ++ .element e :: post) := by
  have key : ∀ {A : Type} [Additive A] (f : HashElement → A × HashElement) (r : Yaml → A × Yaml),
      Yaml.forHash f r (.key k cs o) (.hash ds) =
        ((YamlInsert.forHash f r (.key k cs o) (⟨k, v⟩ : HashElement)).1,
          .hash (pre ++ .element (YamlInsert.forHash f r (.key k cs o) (⟨k, v⟩ : HashElement)).2 :: post)) := by
    intro A _ f r
    have hi : (Yaml.hash ds).keyIndex k = some pre.length := Spec.FirstEntry.findIdx h
    have hf := (fitsConditions_iff (.hash ds) cs).2 hc
    rw [C72_code_for_hash]
    unfold forHashBody
    simp only [hf, hi, Bool.not_true, Bool.false_eq_true, if_false]
    obtain ⟨rfl, _⟩ := h
    simp only [List.getElem?_append_right (Nat.le_refl _), Nat.sub_self, List.getElem?_cons_zero]
    simp [YamlInsert.forHash]
  exact ⟨congrArg Prod.fst (key (A := List Yaml) _ _), fun n => key _ _, fun k => key _ _, fun s fs => key _ _,
    fun a b c ks => key _ _⟩

/-- An element of a block sequence: a single key acts on the value. -/
theorem C72_element_key (a : AliasedYaml) (k : Str) (cs : List Condition) :
    VisitsAs (.key k cs none) (ArrayData.element a) (.key k cs none) a.value fun y => .element ⟨a.alias, y⟩ :=
  ⟨rfl, fun _ => rfl, fun _ => rfl, fun _ _ => rfl, fun _ _ _ _ => rfl⟩

/-- An index stands for the element itself, whatever it is: the rest of the path leads into the
value. -/
theorem C72_element_index (a : AliasedYaml) (is : List Nat) (cs : List Condition) (rest : YamlPath) :
    VisitsAs (.indexes is cs (some rest)) (ArrayData.element a) rest a.value (fun y => .element ⟨a.alias, y⟩) ∧
    VisitsAs (.allIndexes cs (some rest)) (ArrayData.element a) rest a.value (fun y => .element ⟨a.alias, y⟩) ∧
    VisitsAs (.indexes is cs none) (ArrayData.element a) (.root []) a.value (fun y => .element ⟨a.alias, y⟩) ∧
    VisitsAs (.allIndexes cs none) (ArrayData.element a) (.root []) a.value (fun y => .element ⟨a.alias, y⟩) :=
  ⟨⟨rfl, fun _ => rfl, fun _ => rfl, fun _ _ => rfl, fun _ _ _ _ => rfl⟩,
   ⟨rfl, fun _ => rfl, fun _ => rfl, fun _ _ => rfl, fun _ _ _ _ => rfl⟩,
   ⟨rfl, fun _ => rfl, fun _ => rfl, fun _ _ => rfl, fun _ _ _ _ => rfl⟩,
   ⟨rfl, fun _ => rfl, fun _ => rfl, fun _ _ => rfl, fun _ _ _ _ => rfl⟩⟩

/-- The empty path and a path of two or more steps that begins with a key find nothing in an element
of a block sequence. -/
theorem C72_element_nothing (a : AliasedYaml) (cs : List Condition) :
    VisitsNothing (.root cs) (ArrayData.element a) ∧
    ∀ k rest, VisitsNothing (.key k cs (some rest)) (ArrayData.element a) :=
  ⟨⟨rfl, fun _ => rfl, fun _ => rfl, fun _ _ => rfl, fun _ _ _ _ => rfl⟩,
   fun _ _ => ⟨rfl, fun _ => rfl, fun _ => rfl, fun _ _ => rfl, fun _ _ _ _ => rfl⟩⟩

/-! ## No silent changes -/

theorem insert_zero_tree (path : YamlPath) (h : AliasedYaml) (o : Bool) (y : Yaml)
    (h0 : (y.insertIntoHash path h o).1 = 0) : (y.insertIntoHash path h o).2 = y := by
  cases hk : lastKey path with
  | none => rw [Yaml.insertIntoHash, editHash_no_key _ path hk y]
  | some k =>
    obtain ⟨ls, hl, he⟩ := insert_editsBy path k hk h o y 0 (by rw [h0]; rfl)
    exact (he.nil_eq (List.eq_nil_of_length_eq_zero hl)).symm

theorem remove_zero_tree (path : YamlPath) (y : Yaml)
    (h0 : (y.removeFromHash path).1 = 0) : (y.removeFromHash path).2 = y := by
  cases hk : lastKey path with
  | none => rw [Yaml.removeFromHash, editHash_no_key _ path hk y]
  | some k =>
    obtain ⟨ls, hl, he⟩ := remove_editsBy path k hk y 0 (by rw [h0]; rfl)
    exact (he.nil_eq (List.eq_nil_of_length_eq_zero hl)).symm

/-- Trees. -/
theorem C72_reports_tree (y : Yaml) : ReportsChanges y where
  find path := find_readonly path y
  insert path h o := insert_zero_tree path h o y
  remove path := remove_zero_tree path y
  rename path n h0 := by
    obtain ⟨ls, hl, he⟩ := rename_editsBy path n y 0 (by
      show natCounting.cnt (YamlInsert.renameField path n y).1 = _; rw [h0]; rfl)
    exact (he.nil_eq (List.eq_nil_of_length_eq_zero hl)).symm
  wrap path k h0 := by
    obtain ⟨ls, hl, he⟩ := toObject_editsBy path k y 0 (by
      show natCounting.cnt (YamlInsert.toObject path k y).1 = _; rw [h0]; rfl)
    exact (he.nil_eq (List.eq_nil_of_length_eq_zero hl)).symm
  subfield path s fs h0 := by
    obtain ⟨ls, hl, he⟩ := moveToSubfield_editsBy path s fs y 0 (by
      show outCounting.cnt (YamlInsert.moveToSubfield path s fs y).1 = _; rw [h0]; rfl)
    exact (he.nil_eq (List.eq_nil_of_length_eq_zero hl)).symm
  regroup path a b c ks h0 := by
    obtain ⟨ls, hl, he⟩ := moveToMap_editsBy path a b c ks y 0 (by
      show outCounting.cnt (YamlInsert.moveToMap path a b c ks y).1 = _; rw [h0]; rfl)
    exact (he.nil_eq (List.eq_nil_of_length_eq_zero hl)).symm

theorem Spec.ActsOn.reports {X Y : Type} [YamlInsert X] [YamlInsert Y] {x : X} {y : Y} {put : Y → X}
    (h : ActsOn x y put) (hx : put y = x) (hf : ∀ path, (YamlInsert.findValues path x).2 = x) (hy : ReportsChanges y) :
    ReportsChanges x where
  find := hf
  insert path a o h0 := by rw [h.insert] at h0 ⊢; simp only [] at h0 ⊢; rw [hy.insert path a o h0, hx]
  remove path h0 := by rw [h.remove] at h0 ⊢; simp only [] at h0 ⊢; rw [hy.remove path h0, hx]
  rename path n h0 := by rw [h.rename] at h0 ⊢; simp only [] at h0 ⊢; rw [hy.rename path n h0, hx]
  wrap path n h0 := by rw [h.wrap] at h0 ⊢; simp only [] at h0 ⊢; rw [hy.wrap path n h0, hx]
  subfield path s fs h0 := by rw [h.subfield] at h0 ⊢; simp only [] at h0 ⊢; rw [hy.subfield path s fs h0, hx]
  regroup path a b c ks h0 := by rw [h.regroup] at h0 ⊢; simp only [] at h0 ⊢; rw [hy.regroup path a b c ks h0, hx]

/-- Values with an anchor name. -/
theorem C72_reports_anchored (a : AliasedYaml) : ReportsChanges a := by
  obtain ⟨n, y⟩ := a
  exact (C72_anchored_value ⟨n, y⟩).reports rfl (fun path => by
    show (⟨n, (y.findValues path).2⟩ : AliasedYaml) = _
    rw [find_readonly]) (C72_reports_tree y)

theorem Spec.Inert.reports {X : Type} [YamlInsert X] {x : X} (h : Inert x)
    (hf : ∀ path, (YamlInsert.findValues path x).2 = x) : ReportsChanges x where
  find := hf
  insert path a o _ := by rw [h.insert]
  remove path _ := by rw [h.remove]
  rename path n _ := by rw [(h.visit path).rename]
  wrap path n _ := by rw [(h.visit path).wrap]
  subfield path s fs _ := by rw [(h.visit path).subfield]
  regroup path a b c ks _ := by rw [(h.visit path).regroup]

/-- Entries. -/
theorem C72_reports_entry (e : HashElement) : ReportsChanges e := by
  obtain ⟨k, ⟨n, y⟩⟩ := e
  have hy := C72_reports_tree y
  have ha := C72_reports_anchored ⟨n, y⟩
  refine ⟨fun path => ?_, fun path a o h0 => ?_, fun path h0 => ?_, fun path m h0 => ?_, fun path m h0 => ?_,
    fun path s fs h0 => ?_, fun path a b c ks h0 => ?_⟩
  · match path with
    | .root cs => rfl
    | .key k' cs none =>
      simp only [YamlInsert.findValues, YamlInsert.forHash, HashElement.forHash]
      split <;> rfl
    | .key k' cs (some p) =>
      show (⟨k, (YamlInsert.findValues p (⟨n, y⟩ : AliasedYaml)).2⟩ : HashElement) = _
      rw [ha.find]
    | .allIndexes cs o => rfl
    | .indexes is cs o => rfl
  · show (⟨k, (YamlInsert.insertIntoHash path a o (⟨n, y⟩ : AliasedYaml)).2⟩ : HashElement) = _
    rw [ha.insert path a o h0]
  · show (⟨k, (YamlInsert.removeFromHash path (⟨n, y⟩ : AliasedYaml)).2⟩ : HashElement) = _
    rw [ha.remove path h0]
  · match path with
    | .root cs => exact absurd h0 Nat.one_ne_zero
    | .key k' cs none =>
      by_cases hk : k' = k
      · subst hk
        rw [(C72_entry_itself ⟨k', ⟨n, y⟩⟩ (.key k' cs none) (.inr ⟨cs, rfl⟩)).2.1] at h0
        exact absurd h0 Nat.one_ne_zero
      · rw [(C72_entry_nothing ⟨k, ⟨n, y⟩⟩ (.key k' cs none) (.inl ⟨k', cs, rfl, hk⟩)).rename]
    | .key k' cs (some p) =>
      show (⟨k, (YamlInsert.renameField p m (⟨n, y⟩ : AliasedYaml)).2⟩ : HashElement) = _
      rw [ha.rename p m h0]
    | .allIndexes cs o => rfl
    | .indexes is cs o => rfl
  · match path with
    | .root cs => exact absurd h0 Nat.one_ne_zero
    | .key k' cs none =>
      by_cases hk : k' = k
      · subst hk
        rw [(C72_entry_itself ⟨k', ⟨n, y⟩⟩ (.key k' cs none) (.inr ⟨cs, rfl⟩)).2.2.1] at h0
        exact absurd h0 Nat.one_ne_zero
      · rw [(C72_entry_nothing ⟨k, ⟨n, y⟩⟩ (.key k' cs none) (.inl ⟨k', cs, rfl, hk⟩)).wrap]
    | .key k' cs (some p) =>
      show (⟨k, (YamlInsert.toObject p m (⟨n, y⟩ : AliasedYaml)).2⟩ : HashElement) = _
      rw [ha.wrap p m h0]
    | .allIndexes cs o => rfl
    | .indexes is cs o => rfl
  · match path with
    | .root cs =>
      rw [(C72_entry_itself ⟨k, ⟨n, y⟩⟩ (.root cs) (.inl ⟨cs, rfl⟩)).2.2.2.1] at h0 ⊢
      have := hy.subfield (.root []) s fs h0
      exact congrArg (fun z => (⟨k, ⟨n, z⟩⟩ : HashElement)) this
    | .key k' cs none =>
      by_cases hk : k' = k
      · subst hk
        rw [(C72_entry_itself ⟨k', ⟨n, y⟩⟩ (.key k' cs none) (.inr ⟨cs, rfl⟩)).2.2.2.1] at h0 ⊢
        have := hy.subfield (.root []) s fs h0
        exact congrArg (fun z => (⟨k', ⟨n, z⟩⟩ : HashElement)) this
      · rw [(C72_entry_nothing ⟨k, ⟨n, y⟩⟩ (.key k' cs none) (.inl ⟨k', cs, rfl, hk⟩)).subfield]
    | .key k' cs (some p) =>
      show (⟨k, (YamlInsert.moveToSubfield p s fs (⟨n, y⟩ : AliasedYaml)).2⟩ : HashElement) = _
      rw [ha.subfield p s fs h0]
    | .allIndexes cs o => rfl
    | .indexes is cs o => rfl
  · match path with
    | .root cs =>
      rw [(C72_entry_itself ⟨k, ⟨n, y⟩⟩ (.root cs) (.inl ⟨cs, rfl⟩)).2.2.2.2] at h0 ⊢
      have := hy.regroup (.root []) a b c ks h0
      exact congrArg (fun z => (⟨k, ⟨n, z⟩⟩ : HashElement)) this
    | .key k' cs none =>
      by_cases hk : k' = k
      · subst hk
        rw [(C72_entry_itself ⟨k', ⟨n, y⟩⟩ (.key k' cs none) (.inr ⟨cs, rfl⟩)).2.2.2.2] at h0 ⊢
        have := hy.regroup (.root []) a b c ks h0
        exact congrArg (fun z => (⟨k', ⟨n, z⟩⟩ : HashElement)) this
      · rw [(C72_entry_nothing ⟨k, ⟨n, y⟩⟩ (.key k' cs none) (.inl ⟨k', cs, rfl, hk⟩)).regroup]
    | .key k' cs (some p) =>
      show (⟨k, (YamlInsert.moveToMap p a b c ks (⟨n, y⟩ : AliasedYaml)).2⟩ : HashElement) = _
      rw [ha.regroup p a b c ks h0]
    | .allIndexes cs o => rfl
    | .indexes is cs o => rfl

/-- The data of a mapping. -/
theorem C72_reports_entry_data (d : HashData) : ReportsChanges d := by
  cases d with
  | comment c => exact (C72_comments c).1.reports fun _ => rfl
  | inlineComment c => exact (C72_comments c).2.1.reports fun _ => rfl
  | element e =>
    exact (C72_entry_data e).reports rfl (fun path => by
      show HashData.element (YamlInsert.findValues path e).2 = _
      rw [(C72_reports_entry e).find]) (C72_reports_entry e)

/-- The data of a block sequence. -/
theorem C72_reports_element (d : ArrayData) : ReportsChanges d := by
  cases d with
  | comment c => exact (C72_comments c).2.2.1.reports fun _ => rfl
  | inlineComment c => exact (C72_comments c).2.2.2.1.reports fun _ => rfl
  | element a =>
    have ha := C72_reports_anchored a
    refine ⟨fun path => ?_, fun path h o h0 => ?_, fun path h0 => ?_, fun path m h0 => ?_, fun path m h0 => ?_,
      fun path s fs h0 => ?_, fun path x b c ks h0 => ?_⟩
    · match path with
      | .root cs => rfl
      | .key k' cs none => exact congrArg ArrayData.element (ha.find (.key k' cs none))
      | .key k' cs (some p) => rfl
      | .allIndexes cs none => exact congrArg ArrayData.element (ha.find (.root []))
      | .allIndexes cs (some p) => exact congrArg ArrayData.element (ha.find p)
      | .indexes is cs none => exact congrArg ArrayData.element (ha.find (.root []))
      | .indexes is cs (some p) => exact congrArg ArrayData.element (ha.find p)
    · exact congrArg ArrayData.element (ha.insert path h o h0)
    · exact congrArg ArrayData.element (ha.remove path h0)
    · match path with
      | .root cs => rfl
      | .key k' cs none => exact congrArg ArrayData.element (ha.rename (.key k' cs none) m h0)
      | .key k' cs (some p) => rfl
      | .allIndexes cs none => exact congrArg ArrayData.element (ha.rename (.root []) m h0)
      | .allIndexes cs (some p) => exact congrArg ArrayData.element (ha.rename p m h0)
      | .indexes is cs none => exact congrArg ArrayData.element (ha.rename (.root []) m h0)
      | .indexes is cs (some p) => exact congrArg ArrayData.element (ha.rename p m h0)
    · match path with
      | .root cs => rfl
      | .key k' cs none => exact congrArg ArrayData.element (ha.wrap (.key k' cs none) m h0)
      | .key k' cs (some p) => rfl
      | .allIndexes cs none => exact congrArg ArrayData.element (ha.wrap (.root []) m h0)
      | .allIndexes cs (some p) => exact congrArg ArrayData.element (ha.wrap p m h0)
      | .indexes is cs none => exact congrArg ArrayData.element (ha.wrap (.root []) m h0)
      | .indexes is cs (some p) => exact congrArg ArrayData.element (ha.wrap p m h0)
    · match path with
      | .root cs => rfl
      | .key k' cs none => exact congrArg ArrayData.element (ha.subfield (.key k' cs none) s fs h0)
      | .key k' cs (some p) => rfl
      | .allIndexes cs none => exact congrArg ArrayData.element (ha.subfield (.root []) s fs h0)
      | .allIndexes cs (some p) => exact congrArg ArrayData.element (ha.subfield p s fs h0)
      | .indexes is cs none => exact congrArg ArrayData.element (ha.subfield (.root []) s fs h0)
      | .indexes is cs (some p) => exact congrArg ArrayData.element (ha.subfield p s fs h0)
    · match path with
      | .root cs => rfl
      | .key k' cs none => exact congrArg ArrayData.element (ha.regroup (.key k' cs none) x b c ks h0)
      | .key k' cs (some p) => rfl
      | .allIndexes cs none => exact congrArg ArrayData.element (ha.regroup (.root []) x b c ks h0)
      | .allIndexes cs (some p) => exact congrArg ArrayData.element (ha.regroup p x b c ks h0)
      | .indexes is cs none => exact congrArg ArrayData.element (ha.regroup (.root []) x b c ks h0)
      | .indexes is cs (some p) => exact congrArg ArrayData.element (ha.regroup p x b c ks h0)

/-- The items of a document. -/
theorem C72_reports_item (d : DocumentData) : ReportsChanges d := by
  cases d with
  | comment c => exact (C72_comments c).2.2.2.2.reports fun _ => rfl
  | yaml y =>
    exact (C72_document_item y).reports rfl (fun path => by
      show DocumentData.yaml (y.findValues path).2 = _
      rw [find_readonly]) (C72_reports_tree y)

/-- Documents. -/
theorem C72_reports_document (d : Document) : ReportsChanges d where
  find path := by rw [(C72_document_operations d path).1]; exact C23_find_readonly d path
  insert path h o h0 := by
    rw [(C72_document_operations d path).2.1] at h0 ⊢; exact C16_insert_zero d path h o h0
  remove path h0 := by
    rw [(C72_document_operations d path).2.2.1] at h0 ⊢; exact C16_remove_zero d path h0
  rename path n h0 := by
    rw [(C72_document_operations d path).2.2.2.1] at h0 ⊢; exact C16_rename_zero d path n h0
  wrap path k h0 := by
    rw [(C72_document_operations d path).2.2.2.2.1] at h0 ⊢; exact C16_to_object_zero d path k h0
  subfield path s fs h0 := by
    rw [(C72_document_operations d path).2.2.2.2.2.1] at h0 ⊢; exact C16_move_to_subfield_zero d path s fs h0
  regroup path a b c ks h0 := by
    rw [(C72_document_operations d path).2.2.2.2.2.2] at h0 ⊢; exact C16_move_to_map_zero d path a b c ks h0

/-! ## Examples -/

/-- The entry `a:` with the mapping `{y: 1}`. -/
def sampleEntry : HashElement := ⟨c!"a", ⟨none, .hash [.element ⟨c!"y", ⟨none, .unquotedString c!"1"⟩⟩]⟩⟩

/-- The first key of a longer path is not looked at: the path `x.y` finds the value of `y` below the
entry `a`; inserting at the same path inserts nothing. -/
theorem C72_counterexample_entry :
    (YamlInsert.findValues (.key c!"x" [] (some (.key c!"y" [] none))) sampleEntry).1 = [.unquotedString c!"1"] ∧
    (YamlInsert.insertIntoHash (.key c!"x" [] (some (.key c!"y" [] none))) ⟨none, .unquotedString c!"2"⟩ true
      sampleEntry).1 = 0 := ⟨rfl, rfl⟩

/-- In an element of a sequence, the path `a.y` finds nothing although inserting at it works. -/
theorem C72_counterexample_element :
    (YamlInsert.findValues (.key c!"a" [] (some (.key c!"y" [] none)))
      (ArrayData.element ⟨none, .hash [.element sampleEntry]⟩)).1 = [] ∧
    (YamlInsert.insertIntoHash (.key c!"a" [] (some (.key c!"y" [] none))) ⟨none, .unquotedString c!"2"⟩ true
      (ArrayData.element ⟨none, .hash [.element sampleEntry]⟩)).1 = 1 := ⟨rfl, rfl⟩

/-- The mapping of `C72_entry_of_mapping` may have comments and more entries, and conditions. -/
example : FirstEntry c!"a" [.comment c!" c", .element sampleEntry, .element ⟨c!"b", ⟨none, .unquotedString c!"2"⟩⟩]
      [.comment c!" c"] sampleEntry.value [.element ⟨c!"b", ⟨none, .unquotedString c!"2"⟩⟩] ∧
    Fits [⟨c!"b", c!"2"⟩] (.hash [.comment c!" c", .element sampleEntry, .element ⟨c!"b", ⟨none, .unquotedString c!"2"⟩⟩]) := by
  refine ⟨⟨rfl, by decide⟩, fun c hc => ?_⟩
  obtain rfl : c = ⟨c!"b", c!"2"⟩ := by simpa using hc
  exact ⟨_, [.comment c!" c", .element sampleEntry], ⟨none, .unquotedString c!"2"⟩, [], rfl, ⟨rfl, by decide⟩, rfl⟩

example : (YamlInsert.renameField (.key c!"a" [] none) c!"b" sampleEntry) = (1, ⟨c!"b", sampleEntry.value⟩) := rfl

end YamlSubset
