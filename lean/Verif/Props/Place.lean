import Verif.Lemmas.Place
import Verif.Props.LineEdit
import Verif.Props.EditWhere
import Verif.Props.Parse
import Verif.Props.Field

/-! # C76: values and keys can be edited in the text, wherever they are

A text shows a document in any layout. Every value that is written on one line, at any depth, is shown by one part of the text; this part can be replaced by any
other text of this kind, and the document that is read differs only at this place. The same holds for values in flow collections and for keys. So editing the text
does the same as inserting at the path, overwriting, and as renaming the field. -/

namespace YamlSubset

open Spec

variable {T : CharTables}

namespace Lay

theorem onTrees_root {f : Yaml → Yaml} {leading pre post : List Str} {y : Yaml} :
    onTrees f ⟨leading, pre.map .comment ++ [.yaml y] ++ post.map .comment⟩ = ⟨leading, pre.map .comment ++ [.yaml (f y)] ++ post.map .comment⟩ := by
  simp [onTrees, Function.comp_def]

theorem root_item {d : Document} {leading pre post : List Str} {root y : Yaml} (hd : d = ⟨leading, pre.map .comment ++ [.yaml y] ++ post.map .comment⟩)
    (h : DocumentData.yaml root ∈ d.items) : root = y := by
  subst hd
  simpa using h

/-- If the text of the root can be replaced, so can the text of the document. -/
theorem document_root {d x root} (h : DocumentText T d x) (hr : DocumentData.yaml root ∈ d.items) :
    ∃ A z B c cl leading, ∃ pre post : List Str, d = ⟨leading, pre.map .comment ++ [.yaml root] ++ post.map .comment⟩ ∧ x = A ++ z ++ B ∧ RootText T c cl root z ∧
      ∀ root' z', RootText T c cl root' z' →
        parseYamlFile T (A ++ z' ++ B) = .ok ⟨leading, pre.map .comment ++ [.yaml root'] ++ post.map .comment⟩ := by
  cases h with
  | @intro leading pre post y c cl lead n nl b preText rootText tail hl hn hb hp hroot ht =>
    have := root_item rfl hr
    subst this
    refine ⟨lead ++ ['-', '-', '-'] ++ pad n ++ nl ++ b ++ preText, rootText, tail, c, cl, leading, pre, post, rfl, rfl, hroot, fun root' z' h' => ?_⟩
    exact C53_every_layout_parses _ _ _ (.intro hl hn hb hp h' ht)

end Lay

/-- **C76** The text of a value of a block collection, at any depth, can be replaced by any text that shows a value in the same surroundings. -/
theorem C76_replace_item (T : CharTables) {d x root l p i v} (h : DocumentText T d x) (hr : DocumentData.yaml root ∈ d.items) (hp : nodeAt l root = some p)
    (hv : childAt i p = some v) :
    ∃ A z B t nx c hold cl ps, x = A ++ z ++ B ∧ ItemText T (Written T) t nx c hold cl v ps z ∧
      ∀ v' z', ItemText T (Written T) t nx c hold cl v' ps z' →
        parseYamlFile T (A ++ z' ++ B) = .ok (onTrees (changeNode (setChild i v') l) d) := by
  obtain ⟨A, z, B, c, cl, leading, pre, post, rfl, hx, hroot, hre⟩ := Lay.document_root h hr
  obtain ⟨A', z', B', t, nx, c', hold, cl', ps, hx', hi, hr'⟩ := Lay.item_text Lay.root_slots hroot hp hv
  refine ⟨A ++ A', z', B' ++ B, t, nx, c', hold, cl', ps, by simp [hx, hx'], hi, fun v' z'' hz => ?_⟩
  rw [Lay.onTrees_root]
  have := hre _ _ (hr' v' z'' hz)
  simpa using this

/-- **C76** A value that is written on one line, at any depth of block collections: its text can be replaced by the text of any other such value. -/
theorem C76_replace_scalar (T : CharTables) {d x root l p i a y} (h : DocumentText T d x) (hr : DocumentData.yaml root ∈ d.items) (hp : nodeAt l root = some p)
    (hv : childAt i p = some ⟨a, y⟩) (hy : OnLine y) :
    ∃ A z B, x = A ++ z ++ B ∧ ScalarText T y z ∧
      ∀ y' z', ScalarText T y' z' → parseYamlFile T (A ++ z' ++ B) = .ok (onTrees (changeNode (setChild i ⟨a, y'⟩) l) d) := by
  obtain ⟨A, z, B, t, nx, c, hold, cl, ps, hx, hi, hre⟩ := C76_replace_item T h hr hp hv
  obtain ⟨h1, h2, h3, h4⟩ := hy
  cases hi with
  | value hi =>
    cases hi with
    | @scalar _ _ _ _ _ _ lead z ha hs =>
      refine ⟨A ++ lead, z, B, by simp [hx], hs, fun y' z' hz => ?_⟩
      have := hre ⟨a, y'⟩ _ (.value (.scalar ha hz))
      simpa using this
    | literal => exact absurd rfl (h3 _ _)
    | folded => exact absurd rfl (h4 _ _)
    | hash => exact absurd rfl (h1 _)
    | array => exact absurd rfl (h2 _)
    | innerOne => exact absurd rfl (h1 _)
    | innerMore => exact absurd rfl (h1 _)
    | innerElement => exact absurd rfl (h2 _)
    | innerElements => exact absurd rfl (h2 _)
  | @comment _ _ _ _ _ _ lead z n co ha hs hc =>
    refine ⟨A ++ lead, z, pad (n + 1) ++ '#' :: co ++ B, by simp [hx], hs, fun y' z' hz => ?_⟩
    have := hre ⟨a, y'⟩ _ (.comment (n := n) ha hz hc)
    simpa using this

/-- **C76** The same for a value in flow collections, at any depth in a value of a block collection. -/
theorem C76_replace_in_flow (T : CharTables) {d x root l p i a y m u} (h : DocumentText T d x) (hr : DocumentData.yaml root ∈ d.items) (hp : nodeAt l root = some p)
    (hv : childAt i p = some ⟨a, y⟩) (hm : m ≠ []) (hu : flowAt m y = some u) :
    ∃ A z B, x = A ++ z ++ B ∧ FlowText T u z ∧
      ∀ u' z', FlowText T u' z' → parseYamlFile T (A ++ z' ++ B) = .ok (onTrees (changeNode (setChild i ⟨a, setFlow u' m y⟩) l) d) := by
  have hf : (∃ es, y = .inlineArray es) ∨ ∃ es, y = .inlineHash es := by
    cases m with
    | nil => exact absurd rfl hm
    | cons j m =>
      cases y with
      | inlineArray es => exact .inl ⟨es, rfl⟩
      | inlineHash es => exact .inr ⟨es, rfl⟩
      | _ => simp [flowAt] at hu
  have hy : OnLine y := by rcases hf with ⟨es, rfl⟩ | ⟨es, rfl⟩ <;> simp [OnLine]
  have hne : ∀ u' s, setFlow u' m y ≠ .unquotedString s := by
    intro u' s
    cases m with
    | nil => exact absurd rfl hm
    | cons j m =>
      rcases hf with ⟨es, rfl⟩ | ⟨es, rfl⟩ <;> (simp only [setFlow]; split <;> simp)
  obtain ⟨A, z, B, hx, hs, hre⟩ := C76_replace_scalar T h hr hp hv hy
  cases hs with
  | plain => rcases hf with ⟨es, he⟩ | ⟨es, he⟩ <;> cases he
  | flow _ hs =>
    obtain ⟨A', z', B', hx', hu', hr'⟩ := Lay.flow_text hs hu
    refine ⟨A ++ A', z', B' ++ B, by simp [hx, hx'], hu', fun u' z'' hz => ?_⟩
    have := hre _ _ (.flow (hne u') (hr' u' z'' hz))
    simpa using this

/-- **C76** The same for a document whose root is a flow sequence. -/
theorem C76_replace_in_flow_root (T : CharTables) {d x es m u} (h : DocumentText T d x) (hr : DocumentData.yaml (.inlineArray es) ∈ d.items) (hm : m ≠ [])
    (hu : flowAt m (.inlineArray es) = some u) :
    ∃ A z B, x = A ++ z ++ B ∧ FlowText T u z ∧
      ∀ u' z', FlowText T u' z' → parseYamlFile T (A ++ z' ++ B) = .ok (onTrees (setFlow u' m) d) := by
  obtain ⟨A, z, B, c, cl, leading, pre, post, rfl, hx, hroot, hre⟩ := Lay.document_root h hr
  cases hroot with
  | flow hs =>
    obtain ⟨A', z', B', hx', hu', hr'⟩ := Lay.flow_text hs hu
    refine ⟨A ++ A', z', B' ++ B, by simp [hx, hx'], hu', fun u' z'' hz => ?_⟩
    rw [Lay.onTrees_root]
    have h' := hr' u' z'' hz
    have : ∃ es', setFlow u' m (.inlineArray es) = .inlineArray es' := by
      cases m with
      | nil => exact absurd rfl hm
      | cons j m => simp only [setFlow]; split <;> exact ⟨_, rfl⟩
    obtain ⟨es', he⟩ := this
    rw [he] at h' ⊢
    have := hre _ _ (.flow h')
    simpa using this

/-- **C76** The same for the key of an entry of a block mapping, at any depth. -/
theorem C76_replace_key (T : CharTables) {d x root l p i k} (h : DocumentText T d x) (hr : DocumentData.yaml root ∈ d.items) (hp : nodeAt l root = some p)
    (hk : keyAt i p = some k) :
    ∃ A B, x = A ++ k ++ B ∧ ∀ k', KeyText T k' → parseYamlFile T (A ++ k' ++ B) = .ok (onTrees (changeNode (setKey i k') l) d) := by
  obtain ⟨A, z, B, c, cl, leading, pre, post, rfl, hx, hroot, hre⟩ := Lay.document_root h hr
  obtain ⟨A', B', hx', _, hr'⟩ := Lay.key_text Lay.root_slots Lay.root_keys hroot hp hk
  refine ⟨A ++ A', B' ++ B, by simp [hx, hx'], fun k' hk' => ?_⟩
  rw [Lay.onTrees_root]
  have := hre _ _ (hr' k' hk')
  simpa using this

/-! ## the operations -/

theorem changeNode_congr {f g : Yaml → Yaml} : ∀ {l : Loc} {y p : Yaml}, nodeAt l y = some p → f p = g p → changeNode f l y = changeNode g l y := by
  intro l
  induction l with
  | nil => intro y p h he; simp only [nodeAt, Option.some.injEq] at h; subst h; exact he
  | cons i l ih =>
    intro y p h he
    simp only [nodeAt, changeNode] at h ⊢
    cases hc : childAt i y with
    | none => rfl
    | some w =>
      simp only [hc] at h
      simp only [ih h he]

theorem edits_nil {E : List HashData → List HashData → Prop} {ls y y'} (h : Edits E ls y y') (hl : ls = []) : y' = y := by
  have same : ∀ {α : Type} {ds : List α} {i : Nat} {e : α}, ds[i]? = some e → ds.set i e = ds := fun h => by
    rw [(Lay.at_index h).2, ← (Lay.at_index h).1]
  induction h with
  | none => rfl
  | here => cases hl
  | inHash hi _ ih => rw [ih (by simpa using hl), same hi]
  | inArray hi _ ih => rw [ih (by simpa using hl), same hi]
  | inInlineArray hi _ ih => rw [ih (by simpa using hl), same hi]
  | seq _ _ ih ih' =>
    have := List.append_eq_nil_iff.1 hl
    rw [ih' this.2, ih this.1]

/-- One edit at a place. -/
theorem edits_one {E : List HashData → List HashData → Prop} {ls y y'} (h : Edits E ls y y') :
    ∀ {l ds}, ls = [l] → nodeAt l y = some (.hash ds) → ∃ ds', E ds ds' ∧ y' = changeNode (fun _ => .hash ds') l y := by
  induction h with
  | none => intro l ds h; cases h
  | here h =>
    intro l ds hl hn
    simp only [List.cons.injEq, and_true] at hl
    subst hl
    simp only [nodeAt, Option.some.injEq, Yaml.hash.injEq] at hn
    subst hn
    exact ⟨_, h, rfl⟩
  | @inHash es i k a v v' ls hi h ih =>
    intro l ds hl hn
    obtain ⟨l', rfl, rfl⟩ : ∃ l', ls = [l'] ∧ l = i :: l' := by
      cases ls with
      | nil => cases hl
      | cons l' ls =>
        simp only [List.map_cons, List.cons.injEq, List.map_eq_nil_iff] at hl
        exact ⟨l', by rw [hl.2], hl.1.symm⟩
    have hc : childAt i (.hash es) = some ⟨a, v⟩ := by simp [childAt, hi]
    simp only [nodeAt, hc] at hn
    obtain ⟨ds', h1, h2⟩ := ih rfl hn
    refine ⟨ds', h1, ?_⟩
    simp [changeNode, hc, setChild, hi, h2]
  | @inArray es i a v v' ls hi h ih =>
    intro l ds hl hn
    obtain ⟨l', rfl, rfl⟩ : ∃ l', ls = [l'] ∧ l = i :: l' := by
      cases ls with
      | nil => cases hl
      | cons l' ls =>
        simp only [List.map_cons, List.cons.injEq, List.map_eq_nil_iff] at hl
        exact ⟨l', by rw [hl.2], hl.1.symm⟩
    have hc : childAt i (.array es) = some ⟨a, v⟩ := by simp [childAt, hi]
    simp only [nodeAt, hc] at hn
    obtain ⟨ds', h1, h2⟩ := ih rfl hn
    refine ⟨ds', h1, ?_⟩
    simp [changeNode, hc, setChild, hi, h2]
  | @inInlineArray es i v v' ls hi h ih =>
    intro l ds hl hn
    obtain ⟨l', rfl, rfl⟩ : ∃ l', ls = [l'] ∧ l = i :: l' := by
      cases ls with
      | nil => cases hl
      | cons l' ls =>
        simp only [List.map_cons, List.cons.injEq, List.map_eq_nil_iff] at hl
        exact ⟨l', by rw [hl.2], hl.1.symm⟩
    simp [nodeAt, childAt] at hn
  | @seq x y z ls ms h h' ih ih' =>
    intro l ds hl hn
    cases ls with
    | nil =>
      have := edits_nil h rfl
      subst this
      exact ih' (by simpa using hl) hn
    | cons l' ls =>
      simp only [List.cons_append, List.cons.injEq, List.append_eq_nil_iff] at hl
      obtain ⟨rfl, rfl, rfl⟩ := hl
      have := edits_nil h' rfl
      subst this
      exact ih rfl hn

theorem flow_no_address {p y l k ds} (h : Addresses p y l k ds) : ¬ ParsedFlow T y := by
  induction h with
  | allInline hi _ _ ih => intro h; cases h with | inlineArray h => exact ih (h _ (List.mem_of_getElem? hi))
  | inline _ hi _ _ ih => intro h; cases h with | inlineArray h => exact ih (h _ (List.mem_of_getElem? hi))
  | _ => intro h; nomatch h

/-- In a parsed tree a path addresses mappings that are in block collections. -/
theorem addresses_node {p y l k ds} (h : Addresses p y l k ds) : ParsedValue T y → nodeAt l y = some (.hash ds) := by
  induction h with
  | here => intro _; rfl
  | @key k cs p ds pre v post l k' ds' _ hf _ ih =>
    intro h
    cases h with
    | hash _ _ _ values _ _ =>
      have hi : ds[pre.length]? = some (.element ⟨k, v⟩) := by rw [hf.1]; simp
      simp only [nodeAt, childAt, hi]
      exact ih (values _ (List.mem_of_getElem? hi))
  | allArray hi _ _ ih =>
    intro h
    cases h with
    | array _ _ values _ _ =>
      simp only [nodeAt, childAt, hi]
      exact ih (values _ (List.mem_of_getElem? hi))
  | array _ hi _ _ _ ih =>
    intro h
    cases h with
    | array _ _ values _ _ =>
      simp only [nodeAt, childAt, hi]
      exact ih (values _ (List.mem_of_getElem? hi))
  | allInline hi _ ha _ =>
    intro h
    cases h with
    | flowArray h => cases h with | inlineArray h => exact absurd (h _ (List.mem_of_getElem? hi)) (flow_no_address ha)
  | inline _ hi _ ha _ =>
    intro h
    cases h with
    | flowArray h => cases h with | inlineArray h => exact absurd (h _ (List.mem_of_getElem? hi)) (flow_no_address ha)

theorem root_parsed {d x root} (h : DocumentText T d x) (hr : DocumentData.yaml root ∈ d.items) : ParsedValue T root := by
  obtain ⟨pre, post, root', h1, -, -, h2⟩ := (C39_parsed_well_formed (C53_every_layout_parses _ _ _ h)).items
  have : root = root' := by
    rw [h1] at hr
    simpa using hr
  exact this ▸ h2

/-- The only edit of a tree is at one place. -/
theorem editsAt_one {E : List HashData → List HashData → Prop} {P n y y' l ds} (h : EditsAt E P n y y') (hP : ∀ l', P y l' ↔ l' = l) (hn : nodeAt l y = some (.hash ds)) :
    ∃ ds', E ds ds' ∧ y' = changeNode (fun _ => .hash ds') l y := by
  obtain ⟨ls, -, he, hnd, hls⟩ := h
  have hls : ∀ l', l' ∈ ls ↔ l' = l := fun l' => (hls l').trans (hP l')
  have : ls = [l] := by
    cases ls with
    | nil => simp at hls
    | cons a ls =>
      have ha : a = l := (hls a).1 (by simp)
      subst ha
      cases ls with
      | nil => rfl
      | cons b ls =>
        have hb : b = a := (hls b).1 (by simp)
        subst hb
        simp at hnd
  exact edits_one he this hn

/-- **C76** If a path addresses one place only, whose value is written on one line, then replacing this line's text does the same as inserting the value at the path,
overwriting. -/
theorem C76_insert (T : CharTables) {d x root path k l ds pre a y post} (h : DocumentText T d x) (hr : DocumentData.yaml root ∈ d.items) (hn : NoRepeats path)
    (hk : lastKey path = some k) (ha : Addresses path root l k ds) (hu : ∀ l' ds', Addresses path root l' k ds' → l' = l) (hf : FirstEntry k ds pre ⟨a, y⟩ post)
    (hy : OnLine y) :
    ∃ A z B, x = A ++ z ++ B ∧ ScalarText T y z ∧
      ∀ y' z', ScalarText T y' z' → parseYamlFile T (A ++ z' ++ B) = .ok (d.insertIntoHash path ⟨a, y'⟩ true).2 := by
  have hnode := addresses_node ha (root_parsed h hr)
  have hi : ds[pre.length]? = some (.element ⟨k, ⟨a, y⟩⟩) := by rw [hf.1]; simp
  obtain ⟨A, z, B, hx, hs, hre⟩ := C76_replace_scalar T h hr hnode (i := pre.length) (a := a) (y := y) (by simp [childAt, hi]) hy
  refine ⟨A, z, B, hx, hs, fun y' z' hz => ?_⟩
  rw [hre y' z' hz]
  obtain ⟨_, _, _, _, _, leading, pre', post', rfl, -⟩ := Lay.document_root h hr
  rw [Lay.onTrees_root, Document.insertIntoHash, overItems_root]
  have hloc := editHash_located (fun k ds ds' => Appends k ⟨a, y'⟩ ds ds' ∨ (true = true ∧ Overwrites k ⟨a, y'⟩ ds ds'))
      (fun k ds => k ∉ keysOf ds ∨ true = true) _ (fun data k => insertClosure_app ⟨a, y'⟩ true data k) path k hk hn root
  obtain ⟨ds', h1, h2⟩ := editsAt_one hloc (fun l' => ⟨fun ⟨ds', h', _⟩ => hu l' ds' h', fun he => ⟨ds, he ▸ ha, .inr rfl⟩⟩) hnode
  have h3 : ds' = pre ++ .element ⟨k, ⟨a, y'⟩⟩ :: post := by
    have hmem : k ∈ keysOf ds := by rw [hf.1]; simp [keysOf, List.filterMap_append]
    rcases h1 with ⟨h1, _⟩ | ⟨_, pre₂, v₂, post₂, hf₂, rfl⟩
    · exact absurd hmem h1
    · obtain ⟨rfl, _, rfl⟩ := firstEntry_unique hf hf₂
      rfl
  have h4 : (Yaml.insertIntoHash path ⟨a, y'⟩ true root).2 = changeNode (setChild pre.length ⟨a, y'⟩) l root := by
    rw [Yaml.insertIntoHash, h2]
    refine changeNode_congr hnode ?_
    simp only [setChild, hi, (Lay.at_index hi).2, h3]
    simp [hf.1]
  rw [h4]

/-- **C76** The same for the key of an entry and renaming the field. -/
theorem C76_rename (T : CharTables) {d x root path k l ds pre v post} (h : DocumentText T d x) (hr : DocumentData.yaml root ∈ d.items) (hn : NoRepeats path)
    (hin : AvoidsInline path root) (hk : lastKey path = some k) (ha : Addresses path root l k ds) (hu : ∀ l' ds', Addresses path root l' k ds' → l' = l)
    (hf : FirstEntry k ds pre v post) :
    ∃ A B, x = A ++ k ++ B ∧ ∀ k', KeyText T k' → parseYamlFile T (A ++ k' ++ B) = .ok (d.renameField path k').2 := by
  have hnode := addresses_node ha (root_parsed h hr)
  have hi : ds[pre.length]? = some (.element ⟨k, v⟩) := by rw [hf.1]; simp
  obtain ⟨A, B, hx, hre⟩ := C76_replace_key T h hr hnode (i := pre.length) (k := k) (by simp [keyAt, hi])
  refine ⟨A, B, hx, fun k' hk' => ?_⟩
  rw [hre k' hk']
  obtain ⟨_, _, _, _, _, leading, pre', post', rfl, -⟩ := Lay.document_root h hr
  rw [Lay.onTrees_root, Document.renameField, overItems_root]
  have hloc := editHash_located (fun k => Renames k k') (fun k ds => k ∈ keysOf ds) _
      (fun data k => elementClosure_app (fun e => (1, ⟨k', e.value⟩)) (fun _ => rfl) data k) path k hk hn root
  have hmem : k ∈ keysOf ds := by rw [hf.1]; simp [keysOf, List.filterMap_append]
  obtain ⟨ds', h1, h2⟩ := editsAt_one hloc (fun l' => ⟨fun ⟨ds', h', _⟩ => hu l' ds' h', fun he => ⟨ds, he ▸ ha, hmem⟩⟩) hnode
  have h3 : ds' = pre ++ .element ⟨k', v⟩ :: post := by
    obtain ⟨pre₂, v₂, post₂, hf₂, rfl⟩ := h1
    obtain ⟨rfl, rfl, rfl⟩ := firstEntry_unique hf hf₂
    rfl
  have h4 : (Yaml.renameField path k' root).2 = changeNode (setKey pre.length k') l root := by
    unfold Yaml.renameField
    rw [forHash_eq_editHash _ path (by simp [hk]) root hin, h2]
    refine changeNode_congr hnode ?_
    simp only [setKey, hi, (Lay.at_index hi).2, h3]
    simp [hf.1]
  rw [h4]

/-- **C76** A program that reads the text into a type gets, after the text of a value was replaced, the same as before with the new value in the field. -/
theorem C76_read (T : CharTables) (Γ : Nat → Ty) (ty t : Ty) {d x root path k l ds pre a y post} {e : Bool} (h : DocumentText T d x)
    (hr : DocumentData.yaml root ∈ d.items) (hn : NoRepeats path) (hl : Leads Γ ty path t e) (hk : lastKey path = some k) (ha : Addresses path root l k ds)
    (hu : ∀ l' ds', Addresses path root l' k ds' → l' = l) (hf : FirstEntry k ds pre ⟨a, y⟩ post) (hy : OnLine y) (href : DocNoRefs d) (hb : BlockAlong path root)
    (v : SVal) (hv : ∃ n, fromYamlStr T Γ n ty x = .ok v) :
    ∃ A z B, x = A ++ z ++ B ∧ ScalarText T y z ∧
      ∀ y' z' u, ScalarText T y' z' → (∀ b, ¬ RefersTo y' b) → (∃ n, fromYaml Γ n t y' = .ok u) →
        ∃ n, fromYamlStr T Γ n ty (A ++ z' ++ B) = .ok (changeAt (.set u) path v) := by
  have hp := C53_every_layout_parses _ _ _ h
  obtain ⟨A, z, B, hx, hs, hre⟩ := C76_insert T h hr hn hk ha hu hf hy
  refine ⟨A, z, B, hx, hs, fun y' z' u hz hnr hu' => ?_⟩
  rw [← docReads_text T Γ ty hp] at hv
  rw [← docReads_text T Γ ty (hre y' z' hz)]
  refine C67_set Γ ty t path e hl ⟨a, y'⟩ hnr u hu' d href (fun y'' hy'' => ?_) v hv
  obtain ⟨_, _, _, _, _, leading, pre', post', rfl, -⟩ := Lay.document_root h hr
  have : y'' = root := by
    simp only [yamlItems, List.mem_filterMap] at hy''
    obtain ⟨i, hi, he⟩ := hy''
    cases i with
    | yaml w =>
      simp only [Option.some.injEq] at he
      subst he
      simpa using hi
    | comment => simp at he
  exact this ▸ hb

/-! ## paths that lead to one place -/

theorem onePlace_noRepeats (p : YamlPath) (h : OnePlace p) : NoRepeats p := by
  have one : ∀ is : List Nat, is.length ≤ 1 → is.Nodup := by
    intro is h
    match is, h with
    | [], _ => simp
    | [_], _ => simp
  induction p using OnePlace.induct with
  | case3 k cs p ih => exact ih h
  | case4 => exact absurd h (by simp [OnePlace])
  | case5 is cs => exact one is h
  | case6 is cs p ih => exact ⟨one is h.1, ih h.2⟩
  | _ => trivial

theorem elementCount_index {ds : List ArrayData} {i j : Nat} {v w : AliasedYaml} (hi : ds[i]? = some (.element v)) (hj : ds[j]? = some (.element w))
    (h : elementCount (ds.take i) = elementCount (ds.take j)) : i = j := by
  have lt : ∀ {i j : Nat} {v : AliasedYaml}, ds[i]? = some (.element v) → i < j → elementCount (ds.take i) < elementCount (ds.take j) := by
    intro i j v hi hij
    have h1 : ds.take j = ds.take i ++ (ds.drop i).take (j - i) := by
      rw [← List.take_add]; congr 1; omega
    obtain ⟨hl, he⟩ := List.getElem?_eq_some_iff.1 hi
    have h2 : (ds.drop i).take (j - i) = .element v :: (ds.drop (i + 1)).take (j - i - 1) := by
      rw [List.drop_eq_getElem_cons hl, he, List.take_cons (by omega)]
    rw [h1, h2]
    simp [elementCount]
  rcases Nat.lt_trichotomy i j with h' | h' | h'
  · have := lt hi h'; omega
  · exact h'
  · have := lt hj h'; omega

/-- Paths of keys and single indexes address one place at most. -/
theorem onePlace_unique {p y l k ds} (h : Addresses p y l k ds) : ∀ {l' k' ds'}, OnePlace p → Addresses p y l' k' ds' → l' = l := by
  induction h with
  | here => intro _ _ _ _ h; cases h; rfl
  | @key k cs p ds pre v post l k' ds' _ hf _ ih =>
    intro l' k' ds' ho h'
    cases h' with
    | key _ hf' hp' =>
      obtain ⟨rfl, rfl, rfl⟩ := firstEntry_unique hf hf'
      rw [ih ho hp']
  | allArray => intro _ _ _ ho; exact absurd ho (by simp [OnePlace])
  | allInline => intro _ _ _ ho; exact absurd ho (by simp [OnePlace])
  | @array is n cs p ds i a v l k ds' hn hi hc _ _ ih =>
    intro l' k' ds' ho h'
    cases h' with
    | @array _ n' _ _ _ j _ _ _ _ _ hn' hj hc' _ hp' =>
      have : n = n' := by
        match is, ho.1, hn, hn' with
        | [], _, h, _ => simp at h
        | [m], _, h, h' => simp at h h'; omega
      subst this
      have := elementCount_index hi hj (by omega)
      subst this
      rw [hi] at hj
      injection hj with hj
      injection hj with hj
      injection hj with _ hj
      subst hj
      rw [ih ho.2 hp']
  | @inline is i cs p es v l k ds' hn hi _ _ ih =>
    intro l' k' ds' ho h'
    cases h' with
    | @inline _ j _ _ _ _ _ _ _ hn' hj _ hp' =>
      have : i = j := by
        match is, ho.1, hn, hn' with
        | [], _, h, _ => simp at h
        | [m], _, h, h' => simp at h h'; omega
      subst this
      rw [hi] at hj
      injection hj with hj
      subst hj
      rw [ih ho.2 hp']

/-! ## a text that meets the hypotheses -/

/-- Parts of the document with many layouts. -/
def layoutFirst : List HashData :=
  [kv c!"k" (.inlineArray [.unquotedString c!"1", .unquotedString c!"2"]), .inlineComment c!" e", kv c!"l" (.singleQuotedString [.string c!"q"])]

def layoutList : List ArrayData := [.comment c!" note", .comment c!" more", elem (.hash layoutFirst),
  elem (.array [.element ⟨some c!"n", .unquotedString c!"x"⟩, elem (.doubleQuotedString [.string c!"y"]), .comment c!" c", elem (.unquotedString c!"z")])]

def layoutRoot : List HashData := [kv c!"a" (.unquotedString c!"1"), kv c!"b" (.array layoutList), kv c!"c" (.literalString [c!"one", c!"", c!" two"] .keep)]

theorem layoutRoot_mem : DocumentData.yaml (.hash layoutRoot) ∈ layoutDocument.items := List.mem_cons_of_mem _ (List.mem_cons_self ..)

/-- The place `b[0].l` in the text with many layouts; before it are comments and a flow sequence on two lines. -/
theorem layout_place : Addresses (.key c!"b" [] (some (.indexes [0] [] (some (.key c!"l" [] none))))) (.hash layoutRoot) [1, 2] c!"l" layoutFirst :=
  .key (pre := [kv c!"a" (.unquotedString c!"1")]) (v := ⟨none, .array layoutList⟩) (post := [kv c!"c" (.literalString [c!"one", c!"", c!" two"] .keep)])
    (by simp [Fits]) ⟨rfl, by decide⟩ (.array (n := 0) (i := 2) (a := none) (v := .hash layoutFirst) (by simp) rfl (by decide) (by simp [Fits]) (.here (by simp [Fits])))

theorem layout_entry : FirstEntry c!"l" layoutFirst [kv c!"k" (.inlineArray [.unquotedString c!"1", .unquotedString c!"2"]), .inlineComment c!" e"]
    ⟨none, .singleQuotedString [.string c!"q"]⟩ [] := ⟨rfl, by decide⟩

example : ∃ A z B, layoutText = A ++ z ++ B ∧ ScalarText asciiTables (.singleQuotedString [.string c!"q"]) z ∧
    ∀ y' z', ScalarText asciiTables y' z' → parseYamlFile asciiTables (A ++ z' ++ B) =
      .ok (layoutDocument.insertIntoHash (.key c!"b" [] (some (.indexes [0] [] (some (.key c!"l" [] none))))) ⟨none, y'⟩ true).2 :=
  C76_insert asciiTables layoutText_shows layoutRoot_mem (by simp [NoRepeats]) rfl layout_place
    (fun _ _ h' => onePlace_unique layout_place (by simp [OnePlace]) h') layout_entry (by simp [OnLine])

example : ∃ A B, layoutText = A ++ c!"l" ++ B ∧ ∀ k', KeyText asciiTables k' → parseYamlFile asciiTables (A ++ k' ++ B) =
    .ok (layoutDocument.renameField (.key c!"b" [] (some (.indexes [0] [] (some (.key c!"l" [] none))))) k').2 :=
  C76_rename asciiTables layoutText_shows layoutRoot_mem (by simp [NoRepeats]) (by simp [AvoidsInline, firstValue, kv, layoutRoot]) rfl layout_place
    (fun _ _ h' => onePlace_unique layout_place (by simp [OnePlace]) h') layout_entry

/-- A value in the flow sequence at `b[0].k`. -/
example : ∃ A z B, layoutText = A ++ z ++ B ∧ FlowText asciiTables (.unquotedString c!"2") z ∧ ∀ u' z', FlowText asciiTables u' z' → ∃ d,
    parseYamlFile asciiTables (A ++ z' ++ B) = .ok d := by
  obtain ⟨A, z, B, hx, hz, h⟩ := C76_replace_in_flow asciiTables layoutText_shows (l := [1, 2]) (i := 0) (m := [1]) layoutRoot_mem rfl rfl (by simp) rfl
  exact ⟨A, z, B, hx, hz, fun u' z' hz' => ⟨_, h u' z' hz'⟩⟩

theorem layout_noRefs : DocNoRefs layoutDocument := by
  have hi : yamlItems layoutDocument = [.hash layoutRoot] := rfl
  intro y hy
  rw [hi, List.mem_singleton] at hy
  subst hy
  have sc : ∀ {y : Yaml} {s : Str}, scalarText y = some s → NoRefs y := fun h => noRefs_scalar h
  refine (noRefs_hash _).2 fun k a v hv => ?_
  simp only [layoutRoot, kv, List.mem_cons, HashData.element.injEq, HashElement.mk.injEq, AliasedYaml.mk.injEq, List.not_mem_nil, or_false] at hv
  rcases hv with ⟨-, -, rfl⟩ | ⟨-, -, rfl⟩ | ⟨-, -, rfl⟩
  · exact noRefs_plain _
  · refine (noRefs_array _).2 fun a v hv => ?_
    simp only [layoutList, elem, List.mem_cons, ArrayData.element.injEq, AliasedYaml.mk.injEq, List.not_mem_nil, or_false, reduceCtorEq, false_or] at hv
    rcases hv with ⟨-, rfl⟩ | ⟨-, rfl⟩
    · refine (noRefs_hash _).2 fun k a v hv => ?_
      simp only [layoutFirst, kv, List.mem_cons, HashData.element.injEq, HashElement.mk.injEq, AliasedYaml.mk.injEq, List.not_mem_nil, or_false, reduceCtorEq, false_or] at hv
      rcases hv with ⟨-, -, rfl⟩ | ⟨-, -, rfl⟩
      · refine (noRefs_inlineArray _).2 fun v hv => ?_
        simp only [List.mem_cons, List.not_mem_nil, or_false] at hv
        rcases hv with rfl | rfl <;> exact noRefs_plain _
      · exact sc (s := c!"q") rfl
    · refine (noRefs_array _).2 fun a v hv => ?_
      simp only [elem, List.mem_cons, ArrayData.element.injEq, AliasedYaml.mk.injEq, List.not_mem_nil, or_false, reduceCtorEq, false_or] at hv
      rcases hv with ⟨-, rfl⟩ | ⟨-, rfl⟩ | ⟨-, rfl⟩
      · exact noRefs_plain _
      · exact sc (s := c!"y") rfl
      · exact noRefs_plain _
  · exact sc (s := c!"one\n\n two\n") rfl

/-- The text is read into a type with a list of any values; then the field `l` of the first one is changed. -/
example (Γ : Nat → Ty) : ∃ A z B, layoutText = A ++ z ++ B ∧ ScalarText asciiTables (.singleQuotedString [.string c!"q"]) z ∧
    ∃ n, fromYamlStr asciiTables Γ n (.struct [(c!"b", .seq .any)]) (A ++ c!"7" ++ B) = .ok (.struct [(c!"b", .seq
      [.map [(.str c!"k", .seq [.int 1, .int 2]), (.str c!"l", .int 7)], .seq [.str c!"x", .str c!"y", .str c!"z"]])]) := by
  obtain ⟨A, z, B, hx, hz, h⟩ := C76_read asciiTables Γ (.struct [(c!"b", .seq .any)]) .any (e := true) layoutText_shows layoutRoot_mem (by simp [NoRepeats])
    (.inField rfl (.some (by simp) .anyEntry)) rfl layout_place (fun _ _ h' => onePlace_unique layout_place (by simp [OnePlace]) h') layout_entry (by simp [OnLine])
    layout_noRefs (by
      simp only [BlockAlong, mapPairs, entriesOf, layoutRoot, kv]
      refine ⟨by simp, fun es w he hw => ?_⟩
      cases he
      simp only [List.filterMap_cons, List.filterMap_nil, List.mem_cons, List.not_mem_nil, or_false, Prod.mk.injEq] at hw
      rcases hw with ⟨h, -⟩ | ⟨-, rfl⟩ | ⟨h, -⟩
      · cases h
      · intro ys w he hw
        cases he
        simp only [layoutList, elementsOf, elem, List.filterMap_cons, List.filterMap_nil, List.mem_cons, List.not_mem_nil, or_false] at hw
        rcases hw with rfl | rfl <;> simp
      · cases h)
    (.struct [(c!"b", .seq [.map [(.str c!"k", .seq [.int 1, .int 2]), (.str c!"l", .str c!"q")], .seq [.str c!"x", .str c!"y", .str c!"z"]])])
    ⟨20, by kernel_rfl⟩
  exact ⟨A, z, B, hx, hz, h (.unquotedString c!"7") c!"7" (.int 7) (.plain (blockPlain_simple (by decide)) (by decide)) (noRefs_plain _) ⟨9, by kernel_rfl⟩⟩

end YamlSubset
