import Verif.Lemmas.Lines
import Verif.Props.CommentEdit

/-! # C78: lines can be deleted, added and moved in the text, in every collection

A text shows a document in any layout. The items in the middle of a block collection, at any depth, are shown by lines of their own, each item by its lines with the
comments that follow it. These lines can be replaced by any other lines of this kind with the same indentation: the document that is read differs only in these
items. So deleting the lines deletes the items, new lines add items, and swapping lines swaps the items. The first item of a collection in another one can be on the
line of a dash, and what follows the last item depends on what follows the collection; these two are not in the middle. -/

namespace YamlSubset

open Spec

variable {T : CharTables}

/-- **C78** Some entries in the middle of a block mapping and their lines, which can be replaced by any other lines of entries with the same indentation. -/
theorem C78_mapping (T : CharTables) {d x root l pre mid post} (h : DocumentText T d x) (hr : DocumentData.yaml root ∈ d.items)
    (hp : nodeAt l root = some (.hash (pre ++ mid ++ post))) (hpre : l = [] ∨ ∃ e, HashData.element e ∈ pre) (hm : StartsWithEntry (mid ++ post))
    (hpost : StartsWithEntry post) :
    ∃ A z B c, x = A ++ z ++ B ∧ EntryBlocks T c mid z ∧ (∃ e rest B', post = .element e :: rest ∧ B = pad c ++ e.key ++ B') ∧ ∀ mid' z', EntryBlocks T c mid' z' →
      parseYamlFile T (A ++ z' ++ B) = .ok (onTrees (changeNode (fun _ => .hash (pre ++ mid' ++ post)) l) d) := by
  obtain ⟨A, z, B, c, cl, leading, pre₀, post₀, rfl, hx, hroot, hre⟩ := Lay.document_root h hr
  by_cases hl : l = []
  · subst hl
    simp only [nodeAt, Option.some.injEq] at hp
    subst hp
    cases hroot with
    | hash hroot =>
      obtain ⟨A', z', B', hx', hz', hB, hr'⟩ := Lay.entries_middle hroot rfl hm hpost
      obtain ⟨e, rest, he, B₁, hB₁⟩ := Lay.entries_first hB
      refine ⟨A ++ A', z', pad c ++ B' ++ B, c, by simp [hx, hx'], hz', ⟨e, rest, B₁ ++ B, he, by simp [hB₁]⟩, fun mid' z'' hz'' => ?_⟩
      obtain ⟨x', h1, h2⟩ := hr' mid' z'' hz''
      rw [Lay.onTrees_root]
      have := hre _ _ (.hash h2)
      rw [h1] at this
      simpa [changeNode] using this
  · obtain ⟨A₁, z₁, B₁, t, nx, c₁, hold, cl₁, a, hx₁, hw, hr₁⟩ := Lay.node_text Lay.root_slots hroot hl hp Lay.hash_not_line
    obtain ⟨A', z', B', c', hx', hz', hB, hr'⟩ := Lay.written_entries_middle hw (hpre.resolve_left hl) hm hpost
    obtain ⟨e, rest, he, B₂, hB₂⟩ := Lay.entries_first hB
    refine ⟨A ++ A₁ ++ A', z', pad c' ++ B' ++ B₁ ++ B, c', by simp [hx, hx₁, hx'], hz', ⟨e, rest, B₂ ++ B₁ ++ B, he, by simp [hB₂]⟩, fun mid' z'' hz'' => ?_⟩
    rw [Lay.onTrees_root]
    have := hre _ _ (hr₁ (fun _ => .hash (pre ++ mid' ++ post)) _ (hr' mid' z'' hz''))
    simpa using this

/-- **C78** The same for block sequences. -/
theorem C78_sequence (T : CharTables) {d x root l pre mid post} (h : DocumentText T d x) (hr : DocumentData.yaml root ∈ d.items)
    (hp : nodeAt l root = some (.array (pre ++ mid ++ post))) (hpre : l = [] ∨ ∃ e, ArrayData.element e ∈ pre) (hm : StartsWithElement (mid ++ post))
    (hpost : StartsWithElement post) :
    ∃ A z B c, x = A ++ z ++ B ∧ ElementBlocks T c mid z ∧ (∃ B', B = pad c ++ '-' :: B') ∧ ∀ mid' z', ElementBlocks T c mid' z' →
      parseYamlFile T (A ++ z' ++ B) = .ok (onTrees (changeNode (fun _ => .array (pre ++ mid' ++ post)) l) d) := by
  obtain ⟨A, z, B, c, cl, leading, pre₀, post₀, rfl, hx, hroot, hre⟩ := Lay.document_root h hr
  by_cases hl : l = []
  · subst hl
    simp only [nodeAt, Option.some.injEq] at hp
    subst hp
    cases hroot with
    | array hroot =>
      obtain ⟨A', z', B', hx', hz', hB, hr'⟩ := Lay.elements_middle hroot rfl hm hpost
      obtain ⟨e, rest, he, B₁, hB₁⟩ := Lay.elements_first hB
      refine ⟨A ++ A', z', pad c ++ B' ++ B, c, by simp [hx, hx'], hz', ⟨B₁ ++ B, by simp [hB₁]⟩, fun mid' z'' hz'' => ?_⟩
      obtain ⟨x', h1, h2⟩ := hr' mid' z'' hz''
      rw [Lay.onTrees_root]
      have := hre _ _ (.array h2)
      rw [h1] at this
      simpa [changeNode] using this
  · obtain ⟨A₁, z₁, B₁, t, nx, c₁, hold, cl₁, a, hx₁, hw, hr₁⟩ := Lay.node_text Lay.root_slots hroot hl hp Lay.array_not_line
    obtain ⟨A', z', B', c', hx', hz', hB, hr'⟩ := Lay.written_elements_middle hw (hpre.resolve_left hl) hm hpost
    obtain ⟨e, rest, he, B₂, hB₂⟩ := Lay.elements_first hB
    refine ⟨A ++ A₁ ++ A', z', pad c' ++ B' ++ B₁ ++ B, c', by simp [hx, hx₁, hx'], hz', ⟨B₂ ++ B₁ ++ B, by simp [hB₂]⟩, fun mid' z'' hz'' => ?_⟩
    rw [Lay.onTrees_root]
    have := hre _ _ (hr₁ (fun _ => .array (pre ++ mid' ++ post)) _ (hr' mid' z'' hz''))
    simpa using this

/-- **C78** Deleting the lines of some entries deletes the entries and their comments. -/
theorem C78_delete_entries (T : CharTables) {d x root l pre mid post} (h : DocumentText T d x) (hr : DocumentData.yaml root ∈ d.items)
    (hp : nodeAt l root = some (.hash (pre ++ mid ++ post))) (hpre : l = [] ∨ ∃ e, HashData.element e ∈ pre) (hm : StartsWithEntry (mid ++ post))
    (hpost : StartsWithEntry post) :
    ∃ A z B c, x = A ++ z ++ B ∧ EntryBlocks T c mid z ∧ parseYamlFile T (A ++ B) = .ok (onTrees (changeNode (fun _ => .hash (pre ++ post)) l) d) := by
  obtain ⟨A, z, B, c, hx, hz, -, hr'⟩ := C78_mapping T h hr hp hpre hm hpost
  exact ⟨A, z, B, c, hx, hz, by simpa using hr' [] [] .nil⟩

theorem C78_delete_elements (T : CharTables) {d x root l pre mid post} (h : DocumentText T d x) (hr : DocumentData.yaml root ∈ d.items)
    (hp : nodeAt l root = some (.array (pre ++ mid ++ post))) (hpre : l = [] ∨ ∃ e, ArrayData.element e ∈ pre) (hm : StartsWithElement (mid ++ post))
    (hpost : StartsWithElement post) :
    ∃ A z B c, x = A ++ z ++ B ∧ ElementBlocks T c mid z ∧ parseYamlFile T (A ++ B) = .ok (onTrees (changeNode (fun _ => .array (pre ++ post)) l) d) := by
  obtain ⟨A, z, B, c, hx, hz, -, hr'⟩ := C78_sequence T h hr hp hpre hm hpost
  exact ⟨A, z, B, c, hx, hz, by simpa using hr' [] [] .nil⟩

/-- **C78** A new line with a key and a value before an entry that is not the first one adds an entry. -/
theorem C78_new_entry (T : CharTables) {d x root l pre k v post} (h : DocumentText T d x) (hr : DocumentData.yaml root ∈ d.items)
    (hp : nodeAt l root = some (.hash (pre ++ .element ⟨k, v⟩ :: post))) (hpre : l = [] ∨ ∃ e, HashData.element e ∈ pre) :
    ∃ A B c, x = A ++ (pad c ++ k ++ B) ∧ ∀ k' y z nl, KeyText T k' → ScalarText T y z → Break nl →
      parseYamlFile T (A ++ (pad c ++ k' ++ ':' :: ' ' :: z ++ nl) ++ (pad c ++ k ++ B)) =
        .ok (onTrees (changeNode (fun _ => .hash (pre ++ .element ⟨k', ⟨none, y⟩⟩ :: .element ⟨k, v⟩ :: post)) l) d) := by
  obtain ⟨A, z, B, c, hx, hz, ⟨e, rest, B', he, rfl⟩, hr'⟩ := C78_mapping T h hr (mid := []) (post := .element ⟨k, v⟩ :: post) (by simpa using hp) hpre ⟨_, _, rfl⟩ ⟨_, _, rfl⟩
  cases he
  have hz : z = [] := by cases hz; rfl
  subst hz
  refine ⟨A, B', c, by simpa using hx, fun k' y z nl hk hs hn => ?_⟩
  have lead : Lead T none [' '] := .plain (n := 0)
  have := hr' _ _ (.cons (n := 0) hk (.value (.scalar lead hs)) (Gap.intro (n := 0) hn .nil .nil (by simp) (by simp [Closing.tight])) .nil)
  simpa [pad] using this

/-- **C78** A new line with a dash and a value before an element that is not the first one adds an element. -/
theorem C78_new_element (T : CharTables) {d x root l pre v post} (h : DocumentText T d x) (hr : DocumentData.yaml root ∈ d.items)
    (hp : nodeAt l root = some (.array (pre ++ .element v :: post))) (hpre : l = [] ∨ ∃ e, ArrayData.element e ∈ pre) :
    ∃ A B c, x = A ++ (pad c ++ '-' :: B) ∧ ∀ y z nl, ScalarText T y z → Break nl →
      parseYamlFile T (A ++ (pad c ++ '-' :: ' ' :: z ++ nl) ++ (pad c ++ '-' :: B)) =
        .ok (onTrees (changeNode (fun _ => .array (pre ++ .element ⟨none, y⟩ :: .element v :: post)) l) d) := by
  obtain ⟨A, z, B, c, hx, hz, ⟨B', rfl⟩, hr'⟩ := C78_sequence T h hr (mid := []) (post := .element v :: post) (by simpa using hp) hpre ⟨_, _, rfl⟩ ⟨_, _, rfl⟩
  have hz : z = [] := by cases hz; rfl
  subst hz
  refine ⟨A, B', c, by simpa using hx, fun y z nl hs hn => ?_⟩
  have lead : Lead T none [' '] := .plain (n := 0)
  have := hr' _ _ (.cons (.value (.scalar lead hs)) (Gap.intro (n := 0) hn .nil .nil (by simp) (by simp [Closing.tight])) .nil)
  simpa [pad] using this

/-- The lines of one entry. -/
theorem Lay.one_entry {c k v z} {ps cs : List Str} (h : EntryBlocks T c (.element ⟨k, v⟩ :: ps.map .inlineComment ++ cs.map .comment) z) :
    ∃ n cl x g, z = pad c ++ k ++ pad n ++ ':' :: x ++ g ∧ KeyText T k ∧ ItemText T (Written T) (some c) (.key c) c .key cl v ps x ∧ Gap cl c cs g := by
  have split : ∀ {ps ps' cs cs' : List Str} {ds : List HashData}, ps.map HashData.inlineComment ++ cs.map .comment = ps'.map .inlineComment ++ (cs'.map .comment ++ ds) →
      (ds = [] ∨ StartsWithEntry ds) → ps' = ps ∧ cs' = cs ∧ ds = [] := by
    intro ps
    induction ps with
    | nil =>
      intro ps' cs cs' ds h hd
      cases ps' with
      | cons p ps' => cases cs <;> simp at h
      | nil =>
        induction cs generalizing cs' with
        | nil => cases cs' <;> simp at h; exact ⟨rfl, rfl, h⟩
        | cons c cs ih =>
          cases cs' with
          | nil =>
            rcases hd with rfl | ⟨e, r, rfl⟩
            · simp at h
            · simp at h
          | cons c' cs' =>
            simp only [List.map_nil, List.map_cons, List.nil_append, List.cons_append, List.cons.injEq, HashData.comment.injEq] at h
            obtain ⟨-, h1, h2⟩ := ih (cs' := cs') (by simpa using h.2)
            exact ⟨rfl, by rw [h.1, h1], h2⟩
    | cons p ps ih =>
      intro ps' cs cs' ds h hd
      cases ps' with
      | nil =>
        cases cs' with
        | nil =>
          rcases hd with rfl | ⟨e, r, rfl⟩
          · simp at h
          · simp at h
        | cons => simp at h
      | cons p' ps' =>
        simp only [List.map_cons, List.cons_append, List.cons.injEq, HashData.inlineComment.injEq] at h
        obtain ⟨h1, h2, h3⟩ := ih h.2 hd
        exact ⟨by rw [h.1, h1], h2, h3⟩
  generalize hm : HashData.element ⟨k, v⟩ :: ps.map .inlineComment ++ cs.map .comment = mid at h
  cases h with
  | nil => simp at hm
  | @cons cl k₀ n v₀ ps' x cs' g ds rest hk hv hg h =>
    simp only [List.cons_append, List.append_assoc, List.cons.injEq, HashData.element.injEq, HashElement.mk.injEq] at hm
    obtain ⟨⟨rfl, rfl⟩, hm⟩ := hm
    obtain ⟨rfl, rfl, rfl⟩ := split hm (by
      cases h with
      | nil => exact .inl rfl
      | cons => exact .inr ⟨_, _, rfl⟩)
    have : rest = [] := by
      generalize he : ([] : List HashData) = ds at h
      cases h with
      | nil => rfl
      | cons => simp at he
    subst this
    exact ⟨n, cl, x, g, by simp, hk, hv, hg⟩

/-- **C77** A comment after a value on its line, for an entry of a block mapping that is not the last one. Spaces at the end of the line are replaced. -/
theorem C77_add_on_line (T : CharTables) {d x root l pre k a y post} {cs : List Str} (h : DocumentText T d x) (hr : DocumentData.yaml root ∈ d.items)
    (hp : nodeAt l root = some (.hash (pre ++ .element ⟨k, ⟨a, y⟩⟩ :: cs.map .comment ++ post))) (hpre : l = [] ∨ ∃ e, HashData.element e ∈ pre) (hy : OnLine y)
    (hpost : StartsWithEntry post) :
    ∃ A z n nl B, x = A ++ z ++ pad n ++ nl ++ B ∧ ScalarText T y z ∧ Break nl ∧ ∀ m c, LineText c → parseYamlFile T (A ++ z ++ pad (m + 1) ++ '#' :: c ++ nl ++ B) =
      .ok (onTrees (changeNode (fun _ => .hash (pre ++ .element ⟨k, ⟨a, y⟩⟩ :: .inlineComment c :: cs.map .comment ++ post)) l) d) := by
  obtain ⟨A, z, B, c, rfl, hz, -, hre⟩ := C78_mapping T h hr (mid := .element ⟨k, ⟨a, y⟩⟩ :: cs.map .comment) (by simpa using hp) hpre ⟨_, _, rfl⟩ hpost
  obtain ⟨n, cl, x, g, rfl, hk, hv, hg⟩ := Lay.one_entry (ps := []) (by simpa using hz)
  cases hv with
  | value hv =>
    obtain ⟨lead, u, rfl, hcl, ha, hu⟩ : ∃ lead u, x = lead ++ u ∧ cl = .loose ∧ Lead T a lead ∧ ScalarText T y u := by
      cases hv with
      | scalar ha hu => exact ⟨_, _, rfl, rfl, ha, hu⟩
      | literal => exact absurd rfl (hy.2.2.1 _ _)
      | folded => exact absurd rfl (hy.2.2.2 _ _)
      | hash => exact absurd rfl (hy.1 _)
      | innerOne => exact absurd rfl (hy.1 _)
      | innerMore => exact absurd rfl (hy.1 _)
      | array => exact absurd rfl (hy.2.1 _)
      | innerElement => exact absurd rfl (hy.2.1 _)
      | innerElements => exact absurd rfl (hy.2.1 _)
    subst hcl
    cases hg with
    | @intro j nl b _ x hn hb hcs _ _ =>
      refine ⟨A ++ pad c ++ k ++ pad n ++ ':' :: lead, u, j, nl, b ++ x ++ B, by simp, hu, hn, fun m co hco => ?_⟩
      have := hre _ _ (.cons (n := n) hk (.comment (n := m) ha hu hco) (Gap.intro (n := 0) hn hb hcs (by simp) (by simp [Closing.tight])) .nil)
      simpa [pad] using this

/-- **C77** The comment after a value on its line can be deleted. -/
theorem C77_delete_on_line (T : CharTables) {d x root l pre k v c post} {cs : List Str} (h : DocumentText T d x) (hr : DocumentData.yaml root ∈ d.items)
    (hp : nodeAt l root = some (.hash (pre ++ .element ⟨k, v⟩ :: .inlineComment c :: cs.map .comment ++ post))) (hpre : l = [] ∨ ∃ e, HashData.element e ∈ pre)
    (hpost : StartsWithEntry post) :
    ∃ A n nl B, x = A ++ pad (n + 1) ++ '#' :: c ++ nl ++ B ∧ Break nl ∧ ∀ m, parseYamlFile T (A ++ pad m ++ nl ++ B) =
      .ok (onTrees (changeNode (fun _ => .hash (pre ++ .element ⟨k, v⟩ :: cs.map .comment ++ post)) l) d) := by
  obtain ⟨A, z, B, col, rfl, hz, -, hre⟩ := C78_mapping T h hr (mid := .element ⟨k, v⟩ :: .inlineComment c :: cs.map .comment) (by simpa using hp) hpre ⟨_, _, rfl⟩ hpost
  obtain ⟨n, cl, x, g, rfl, hk, hv, hg⟩ := Lay.one_entry (ps := [c]) (by simpa using hz)
  cases hv with
  | @comment _ _ _ _ a y lead u j _ ha hu hc =>
    cases hg with
    | @intro i nl b _ x hn hb hcs hcl _ =>
      obtain rfl : i = 0 := hcl (by simp)
      refine ⟨A ++ pad col ++ k ++ pad n ++ ':' :: lead ++ u, j, nl, b ++ x ++ B, by simp [pad], hn, fun m => ?_⟩
      have := hre _ _ (.cons (n := n) (post := []) hk (.value (.scalar ha hu)) (Gap.intro (n := m) hn hb hcs (by simp) (by simp [Closing.tight])) .nil)
      simpa using this

/-- **C78** Swapping the lines of two groups of entries, one after the other, swaps the entries. -/
theorem C78_swap_entries (T : CharTables) {d x root l pre one two post} (h : DocumentText T d x) (hr : DocumentData.yaml root ∈ d.items)
    (hp : nodeAt l root = some (.hash (pre ++ (one ++ two) ++ post))) (hpre : l = [] ∨ ∃ e, HashData.element e ∈ pre) (h1 : StartsWithEntry one) (h2 : StartsWithEntry two)
    (hpost : StartsWithEntry post) :
    ∃ A z₁ z₂ B c, x = A ++ z₁ ++ z₂ ++ B ∧ EntryBlocks T c one z₁ ∧ EntryBlocks T c two z₂ ∧
      parseYamlFile T (A ++ z₂ ++ z₁ ++ B) = .ok (onTrees (changeNode (fun _ => .hash (pre ++ (two ++ one) ++ post)) l) d) := by
  obtain ⟨A, z, B, c, hx, hz, -, hr'⟩ := C78_mapping T h hr hp hpre (by obtain ⟨e, r, rfl⟩ := h1; exact ⟨e, _, rfl⟩) hpost
  obtain ⟨z₁, z₂, rfl, hz₁, hz₂⟩ := Lay.entryBlocks_split hz rfl h2
  refine ⟨A, z₁, z₂, B, c, by simp [hx], hz₁, hz₂, ?_⟩
  have := hr' _ _ (Lay.entryBlocks_append hz₂ hz₁)
  simpa using this

theorem C78_swap_elements (T : CharTables) {d x root l pre one two post} (h : DocumentText T d x) (hr : DocumentData.yaml root ∈ d.items)
    (hp : nodeAt l root = some (.array (pre ++ (one ++ two) ++ post))) (hpre : l = [] ∨ ∃ e, ArrayData.element e ∈ pre) (h1 : StartsWithElement one)
    (h2 : StartsWithElement two) (hpost : StartsWithElement post) :
    ∃ A z₁ z₂ B c, x = A ++ z₁ ++ z₂ ++ B ∧ ElementBlocks T c one z₁ ∧ ElementBlocks T c two z₂ ∧
      parseYamlFile T (A ++ z₂ ++ z₁ ++ B) = .ok (onTrees (changeNode (fun _ => .array (pre ++ (two ++ one) ++ post)) l) d) := by
  obtain ⟨A, z, B, c, hx, hz, -, hr'⟩ := C78_sequence T h hr hp hpre (by obtain ⟨e, r, rfl⟩ := h1; exact ⟨e, _, rfl⟩) hpost
  obtain ⟨z₁, z₂, rfl, hz₁, hz₂⟩ := Lay.elementBlocks_split hz rfl h2
  refine ⟨A, z₁, z₂, B, c, by simp [hx], hz₁, hz₂, ?_⟩
  have := hr' _ _ (Lay.elementBlocks_append hz₂ hz₁)
  simpa using this

/-- **C78** If a path addresses one mapping only, then deleting the lines of the entry with its last key does the same as removing at the path; the entry is not the
first one of its mapping (or the mapping is the root) and another entry follows, with no comment between them. -/
theorem C78_remove (T : CharTables) {d x root path k l ds pre v post} (h : DocumentText T d x) (hr : DocumentData.yaml root ∈ d.items) (hn : NoRepeats path)
    (hk : lastKey path = some k) (ha : Addresses path root l k ds) (hu : ∀ l' ds', Addresses path root l' k ds' → l' = l) (hf : FirstEntry k ds pre v post)
    (hpre : l = [] ∨ ∃ e, HashData.element e ∈ pre) (hpost : StartsWithEntry post) :
    ∃ A z B c, x = A ++ z ++ B ∧ EntryBlocks T c [.element ⟨k, v⟩] z ∧ parseYamlFile T (A ++ B) = .ok (d.removeFromHash path).2 := by
  have hnode := addresses_node ha (root_parsed h hr)
  obtain ⟨A, z, B, c, hx, hz, hre⟩ := C78_delete_entries T h hr (mid := [.element ⟨k, v⟩]) (by rw [hnode, hf.1]; simp) hpre ⟨_, _, rfl⟩ hpost
  refine ⟨A, z, B, c, hx, hz, ?_⟩
  rw [hre]
  obtain ⟨_, _, _, _, _, leading, pre', post', rfl, -⟩ := Lay.document_root h hr
  rw [Lay.onTrees_root, Document.removeFromHash, overItems_root]
  have hloc := editHash_located Removes (fun k ds => k ∈ keysOf ds) _ (fun data k => removeClosure_app data k) path k hk hn root
  have hmem : k ∈ keysOf ds := by rw [hf.1]; simp [keysOf, List.filterMap_append]
  obtain ⟨ds', h1, h2⟩ := editsAt_one hloc (fun l' => ⟨fun ⟨ds', h', _⟩ => hu l' ds' h', fun he => ⟨ds, he ▸ ha, hmem⟩⟩) hnode
  have h3 : ds' = pre ++ post := by
    obtain ⟨pre₂, v₂, post₂, hf₂, rfl⟩ := h1
    obtain ⟨rfl, rfl, rfl⟩ := firstEntry_unique hf hf₂
    rfl
  have h4 : (Yaml.removeFromHash path root).2 = changeNode (fun _ => .hash (pre ++ post)) l root := by
    rw [Yaml.removeFromHash, h2]
    refine changeNode_congr hnode ?_
    rw [h3]
  rw [h4]

/-! ## a text that meets the hypotheses -/

example : ∃ A z B c, layoutText = A ++ z ++ B ∧ EntryBlocks asciiTables c [kv c!"b" (.array layoutList)] z ∧
    parseYamlFile asciiTables (A ++ B) = .ok (layoutDocument.removeFromHash (.key c!"b" [] none)).2 :=
  C78_remove asciiTables layoutText_shows layoutRoot_mem (path := .key c!"b" [] none) (by simp [NoRepeats]) rfl (.here (ds := layoutRoot) (by simp [Fits]))
    (fun l' ds' h => by cases h; rfl) (pre := [kv c!"a" (.unquotedString c!"1")]) (v := ⟨none, .array layoutList⟩)
    (post := [kv c!"c" (.literalString [c!"one", c!"", c!" two"] .keep)]) ⟨rfl, by decide⟩ (.inl rfl) ⟨_, _, rfl⟩

example : ∃ A z₁ z₂ B c, layoutText = A ++ z₁ ++ z₂ ++ B ∧ EntryBlocks asciiTables c [kv c!"a" (.unquotedString c!"1")] z₁ ∧
    EntryBlocks asciiTables c [kv c!"b" (.array layoutList)] z₂ ∧ parseYamlFile asciiTables (A ++ z₂ ++ z₁ ++ B) = .ok (onTrees (changeNode (fun _ => .hash
      [kv c!"b" (.array layoutList), kv c!"a" (.unquotedString c!"1"), kv c!"c" (.literalString [c!"one", c!"", c!" two"] .keep)]) []) layoutDocument) :=
  C78_swap_entries asciiTables layoutText_shows layoutRoot_mem (l := []) (pre := []) rfl (.inl rfl) ⟨_, _, rfl⟩ ⟨_, _, rfl⟩
    (post := [kv c!"c" (.literalString [c!"one", c!"", c!" two"] .keep)]) ⟨_, _, rfl⟩

/-- A line before `b[0].l`, which is two lines after the line with the dash. -/
example : ∃ A B c, layoutText = A ++ (pad c ++ c!"l" ++ B) ∧ ∀ k' y z nl, KeyText asciiTables k' → ScalarText asciiTables y z → Break nl → ∃ d,
    parseYamlFile asciiTables (A ++ (pad c ++ k' ++ ':' :: ' ' :: z ++ nl) ++ (pad c ++ c!"l" ++ B)) = .ok d := by
  obtain ⟨A, B, c, hx, h⟩ := C78_new_entry asciiTables layoutText_shows layoutRoot_mem (l := [1, 2])
    (pre := [kv c!"k" (.inlineArray [.unquotedString c!"1", .unquotedString c!"2"]), .inlineComment c!" e"]) (k := c!"l")
    (v := ⟨none, .singleQuotedString [.string c!"q"]⟩) (post := []) rfl (.inr ⟨_, List.mem_cons_self ..⟩)
  exact ⟨A, B, c, hx, fun k' y z nl hk hs hn => ⟨_, h k' y z nl hk hs hn⟩⟩

/-- The second element of `b[1]` and the comment after it are deleted. -/
example : ∃ A z B c, layoutText = A ++ z ++ B ∧ ElementBlocks asciiTables c [elem (.doubleQuotedString [.string c!"y"]), .comment c!" c"] z ∧
    parseYamlFile asciiTables (A ++ B) = .ok (onTrees (changeNode (fun _ => .array [.element ⟨some c!"n", .unquotedString c!"x"⟩, elem (.unquotedString c!"z")]) [1, 3]) layoutDocument) :=
  C78_delete_elements asciiTables layoutText_shows layoutRoot_mem (l := [1, 3]) (pre := [.element ⟨some c!"n", .unquotedString c!"x"⟩])
    (mid := [elem (.doubleQuotedString [.string c!"y"]), .comment c!" c"]) (post := [elem (.unquotedString c!"z")]) rfl (.inr ⟨_, List.mem_cons_self ..⟩) ⟨_, _, rfl⟩ ⟨_, _, rfl⟩

example : ∃ A B c, layoutText = A ++ (pad c ++ '-' :: B) ∧ ∀ y z nl, ScalarText asciiTables y z → Break nl → ∃ d,
    parseYamlFile asciiTables (A ++ (pad c ++ '-' :: ' ' :: z ++ nl) ++ (pad c ++ '-' :: B)) = .ok d := by
  obtain ⟨A, B, c, hx, h⟩ := C78_new_element asciiTables layoutText_shows layoutRoot_mem (l := [1, 3]) (pre := [.element ⟨some c!"n", .unquotedString c!"x"⟩])
    (v := ⟨none, .doubleQuotedString [.string c!"y"]⟩) (post := [.comment c!" c", elem (.unquotedString c!"z")]) rfl (.inr ⟨_, List.mem_cons_self ..⟩)
  exact ⟨A, B, c, hx, fun y z nl hs hn => ⟨_, h y z nl hs hn⟩⟩

/-- A comment on the line of `a`, in place of the spaces at its end. -/
example : ∃ A z n nl B, layoutText = A ++ z ++ pad n ++ nl ++ B ∧ ScalarText asciiTables (.unquotedString c!"1") z ∧ Break nl ∧ ∀ m c, LineText c →
    parseYamlFile asciiTables (A ++ z ++ pad (m + 1) ++ '#' :: c ++ nl ++ B) = .ok (onTrees (changeNode (fun _ => .hash
      [kv c!"a" (.unquotedString c!"1"), .inlineComment c, kv c!"b" (.array layoutList), kv c!"c" (.literalString [c!"one", c!"", c!" two"] .keep)]) []) layoutDocument) :=
  C77_add_on_line asciiTables layoutText_shows layoutRoot_mem (l := []) (pre := []) (k := c!"a") (a := none) (y := .unquotedString c!"1") (cs := [])
    (post := [kv c!"b" (.array layoutList), kv c!"c" (.literalString [c!"one", c!"", c!" two"] .keep)]) rfl (.inl rfl) ⟨nofun, nofun, nofun, nofun⟩ ⟨_, _, rfl⟩

/-- A text with a comment on the line of its first entry. -/
example : parseYamlFile asciiTables c!"---\na: 1 # one\nb: 2\n" = .ok (docOf (.hash [kv c!"a" (.unquotedString c!"1"), .inlineComment c!" one", kv c!"b" (.unquotedString c!"2")])) ∧
    parseYamlFile asciiTables c!"---\na: 1  \nb: 2\n" = .ok (docOf (.hash [kv c!"a" (.unquotedString c!"1"), kv c!"b" (.unquotedString c!"2")])) :=
  ⟨by kernel_rfl, by kernel_rfl⟩

/-- The first line of an inner mapping cannot be swapped with the next one: its lines are not lines of their own. -/
example : parseYamlFile asciiTables c!"---\n- a: 1\n  b: 2\n" = .ok (docOf (.array [elem (.hash [kv c!"a" (.unquotedString c!"1"), kv c!"b" (.unquotedString c!"2")])])) ∧
    ∀ d, parseYamlFile asciiTables c!"---\n  b: 2\n- a: 1\n" ≠ .ok d := by
  refine ⟨by kernel_rfl, fun d h => ?_⟩
  have : parseYamlFile asciiTables c!"---\n  b: 2\n- a: 1\n" = .err := by kernel_rfl
  rw [this] at h
  cases h

end YamlSubset
