import Verif.Lemmas.CommentPlace
import Verif.Props.Place
import Verif.Props.De

/-! # C77: comments can be edited in the text, wherever they are

A text shows a document in any layout. Every comment among the items of its block collections, at any depth, is shown by one part of the text after a `#`; this part
can be replaced by any other line. A comment line can be added before an entry of a mapping that is not the first one, with any indentation up to the one of the
entry; in a sequence, before an element after the first two. The document that is read differs only in this comment, and what it is deserialized to does not change. -/

namespace YamlSubset

open Spec

variable {T : CharTables}

namespace Lay

theorem commentAt_cases {i : Nat} {y : Yaml} {cm : Str} (h : commentAt i y = some cm) :
    (∃ ds b, y = .hash ds ∧ ds[i]? = some (hashComment b cm)) ∨ ∃ ds b, y = .array ds ∧ ds[i]? = some (arrayComment b cm) := by
  cases y with
  | hash ds =>
    simp only [commentAt] at h
    split at h
    · rename_i c he; cases h; exact .inl ⟨ds, false, rfl, he⟩
    · rename_i c he; cases h; exact .inl ⟨ds, true, rfl, he⟩
    · cases h
  | array ds =>
    simp only [commentAt] at h
    split at h
    · rename_i c he; cases h; exact .inr ⟨ds, false, rfl, he⟩
    · rename_i c he; cases h; exact .inr ⟨ds, true, rfl, he⟩
    · cases h
  | _ => cases h

theorem setComment_hash {i : Nat} {ds : List HashData} {b : Bool} {cm : Str} (h : ds[i]? = some (hashComment b cm)) (cm' : Str) :
    setComment i cm' (.hash ds) = .hash (ds.take i ++ hashComment b cm' :: ds.drop (i + 1)) := by
  cases b <;> (simp only [hashComment] at h ⊢; simp only [setComment, h, (at_index h).2])

theorem setComment_array {i : Nat} {ds : List ArrayData} {b : Bool} {cm : Str} (h : ds[i]? = some (arrayComment b cm)) (cm' : Str) :
    setComment i cm' (.array ds) = .array (ds.take i ++ arrayComment b cm' :: ds.drop (i + 1)) := by
  cases b <;> (simp only [arrayComment] at h ⊢; simp only [setComment, h, (at_index h).2])

theorem written_comment {t next s hold cl a y x i cm} (h : Written T t next s hold cl ⟨a, y⟩ x) (hc : commentAt i y = some cm) :
    ∃ A B, x = A ++ '#' :: cm ++ B ∧ ∀ cm', LineText cm' → Written T t next s hold cl ⟨a, setComment i cm' y⟩ (A ++ '#' :: cm' ++ B) := by
  rcases commentAt_cases hc with ⟨ds, b, rfl, hi⟩ | ⟨ds, b, rfl, hi⟩
  · rw [(at_index hi).1] at h
    obtain ⟨A, B, hx, hr⟩ := written_hash_comment h
    exact ⟨A, B, hx, fun cm' hc' => by rw [setComment_hash hi]; exact hr cm' hc'⟩
  · rw [(at_index hi).1] at h
    obtain ⟨A, B, hx, hr⟩ := written_array_comment h
    exact ⟨A, B, hx, fun cm' hc' => by rw [setComment_array hi]; exact hr cm' hc'⟩

theorem root_comment {c cl y x i cm} (h : RootText T c cl y x) (hc : commentAt i y = some cm) :
    ∃ A B, x = A ++ '#' :: cm ++ B ∧ ∀ cm', LineText cm' → RootText T c cl (setComment i cm' y) (A ++ '#' :: cm' ++ B) := by
  rcases commentAt_cases hc with ⟨ds, b, rfl, hi⟩ | ⟨ds, b, rfl, hi⟩
  · cases h with
    | hash h =>
      obtain ⟨A, B, hx, hr⟩ := entries_comment h (at_index hi).1
      exact ⟨pad c ++ A, B, by simp [hx], fun cm' hc' => by rw [setComment_hash hi]; simpa using RootText.hash (hr cm' hc')⟩
  · cases h with
    | array h =>
      obtain ⟨A, B, hx, hr⟩ := elements_comment h (at_index hi).1
      exact ⟨pad c ++ A, B, by simp [hx], fun cm' hc' => by rw [setComment_array hi]; simpa using RootText.array (hr cm' hc')⟩

theorem leading_slot {cs x} (h : LeadingText cs x) {cs₁ cm cs₂} (hd : cs = cs₁ ++ cm :: cs₂) :
    ∃ A B, x = A ++ '#' :: cm ++ B ∧ ∀ cm', LineText cm' → LeadingText (cs₁ ++ cm' :: cs₂) (A ++ '#' :: cm' ++ B) := by
  cases h with
  | nil => simp at hd
  | @comments b _ x hb hne h =>
    obtain ⟨A, B, rfl, hr⟩ := comments_slot h hd
    exact ⟨b ++ A, B, by simp, fun cm' hc => by simpa using LeadingText.comments hb (by simp) (hr cm' hc).1⟩

theorem tail_slot {cl c cs x} (h : Tail cl c cs x) {cs₁ cm cs₂} (hd : cs = cs₁ ++ cm :: cs₂) :
    ∃ A B, x = A ++ '#' :: cm ++ B ∧ ∀ cm', LineText cm' → Tail cl c (cs₁ ++ cm' :: cs₂) (A ++ '#' :: cm' ++ B) := by
  cases h with
  | spaces => simp at hd
  | nil => simp at hd
  | @lines _ _ _ g n hg hn =>
    obtain ⟨A, B, rfl, hr⟩ := gap_slot hg hd
    exact ⟨A, B ++ pad n, by simp, fun cm' hc => by simpa using Tail.lines (n := n) (hr cm' hc) (fun _ h => by simp at h)⟩
  | @comment _ _ cs g n d hg hn hdt =>
    rcases split_append hd with ⟨post', rfl, rfl⟩ | ⟨pre', rfl, h2⟩
    · obtain ⟨A, B, rfl, hr⟩ := gap_slot hg rfl
      exact ⟨A, B ++ pad n ++ '#' :: d, by simp, fun cm' hc => by simpa using Tail.comment (n := n) (hr cm' hc) (fun _ h => by simp at h) hdt⟩
    · have h2 : pre' = [] ∧ d = cm ∧ cs₂ = [] := by
        cases pre' with
        | nil => simpa [eq_comm] using h2
        | cons e pre' => simp at h2
      obtain ⟨rfl, rfl, rfl⟩ := h2
      exact ⟨g ++ pad n, [], by simp, fun cm' hc => by simpa using Tail.comment (n := n) hg hn hc⟩

theorem hash_not_line {ds} (t : Str) : ¬ ScalarText T (.hash ds) t := by
  intro h; cases h with | flow _ h => nomatch h

theorem array_not_line {ds} (t : Str) : ¬ ScalarText T (.array ds) t := by
  intro h; cases h with | flow _ h => nomatch h

end Lay

/-- **C77** The text of a comment among the items of a block collection, at any depth, can be replaced by any other line. -/
theorem C77_replace (T : CharTables) {d x root l p i cm} (h : DocumentText T d x) (hr : DocumentData.yaml root ∈ d.items) (hp : nodeAt l root = some p)
    (hc : commentAt i p = some cm) :
    ∃ A B, x = A ++ '#' :: cm ++ B ∧
      ∀ cm', LineText cm' → parseYamlFile T (A ++ '#' :: cm' ++ B) = .ok (onTrees (changeNode (setComment i cm') l) d) := by
  obtain ⟨A, z, B, c, cl, leading, pre, post, rfl, hx, hroot, hre⟩ := Lay.document_root h hr
  by_cases hl : l = []
  · subst hl
    simp only [nodeAt, Option.some.injEq] at hp
    subst hp
    obtain ⟨A', B', hx', hr'⟩ := Lay.root_comment hroot hc
    refine ⟨A ++ A', B' ++ B, by simp [hx, hx'], fun cm' hc' => ?_⟩
    rw [Lay.onTrees_root]
    have := hre _ _ (hr' cm' hc')
    simpa [changeNode] using this
  · have hb : ∀ t, ¬ ScalarText T p t := by
      rcases Lay.commentAt_cases hc with ⟨ds, b, rfl, hi⟩ | ⟨ds, b, rfl, hi⟩
      · exact Lay.hash_not_line
      · exact Lay.array_not_line
    obtain ⟨A₁, z₁, B₁, t, nx, c₁, hold, cl₁, a, hx₁, hw, hr₁⟩ := Lay.node_text Lay.root_slots hroot hl hp hb
    obtain ⟨A', B', hx', hr'⟩ := Lay.written_comment hw hc
    refine ⟨A ++ A₁ ++ A', B' ++ B₁ ++ B, by simp [hx, hx₁, hx'], fun cm' hc' => ?_⟩
    rw [Lay.onTrees_root]
    have := hre _ _ (hr₁ (setComment i cm') _ (hr' cm' hc'))
    simpa using this

/-- **C77** A comment line before an entry of a block mapping, at any depth, that is not the first entry: with any indentation up to the one of the entry. -/
theorem C77_add_in_mapping (T : CharTables) {d x root l ds i k v} (h : DocumentText T d x) (hr : DocumentData.yaml root ∈ d.items) (hp : nodeAt l root = some (.hash ds))
    (hi : ds[i]? = some (.element ⟨k, v⟩)) (he : ∃ e, HashData.element e ∈ ds.take i) :
    ∃ A c B, x = A ++ '\n' :: (pad c ++ k ++ B) ∧ ∀ m cm nl, m ≤ c → LineText cm → Break nl →
      parseYamlFile T (A ++ '\n' :: (pad m ++ '#' :: cm ++ nl) ++ (pad c ++ k ++ B)) = .ok (onTrees (changeNode (addComment i cm) l) d) := by
  obtain ⟨A, z, B, c, cl, leading, pre, post, rfl, hx, hroot, hre⟩ := Lay.document_root h hr
  have hadd : ∀ cm, addComment i cm (.hash ds) = .hash (ds.take i ++ .comment cm :: .element ⟨k, v⟩ :: ds.drop (i + 1)) := by
    intro cm
    obtain ⟨hlt, hel⟩ := List.getElem?_eq_some_iff.1 hi
    simp only [addComment, ← hel, List.getElem_cons_drop]
  by_cases hl : l = []
  · subst hl
    simp only [nodeAt, Option.some.injEq] at hp
    subst hp
    cases hroot with
    | hash hroot =>
      obtain ⟨e, he⟩ := he
      obtain ⟨A', B', hx', hr'⟩ := Lay.entries_add hroot (Lay.at_index hi).1 (by intro h; rw [h] at he; cases he)
      refine ⟨A ++ pad c ++ A', c, B' ++ B, by simp [hx, hx'], fun m cm nl hm hc hnl => ?_⟩
      rw [Lay.onTrees_root]
      have := hre _ _ (.hash (hr' m cm nl hm hc hnl))
      simpa [changeNode, hadd] using this
  · obtain ⟨A₁, z₁, B₁, t, nx, c₁, hold, cl₁, a, hx₁, hw, hr₁⟩ := Lay.node_text Lay.root_slots hroot hl hp Lay.hash_not_line
    rw [(Lay.at_index hi).1] at hw
    obtain ⟨A', c', B', hx', hr'⟩ := Lay.written_hash_add hw he
    refine ⟨A ++ A₁ ++ A', c', B' ++ B₁ ++ B, by simp [hx, hx₁, hx'], fun m cm nl hm hc hnl => ?_⟩
    rw [Lay.onTrees_root]
    have h1 := hr' m cm nl hm hc hnl
    rw [← hadd] at h1
    have := hre _ _ (hr₁ (addComment i cm) _ h1)
    simpa using this

/-- **C77** The same in a block sequence, before an element after the first two. -/
theorem C77_add_in_sequence (T : CharTables) {d x root l ds i v} (h : DocumentText T d x) (hr : DocumentData.yaml root ∈ d.items) (hp : nodeAt l root = some (.array ds))
    (hi : ds[i]? = some (.element v)) (he : 2 ≤ elementCount (ds.take i)) :
    ∃ A c B, x = A ++ '\n' :: (pad c ++ '-' :: B) ∧ ∀ m cm nl, m ≤ c → LineText cm → Break nl →
      parseYamlFile T (A ++ '\n' :: (pad m ++ '#' :: cm ++ nl) ++ (pad c ++ '-' :: B)) = .ok (onTrees (changeNode (addComment i cm) l) d) := by
  obtain ⟨A, z, B, c, cl, leading, pre, post, rfl, hx, hroot, hre⟩ := Lay.document_root h hr
  have hadd : ∀ cm, addComment i cm (.array ds) = .array (ds.take i ++ .comment cm :: .element v :: ds.drop (i + 1)) := by
    intro cm
    obtain ⟨hlt, hel⟩ := List.getElem?_eq_some_iff.1 hi
    simp only [addComment, ← hel, List.getElem_cons_drop]
  by_cases hl : l = []
  · subst hl
    simp only [nodeAt, Option.some.injEq] at hp
    subst hp
    cases hroot with
    | array hroot =>
      obtain ⟨A', B', hx', hr'⟩ := Lay.elements_add hroot (Lay.at_index hi).1 (by intro h; rw [h] at he; simp [elementCount] at he)
      refine ⟨A ++ pad c ++ A', c, B' ++ B, by simp [hx, hx'], fun m cm nl hm hc hnl => ?_⟩
      rw [Lay.onTrees_root]
      have := hre _ _ (.array (hr' m cm nl hm hc hnl))
      simpa [changeNode, hadd] using this
  · obtain ⟨A₁, z₁, B₁, t, nx, c₁, hold, cl₁, a, hx₁, hw, hr₁⟩ := Lay.node_text Lay.root_slots hroot hl hp Lay.array_not_line
    rw [(Lay.at_index hi).1] at hw
    obtain ⟨A', c', B', hx', hr'⟩ := Lay.written_array_add hw he
    refine ⟨A ++ A₁ ++ A', c', B' ++ B₁ ++ B, by simp [hx, hx₁, hx'], fun m cm nl hm hc hnl => ?_⟩
    rw [Lay.onTrees_root]
    have h1 := hr' m cm nl hm hc hnl
    rw [← hadd] at h1
    have := hre _ _ (hr₁ (addComment i cm) _ h1)
    simpa using this

/-- **C77** The text of a comment before or after the tree can be replaced by any other line. -/
theorem C77_replace_outside (T : CharTables) {d x before cm after} (h : DocumentText T d x) (hd : d.items = before ++ .comment cm :: after) :
    ∃ A B, x = A ++ '#' :: cm ++ B ∧
      ∀ cm', LineText cm' → parseYamlFile T (A ++ '#' :: cm' ++ B) = .ok ⟨d.leadingComments, before ++ .comment cm' :: after⟩ := by
  cases h with
  | @intro leading pre post y c cl lead n nl b preText rootText tail hl hn hb hp hroot ht =>
    simp only at hd ⊢
    have hd : pre.map DocumentData.comment ++ ([.yaml y] ++ post.map .comment) = before ++ .comment cm :: after := by simpa using hd
    rcases Lay.split_append hd with ⟨after', h1, rfl⟩ | ⟨before', rfl, h2⟩
    · obtain ⟨p₁, e, p₂, rfl, rfl, he, rfl⟩ := Lay.split_map h1
      cases he
      obtain ⟨A, B, rfl, hr⟩ := Lay.comments_slot hp rfl
      refine ⟨lead ++ ['-', '-', '-'] ++ pad n ++ nl ++ b ++ A, B ++ rootText ++ tail, by simp, fun cm' hc => ?_⟩
      have := C53_every_layout_parses T _ _ (.intro (n := n) hl hn hb (hr cm' hc).1 hroot ht)
      simpa using this
    rcases Lay.split_append h2 with ⟨after', h1, rfl⟩ | ⟨before'', hb', h3⟩
    · have : DocumentData.comment cm ∈ [DocumentData.yaml y] := by rw [h1]; simp
      simp at this
    · subst hb'
      obtain ⟨p₁, e, p₂, rfl, rfl, he, rfl⟩ := Lay.split_map h3
      cases he
      obtain ⟨A, B, hx, hr⟩ := Lay.tail_slot ht rfl
      refine ⟨lead ++ ['-', '-', '-'] ++ pad n ++ nl ++ b ++ preText ++ rootText ++ A, B, by simp [hx], fun cm' hc => ?_⟩
      have := C53_every_layout_parses T _ _ (.intro (n := n) hl hn hb hp hroot (hr cm' hc))
      simpa using this

/-- **C77** The same for a comment before the header. -/
theorem C77_replace_leading (T : CharTables) {d x before cm after} (h : DocumentText T d x) (hd : d.leadingComments = before ++ cm :: after) :
    ∃ A B, x = A ++ '#' :: cm ++ B ∧
      ∀ cm', LineText cm' → parseYamlFile T (A ++ '#' :: cm' ++ B) = .ok ⟨before ++ cm' :: after, d.items⟩ := by
  cases h with
  | @intro leading pre post y c cl lead n nl b preText rootText tail hl hn hb hp hroot ht =>
    simp only at hd ⊢
    subst hd
    obtain ⟨A, B, rfl, hr⟩ := Lay.leading_slot hl rfl
    refine ⟨A, B ++ ['-', '-', '-'] ++ pad n ++ nl ++ b ++ preText ++ rootText ++ tail, by simp, fun cm' hc => ?_⟩
    have := C53_every_layout_parses T _ _ (.intro (n := n) (hr cm' hc) hn hb hp hroot ht)
    simpa using this

/-! ## what is deserialized -/

theorem stripHash_append (a b : List HashData) : stripHash (a ++ b) = stripHash a ++ stripHash b := by
  induction a with
  | nil => simp [stripHash]
  | cons d a ih =>
    match d with
    | .element ⟨k, ⟨n, v⟩⟩ => simp [stripHash, ih]
    | .comment _ => simp [stripHash, ih]
    | .inlineComment _ => simp [stripHash, ih]

theorem stripArray_append (a b : List ArrayData) : stripArray (a ++ b) = stripArray a ++ stripArray b := by
  induction a with
  | nil => simp [stripArray]
  | cons d a ih =>
    match d with
    | .element ⟨n, v⟩ => simp [stripArray, ih]
    | .comment _ => simp [stripArray, ih]
    | .inlineComment _ => simp [stripArray, ih]

theorem strip_addComment (i : Nat) (cm : Str) (y : Yaml) : stripComments (addComment i cm y) = stripComments y := by
  cases y with
  | hash ds =>
    simp only [addComment, stripComments, stripHash_append, stripHash]
    rw [← stripHash_append, List.take_append_drop]
  | array ds =>
    simp only [addComment, stripComments, stripArray_append, stripArray]
    rw [← stripArray_append, List.take_append_drop]
  | _ => rfl

theorem strip_setComment (i : Nat) (cm : Str) (y : Yaml) : stripComments (setComment i cm y) = stripComments y := by
  cases y with
  | hash ds =>
    simp only [setComment]
    split
    · rename_i c h
      simp only [stripComments]
      rw [(Lay.at_index h).2]
      conv => rhs; rw [(Lay.at_index h).1]
      simp [stripHash_append, stripHash]
    · rename_i c h
      simp only [stripComments]
      rw [(Lay.at_index h).2]
      conv => rhs; rw [(Lay.at_index h).1]
      simp [stripHash_append, stripHash]
    · rfl
  | array ds =>
    simp only [setComment]
    split
    · rename_i c h
      simp only [stripComments]
      rw [(Lay.at_index h).2]
      conv => rhs; rw [(Lay.at_index h).1]
      simp [stripArray_append, stripArray]
    · rename_i c h
      simp only [stripComments]
      rw [(Lay.at_index h).2]
      conv => rhs; rw [(Lay.at_index h).1]
      simp [stripArray_append, stripArray]
    · rfl
  | _ => rfl

theorem strip_changeNode (f : Yaml → Yaml) (hf : ∀ y, stripComments (f y) = stripComments y) : ∀ (l : Loc) (y : Yaml), stripComments (changeNode f l y) = stripComments y := by
  intro l
  induction l with
  | nil => exact hf
  | cons i l ih =>
    intro y
    simp only [changeNode]
    split
    · rename_i w hw
      obtain ⟨a, w⟩ := w
      rcases Lay.childAt_cases hw with ⟨ds, k, rfl, h⟩ | ⟨ds, rfl, h⟩
      · simp only [setChild, h, stripComments]
        rw [(Lay.at_index h).2]
        conv => rhs; rw [(Lay.at_index h).1]
        simp [stripHash_append, stripHash, ih]
      · simp only [setChild, h, stripComments]
        rw [(Lay.at_index h).2]
        conv => rhs; rw [(Lay.at_index h).1]
        simp [stripArray_append, stripArray, ih]
    · rfl

/-- **C77** Two texts whose documents differ in a comment only are deserialized alike, whatever the type is: to the same value or with an error for both. -/
theorem C77_read (T : CharTables) (Γ : Nat → Ty) (n : Nat) (ty : Ty) {d x x' l} {f : Yaml → Yaml} (hf : (∃ i cm, f = setComment i cm) ∨ ∃ i cm, f = addComment i cm)
    (h : parseYamlFile T x = .ok d) (h' : parseYamlFile T x' = .ok (onTrees (changeNode f l) d)) :
    fromYamlStr T Γ n ty x' = fromYamlStr T Γ n ty x := by
  have hstrip : ∀ y, stripComments (changeNode f l y) = stripComments y := by
    apply strip_changeNode
    rcases hf with ⟨i, cm, rfl⟩ | ⟨i, cm, rfl⟩
    · exact strip_setComment i cm
    · exact strip_addComment i cm
  obtain ⟨root, hr, e⟩ := (C47_text T Γ n ty x).1 d h
  obtain ⟨root', hr', e'⟩ := (C47_text T Γ n ty x').1 _ h'
  have : root' = changeNode f l root := by
    have : yamlItems (onTrees (changeNode f l) d) = (yamlItems d).map (changeNode f l) := by
      simp only [yamlItems, onTrees, List.filterMap_map, List.map_filterMap]
      congr 1
      funext i
      cases i <;> rfl
    rw [this, hr] at hr'
    simpa using hr'.symm
  rw [e, e', this, ← C45_comments_invisible Γ n ty (changeNode f l root), hstrip, C45_comments_invisible]

/-! ## a text that meets the hypotheses -/

/-- The comment on the line of `b[0].k`. -/
example : ∃ A B, layoutText = A ++ '#' :: c!" e" ++ B ∧ ∀ cm', LineText cm' →
    parseYamlFile asciiTables (A ++ '#' :: cm' ++ B) = .ok (onTrees (changeNode (setComment 1 cm') [1, 2]) layoutDocument) :=
  C77_replace asciiTables layoutText_shows layoutRoot_mem (l := [1, 2]) (p := .hash layoutFirst) rfl rfl

/-- A comment line before `c`, after a sequence of sequences. -/
example : ∃ A c B, layoutText = A ++ '\n' :: (pad c ++ c!"c" ++ B) ∧ ∀ m cm nl, m ≤ c → LineText cm → Break nl →
    parseYamlFile asciiTables (A ++ '\n' :: (pad m ++ '#' :: cm ++ nl) ++ (pad c ++ c!"c" ++ B)) = .ok (onTrees (changeNode (addComment 2 cm) []) layoutDocument) :=
  C77_add_in_mapping asciiTables layoutText_shows layoutRoot_mem (l := []) (ds := layoutRoot) rfl (i := 2) rfl ⟨_, List.mem_cons_self ..⟩

/-- A comment line before the third element of `b[1]`, after another comment. -/
example : ∃ A c B, layoutText = A ++ '\n' :: (pad c ++ '-' :: B) ∧ ∀ m cm nl, m ≤ c → LineText cm → Break nl →
    parseYamlFile asciiTables (A ++ '\n' :: (pad m ++ '#' :: cm ++ nl) ++ (pad c ++ '-' :: B)) = .ok (onTrees (changeNode (addComment 3 cm) [1, 3]) layoutDocument) :=
  C77_add_in_sequence asciiTables layoutText_shows layoutRoot_mem (l := [1, 3]) rfl (i := 3) rfl (by decide)

example : ∃ A B, layoutText = A ++ '#' :: c!" end" ++ B ∧ ∀ cm', LineText cm' →
    parseYamlFile asciiTables (A ++ '#' :: cm' ++ B) = .ok ⟨[c!" top"], [.comment c!" pre", .yaml (.hash layoutRoot), .comment cm']⟩ :=
  C77_replace_outside asciiTables layoutText_shows (before := [.comment c!" pre", .yaml (.hash layoutRoot)]) (after := []) rfl

example : ∃ A B, layoutText = A ++ '#' :: c!" top" ++ B ∧ ∀ cm', LineText cm' → parseYamlFile asciiTables (A ++ '#' :: cm' ++ B) = .ok ⟨[cm'], layoutDocument.items⟩ :=
  C77_replace_leading asciiTables layoutText_shows (before := []) (after := []) rfl

example (Γ : Nat → Ty) (n : Nat) (ty : Ty) : ∃ A B, layoutText = A ++ '#' :: c!" e" ++ B ∧ ∀ cm', LineText cm' →
    fromYamlStr asciiTables Γ n ty (A ++ '#' :: cm' ++ B) = fromYamlStr asciiTables Γ n ty layoutText := by
  obtain ⟨A, B, hx, h⟩ := C77_replace asciiTables layoutText_shows layoutRoot_mem (l := [1, 2]) (p := .hash layoutFirst) (i := 1) rfl rfl
  exact ⟨A, B, hx, fun cm' hc => C77_read asciiTables Γ n ty (.inl ⟨1, cm', rfl⟩) (C53_every_layout_parses _ _ _ layoutText_shows) (h cm' hc)⟩

/-- Between the first two elements of an inner sequence no comment line is possible. -/
example : parseYamlFile asciiTables c!"---\n- - x\n  - y\n" = .ok (docOf (.array [elem (.array [elem (.unquotedString c!"x"), elem (.unquotedString c!"y")])])) ∧
    ∀ d, parseYamlFile asciiTables c!"---\n- - x\n  # c\n  - y\n" ≠ .ok d := by
  refine ⟨by kernel_rfl, fun d h => ?_⟩
  have : parseYamlFile asciiTables c!"---\n- - x\n  # c\n  - y\n" = .err := by kernel_rfl
  rw [this] at h
  cases h

end YamlSubset
