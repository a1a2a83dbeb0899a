import Verif.Props.Append

/-! # C74: editing the lines of an entry and editing the document

A user can edit a file by hand or with the library. The theorems say that deleting the line of an entry, giving it another value and
giving it another key do the same as the operations on the document. The root is a mapping that is not indented; the entry can be
anywhere in it, and any values, comments and blank lines can be around it. -/

namespace YamlSubset

open Spec

variable {T : CharTables}

namespace Lay

/-- Another line without indentation may follow. -/
theorem entries_margin {cl ds x} (h : EntryTexts T (Written T) 0 .none cl ds x) : EntryTexts T (Written T) 0 (.key 0) cl ds x :=
  entries_next h rfl fun pre k v post hd cl x hv => by
    obtain ⟨a, y⟩ := v
    exact written_next (.key 0) y a _ _ _ _ _ hv (by simp) (closed_margin ds pre k _ post hd)

theorem lines_then {ds a cl ds' c} (h : EntryLines T ds a) (h' : EntryTexts T (Written T) 0 .none cl ds' c) :
    EntryTexts T (Written T) 0 .none cl (ds ++ ds') (a ++ c) := by
  induction h with
  | nil => exact h'
  | lines h hg _ ih =>
    have := entries_append (entries_margin h) rfl hg ih
    simpa [pad, List.append_assoc] using this

end Lay

/-- **C74** Lines with entries, one after another, are read as these entries. -/
theorem C74_read (T : CharTables) {leading pre head ds a cl ds' c post tail} (hh : HeadText leading pre head) (ha : EntryLines T ds a)
    (hc : EntryTexts T (Written T) 0 .none cl ds' c) (ht : Tail cl 0 post tail) :
    parseYamlFile T (head ++ a ++ c ++ tail) = .ok ⟨leading, pre.map .comment ++ [.yaml (.hash (ds ++ ds'))] ++ post.map .comment⟩ := by
  cases hh with
  | @intro _ n _ _ _ hl hn hb hp =>
    refine C53_every_layout_parses _ _ _ ?_
    have := DocumentText.intro (n := n) hl hn hb hp (.hash (Lay.lines_then ha hc)) ht
    simpa [pad, List.append_assoc] using this

/-- **C74** The line of an entry with lines before and after it. -/
theorem C74_read_entry (T : CharTables) {leading pre head ds a cl e x ds' post rest} (hh : HeadText leading pre head) (ha : EntryLines T ds a)
    (he : EntryTexts T (Written T) 0 .none cl [.element e] x) (hr : RestText T cl ds' post rest) :
    parseYamlFile T (head ++ a ++ x ++ rest) = .ok ⟨leading, pre.map .comment ++ [.yaml (.hash (ds ++ .element e :: ds'))] ++ post.map .comment⟩ := by
  cases hr with
  | last ht => simpa using C74_read T hh ha he ht
  | more hg h ht =>
    have := C74_read T hh ha (Lay.entries_append (Lay.entries_margin he) rfl hg h) ht
    simpa [pad, List.append_assoc] using this

/-! ## the operations -/

/-- The first entry with the key. -/
theorem keyIndex_first {k : Str} {ds ds' : List HashData} {v : AliasedYaml} (hk : ∀ w, HashData.element ⟨k, w⟩ ∉ ds) :
    Yaml.keyIndex k (.hash (ds ++ .element ⟨k, v⟩ :: ds')) = some ds.length := by
  simp only [Yaml.keyIndex]
  induction ds with
  | nil => simp [List.findIdx?_cons, HashData.hasKey]
  | cons d ds ih =>
    have hd : HashData.hasKey k d = false := by
      cases d with
      | element e =>
        obtain ⟨k', w⟩ := e
        simp only [HashData.hasKey, beq_eq_false_iff_ne]
        rintro rfl
        exact hk w (by simp)
      | _ => rfl
    simp [List.findIdx?_cons, hd, ih fun w hw => hk w (by simp [hw])]

/-- An operation on a document with one tree. -/
theorem overItems_root {g : Yaml → Nat × Yaml} {leading pre post : List Str} {y : Yaml} :
    (Document.mk leading (pre.map .comment ++ [.yaml y] ++ post.map .comment)).overItems g =
      ((g y).1, ⟨leading, pre.map .comment ++ [.yaml (g y).2] ++ post.map .comment⟩) := by
  have tail : ∀ (post : List Str) (c : Nat), Document.overItems.go g c (post.map .comment) = (c, post.map .comment) := by
    intro post
    induction post with
    | nil => intro c; rfl
    | cons s post ih => intro c; simp only [List.map_cons, Document.overItems.go, ih]; rfl
  have go : ∀ (pre : List Str) (c : Nat), Document.overItems.go g c (pre.map .comment ++ [.yaml y] ++ post.map .comment) =
      (c + (g y).1, pre.map .comment ++ [.yaml (g y).2] ++ post.map .comment) := by
    intro pre
    induction pre with
    | nil => intro c; simp only [List.map_nil, List.nil_append, List.cons_append, Document.overItems.go, tail]; rfl
    | cons s pre ih => intro c; simp only [List.map_cons, List.cons_append, Document.overItems.go, ih]; rfl
  simp only [Document.overItems, go]
  simp [Additive.zero]

theorem overwrite_entry {k : Str} {v v' : AliasedYaml} {ds ds' : List HashData} (hk : ∀ w, HashData.element ⟨k, w⟩ ∉ ds) :
    Yaml.insertIntoHash (.key k [] none) v' true (.hash (ds ++ .element ⟨k, v⟩ :: ds')) = (1, .hash (ds ++ .element ⟨k, v'⟩ :: ds')) := by
  simp [Yaml.insertIntoHash, Yaml.editHash, Yaml.fitsConditions, keyIndex_first hk, insertClosure]

theorem remove_entry {k : Str} {v : AliasedYaml} {ds ds' : List HashData} (hk : ∀ w, HashData.element ⟨k, w⟩ ∉ ds) :
    Yaml.removeFromHash (.key k [] none) (.hash (ds ++ .element ⟨k, v⟩ :: ds')) = (1, .hash (ds ++ ds')) := by
  simp [Yaml.removeFromHash, Yaml.editHash, Yaml.fitsConditions, keyIndex_first hk, removeClosure, List.eraseIdx_append_of_length_le]

theorem rename_entry {k k' : Str} {v : AliasedYaml} {ds ds' : List HashData} (hk : ∀ w, HashData.element ⟨k, w⟩ ∉ ds) :
    Yaml.renameField (.key k [] none) k' (.hash (ds ++ .element ⟨k, v⟩ :: ds')) = (1, .hash (ds ++ .element ⟨k', v⟩ :: ds')) := by
  simp [Yaml.renameField, Yaml.forHash, forKey, Yaml.fitsConditions, keyIndex_first hk]

theorem wrap_entry {k o : Str} {v : AliasedYaml} {ds ds' : List HashData} (hk : ∀ w, HashData.element ⟨k, w⟩ ∉ ds) :
    Yaml.toObject (.key k [] none) o (.hash (ds ++ .element ⟨k, v⟩ :: ds')) =
      (1, .hash (ds ++ .element ⟨k, ⟨none, .hash [.element ⟨o, v⟩]⟩⟩ :: ds')) := by
  simp [Yaml.toObject, Yaml.forHash, forKey, Yaml.fitsConditions, keyIndex_first hk]

/-- **C74** Writing another value at an entry does the same as inserting the value at its key, overwriting. -/
theorem C74_replace_value (T : CharTables) {leading pre head ds a cl cl' k v v' x x' ds' post rest rest'} (hh : HeadText leading pre head) (ha : EntryLines T ds a)
    (hk : ∀ w, HashData.element ⟨k, w⟩ ∉ ds) (he : EntryTexts T (Written T) 0 .none cl [.element ⟨k, v⟩] x) (hr : RestText T cl ds' post rest)
    (he' : EntryTexts T (Written T) 0 .none cl' [.element ⟨k, v'⟩] x') (hr' : RestText T cl' ds' post rest') :
    ∀ d, parseYamlFile T (head ++ a ++ x ++ rest) = .ok d →
      parseYamlFile T (head ++ a ++ x' ++ rest') = .ok (d.insertIntoHash (.key k [] none) v' true).2 := by
  intro d hd
  rw [C74_read_entry T hh ha he hr] at hd
  injection hd with hd
  rw [C74_read_entry T hh ha he' hr', ← hd, Document.insertIntoHash, overItems_root, overwrite_entry hk]

/-- **C74** Writing another key at an entry does the same as renaming the field. -/
theorem C74_replace_key (T : CharTables) {leading pre head ds a cl cl' k k' v x x' ds' post rest rest'} (hh : HeadText leading pre head) (ha : EntryLines T ds a)
    (hk : ∀ w, HashData.element ⟨k, w⟩ ∉ ds) (he : EntryTexts T (Written T) 0 .none cl [.element ⟨k, v⟩] x) (hr : RestText T cl ds' post rest)
    (he' : EntryTexts T (Written T) 0 .none cl' [.element ⟨k', v⟩] x') (hr' : RestText T cl' ds' post rest') :
    ∀ d, parseYamlFile T (head ++ a ++ x ++ rest) = .ok d →
      parseYamlFile T (head ++ a ++ x' ++ rest') = .ok (d.renameField (.key k [] none) k').2 := by
  intro d hd
  rw [C74_read_entry T hh ha he hr] at hd
  injection hd with hd
  rw [C74_read_entry T hh ha he' hr', ← hd, Document.renameField, overItems_root, rename_entry hk]

/-- **C74** Writing a mapping with the old value at an entry does the same as wrapping the value. -/
theorem C74_wrap_value (T : CharTables) {leading pre head ds a cl cl' k o v x x' ds' post rest rest'} (hh : HeadText leading pre head) (ha : EntryLines T ds a)
    (hk : ∀ w, HashData.element ⟨k, w⟩ ∉ ds) (he : EntryTexts T (Written T) 0 .none cl [.element ⟨k, v⟩] x) (hr : RestText T cl ds' post rest)
    (he' : EntryTexts T (Written T) 0 .none cl' [.element ⟨k, ⟨none, .hash [.element ⟨o, v⟩]⟩⟩] x') (hr' : RestText T cl' ds' post rest') :
    ∀ d, parseYamlFile T (head ++ a ++ x ++ rest) = .ok d →
      parseYamlFile T (head ++ a ++ x' ++ rest') = .ok (d.toObject (.key k [] none) o).2 := by
  intro d hd
  rw [C74_read_entry T hh ha he hr] at hd
  injection hd with hd
  rw [C74_read_entry T hh ha he' hr', ← hd, Document.toObject, overItems_root, wrap_entry hk]

/-- **C74** Deleting the lines of an entry, up to the next entry, does the same as removing its key. -/
theorem C74_delete_entry (T : CharTables) {leading pre head ds a cl cl' k v x g ds' y post tail} (hh : HeadText leading pre head) (ha : EntryLines T ds a)
    (hk : ∀ w, HashData.element ⟨k, w⟩ ∉ ds) (he : EntryTexts T (Written T) 0 .none cl [.element ⟨k, v⟩] x) (hg : Gap cl 0 [] g)
    (hy : EntryTexts T (Written T) 0 .none cl' ds' y) (ht : Tail cl' 0 post tail) :
    ∀ d, parseYamlFile T (head ++ a ++ x ++ g ++ y ++ tail) = .ok d →
      parseYamlFile T (head ++ a ++ y ++ tail) = .ok (d.removeFromHash (.key k [] none)).2 := by
  intro d hd
  have h1 := C74_read_entry T hh ha he (.more hg hy ht)
  simp only [List.append_assoc] at h1 hd
  rw [h1] at hd
  injection hd with hd
  rw [C74_read T hh ha hy ht, ← hd, Document.removeFromHash]
  simp only [List.map_nil, List.nil_append, ← List.append_assoc]
  rw [overItems_root, remove_entry hk]

/-- **C74** The same for the last entry, if there are no comments before it. -/
theorem C74_delete_last (T : CharTables) {leading pre ds a cl k v x post tail} (ha : MappingLines T leading pre 0 ds [] a)
    (hk : ∀ w, HashData.element ⟨k, w⟩ ∉ ds) (he : EntryTexts T (Written T) 0 .none cl [.element ⟨k, v⟩] x) (ht : Tail cl 0 post tail) :
    ∀ d, parseYamlFile T (a ++ x ++ tail) = .ok d → ∃ d', parseYamlFile T a = .ok d' ∧
      (d.removeFromHash (.key k [] none)).2 = ⟨d'.leadingComments, d'.items ++ post.map .comment⟩ := by
  intro d hd
  have h1 := C73_append_at_margin T ha he ht
  rw [h1] at hd
  injection hd with hd
  refine ⟨_, C73_mapping_before T ha, ?_⟩
  have := remove_entry (v := v) (ds' := []) hk
  rw [← hd, Document.removeFromHash, overItems_root]
  simp only [List.map_nil, List.append_nil] at this ⊢
  rw [this]

/-! ## a text that meets the hypotheses -/

/-- The line of `b` is edited, with a literal block scalar before it and a comment after it. -/
theorem edit_middle : ∀ d, parseYamlFile asciiTables c!"---\na: |\n  text\nb: 1\n# note\nc: 3\n" = .ok d →
    parseYamlFile asciiTables c!"---\na: |\n  text\nb: [2, x]\n# note\nc: 3\n" =
      .ok (d.insertIntoHash (.key c!"b" [] none) ⟨none, .inlineArray [.unquotedString c!"2", .unquotedString c!"x"]⟩ true).2 ∧
    parseYamlFile asciiTables c!"---\na: |\n  text\nz: 1\n# note\nc: 3\n" = .ok (d.renameField (.key c!"b" [] none) c!"z").2 := by
  have nl : Break ['\n'] := .inl rfl
  have hp : ∀ {s : Str} (_ : _) (_ : s.getLast? ≠ some ':'), ScalarText asciiTables (.unquotedString s) s := fun h hl => .plain (blockPlain_simple h) hl
  have hh : HeadText [] [] c!"---\n" := .intro (n := 0) .nil nl .nil .nil
  have h0 : EntryTexts asciiTables (Written asciiTables) 0 .none .scalar [kv c!"a" (.literalString [c!"text"] .clip)] c!"a: |\n  text" :=
    .last (n := 0) (post := []) (keyText_of (by decide)) (.value (Written.literal (.plain (n := 0))
      (.plain (m := 0) (d := 1) (chomping := .clip) nl (by decide) ⟨'t', c!"ext", rfl, by decide⟩ .nil)))
  have ha : EntryLines asciiTables [kv c!"a" (.literalString [c!"text"] .clip)] c!"a: |\n  text\n" :=
    .lines (cs := []) (g := ['\n']) h0 (.intro (n := 0) nl .nil .nil (by simp) (fun _ => ⟨rfl, fun m y h => by cases m <;> simp [pad, List.replicate_succ] at h⟩)) .nil
  have entry : ∀ {k s : Str} {y : Yaml}, KeyText asciiTables k → ScalarText asciiTables y s →
      EntryTexts asciiTables (Written asciiTables) 0 .none .loose [.element ⟨k, ⟨none, y⟩⟩] (k ++ ':' :: ' ' :: s) := fun hk hy => by
    simpa [pad] using EntryTexts.last (n := 0) (post := []) hk (.value (Written.scalar (.plain (n := 0)) hy))
  have hr : RestText asciiTables .loose [.comment c!" note", kv c!"c" (.unquotedString c!"3")] [] c!"\n# note\nc: 3\n" :=
    .more (cs := [c!" note"]) (cl' := .loose) (g := c!"\n# note\n") (x := c!"c: 3") (tail := ['\n'])
      (.intro (n := 0) nl .nil (.line (m := 0) (by decide) nl .nil .nil) (by simp) (by simp [Closing.tight]))
      (entry (keyText_of (by decide)) (hp (by decide) (by decide)))
      (.lines (n := 0) (.intro (n := 0) nl .nil .nil (by simp) (by simp [Closing.tight])) (by simp))
  have hflow : FlowText asciiTables (.inlineArray [.unquotedString c!"2", .unquotedString c!"x"]) c!"[2, x]" :=
    .array (.more (w := []) (w' := []) (by simp [Ws]) (.plain (flowPlain_simple (by decide))) (by simp [Ws])
      (.last (w := c!" ") (w' := []) (by simp [Ws]) (.plain (flowPlain_simple (by decide))) (by simp [Ws])))
  have hb := entry (k := c!"b") (s := c!"1") (keyText_of (by decide)) (hp (by decide) (by decide))
  intro d hd
  have h1 := C74_replace_value asciiTables hh ha (k := c!"b") (by simp [kv]) hb hr (entry (keyText_of (by decide)) (.flow (by simp) hflow)) hr d hd
  have h2 := C74_replace_key asciiTables hh ha (k := c!"b") (by simp [kv]) hb hr (entry (k := c!"z") (keyText_of (by decide)) (hp (by decide) (by decide))) hr d hd
  exact ⟨h1, h2⟩

end YamlSubset
