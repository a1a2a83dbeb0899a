import Verif.Lemmas.FormatText
import Verif.Props.EditText
import Verif.Props.Append
import Verif.Props.Place
import Verif.Props.MoveLines

/-! # C79: files that the library has written can be edited by hand

`DocumentText` (Spec/Written.lean) describes the texts that show a document, in any layout; properties C73–C78 are about editing such texts. Here it is shown
that the formatter writes such a text. -/

namespace YamlSubset

open Spec

variable {T : CharTables}

/-- **C79** The formatted text of a readable document is one of the texts that show the document, if no plain scalar in a block collection ends with a colon. -/
theorem C79_format_is_a_layout (T : CharTables) (d : Document) (h : ReadableDocument T d)
    (hc : ∀ y s, DocumentData.yaml y ∈ d.items → InBlock (.unquotedString s) y → s.getLast? ≠ some ':') : DocumentText T d d.format :=
  Fmt.document_shown h fun y hy z hz => by
    cases z with
    | unquotedString s => exact hc y s hy hz
    | _ => trivial

/-- **C79** The same for the formatted text with a line break at its end, as editors add it: it is read as the same document. -/
theorem C79_final_line_break (T : CharTables) (d : Document) (h : ReadableDocument T d)
    (hc : ∀ y s, DocumentData.yaml y ∈ d.items → InBlock (.unquotedString s) y → s.getLast? ≠ some ':') :
    DocumentText T d (d.format ++ ['\n']) ∧ parseYamlFile T (d.format ++ ['\n']) = .ok d := by
  have := Fmt.document_line h fun y hy z hz => by
    cases z with
    | unquotedString s => exact hc y s hy hz
    | _ => trivial
  exact ⟨this, C53_every_layout_parses T _ _ this⟩

namespace Fmt

theorem entries_member {P next ds} (h : Entries T P next ds) {k a v} (hm : HashData.element ⟨k, ⟨a, v⟩⟩ ∈ ds) :
    (∃ p o n, P p o n v) ∨ OneLine T v ∧ Commentable v := by
  induction h with
  | comment hc h ih => exact ih (by simpa using hm)
  | last hk ha hv => simp at hm; obtain ⟨rfl, rfl, rfl⟩ := hm; exact .inl ⟨_, _, _, hv⟩
  | lastComment hk ha hv hv' => simp at hm; obtain ⟨rfl, rfl, rfl⟩ := hm; exact .inr ⟨hv, hv'⟩
  | entry hk ha hv h ih =>
    rcases List.mem_cons.1 hm with hm | hm
    · cases hm; exact .inl ⟨_, _, _, hv⟩
    · exact ih hm
  | entryComment hk ha hv hv' hc h ih =>
    rcases List.mem_cons.1 hm with hm | hm
    · cases hm; exact .inr ⟨hv, hv'⟩
    · exact ih (by simpa using hm)

theorem elements_member {P next ds} (h : Elements T P next ds) {a v} (hm : ArrayData.element ⟨a, v⟩ ∈ ds) :
    (∃ p o n, P p o n v) ∨ OneLine T v ∧ Commentable v := by
  induction h with
  | comment hc h ih => exact ih (by simpa using hm)
  | last ha hv => simp at hm; obtain ⟨rfl, rfl⟩ := hm; exact .inl ⟨_, _, _, hv⟩
  | lastComment ha hv hv' => simp at hm; obtain ⟨rfl, rfl⟩ := hm; exact .inr ⟨hv, hv'⟩
  | element ha hv h ih =>
    rcases List.mem_cons.1 hm with hm | hm
    · cases hm; exact .inl ⟨_, _, _, hv⟩
    · exact ih hm
  | elementComment ha hv hv' hc h ih =>
    rcases List.mem_cons.1 hm with hm | hm
    · cases hm; exact .inr ⟨hv, hv'⟩
    · exact ih (by simpa using hm)

theorem oneLine_inBlock {y z : Yaml} (h : OneLine T y) (hc : Commentable y) (hz : InBlock z y) : Commentable z := by
  cases hz with
  | here => exact hc
  | hash hm hz => cases h
  | array hm hz => cases h

theorem tidy_inBlock (y : Yaml) : ∀ sp n, Tidy T sp n y → ∀ z, InBlock z y → Commentable z := by
  induction y using childRec with
  | h y ih =>
    intro sp n h z hz
    have key : ∀ {v}, Child v y → ((∃ sp n, Tidy T sp n v) ∨ OneLine T v ∧ Commentable v) → InBlock z v → Commentable z := by
      rintro v hv (⟨sp, n, h⟩ | ⟨h, h'⟩) hz
      · exact ih v hv sp n h z hz
      · exact oneLine_inBlock h h' hz
    cases hz with
    | here =>
      cases h with
      | oneLine h h' => exact h'
      | _ => trivial
    | @hash ds k a v hm hz =>
      refine key (.hash hm) ?_ hz
      cases h with
      | oneLine h => cases h
      | hash hs h => exact (entries_member h hm).imp (fun ⟨_, _, _, h⟩ => ⟨_, _, h⟩) id
      | hereOne hs hk ha hv => simp at hm; obtain ⟨rfl, rfl, rfl⟩ := hm; exact .inl ⟨_, _, hv⟩
      | hereOneComment hs hk ha hv hv' => simp at hm; obtain ⟨rfl, rfl, rfl⟩ := hm; exact .inr ⟨hv, hv'⟩
      | hereMore hs hk ha hv h =>
        rcases List.mem_cons.1 hm with hm | hm
        · cases hm; exact .inl ⟨_, _, hv⟩
        · exact (entries_member h hm).imp (fun ⟨_, _, _, h⟩ => ⟨_, _, h⟩) id
      | hereMoreComment hs hk ha hv hv' hc h =>
        rcases List.mem_cons.1 hm with hm | hm
        · cases hm; exact .inr ⟨hv, hv'⟩
        · exact (entries_member h (by simpa using hm)).imp (fun ⟨_, _, _, h⟩ => ⟨_, _, h⟩) id
    | @array ds a v hm hz =>
      refine key (.array hm) ?_ hz
      cases h with
      | oneLine h => cases h
      | array hs h => exact (elements_member h hm).imp (fun ⟨_, _, _, h⟩ => ⟨_, _, h⟩) id

theorem tidyRoot_inBlock {y z : Yaml} (h : TidyRoot T y) (hz : InBlock z y) : Commentable z := by
  cases h with
  | hash h =>
    cases hz with
    | here => trivial
    | hash hm hz =>
      rcases entries_member h hm with ⟨_, _, _, h⟩ | ⟨h, h'⟩
      · exact tidy_inBlock _ _ _ h _ hz
      · exact oneLine_inBlock h h' hz
  | array h =>
    cases hz with
    | here => trivial
    | array hm hz =>
      rcases elements_member h hm with ⟨_, _, _, h⟩ | ⟨h, h'⟩
      · exact tidy_inBlock _ _ _ h _ hz
      · exact oneLine_inBlock h h' hz

end Fmt

/-- **C79** For tidy documents (which edits do not leave, C55) there is no other condition. -/
theorem C79_tidy_is_a_layout (T : CharTables) (d : Document) (h : TidyDocument T d) : DocumentText T d d.format := by
  refine Fmt.document_shown h.readable fun y hy z hz => ?_
  obtain ⟨-, pre, post, root, hi, -, hr⟩ := h
  rw [hi] at hy
  obtain rfl : y = root := by simpa using hy
  exact Fmt.tidyRoot_inBlock hr hz

/-- **C79** A tidy document is edited by the library (an entry is inserted or overwritten), formatted, and then a value in the file is replaced by hand, at any place: the file is read as the edited
document with this value. -/
theorem C79_insert_then_replace (T : CharTables) (d : Document) (path : YamlPath) (w : AliasedYaml) (o : Bool) (hd : TidyDocument T d)
    (hk : ∀ k, lastKey path = some k → KeyText T k) (hw : Insertable T o w) {root l p i a y}
    (hr : DocumentData.yaml root ∈ (d.insertIntoHash path w o).2.items) (hp : nodeAt l root = some p) (hv : childAt i p = some ⟨a, y⟩) (hy : OnLine y) :
    ∃ A z B, (d.insertIntoHash path w o).2.format = A ++ z ++ B ∧ ScalarText T y z ∧ ∀ y' z', ScalarText T y' z' →
      parseYamlFile T (A ++ z' ++ B) = .ok (onTrees (changeNode (setChild i ⟨a, y'⟩) l) (d.insertIntoHash path w o).2) :=
  C76_replace_scalar T (C79_tidy_is_a_layout T _ (C55_insert d path w o hd hk hw).1) hr hp hv hy

namespace Fmt

/-- The formatted text and a line break, as the lines of a mapping. -/
theorem mapping_lines {leading pre post : List Str} {ds : List HashData} (h : ReadableDocument T ⟨leading, pre.map .comment ++ [.yaml (.hash ds)] ++ post.map .comment⟩)
    (hc : ∀ z, InBlock z (.hash ds) → Commentable z) :
    MappingLines T leading pre 0 ds post (Document.format ⟨leading, pre.map .comment ++ [.yaml (.hash ds)] ++ post.map .comment⟩ ++ ['\n']) := by
  obtain ⟨hlead, pre', post', root, hi, hcs, hroot⟩ := h
  simp only at hi hlead
  have hsame : pre' = pre ∧ root = .hash ds ∧ post' = post := by
    clear hcs
    induction pre generalizing pre' with
    | nil =>
      cases pre' with
      | nil =>
        simp at hi
        exact ⟨rfl, hi.1.symm, ((List.map_inj_right (fun _ _ h => by simpa using h)).1 hi.2).symm⟩
      | cons c t => simp at hi
    | cons c t ih =>
      cases pre' with
      | nil => simp at hi
      | cons c' t' =>
        simp only [List.map_cons, List.cons_append, List.cons.injEq, DocumentData.comment.injEq] at hi
        obtain ⟨rfl, hi⟩ := hi
        obtain ⟨rfl, h⟩ := ih t' hi
        exact ⟨rfl, h⟩
  obtain ⟨rfl, rfl, rfl⟩ := hsame
  clear hi
  obtain ⟨cl, x, h1, h2, h3⟩ := root_shown hroot hc
  cases h2 with
  | @hash _ _ _ x h2 =>
    have hl : LeadingText leading (leading.flatMap fun l => pad 0 ++ '#' :: (l ++ ['\n'])) := by
      by_cases h0 : leading = []
      · subst h0; exact .nil
      · exact .comments (b := []) .nil h0 (comment_lines 0 hlead)
    have := MappingLines.intro (.intro (n := 0) (nl := ['\n']) (b := []) hl (.inl rfl) .nil (comment_lines 0 (cs := pre') fun l hm => hcs l (by simp [hm]))) h2
      (gap_lines cl 0 (cs := post') fun l hm => hcs l (by simp [hm]))
    have he := pre_shown pre' (x ++ (post'.flatMap fun l => ['\n', '#'] ++ l) ++ ['\n'])
    have he' := pre_shown post' []
    have hf : ∀ l : List Str, (l.map DocumentData.comment).flatMap DocumentData.format = l.flatMap fun l => ['\n', '#'] ++ l := by
      intro l
      simp [List.flatMap_map, DocumentData.format]
    rw [Document.format]
    simp only [List.flatMap_append, hf, List.flatMap_cons, List.flatMap_nil, DocumentData.format, h3]
    simp only [pad, List.replicate_zero, List.append_assoc, List.cons_append, List.nil_append, List.append_nil] at he he' this ⊢
    rw [he, he']
    exact this

end Fmt

/-- **C79** Further entries can be written after a formatted document whose root is a mapping, at the margin of the next line. -/
theorem C79_append_entries (T : CharTables) {leading pre post : List Str} {ds : List HashData} {cl ds' z post' tail}
    (h : ReadableDocument T ⟨leading, pre.map .comment ++ [.yaml (.hash ds)] ++ post.map .comment⟩)
    (hc : ∀ s, InBlock (.unquotedString s) (.hash ds) → s.getLast? ≠ some ':')
    (hz : EntryTexts T (Written T) 0 .none cl ds' z) (ht : Tail cl 0 post' tail) :
    parseYamlFile T (Document.format ⟨leading, pre.map .comment ++ [.yaml (.hash ds)] ++ post.map .comment⟩ ++ '\n' :: z ++ tail) =
      .ok ⟨leading, pre.map .comment ++ [.yaml (.hash (ds ++ post.map .comment ++ ds'))] ++ post'.map .comment⟩ := by
  have := C73_append_at_margin T (Fmt.mapping_lines h fun z hz => by
    cases z with
    | unquotedString s => exact hc s hz
    | _ => trivial) hz ht
  simpa using this

/-! ## The hypotheses hold -/

namespace Fmt

theorem inBlock_hash {z : Yaml} {ds : List HashData} : InBlock z (.hash ds) ↔ z = .hash ds ∨ ∃ d ∈ ds, ∃ k a v, d = .element ⟨k, ⟨a, v⟩⟩ ∧ InBlock z v :=
  ⟨fun h => by
    cases h with
    | here => exact .inl rfl
    | hash hm h => exact .inr ⟨_, hm, _, _, _, rfl, h⟩, fun h => by
    rcases h with rfl | ⟨_, hm, k, a, v, rfl, h⟩
    · exact .here
    · exact .hash hm h⟩

theorem inBlock_array {z : Yaml} {ds : List ArrayData} : InBlock z (.array ds) ↔ z = .array ds ∨ ∃ d ∈ ds, ∃ a v, d = .element ⟨a, v⟩ ∧ InBlock z v :=
  ⟨fun h => by
    cases h with
    | here => exact .inl rfl
    | array hm h => exact .inr ⟨_, hm, _, _, rfl, h⟩, fun h => by
    rcases h with rfl | ⟨_, hm, a, v, rfl, h⟩
    · exact .here
    · exact .array hm h⟩

theorem inBlock_leaf {z y : Yaml} (h1 : ∀ ds, y ≠ .hash ds) (h2 : ∀ ds, y ≠ .array ds) : InBlock z y ↔ z = y :=
  ⟨fun h => by
    cases h with
    | here => rfl
    | hash => exact absurd rfl (h1 _)
    | array => exact absurd rfl (h2 _), fun h => h ▸ .here⟩

end Fmt

/-- A tidy document with comments, an anchor and a block scalar: its formatted text shows it. -/
example : tidyDoc.format = c!"# top\n---\nbase: &b\n  x: 1 # one\n  # two\n  y: 2\nlist:\n  - name: first\n    text: |\n      abc\n  - *b" ∧
    DocumentText asciiTables tidyDoc tidyDoc.format :=
  ⟨by decide +kernel, C79_tidy_is_a_layout _ _ tidyDoc_tidy⟩

/-- The same for a readable document that is not tidy. -/
example : DocumentText asciiTables exampleDocument exampleDocument.format := by
  refine C79_format_is_a_layout _ _ exampleDocument_readable fun y s hy hs => ?_
  simp only [exampleDocument, List.mem_cons, reduceCtorEq, DocumentData.yaml.injEq, List.not_mem_nil, or_false, false_or] at hy
  subst hy
  simp [Fmt.inBlock_hash, Fmt.inBlock_array, Fmt.inBlock_leaf, and_assoc, kv, elem] at hs
  rcases hs with (rfl | rfl) | rfl | rfl <;> decide

/-- A line with an entry after the formatted text of a mapping. -/
example : Document.format ⟨[], ([] : List Str).map .comment ++ [.yaml (.hash [kv c!"a" (.hash [kv c!"b" (plain c!"1")])])] ++ [c!" end"].map .comment⟩ =
      c!"---\na:\n  b: 1\n# end" ∧
    parseYamlFile asciiTables c!"---\na:\n  b: 1\n# end\nc: 2\n" =
      .ok ⟨[], [.yaml (.hash [kv c!"a" (.hash [kv c!"b" (plain c!"1")]), .comment c!" end", kv c!"c" (plain c!"2")])]⟩ := by
  have hk : ∀ {k : Str}, _ → KeyText asciiTables k := fun h => keyText_of (k := _) h
  have hf : Document.format ⟨[], ([] : List Str).map .comment ++ [.yaml (.hash [kv c!"a" (.hash [kv c!"b" (plain c!"1")])])] ++ [c!" end"].map .comment⟩ =
      c!"---\na:\n  b: 1\n# end" := by decide +kernel
  refine ⟨hf, ?_⟩
  have := C79_append_entries asciiTables (leading := []) (pre := []) (post := [c!" end"]) (ds := [kv c!"a" (.hash [kv c!"b" (plain c!"1")])])
    (ds' := [kv c!"c" (plain c!"2")]) (z := c!"c: 2") (post' := []) (tail := c!"\n") ?_ ?_
    (.last (n := 0) (post := []) (hk (by decide)) (.value (.scalar (.plain (n := 0)) (.plain (blockPlain_simple (by decide)) (by decide)))))
    (.lines (n := 0) (Gap.intro (n := 0) (.inl rfl) .nil .nil (by simp) (by simp [Closing.tight])) (by simp))
  · rw [hf] at this
    simpa using this
  · exact ⟨by decide, [], [c!" end"], _, rfl, by decide, .hash (.last (hk (by decide)) no_name (.hash (.last (hk (by decide)) no_name (.oneLine (.plain (blockPlain_simple (by decide)))))))⟩
  · intro s hs
    simp [Fmt.inBlock_hash, Fmt.inBlock_leaf, and_assoc, kv] at hs
    subst hs
    decide

/-- **C79** A scalar that ends with a colon can be written and read back, but the text is not to be edited: with a space at the end of the line it is rejected. -/
theorem C79_counterexample_colon :
    Document.format (docOf (.hash [kv c!"a" (plain c!"+:")])) = c!"---\na: +:" ∧
    parseYamlFile asciiTables c!"---\na: +:" = .ok (docOf (.hash [kv c!"a" (plain c!"+:")])) ∧
    parseYamlFile asciiTables c!"---\na: +: " = .err :=
  ⟨by decide +kernel, by kernel_rfl, by kernel_rfl⟩

end YamlSubset
